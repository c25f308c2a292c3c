import Verif.Proofs.ExtConds
import Verif.Proofs.FieldInst
/-!
# Properties C14-C18, C52: extension fields

`Ext n q` is `K[X] / (X^n - q)`; `Ext2.Rel R q a x` says that the stored coefficients of `a`, read
through `R`, are those of `x`. `o.Implements R` says that the operations `o` on stored values are those
of the ring `K` (`Spec/FieldImplements.lean`).
-/
namespace Tachyon.Props
open Tachyon

variable {α K : Type*}

/-! ## The prime fields are base fields -/

/-- The Montgomery 32-bit fields implement `ZMod m`, with `FrobeniusMap` the identity. -/
theorem C14_base_mont (m : BitVec 32) (hp : m.toNat.Prime) (hodd : m.toNat % 2 = 1)
    (hm : m.toNat ≤ 2 ^ 31) :
    (SmallField.montOps m).Implements (SmallField.MontRel m) ∧
      ∀ e a, (SmallField.montOps m).frobenius e a = a :=
  ⟨SmallField.montOps_implements m hp hodd hm, fun _ _ => rfl⟩

/-- Mersenne31 implements `ZMod (2^31 - 1)`. -/
theorem C14_base_mersenne31 :
    (SmallField.plainOps SmallField.mersenne31).Implements (SmallField.PlainRel 2147483647) :=
  SmallField.plainOps_implements (c := SmallField.mersenne31) SmallField.mersenne31_reduces
    prime_mersenne31 (by decide) C12_mul_mersenne31

/-- GF7 implements `ZMod 7`. -/
theorem C14_base_gf7 : (SmallField.plainOps SmallField.gf7).Implements (SmallField.PlainRel 7) :=
  SmallField.plainOps_implements (c := SmallField.gf7) SmallField.gf7_reduces (by decide) (by decide)
    C12_mul_gf7

/-- The limb prime field implements `ZMod p` for every odd prime `p`, given a correct inversion. -/
theorem C14_base_limbs {w : ℕ} (hw : 0 < w) (m : BigInt.Limbs w) (hp : (limbsVal m).Prime)
    (hodd : limbsVal m % 2 = 1) {inv : BigInt.Limbs w → Option (BigInt.Limbs w)}
    (hinv : ∀ a, a.length = m.length → limbsVal a < limbsVal m → limbsVal a ≠ 0 →
      ∃ r, inv a = some r ∧ r.length = m.length ∧ limbsVal r < limbsVal m ∧
        PrimeField.mul m a r = PrimeField.one m)
    (hinv0 : ∀ a, a.length = m.length → limbsVal a = 0 → inv a = none) :
    (PrimeField.ops m inv).Implements (PrimeField.Rel m) :=
  PrimeField.ops_implements hw m hp hodd hinv hinv0

/-! ## C14: quadratic extension -/

section Quadratic
variable [CommRing K] [Nontrivial K] {o : FieldOps α} {R : α → K → Prop} {cfg : Ext2Config α} {q : K}

/-- C14: all operations of the quadratic extension are those of `K[X] / (X² - q)`, for either
multiplication routine and either squaring routine; inversion succeeds exactly on units. -/
theorem C14_quadratic (h : o.Implements R)
    (hq : ∀ {a x}, R a x → R (cfg.mulByNonResidue a) (q * x))
    (hm : cfg.nonResidueIsMinusOne = true → q = -1) :
    (Ext2.ops o cfg).Implements (Ext2.Rel R q) :=
  Ext2.implements h hq hm

omit [Nontrivial K] in
/-- C14: multiplication by a base field element. -/
theorem C14_mulBase (h : o.Implements R) {a : Ext2 α} {x : Ext 2 q} {e : α} {y : K}
    (ha : Ext2.Rel R q a x) (he : R e y) :
    Ext2.Rel R q (Ext2.mulBase o a e) (x * Ext.of 2 q y) := Ext2.mulBase_rel h ha he

/-- C14: `Conjugate` denotes the image of `x` under the automorphism `X ↦ -X`, and `Norm` is the
product of `x` with it, an element of the base field. -/
theorem C14_norm (h : o.Implements R) (hq : ∀ {a x}, R a x → R (cfg.mulByNonResidue a) (q * x))
    {a : Ext2 α} {x : Ext 2 q} (ha : Ext2.Rel R q a x) :
    ∃ (y : Ext 2 q) (n : K), Ext2.Rel R q (Ext2.conjugate o a) y ∧ R (Ext2.norm o cfg a) n ∧
      Ext.of 2 q n = x * y ∧
      ∃ φ : Ext 2 q →+* Ext 2 q, φ (Ext.x 2 q) = -Ext.x 2 q ∧ (∀ c, φ (Ext.of 2 q c) = Ext.of 2 q c) ∧
        φ x = y := by
  obtain ⟨x0, x1, h0, h1, rfl⟩ := id ha
  have hc : Ext2.Rel R q (Ext2.conjugate o a) (Ext.of 2 q x0 + Ext.of 2 q (-x1) * Ext.x 2 q) :=
    ⟨x0, -x1, h0, h.neg h1, rfl⟩
  obtain ⟨n, hn, e⟩ := Ext2.norm_rel h hq ha hc (fun h1 h2 => h.functional h1 h2)
  refine ⟨_, n, hc, hn, e, AdjoinRoot.lift (Ext.of 2 q) (-Ext.x 2 q) ?_, AdjoinRoot.lift_root _,
    fun c => AdjoinRoot.lift_of _, ?_⟩
  · have := Ext.x_pow 2 q
    simp only [Polynomial.eval₂_sub, Polynomial.eval₂_pow, Polynomial.eval₂_X, Polynomial.eval₂_C]
    rw [neg_sq, this, sub_self]
  · rw [map_add, map_mul, AdjoinRoot.lift_of, AdjoinRoot.lift_of, AdjoinRoot.lift_root, map_neg]
    ring

end Quadratic

/-- C14: over a field, with `q` not a square, `Inverse` fails exactly at zero. -/
theorem C14_inverse_none [Field K] {o : FieldOps α} {R : α → K → Prop} {cfg : Ext2Config α} {q : K}
    (h : o.Implements R) (hq : ∀ {a x}, R a x → R (cfg.mulByNonResidue a) (q * x))
    (hm : cfg.nonResidueIsMinusOne = true → q = -1) (hs : ¬ IsSquare q) {a : Ext2 α} {x : Ext 2 q}
    (ha : Ext2.Rel R q a x) : Ext2.inverse o cfg a = none ↔ x = 0 := by
  have h' := Ext2.implements (cfg := cfg) h hq hm
  constructor
  · intro hn
    by_contra hx
    obtain ⟨b, y, e, -, -⟩ := h'.inverse ha (Ext2.isUnit_of_ne_zero hs hx)
    exact absurd (e.symm.trans hn) (by simp)
  · rintro rfl
    have := Ext.nontrivial (n := 2) (by norm_num) q
    exact h'.inverse_none ha not_isUnit_zero

/-! Concrete towers over GF7: `Fp2 = F7(i)`, `Fp4 = Fp2(√(2+i))`. -/

/-- The base operations of the examples. -/
abbrev gf7 : FieldOps (BitVec 32) := SmallField.plainOps SmallField.gf7
/-- `F7(i)`, `i² = -1`. -/
abbrev gf7_2 : FieldOps (Ext2 (BitVec 32)) := Ext2.ops gf7 (fp2Config gf7 gf7.neg true)

-- (3 + 5i)(2 + 6i) = 6 - 30 + 28 i = 4 + 0i, and the inverse of 3 + 5i
example : gf7_2.mul ⟨3#32, 5#32⟩ ⟨2#32, 6#32⟩ = ⟨4#32, 0#32⟩ ∧
    gf7_2.inverse ⟨3#32, 5#32⟩ = some ⟨4#32, 5#32⟩ ∧
    gf7_2.square ⟨3#32, 5#32⟩ = ⟨5#32, 2#32⟩ ∧
    Ext2.norm gf7 (fp2Config gf7 gf7.neg true) ⟨3#32, 5#32⟩ = 6#32 := by decide +kernel

instance : Fact (Nat.Prime 7) := ⟨by decide⟩

-- the hypotheses of `C14_quadratic` and `C14_inverse_none` are met
example : gf7_2.Implements (Ext2.Rel (SmallField.PlainRel 7) (-1)) :=
  C14_quadratic C14_base_gf7 (fun h => by have := C14_base_gf7.neg h; rwa [neg_one_mul]) (fun _ => rfl)
example : ¬ IsSquare (-1 : ZMod 7) := by decide

/-- C14 (disagreement): the Karatsuba branch reads the second factor after it has overwritten the
result, so the aliased product `x *= x` of a tower (`ExtensionDegree() != 2`) is not `x * x`. -/
theorem C14_aliased_mul_wrong :
    ∃ a : Ext2 (Ext2 (BitVec 32)), gf7_2.eq
      (Ext2.mulKaratsubaAliased gf7_2 (fp4Config gf7 (fun v => gf7_2.mul v ⟨2#32, 1#32⟩) false 6#32 7 1) a).c1
      (Ext2.mul gf7_2 (fp4Config gf7 (fun v => gf7_2.mul v ⟨2#32, 1#32⟩) false 6#32 7 1) a a).c1 = false :=
  ⟨⟨⟨1#32, 0#32⟩, ⟨1#32, 0#32⟩⟩, by decide +kernel⟩

/-! ## C15: cubic extension -/

section Cubic
variable [CommRing K] [Nontrivial K] {o : FieldOps α} {R : α → K → Prop} {cfg : Ext3Config α} {q : K}

/-- C15: all operations of the cubic extension are those of `K[X] / (X³ - q)`. -/
theorem C15_cubic (h : o.Implements R) (hq : ∀ {a x}, R a x → R (cfg.mulByNonResidue a) (q * x)) :
    (Ext3.ops o cfg).Implements (Ext3.Rel R q) :=
  Ext3.implements h hq

omit [Nontrivial K] in
/-- C15: multiplication by a base field element. -/
theorem C15_mulBase (h : o.Implements R) {a : Ext3 α} {x : Ext 3 q} {e : α} {y : K}
    (ha : Ext3.Rel R q a x) (he : R e y) :
    Ext3.Rel R q (Ext3.mulBase o a e) (x * Ext.of 3 q y) := Ext3.mulBase_rel h ha he

end Cubic

/-- C15: over a field, with `q` not a cube, `Inverse` fails exactly at zero. -/
theorem C15_inverse_none [Field K] {o : FieldOps α} {R : α → K → Prop} {cfg : Ext3Config α} {q : K}
    (h : o.Implements R) (hq : ∀ {a x}, R a x → R (cfg.mulByNonResidue a) (q * x))
    (hs : ∀ b, b ^ 3 ≠ q) {a : Ext3 α} {x : Ext 3 q}
    (ha : Ext3.Rel R q a x) : Ext3.inverse o cfg a = none ↔ x = 0 := by
  have h' := Ext3.implements (cfg := cfg) h hq
  constructor
  · intro hn
    by_contra hx
    obtain ⟨b, y, e, -, -⟩ := h'.inverse ha (Ext3.isUnit_of_ne_zero hs hx)
    exact absurd (e.symm.trans hn) (by simp)
  · rintro rfl
    have := Ext.nontrivial (n := 3) (by norm_num) q
    exact h'.inverse_none ha not_isUnit_zero

/-- The example cubic extension `F7(X)`, `X³ = 2` (test/BUILD.bazel:53). -/
abbrev gf7_3 : FieldOps (Ext3 (BitVec 32)) :=
  Ext3.ops gf7 (fp3Config gf7 (fun v => gf7.mul v 2#32) 2#32 7 1)

example : ∀ b : ZMod 7, b ^ 3 ≠ 2 := by decide
example : gf7_3.mul ⟨3#32, 5#32, 1#32⟩ ⟨2#32, 6#32, 4#32⟩ = ⟨2#32, 1#32, 2#32⟩ ∧
    gf7_3.square ⟨3#32, 5#32, 1#32⟩ = gf7_3.mul ⟨3#32, 5#32, 1#32⟩ ⟨3#32, 5#32, 1#32⟩ ∧
    (gf7_3.inverse ⟨3#32, 5#32, 1#32⟩).map (gf7_3.mul ⟨3#32, 5#32, 1#32⟩) = some gf7_3.one ∧
    gf7_3.inverse gf7_3.zero = none := by decide +kernel

section Prime
variable {p : ℕ} [hpf : Fact p.Prime] {o : FieldOps α} {R : α → ZMod p → Prop}

/-- C14: the norm of `Fp2` is `x^(p+1)`. -/
theorem C14_norm_fp2 (h : o.Implements R) (hf : ∀ e a, o.frobenius e a = a) {q : ZMod p}
    (hq : ¬ IsSquare q) {nr : α → α} (hnr : ∀ {a x}, R a x → R (nr a) (q * x)) (m : Bool)
    (hm : m = true → q = -1)
    {a : Ext2 α} {x : Ext 2 q} (ha : Ext2.Rel R q a x) :
    ∃ n, R (Ext2.norm o (fp2Config o nr m) a) n ∧ Ext.of 2 q n = x ^ (p + 1) := by
  have h' := C14_quadratic (cfg := fp2Config o nr m) h hnr hm
  have hF := fp2_frob h hf hq nr m 1 ha
  obtain ⟨x0, x1, h0, h1, rfl⟩ := id ha
  have hc : Ext2.Rel R q (Ext2.conjugate o a) (Ext.of 2 q x0 + Ext.of 2 q (-x1) * Ext.x 2 q) :=
    ⟨x0, -x1, h0, h.neg h1, rfl⟩
  obtain ⟨n, hn, e⟩ := Ext2.norm_rel (cfg := fp2Config o nr m) h hnr ha hc
    (fun h1 h2 => h.functional h1 h2)
  refine ⟨n, hn, ?_⟩
  rw [pow_one] at hF
  refine e.trans (Eq.trans ?_ (pow_succ' _ _).symm)
  congr 1
  -- the Frobenius image has the coefficients of the conjugate
  obtain ⟨z0, z1, k0, k1, ez⟩ := hF
  rw [ez]
  have e0 : z0 = x0 := by
    have k0' : R (o.frobenius 1 a.c0) z0 := k0
    rw [hf] at k0'
    exact h.functional k0' h0
  have e1 : z1 = -x1 := by
    have k1' : R (o.mul (o.frobenius 1 a.c1) (o.neg o.one)) z1 := k1
    rw [hf] at k1'
    rw [h.functional k1' (h.mul h1 (h.neg h.one))]
    ring
  rw [e0, e1]

/-- C15: the norm of `Fp3` is `x^(1 + p + p²)` and the `CHECK`s inside it hold. -/
theorem C15_norm_fp3 (h : o.Implements R) (hf : ∀ e a, o.frobenius e a = a) {q : ZMod p}
    (hq : ∀ b, b ^ 3 ≠ q) (h3 : 3 ∣ p - 1) {N : ℕ} (hN : p < 2 ^ (64 * N)) {qa : α} (hqa : R qa q)
    {nr : α → α} (hnr : ∀ {a x}, R a x → R (nr a) (q * x)) {a : Ext3 α} {x : Ext 3 q}
    (ha : Ext3.Rel R q a x) :
    ∃ b n, Ext3.norm o (fp3Config o nr qa p N) a = some b ∧ R b n ∧
      Ext.of 3 q n = x * x ^ p * x ^ p ^ 2 := by
  have hq0 : q ≠ 0 := by rintro rfl; exact hq 0 (by simp)
  have hF := fun e => fp3_frob h hf hq0 h3 hN hqa nr e ha
  have := Ext3.norm_rel (cfg := fp3Config o nr qa p N) h hnr (fp3_conj h hf hq h3 hN hqa nr) ha
    (hF _) (hF _)
  simpa [fp3Config] using this

/-- C15: the norm of the cubic `Fp6` over `Fp2` is `x^(1 + p² + p⁴)` and its `CHECK`s hold. -/
theorem C15_norm_fp6 (h : o.Implements R) (hf : ∀ e a, o.frobenius e a = a) {q2 : ZMod p}
    (hq2 : ¬ IsSquare q2) (h3 : 3 ∣ p - 1) {N : ℕ} (hN : p < 2 ^ (64 * N)) {nr2 : α → α}
    (hnr2 : ∀ {a x}, R a x → R (nr2 a) (q2 * x)) (m2 : Bool) (hm2 : m2 = true → q2 = -1)
    {q6 : Ext 2 q2} (hq6 : ∀ b, b ^ 3 ≠ q6) {qa : Ext2 α} (hqa : Ext2.Rel R q2 qa q6)
    {nr6 : Ext2 α → Ext2 α}
    (hnr6 : ∀ {a x}, Ext2.Rel R q2 a x → Ext2.Rel R q2 (nr6 a) (q6 * x))
    {a : Ext3 (Ext2 α)} {x : Ext 3 q6} (ha : Ext3.Rel (Ext2.Rel R q2) q6 a x) :
    ∃ b n, Ext3.norm (Ext2.ops o (fp2Config o nr2 m2))
        (fp6CubicConfig (Ext2.ops o (fp2Config o nr2 m2)) nr6 qa p N) a = some b ∧
      Ext2.Rel R q2 b n ∧ Ext.of 3 q6 n = x * x ^ p ^ 2 * x ^ p ^ 4 := by
  have hu : IsUnit q6 := Ext2.isUnit_of_ne_zero hq2 (by rintro rfl; exact hq6 0 (by simp))
  have h' := Ext2.implements (cfg := fp2Config o nr2 m2) h hnr2 hm2
  have := Ext.nontrivial (n := 2) (by norm_num) q2
  have hF := fun e => fp6Cubic_frob h hf hq2 h3 hN nr2 hnr2 m2 hm2 hu hqa nr6 e ha
  exact Ext3.norm_rel h' hnr6
    (fp6Cubic_conj h hf hq2 h3 hN nr2 hnr2 m2 hm2 hq6 hqa nr6) ha (hF 2) (hF 4)

/-! ## C16: quartic extension -/

/-- C16: `Init` of the quartic extension succeeds in every characteristic above 5. -/
theorem C16_init (h : o.Implements R) (h5 : 5 < p) : ∃ k, Ext4.init o = some k := by
  have key : ∀ n : ℕ, n ∣ 120 → ∃ i, o.inverse (o.ofNat n) = some i := by
    intro n hn
    obtain ⟨b, _, e, -, -⟩ := h.inverse (h.ofNat n) (by
      rw [isUnit_iff_ne_zero, Ne, ZMod.natCast_eq_zero_iff]
      intro hp
      have hp' := hp.trans hn
      rw [show 120 = 2 ^ 3 * (3 * 5) by norm_num] at hp'
      rcases (Nat.Prime.dvd_mul hpf.out).1 hp' with h1 | h1
      · have := Nat.le_of_dvd (by norm_num) (hpf.out.dvd_of_dvd_pow h1); omega
      · rcases (Nat.Prime.dvd_mul hpf.out).1 h1 with h1 | h1 <;>
        · have := Nat.le_of_dvd (by norm_num) h1; omega)
    exact ⟨b, e⟩
  obtain ⟨i3, e3⟩ := key 3 (by norm_num)
  obtain ⟨i4, e4⟩ := key 4 (by norm_num)
  obtain ⟨i6, e6⟩ := key 6 (by norm_num)
  obtain ⟨i12, e12⟩ := key 12 (by norm_num)
  obtain ⟨i20, e20⟩ := key 20 (by norm_num)
  obtain ⟨i24, e24⟩ := key 24 (by norm_num)
  obtain ⟨i30, e30⟩ := key 30 (by norm_num)
  obtain ⟨i120, e120⟩ := key 120 (by norm_num)
  unfold Ext4.init
  rw [e3, e4, e6, e12, e20, e24, e30, e120]
  exact ⟨_, rfl⟩

/-- C16: all operations of the quartic `Fp4` are those of `F_p[X] / (X⁴ - q)`, for `p ≡ 1 (mod 4)`,
`p > 5` and `q` not a square. -/
theorem C16_quartic (h : o.Implements R) (hf : ∀ e a, o.frobenius e a = a) {q : ZMod p}
    (hq : ¬ IsSquare q) (h4 : 4 ∣ p - 1) {N : ℕ} (hN : p < 2 ^ (64 * N)) {qa : α} (hqa : R qa q)
    {nr : α → α} (hnr : ∀ {a x}, R a x → R (nr a) (q * x)) {k : Ext4Consts α}
    (hk : Ext4.init o = some k) :
    (Ext4.ops o (fp4QuarticConfig o nr qa p N) k).Implements (Ext4.Rel R q) :=
  Ext4.implements (cfg := fp4QuarticConfig o nr qa p N) h hnr hk
    (fp4Quartic_conj h hf hq h4 hN hqa nr)

/-- C16: `Inverse` fails exactly at zero. -/
theorem C16_inverse_none (h : o.Implements R) (hf : ∀ e a, o.frobenius e a = a) {q : ZMod p}
    (hq : ¬ IsSquare q) (h4 : 4 ∣ p - 1) {N : ℕ} (hN : p < 2 ^ (64 * N)) {qa : α} (hqa : R qa q)
    {nr : α → α} (hnr : ∀ {a x}, R a x → R (nr a) (q * x)) {k : Ext4Consts α}
    (hk : Ext4.init o = some k) {a : Ext4 α} {x : Ext 4 q} (ha : Ext4.Rel R q a x) :
    Ext4.inverse o (fp4QuarticConfig o nr qa p N) k a = none ↔ x = 0 := by
  have hc := fp4Quartic_conj h hf hq h4 hN hqa nr
  have h' := C16_quartic h hf hq h4 hN hqa hnr hk
  constructor
  · intro hn
    by_contra hx
    obtain ⟨b, y, e, -, -⟩ := h'.inverse ha (Ext4.isUnit_of_ne_zero hq hc.hw hx)
    exact absurd (e.symm.trans hn) (by simp)
  · rintro rfl
    have := Ext.nontrivial (n := 4) (by norm_num) q
    exact h'.inverse_none ha not_isUnit_zero

/-- C16: the norm is the product of the four conjugates and the `CHECK`s inside it hold. -/
theorem C16_norm (h : o.Implements R) (hf : ∀ e a, o.frobenius e a = a) {q : ZMod p}
    (hq : ¬ IsSquare q) (h4 : 4 ∣ p - 1) {N : ℕ} (hN : p < 2 ^ (64 * N)) {qa : α} (hqa : R qa q)
    {nr : α → α} (hnr : ∀ {a x}, R a x → R (nr a) (q * x)) {k : Ext4Consts α}
    (hk : Ext4.init o = some k) {a : Ext4 α} {x : Ext 4 q} (ha : Ext4.Rel R q a x) :
    ∃ b n, Ext4.norm o (fp4QuarticConfig o nr qa p N) k a = some b ∧ R b n ∧
      Ext.of 4 q n = x * x ^ p * x ^ p ^ 2 * x ^ p ^ 3 := by
  have hq0 : q ≠ 0 := by rintro rfl; exact hq IsSquare.zero
  have hc := fp4Quartic_conj h hf hq h4 hN hqa nr
  have h' := C16_quartic h hf hq h4 hN hqa hnr hk
  have hF := fun e => fp4Quartic_frob h hf hq0 h4 hN hqa nr k e ha
  obtain ⟨x0, x1, x2, x3, h0, h1, h2, h3, rfl⟩ := id ha
  obtain ⟨b, e, hb⟩ := Ext4.norm_rel (cfg := fp4QuarticConfig o nr qa p N) h hnr hk hc h0 h1 h2 h3
  refine ⟨b, _, e, hb, ?_⟩
  have f1 := h'.functional (hF 1) (Ext4.frobenius_conj (q := q) hc (j := 1) (by simp) h0 h1 h2 h3)
  have f2 := h'.functional (hF 2) (Ext4.frobenius_conj (q := q) hc (j := 2) (by simp) h0 h1 h2 h3)
  have f3 := h'.functional (hF 3) (Ext4.frobenius_conj (q := q) hc (j := 3) (by simp) h0 h1 h2 h3)
  rw [pow_one] at f1
  have hp := Ext4.conj_prod (q := q) hc.hw x0 x1 x2 x3
  rw [f1, f2, f3, mul_assoc, mul_assoc, hp]
  exact (Ext4.mul_conj3 x0 x1 x2 x3).symm

end Prime

-- F13[X] / (X⁴ - 2): 2 is not a square, 13 ≡ 1 (mod 4); Montgomery words
example : ¬ IsSquare (2 : ZMod 13) ∧ 4 ∣ 13 - 1 := by decide
example :
    let o := SmallField.montOps 13#32
    let f := SmallField.montOf 13#32
    let cfg := fp4QuarticConfig o o.double (f 2#32) 13 1
    (Ext4.init o).bind (fun k => (Ext4.inverse o cfg k ⟨f 1#32, f 2#32, f 3#32, f 4#32⟩).map
      (fun r => (Ext4.mul o cfg k r ⟨f 1#32, f 2#32, f 3#32, f 4#32⟩, decide (r.c1 = 0#32))))
      = some (⟨f 1#32, 0#32, 0#32, 0#32⟩, false) := by decide +kernel

/-- C16 for the BabyBear quartic field (`X⁴ - 11`), over its stored words. -/
theorem C16_babyBear :
    let o := SmallField.montOps 2013265921#32
    let e := SmallField.montOf 2013265921#32 11#32
    ∃ k, Ext4.init o = some k ∧
      (Ext4.ops o (fp4QuarticConfig o (fun a => (fastMul o 11 a).getD o.zero) e 2013265921 1) k).Implements
        (Ext4.Rel (SmallField.MontRel 2013265921#32) 11) := by
  intro o e
  have : Fact (Nat.Prime (2013265921#32).toNat) := ⟨prime_babyBear⟩
  have hb := (C14_base_mont 2013265921#32 prime_babyBear (by decide) (by decide)).1
  have he : SmallField.MontRel 2013265921#32 e 11 := by
    have := hb.ofNat 11
    exact this
  obtain ⟨k, hk⟩ := C16_init (p := (2013265921#32).toNat) hb (by decide)
  refine ⟨k, hk, ?_⟩
  refine C16_quartic (p := (2013265921#32).toNat) hb (fun _ _ => rfl) ?_ (by decide) (by decide) he
    (fun h => by
      obtain ⟨r, e1, e2⟩ := fastMul_rel hb h (c := 11) (by norm_num)
      rw [e1]
      exact e2) hk
  exact not_isSquare_of_powMod _ 11 31 (by decide) (by decide) (by decide +kernel)

/-! ## C17: sparse products and multiplication by the non-residue -/

section Sparse
variable [CommRing K] [Nontrivial K] {o : FieldOps α} {R : α → K → Prop} {cfg : Ext3Config α} {q : K}

omit [Nontrivial K] in
/-- C17: the sparse products of the cubic `Fp6` are products with `b1 X` and `b0 + b1 X`. -/
theorem C17_fp6_cubic (h : o.Implements R)
    (hq : ∀ {a x}, R a x → R (cfg.mulByNonResidue a) (q * x)) {a : Ext3 α} {x : Ext 3 q} {b0 b1 : α}
    {y0 y1 : K} (ha : Ext3.Rel R q a x) (h0 : R b0 y0) (h1 : R b1 y1) :
    Ext3.Rel R q (Fp6.mulBy1 o cfg a b1) (x * (Ext.of 3 q y1 * Ext.x 3 q)) ∧
    Ext3.Rel R q (Fp6.mulBy01 o cfg a b0 b1) (x * (Ext.of 3 q y0 + Ext.of 3 q y1 * Ext.x 3 q)) :=
  ⟨Fp6.mulBy1_rel h hq ha h1, Fp6.mulBy01_rel h hq ha h0 h1⟩

omit [Nontrivial K] in
/-- C17: the sparse products of the quadratic `Fp6` over `Fp3` (with `Y² = X`) are the products with
`b0 + (b3 + b4 X) Y` and `b0 + b1 X + b4 X Y`. -/
theorem C17_fp6_quadratic (h : o.Implements R)
    (hq : ∀ {a x}, R a x → R (cfg.mulByNonResidue a) (q * x))
    {a : Ext2 (Ext3 α)} {x : Ext 2 (Ext.x 3 q)} {b0 b1 b3 b4 : α} {y0 y1 y3 y4 : K}
    (ha : Ext2.Rel (Ext3.Rel R q) (Ext.x 3 q) a x) (h0 : R b0 y0) (h1 : R b1 y1) (h3 : R b3 y3)
    (h4 : R b4 y4) :
    Ext2.Rel (Ext3.Rel R q) (Ext.x 3 q) (Fp6.mulBy034 o cfg a b0 b3 b4)
      (x * (Ext.of 2 _ (Ext.of 3 q y0)
        + Ext.of 2 _ (Ext.of 3 q y3 + Ext.of 3 q y4 * Ext.x 3 q) * Ext.x 2 (Ext.x 3 q))) ∧
    Ext2.Rel (Ext3.Rel R q) (Ext.x 3 q) (Fp6.mulBy014 o cfg a b0 b1 b4)
      (x * (Ext.of 2 _ (Ext.of 3 q y0 + Ext.of 3 q y1 * Ext.x 3 q)
        + Ext.of 2 _ (Ext.of 3 q y4 * Ext.x 3 q) * Ext.x 2 (Ext.x 3 q))) :=
  ⟨Fp6.mulBy034_rel h hq ha h0 h3 h4, Fp6.mulBy014_rel h hq ha h0 h1 h4⟩

/-- C17: the sparse products of `Fp12` over the cubic `Fp6` (with `Y² = Q` for any `Q`). -/
theorem C17_fp12 (h : o.Implements R) (hq : ∀ {a x}, R a x → R (cfg.mulByNonResidue a) (q * x))
    {Q : Ext 3 q} {nr : Ext3 α → Ext3 α}
    (hn : ∀ {a x}, Ext3.Rel R q a x → Ext3.Rel R q (nr a) (Q * x))
    {a : Ext2 (Ext3 α)} {x : Ext 2 Q} {b0 b1 b3 b4 : α} {y0 y1 y3 y4 : K}
    (ha : Ext2.Rel (Ext3.Rel R q) Q a x) (h0 : R b0 y0) (h1 : R b1 y1) (h3 : R b3 y3)
    (h4 : R b4 y4) :
    Ext2.Rel (Ext3.Rel R q) Q (Fp12.mulBy034 o cfg nr a b0 b3 b4)
      (x * (Ext.of 2 Q (Ext.of 3 q y0)
        + Ext.of 2 Q (Ext.of 3 q y3 + Ext.of 3 q y4 * Ext.x 3 q) * Ext.x 2 Q)) ∧
    Ext2.Rel (Ext3.Rel R q) Q (Fp12.mulBy014 o cfg nr a b0 b1 b4)
      (x * (Ext.of 2 Q (Ext.of 3 q y0 + Ext.of 3 q y1 * Ext.x 3 q)
        + Ext.of 2 Q (Ext.of 3 q y4 * Ext.x 3 q) * Ext.x 2 Q)) :=
  ⟨Fp12.mulBy034_rel h hq hn ha h0 h3 h4, Fp12.mulBy014_rel h hq hn ha h0 h1 h4⟩

omit [Nontrivial K] in
/-- C17: the generated `MulByNonResidue` functions. `fastMul` multiplies by any non-zero integer;
`mulByX2`, `mulByX3` multiply by the generator of the base extension; the overrides of BN254 and
BLS12-381 multiply by `9 + i` and `1 + i`. -/
theorem C17_mulByNonResidue (h : o.Implements R) :
    (∀ {v x} {c : ℤ}, R v x → c ≠ 0 → ∃ r, fastMul o c v = some r ∧ R r (c * x)) ∧
    (∀ {cfg2 : Ext2Config α} {a : Ext2 α} {x : Ext 2 q},
      (∀ {a x}, R a x → R (cfg2.mulByNonResidue a) (q * x)) → Ext2.Rel R q a x →
        Ext2.Rel R q (Fp12.mulByX2 cfg2 a) (Ext.x 2 q * x)) ∧
    (∀ {a : Ext3 α} {x : Ext 3 q}, (∀ {a x}, R a x → R (cfg.mulByNonResidue a) (q * x)) →
      Ext3.Rel R q a x → Ext3.Rel R q (Fp12.mulByX3 cfg a) (Ext.x 3 q * x)) ∧
    (∀ {nr : α → α} {a : Ext2 α} {x : Ext 2 q}, (∀ {a x}, R a x → R (nr a) (q * x)) →
      Ext2.Rel R q a x → Ext2.Rel R q (bn254MulByNonResidue o nr a) ((9 + Ext.x 2 q) * x)) ∧
    (∀ {a : Ext2 α} {x : Ext 2 q}, q = -1 → Ext2.Rel R q a x →
      Ext2.Rel R q (bls12MulByNonResidue o a) ((1 + Ext.x 2 q) * x)) :=
  ⟨fun hv hc => fastMul_rel h hv hc, fun hq ha => Fp12.mulByX2_rel hq ha,
    fun hq ha => Fp12.mulByX3_rel hq ha, fun hq ha => bn254MulByNonResidue_rel h hq ha,
    fun hq ha => bls12MulByNonResidue_rel h hq ha⟩

end Sparse

/-! The tower `F7 ⊂ F7(i) ⊂ Fp6 = Fp2(X), X³ = 2 + i ⊂ Fp12 = Fp6(Y), Y² = X`. The norm 5 of `2 + i` is
neither a square nor a cube modulo 7, so neither is `2 + i`. -/

/-- Configuration of the example `Fp6`. -/
abbrev gf7cfg6 : Ext3Config (Ext2 (BitVec 32)) :=
  fp6CubicConfig gf7_2 (fun v => gf7_2.mul v ⟨2#32, 1#32⟩) ⟨2#32, 1#32⟩ 7 1
/-- The example `Fp6`. -/
abbrev gf7_6 : FieldOps (Ext3 (Ext2 (BitVec 32))) := Ext3.ops gf7_2 gf7cfg6
/-- Configuration of the example `Fp12`. -/
abbrev gf7cfg12 : Ext2Config (Ext3 (Ext2 (BitVec 32))) :=
  fp12Config gf7_2 (Fp12.mulByX3 gf7cfg6) false ⟨2#32, 1#32⟩ 7 1
/-- The example `Fp12`. -/
abbrev gf7_12 : FieldOps (Ext2 (Ext3 (Ext2 (BitVec 32)))) := Ext2.ops gf7_6 gf7cfg12
/-- An element of the example `Fp12`. -/
abbrev gf7_elt : Ext2 (Ext3 (Ext2 (BitVec 32))) :=
  ⟨⟨⟨1#32, 2#32⟩, ⟨3#32, 4#32⟩, ⟨5#32, 6#32⟩⟩, ⟨⟨2#32, 4#32⟩, ⟨6#32, 1#32⟩, ⟨3#32, 5#32⟩⟩⟩

example : Fp12.mulBy034 gf7_2 gf7cfg6 (Fp12.mulByX3 gf7cfg6) gf7_elt ⟨1#32, 3#32⟩ ⟨2#32, 5#32⟩ ⟨4#32, 6#32⟩
    = gf7_12.mul gf7_elt ⟨⟨⟨1#32, 3#32⟩, ⟨0#32, 0#32⟩, ⟨0#32, 0#32⟩⟩,
        ⟨⟨2#32, 5#32⟩, ⟨4#32, 6#32⟩, ⟨0#32, 0#32⟩⟩⟩ ∧
    fastMul gf7 (-12) 3#32 = some 6#32 ∧ fastMul gf7 0 3#32 = none := by decide +kernel

/-! ## C18: cyclotomic subgroup -/

section Cyclotomic
variable {p : ℕ} [hpf : Fact p.Prime] {o : FieldOps α} {R : α → ZMod p → Prop}

/-- C18: on the cyclotomic subgroup of `Fp12` (the elements with `x^(p⁴ - p² + 1) = 1`, written
without subtraction) `DoFastCyclotomicSquare` is squaring. -/
theorem C18_cyclotomicSquare (h : o.Implements R) {q2 : ZMod p} (hq2 : ¬ IsSquare q2)
    (h6 : 6 ∣ p - 1) {nr2 : α → α} (hnr2 : ∀ {a x}, R a x → R (nr2 a) (q2 * x)) (m2 : Bool)
    (hm2 : m2 = true → q2 = -1) {q6 : Ext 2 q2} (hs : ¬ IsSquare q6) (hc : ∀ b, b ^ 3 ≠ q6)
    {cfg6 : Ext3Config (Ext2 α)}
    (hnr6 : ∀ {a x}, Ext2.Rel R q2 a x → Ext2.Rel R q2 (cfg6.mulByNonResidue a) (q6 * x))
    (cfg12 : Ext2Config (Ext3 (Ext2 α)))
    {a : Ext2 (Ext3 (Ext2 α))} {x : Ext 2 (Ext.x 3 q6)}
    (ha : Ext2.Rel (Ext3.Rel (Ext2.Rel R q2) q6) (Ext.x 3 q6) a x)
    (hx : x ^ p ^ 4 * x = x ^ p ^ 2) :
    Ext2.Rel (Ext3.Rel (Ext2.Rel R q2) q6) (Ext.x 3 q6)
      (Fp12.fastCyclotomicSquare (Ext2.ops o (fp2Config o nr2 m2)) cfg6 true cfg12 a) (x * x) := by
  have h' := Ext2.implements (cfg := fp2Config o nr2 m2) h hnr2 hm2
  have := Ext.nontrivial (n := 2) (by norm_num) q2
  have := Ext.charP (n := 2) (by norm_num) q2 p
  obtain ⟨u, v, ⟨x0, x1, x2, a0, a1, a2, rfl⟩, ⟨x3, x4, x5, a3, a4, a5, rfl⟩, rfl⟩ := ha
  have he := Fp12.cycEqs (q := q6) h6 (ext2_fixed hq2) (gamma_rel hq2 h6 hs hc)
    (b0 := x0) (b2 := x1) (b4 := x2) (b1 := x3) (b3 := x4) (b5 := x5) hx
  exact Fp12.cyclotomicSquare_of_eqs h' hnr6 a0 a1 a2 a3 a4 a5 he

/-- C18: when the modulus is not 1 modulo 6 the function is the plain squaring, for every element. -/
theorem C18_cyclotomicSquare_generic {K : Type*} [CommRing K] [Nontrivial K] {α : Type*}
    {o : FieldOps α} {R : α → K → Prop} {cfg6 : Ext3Config α} {cfg12 : Ext2Config (Ext3 α)} {q6 : K}
    {q12 : Ext 3 q6} (h : o.Implements R)
    (h6 : ∀ {a x}, R a x → R (cfg6.mulByNonResidue a) (q6 * x))
    (h12 : ∀ {a x}, Ext3.Rel R q6 a x → Ext3.Rel R q6 (cfg12.mulByNonResidue a) (q12 * x))
    (hm : cfg12.nonResidueIsMinusOne = true → q12 = -1) {a : Ext2 (Ext3 α)} {x : Ext 2 q12}
    (ha : Ext2.Rel (Ext3.Rel R q6) q12 a x) :
    Ext2.Rel (Ext3.Rel R q6) q12 (Fp12.fastCyclotomicSquare o cfg6 false cfg12 a) (x * x) := by
  have := Ext.nontrivial (n := 3) (by norm_num) q6
  exact (C14_quadratic (cfg := cfg12) (Ext3.implements h h6) h12 hm).square ha

/-- C18: `FastCyclotomicInverse` (conjugation) is the inverse when the norm to the base field is 1. -/
theorem C18_cyclotomicInverse {K : Type*} [CommRing K] [Nontrivial K] {α : Type*} {o : FieldOps α}
    {R : α → K → Prop} {cfg : Ext2Config α} {q : K} (h : o.Implements R)
    (hq : ∀ {a x}, R a x → R (cfg.mulByNonResidue a) (q * x)) {a : Ext2 α} {x : Ext 2 q}
    (ha : Ext2.Rel R q a x) (h1 : R (Ext2.norm o cfg a) 1) :
    ∃ b y, Ext2.fastCyclotomicInverse o a = some b ∧ Ext2.Rel R q b y ∧ x * y = 1 := by
  obtain ⟨y, n, hy, hn, e, -⟩ := C14_norm h hq ha
  have hn1 : n = 1 := h.functional hn h1
  rw [hn1, map_one] at e
  refine ⟨_, y, ?_, hy, e.symm⟩
  have hz : Ext2.isZero o a = false := by
    by_contra hz
    rw [Bool.not_eq_false] at hz
    obtain ⟨x0, x1, h0, h1, rfl⟩ := ha
    simp only [Ext2.isZero, Bool.and_eq_true] at hz
    rw [(h.isZero h0).1 hz.1, (h.isZero h1).1 hz.2] at e
    have := Ext.nontrivial (n := 2) (by norm_num) q
    simp at e
  simp [Ext2.fastCyclotomicInverse, hz]

end Cyclotomic

/-- The final exponentiation's easy part `x^((p⁶-1)(p²+1))` of the example, in the subgroup. -/
def gf7_cyc : Option (Ext2 (Ext3 (Ext2 (BitVec 32)))) :=
  (gf7_12.inverse gf7_elt).map fun i =>
    let r := gf7_12.mul (Ext2.conjugate gf7_6 gf7_elt) i
    gf7_12.mul (gf7_12.frobenius 2 r) r

-- the element satisfies the hypothesis, is not in the base field, and is squared correctly
example : gf7_cyc.map (fun x => gf7_12.eq (gf7_12.mul (gf7_12.frobenius 4 x) x) (gf7_12.frobenius 2 x)
      && !gf7_6.isZero x.c1
      && gf7_12.eq (Fp12.fastCyclotomicSquare gf7_2 gf7cfg6 true gf7cfg12 x) (gf7_12.mul x x)) = some true := by
  decide +kernel

/-- C18: outside the cyclotomic subgroup the function is not squaring. -/
theorem C18_outside : ∃ a, gf7_12.eq (Fp12.fastCyclotomicSquare gf7_2 gf7cfg6 true gf7cfg12 a)
    (gf7_12.square a) = false :=
  ⟨gf7_elt, by decide +kernel⟩

/-! ## C52: Frobenius maps -/

section Frobenius
variable {p : ℕ} [hpf : Fact p.Prime] {o : FieldOps α} {R : α → ZMod p → Prop}

/-- C52: `FrobeniusMap(e)` of `Fp2` is `x ↦ x^(p^e)` for every `e`. -/
theorem C52_fp2 (h : o.Implements R) (hf : ∀ e a, o.frobenius e a = a) {q : ZMod p}
    (hq : ¬ IsSquare q) (nr : α → α) (m : Bool) :
    (Ext2.ops o (fp2Config o nr m)).ImplementsFrobenius (Ext2.Rel R q) p :=
  fp2_frob h hf hq nr m

/-- C52: `Fp3`, for `p ≡ 1 (mod 3)`. -/
theorem C52_fp3 (h : o.Implements R) (hf : ∀ e a, o.frobenius e a = a) {q : ZMod p} (hq : q ≠ 0)
    (h3 : 3 ∣ p - 1) {N : ℕ} (hN : p < 2 ^ (64 * N)) {qa : α} (hqa : R qa q) (nr : α → α) :
    (Ext3.ops o (fp3Config o nr qa p N)).ImplementsFrobenius (Ext3.Rel R q) p :=
  fp3_frob h hf hq h3 hN hqa nr

/-- C52: the quartic `Fp4`, for `p ≡ 1 (mod 4)`. -/
theorem C52_fp4_quartic (h : o.Implements R) (hf : ∀ e a, o.frobenius e a = a) {q : ZMod p}
    (hq : q ≠ 0) (h4 : 4 ∣ p - 1) {N : ℕ} (hN : p < 2 ^ (64 * N)) {qa : α} (hqa : R qa q)
    (nr : α → α) (k : Ext4Consts α) :
    (Ext4.ops o (fp4QuarticConfig o nr qa p N) k).ImplementsFrobenius (Ext4.Rel R q) p :=
  fp4Quartic_frob h hf hq h4 hN hqa nr k

/-- C52: the quadratic `Fp4` over `Fp2`, for `p ≡ 1 (mod 4)` and the non-residue `X` of the tower. -/
theorem C52_fp4 (h : o.Implements R) (hf : ∀ e a, o.frobenius e a = a) {q : ZMod p}
    (hq : ¬ IsSquare q) (h4 : 4 ∣ p - 1) {N : ℕ} (hN : p < 2 ^ (64 * N)) {qa : α} (hqa : R qa q)
    (nr2 : α → α) (m2 : Bool) (nr4 : Ext2 α → Ext2 α) (m4 : Bool) :
    (Ext2.ops (Ext2.ops o (fp2Config o nr2 m2)) (fp4Config o nr4 m4 qa p N)).ImplementsFrobenius
      (Ext2.Rel (Ext2.Rel R q) (Ext.x 2 q)) p :=
  fp4_frob h hf hq h4 hN hqa nr2 m2 nr4 m4

/-- C52: the quadratic `Fp6` over `Fp3`, for `p ≡ 1 (mod 6)` and the non-residue `X` of the tower. -/
theorem C52_fp6 (h : o.Implements R) (hf : ∀ e a, o.frobenius e a = a) {q : ZMod p}
    (hq : q ≠ 0) (h6 : 6 ∣ p - 1) {N : ℕ} (hN : p < 2 ^ (64 * N)) {qa : α} (hqa : R qa q)
    (nr3 : α → α) (nr6 : Ext3 α → Ext3 α) (m6 : Bool) :
    (Ext2.ops (Ext3.ops o (fp3Config o nr3 qa p N))
      (fp6Config o nr6 m6 qa p N)).ImplementsFrobenius (Ext2.Rel (Ext3.Rel R q) (Ext.x 3 q)) p :=
  fp6_frob h hf hq h6 hN hqa nr3 nr6 m6

/-- C52: the cubic `Fp6` over `Fp2`, for `p ≡ 1 (mod 3)`. -/
theorem C52_fp6_cubic (h : o.Implements R) (hf : ∀ e a, o.frobenius e a = a) {q2 : ZMod p}
    (hq2 : ¬ IsSquare q2) (h3 : 3 ∣ p - 1) {N : ℕ} (hN : p < 2 ^ (64 * N)) (nr2 : α → α)
    (hnr2 : ∀ {a x}, R a x → R (nr2 a) (q2 * x)) (m2 : Bool) (hm2 : m2 = true → q2 = -1)
    {q6 : Ext 2 q2} (hq6 : IsUnit q6) {qa : Ext2 α} (hqa : Ext2.Rel R q2 qa q6)
    (nr6 : Ext2 α → Ext2 α) :
    (Ext3.ops (Ext2.ops o (fp2Config o nr2 m2))
      (fp6CubicConfig (Ext2.ops o (fp2Config o nr2 m2)) nr6 qa p N)).ImplementsFrobenius
      (Ext3.Rel (Ext2.Rel R q2) q6) p :=
  fp6Cubic_frob h hf hq2 h3 hN nr2 hnr2 m2 hm2 hq6 hqa nr6

/-- C52: `Fp12` over the cubic `Fp6`, for `p ≡ 1 (mod 6)` and the non-residue `X` of the tower. -/
theorem C52_fp12 (h : o.Implements R) (hf : ∀ e a, o.frobenius e a = a) {q2 : ZMod p}
    (hq2 : ¬ IsSquare q2) (h6 : 6 ∣ p - 1) {N : ℕ} (hN : p < 2 ^ (64 * N)) (nr2 : α → α)
    (hnr2 : ∀ {a x}, R a x → R (nr2 a) (q2 * x)) (m2 : Bool) (hm2 : m2 = true → q2 = -1)
    {q6 : Ext 2 q2} (hq6 : IsUnit q6) {qa : Ext2 α} (hqa : Ext2.Rel R q2 qa q6)
    (nr6 : Ext2 α → Ext2 α) (nr12 : Ext3 (Ext2 α) → Ext3 (Ext2 α)) (m12 : Bool) :
    (Ext2.ops (Ext3.ops (Ext2.ops o (fp2Config o nr2 m2))
        (fp6CubicConfig (Ext2.ops o (fp2Config o nr2 m2)) nr6 qa p N))
      (fp12Config (Ext2.ops o (fp2Config o nr2 m2)) nr12 m12 qa p N)).ImplementsFrobenius
      (Ext2.Rel (Ext3.Rel (Ext2.Rel R q2) q6) (Ext.x 3 q6)) p :=
  fp12_frob h hf hq2 h6 hN nr2 hnr2 m2 hm2 hq6 hqa nr6 nr12 m12

end Frobenius

-- Frobenius of the example Fp12 against plain exponentiation (x^7)
example : gf7_12.frobenius 1 gf7_elt = doPow gf7_12.toMulOps gf7_elt [7#64] ∧
    gf7_12.frobenius 13 gf7_elt = doPow gf7_12.toMulOps gf7_elt [7#64] := by decide +kernel

/-! The circle STARK field `m31::Fq4` (circle/m31/BUILD.bazel:38-62): `X² = 2 + i` over
`F_p(i)`, `p = 2^31 - 1 ≡ 3 (mod 4)`. -/

/-- The base operations of `m31::Fq4`. -/
abbrev m31 : FieldOps (BitVec 32) := SmallField.plainOps SmallField.mersenne31
/-- `m31::Fq2`. -/
abbrev m31_2 : FieldOps (Ext2 (BitVec 32)) := Ext2.ops m31 (fp2Config m31 m31.neg true)
/-- `m31::Fq4`; its table is computed from `BaseField::Config::kNonResidue = -1`. -/
abbrev m31_4 : FieldOps (Ext2 (Ext2 (BitVec 32))) :=
  Ext2.ops m31_2 (fp4Config m31 (fun v => m31_2.mul v ⟨2#32, 1#32⟩) false 2147483646#32 2147483647 1)

private theorem fp2_neg {p : ℕ} [hpf : Fact p.Prime] {o : FieldOps α} {R : α → ZMod p → Prop}
    (h : o.Implements R) :
    (Ext2.ops o (fp2Config o o.neg true)).Implements (Ext2.Rel R (-1)) :=
  C14_quadratic (cfg := fp2Config o o.neg true) h
    (fun ha => by rw [neg_one_mul]; exact h.neg ha) (fun _ => rfl)

private theorem x_pow_ne_neg {p : ℕ} [hpf : Fact p.Prime] (h2 : 2 ∣ p - 1)
    (hs : ¬ IsSquare (-1 : ZMod p)) :
    Ext.x 2 (2 + Ext.x 2 (-1 : ZMod p)) ^ p
      ≠ Ext.of 2 _ (-1) * Ext.x 2 (2 + Ext.x 2 (-1 : ZMod p)) := by
  have := Ext.nontrivial (n := 2) (by norm_num) (-1 : ZMod p)
  intro e
  obtain ⟨m, hm⟩ := h2
  have hp : p = 2 * m + 1 := by have := hpf.out.pos; omega
  generalize hq : (2 + Ext.x 2 (-1 : ZMod p)) = q at e
  have hxp : Ext.x 2 q ^ p = Ext.of 2 q (q ^ m) * Ext.x 2 q := by
    rw [map_pow, ← Ext.x_pow, ← pow_mul, ← pow_succ, ← hp]
  rw [hxp] at e
  have e' : Ext.of 2 q 0 + Ext.of 2 q (q ^ m) * Ext.x 2 q =
      Ext.of 2 q 0 + Ext.of 2 q (-1) * Ext.x 2 q := by rw [e]
  obtain ⟨-, e1⟩ := Ext.inj2 e'
  have e2 : q ^ p = q := by
    have : q ^ p = q ^ m * q ^ m * q := by
      rw [← pow_add, ← pow_succ]; congr 1; omega
    rw [this, e1]; ring
  -- but `(2 + i)^p = 2 - i`
  have hq' : q = Ext.of 2 _ 2 + Ext.of 2 _ 1 * Ext.x 2 (-1 : ZMod p) := by
    rw [← hq, map_ofNat, map_one, one_mul]
  have e3 := Ext.frob2 (p := p) ⟨m, hm⟩ (-1 : ZMod p) 2 1 1
  rw [pow_one, ZMod.pow_card, ← hq', e2, hq', one_pow, one_mul] at e3
  obtain ⟨-, e4⟩ := Ext.inj2 e3
  have hne : (-1 : ZMod p) ≠ 0 := neg_ne_zero.2 one_ne_zero
  have h4 := (ZMod.euler_criterion p hne).not.1 hs
  apply h4
  rw [show p / 2 = (p - 1) / 2 by omega]
  exact e4.symm

/-- C52 (disagreement): for `m31::Fq4` the table of `Fp4` uses the non-residue of the base extension
and exponents rounded down, so `FrobeniusMap(1)` is not the `p`-th power. -/
theorem C52_m31_fq4_wrong :
    let R := Ext2.Rel (SmallField.PlainRel 2147483647) (-1 : ZMod 2147483647)
    let q : Ext 2 (-1 : ZMod 2147483647) := 2 + Ext.x 2 (-1)
    ∃ a : Ext2 (Ext2 (BitVec 32)), ∃ x : Ext 2 q, Ext2.Rel R q a x ∧
      ¬ Ext2.Rel R q (m31_4.frobenius 1 a) (x ^ 2147483647) := by
  intro R q
  have : Fact (Nat.Prime 2147483647) := ⟨prime_mersenne31⟩
  have hs : ¬ IsSquare (-1 : ZMod 2147483647) := by
    have := not_isSquare_of_powMod 2147483647 2147483646 31 (by decide) (by decide) (by decide +kernel)
    rwa [show ((2147483646 : ℕ) : ZMod 2147483647) = -1 from rfl] at this
  have hb := C14_base_mersenne31
  have h2 := fp2_neg hb
  have := Ext.nontrivial (n := 2) (by norm_num) (-1 : ZMod 2147483647)
  have := Ext.charP (n := 2) (by norm_num) (-1 : ZMod 2147483647) 2147483647
  have hX : Ext2.Rel R q ⟨m31_2.zero, m31_2.one⟩ (Ext.x 2 q) :=
    ⟨0, 1, h2.zero, h2.one, by simp⟩
  refine ⟨_, _, hX, fun hc => ?_⟩
  obtain ⟨z0, z1, k0, k1, e⟩ := hc
  -- the model's answer is `-X`
  have hf : (m31_4.frobenius 1 ⟨m31_2.zero, m31_2.one⟩).c1 = m31_2.neg m31_2.one := by decide +kernel
  have hz1 : z1 = -1 := by
    rw [hf] at k1
    exact h2.functional k1 (h2.neg h2.one)
  have hf0 : (m31_4.frobenius 1 ⟨m31_2.zero, m31_2.one⟩).c0 = m31_2.zero := by decide +kernel
  have hz0 : z0 = 0 := by
    rw [hf0] at k0
    exact h2.functional k0 h2.zero
  rw [hz0, hz1, map_zero, zero_add] at e
  exact x_pow_ne_neg (by norm_num) hs e

end Tachyon.Props
