import Verif.Proofs.Circle
import Verif.Props.SmallField
/-!
# Property C95: the circle group

The points of `x² + y² = 1` form a commutative group under the code's `Add`, `Double` agrees with
`Add` exactly on the circle, scalar multiplication is the power of `x + y·i`, and the generators
of `m31::G1` and `m31::G4` generate all the points. The scalar field `m31::Fr4` of `G4` is a
Montgomery field with an even modulus, which does not compute residues at all.
-/
namespace Tachyon.Props
open Tachyon.Circle
open Tachyon.BigInt hiding add sub zero isZero

/-- C95: the points on the circle are closed under the operations, which form a commutative group;
`Sub` adds the negative and `Conjugate` is `Negate`. -/
theorem C95_group {F : Type} [CommRing F] (p q r : Pt F) (hp : On p) (hq : On q) :
    On (zero : Pt F) ∧ On (add p q) ∧ On (sub p q) ∧ On (negate p) ∧ On (double p) ∧
    add (add p q) r = add p (add q r) ∧ add p q = add q p ∧ add p zero = p ∧ add zero p = p ∧
    add p (negate p) = zero ∧ sub p q = add p (negate q) ∧ add (sub p q) q = p ∧
    conjugate p = negate p := by
  have hn : ∀ q : Pt F, On q → On (negate q) := fun q h => by
    unfold On negate at *; linear_combination h
  have hs : sub p q = add p (negate q) := by ext <;> simp [sub, add, negate]
  refine ⟨zero_on, add_on hp hq, hs ▸ add_on hp (hn q hq), hn p hp,
    (double_eq.2 hp) ▸ add_on hp hp, ?_, ?_, ?_, ?_, ?_, hs, ?_, rfl⟩
  · ext <;> simp [add] <;> ring
  · ext <;> simp [add] <;> ring
  · ext <;> simp [add, zero]
  · ext <;> simp [add, zero]
  · unfold On at hp
    ext
    · simp [add, negate, zero]; linear_combination hp
    · simp [add, negate, zero]; ring
  · unfold On at hq
    ext
    · simp [add, sub]; linear_combination p.x * hq
    · simp [add, sub]; linear_combination p.y * hq

/-- C95: the point `(x, y)` is the number `x + y·i`: `Add` multiplies the numbers (on or off the
circle), and only equal points have equal numbers. -/
theorem C95_number {F : Type} [CommRing F] (p q : Pt F) :
    num (add p q) = num p * num q ∧ num (zero : Pt F) = 1 ∧ (num p = num q ↔ p = q) :=
  ⟨num_add p q, num_zero, num_inj⟩

/-- C95: `Double` is `p + p` for the points on the circle, and for no other point; doubling in
place computes the same. -/
theorem C95_double {F : Type} [CommRing F] (p : Pt F) :
    (double p = add p p ↔ On p) ∧ doubleInPlace p = double p := ⟨double_eq, doubleInPlace_eq p⟩

/-- C95: the checks decide what they say. -/
theorem C95_checks {F : Type} [CommRing F] [DecidableEq F] (p : Pt F) (x y : F) :
    (isOnCircle p = true ↔ On p) ∧ (isZero p = true ↔ p = zero) ∧
    (createChecked x y = some p ↔ p = ⟨x, y⟩ ∧ On p) := by
  refine ⟨by simp [isOnCircle, On], by simp [isZero, zero, Pt.ext_iff], ?_⟩
  unfold createChecked
  split
  · rename_i h
    constructor
    · intro h1; cases h1; exact ⟨rfl, by simpa [isOnCircle, On] using h⟩
    · rintro ⟨rfl, _⟩; rfl
  · rename_i h
    constructor
    · intro h1; cases h1
    · rintro ⟨rfl, h1⟩; exact absurd (by simpa [isOnCircle, On] using h1) h

/-- C95: the antipode is the sum with the point `(-1, 0)`; it is an involution of the circle. -/
theorem C95_antipode {F : Type} [CommRing F] (p : Pt F) :
    antipode p = add p ⟨-1, 0⟩ ∧ antipode (antipode p) = p ∧ (On (antipode p) ↔ On p) := by
  refine ⟨by ext <;> simp [antipode, add], by ext <;> simp [antipode], ?_⟩
  simp [On, antipode]

/-- C95: scalar multiplication of a point on the circle by any `BigInt` is the power of its number,
and stays on the circle. -/
theorem C95_scalarMul {F : Type} [CommRing F] {w : Nat} (hw : 0 < w) (p : Pt F) (hp : On p)
    (e : Limbs w) : num (scalarMul p e) = num p ^ limbsVal e ∧ On (scalarMul p e) :=
  ⟨(scalarMul_spec hw p hp e).2, (scalarMul_spec hw p hp e).1⟩

example : scalarMul (⟨2, 5⟩ : Pt (ZMod 7)) [3#64] = scalarMul (⟨2, 5⟩ : Pt (ZMod 7)) [11#64] ∧
    On (⟨2, 5⟩ : Pt (ZMod 7)) ∧ scalarMul (⟨2, 5⟩ : Pt (ZMod 7)) [4#64] = ⟨-1, 0⟩ := by
  refine ⟨by decide +kernel, by unfold On; decide, by decide +kernel⟩

/-- Off the circle `Double` is not `p + p`. -/
example : double (⟨1, 1⟩ : Pt (ZMod 7)) ≠ add ⟨1, 1⟩ ⟨1, 1⟩ := by decide

/-! ## `m31::G1` -/

theorem mulSmall_num {p : Pt Fq} (hp : On p) (s : BitVec 32) :
    num (mulSmall p s) = num p ^ s.toNat ∧ On (mulSmall p s) := by
  obtain ⟨h1, h2⟩ := C95_scalarMul (w := 64) (by decide) p hp [s.setWidth 64]
  refine ⟨?_, h2⟩
  unfold mulSmall
  rw [h1, limbsVal_cons, limbsVal_nil, BitVec.toNat_setWidth, Nat.mod_eq_of_lt (by omega)]
  simp

theorem generates_g1 (p : Pt Fq) (hp : On p) :
    ∃ s : BitVec 32, (s.toNat < 2 ^ 31 ∧ mulSmall g1 s = p) ∧
      ∀ s' : BitVec 32, s'.toNat < 2 ^ 31 ∧ mulSmall g1 s' = p → s' = s := by
  have two : (2 : Fq) ≠ 0 := by decide
  have : Fact (Nat.Prime 2147483647) := ⟨prime_mersenne31⟩
  obtain ⟨e, h1, h2, h3, h4⟩ := generates (w := 64) (by decide) g1 g1_on 2147483648 1 (by decide)
    g1_order (by
      refine (card_pt_le_field Fq two).trans ?_
      rw [Nat.card_zmod]) p hp
  obtain ⟨e0, rfl⟩ : ∃ e0, e = [e0] := List.length_eq_one_iff.1 h1
  rw [limbsVal_cons, limbsVal_nil, Nat.mul_zero, Nat.add_zero] at h2 h4
  have hs : (e0.setWidth 32).setWidth 64 = e0 := by
    apply BitVec.eq_of_toNat_eq
    rw [BitVec.toNat_setWidth, BitVec.toNat_setWidth, Nat.mod_eq_of_lt, Nat.mod_eq_of_lt] <;> omega
  refine ⟨e0.setWidth 32, ⟨?_, ?_⟩, ?_⟩
  · rw [BitVec.toNat_setWidth]; omega
  · unfold mulSmall; rw [hs]; exact h3
  · rintro s' ⟨a, b⟩
    have := h4 [s'.setWidth 64] (by
      rw [limbsVal_cons, limbsVal_nil, BitVec.toNat_setWidth]; omega) b
    rw [limbsVal_cons, limbsVal_nil, BitVec.toNat_setWidth] at this
    apply BitVec.eq_of_toNat_eq
    rw [BitVec.toNat_setWidth]
    omega

/-- C95: the generator of `m31::G1` is on the circle, and every point of the circle over Mersenne31
is `generator * s` for exactly one scalar `s` of `m31::Fr`. -/
theorem C95_g1_generates : On g1 ∧ ∀ p : Pt Fq, On p →
    ∃! s : BitVec 32, s.toNat < SmallField.m31Scalar.modulus.toNat ∧ mulSmall g1 s = p :=
  ⟨g1_on, fun p hp => generates_g1 p hp⟩

/-- C95: `operator*` by the scalars of `m31::Fr` is a ring action on all the points of the circle:
the scalar arithmetic modulo `2^31` is exactly the one of the exponents. -/
theorem C95_g1_scalars (p : Pt Fq) (hp : On p) (a b : BitVec 32) (ha : a.toNat < 2 ^ 31)
    (hb : b.toNat < 2 ^ 31) :
    mulSmall p (SmallField.addMod SmallField.m31Scalar a b) = add (mulSmall p a) (mulSmall p b) ∧
    mulSmall p (SmallField.subMod SmallField.m31Scalar a b) = sub (mulSmall p a) (mulSmall p b) ∧
    mulSmall p (SmallField.negate SmallField.m31Scalar a) = negate (mulSmall p a) ∧
    mulSmall p (SmallField.mul SmallField.m31Scalar a b) = mulSmall (mulSmall p a) b ∧
    mulSmall p 1#32 = p ∧ mulSmall p 0#32 = zero := by
  have hm : SmallField.m31Scalar.modulus.toNat = 2 ^ 31 := by decide
  have hperiod : num p ^ 2 ^ 31 = 1 := by
    obtain ⟨s, ⟨-, rfl⟩, -⟩ := generates_g1 p hp
    rw [(mulSmall_num g1_on s).1, ← pow_mul, Nat.mul_comm, pow_mul,
      show (2 : ℕ) ^ 31 = orderOf (num g1) by rw [g1_order]; norm_num, pow_orderOf_eq_one, one_pow]
  have hmod : ∀ n, num p ^ (n % 2 ^ 31) = num p ^ n := fun n => by
    conv_rhs => rw [← Nat.mod_add_div n (2 ^ 31), pow_add, pow_mul, hperiod, one_pow, mul_one]
  have hadd : mulSmall p (SmallField.addMod SmallField.m31Scalar a b) =
      add (mulSmall p a) (mulSmall p b) := by
    rw [← num_inj, num_add, (mulSmall_num hp _).1, (mulSmall_num hp _).1, (mulSmall_num hp _).1,
      C12_add .m31Scalar a b (hm ▸ ha) (hm ▸ hb), hm, hmod, pow_add]
  -- subtraction is the solution of an addition
  have hsub : mulSmall p (SmallField.subMod SmallField.m31Scalar a b) =
      sub (mulSmall p a) (mulSmall p b) := by
    have h1 := SmallField.subMod_spec (IsConfig.m31Scalar).reduces a b (hm ▸ ha) (hm ▸ hb)
    have hB := (mulSmall_num hp b).2
    have h2 : add (mulSmall p (SmallField.subMod SmallField.m31Scalar a b)) (mulSmall p b) =
        mulSmall p a := by
      rw [← num_inj, num_add, (mulSmall_num hp _).1, (mulSmall_num hp _).1, (mulSmall_num hp _).1,
        h1, hm, hmod, ← pow_add, ← hmod]
      rw [← hmod a.toNat]
      congr 1
      omega
    rw [← h2]
    generalize mulSmall p (SmallField.subMod SmallField.m31Scalar a b) = u
    generalize hv : mulSmall p b = v at *
    unfold On at hB
    ext
    · simp [add, sub]; linear_combination -u.x * hB
    · simp [add, sub]; linear_combination -u.y * hB
  refine ⟨hadd, hsub, ?_, ?_, ?_, ?_⟩
  · have h1 := C12_negate .m31Scalar a (hm ▸ ha)
    rw [hm] at h1
    have h2 : add (mulSmall p (SmallField.negate SmallField.m31Scalar a)) (mulSmall p a) = zero := by
      rw [← num_inj, num_add, (mulSmall_num hp _).1, (mulSmall_num hp _).1, ← pow_add, ← hmod,
        num_zero]
      rw [show ((SmallField.negate SmallField.m31Scalar a).toNat + a.toNat) % 2 ^ 31 = 0 by omega,
        pow_zero]
    have hA := (mulSmall_num hp a).2
    have h3 := (C95_group (mulSmall p (SmallField.negate SmallField.m31Scalar a)) (mulSmall p a)
      (negate (mulSmall p a)) (mulSmall_num hp _).2 hA).2.2.2.2.2.1
    rw [h2, (C95_group (mulSmall p a) (mulSmall p a) zero hA hA).2.2.2.2.2.2.2.2.2.1] at h3
    rw [(C95_group _ (mulSmall p a) zero (mulSmall_num hp _).2 hA).2.2.2.2.2.2.2.1] at h3
    rw [← h3]
    ext <;> simp [add, zero]
  · rw [← num_inj, (mulSmall_num hp _).1, (mulSmall_num (mulSmall_num hp a).2 b).1,
      (mulSmall_num hp a).1, C12_mul_m31Scalar, hmod, pow_mul]
  · rw [← num_inj, (mulSmall_num hp _).1]; simp
  · rw [← num_inj, (mulSmall_num hp _).1, num_zero]; simp

example : mulSmall g1 5#32 = add (double (double g1)) g1 ∧ mulSmall g1 1073741824#32 = ⟨-1, 0⟩ := by
  decide +kernel

/-! ## `m31::G4` -/

/-- C95: the generator of `m31::G4` is on the circle, and every point of the circle over `m31::Fq4`
is `ScalarMul` of it by exactly one number below the modulus of `m31::Fr4`, `(2^31 - 1)^4 - 1`. -/
theorem C95_g4_generates : On g4 ∧ limbsVal fr4 = (2 ^ 31 - 1) ^ 4 - 1 ∧ ∀ p : Pt Fq4, On p →
    ∃ e : Limbs 64, e.length = 2 ∧ limbsVal e < limbsVal fr4 ∧ scalarMul g4 e = p ∧
      ∀ e' : Limbs 64, limbsVal e' < limbsVal fr4 → scalarMul g4 e' = p →
        limbsVal e' = limbsVal e := by
  have hN : limbsVal fr4 = fr4N := by decide +kernel
  refine ⟨g4_on, by decide +kernel, fun p hp => ?_⟩
  have f2 : Finite Fq2 := Finite.of_equiv _ (QuadraticAlgebra.equivProd _ _).symm
  have f4 : Finite Fq4 := Finite.of_equiv _ (QuadraticAlgebra.equivProd _ _).symm
  have n1 : Nontrivial Fq := ⟨0, 1, by decide⟩
  rw [hN]
  refine generates (w := 64) (by decide) g4 g4_on fr4N 2 (by decide +kernel) g4_order ?_ p hp
  refine (card_pt_le_units Fq4 ⟨⟨0, 1⟩, 0⟩ (by decide +kernel) ⟨⟨1073741824, 0⟩, 0⟩
    (by decide +kernel)).trans ?_
  rw [card_fq4]
  decide +kernel

/-! ## `m31::Fr4` -/

theorem montConstant_spec {w : Nat} (hw : 0 < w) (m v : Limbs w) (hodd : limbsVal m % 2 = 1)
    (hl : v.length = m.length) (hv : limbsVal v < limbsVal m) :
    limbsVal (montConstant m v) = 2 ^ (w * m.length) * limbsVal v % limbsVal m ∧
    (montConstant m v).length = m.length := by
  obtain ⟨m0, ms, rfl, h0⟩ := PrimeField.odd_cons hw hodd
  obtain ⟨r1, r2⟩ := montgomeryRk_spec hw 2 (by omega) (m0 :: ms) (by omega)
  obtain ⟨h1, h2, h3⟩ := slowMul_spec hw false m0 ms _ v (montgomeryRk 2 (m0 :: ms))
    (PrimeField.kInverse_spec hw h0) hl r2 (by simp) hv
  refine ⟨?_, h3⟩
  apply PrimeField.cancel_R_mod _ hodd _ h1
  refine h2.trans ?_
  rw [r1]
  refine ((Nat.mod_modEq _ _).mul_left _).trans ?_
  rw [show limbsVal v * (2 ^ (w * (m0 :: ms).length)) ^ 2
    = 2 ^ (w * (m0 :: ms).length) * (2 ^ (w * (m0 :: ms).length) * limbsVal v) by ring]

/-- C95: for an odd modulus the constant the generator writes for `v` is what `FromBigInt(v)`
computes at run time, and for `v = 1` it is `R mod m`. -/
theorem C95_montConstant {w : Nat} (hw : 0 < w) (m v : Limbs w) (hodd : limbsVal m % 2 = 1)
    (hl : v.length = m.length) (hv : limbsVal v < limbsVal m) :
    montConstant m v = PrimeField.fromBigInt m v ∧
    (limbsVal v = 1 → montConstant m v = PrimeField.one m) := by
  obtain ⟨a1, a2⟩ := montConstant_spec hw m v hodd hl hv
  obtain ⟨b1, b2⟩ := PrimeField.fromBigInt_spec hw m v hodd hl hv
  refine ⟨limbsVal_inj (a2.trans b2.symm) (a1.trans b1.symm), fun h1 => ?_⟩
  obtain ⟨r1, r2⟩ := montgomeryRk_spec hw 1 (by omega) m (by omega)
  refine limbsVal_inj (a2.trans r2.symm) ?_
  unfold PrimeField.one
  rw [a1, r1, h1, Nat.mul_one, pow_one]

/-- C95 (disagreement): for an even modulus the generated `kInverse64` is 0, so `Mul` (with the
no-carry optimisation, as for `m31::Fr4`) is `⌊a·b / R⌋` and `ToBigInt` returns 0 for every
element. -/
theorem C95_even_modulus (m a b : Limbs 64) (heven : limbsVal m % 2 = 0) (hm : m ≠ [])
    (hc : canUseNoCarry m = true) (hla : a.length = m.length) (hlb : b.length = m.length)
    (ha : limbsVal a < limbsVal m) (hb : limbsVal b < limbsVal m) :
    PrimeField.kInverse m = 0#64 ∧
    limbsVal (PrimeField.mul m a b) = limbsVal a * limbsVal b / 2 ^ (64 * m.length) ∧
    limbsVal (PrimeField.toBigInt m a) = 0 := by
  obtain ⟨m0, ms, rfl⟩ : ∃ m0 ms, m = m0 :: ms := by
    cases m with
    | nil => exact absurd rfl hm
    | cons m0 ms => exact ⟨m0, ms, rfl⟩
  have h0 : m0.toNat % 2 = 0 := by rwa [limbsVal_mod_two (by decide)] at heven
  have hinv : PrimeField.kInverse (m0 :: ms) = 0#64 := inverse_even (by decide) m0 h0
  have hR := limbsVal_lt (m0 :: ms)
  refine ⟨hinv, ?_, ?_⟩
  · obtain ⟨a0, as, rfl⟩ : ∃ a0 as, a = a0 :: as := by
      cases a with
      | nil => simp at hla
      | cons a0 as => exact ⟨a0, as, rfl⟩
    obtain ⟨g1, g2⟩ := fastMulGo_zero m0 ms a0 as (by simpa using hla) b (BigInt.zero (a0 :: as).length)
      (by simpa using hla)
    rw [limbsVal_zero, Nat.zero_add, hlb] at g1
    have hlt : limbsVal (a0 :: as) * limbsVal b / 2 ^ (64 * (m0 :: ms).length) <
        limbsVal (m0 :: ms) := by
      rw [Nat.div_lt_iff_lt_mul (Nat.two_pow_pos _)]
      exact Nat.mul_lt_mul'' ha (hb.trans hR)
    unfold PrimeField.mul
    rw [if_pos hc]
    unfold BigInt.fastMul
    rw [hinv]
    rw [(clamp_spec (by decide) _ _ _ false g2
      (fun _ => hasSpareBit_spec (by decide) _ (PrimeField.canUseNoCarry_spare _ hc))
      (by
        rw [g1, Bool.toNat_false, Nat.mul_zero, Nat.add_zero]
        exact hlt.trans_le (Nat.le_mul_of_pos_left _ (by decide)))).1, g1]
    simp only [Bool.toNat_false, Nat.mul_zero, Nat.add_zero]
    exact Nat.mod_eq_of_lt hlt
  · unfold PrimeField.toBigInt fromMontgomery
    rw [hinv, fromMontgomeryGo_zero m0 ms _ a hla]
    exact Nat.div_eq_of_lt (ha.trans hR)

/-- C95 (disagreement): `m31::Fr4` is such a field. Its generated `One()` is 0, so `P * One()` is
the zero point for every `P`; `FromBigInt(1)` is 0 as well; multiplication never returns an operand
that is not zero, so nothing is an identity; and `ToBigInt` is constantly 0. -/
theorem C95_fr4 (a b : Limbs 64) (hla : a.length = 2) (hlb : b.length = 2)
    (ha : limbsVal a < limbsVal fr4) (hb : limbsVal b < limbsVal fr4) :
    fr4One = [0#64, 0#64] ∧ (∀ p : Pt Fq4, mulBig p fr4One = zero) ∧
    PrimeField.fromBigInt fr4 [1#64, 0#64] = [0#64, 0#64] ∧
    limbsVal (PrimeField.mul fr4 a b) = limbsVal a * limbsVal b / 2 ^ 128 ∧
    (limbsVal a ≠ 0 → PrimeField.mul fr4 a b ≠ a) ∧
    limbsVal (PrimeField.toBigInt fr4 a) = 0 := by
  obtain ⟨-, h2, h3⟩ := C95_even_modulus fr4 a b (by decide +kernel) (by decide) (by decide +kernel)
    hla hlb ha hb
  have h1 : fr4One = [0#64, 0#64] := by decide +kernel
  refine ⟨h1, fun p => by rw [h1]; rfl, by decide +kernel, h2, fun h0 he => ?_, h3⟩
  rw [he] at h2
  have hlt : limbsVal a * limbsVal b / 2 ^ (64 * fr4.length) < limbsVal a := by
    rw [Nat.div_lt_iff_lt_mul (Nat.two_pow_pos _)]
    exact Nat.mul_lt_mul_of_pos_left
      (hb.trans (limbsVal_lt fr4)) (by omega)
  omega

/-- So `G4 * One()` is not the point itself. -/
example : mulBig g4 fr4One ≠ g4 := by decide +kernel

end Tachyon.Props
