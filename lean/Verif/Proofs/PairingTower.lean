import Verif.Spec.Pairing
import Verif.Proofs.ExtConds
import Verif.Proofs.Sparse
import Verif.Props.ExtField
/-! The towers of the curves implement what the pairing code needs. -/
namespace Tachyon.Pairing
open Polynomial

section
variable {K : Type} [CommRing K] (q : K)

/-- The embedding of the base field of `Fp6` into `Fp12`. -/
noncomputable abbrev towerMap : K →+* Ext 2 (Ext.x 3 q) := (Ext.of 2 (Ext.x 3 q)).comp (Ext.of 3 q)

theorem tower_034 (a b c : K) : towerMap q a + towerMap q b * Ext.x 2 (Ext.x 3 q) + towerMap q c * Ext.x 2 (Ext.x 3 q) ^ 3
    = Ext.of 2 (Ext.x 3 q) (Ext.of 3 q a)
      + Ext.of 2 (Ext.x 3 q) (Ext.of 3 q b + Ext.of 3 q c * Ext.x 3 q) * Ext.x 2 (Ext.x 3 q) := by
  have hY2 := Ext.x_pow 2 (Ext.x 3 q)
  simp only [RingHom.comp_apply, map_add, map_mul]
  linear_combination (Ext.of 2 (Ext.x 3 q) (Ext.of 3 q c) * Ext.x 2 (Ext.x 3 q)) * hY2

theorem tower_014 (a b c : K) : towerMap q a + towerMap q b * Ext.x 2 (Ext.x 3 q) ^ 2 + towerMap q c * Ext.x 2 (Ext.x 3 q) ^ 3
    = Ext.of 2 (Ext.x 3 q) (Ext.of 3 q a + Ext.of 3 q b * Ext.x 3 q)
      + Ext.of 2 (Ext.x 3 q) (Ext.of 3 q c * Ext.x 3 q) * Ext.x 2 (Ext.x 3 q) := by
  have hY2 := Ext.x_pow 2 (Ext.x 3 q)
  simp only [RingHom.comp_apply, map_add, map_mul]
  linear_combination (Ext.of 2 (Ext.x 3 q) (Ext.of 3 q c) * Ext.x 2 (Ext.x 3 q) + Ext.of 2 (Ext.x 3 q) (Ext.of 3 q b)) * hY2

theorem tower_w6 : Ext.x 2 (Ext.x 3 q) ^ 6 = towerMap q q := by
  have hY2 := Ext.x_pow 2 (Ext.x 3 q)
  have hX3 := congrArg (Ext.of 2 (Ext.x 3 q)) (Ext.x_pow 3 q)
  rw [map_pow] at hX3
  rw [RingHom.comp_apply, ← hX3, ← hY2]
  ring

variable [Nontrivial K]

theorem tower_independent (a b c : K)
    (e : towerMap q a + towerMap q b * Ext.x 2 (Ext.x 3 q) + towerMap q c * Ext.x 2 (Ext.x 3 q) ^ 3 = 0) :
    a = 0 ∧ b = 0 ∧ c = 0 := by
  have := Ext.nontrivial (n := 3) (by norm_num) q
  rw [tower_034] at e
  obtain ⟨e0, e1⟩ := Ext.zero2 e
  have h0 := Ext.zero3 (q := q) (y0 := a) (y1 := 0) (y2 := 0) (by simpa using e0)
  have h1 := Ext.zero3 (q := q) (y0 := b) (y1 := c) (y2 := 0) (by simpa using e1)
  exact ⟨h0.1, h1.1, h1.2.1⟩

theorem tower_independent' (a b c : K)
    (e : towerMap q a + towerMap q b * Ext.x 2 (Ext.x 3 q) ^ 2 + towerMap q c * Ext.x 2 (Ext.x 3 q) ^ 3 = 0) :
    a = 0 ∧ b = 0 ∧ c = 0 := by
  have := Ext.nontrivial (n := 3) (by norm_num) q
  rw [tower_014] at e
  obtain ⟨e0, e1⟩ := Ext.zero2 e
  have h0 := Ext.zero3 (q := q) (y0 := a) (y1 := b) (y2 := 0) (by simpa using e0)
  have h1 := Ext.zero3 (q := q) (y0 := 0) (y1 := c) (y2 := 0) (by simpa using e1)
  exact ⟨h0.1, h0.2.1, h1.2.1⟩

variable {q} {p : ℕ} [hpf : Fact p.Prime] [CharP K p]

theorem tower_conj (h2 : 2 ∣ p - 1) (hx : Ext.x 3 q ^ ((p ^ 6 - 1) / 2) = -1) (hfix : ∀ x : Ext 3 q, x ^ p ^ 6 = x)
    (y0 y1 : Ext 3 q) : (Ext.of 2 (Ext.x 3 q) y0 + Ext.of 2 (Ext.x 3 q) y1 * Ext.x 2 (Ext.x 3 q)) ^ p ^ 6
      = Ext.of 2 (Ext.x 3 q) y0 + Ext.of 2 (Ext.x 3 q) (-y1) * Ext.x 2 (Ext.x 3 q) := by
  have n6 := Ext.nontrivial (n := 3) (by norm_num) q
  have c6 := Ext.charP (n := 3) (by norm_num) q p
  rw [Ext.frob2 h2, hx, hfix, hfix, mul_neg, mul_one]

theorem tower_conj_w (h2 : 2 ∣ p - 1) (hx : Ext.x 3 q ^ ((p ^ 6 - 1) / 2) = -1) (hfix : ∀ x : Ext 3 q, x ^ p ^ 6 = x) :
    Ext.x 2 (Ext.x 3 q) ^ p ^ 6 = -Ext.x 2 (Ext.x 3 q) := by
  simpa using tower_conj h2 hx hfix 0 1

theorem tower_fixed (h2 : 2 ∣ p - 1) (hx : Ext.x 3 q ^ ((p ^ 6 - 1) / 2) = -1) (hfix : ∀ x : Ext 3 q, x ^ p ^ 6 = x)
    (x : Ext 2 (Ext.x 3 q)) : x ^ p ^ 12 = x := by
  have n6 := Ext.nontrivial (n := 3) (by norm_num) q
  obtain ⟨y0, y1, rfl⟩ := Ext.exists2 (Ext.x 3 q) x
  rw [show p ^ 12 = p ^ 6 * p ^ 6 by ring, pow_mul, tower_conj h2 hx hfix, tower_conj h2 hx hfix, neg_neg]

end

section
variable {p : ℕ} [hpf : Fact p.Prime] {q2 : ZMod p}

/-- `X^((p⁶-1)/2) = -1` for the generator `X` of `Fp6`. -/
theorem tower_x (hq2 : ¬ IsSquare q2) (h6 : 6 ∣ p - 1) {q6 : Ext 2 q2} (hs : ¬ IsSquare q6) :
    Ext.x 3 q6 ^ ((p ^ 6 - 1) / 2) = -1 := by
  rw [Ext.x_table (m := 3) (by norm_num) h6, show 2 * 3 = 6 from rfl]
  have e : q6 ^ ((p ^ 6 - 1) / 6) = -1 := by
    have h62 := dvd_pow_sub_one h6 2
    have := pow_table_pow (Nat.pow_pos hpf.out.pos) h62 (ext2_fixed hq2 q6) 3
    rw [← pow_mul] at this
    rw [this, ← pow_mul, ← nonsquare_root_ext2 hq2 hs]
    congr 1
    obtain ⟨c, hc⟩ := h62
    rw [hc]
    omega
  rw [e, map_neg, map_one]

theorem tower_nonsquare (hq2 : ¬ IsSquare q2) (h6 : 6 ∣ p - 1) {q6 : Ext 2 q2} (hs : ¬ IsSquare q6)
    (hfix : ∀ x : Ext 3 q6, x ^ p ^ 6 = x) (hu : ∀ x : Ext 3 q6, x ≠ 0 → IsUnit x) : ¬ IsSquare (Ext.x 3 q6) := by
  rintro ⟨y, hy⟩
  have h1 := tower_x hq2 h6 hs
  have := Ext.nontrivial (n := 2) (by norm_num) q2
  have := Ext.nontrivial (n := 3) (by norm_num) q6
  have := Ext.charP (n := 2) (by norm_num) q2 p
  have := Ext.charP (n := 3) (by norm_num) q6 p
  have h2 : 2 ∣ p ^ 6 - 1 := dvd_pow_sub_one ((by norm_num : 2 ∣ 6).trans h6) 6
  have hy0 : y ≠ 0 := by
    rintro rfl
    rw [hy, mul_zero, zero_pow] at h1
    · have := congrArg Neg.neg h1
      simp at this
    · have : 2 ^ 6 ≤ p ^ 6 := Nat.pow_le_pow_left hpf.out.two_le 6
      omega
  have h3 := pow_sub_one_eq_one (hu y hy0) (Nat.pow_pos hpf.out.pos) (hfix y)
  rw [hy, ← sq, ← pow_mul, Nat.mul_div_cancel' h2, h3] at h1
  have hp2 : (2 : Ext 3 q6) = 0 := by linear_combination h1
  have h5 : p ∣ 2 := (CharP.cast_eq_zero_iff (Ext 3 q6) p 2).1 (by exact_mod_cast hp2)
  have h7 := Nat.le_of_dvd (by norm_num) h5
  have h8 := hpf.out.two_le
  have : p = 2 := by omega
  rw [this] at h6
  omega

theorem ext6_fixed (hq2 : ¬ IsSquare q2) (h6 : 6 ∣ p - 1) {q6 : Ext 2 q2} (h0 : IsUnit q6) (x : Ext 3 q6) :
    x ^ p ^ 6 = x := by
  have := Ext.nontrivial (n := 2) (by norm_num) q2
  have := Ext.charP (n := 2) (by norm_num) q2 p
  obtain ⟨y0, y1, y2, rfl⟩ := Ext.exists3 q6 x
  have h3 : 3 ∣ p - 1 := (by norm_num : 3 ∣ 6).trans h6
  have hf : ∀ y : Ext 2 q2, y ^ p ^ 6 = y := fun y => by
    rw [show p ^ 6 = p ^ 2 * p ^ 2 * p ^ 2 by ring, pow_mul, pow_mul, ext2_fixed hq2, ext2_fixed hq2, ext2_fixed hq2]
  have e := pow_table_top h0 (Nat.pow_pos hpf.out.pos) (ext2_fixed hq2 q6) (dvd_pow_sub_one h3 2)
  rw [← pow_mul] at e
  rw [Ext.frob3 (p := p) h3, hf, hf, hf, Nat.mul_comm 2 ((p ^ 6 - 1) / 3), pow_mul, e, one_pow, mul_one, mul_one]

variable {α : Type} {o : FieldOps α} {R : α → ZMod p → Prop}

theorem tower_implements (h : o.Implements R) (hf : ∀ e a, o.frobenius e a = a) (hq2 : ¬ IsSquare q2) (h6 : 6 ∣ p - 1)
    {N : ℕ} (hN : p < 2 ^ (64 * N)) {nr2 : α → α} (hnr2 : ∀ {a x}, R a x → R (nr2 a) (q2 * x)) {m2 : Bool}
    (hm2 : m2 = true → q2 = -1) {q6 : Ext 2 q2} (hs : ¬ IsSquare q6) (hc : ∀ b, b ^ 3 ≠ q6)
    {nr6 : Ext2 α → Ext2 α} (hnr6 : ∀ {a x}, Ext2.Rel R q2 a x → Ext2.Rel R q2 (nr6 a) (q6 * x))
    {qa : Ext2 α} (hqa : Ext2.Rel R q2 qa q6) :
    (towerOps o nr2 m2 nr6 qa p N).Implements R (Ext2.Rel R q2) (Ext2.Rel (Ext3.Rel (Ext2.Rel R q2) q6) (Ext.x 3 q6))
      (Ext.of 2 q2) (towerMap q6) (Ext.x 2 (Ext.x 3 q6)) q6 p := by
  have n2 := Ext.nontrivial (n := 2) (by norm_num) q2
  have c2 := Ext.charP (n := 2) (by norm_num) q2 p
  have n6 := Ext.nontrivial (n := 3) (by norm_num) q6
  have c6 := Ext.charP (n := 3) (by norm_num) q6 p
  have h2 : 2 ∣ p - 1 := (by norm_num : 2 ∣ 6).trans h6
  have hodd : p % 2 = 1 := by have := hpf.out.two_le; omega
  have hu2 : ∀ x : Ext 2 q2, x ≠ 0 → IsUnit x := fun x hx => Ext2.isUnit_of_ne_zero hq2 hx
  have hq60 : q6 ≠ 0 := by rintro rfl; exact hs IsSquare.zero
  have hu6 : ∀ x : Ext 3 q6, x ≠ 0 → IsUnit x := by
    have : Fact (¬ IsSquare q2) := ⟨hq2⟩
    intro x hx
    exact Ext3.isUnit_of_ne_zero (K := Ext 2 q2) hc hx
  have hfix6 := ext6_fixed hq2 h6 (hu2 q6 hq60)
  have hns := tower_nonsquare hq2 h6 hs hfix6 hu6
  have hx := tower_x hq2 h6 hs
  have i2 := Ext2.implements (cfg := fp2Config o nr2 m2) h hnr2 hm2
  have i6 := Ext3.implements (cfg := fp6CubicConfig (Ext2.ops o (fp2Config o nr2 m2)) nr6 qa p N) i2 hnr6
  have hn12 : ∀ {a x}, Ext3.Rel (Ext2.Rel R q2) q6 a x → Ext3.Rel (Ext2.Rel R q2) q6
      (Fp12.mulByX3 (fp6CubicConfig (Ext2.ops o (fp2Config o nr2 m2)) nr6 qa p N) a) (Ext.x 3 q6 * x) :=
    fun ha => Fp12.mulByX3_rel hnr6 ha
  have i12 := Ext2.implements (cfg := fp12Config (Ext2.ops o (fp2Config o nr2 m2))
    (Fp12.mulByX3 (fp6CubicConfig (Ext2.ops o (fp2Config o nr2 m2)) nr6 qa p N)) false qa p N) i6 hn12
    (fun h => by simp [fp12Config] at h)
  refine ⟨h, i2, i12, fp2_frob h hf hq2 nr2 m2, fp12_frob h hf hq2 h6 hN nr2 hnr2 m2 hm2 (hu2 q6 hq60) hqa nr6 _ false,
    ?_, ?_, ?_, ?_, ?_, ?_, ?_, hodd, ZMod.pow_card, ext2_fixed hq2, tower_fixed h2 hx hfix6, ?_,
    tower_w6 q6, tower_conj_w h2 hx hfix6, tower_independent q6, tower_independent' q6⟩
  · intro a x b y ha hb
    exact Ext2.mulBase_rel h ha hb
  · intro a x b0 b3 b4 y0 y3 y4 ha r0 r3 r4
    have := (Props.C17_fp12 i2 (cfg := fp6CubicConfig (Ext2.ops o (fp2Config o nr2 m2)) nr6 qa p N) hnr6 hn12 ha r0 r0 r3 r4).1
    rw [tower_034]
    exact this
  · intro a x b0 b1 b4 y0 y1 y4 ha r0 r1 r4
    have := (Props.C17_fp12 i2 (cfg := fp6CubicConfig (Ext2.ops o (fp2Config o nr2 m2)) nr6 qa p N) hnr6 hn12 ha r0 r1 r0 r4).2
    rw [tower_014]
    exact this
  · intro a x ha hx0
    have hz := Ext2.isZero_rel i6 ha
    refine ⟨_, if_neg (by rw [hz]; exact hx0), ?_⟩
    obtain ⟨y0, y1, r0, r1, rfl⟩ := ha
    rw [tower_conj h2 hx hfix6]
    exact ⟨y0, -y1, r0, i6.neg r1, rfl⟩
  · intro a x ha hx0
    exact if_pos ((Ext2.isZero_rel i6 ha).2 hx0)
  · intro a x ha hx
    have hp6 : (p % 6 == 1) = true := by
      have := hpf.out.two_le
      have : p % 6 = 1 := by omega
      simp [this]
    change Ext2.Rel _ _ (Fp12.fastCyclotomicSquare _ _ (p % 6 == 1) _ a) _
    rw [hp6]
    exact Props.C18_cyclotomicSquare h hq2 h6 hnr2 m2 hm2 hs hc hnr6 _ ha hx
  · rw [isUnit_iff_ne_zero]
    intro e
    have h5 : p ∣ 2 := (CharP.cast_eq_zero_iff (ZMod p) p 2).1 (by exact_mod_cast e)
    have := Nat.le_of_dvd (by norm_num) h5
    have := hpf.out.two_le
    omega
  · intro x hx0
    have : Fact (¬ IsSquare q2) := ⟨hq2⟩
    have : Fact (Irreducible (X ^ 3 - C q6 : (Ext 2 q2)[X])) := ⟨X_pow_sub_C_irreducible_of_prime Nat.prime_three hc⟩
    exact Ext2.isUnit_of_ne_zero (K := Ext 3 q6) hns hx0

end
end Tachyon.Pairing
