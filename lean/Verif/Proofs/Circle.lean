import Verif.Spec.Circle
import Verif.Proofs.Pow
import Verif.Proofs.PrimeField
import Verif.Proofs.FieldInst
import Verif.Proofs.PrimeModuli
import Mathlib.GroupTheory.OrderOfElement
import Mathlib.Tactic.LinearCombination
import Mathlib.Tactic.FieldSimp
/-! # Lemmas about the circle group -/
namespace Tachyon.Circle
open Tachyon.BigInt

variable {F : Type} [CommRing F]

theorem num_inj {p q : Pt F} : num p = num q ↔ p = q := by
  rw [QuadraticAlgebra.ext_iff, Pt.ext_iff]; rfl

theorem num_zero : num (zero : Pt F) = 1 := rfl

theorem num_add (p q : Pt F) : num (add p q) = num p * num q := by
  ext <;> simp [num, add] <;> ring

theorem add_on {p q : Pt F} (hp : On p) (hq : On q) : On (add p q) := by
  unfold On add at *
  linear_combination (q.x ^ 2 + q.y ^ 2) * hp + hq

theorem doubleInPlace_eq (p : Pt F) : doubleInPlace p = double p := by
  ext <;> simp [doubleInPlace, double] ; ring

theorem double_eq {p : Pt F} : double p = add p p ↔ On p := by
  unfold On
  rw [Pt.ext_iff]
  simp only [double, add]
  constructor
  · rintro ⟨h, -⟩
    linear_combination h
  · intro h
    exact ⟨by linear_combination h, by ring⟩

theorem zero_on : On (zero : Pt F) := by simp [On, zero]

theorem scalarMul_spec {w : Nat} (hw : 0 < w) (p : Pt F) (hp : On p) (e : Limbs w) :
    On (scalarMul p e) ∧ num (scalarMul p e) = num p ^ limbsVal e := by
  have := doScalarMul_rel (M := Additive (QuadraticAlgebra F (-1) 0))
    (o := ⟨zero, add, doubleInPlace⟩)
    (S := fun a x => On a ∧ num a = Additive.toMul x) (R := fun a x => On a ∧ num a = Additive.toMul x)
    ⟨⟨zero_on, rfl⟩,
      fun {a b x y} ha hb => ⟨add_on ha.1 hb.1, by rw [num_add, ha.2, hb.2]; rfl⟩,
      fun {a x} ha => by
        show On (doubleInPlace a) ∧ num (doubleInPlace a) = _
        rw [doubleInPlace_eq, double_eq.2 ha.1]
        exact ⟨add_on ha.1 ha.1, by rw [num_add, ha.2]; rfl⟩⟩
    hw (g := p) (y := Additive.ofMul (num p)) ⟨hp, rfl⟩ e
  exact ⟨this.1, this.2⟩

/-! ## Counting -/

theorem card_pt_le_field (K : Type) [Field K] [Finite K] (h2 : (2 : K) ≠ 0) :
    Nat.card {p : Pt K // On p} ≤ Nat.card K + 1 := by
  classical
  have : Nat.card (Option K) = Nat.card K + 1 := by
    have := Fintype.ofFinite K
    simp [Nat.card_eq_fintype_card]
  rw [← this]
  apply Nat.card_le_card_of_injective
    (fun p : {p : Pt K // On p} => if p.1.x = -1 then none else some (p.1.y / (1 + p.1.x)))
  rintro ⟨⟨x, y⟩, h⟩ ⟨⟨x', y'⟩, h'⟩ he
  simp only [On] at h h'
  simp only at he
  have key : ∀ x y : K, x ^ 2 + y ^ 2 = 1 → x ≠ -1 →
      x * (1 + (y / (1 + x)) ^ 2) = 1 - (y / (1 + x)) ^ 2 := by
    intro x y h hx
    have hx' : 1 + x ≠ 0 := fun h0 => hx (by linear_combination h0)
    field_simp
    linear_combination (1 + x) * h
  split at he <;> split at he
  · rename_i h1 h3
    subst h1 h3
    have e1 : y = 0 := by
      have : y ^ 2 = 0 := by linear_combination h
      simpa using this
    have e2 : y' = 0 := by
      have : y' ^ 2 = 0 := by linear_combination h'
      simpa using this
    subst e1 e2; rfl
  · simp at he
  · simp at he
  · rename_i h1 h3
    have he : y / (1 + x) = y' / (1 + x') := by simpa using he
    have k1 := key x y h h1
    have k2 := key x' y' h' h3
    rw [← he] at k2
    generalize ht : y / (1 + x) = t at *
    have hx1 : 1 + x ≠ 0 := fun h0 => h1 (by linear_combination h0)
    have hx2 : 1 + x' ≠ 0 := fun h0 => h3 (by linear_combination h0)
    have hne : 1 + t ^ 2 ≠ 0 := by
      intro h0
      rw [h0] at k1
      apply h2
      linear_combination h0 - k1
    have hx : x = x' := by
      apply mul_right_cancel₀ hne
      rw [k1, k2]
    subst hx
    have hy : y = y' := by
      rw [div_eq_iff hx1] at ht
      rw [eq_div_iff hx1] at he
      rw [ht, he]
    subst hy; rfl

theorem card_pt_le_units (K : Type) [CommRing K] [Finite K] [Nontrivial K] (i : K) (hi : i ^ 2 = -1)
    (half : K) (hhalf : 2 * half = 1) :
    Nat.card {p : Pt K // On p} ≤ Nat.card K - 1 := by
  classical
  have : Nat.card {z : K // z ≠ 0} = Nat.card K - 1 := by
    have := Fintype.ofFinite K
    simp [Nat.card_eq_fintype_card, Fintype.card_subtype_compl]
  rw [← this]
  have hun : ∀ p : {p : Pt K // On p}, (p.1.x + i * p.1.y) * (p.1.x - i * p.1.y) = 1 := by
    intro p
    have := p.2
    unfold On at this
    linear_combination this - p.1.y ^ 2 * hi
  apply Nat.card_le_card_of_injective
    (fun p : {p : Pt K // On p} => (⟨p.1.x + i * p.1.y, fun h0 => by
      have := hun p
      rw [h0, zero_mul] at this
      exact zero_ne_one this⟩ : {z : K // z ≠ 0}))
  intro p q he
  have he : p.1.x + i * p.1.y = q.1.x + i * q.1.y := by simpa using he
  have h1 := hun p
  have h2 := hun q
  have hc : p.1.x - i * p.1.y = q.1.x - i * q.1.y := by
    rw [he] at h1
    linear_combination (q.1.x - i * q.1.y) * h1 - (p.1.x - i * p.1.y) * h2
  have hx : p.1.x = q.1.x := by
    linear_combination half * (he + hc) - (p.1.x - q.1.x) * hhalf
  have hy : p.1.y = q.1.y := by
    linear_combination -half * i * (he - hc) - (p.1.y - q.1.y) * hhalf -
      (-2 * half * (p.1.y - q.1.y)) * hi
  exact Subtype.ext (Pt.ext hx hy)

/-- A point whose order is at least the number of points generates all of them. -/
theorem generates {w : Nat} (hw : 0 < w) [Finite F] (g : Pt F) (hg : On g) (n len : ℕ)
    (hlen : n ≤ 2 ^ (w * len)) (hord : orderOf (num g) = n)
    (hcard : Nat.card {p : Pt F // On p} ≤ n) (p : Pt F) (hp : On p) :
    ∃ e : Limbs w, e.length = len ∧ limbsVal e < n ∧ scalarMul g e = p ∧
      ∀ e' : Limbs w, limbsVal e' < n → scalarMul g e' = p → limbsVal e' = limbsVal e := by
  have hfin : Finite {p : Pt F // On p} := by
    have : Finite (Pt F) := Finite.of_injective (fun p : Pt F => (p.x, p.y)) (by
      rintro ⟨a, b⟩ ⟨c, d⟩ h; simpa using h)
    infer_instance
  let f : Fin n → {p : Pt F // On p} := fun k =>
    ⟨scalarMul g (ofNatLimbs len k.1 : Limbs w), (scalarMul_spec hw g hg _).1⟩
  have hval : ∀ k : Fin n, limbsVal (ofNatLimbs len k.1 : Limbs w) = k.1 := fun k =>
    PrimeField.limbsVal_ofNatLimbs (k.2.trans_le hlen)
  have hinj : ∀ e e' : Limbs w, limbsVal e < n → limbsVal e' < n → scalarMul g e = scalarMul g e' →
      limbsVal e = limbsVal e' := by
    intro e e' h1 h2 h
    have := congrArg num h
    rw [(scalarMul_spec hw g hg e).2, (scalarMul_spec hw g hg e').2] at this
    exact pow_injOn_Iio_orderOf (by rw [hord]; exact h1) (by rw [hord]; exact h2) this
  have hf : Function.Injective f := by
    intro a b h
    have h : scalarMul g (ofNatLimbs len a.1 : Limbs w) = scalarMul g (ofNatLimbs len b.1) :=
      congrArg Subtype.val h
    have := hinj _ _ (by rw [hval]; exact a.2) (by rw [hval]; exact b.2) h
    rw [hval, hval] at this
    exact Fin.ext this
  have hs : Function.Surjective f :=
    (hf.bijective_of_nat_card_le (by rw [Nat.card_fin]; exact hcard)).2
  obtain ⟨k, hk⟩ := hs ⟨p, hp⟩
  have hk : scalarMul g (ofNatLimbs len k.1 : Limbs w) = p := congrArg Subtype.val hk
  exact ⟨_, by simp [ofNatLimbs], by rw [hval]; exact k.2, hk, fun e' h1 h2 =>
    hinj _ _ h1 (by rw [hval]; exact k.2) (h2.trans hk.symm)⟩

/-! ## The orders of the generators -/

theorem g1_on : On g1 := by unfold On g1; decide +kernel

theorem g1_order : orderOf (num g1) = 2147483648 := by
  have h31 : num g1 ^ 2 ^ 31 = 1 := by
    have := (scalarMul_spec (w := 64) (by decide) g1 g1_on [2147483648#64]).2
    rw [show limbsVal [2147483648#64] = 2 ^ 31 by decide,
      show scalarMul g1 [2147483648#64] = zero by decide +kernel] at this
    exact this.symm.trans num_zero
  have h30 : num g1 ^ 2 ^ 30 ≠ 1 := by
    have := (scalarMul_spec (w := 64) (by decide) g1 g1_on [1073741824#64]).2
    rw [show limbsVal [1073741824#64] = 2 ^ 30 by decide] at this
    rw [← this, ← num_zero, Ne, num_inj]
    decide +kernel
  have := orderOf_eq_prime_pow (p := 2) (n := 30) h30 h31
  rw [this]; norm_num

theorem g4_on : On g4 := by unfold On g4; decide +kernel

/-- `(2^31 - 1)^4 - 1`. -/
def fr4N : ℕ := 21267647892944572736998860269687930880

theorem prime_368140581013 : Nat.Prime 368140581013 := by
  refine prime_of_certificate _ 6 39 [2, 3, 61, 12973, 38767] (by decide) (by decide) (by decide +kernel)
    (by decide +kernel) fun q hq hd => ?_
  rw [show 368140581013 - 1 = 2 ^ 2 * 3 * 61 * 12973 * 38767 by decide +kernel] at hd
  simp only [hq.dvd_mul] at hd
  have pr : ∀ r : ℕ, r.Prime → q ∣ r → q = r := fun r hr h => (Nat.prime_dvd_prime_iff_eq hq hr).1 h
  rcases hd with (((hd | hd) | hd) | hd) | hd
  · simp [pr 2 (by norm_num) (hq.dvd_of_dvd_pow hd)]
  · simp [pr 3 (by norm_num) hd]
  · simp [pr 61 (by norm_num) hd]
  · simp [pr 12973 (by norm_num) hd]
  · simp [pr 38767 (by norm_num) hd]

theorem g4_pow (e : Limbs 64) (n : ℕ) (h : limbsVal e = n) :
    num g4 ^ n = 1 ↔ scalarMul g4 e = zero := by
  have := (scalarMul_spec (w := 64) (by decide) g4 g4_on e).2
  rw [← h, ← this, ← num_zero, num_inj]

theorem g4_ne_2 : num g4 ^ (fr4N / 2) ≠ 1 := by
  rw [Ne, g4_pow [13835058050987196416#64, 576460751229681664#64] _ (by decide +kernel)]
  decide +kernel

theorem g4_ne_3 : num g4 ^ (fr4N / 3) ≠ 1 := by
  rw [Ne, g4_pow [3074457342754947072#64, 384307167486454443#64] _ (by decide +kernel)]
  decide +kernel

theorem g4_ne_5 : num g4 ^ (fr4N / 5) ≠ 1 := by
  rw [Ne, g4_pow [16602069664620609536#64, 230584300491872665#64] _ (by decide +kernel)]
  decide +kernel

theorem g4_ne_7 : num g4 ^ (fr4N / 7) ≠ 1 := by
  rw [Ne, g4_pow [1317624575466405888#64, 164703071779909047#64] _ (by decide +kernel)]
  decide +kernel

theorem g4_ne_11 : num g4 ^ (fr4N / 11) ≠ 1 := by
  rw [Ne, g4_pow [838488366205894656#64, 104811045678123939#64] _ (by decide +kernel)]
  decide +kernel

theorem g4_ne_31 : num g4 ^ (fr4N / 31) ≠ 1 := by
  rw [Ne, g4_pow [297528129944027136#64, 37191016208366559#64] _ (by decide +kernel)]
  decide +kernel

theorem g4_ne_151 : num g4 ^ (fr4N / 151) ≠ 1 := by
  rw [Ne, g4_pow [61081933962018816#64, 7635241738141479#64] _ (by decide +kernel)]
  decide +kernel

theorem g4_ne_331 : num g4 ^ (fr4N / 331) ≠ 1 := by
  rw [Ne, g4_pow [27865172290830336#64, 3483146533109859#64] _ (by decide +kernel)]
  decide +kernel

theorem g4_ne_733 : num g4 ^ (fr4N / 733) ≠ 1 := by
  rw [Ne, g4_pow [4794140171941445632#64, 1572880630913183#64] _ (by decide +kernel)]
  decide +kernel

theorem g4_ne_1709 : num g4 ^ (fr4N / 1709) ≠ 1 := by
  rw [Ne, g4_pow [16347334054783221760#64, 674617614078035#64] _ (by decide +kernel)]
  decide +kernel

theorem g4_ne_368140581013 : num g4 ^ (fr4N / 368140581013) ≠ 1 := by
  rw [Ne, g4_pow [9169569110386802688#64, 3131742#64] _ (by decide +kernel)]
  decide +kernel

theorem g4_order : orderOf (num g4) = fr4N := by
  apply orderOf_eq_of_pow_and_pow_div_prime (by decide)
  · exact (g4_pow fr4 _ (by decide +kernel)).2 (by decide +kernel)
  · intro q hq hd
    have hq' : q ∈ [2, 3, 5, 7, 11, 31, 151, 331, 733, 1709, 368140581013] := by
      rw [show fr4N = 2 ^ 33 * 3 ^ 2 * 5 * 7 * 11 * 31 * 151 * 331 * 733 * 1709 * 368140581013 by
        decide +kernel] at hd
      simp only [hq.dvd_mul] at hd
      have pr : ∀ r : ℕ, r.Prime → q ∣ r → q = r := fun r hr h => (Nat.prime_dvd_prime_iff_eq hq hr).1 h
      rcases hd with (((((((((hd | hd) | hd) | hd) | hd) | hd) | hd) | hd) | hd) | hd) | hd
      · simp [pr 2 (by norm_num) (hq.dvd_of_dvd_pow hd)]
      · simp [pr 3 (by norm_num) (hq.dvd_of_dvd_pow hd)]
      · simp [pr _ (by norm_num) hd]
      · simp [pr _ (by norm_num) hd]
      · simp [pr _ (by norm_num) hd]
      · simp [pr _ (by norm_num) hd]
      · simp [pr _ (by norm_num) hd]
      · simp [pr _ (by norm_num) hd]
      · simp [pr _ (by norm_num) hd]
      · simp [pr _ (by norm_num) hd]
      · simp [pr _ prime_368140581013 hd]
    simp only [List.mem_cons, List.not_mem_nil, or_false] at hq'
    rcases hq' with rfl | rfl | rfl | rfl | rfl | rfl | rfl | rfl | rfl | rfl | rfl
    · exact g4_ne_2
    · exact g4_ne_3
    · exact g4_ne_5
    · exact g4_ne_7
    · exact g4_ne_11
    · exact g4_ne_31
    · exact g4_ne_151
    · exact g4_ne_331
    · exact g4_ne_733
    · exact g4_ne_1709
    · exact g4_ne_368140581013

theorem card_fq4 : Nat.card Fq4 = 2147483647 ^ 4 := by
  have h2 : Nat.card Fq2 = 2147483647 ^ 2 := by
    rw [Nat.card_congr (QuadraticAlgebra.equivProd _ _), Nat.card_prod, Nat.card_zmod]; norm_num
  rw [Nat.card_congr (QuadraticAlgebra.equivProd _ _), Nat.card_prod, h2]; norm_num

/-! ## Montgomery arithmetic with an even modulus -/

theorem inverse_even {w : Nat} (hw : 3 ≤ w) (m0 : BitVec w) (h : m0.toNat % 2 = 0) :
    modulusInverse m0 = 0#w := by
  have h1 := inverseGo_spec m0 (w - 1) 1#w
  have hle : w ≤ 2 ^ (w - 1) - 1 := by
    obtain ⟨k, rfl⟩ : ∃ k, w = k + 3 := ⟨w - 3, by omega⟩
    have : k < 2 ^ k := Nat.lt_two_pow_self
    have e : 2 ^ (k + 3 - 1) = 4 * 2 ^ k := by rw [show k + 3 - 1 = k + 2 by omega, pow_add]; ring
    omega
  have hd : 2 ^ w ∣ m0.toNat ^ (2 ^ (w - 1) - 1) :=
    (pow_dvd_pow 2 hle).trans (pow_dvd_pow_of_dvd (Nat.dvd_of_mod_eq_zero h) _)
  have h2 : (inverseGo m0 (w - 1) 1#w).toNat ≡ 0 [MOD 2 ^ w] :=
    h1.trans ((Nat.modEq_zero_iff_dvd).2 (hd.mul_left _))
  have h3 : inverseGo m0 (w - 1) 1#w = 0#w := by
    apply BitVec.eq_of_toNat_eq
    rw [Nat.ModEq, Nat.mod_eq_of_lt (BitVec.isLt _)] at h2
    simpa using h2
  rw [modulusInverse, h3]; simp

theorem fromMontgomeryGo_zero {w : Nat} (m0 : BitVec w) (ms : Limbs w) :
    ∀ (n : Nat) (r : Limbs w), r.length = (m0 :: ms).length →
      limbsVal (fromMontgomeryGo (m0 :: ms) 0#w n r) = limbsVal r / 2 ^ (w * n)
  | 0, r, _ => by simp [fromMontgomeryGo]
  | n + 1, [], hl => by simp at hl
  | n + 1, r0 :: rs, hl => by
    simp only [List.length_cons] at hl
    have h1 := mulAdd_spec r0 (r0 * 0#w) m0 0#w
    have hk : r0 * 0#w = 0#w := by simp
    rw [hk] at h1
    obtain ⟨h2, h3⟩ := mulAddRow_spec (0#w) ms rs (mulAddWithCarry r0 0#w m0 0#w).hi (by omega)
    rw [List.take_of_length_le (by omega : rs.length ≤ ms.length)] at h2
    simp only [fromMontgomeryGo, hk]
    rw [fromMontgomeryGo_zero m0 ms n _ (by simp [h3])]
    simp only [BitVec.toNat_ofNat, Nat.zero_mod, Nat.zero_mul, Nat.add_zero] at h1 h2
    have hhi : (mulAddWithCarry r0 0#w m0 0#w).hi.toNat = 0 := by
      have := r0.isLt
      by_contra hc
      have : 2 ^ w * 1 ≤ 2 ^ w * (mulAddWithCarry r0 0#w m0 0#w).hi.toNat :=
        Nat.mul_le_mul_left _ (by omega)
      omega
    rw [hhi] at h2
    rw [limbsVal_append, h3, limbsVal_cons, limbsVal_nil, Nat.mul_zero, Nat.add_zero, h2,
      Nat.add_zero, limbsVal_cons, Nat.mul_succ, Nat.add_comm (w * n) w, pow_add, ← Nat.div_div_eq_div_mul]
    congr 1
    rw [Nat.add_mul_div_left _ _ (Nat.two_pow_pos w), Nat.div_eq_of_lt r0.isLt, Nat.zero_add]

theorem fastMulGo_zero {w : Nat} (m0 : BitVec w) (ms : Limbs w) (a0 : BitVec w) (as : Limbs w)
    (hla : as.length = ms.length) :
    ∀ (b r : Limbs w), r.length = (m0 :: ms).length →
      limbsVal (fastMulGo (m0 :: ms) 0#w (a0 :: as) b r) =
        (limbsVal r + limbsVal (a0 :: as) * limbsVal b) / 2 ^ (w * b.length) ∧
      (fastMulGo (m0 :: ms) 0#w (a0 :: as) b r).length = (m0 :: ms).length
  | [], r, hl => by simpa [fastMulGo] using hl
  | bi :: bs, [], hl => by simp at hl
  | bi :: bs, r0 :: rs, hl => by
    simp only [List.length_cons] at hl
    have e1 := mulAdd_spec r0 a0 bi 0#w
    generalize ht1 : mulAddWithCarry r0 a0 bi 0#w = t1 at *
    have hk : t1.lo * 0#w = 0#w := by simp
    have e2 := mulAdd_spec t1.lo 0#w m0 0#w
    obtain ⟨e3, e4⟩ := fastRow_spec bi 0#w as ms rs t1.hi (mulAddWithCarry t1.lo 0#w m0 0#w).hi hla
      (by omega)
    simp only [fastMulGo, ht1, hk]
    generalize hu : fastRow bi 0#w as ms rs t1.hi (mulAddWithCarry t1.lo 0#w m0 0#w).hi = u at *
    simp only [BitVec.toNat_ofNat, Nat.zero_mod, Nat.zero_mul, Nat.add_zero] at e1 e2 e3
    have hhi : (mulAddWithCarry t1.lo 0#w m0 0#w).hi.toNat = 0 := by
      have := t1.lo.isLt
      by_contra hc
      have : 2 ^ w * 1 ≤ 2 ^ w * (mulAddWithCarry t1.lo 0#w m0 0#w).hi.toNat :=
        Nat.mul_le_mul_left _ (by omega)
      omega
    rw [hhi, Nat.add_zero] at e3
    have hstep : t1.lo.toNat + 2 ^ w * (limbsVal u.1 + 2 ^ (w * as.length) * (u.2.1.toNat + u.2.2.toNat))
        = limbsVal (r0 :: rs) + bi.toNat * limbsVal (a0 :: as) := by
      simp only [limbsVal_cons]
      linear_combination e1 + 2 ^ w * e3
    have hbi := bi.isLt
    have hA := limbsVal_lt (a0 :: as)
    have hR := limbsVal_lt (r0 :: rs)
    simp only [List.length_cons] at hA hR
    rw [show rs.length = as.length by omega] at hR
    have hbound : limbsVal u.1 + 2 ^ (w * as.length) * (u.2.1.toNat + u.2.2.toNat) <
        2 ^ (w * (as.length + 1)) := by
      have : 2 ^ w * (limbsVal u.1 + 2 ^ (w * as.length) * (u.2.1.toNat + u.2.2.toNat)) <
          2 ^ w * 2 ^ (w * (as.length + 1)) := by
        generalize 2 ^ (w * (as.length + 1)) = T at *
        generalize limbsVal (a0 :: as) = A at *
        obtain ⟨B, hB⟩ : ∃ B, 2 ^ w = B + 1 := ⟨2 ^ w - 1, by have := Nat.two_pow_pos w; omega⟩
        have g1 : bi.toNat * A ≤ B * A := Nat.mul_le_mul_right _ (by omega)
        have g2 : B * A ≤ B * T := Nat.mul_le_mul_left _ (by omega)
        have g3 : 2 ^ w * T = B * T + T := by rw [hB]; ring
        omega
      exact Nat.lt_of_mul_lt_mul_left this
    have htop : u.2.1.toNat + u.2.2.toNat < 2 ^ w := by
      have h1 : 2 ^ (w * as.length) * (u.2.1.toNat + u.2.2.toNat) < 2 ^ (w * as.length) * 2 ^ w := by
        rw [← pow_add, ← Nat.mul_succ]
        exact (Nat.le_add_left _ _).trans_lt hbound
      exact Nat.lt_of_mul_lt_mul_left h1
    have hval : limbsVal (u.1 ++ [u.2.1 + u.2.2]) =
        limbsVal u.1 + 2 ^ (w * as.length) * (u.2.1.toNat + u.2.2.toNat) := by
      rw [limbsVal_append, e4, limbsVal_cons, limbsVal_nil, BitVec.toNat_add, Nat.mod_eq_of_lt htop]
      simp
    obtain ⟨g1, g2⟩ := fastMulGo_zero m0 ms a0 as hla bs (u.1 ++ [u.2.1 + u.2.2])
      (by simp [e4, hla])
    refine ⟨?_, g2⟩
    rw [g1, hval, limbsVal_cons bi, List.length_cons, Nat.mul_succ, Nat.add_comm (w * _) w, pow_add,
      ← Nat.div_div_eq_div_mul]
    congr 1
    rw [show limbsVal (r0 :: rs) + limbsVal (a0 :: as) * (bi.toNat + 2 ^ w * limbsVal bs) =
      t1.lo.toNat + 2 ^ w * (limbsVal u.1 + 2 ^ (w * as.length) * (u.2.1.toNat + u.2.2.toNat) +
        limbsVal (a0 :: as) * limbsVal bs) by linear_combination -hstep,
      Nat.add_mul_div_left _ _ (Nat.two_pow_pos w), Nat.div_eq_of_lt t1.lo.isLt, Nat.zero_add]

end Tachyon.Circle
