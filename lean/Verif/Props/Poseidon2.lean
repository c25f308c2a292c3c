import Verif.Proofs.Poseidon2
import Verif.Props.SmallField
import Verif.Spec.F7
import Mathlib.Data.ZMod.Basic
import Mathlib.FieldTheory.Finite.Basic
/-!
# C73: Poseidon2
-/
namespace Tachyon.Props
open Matrix Poseidon2

variable {F : Type} [Field F]

/-! ## The external matrix -/

/-- **C73 (external matrix).** For every width there is a matrix for, the shortcut `Apply` multiplies by the matrix
`Construct` builds, which has ones and twos for width 2 and 3 and otherwise the blocks of the vendor's matrix of size
four, doubled on the diagonal if there is more than one. -/
theorem C73_external (vd : Vendor) {n : ℕ} (h : n ≤ 24 ∧ (n = 2 ∨ n = 3 ∨ 4 ≤ n ∧ n % 4 = 0)) (v : Fin n → F) :
    constructExternal vd n = some (Spec.external (construct4 vd) : Matrix (Fin n) (Fin n) F) ∧
      applyExternal vd v = some (Spec.external (construct4 vd) *ᵥ v) :=
  ⟨constructExternal_eq vd h, applyExternal_eq vd h v⟩

/-- **C73 (other widths).** For all other widths both stop. -/
theorem C73_external_none (vd : Vendor) {n : ℕ} (h : ¬ (n ≤ 24 ∧ (n = 2 ∨ n = 3 ∨ 4 ≤ n ∧ n % 4 = 0)))
    (v : Fin n → F) :
    (constructExternal vd n : Option (Matrix (Fin n) (Fin n) F)) = none ∧ applyExternal vd v = none :=
  ⟨constructExternal_none vd h, applyExternal_none vd h v⟩

/-- **C73 (the external layer is invertible).** Width 2 and 3: iff the width plus one is not zero in the field. More:
iff 2 (Horizen) or 35 (Plonky3) is not zero and, for more than one block, the number of blocks plus one is not. -/
theorem C73_external_injective (vd : Vendor) {n : ℕ} (h : n ≤ 24 ∧ (n = 2 ∨ n = 3 ∨ 4 ≤ n ∧ n % 4 = 0)) :
    Function.Injective (fun v : Fin n → F => applyExternal vd v) ↔
      if n < 4 then ((n + 1 : ℕ) : F) ≠ 0
      else (if vd = .horizen then (2 : F) else 35) ≠ 0 ∧
        (4 < n → ((n / 4 + 1 : ℕ) : F) ≠ 0) := by
  have e : Function.Injective (fun v : Fin n → F => applyExternal vd v) ↔
      Function.Injective (fun v : Fin n → F => Spec.external (construct4 vd) *ᵥ v) := by
    have : (fun v : Fin n → F => applyExternal vd v) = some ∘ fun v => Spec.external (construct4 vd) *ᵥ v :=
      funext fun v => applyExternal_eq vd h v
    rw [this]
    exact ⟨fun h => h.of_comp, fun h => (Option.some_injective _).comp h⟩
  have hd : (construct4 vd : Matrix (Fin 4) (Fin 4) F).det ≠ 0 ↔
      (if vd = .horizen then (2 : F) else 35) ≠ 0 := by
    cases vd
    · rw [det_horizen, show (-64 : F) = -(2 ^ 6) by norm_num]
      simp
    · rw [det_plonky3]
      simp
  rw [e]
  by_cases h4 : n < 4
  · rw [if_pos h4, external_small _ n h4, internal_injective one_ne_zero (fun _ => one_ne_zero)]
    simp [add_comm]
  · rw [if_neg h4]
    obtain ⟨m, rfl⟩ : ∃ m, n = 4 * m := ⟨n / 4, by omega⟩
    by_cases h1 : m = 1
    · subst h1
      rw [← hd]
      simpa using external_injective4 (construct4 vd)
    · rw [external_injective _ m (by omega), hd, show 4 * m / 4 = m by omega]
      have : 4 < 4 * m := by omega
      simp [this]

/-- Width 8 of the Horizen matrix over `F7`: the first column is twice the first column of the small matrix, then that
column. -/
example : applyExternal .horizen (fun i : Fin 8 => if i = 0 then (1 : F7) else 0) =
    some ![3, 1, 2, 2, 5, 4, 1, 1] := by
  rw [(C73_external .horizen (by decide) _).2]
  congr 1
  funext i
  fin_cases i <;> decide

/-! ## The internal matrix -/

/-- **C73 (internal matrix).** The internal layer multiplies by the matrix with `d + 1` on the diagonal and ones
elsewhere; with Plonky3's vendor and a Montgomery field also by `RawOne`. -/
theorem C73_internal {n : ℕ} (r : F) (d v : Fin n → F) :
    applyInternal d v = (Matrix.of fun i j => if i = j then d i + 1 else 1) *ᵥ v ∧
      applyInternalPacked none d v = (Matrix.of fun i j => if i = j then d i + 1 else 1) *ᵥ v ∧
      applyInternalPacked (some r) d v = r • ((Matrix.of fun i j => if i = j then d i + 1 else 1) *ᵥ v) := by
  have e : (Spec.internal 1 d : Matrix (Fin n) (Fin n) F) = Matrix.of fun i j => if i = j then d i + 1 else 1 := by
    ext i j
    simp [Spec.internal]
  refine ⟨by rw [applyInternal_eq, e], by rw [applyInternalPacked_eq, Option.getD_none, e], ?_⟩
  rw [applyInternalPacked_eq, Option.getD_some, ← e]
  funext i
  rw [internal_mulVec, Pi.smul_apply, internal_mulVec, smul_eq_mul, one_mul]

/-- **C73 (the internal layer is invertible).** If no entry of `d` is zero, iff `1 + Σ 1/d` is not zero; if one is
zero, always; if two are, never. -/
theorem C73_internal_injective {n : ℕ} (d : Fin n → F) :
    ((∀ i, d i ≠ 0) → (Function.Injective (applyInternal d) ↔ 1 + ∑ i, (d i)⁻¹ ≠ 0)) ∧
      (∀ k, d k = 0 → (∀ i, i ≠ k → d i ≠ 0) → Function.Injective (applyInternal d)) ∧
      (∀ k l, k ≠ l → d k = 0 → d l = 0 → ¬ Function.Injective (applyInternal d)) := by
  have e : applyInternal d = fun v : Fin n → F => Spec.internal 1 d *ᵥ v := funext fun v => applyInternal_eq d v
  rw [e]
  exact ⟨fun h => internal_injective one_ne_zero h, fun k hk h => internal_injective_one one_ne_zero k hk h,
    fun k l hkl hk hl => internal_not_injective 1 hkl hk hl⟩

example : applyInternal ![1, 2, 3] ![(4 : F7), 5, 6] = ![5, 4, 5] := by decide

/-- The diagonal `1, 1, 2` used with bn254, vesta and pallas is fine unless the field has characteristic two or seven. -/
example (h2 : (2 : F) ≠ 0) (h7 : (7 : F) ≠ 0) : Function.Injective (applyInternal ![(1 : F), 1, 2]) := by
  refine ((C73_internal_injective _).1 ?_).2 ?_
  · intro i
    fin_cases i
    · exact one_ne_zero
    · exact one_ne_zero
    · exact h2
  · intro h
    apply h7
    simp only [Fin.sum_univ_succ, Fin.sum_univ_zero] at h
    simp at h
    field_simp at h
    linear_combination h

/-! ## The permutation -/

/-- **C73 (permutation).** `Permute` is the Poseidon2 of the paper with the matrices above; of the row of a partial
round only the first entry matters; it stops exactly if there are too few rows of constants or there is no matrix. -/
theorem C73_permute {n : ℕ} (alpha : BitVec 32) (R P : ℕ) (c : Poseidon2.Config F n) (s : Fin n → F) :
    (n ≤ 24 ∧ (n = 2 ∨ n = 3 ∨ 4 ≤ n ∧ n % 4 = 0) → R + P ≤ c.ark.length →
      permute alpha R P c s = some (Spec.permute alpha.toNat (R / 2) P (Spec.external (construct4 c.external))
        (Spec.internal (match c.internal with | .plonky3 => c.rawOne.getD 1 | .horizen => 1) c.diag)
        (c.ark.take (R + P)) s)) ∧
    (¬ (n ≤ 24 ∧ (n = 2 ∨ n = 3 ∨ 4 ≤ n ∧ n % 4 = 0)) ∨ c.ark.length < R + P → permute alpha R P c s = none) := by
  refine ⟨fun hw hl => permute_eq alpha c hw R P hl s, ?_⟩
  rintro (hw | hl)
  · unfold permute
    rw [applyExternal_none _ hw]
    rfl
  · exact permute_none alpha c R P hl s

/-- **C73 (it is a permutation).** Over a finite field, with at least one partial round, `Permute` is injective iff
both layers are and `alpha` is prime to the order of the multiplicative group. -/
theorem C73_injective [Fintype F] {n : ℕ} (alpha : BitVec 32) (ha : alpha ≠ 0#32) (R P : ℕ) (hP : 0 < P)
    (c : Poseidon2.Config F n) (hw : n ≤ 24 ∧ (n = 2 ∨ n = 3 ∨ 4 ≤ n ∧ n % 4 = 0)) (hl : R + P ≤ c.ark.length) :
    Function.Injective (fun s : Fin n → F => permute alpha R P c s) ↔
      Function.Injective (fun v : Fin n → F => applyExternal c.external v) ∧ Function.Injective (mixPartial c) ∧
        (Fintype.card F - 1).Coprime alpha.toNat := by
  have h0 : 0 < alpha.toNat := Nat.pos_of_ne_zero fun h => ha (BitVec.eq_of_toNat_eq (by simpa using h))
  have e1 : (fun s : Fin n → F => permute alpha R P c s) = some ∘ Spec.permute alpha.toNat (R / 2) P
      (Spec.external (construct4 c.external)) (Spec.internal (factor c) c.diag) (c.ark.take (R + P)) :=
    funext fun s => permute_eq alpha c hw R P hl s
  have e2 : (fun v : Fin n → F => applyExternal c.external v) =
      some ∘ fun v => Spec.external (construct4 c.external) *ᵥ v := funext fun v => applyExternal_eq _ hw v
  have e3 : mixPartial c = fun v => Spec.internal (factor c) c.diag *ᵥ v := funext fun v => mixPartial_eq c v
  have hsome : ∀ f : (Fin n → F) → (Fin n → F), Function.Injective (some ∘ f) ↔ Function.Injective f :=
    fun f => ⟨fun h => h.of_comp, fun h => (Option.some_injective _).comp h⟩
  rw [e1, e2, e3, hsome, hsome]
  refine spec_injective (by omega) _ h0 _ _ _ _ hP _ ?_
  rw [List.length_take]
  omega

/-- **C73 (every output is reached).** An injective `Permute` has every state as an output. -/
theorem C73_surjective [Fintype F] {n : ℕ} (alpha : BitVec 32) (R P : ℕ)
    (c : Poseidon2.Config F n) (hw : n ≤ 24 ∧ (n = 2 ∨ n = 3 ∨ 4 ≤ n ∧ n % 4 = 0)) (hl : R + P ≤ c.ark.length)
    (hi : Function.Injective (fun s : Fin n → F => permute alpha R P c s)) (t : Fin n → F) :
    ∃ s, permute alpha R P c s = some t := by
  have e1 : (fun s : Fin n → F => permute alpha R P c s) = some ∘ Spec.permute alpha.toNat (R / 2) P
      (Spec.external (construct4 c.external)) (Spec.internal (factor c) c.diag) (c.ark.take (R + P)) :=
    funext fun s => permute_eq alpha c hw R P hl s
  rw [e1] at hi
  obtain ⟨s, hs⟩ := Finite.injective_iff_surjective.1 hi.of_comp t
  exact ⟨s, by rw [permute_eq alpha c hw R P hl s]; exact congrArg some hs⟩

/-- Three rounds over `F7` with `alpha = 5`. -/
example : permute 5#32 2 1 ⟨.horizen, .horizen, none, [![1, 2], ![3, 4], ![5, 6]], ![1, 2]⟩ ![(1 : F7), 2] =
    some ![4, 3] := by decide

/-! ## Findings about the parameters -/

instance factBabyBear : Fact (Nat.Prime 2013265921) := ⟨C12_moduli.1⟩
instance factMersenne31 : Fact (Nat.Prime 2147483647) := ⟨C12_moduli.2.2⟩

/-- The entries of `Poseidon2ParamsTraits<BabyBear, 23, 7>::GetPoseidon2InternalDiagonalArray`
(param_traits/poseidon2_baby_bear.h:37-49): an array of 24 with 16 initialisers. -/
def babyBear24 : List ℕ :=
  [0x0a632d94, 0x6db657b7, 0x56fbdc9e, 0x052b3d8a, 0x33745201, 0x5c03108c, 0x0beba37b, 0x258c2e8b,
   0x12029f39, 0x694909ce, 0x6d231724, 0x21c3b222, 0x3c0904a5, 0x01d6acda, 0x27705c83, 0x5231c802]

/-- **C73 (finding).** With the diagonal of BabyBear for width 24 and Horizen's internal matrix `Permute` is not
injective, whatever the constants. -/
theorem C73_babybear24 (ev : Vendor) (o : Option (ZMod 2013265921))
    (ark : List (Fin 24 → ZMod 2013265921)) (R P : ℕ) (hP : 0 < P) (hl : R + P ≤ ark.length) :
    ¬ Function.Injective fun s : Fin 24 → ZMod 2013265921 =>
      permute 7#32 R P ⟨ev, .horizen, o, ark, fun i => ((babyBear24.getD i.val 0 : ℕ) : ZMod 2013265921)⟩ s := by
  intro h
  rw [C73_injective 7#32 (by decide) R P hP _ (by decide) hl] at h
  refine (C73_internal_injective _).2.2 ⟨16, by omega⟩ ⟨17, by omega⟩ (fun h => by simpa using congrArg Fin.val h) ?_ ?_ h.2.1 <;> simp [babyBear24]

/-- **C73 (finding).** Over Mersenne31 the exponent is 7 for both widths (param_traits/poseidon2_mersenne31.h:14, :21),
which divides `p - 1`: `Permute` is not injective, whatever the matrices and constants. -/
theorem C73_mersenne31 {n : ℕ}
    (hw : n ≤ 24 ∧ (n = 2 ∨ n = 3 ∨ 4 ≤ n ∧ n % 4 = 0)) (c : Poseidon2.Config (ZMod 2147483647) n) (R P : ℕ)
    (hP : 0 < P) (hl : R + P ≤ c.ark.length) :
    ¬ Function.Injective fun s : Fin n → ZMod 2147483647 => permute 7#32 R P c s := by
  intro h
  rw [C73_injective 7#32 (by decide) R P hP _ hw hl, ZMod.card] at h
  exact absurd h.2.2 (by decide)

/-- With the numbers of rounds of the library and all constants zero. -/
example : ¬ Function.Injective fun s : Fin 24 → ZMod 2013265921 =>
    permute 7#32 8 21 ⟨.horizen, .horizen, none, List.replicate 29 0,
      fun i => ((babyBear24.getD i.val 0 : ℕ) : ZMod 2013265921)⟩ s :=
  C73_babybear24 _ _ _ 8 21 (by norm_num) (by simp)

/-- `1752599774` is a seventh root of unity. -/
example : (1752599774 : ZMod 2147483647) ^ 7 = 1 ∧ (1752599774 : ZMod 2147483647) ≠ 1 ∧
    ¬ Function.Injective fun s : Fin 16 → ZMod 2147483647 =>
      permute 7#32 8 13 ⟨.plonky3, .plonky3, none, List.replicate 21 0, fun i => 2 ^ i.val⟩ s :=
  ⟨by decide +kernel, by decide +kernel, C73_mersenne31 (by decide) _ 8 13 (by norm_num) (by simp)⟩

/-! ## Shifts -/

/-- The diagonal of the shifts: minus two, then powers of two. -/
def shiftDiag {p : ℕ} (shifts : List ℕ) : Fin (shifts.length + 1) → ZMod p :=
  Fin.cons (-2) fun i => 2 ^ shifts[i]

/-- **C73 (shift arrays).** The internal matrix of an array of shifts of at most 31 is invertible over a field of odd
order `p` iff `p` does not divide a certain sum of powers of two. -/
theorem C73_shift_matrix (p : ℕ) [Fact p.Prime] (h2 : p ≠ 2) (shifts : List ℕ) (hs : ∀ s ∈ shifts, s ≤ 31) :
    Function.Injective (applyInternal (shiftDiag (p := p) shifts)) ↔
      ¬ p ∣ 2 ^ 30 + (shifts.map fun s => 2 ^ (31 - s)).sum := by
  have two : (2 : ZMod p) ≠ 0 := by
    intro h
    have h : ((2 : ℕ) : ZMod p) = 0 := by exact_mod_cast h
    rw [ZMod.natCast_eq_zero_iff] at h
    exact h2 ((Nat.prime_dvd_prime_iff_eq Fact.out Nat.prime_two).1 h)
  have hd : ∀ i, shiftDiag (p := p) shifts i ≠ 0 := by
    intro i
    refine Fin.cases ?_ (fun i => ?_) i
    · simpa [shiftDiag] using two
    · simpa [shiftDiag] using pow_ne_zero _ two
  rw [(C73_internal_injective _).1 hd, ← ZMod.natCast_eq_zero_iff, not_iff_not]
  have hsum : ∀ l : List ℕ, (∀ s ∈ l, s ≤ 31) →
      (2 : ZMod p) ^ 31 * ∑ i : Fin l.length, ((2 : ZMod p) ^ l[i])⁻¹ =
        (((l.map fun s => 2 ^ (31 - s)).sum : ℕ) : ZMod p) := by
    intro l
    induction l with
    | nil => intro _; simp
    | cons s l ih =>
      intro h
      have hs := h s (by simp)
      have e : ∑ i : Fin (s :: l).length, ((2 : ZMod p) ^ (s :: l)[i])⁻¹ =
          ((2 : ZMod p) ^ s)⁻¹ + ∑ i : Fin l.length, ((2 : ZMod p) ^ l[i])⁻¹ := Fin.sum_univ_succ _
      rw [e, mul_add, ih fun s hs => h s (by simp [hs]), List.map_cons, List.sum_cons, Nat.cast_add]
      congr 1
      rw [show (2 : ZMod p) ^ 31 = 2 ^ (31 - s) * 2 ^ s by rw [← pow_add]; congr 1; omega, mul_assoc,
        mul_inv_cancel₀ (pow_ne_zero _ two)]
      push_cast
      ring
  have key : (2 : ZMod p) ^ 31 * (1 + ∑ i, (shiftDiag (p := p) shifts i)⁻¹) =
      ((2 ^ 30 + (shifts.map fun s => 2 ^ (31 - s)).sum : ℕ) : ZMod p) := by
    rw [Fin.sum_univ_succ]
    have e : ∑ i : Fin shifts.length, (shiftDiag (p := p) shifts i.succ)⁻¹ =
      ∑ i : Fin shifts.length, ((2 : ZMod p) ^ shifts[i])⁻¹ := rfl
    have e0 : (shiftDiag (p := p) shifts 0)⁻¹ = -(2 : ZMod p)⁻¹ := by
      rw [show shiftDiag (p := p) shifts 0 = -2 from rfl, neg_inv]
    rw [e, e0, Nat.cast_add, ← hsum shifts hs]
    have : (2 : ZMod p) ^ 31 * (2 : ZMod p)⁻¹ = 2 ^ 30 := by
      rw [show (2 : ZMod p) ^ 31 = 2 ^ 30 * 2 by ring, mul_assoc, mul_inv_cancel₀ two, mul_one]
    push_cast
    linear_combination -this
  rw [← key, mul_eq_zero, or_iff_right (pow_ne_zero _ two)]

/-- The arrays of shifts (param_traits/poseidon2_baby_bear.h:30-32, :50-55, poseidon2_koala_bear.h:15-17, :22-27,
poseidon2_mersenne31.h:15-17, :22-27) with their moduli. -/
def shiftArrays : List (ℕ × List ℕ) :=
  [(2013265921, [0, 1, 2, 3, 4, 5, 6, 7, 8, 9, 10, 11, 12, 13, 15]),
   (2013265921, [0, 1, 2, 3, 4, 5, 6, 7, 8, 9, 10, 11, 12, 13, 14, 15, 16, 18, 19, 20, 21, 22, 23]),
   (2130706433, [0, 1, 2, 3, 4, 5, 6, 7, 8, 9, 10, 11, 12, 13, 15]),
   (2130706433, [0, 1, 2, 3, 4, 5, 6, 7, 8, 9, 10, 11, 12, 13, 14, 15, 16, 17, 18, 19, 20, 21, 23]),
   (2147483647, [0, 1, 2, 3, 4, 5, 6, 7, 8, 10, 12, 13, 14, 15, 16]),
   (2147483647, [0, 1, 2, 3, 4, 5, 6, 7, 8, 9, 10, 11, 12, 13, 14, 15, 16, 17, 18, 19, 20, 21, 22])]

/-- **C73 (the arrays).** All of them give invertible matrices. -/
theorem C73_shift_arrays (a : ℕ × List ℕ) (h : a ∈ shiftArrays) (hp : a.1.Prime) :
    haveI : Fact a.1.Prime := ⟨hp⟩
    Function.Injective (applyInternal (shiftDiag (p := a.1) a.2)) := by
  have : Fact a.1.Prime := ⟨hp⟩
  have h1 : a.1 ≠ 2 ∧ (∀ s ∈ a.2, s ≤ 31) ∧ ¬ a.1 ∣ 2 ^ 30 + (a.2.map fun s => 2 ^ (31 - s)).sum := by
    have : ∀ a ∈ shiftArrays,
        a.1 ≠ 2 ∧ (∀ s ∈ a.2, s ≤ 31) ∧ ¬ a.1 ∣ 2 ^ 30 + (a.2.map fun s => 2 ^ (31 - s)).sum := by decide +kernel
    exact this a h
  exact (C73_shift_matrix a.1 h1.1 a.2 h1.2.1).2 h1.2.2

/-- The array for BabyBear and width 16. -/
example : Function.Injective (applyInternal
    (shiftDiag (p := 2013265921) [0, 1, 2, 3, 4, 5, 6, 7, 8, 9, 10, 11, 12, 13, 15])) :=
  C73_shift_arrays (2013265921, _) (by decide) C12_moduli.1

open SmallField in
/-- **C73 (shifts on words, Montgomery).** With sums of words and shifts in place of field operations the result is
the internal matrix with the diagonal `-2, 2^s, …`, divided by `2^32`, on the numbers the words denote; all words are
canonical. -/
theorem C73_shifts (debug : Bool) (m : BitVec 32) (hodd : m.toNat % 2 = 1) (hm : m.toNat ≤ 2 ^ 31)
    (x : BitVec 32) (xs : List (BitVec 32)) (shifts : List (BitVec 8)) (hv : ∀ y ∈ x :: xs, y.toNat < m.toNat)
    (hl : xs.length ≤ shifts.length) (hs : ∀ s ∈ shifts, xs.length + 1 + 2 ^ s.toNat ≤ 2 ^ 32) :
    ∃ y ys, applyShifts debug true (montConfig m) (x :: xs) shifts = some (y :: ys) ∧
      (∀ z ∈ y :: ys, z.toNat < m.toNat) ∧ ys.length = xs.length ∧
      let den := fun w : BitVec 32 => ((montToInt m w).toNat : ZMod m.toNat)
      den y * 2 ^ 32 = den x + (xs.map den).sum - 2 * den x ∧
        ∀ (i : ℕ) (h1 : i < ys.length) (h2 : i < xs.length) (h3 : i < shifts.length),
          den ys[i] * 2 ^ 32 = den x + (xs.map den).sum + 2 ^ shifts[i].toNat * den xs[i] := by
  have hc := montConfig_reduces m (by omega) hm
  have hlen : xs.length + 1 ≤ 2 ^ 32 := by
    cases shifts with
    | nil => simp at hl; simp [hl]
    | cons s _ => exact (Nat.le_add_right _ _).trans (hs s (by simp))
  obtain ⟨s1, s2, s3⟩ := sums (montConfig m) hc (2 ^ 32) le_rfl x xs hv hlen
  have s1 : _ = _ + (m.toNat - x.toNat) % m.toNat := s1
  have hinv := kInverse32_spec m hodd
  have red := fun v hv => fromMontgomery_spec m (kInverse32 m) v hinv hv
  have hs64 : ∀ s ∈ shifts, s.toNat < 64 := by
    intro s h
    have := hs s h
    by_contra h64
    have : 2 ^ 64 ≤ 2 ^ s.toNat := Nat.pow_le_pow_right (by norm_num) (by omega)
    omega
  have hloop := shiftLoop_eq debug true (montConfig m)
    (xs.foldl (fun acc y => acc + y.setWidth 64) 0#64 + x.setWidth 64) (fromMontgomery m (kInverse32 m)) xs shifts hl
    (fun y _ s h => ⟨hs64 s h, rfl⟩)
  refine ⟨_, _, by rw [applyShifts, hloop]; rfl, ?_, ?_, ?_⟩
  · intro z hz
    rcases List.mem_cons.1 hz with rfl | hz
    · exact (red _ s2).1
    · obtain ⟨i, hi, rfl⟩ := List.getElem_of_mem hz
      rw [List.length_zipWith] at hi
      rw [List.getElem_zipWith]
      exact (red _ (s3 _ (List.getElem_mem _) _ (hs _ (List.getElem_mem _))).2).1
  · rw [List.length_zipWith]; omega
  · intro den
    -- the number a word denotes, times `2^32`, is the word
    have hden : ∀ w : BitVec 32, den w * 2 ^ 32 = (w.toNat : ZMod m.toNat) := by
      intro w
      have := (ZMod.natCast_eq_natCast_iff _ _ _).2 (montToInt_spec m w hodd).2
      rw [Nat.cast_mul, Nat.cast_pow, Nat.cast_ofNat] at this
      exact this
    have hu : IsUnit ((2 : ZMod m.toNat) ^ 32) := by
      have := (ZMod.isUnit_iff_coprime (2 ^ 32) m.toNat).2 (coprime_two_pow hodd 32).symm
      rw [Nat.cast_pow, Nat.cast_ofNat] at this
      exact this
    have hsum : ∀ l : List (BitVec 32),
        (((l.map BitVec.toNat).sum : ℕ) : ZMod m.toNat) = (l.map den).sum * 2 ^ 32 := by
      intro l
      induction l with
      | nil => simp
      | cons w l ih => rw [List.map_cons, List.sum_cons, Nat.cast_add, ih, List.map_cons, List.sum_cons, ← hden w]; ring
    have hred : ∀ v : BitVec 64, v.toNat < m.toNat * 2 ^ 32 → ∀ t : ZMod m.toNat,
        (v.toNat : ZMod m.toNat) = t * 2 ^ 32 → den (fromMontgomery m (kInverse32 m) v) * 2 ^ 32 = t := by
      intro v hv t ht
      have := (ZMod.natCast_eq_natCast_iff _ _ _).2 (red v hv).2
      rw [Nat.cast_mul, Nat.cast_pow, Nat.cast_ofNat] at this
      rw [hden]
      exact hu.mul_right_cancel (this.trans ht)
    have hx := hv x (by simp)
    constructor
    · refine hred _ s2 _ ?_
      rw [s1, Nat.cast_add, hsum, ZMod.natCast_mod, Nat.cast_sub hx.le, ZMod.natCast_self, ← hden x]
      ring
    · intro i h1 h2 h3
      rw [List.getElem_zipWith]
      obtain ⟨t1, t2⟩ := s3 xs[i] (List.getElem_mem _) _ (hs shifts[i] (List.getElem_mem _))
      refine hred _ t2 _ ?_
      rw [t1, Nat.cast_add, Nat.cast_add, hsum, Nat.cast_mul, ← hden x, ← hden xs[i]]
      push_cast
      ring

open SmallField in
/-- **C73 (shifts on words, Mersenne31).** The same without the division, in a release build. -/
theorem C73_shifts_mersenne31 (x : BitVec 32) (xs : List (BitVec 32)) (shifts : List (BitVec 8))
    (hv : ∀ y ∈ x :: xs, y.toNat < 2 ^ 31 - 1) (hl : xs.length ≤ shifts.length)
    (hs : ∀ s ∈ shifts, xs.length + 1 + 2 ^ s.toNat ≤ 2 ^ 31) :
    ∃ y ys, applyShifts false false mersenne31 (x :: xs) shifts = some (y :: ys) ∧
      (∀ z ∈ y :: ys, z.toNat < 2 ^ 31 - 1) ∧ ys.length = xs.length ∧
      let den := fun w : BitVec 32 => (w.toNat : ZMod (2 ^ 31 - 1))
      den y = den x + (xs.map den).sum - 2 * den x ∧
        ∀ (i : ℕ) (h1 : i < ys.length) (h2 : i < xs.length) (h3 : i < shifts.length),
          den ys[i] = den x + (xs.map den).sum + 2 ^ shifts[i].toNat * den xs[i] := by
  have hp : mersenne31.modulus.toNat = 2 ^ 31 - 1 := rfl
  have hlen : xs.length + 1 ≤ 2 ^ 31 := by
    cases shifts with
    | nil => simp at hl; simp [hl]
    | cons s _ => exact (Nat.le_add_right _ _).trans (hs s (by simp))
  obtain ⟨s1, s2, s3⟩ := sums mersenne31 mersenne31_reduces (2 ^ 31) (by norm_num) x xs hv hlen
  rw [hp] at s1 s2 s3
  have hs64 : ∀ s ∈ shifts, s.toNat < 64 := by
    intro s h
    have := hs s h
    by_contra h64
    have : 2 ^ 64 ≤ 2 ^ s.toNat := Nat.pow_le_pow_right (by norm_num) (by omega)
    omega
  let red : BitVec 64 → BitVec 32 := fun v => (fromU62 false mersenne31 v).getD 0#32
  have hr : ∀ v : BitVec 64, v.toNat < (2 ^ 31 - 1) * 2 ^ 31 →
      reduceSum false false mersenne31 v = some (red v) ∧ (red v).toNat = v.toNat % (2 ^ 31 - 1) := by
    intro v hv
    obtain ⟨r, h1, h2⟩ := fromU62_release v (by omega)
    have e : red v = r := by simp only [red]; rw [h1]; rfl
    rw [e]
    exact ⟨h1, h2⟩
  have hloop := shiftLoop_eq false false mersenne31
    (xs.foldl (fun acc y => acc + y.setWidth 64) 0#64 + x.setWidth 64) red xs shifts hl
    (fun y hy s h => ⟨hs64 s h, (hr _ (s3 y hy _ (hs s h)).2).1⟩)
  refine ⟨_, _, by rw [applyShifts, hloop, (hr _ s2).1]; rfl, ?_, ?_, ?_⟩
  · intro z hz
    rcases List.mem_cons.1 hz with rfl | hz
    · rw [(hr _ s2).2]; omega
    · obtain ⟨i, hi, rfl⟩ := List.getElem_of_mem hz
      rw [List.length_zipWith] at hi
      rw [List.getElem_zipWith, (hr _ (s3 _ (List.getElem_mem _) _ (hs _ (List.getElem_mem _))).2).2]
      omega
  · rw [List.length_zipWith]; omega
  · intro den
    have hsum : ∀ l : List (BitVec 32),
        (((l.map BitVec.toNat).sum : ℕ) : ZMod (2 ^ 31 - 1)) = (l.map den).sum := by
      intro l
      induction l with
      | nil => simp
      | cons w l ih => rw [List.map_cons, List.sum_cons, Nat.cast_add, ih, List.map_cons, List.sum_cons]
    have hx := hv x (by simp)
    constructor
    · show ((red _).toNat : ZMod (2 ^ 31 - 1)) = _
      rw [(hr _ s2).2, ZMod.natCast_mod, s1, Nat.cast_add, hsum, ZMod.natCast_mod, Nat.cast_sub hx.le, ZMod.natCast_self]
      show _ = den x + _ - 2 * den x
      ring
    · intro i h1 h2 h3
      obtain ⟨t1, t2⟩ := s3 xs[i] (List.getElem_mem _) _ (hs shifts[i] (List.getElem_mem _))
      rw [List.getElem_zipWith]
      show ((red _).toNat : ZMod (2 ^ 31 - 1)) = _
      rw [(hr _ t2).2, ZMod.natCast_mod, t1, Nat.cast_add, Nat.cast_add, hsum, Nat.cast_mul]
      push_cast
      ring

open SmallField in
/-- **C73 (packed fields, Montgomery).** The diagonal that `Create` makes from the shifts for packed fields gives, up to
the factor `2^32` by which the packed code divides, the same matrix as the shifts. -/
theorem C73_packed (debug : Bool) (m : BitVec 32) (hodd : m.toNat % 2 = 1) (h2m : 2 ≤ m.toNat) (hm : m.toNat ≤ 2 ^ 31)
    (x : BitVec 32) (xs : List (BitVec 32)) (shifts : List (BitVec 8)) (hv : ∀ y ∈ x :: xs, y.toNat < m.toNat)
    (hl : xs.length ≤ shifts.length) (hs : ∀ s ∈ shifts, xs.length + 1 + 2 ^ s.toNat ≤ 2 ^ 32) :
    ∃ out, applyShifts debug true (montConfig m) (x :: xs) shifts = some out ∧ out.length = xs.length + 1 ∧
      let den := fun w : BitVec 32 => ((montToInt m w).toNat : ZMod m.toNat)
      ∀ (i : ℕ) (h1 : i < out.length) (h2 : i < (x :: xs).length)
        (h3 : i < (diagOfShifts m.toNat (shifts.map BitVec.toNat)).length),
        den out[i] * 2 ^ 32 = ((x :: xs).map den).sum +
          ((diagOfShifts m.toNat (shifts.map BitVec.toNat))[i] : ZMod m.toNat) * den (x :: xs)[i] := by
  obtain ⟨y, ys, e1, -, e3, e4, e5⟩ := C73_shifts debug m hodd hm x xs shifts hv hl hs
  refine ⟨_, e1, by simp [e3], fun i h1 h2 h3 => ?_⟩
  cases i with
  | zero =>
    simp only [diagOfShifts, List.getElem_cons_zero, List.map_cons, List.sum_cons]
    rw [e4, Nat.cast_sub h2m, ZMod.natCast_self]
    push_cast; ring
  | succ i =>
    simp only [diagOfShifts, List.getElem_cons_succ, List.map_cons, List.sum_cons, List.getElem_map]
    rw [e5 i (by simpa using h1) (by simpa using h2) (by simpa [diagOfShifts] using h3)]
    push_cast; ring

open SmallField in
/-- **C73 (packed fields, Mersenne31).** The same for Mersenne31, without the factor. -/
theorem C73_packed_mersenne31 (x : BitVec 32) (xs : List (BitVec 32)) (shifts : List (BitVec 8))
    (hv : ∀ y ∈ x :: xs, y.toNat < 2 ^ 31 - 1) (hl : xs.length ≤ shifts.length)
    (hs : ∀ s ∈ shifts, xs.length + 1 + 2 ^ s.toNat ≤ 2 ^ 31) :
    ∃ out, applyShifts false false mersenne31 (x :: xs) shifts = some out ∧ out.length = xs.length + 1 ∧
      let den := fun w : BitVec 32 => (w.toNat : ZMod (2 ^ 31 - 1))
      ∀ (i : ℕ) (h1 : i < out.length) (h2 : i < (x :: xs).length)
        (h3 : i < (diagOfShifts (2 ^ 31 - 1) (shifts.map BitVec.toNat)).length),
        den out[i] = ((x :: xs).map den).sum +
          ((diagOfShifts (2 ^ 31 - 1) (shifts.map BitVec.toNat))[i] : ZMod (2 ^ 31 - 1)) * den (x :: xs)[i] := by
  obtain ⟨y, ys, e1, -, e3, e4, e5⟩ := C73_shifts_mersenne31 x xs shifts hv hl hs
  dsimp only at e4 e5
  refine ⟨_, e1, by simp [e3], fun i h1 h2 h3 => ?_⟩
  cases i with
  | zero =>
    simp only [diagOfShifts, List.getElem_cons_zero, List.map_cons, List.sum_cons]
    rw [e4, Nat.cast_sub (by norm_num), ZMod.natCast_self]
    push_cast; ring
  | succ i =>
    simp only [diagOfShifts, List.getElem_cons_succ, List.map_cons, List.sum_cons, List.getElem_map]
    rw [e5 i (by simpa using h1) (by simpa using h2) (by simpa [diagOfShifts] using h3)]
    push_cast; ring

example : diagOfShifts 2013265921 [0, 1, 15] = [2013265919, 1, 2, 32768] := by decide +kernel

open SmallField in
/-- **C73 (`FromU62`).** In a release build the result is the remainder for all inputs below `2^62 - 1`. In a debug
build the program stops when the low bits are all ones, although the input is allowed. -/
theorem C73_fromU62 (x : BitVec 64) :
    (x.toNat < 2 ^ 62 - 1 → ∃ r, fromU62 false mersenne31 x = some r ∧ r.toNat = x.toNat % (2 ^ 31 - 1)) ∧
      (x.toNat < (2 ^ 31 - 1) * 2 ^ 31 →
        (fromU62 true mersenne31 x = none ↔ x.toNat % 2 ^ 31 = 2 ^ 31 - 1)) := by
  refine ⟨fromU62_release x, fun hx => ?_⟩
  rw [fromU62_debug x hx]
  obtain ⟨r, h, _⟩ := fromU62_release x (by omega)
  split_ifs with h1
  · exact ⟨fun _ => h1, fun _ => rfl⟩
  · rw [h]
    exact ⟨fun h => absurd h (by simp), fun h => absurd h h1⟩

open SmallField in
/-- **C73 (finding).** In a debug build `Permute` over Mersenne31 stops in a partial round if the first element of the
state is not zero and equal to the sum of the others. -/
theorem C73_debug_stops (x : BitVec 32) (xs : List (BitVec 32)) (shifts : List (BitVec 8))
    (hv : ∀ y ∈ x :: xs, y.toNat < 2 ^ 31 - 1) (hl : xs.length + 1 ≤ 2 ^ 31) (hx : x ≠ 0#32)
    (h : (xs.map BitVec.toNat).sum = x.toNat) : applyShifts true false mersenne31 (x :: xs) shifts = none := by
  have hp : mersenne31.modulus.toNat = 2 ^ 31 - 1 := rfl
  obtain ⟨s1, s2, _⟩ := sums mersenne31 mersenne31_reduces (2 ^ 31) (by norm_num) x xs hv hl
  rw [hp] at s1 s2
  have hx0 : x.toNat ≠ 0 := fun h => hx (BitVec.eq_of_toNat_eq (by simpa using h))
  have hxp := hv x (by simp)
  rw [applyShifts]
  have : reduceSum true false mersenne31
      (xs.foldl (fun acc y => acc + y.setWidth 64) 0#64 + (negate mersenne31 x).setWidth 64) = none := by
    generalize xs.foldl (fun acc y => acc + y.setWidth 64) 0#64 + (negate mersenne31 x).setWidth 64 = w at s1 s2
    rw [reduceSum, if_neg (by simp), (C73_fromU62 w).2 s2, s1, h]
    omega
  rw [this]
  rfl

/-- A state of three words over BabyBear and over Mersenne31, the latter also with the sum that stops a debug build. -/
example : applyShifts true true (SmallField.montConfig 2013265921#32) [5#32, 7#32, 11#32] [0#8, 3#8] =
      some [188743674#32, 125829106#32, 62914508#32] ∧
    applyShifts true false SmallField.mersenne31 [5#32, 7#32, 11#32] [0#8, 3#8] = some [13#32, 30#32, 111#32] ∧
    applyShifts true false SmallField.mersenne31 [18#32, 7#32, 11#32] [0#8, 3#8] = none ∧
    applyShifts false false SmallField.mersenne31 [18#32, 7#32, 11#32] [0#8, 3#8] = some [0#32, 43#32, 124#32] := by
  decide +kernel

end Tachyon.Props
