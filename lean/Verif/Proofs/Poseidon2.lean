import Mathlib.LinearAlgebra.Matrix.Determinant.Basic
import Mathlib.LinearAlgebra.Matrix.NonsingularInverse
import Mathlib.LinearAlgebra.Matrix.ToLinearEquiv
import Mathlib.GroupTheory.Perm.Cycle.Type
import Mathlib.Tactic.LinearCombination
import Verif.Model.Poseidon2
import Verif.Spec.Poseidon2
import Verif.Proofs.Poseidon
import Verif.Proofs.SmallField
import Verif.Props.Poseidon
/-!
# Lemmas about the model of Poseidon2
-/
namespace Tachyon.Poseidon2
open Matrix

variable {F : Type} [Field F]

theorem pow_eq (alpha : BitVec 32) (x : F) : pow alpha x = x ^ alpha.toNat := Props.C19_constPow x alpha

theorem get_lt {n : ℕ} (v : Fin n → F) {k : ℕ} (h : k < n) : get v k = v ⟨k, h⟩ := dif_pos h

/-! ## The external matrix -/

theorem do4_at (vd : Vendor) (q : Quad F) (r : ℕ) (hr : r < 4) :
    (do4 vd q).at r = ∑ s : Fin 4, construct4 vd (Fin.ofNat 4 r) s * q.at s.val := by
  have : r = 0 ∨ r = 1 ∨ r = 2 ∨ r = 3 := by omega
  rcases this with rfl | rfl | rfl | rfl <;> cases vd <;>
    simp [Fin.sum_univ_succ, do4, horizen4, plonky4, Quad.at, construct4, Fin.ofNat] <;> ring

theorem block_at {n : ℕ} (v : Fin n → F) (k : ℕ) (s : Fin 4) : (block v k).at s.val = get v (k + s.val) := by
  fin_cases s <;> rfl

theorem ofNat4 (a b : ℕ) (h : a % 4 = b % 4) : Fin.ofNat 4 a = Fin.ofNat 4 b := Fin.ext h

theorem blocks_eq (vd : Vendor) {n : ℕ} (v : Fin n → F) (i : Fin n) :
    blocks vd v i = ∑ s : Fin 4, construct4 vd (Fin.ofNat 4 i) s * get v (4 * (i.val / 4) + s.val) := by
  rw [blocks, do4_at vd _ _ (Nat.mod_lt _ (by norm_num)), ofNat4 (i.val % 4) i.val (Nat.mod_mod _ _)]
  exact Finset.sum_congr rfl fun s _ => by rw [block_at]

/-- A sum over a multiple of four, block by block. -/
theorem sum_blocks (m : ℕ) (f : ℕ → F) :
    ∑ j : Fin (4 * m), f j.val = ∑ b ∈ Finset.range m, ∑ s : Fin 4, f (4 * b + s.val) := by
  rw [Fin.sum_univ_eq_sum_range]
  induction m with
  | zero => simp
  | succ m ih =>
    rw [show 4 * (m + 1) = 4 * m + 1 + 1 + 1 + 1 by ring, Finset.sum_range_succ, Finset.sum_range_succ,
      Finset.sum_range_succ, Finset.sum_range_succ, ih, Finset.sum_range_succ]
    simp only [Fin.sum_univ_succ, Fin.sum_univ_zero]
    simp only [Fin.val_zero, Fin.val_succ, add_zero, zero_add]
    ring_nf

theorem foldl_range (m : ℕ) (f : ℕ → F) : (List.range m).foldl (fun acc j => acc + f j) 0 = ∑ j ∈ Finset.range m, f j := by
  induction m with
  | zero => rfl
  | succ m ih => rw [List.range_succ, List.foldl_append, ih, Finset.sum_range_succ]; rfl

/-- The widths there is a matrix for. -/
def Width (n : ℕ) : Prop := n ≤ 24 ∧ (n = 2 ∨ n = 3 ∨ 4 ≤ n ∧ n % 4 = 0)

instance (n : ℕ) : Decidable (Width n) := by unfold Width; infer_instance

theorem vTmp_blocks (vd : Vendor) (m : ℕ) (v : Fin (4 * m) → F) (r : ℕ) (hr : r < 4) :
    vTmp (blocks vd v) r =
      ∑ b ∈ Finset.range m, ∑ s : Fin 4, construct4 vd (Fin.ofNat 4 r) s * get v (4 * b + s.val) := by
  rw [vTmp, foldl_range, show 4 * m / 4 = m by omega]
  refine Finset.sum_congr rfl fun b hb => ?_
  have hb := Finset.mem_range.1 hb
  rw [get_lt _ (show r + 4 * b < 4 * m by omega), blocks_eq]
  refine Finset.sum_congr rfl fun s _ => ?_
  simp only
  rw [ofNat4 (r + 4 * b) r (by omega), show (r + 4 * b) / 4 = b by omega]

theorem external_mulVec (M4 : Matrix (Fin 4) (Fin 4) F) (m : ℕ) (hm : 1 < m) (v : Fin (4 * m) → F) (i : Fin (4 * m)) :
    (Spec.external M4 *ᵥ v) i =
      (∑ s : Fin 4, M4 (Fin.ofNat 4 i) s * get v (4 * (i.val / 4) + s.val)) +
        ∑ b ∈ Finset.range m, ∑ s : Fin 4, M4 (Fin.ofNat 4 i) s * get v (4 * b + s.val) := by
  have e : (Spec.external M4 *ᵥ v) i = ∑ j : Fin (4 * m), (fun j : ℕ =>
      (if i.val / 4 = j / 4 then 2 else 1) * M4 (Fin.ofNat 4 i) (Fin.ofNat 4 j) * get v j) j.val := by
    rw [Matrix.mulVec, dotProduct]
    refine Finset.sum_congr rfl fun j _ => ?_
    simp only [Spec.external, Matrix.of_apply]
    rw [if_neg (show ¬ 4 * m < 4 by omega), get_lt v j.isLt]
    simp only [show 4 < 4 * m by omega, true_and]
  rw [e]
  refine (sum_blocks m (fun j : ℕ => (if i.val / 4 = j / 4 then (2 : F) else 1) *
    M4 (Fin.ofNat 4 i) (Fin.ofNat 4 j) * get v j)).trans ?_
  have hi : i.val / 4 ∈ Finset.range m := Finset.mem_range.2 (by omega)
  rw [← Finset.add_sum_erase _ _ hi, ← Finset.add_sum_erase (Finset.range m) _ hi, ← add_assoc]
  congr 1
  · rw [← Finset.sum_add_distrib]
    refine Finset.sum_congr rfl fun s _ => ?_
    have hs := s.isLt
    rw [if_pos (show i.val / 4 = (4 * (i.val / 4) + s.val) / 4 by omega),
      show Fin.ofNat 4 (4 * (i.val / 4) + s.val) = s from Fin.ext (show (_ + _) % 4 = _ by omega)]
    ring
  · refine Finset.sum_congr rfl fun b hb => Finset.sum_congr rfl fun s _ => ?_
    have hs := s.isLt
    have hb := Finset.ne_of_mem_erase hb
    rw [if_neg (show ¬ i.val / 4 = (4 * b + s.val) / 4 by omega),
      show Fin.ofNat 4 (4 * b + s.val) = s from Fin.ext (show (_ + _) % 4 = _ by omega)]
    ring

theorem applyExternal_eq (vd : Vendor) {n : ℕ} (h : Width n) (v : Fin n → F) :
    applyExternal vd v = some (Spec.external (construct4 vd) *ᵥ v) := by
  obtain ⟨h24, rfl | rfl | ⟨h4, hm⟩⟩ := h
  · unfold applyExternal
    simp only [show ¬ (2 ≤ 1 ∨ 24 < 2) by omega, if_false, if_true]
    congr 1
    funext i
    fin_cases i <;> simp [Matrix.mulVec, dotProduct, Spec.external, get] <;> ring
  · unfold applyExternal
    simp only [show ¬ (3 ≤ 1 ∨ 24 < 3) by omega, show ¬ (3 = 2) by omega, if_false, if_true]
    congr 1
    funext i
    fin_cases i <;> simp [Matrix.mulVec, dotProduct, Spec.external, get, Fin.sum_univ_succ] <;> ring
  · obtain ⟨m, rfl⟩ : ∃ m, n = 4 * m := ⟨n / 4, by omega⟩
    by_cases h1 : m = 1
    · subst h1
      unfold applyExternal
      simp only [show ¬ (4 * 1 ≤ 1 ∨ 24 < 4 * 1) by omega, show ¬ (4 * 1 = 2) by omega, show ¬ (4 * 1 = 3) by omega,
        show 4 * 1 = 4 by omega, if_false, if_true]
      congr 1
      funext i
      rw [blocks_eq, Matrix.mulVec, dotProduct]
      refine Finset.sum_congr rfl fun s _ => ?_
      have hi := i.isLt
      have hs := s.isLt
      simp only [Spec.external, Matrix.of_apply]
      rw [get_lt v (show 4 * (i.val / 4) + s.val < 4 by omega)]
      rw [if_neg (by omega), if_neg (by omega), one_mul]
      congr 2
      · exact Fin.ext (show s.val = s.val % 4 by omega)
      · exact Fin.ext (show 4 * (i.val / 4) + s.val = s.val by omega)
    · unfold applyExternal
      rw [if_neg (by omega), if_neg (by omega), if_neg (by omega), if_neg (by omega), if_pos hm]
      congr 1
      funext i
      rw [external_mulVec _ m (by omega), blocks_eq, vTmp_blocks vd m v _ (Nat.mod_lt _ (by norm_num)),
        ofNat4 (i.val % 4) i.val (Nat.mod_mod _ _)]

theorem applyExternal_none (vd : Vendor) {n : ℕ} (h : ¬ Width n) (v : Fin n → F) : applyExternal vd v = none := by
  unfold Width at h
  unfold applyExternal
  split_ifs <;> first | rfl | omega

theorem constructExternal_eq (vd : Vendor) {n : ℕ} (h : Width n) :
    constructExternal vd n = some (Spec.external (construct4 vd) : Matrix (Fin n) (Fin n) F) := by
  obtain ⟨h24, h⟩ := h
  unfold constructExternal
  rw [if_neg (by omega)]
  by_cases h23 : n = 2 ∨ n = 3
  · rw [if_pos h23]
    congr 1
    ext i j
    simp only [circulant, Spec.external, Matrix.of_apply]
    rw [if_pos (show n < 4 by omega)]
    have hi := i.isLt
    have hj := j.isLt
    by_cases hij : i = j
    · subst hij; simp
    · have : i.val ≠ j.val := fun h => hij (Fin.ext h)
      rw [if_neg hij, if_neg]
      split_ifs <;> omega
  · rw [if_neg h23]
    by_cases h4 : n = 4
    · rw [if_pos h4]
      congr 1
      ext i j
      simp only [Spec.external, Matrix.of_apply]
      rw [if_neg (by omega), if_neg (by omega), one_mul]
    · rw [if_neg h4, if_pos (by omega)]
      congr 1
      ext i j
      simp only [Spec.external, Matrix.of_apply]
      rw [if_neg (show ¬ n < 4 by omega)]
      simp only [show 4 < n by omega, true_and]
      split_ifs <;> simp

theorem constructExternal_none (vd : Vendor) {n : ℕ} (h : ¬ Width n) :
    (constructExternal vd n : Option (Matrix (Fin n) (Fin n) F)) = none := by
  unfold Width at h
  unfold constructExternal
  split_ifs <;> first | rfl | omega

theorem det_horizen : (construct4 .horizen : Matrix (Fin 4) (Fin 4) F).det = -64 := by
  simp [construct4, Matrix.det_succ_row_zero, Fin.sum_univ_succ, Fin.succAbove]
  ring

theorem det_plonky3 : (construct4 .plonky3 : Matrix (Fin 4) (Fin 4) F).det = -35 := by
  simp [construct4, Matrix.det_succ_row_zero, Fin.sum_univ_succ, Fin.succAbove]
  ring

theorem injective_iff {n : ℕ} (M : Matrix (Fin n) (Fin n) F) :
    Function.Injective (fun v : Fin n → F => M *ᵥ v) ↔ ∀ v, M *ᵥ v = 0 → v = 0 := by
  constructor
  · intro h v hv
    exact h (show M *ᵥ v = M *ᵥ 0 by rw [hv, Matrix.mulVec_zero])
  · intro h u v huv
    refine sub_eq_zero.1 (h _ ?_)
    rw [Matrix.mulVec_sub]
    exact sub_eq_zero.2 huv

theorem injective_iff_det {n : ℕ} (M : Matrix (Fin n) (Fin n) F) :
    Function.Injective (fun v : Fin n → F => M *ᵥ v) ↔ M.det ≠ 0 := by
  rw [injective_iff, ne_eq, ← Matrix.exists_mulVec_eq_zero_iff]
  push Not
  exact ⟨fun h v hv h0 => hv (h v h0), fun h v h0 => by_contra fun hv => h v hv h0⟩

/-- The external matrix of more than one block is invertible iff the small one is and the number of blocks is not
minus one. -/
theorem external_injective (M4 : Matrix (Fin 4) (Fin 4) F) (m : ℕ) (hm : 1 < m) :
    Function.Injective (fun v : Fin (4 * m) → F => Spec.external M4 *ᵥ v) ↔ M4.det ≠ 0 ∧ (m : F) + 1 ≠ 0 := by
  -- the vector with the same block everywhere
  have rep : ∀ (u : Fin 4 → F) (i : Fin (4 * m)),
      (Spec.external M4 *ᵥ fun j : Fin (4 * m) => u (Fin.ofNat 4 j)) i = ((m : F) + 1) * (M4 *ᵥ u) (Fin.ofNat 4 i) := by
    intro u i
    have hi := i.isLt
    have hb : ∀ b, b < m → ∑ s : Fin 4, M4 (Fin.ofNat 4 i) s *
        get (fun j : Fin (4 * m) => u (Fin.ofNat 4 j)) (4 * b + s.val) = (M4 *ᵥ u) (Fin.ofNat 4 i) := by
      intro b hb
      rw [Matrix.mulVec, dotProduct]
      refine Finset.sum_congr rfl fun s _ => ?_
      have hs := s.isLt
      rw [get_lt _ (show 4 * b + s.val < 4 * m by omega)]
      simp only
      rw [show Fin.ofNat 4 (4 * b + s.val) = s from Fin.ext (show (_ + _) % 4 = _ by omega)]
    rw [external_mulVec M4 m hm, hb _ (by omega), Finset.sum_congr rfl fun b h => hb b (Finset.mem_range.1 h)]
    rw [Finset.sum_const, Finset.card_range, nsmul_eq_mul]
    ring
  rw [injective_iff]
  constructor
  · intro h
    have h0 : ∀ u : Fin 4 → F, (∀ i, ((m : F) + 1) * (M4 *ᵥ u) i = 0) → u = 0 := by
      intro u hu
      have := h (fun j => u (Fin.ofNat 4 j)) (funext fun i => by rw [rep]; exact hu _)
      funext r
      have hr := r.isLt
      have e := congrFun this ⟨r.val, by omega⟩
      simp only [Pi.zero_apply] at e ⊢
      rwa [show Fin.ofNat 4 r.val = r from Fin.ext (Nat.mod_eq_of_lt hr)] at e
    refine ⟨(injective_iff_det M4).1 ((injective_iff M4).2 fun u hu => h0 u fun i => by rw [hu]; simp), fun h1 => ?_⟩
    have := congrFun (h0 (fun _ => 1) fun i => by rw [h1, zero_mul]) 0
    simp at this
  · rintro ⟨hd, h1⟩ v hv
    have hM := (injective_iff M4).1 ((injective_iff_det M4).2 hd)
    let w : ℕ → Fin 4 → F := fun b => M4 *ᵥ fun s : Fin 4 => get v (4 * b + s.val)
    have hw : ∀ b, b < m → ∀ r : Fin 4, w b r + ∑ c ∈ Finset.range m, w c r = 0 := by
      intro b hb r
      have hr := r.isLt
      have e := congrFun hv ⟨4 * b + r.val, by omega⟩
      rw [external_mulVec M4 m hm] at e
      simp only [show (4 * b + r.val) / 4 = b by omega,
        show Fin.ofNat 4 (4 * b + r.val) = r from Fin.ext (show (_ + _) % 4 = _ by omega), Pi.zero_apply] at e
      exact e
    have hS : ∀ r, ∑ c ∈ Finset.range m, w c r = 0 := by
      intro r
      have e : ∑ b ∈ Finset.range m, (w b r + ∑ c ∈ Finset.range m, w c r) = 0 :=
        Finset.sum_eq_zero fun b hb => hw b (Finset.mem_range.1 hb) r
      rw [Finset.sum_add_distrib, Finset.sum_const, Finset.card_range, nsmul_eq_mul] at e
      have : ((m : F) + 1) * ∑ c ∈ Finset.range m, w c r = 0 := by linear_combination e
      exact (mul_eq_zero.1 this).resolve_left h1
    have hz : ∀ b, b < m → (fun s : Fin 4 => get v (4 * b + s.val)) = 0 := fun b hb =>
      hM _ (funext fun r => by have := hw b hb r; rw [hS r, add_zero] at this; exact this)
    funext i
    have hi := i.isLt
    have := congrFun (hz (i.val / 4) (by omega)) ⟨i.val % 4, Nat.mod_lt _ (by norm_num)⟩
    simp only [Pi.zero_apply] at this ⊢
    rw [get_lt v (show 4 * (i.val / 4) + i.val % 4 < 4 * m by omega)] at this
    rw [← this]
    congr 1
    exact Fin.ext (show i.val = 4 * (i.val / 4) + i.val % 4 by omega)

/-- The external matrix of width four. -/
theorem external_injective4 (M4 : Matrix (Fin 4) (Fin 4) F) :
    Function.Injective (fun v : Fin 4 → F => Spec.external M4 *ᵥ v) ↔ M4.det ≠ 0 := by
  rw [← injective_iff_det]
  have : (Spec.external M4 : Matrix (Fin 4) (Fin 4) F) = M4 := by
    ext i j
    simp only [Spec.external, Matrix.of_apply]
    rw [if_neg (by omega), if_neg (by omega), one_mul]
    congr 1
    · exact Fin.ext (Nat.mod_eq_of_lt i.isLt)
    · exact Fin.ext (Nat.mod_eq_of_lt j.isLt)
  rw [this]

theorem internal_mulVec {n : ℕ} (r : F) (d v : Fin n → F) (i : Fin n) :
    (Spec.internal r d *ᵥ v) i = r * (d i * v i + ∑ j, v j) := by
  rw [Matrix.mulVec, dotProduct]
  have : ∀ j, Spec.internal r d i j * v j = r * ((if i = j then d i * v j else 0) + v j) := by
    intro j
    simp only [Spec.internal, Matrix.of_apply]
    split_ifs <;> ring
  rw [Finset.sum_congr rfl fun j _ => this j, ← Finset.mul_sum, Finset.sum_add_distrib, Finset.sum_ite_eq]
  simp

/-- The external matrices of width two and three are internal ones of ones. -/
theorem external_small (M4 : Matrix (Fin 4) (Fin 4) F) (n : ℕ) (h : n < 4) :
    (Spec.external M4 : Matrix (Fin n) (Fin n) F) = Spec.internal 1 fun _ => 1 := by
  ext i j
  simp only [Spec.external, Spec.internal, Matrix.of_apply]
  rw [if_pos h]
  split_ifs <;> norm_num

/-! ## The internal matrix -/

theorem applyInternal_eq {n : ℕ} (d v : Fin n → F) : applyInternal d v = Spec.internal 1 d *ᵥ v := by
  funext i
  rw [internal_mulVec, one_mul, applyInternal, Poseidon.foldl_sum, mul_comm]

theorem applyInternalPacked_eq {n : ℕ} (o : Option F) (d v : Fin n → F) :
    applyInternalPacked o d v = Spec.internal (o.getD 1) d *ᵥ v := by
  cases o with
  | none => exact applyInternal_eq d v
  | some r =>
    funext i
    show applyInternal d v i * r = _
    rw [applyInternal_eq, internal_mulVec, internal_mulVec, Option.getD_some]
    ring

theorem internal_injective {n : ℕ} {r : F} (hr : r ≠ 0) {d : Fin n → F} (hd : ∀ i, d i ≠ 0) :
    Function.Injective (fun v : Fin n → F => Spec.internal r d *ᵥ v) ↔ 1 + ∑ i, (d i)⁻¹ ≠ 0 := by
  rw [injective_iff]
  constructor
  · intro h h0
    have hs : ∑ i, (d i)⁻¹ = -1 := by linear_combination h0
    have := h (fun i => (d i)⁻¹) (funext fun i => by
      rw [internal_mulVec, hs, mul_inv_cancel₀ (hd i)]; simp)
    rw [Finset.sum_eq_zero fun i _ => congrFun this i] at hs
    exact one_ne_zero (by linear_combination hs : (1 : F) = 0)
  · intro h v hv
    have e : ∀ i, v i = -(∑ j, v j) * (d i)⁻¹ := by
      intro i
      have := congrFun hv i
      rw [internal_mulVec] at this
      have := (mul_eq_zero.1 this).resolve_left hr
      rw [eq_mul_inv_iff_mul_eq₀ (hd i)]
      linear_combination this
    have hs : (∑ j, v j) * (1 + ∑ i, (d i)⁻¹) = 0 := by
      have : ∑ i, v i = ∑ i, -(∑ j, v j) * (d i)⁻¹ := Finset.sum_congr rfl fun i _ => e i
      rw [← Finset.mul_sum] at this
      linear_combination this
    have hs := (mul_eq_zero.1 hs).resolve_right h
    funext i
    rw [e i, hs]
    simp

theorem internal_injective_one {n : ℕ} {r : F} (hr : r ≠ 0) {d : Fin n → F} (k : Fin n) (hk : d k = 0)
    (hd : ∀ i, i ≠ k → d i ≠ 0) : Function.Injective (fun v : Fin n → F => Spec.internal r d *ᵥ v) := by
  rw [injective_iff]
  intro v hv
  have e : ∀ i, d i * v i + ∑ j, v j = 0 := by
    intro i
    have := congrFun hv i
    rw [internal_mulVec] at this
    exact (mul_eq_zero.1 this).resolve_left hr
  have hs : ∑ j, v j = 0 := by have := e k; rwa [hk, zero_mul, zero_add] at this
  have hz : ∀ i, i ≠ k → v i = 0 := fun i hi => by
    have := e i
    rw [hs, add_zero] at this
    exact (mul_eq_zero.1 this).resolve_left (hd i hi)
  funext i
  by_cases hi : i = k
  · subst hi
    rw [Finset.sum_eq_single i (fun j _ hj => hz j hj) (fun h => absurd (Finset.mem_univ _) h)] at hs
    exact hs
  · exact hz i hi

theorem internal_not_injective {n : ℕ} (r : F) {d : Fin n → F} {k l : Fin n} (hkl : k ≠ l) (hk : d k = 0) (hl : d l = 0) :
    ¬ Function.Injective (fun v : Fin n → F => Spec.internal r d *ᵥ v) := by
  rw [injective_iff]
  intro h
  have := h (Pi.single k 1 - Pi.single l 1) (funext fun i => by
    rw [internal_mulVec]
    have hs : ∑ j, (Pi.single k 1 - Pi.single l 1 : Fin n → F) j = 0 := by
      simp [Finset.sum_sub_distrib]
    rw [hs]
    by_cases h1 : i = k
    · subst h1; simp [hk]
    · by_cases h2 : i = l
      · subst h2; simp [hl]
      · simp [h1, h2])
  have := congrFun this k
  simp [hkl] at this

/-! ## Rounds -/

section Rounds
variable {n : ℕ} (alpha : BitVec 32) (c : Config F n)

/-- The factor of the internal matrix. -/
def factor (c : Config F n) : F :=
  match c.internal with
  | .plonky3 => c.rawOne.getD 1
  | .horizen => 1

theorem mixPartial_eq (s : Fin n → F) : mixPartial c s = Spec.internal (factor c) c.diag *ᵥ s := by
  unfold mixPartial factor
  cases c.internal
  · exact applyInternal_eq _ _
  · exact applyInternalPacked_eq _ _ _

/-- Rounds of the specification over a list of rows that starts at row `i`. -/
def specRounds (h P : ℕ) (l : List (Fin n → F)) (i : ℕ) (s : Fin n → F) : Fin n → F :=
  (l.zipIdx i).foldl (fun s r => Spec.round alpha.toNat (Spec.external (construct4 c.external))
    (Spec.internal (factor c) c.diag) (r.2 < h ∨ h + P ≤ r.2) r.1 s) s

theorem specRounds_cons (h P : ℕ) (a : Fin n → F) (l : List (Fin n → F)) (i : ℕ) (s : Fin n → F) :
    specRounds alpha c h P (a :: l) i s = specRounds alpha c h P l (i + 1)
      (Spec.round alpha.toNat (Spec.external (construct4 c.external))
        (Spec.internal (factor c) c.diag) (i < h ∨ h + P ≤ i) a s) := rfl

theorem specRounds_append (h P : ℕ) (l l' : List (Fin n → F)) (i : ℕ) (s : Fin n → F) :
    specRounds alpha c h P (l ++ l') i s = specRounds alpha c h P l' (i + l.length) (specRounds alpha c h P l i s) := by
  unfold specRounds
  rw [List.zipIdx_append, List.foldl_append]

theorem take_drop_succ {α : Type} (l : List α) (i k : ℕ) (h : i < l.length) :
    (l.drop i).take (k + 1) = l[i] :: (l.drop (i + 1)).take k := by
  rw [List.drop_eq_getElem_cons h, List.take_succ_cons]

theorem fullRounds_eq (hw : Width n) (h P : ℕ) : ∀ (k i : ℕ) (s : Fin n → F), i + k ≤ c.ark.length →
    (i + k ≤ h ∨ h + P ≤ i) →
    fullRounds alpha c k i s = some (specRounds alpha c h P ((c.ark.drop i).take k) i s) := by
  intro k
  induction k with
  | zero => intro i s _ _; rfl
  | succ k ih =>
    intro i s hl hr
    rw [take_drop_succ _ _ _ (by omega), specRounds_cons, fullRounds, List.getElem?_eq_getElem (by omega),
      Option.bind_some, applyExternal_eq _ hw, Option.bind_some, ih _ _ (by omega) (by omega)]
    congr 2
    rw [Spec.round, if_pos (by omega)]
    congr 1
    funext j
    rw [sboxFull, pow_eq, Pi.add_apply]

theorem partialRounds_eq (h P : ℕ) : ∀ (k i : ℕ) (s : Fin n → F), i + k ≤ c.ark.length →
    h ≤ i → i + k ≤ h + P →
    partialRounds alpha c k i s = some (specRounds alpha c h P ((c.ark.drop i).take k) i s) := by
  intro k
  induction k with
  | zero => intro i s _ _ _; rfl
  | succ k ih =>
    intro i s hl h1 h2
    rw [take_drop_succ _ _ _ (by omega), specRounds_cons, partialRounds, List.getElem?_eq_getElem (by omega),
      Option.bind_some, ih _ _ (by omega) (by omega) (by omega)]
    congr 2
    rw [Spec.round, if_neg (by omega), mixPartial_eq]
    congr 1
    funext j
    rw [firstOnly, pow_eq]

theorem permute_eq (hw : Width n) (R P : ℕ) (hl : R + P ≤ c.ark.length) (s : Fin n → F) :
    permute alpha R P c s = some (Spec.permute alpha.toNat (R / 2) P (Spec.external (construct4 c.external))
      (Spec.internal (factor c) c.diag) (c.ark.take (R + P)) s) := by
  have hR : R / 2 ≤ R := Nat.div_le_self _ _
  unfold permute
  rw [applyExternal_eq _ hw, Option.bind_some, fullRounds_eq alpha c hw (R / 2) P _ _ _ (by omega) (by omega),
    Option.bind_some, partialRounds_eq alpha c (R / 2) P _ _ _ (by omega) (by omega) (by omega), Option.bind_some,
    fullRounds_eq alpha c hw (R / 2) P _ _ _ (by omega) (by omega)]
  congr 1
  show _ = specRounds alpha c (R / 2) P (c.ark.take (R + P)) 0 _
  have e : c.ark.take (R + P) = (c.ark.drop 0).take (R / 2) ++ ((c.ark.drop (R / 2)).take P ++
      (c.ark.drop (R / 2 + P)).take (P + R - (R / 2 + P))) := by
    rw [show R + P = R / 2 + (P + (P + R - (R / 2 + P))) by omega, List.take_add, List.take_add, List.drop_drop,
      List.drop_zero]
  rw [e, specRounds_append, specRounds_append]
  congr 1
  · simp only [List.drop_zero, List.length_take, List.length_drop]
    omega
  · congr 1
    simp only [List.drop_zero, List.length_take]
    omega

theorem fullRounds_none : ∀ (k i : ℕ) (s : Fin n → F), 0 < k → c.ark.length < i + k →
    fullRounds alpha c k i s = none := by
  intro k
  induction k with
  | zero => intro i s h; omega
  | succ k ih =>
    intro i s _ hl
    rw [fullRounds]
    by_cases hi : i < c.ark.length
    · rw [List.getElem?_eq_getElem hi, Option.bind_some]
      cases applyExternal c.external (sboxFull alpha (s + c.ark[i])) with
      | none => rfl
      | some s' => exact ih _ _ (by omega) (by omega)
    · rw [List.getElem?_eq_none (by omega)]; rfl

theorem partialRounds_none : ∀ (k i : ℕ) (s : Fin n → F), 0 < k → c.ark.length < i + k →
    partialRounds alpha c k i s = none := by
  intro k
  induction k with
  | zero => intro i s h; omega
  | succ k ih =>
    intro i s _ hl
    rw [partialRounds]
    by_cases hi : i < c.ark.length
    · rw [List.getElem?_eq_getElem hi, Option.bind_some]
      exact ih _ _ (by omega) (by omega)
    · rw [List.getElem?_eq_none (by omega)]; rfl

theorem bind_none {α β : Type} (x : Option α) (f : α → Option β) (h : ∀ a, f a = none) : x.bind f = none := by
  cases x with
  | none => rfl
  | some a => exact h a

theorem permute_none (R P : ℕ) (hl : c.ark.length < R + P) (s : Fin n → F) : permute alpha R P c s = none := by
  have hR : R / 2 ≤ R := Nat.div_le_self _ _
  unfold permute
  refine bind_none _ _ fun s => ?_
  by_cases h3 : R = R / 2
  · have hR0 : R = 0 := by omega
    subst hR0
    refine bind_none _ _ fun s => ?_
    rw [partialRounds_none alpha c P (0 / 2) s (by omega) (by omega)]
    rfl
  · refine bind_none _ _ fun s => bind_none _ _ fun s => ?_
    exact fullRounds_none alpha c _ _ s (by omega) (by omega)

end Rounds

/-! ## Bijectivity -/

/-- A composition of maps of a finite type is injective iff all of them are. -/
theorem foldl_injective {α β : Type} [Finite α] (f : β → α → α) (l : List β) :
    Function.Injective (fun s => l.foldl (fun s b => f b s) s) ↔ ∀ b ∈ l, Function.Injective (f b) := by
  induction l with
  | nil => exact ⟨fun _ _ h => absurd h List.not_mem_nil, fun _ _ _ h => h⟩
  | cons b l ih =>
    have e : (fun s => (b :: l).foldl (fun s b => f b s) s) = (fun s => l.foldl (fun s b => f b s) s) ∘ f b := rfl
    rw [e, List.forall_mem_cons, ← ih]
    constructor
    · intro h
      have hb : Function.Injective (f b) := h.of_comp
      refine ⟨hb, ?_⟩
      have hs := (Finite.injective_iff_surjective.1 hb)
      exact (Function.Injective.of_comp_right h hs)
    · exact fun h => h.2.comp h.1

theorem comp_injective {α : Type} [Finite α] (f g : α → α) :
    Function.Injective (f ∘ g) ↔ Function.Injective f ∧ Function.Injective g :=
  ⟨fun h => ⟨Function.Injective.of_comp_right h (Finite.injective_iff_surjective.1 h.of_comp), h.of_comp⟩,
    fun h => h.1.comp h.2⟩

/-- Powers are injective on a finite field iff the exponent is prime to the order of the units. -/
theorem pow_injective_iff [Fintype F] (k : ℕ) (hk : 0 < k) :
    Function.Injective (fun x : F => x ^ k) ↔ (Fintype.card F - 1).Coprime k := by
  classical
  constructor
  · intro h
    by_contra hc
    obtain ⟨p, hp, h1, h2⟩ := Nat.Prime.not_coprime_iff_dvd.1 hc
    have : Fact p.Prime := ⟨hp⟩
    obtain ⟨w, hw⟩ := exists_prime_orderOf_dvd_card (G := Fˣ) p (by rw [Fintype.card_units]; exact h1)
    have : (w : F) ^ k = 1 ^ k := by
      obtain ⟨c, rfl⟩ := h2
      rw [one_pow, ← Units.val_pow_eq_pow_val, pow_mul, ← hw, pow_orderOf_eq_one, one_pow, Units.val_one]
    have := Units.ext (h this : (w : F) = (1 : Fˣ))
    rw [this, orderOf_one] at hw
    exact hp.one_lt.ne hw
  · exact fun h => (Props.pow_bijective k hk h).1

theorem full_injective [Fintype F] {n : ℕ} (hn : 0 < n) (k : ℕ) (hk : 0 < k) (a : Fin n → F) :
    Function.Injective (fun (s : Fin n → F) (i : Fin n) => (s i + a i) ^ k) ↔ (Fintype.card F - 1).Coprime k := by
  rw [← pow_injective_iff k hk]
  constructor
  · intro h x y hxy
    have := @h (fun i => x - a i) (fun i => y - a i) (funext fun i => by simpa using hxy)
    have := congrFun this ⟨0, hn⟩
    simpa using this
  · intro h s s' e
    funext i
    exact add_right_cancel (h (congrFun e i))

theorem partial_injective [Fintype F] {n : ℕ} (hn : 0 < n) (k : ℕ) (hk : 0 < k) (a : Fin n → F) :
    Function.Injective (fun (s : Fin n → F) (i : Fin n) => if i.val = 0 then (s i + a i) ^ k else s i) ↔
      (Fintype.card F - 1).Coprime k := by
  rw [← pow_injective_iff k hk]
  constructor
  · intro h x y hxy
    have := @h (fun i => x - a i) (fun i => if i.val = 0 then y - a i else x - a i) (funext fun i => by
      by_cases hi : i.val = 0
      · simpa [hi] using hxy
      · simp [hi])
    have := congrFun this ⟨0, hn⟩
    simpa using this
  · intro h s s' e
    funext i
    have := congrFun e i
    by_cases hi : i.val = 0
    · simp only [hi, if_true] at this
      exact add_right_cancel (h this)
    · simpa [hi] using this

theorem round_injective [Fintype F] {n : ℕ} (hn : 0 < n) (k : ℕ) (hk : 0 < k) (E I : Matrix (Fin n) (Fin n) F)
    (full : Prop) [Decidable full] (a : Fin n → F) :
    Function.Injective (Spec.round k E I full a) ↔
      (if full then Function.Injective (fun v : Fin n → F => E *ᵥ v)
        else Function.Injective (fun v : Fin n → F => I *ᵥ v)) ∧ (Fintype.card F - 1).Coprime k := by
  by_cases hf : full
  · have e : Spec.round k E I full a = (fun v : Fin n → F => E *ᵥ v) ∘ fun s i => (s i + a i) ^ k := by
      funext s
      rw [Spec.round, if_pos hf]; rfl
    rw [e, comp_injective, full_injective hn k hk, if_pos hf]
  · have e : Spec.round k E I full a =
        (fun v : Fin n → F => I *ᵥ v) ∘ fun s i => if i.val = 0 then (s i + a i) ^ k else s i := by
      funext s
      rw [Spec.round, if_neg hf]; rfl
    rw [e, comp_injective, partial_injective hn k hk, if_neg hf]

theorem spec_injective [Fintype F] {n : ℕ} (hn : 0 < n) (k : ℕ) (hk : 0 < k) (E I : Matrix (Fin n) (Fin n) F)
    (h P : ℕ) (hP : 0 < P) (ark : List (Fin n → F)) (hl : h + P ≤ ark.length) :
    Function.Injective (Spec.permute k h P E I ark) ↔
      Function.Injective (fun v : Fin n → F => E *ᵥ v) ∧ Function.Injective (fun v : Fin n → F => I *ᵥ v) ∧
        (Fintype.card F - 1).Coprime k := by
  have e : Spec.permute k h P E I ark =
      (fun s => ark.zipIdx.foldl (fun s r => Spec.round k E I (r.2 < h ∨ h + P ≤ r.2) r.1 s) s) ∘
        fun v : Fin n → F => E *ᵥ v := rfl
  rw [e, comp_injective, foldl_injective (fun (r : (Fin n → F) × ℕ) => Spec.round k E I (r.2 < h ∨ h + P ≤ r.2) r.1)]
  constructor
  · rintro ⟨h1, h2⟩
    have hm := h1 (ark[h], h) (by rw [List.mem_zipIdx_iff_getElem?]; exact List.getElem?_eq_getElem (by omega))
    rw [round_injective hn k hk, if_neg (by simp only; omega)] at hm
    exact ⟨h2, hm.1, hm.2⟩
  · rintro ⟨h1, h2, h3⟩
    refine ⟨fun r _ => ?_, h1⟩
    rw [round_injective hn k hk]
    refine ⟨?_, h3⟩
    split_ifs
    · exact h1
    · exact h2

/-! ## Machine words -/

section Words
open SmallField

theorem toNat64 (x : BitVec 32) : (x.setWidth 64 : BitVec 64).toNat = x.toNat := by
  rw [BitVec.toNat_setWidth]
  exact Nat.mod_eq_of_lt (by have := x.isLt; omega)

theorem shiftLoop_eq (debug mont : Bool) (c : SmallField.Config) (full : BitVec 64) (red : BitVec 64 → BitVec 32) :
    ∀ (xs : List (BitVec 32)) (ss : List (BitVec 8)), xs.length ≤ ss.length →
      (∀ x ∈ xs, ∀ s ∈ ss, s.toNat < 64 ∧
        reduceSum debug mont c (full + (x.setWidth 64 <<< s.toNat)) = some (red (full + (x.setWidth 64 <<< s.toNat)))) →
      shiftLoop debug mont c full xs ss =
        some (List.zipWith (fun x s => red (full + (x.setWidth 64 <<< s.toNat))) xs ss) := by
  intro xs
  induction xs with
  | nil => intro ss _ _; cases ss <;> rfl
  | cons x xs ih =>
    intro ss hl h
    cases ss with
    | nil => simp at hl
    | cons s ss =>
      obtain ⟨h1, h2⟩ := h x (by simp) s (by simp)
      rw [shiftLoop, if_pos h1, h2, Option.bind_some, ih ss (by simpa using hl)
        fun x hx s hs => h x (by simp [hx]) s (by simp [hs])]
      rfl

theorem foldl_words (m : ℕ) (hm : m ≤ 2 ^ 31) : ∀ (xs : List (BitVec 32)) (a : BitVec 64),
    (∀ x ∈ xs, x.toNat < m) → a.toNat + xs.length * 2 ^ 31 < 2 ^ 64 →
    (xs.foldl (fun acc y => acc + y.setWidth 64) a).toNat = a.toNat + (xs.map BitVec.toNat).sum := by
  intro xs
  induction xs with
  | nil => intro a _ _; simp
  | cons x xs ih =>
    intro a h hl
    have hx := h x (by simp)
    rw [List.length_cons] at hl
    have e : (a + x.setWidth 64).toNat = a.toNat + x.toNat := by
      rw [BitVec.toNat_add, toNat64, Nat.mod_eq_of_lt (by omega)]
    rw [List.foldl_cons, ih _ (fun y hy => h y (by simp [hy])) (by rw [e]; omega), e, List.map_cons, List.sum_cons]
    omega

theorem sum_le (m : ℕ) : ∀ xs : List (BitVec 32), (∀ x ∈ xs, x.toNat < m) →
    (xs.map BitVec.toNat).sum ≤ xs.length * (m - 1) := by
  intro xs
  induction xs with
  | nil => intro _; simp
  | cons x xs ih =>
    intro h
    have hx := h x (by simp)
    have := ih fun y hy => h y (by simp [hy])
    rw [List.map_cons, List.sum_cons, List.length_cons, Nat.succ_mul]
    omega

/-- The numbers the sums stand for, without overflow; they are below `m * B`. -/
theorem sums (c : SmallField.Config) (hc : c.Reduces) (B : ℕ) (hB : B ≤ 2 ^ 32) (x : BitVec 32) (xs : List (BitVec 32))
    (hv : ∀ y ∈ x :: xs, y.toNat < c.modulus.toNat) (hl : xs.length + 1 ≤ B) :
    let P := xs.foldl (fun acc y => acc + y.setWidth 64) 0#64
    (P + (negate c x).setWidth 64).toNat = (xs.map BitVec.toNat).sum + (c.modulus.toNat - x.toNat) % c.modulus.toNat ∧
    (P + (negate c x).setWidth 64).toNat < c.modulus.toNat * B ∧
    ∀ y ∈ xs, ∀ k : ℕ, xs.length + 1 + 2 ^ k ≤ B →
      (P + x.setWidth 64 + (y.setWidth 64 <<< k)).toNat = (xs.map BitVec.toNat).sum + x.toNat + y.toNat * 2 ^ k ∧
      (P + x.setWidth 64 + (y.setWidth 64 <<< k)).toNat < c.modulus.toNat * B := by
  intro P
  have hm := hc.le
  have h0 := hc.pos
  have hx := hv x (by simp)
  have hxs : ∀ y ∈ xs, y.toNat < c.modulus.toNat := fun y hy => hv y (by simp [hy])
  have hS := sum_le _ xs hxs
  have hP : P.toNat = (xs.map BitVec.toNat).sum := by
    have := foldl_words _ hm xs 0#64 hxs (by simp only [BitVec.toNat_ofNat]; omega)
    simpa using this
  have hn : (negate c x).toNat = (c.modulus.toNat - x.toNat) % c.modulus.toNat := by
    rw [negate, subMod_spec hc _ _ (by simpa using h0) hx]
    simp
  have hn' : (negate c x).toNat < c.modulus.toNat := by rw [hn]; exact Nat.mod_lt _ h0
  -- products with the bounds
  obtain ⟨q, hq⟩ : ∃ q, c.modulus.toNat = q + 1 := ⟨c.modulus.toNat - 1, by omega⟩
  have hq1 : c.modulus.toNat - 1 = q := by omega
  rw [hq1] at hS
  have hqB : xs.length * q + q ≤ q * B := by nlinarith
  have hqB2 : q * B ≤ 2 ^ 31 * 2 ^ 32 := Nat.mul_le_mul (by omega) hB
  have hmB : c.modulus.toNat * B = q * B + B := by rw [hq]; ring
  refine ⟨?_, ?_, ?_⟩
  · rw [BitVec.toNat_add, toNat64, hP, hn, Nat.mod_eq_of_lt]
    rw [hn] at hn'
    omega
  · rw [BitVec.toNat_add, toNat64, hP, Nat.mod_eq_of_lt (by omega), hmB]
    omega
  · intro y hy k hk
    have hy := hxs y hy
    have hyk : y.toNat * 2 ^ k ≤ q * 2 ^ k := Nat.mul_le_mul_right _ (by omega)
    have hb : xs.length * q + q + q * 2 ^ k ≤ q * B := by
      have := Nat.mul_le_mul_left q hk
      nlinarith
    have e1 : (P + x.setWidth 64).toNat = (xs.map BitVec.toNat).sum + x.toNat := by
      rw [BitVec.toNat_add, toNat64, hP, Nat.mod_eq_of_lt (by omega)]
    have e2 : (y.setWidth 64 <<< k : BitVec 64).toNat = y.toNat * 2 ^ k := by
      rw [BitVec.toNat_shiftLeft, toNat64, Nat.shiftLeft_eq, Nat.mod_eq_of_lt (by omega)]
    have e3 : (P + x.setWidth 64 + (y.setWidth 64 <<< k)).toNat =
        (xs.map BitVec.toNat).sum + x.toNat + y.toNat * 2 ^ k := by
      rw [BitVec.toNat_add, e1, e2, Nat.mod_eq_of_lt (by omega)]
    exact ⟨e3, by rw [e3, hmB]; omega⟩

theorem fromU62_parts (x : BitVec 64) (hx : x.toNat < 2 ^ 62) :
    ((x &&& mersenne31.modulus.setWidth 64).setWidth 32 : BitVec 32).toNat = x.toNat % 2 ^ 31 ∧
    ((x >>> 31).setWidth 32 : BitVec 32).toNat = x.toNat / 2 ^ 31 := by
  have e : (mersenne31.modulus.setWidth 64 : BitVec 64).toNat = 2 ^ 31 - 1 := by decide
  constructor
  · rw [BitVec.toNat_setWidth, BitVec.toNat_and, e, Nat.and_two_pow_sub_one_eq_mod]
    omega
  · rw [BitVec.toNat_setWidth, BitVec.toNat_ushiftRight, Nat.shiftRight_eq_div_pow]
    omega

theorem fromU62_release (x : BitVec 64) (hx : x.toNat < 2 ^ 62 - 1) :
    ∃ r, fromU62 false mersenne31 x = some r ∧ r.toNat = x.toNat % (2 ^ 31 - 1) := by
  obtain ⟨h1, h2⟩ := fromU62_parts x (by omega)
  refine ⟨_, rfl, ?_⟩
  rw [addMod]
  have e : ((x &&& mersenne31.modulus.setWidth 64).setWidth 32 + (x >>> 31).setWidth 32 : BitVec 32).toNat =
      x.toNat % 2 ^ 31 + x.toNat / 2 ^ 31 := by
    rw [BitVec.toNat_add, h1, h2, Nat.mod_eq_of_lt (by omega)]
  have hp : mersenne31.modulus.toNat = 2147483647 := rfl
  rw [mersenne31_reduces.r32 _ (by rw [e, hp]; omega), e, hp]
  omega

theorem fromU62_debug (x : BitVec 64) (hx : x.toNat < (2 ^ 31 - 1) * 2 ^ 31) :
    fromU62 true mersenne31 x = if x.toNat % 2 ^ 31 = 2 ^ 31 - 1 then none else fromU62 false mersenne31 x := by
  obtain ⟨h1, h2⟩ := fromU62_parts x (by omega)
  have hp : mersenne31.modulus.toNat = 2147483647 := rfl
  unfold fromU62
  simp only [h1, h2, hp]
  by_cases h : x.toNat % 2 ^ 31 = 2 ^ 31 - 1
  · rw [if_pos (by simp only [true_and]; omega), if_pos h]
  · rw [if_neg (by simp only [true_and, not_not]; omega), if_neg h]
    simp

end Words

end Tachyon.Poseidon2
