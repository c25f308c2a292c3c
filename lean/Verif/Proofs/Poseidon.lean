import Mathlib.LinearAlgebra.Matrix.NonsingularInverse
import Mathlib.LinearAlgebra.Matrix.ToLinearEquiv
import Mathlib.LinearAlgebra.Lagrange
import Mathlib.Tactic.LinearCombination
import Mathlib.Tactic.Ring
import Mathlib.Tactic.Abel
import Verif.Model.Poseidon
import Verif.Spec.Poseidon
import Verif.Props.Pow
/-!
# Lemmas about the Poseidon permutation
-/
namespace Tachyon.Poseidon
open Matrix

variable {F : Type} [Field F] {t : ℕ}

/-- What `inverse` of Eigen has to do. -/
structure EigenInv.Lawful (inv : EigenInv F) : Prop where
  left : ∀ {n : ℕ} (M : Matrix (Fin n) (Fin n) F), IsUnit M.det → inv.run M * M = 1

theorem EigenInv.Lawful.right {inv : EigenInv F} (h : inv.Lawful) {n : ℕ} (M : Matrix (Fin n) (Fin n) F) (hM : IsUnit M.det) :
    M * inv.run M = 1 := mul_eq_one_comm.1 (h.left M hM)

theorem foldl_sum {n : ℕ} (f : Fin n → F) : (List.finRange n).foldl (fun acc j => acc + f j) 0 = ∑ j, f j := by
  have : ∀ (l : List (Fin n)) (a : F), l.foldl (fun acc j => acc + f j) a = a + (l.map f).sum := by
    intro l
    induction l with
    | nil => intro a; simp
    | cons x l ih => intro a; rw [List.foldl_cons, ih, List.map_cons, List.sum_cons, add_assoc]
  rw [this, zero_add, ← List.ofFn_eq_map, List.sum_ofFn]

theorem mulMatVec_eq {n : ℕ} (M : Matrix (Fin n) (Fin n) F) (v : Fin n → F) : mulMatVec M v = M *ᵥ v := by
  funext i
  exact foldl_sum _

theorem mulMatMat_eq {l m n : ℕ} (A : Matrix (Fin l) (Fin m) F) (B : Matrix (Fin m) (Fin n) F) :
    mulMatMat A B = A * B := by
  ext i k
  rw [Matrix.mul_apply]
  exact foldl_sum _

theorem construct_zero (s : Sparse F t) (j : Fin (t + 2)) : s.construct 0 j = s.row j := by simp [Sparse.construct]
theorem construct_succ_zero (s : Sparse F t) (i : Fin (t + 1)) : s.construct i.succ 0 = s.colHat i := by
  simp [Sparse.construct, Fin.succ_ne_zero]
theorem construct_succ_succ (s : Sparse F t) (i j : Fin (t + 1)) :
    s.construct i.succ j.succ = if i = j then 1 else 0 := by
  simp [Sparse.construct, Fin.succ_ne_zero]

/-- The loop over the entries below the first. -/
theorem applyLoop_eq (c : Fin (t + 1) → F) (l : List (Fin (t + 1))) (hl : l.Nodup) (v : Fin (t + 2) → F) :
    l.foldl (fun (v : Fin (t + 2) → F) i => Function.update v i.succ (v i.succ + c i * v 0)) v =
      Fin.cons (v 0) fun i => if i ∈ l then v i.succ + c i * v 0 else v i.succ := by
  induction l generalizing v with
  | nil => funext i; refine Fin.cases ?_ (fun i => ?_) i <;> simp
  | cons x l ih =>
    rw [List.foldl_cons, ih (List.nodup_cons.1 hl).2]
    have h0 : Function.update v x.succ (v x.succ + c x * v 0) 0 = v 0 :=
      Function.update_of_ne (Fin.succ_ne_zero x).symm _ _
    rw [h0]
    congr 1
    funext i
    by_cases e : i = x
    · subst e
      simp [(List.nodup_cons.1 hl).1]
    · have : Function.update v x.succ (v x.succ + c x * v 0) i.succ = v i.succ :=
        Function.update_of_ne (by simpa using e) _ _
      rw [this]
      simp [e]

theorem apply_eq (s : Sparse F t) (v : Fin (t + 2) → F) : s.apply v = s.construct *ᵥ v := by
  unfold Sparse.apply
  dsimp only
  rw [applyLoop_eq _ _ (List.nodup_finRange _), foldl_sum]
  funext i
  refine Fin.cases ?_ (fun i => ?_) i
  · rw [Function.update_self]
    simp only [Matrix.mulVec, dotProduct, construct_zero]
  · rw [Function.update_of_ne (Fin.succ_ne_zero i), Fin.cons_succ, if_pos (List.mem_finRange i)]
    simp only [Matrix.mulVec, dotProduct]
    rw [Fin.sum_univ_succ, construct_succ_zero]
    simp only [construct_succ_succ, ite_mul, one_mul, zero_mul, Finset.sum_ite_eq, Finset.mem_univ, if_true]
    ring

theorem mPrime_zero (M : Matrix (Fin (t + 2)) (Fin (t + 2)) F) (j : Fin (t + 1)) : mPrime M 0 j.succ = 0 := by
  simp [mPrime, (Fin.succ_ne_zero _).symm]
theorem mPrime_zero_zero (M : Matrix (Fin (t + 2)) (Fin (t + 2)) F) : mPrime M 0 0 = 1 := by
  simp [mPrime]
theorem mPrime_succ_zero (M : Matrix (Fin (t + 2)) (Fin (t + 2)) F) (j : Fin (t + 1)) : mPrime M j.succ 0 = 0 := by
  simp [mPrime, Fin.succ_ne_zero]
theorem mPrime_succ (M : Matrix (Fin (t + 2)) (Fin (t + 2)) F) (i j : Fin (t + 1)) :
    mPrime M i.succ j.succ = M i.succ j.succ := by
  simp [mPrime, Fin.succ_ne_zero]

/-- The factors multiply to the matrix. -/
theorem mPrime_mul (inv : EigenInv F) (hinv : inv.Lawful) (M : Matrix (Fin (t + 2)) (Fin (t + 2)) F)
    (h : IsUnit (M.submatrix Fin.succ Fin.succ).det) : mPrime M * mPrimePrime inv M = M := by
  have z : ∀ j, mPrimePrime inv M 0 j = M 0 j := by intro j; simp [mPrimePrime]
  have sz : ∀ i : Fin (t + 1), mPrimePrime inv M i.succ 0 = wHat inv M i := by
    intro i; simp [mPrimePrime, Fin.succ_ne_zero]
  have ss : ∀ i j : Fin (t + 1), mPrimePrime inv M i.succ j.succ = if i = j then 1 else 0 := by
    intro i j; simp [mPrimePrime, Fin.succ_ne_zero]
  have hw : M.submatrix Fin.succ Fin.succ *ᵥ wHat inv M = fun i => M i.succ 0 := by
    unfold wHat
    rw [Matrix.mulVec_mulVec, hinv.right _ h, Matrix.one_mulVec]
  ext i j
  rw [Matrix.mul_apply, Fin.sum_univ_succ]
  refine Fin.cases ?_ (fun i => ?_) i
  · rw [mPrime_zero_zero, z, one_mul]
    simp only [mPrime_zero, zero_mul, Finset.sum_const_zero, add_zero]
  · rw [mPrime_succ_zero, zero_mul, zero_add]
    simp only [mPrime_succ]
    refine Fin.cases ?_ (fun j => ?_) j
    · have := congrFun hw i
      simp only [Matrix.mulVec, dotProduct, Matrix.submatrix_apply] at this
      simp only [sz]
      exact this
    · simp only [ss, mul_ite, mul_one, mul_zero, Finset.sum_ite_eq', Finset.mem_univ, if_true]

/-- The accumulators of `ComputeSparseMatrices`. -/
def accM (M : Matrix (Fin (t + 2)) (Fin (t + 2)) F) : ℕ → Matrix (Fin (t + 2)) (Fin (t + 2)) F
  | 0 => Mᵀ
  | k + 1 => Mᵀ * mPrime (accM M k)

/-- The sparse matrices before they are reversed. -/
def sparseK (inv : EigenInv F) (M : Matrix (Fin (t + 2)) (Fin (t + 2)) F) (k : ℕ) : Sparse F t :=
  ⟨(mPrimePrime inv (accM M k))ᵀ 0, fun i => (mPrimePrime inv (accM M k))ᵀ i.succ 0⟩

theorem construct_sparseK (inv : EigenInv F) (M : Matrix (Fin (t + 2)) (Fin (t + 2)) F) (k : ℕ) :
    (sparseK inv M k).construct = (mPrimePrime inv (accM M k))ᵀ := by
  have ss : ∀ i j : Fin (t + 1), mPrimePrime inv (accM M k) i.succ j.succ = if i = j then 1 else 0 := by
    intro i j; simp [mPrimePrime, Fin.succ_ne_zero]
  ext i j
  refine Fin.cases ?_ (fun i => ?_) i
  · rw [construct_zero]; rfl
  · refine Fin.cases ?_ (fun j => ?_) j
    · rw [construct_succ_zero]; rfl
    · rw [construct_succ_succ, Matrix.transpose_apply, ss]
      by_cases e : i = j
      · subst e; rfl
      · rw [if_neg e, if_neg (fun h => e h.symm)]

theorem factorize_eq [DecidableEq F] (inv : EigenInv F) (M : Matrix (Fin (t + 2)) (Fin (t + 2)) F) (k : ℕ) :
    factorize inv (accM M k) = some (mPrime (accM M k), sparseK inv M k) := by
  have ss : ∀ i j : Fin (t + 1), (mPrimePrime inv (accM M k))ᵀ i.succ j.succ = if i = j then 1 else 0 := by
    intro i j
    simp only [Matrix.transpose_apply, mPrimePrime, Fin.succ_ne_zero, Fin.succ_inj, if_false, ne_eq, not_false_eq_true,
      and_false, dite_false]
    by_cases e : i = j
    · subst e; rfl
    · rw [if_neg e, if_neg (fun h => e h.symm)]
  unfold factorize Sparse.ofMatrix
  rw [if_pos ss]
  rfl

theorem sparseLoop_eq [DecidableEq F] (inv : EigenInv F) (M : Matrix (Fin (t + 2)) (Fin (t + 2)) F) (n k : ℕ) :
    sparseLoop inv Mᵀ n (accM M k) = some ((List.range' k n).map (sparseK inv M), accM M (k + n)) := by
  induction n generalizing k with
  | zero => rfl
  | succ n ih =>
    unfold sparseLoop
    rw [factorize_eq, Option.bind_some]
    dsimp only
    rw [show Mᵀ * mPrime (accM M k) = accM M (k + 1) from rfl, ih, Option.map_some, List.range'_succ, List.map_cons,
      show k + 1 + n = k + (n + 1) by omega]

theorem computeSparse_eq [DecidableEq F] (inv : EigenInv F) (P : ℕ) (M : Matrix (Fin (t + 2)) (Fin (t + 2)) F) :
    ∃ l, computeSparse inv P M = some (l, (accM M P)ᵀ) ∧ l.length = P ∧
      ∀ j < P, l[j]? = some (sparseK inv M (P - 1 - j)) := by
  refine ⟨((List.range' 0 P).map (sparseK inv M)).reverse, ?_, by simp, ?_⟩
  · unfold computeSparse
    rw [show sparseLoop inv Mᵀ P Mᵀ = _ from sparseLoop_eq inv M P 0, Option.map_some, Nat.zero_add]
  · intro j hj
    rw [List.getElem?_reverse (by simpa using hj)]
    rw [List.length_map, List.length_range', List.getElem?_map, List.getElem?_range' (by omega), Option.map_some]
    congr 2
    omega

/-- The lower right blocks are powers. -/
theorem accM_hat (M : Matrix (Fin (t + 2)) (Fin (t + 2)) F) (h : IsUnit (M.submatrix Fin.succ Fin.succ).det) (k : ℕ) :
    IsUnit ((accM M k).submatrix Fin.succ Fin.succ).det := by
  have hT : Mᵀ.submatrix Fin.succ Fin.succ = (M.submatrix Fin.succ Fin.succ)ᵀ := rfl
  induction k with
  | zero =>
    show IsUnit (Mᵀ.submatrix Fin.succ Fin.succ).det
    rw [hT, Matrix.det_transpose]
    exact h
  | succ k ih =>
    have e : (accM M (k + 1)).submatrix Fin.succ Fin.succ =
        Mᵀ.submatrix Fin.succ Fin.succ * (accM M k).submatrix Fin.succ Fin.succ := by
      ext i j
      rw [Matrix.submatrix_apply, accM, Matrix.mul_apply, Fin.sum_univ_succ, mPrime_zero, mul_zero, zero_add,
        Matrix.mul_apply]
      simp only [mPrime_succ, Matrix.submatrix_apply]
    rw [e, Matrix.det_mul, hT, Matrix.det_transpose]
    exact h.mul ih

/-- The block matrices that are moved through the partial rounds. -/
def nPrev (M : Matrix (Fin (t + 2)) (Fin (t + 2)) F) : ℕ → Matrix (Fin (t + 2)) (Fin (t + 2)) F
  | 0 => 1
  | k + 1 => (mPrime (accM M k))ᵀ

theorem accM_transpose (M : Matrix (Fin (t + 2)) (Fin (t + 2)) F) (k : ℕ) : (accM M k)ᵀ = nPrev M k * M := by
  cases k with
  | zero => rw [accM, nPrev, one_mul, Matrix.transpose_transpose]
  | succ k => rw [accM, nPrev, Matrix.transpose_mul, Matrix.transpose_transpose]

theorem construct_mul (inv : EigenInv F) (hinv : inv.Lawful) (M : Matrix (Fin (t + 2)) (Fin (t + 2)) F)
    (h : IsUnit (M.submatrix Fin.succ Fin.succ).det) (k : ℕ) :
    (sparseK inv M k).construct * nPrev M (k + 1) = nPrev M k * M := by
  rw [construct_sparseK, nPrev, ← Matrix.transpose_mul, mPrime_mul inv hinv _ (accM_hat M h k), accM_transpose]

theorem nPrev_block (M : Matrix (Fin (t + 2)) (Fin (t + 2)) F) (k : ℕ) :
    nPrev M k 0 0 = 1 ∧ ∀ j : Fin (t + 1), nPrev M k 0 j.succ = 0 ∧ nPrev M k j.succ 0 = 0 := by
  cases k with
  | zero =>
    exact ⟨rfl, fun j => ⟨Matrix.one_apply_ne (Fin.succ_ne_zero j).symm, Matrix.one_apply_ne (Fin.succ_ne_zero j)⟩⟩
  | succ k =>
    exact ⟨mPrime_zero_zero (accM M k), fun j => ⟨mPrime_succ_zero (accM M k) j, mPrime_zero (accM M k) j⟩⟩

theorem mulVec_succ (N : Matrix (Fin (t + 2)) (Fin (t + 2)) F) (v : Fin (t + 2) → F) (i : Fin (t + 2)) :
    (N *ᵥ v) i = N i 0 * v 0 + ∑ j : Fin (t + 1), N i j.succ * v j.succ := by
  rw [Matrix.mulVec, dotProduct, Fin.sum_univ_succ]

/-- A change of the first element commutes with the block matrix. -/
theorem nPrev_update (M : Matrix (Fin (t + 2)) (Fin (t + 2)) F) (k : ℕ) (v : Fin (t + 2) → F) (x : F) :
    Function.update (nPrev M k *ᵥ v) 0 x = nPrev M k *ᵥ Function.update v 0 x := by
  obtain ⟨h0, h1⟩ := nPrev_block M k
  funext i
  refine Fin.cases ?_ (fun i => ?_) i
  · rw [Function.update_self, mulVec_succ, Function.update_self, h0]
    simp only [(h1 _).1, zero_mul, Finset.sum_const_zero, add_zero, one_mul]
  · rw [Function.update_of_ne (Fin.succ_ne_zero i), mulVec_succ, mulVec_succ, (h1 i).2, zero_mul, zero_mul]
    simp only [Function.update_of_ne (Fin.succ_ne_zero _)]

theorem nPrev_apply (M : Matrix (Fin (t + 2)) (Fin (t + 2)) F) (k : ℕ) (v : Fin (t + 2) → F) :
    (nPrev M k *ᵥ v) 0 = v 0 := by
  obtain ⟨h0, h1⟩ := nPrev_block M k
  rw [mulVec_succ, h0]
  simp only [(h1 _).1, zero_mul, Finset.sum_const_zero, add_zero, one_mul]

/-! ## `OptimizeARK` -/

theorem fullRows_eq (Minv : Matrix (Fin (t + 2)) (Fin (t + 2)) F) (ark : List (Fin (t + 2) → F))
    (a : ℕ → Fin (t + 2) → F) (ha : ∀ k < ark.length, ark[k]? = some (a k)) (n i : ℕ) (opt : List (Fin (t + 2) → F))
    (hl : opt.length = ark.length) (hi : i + n ≤ ark.length) :
    ∃ opt', fullRows Minv ark n i opt = some opt' ∧ opt'.length = ark.length ∧
      ∀ k, opt'[k]? = if i ≤ k ∧ k < i + n then some (Minv *ᵥ a k) else opt[k]? := by
  induction n generalizing i opt with
  | zero => exact ⟨opt, rfl, hl, fun k => by rw [if_neg (by omega)]⟩
  | succ n ih =>
    obtain ⟨opt', h1, h2, h3⟩ := ih (i + 1) (opt.set i (Minv *ᵥ a i)) (by simpa using hl) (by omega)
    refine ⟨opt', ?_, h2, ?_⟩
    · unfold fullRows setRow
      rw [ha i (by omega), Option.bind_some, if_pos (by omega), Option.bind_some]
      exact h1
    · intro k
      rw [h3 k]
      by_cases e : k = i
      · subst e
        rw [if_neg (by omega), if_pos (by omega), List.getElem?_set_self (by omega)]
      · rw [List.getElem?_set_ne (by omega)]
        by_cases e' : i + 1 ≤ k ∧ k < i + 1 + n
        · rw [if_pos e', if_pos (by omega)]
        · rw [if_neg e', if_neg (by omega)]

/-- `acc` after `k` iterations. -/
def accV (Minv : Matrix (Fin (t + 2)) (Fin (t + 2)) F) (a : ℕ → Fin (t + 2) → F) (h P : ℕ) : ℕ → Fin (t + 2) → F
  | 0 => a (h + P)
  | k + 1 => Function.update (Minv *ᵥ accV Minv a h P k) 0 0 + a (h + P - k - 1)

theorem partialRows_eq (Minv : Matrix (Fin (t + 2)) (Fin (t + 2)) F) (ark : List (Fin (t + 2) → F))
    (a : ℕ → Fin (t + 2) → F) (ha : ∀ k < ark.length, ark[k]? = some (a k)) (h P : ℕ) (hN : h + P < ark.length)
    (n k : ℕ) (opt : List (Fin (t + 2) → F)) (hl : opt.length = ark.length) (hk : k + n = P) :
    ∃ opt', partialRows Minv ark (2 * h + P) n (h + k) opt (accV Minv a h P k) = some (opt', accV Minv a h P P) ∧
      opt'.length = ark.length ∧
      ∀ r, opt'[r]? = if h + 1 ≤ r ∧ r ≤ h + n then some (Function.update (0 : Fin (t + 2) → F) 0 ((Minv *ᵥ accV Minv a h P (h + P - r)) 0))
        else opt[r]? := by
  induction n generalizing k opt with
  | zero =>
    have : k = P := by omega
    subst this
    exact ⟨opt, rfl, hl, fun r => by rw [if_neg (by omega)]⟩
  | succ n ih =>
    obtain ⟨opt', h1, h2, h3⟩ := ih (k + 1)
      (opt.set (h + (n + 1)) (Function.update (0 : Fin (t + 2) → F) 0 ((Minv *ᵥ accV Minv a h P k) 0))) (by simpa using hl) (by omega)
    refine ⟨opt', ?_, h2, ?_⟩
    · unfold partialRows setRow
      dsimp only
      rw [show 2 * h + P - (h + k) = h + (n + 1) by omega, if_pos (by omega), Option.bind_some,
        ha (h + (n + 1) - 1) (by omega), Option.bind_some, ← h1, accV, show h + P - k - 1 = h + (n + 1) - 1 by omega]
      rfl
    · intro r
      rw [h3 r]
      by_cases e : r = h + (n + 1)
      · subst e
        rw [if_neg (by omega), if_pos (by omega), List.getElem?_set_self (by omega),
          show h + P - (h + (n + 1)) = k by omega]
      · rw [List.getElem?_set_ne (by omega)]
        by_cases e' : h + 1 ≤ r ∧ r ≤ h + n
        · rw [if_pos e', if_pos (by omega)]
        · rw [if_neg e', if_neg (by omega)]

/-- The rows of the optimised constants. -/
theorem optimizeArk_eq (inv : EigenInv F) (h P : ℕ) (hh : 0 < h) (M : Matrix (Fin (t + 2)) (Fin (t + 2)) F)
    (ark junk : List (Fin (t + 2) → F)) (hl : ark.length = 2 * h + P) (hj : junk.length = ark.length)
    (a : ℕ → Fin (t + 2) → F) (ha : ∀ k < ark.length, ark[k]? = some (a k)) :
    ∃ opt, optimizeArk inv (2 * h) P M ark junk = some opt ∧ opt.length = 2 * h + P ∧
      opt[0]? = some (a 0) ∧
      (∀ k, 1 ≤ k → k < h → opt[k]? = some (inv.run M *ᵥ a k)) ∧
      opt[h]? = some (inv.run M *ᵥ accV (inv.run M) a h P P) ∧
      (∀ j < P, opt[h + 1 + j]? = some (Function.update (0 : Fin (t + 2) → F) 0 ((inv.run M *ᵥ accV (inv.run M) a h P (P - 1 - j)) 0))) ∧
      (∀ k, h + P < k → k < 2 * h + P → opt[k]? = some (inv.run M *ᵥ a k)) := by
  unfold optimizeArk
  dsimp only
  rw [show 2 * h / 2 = h by omega, ha 0 (by omega), Option.bind_some]
  obtain ⟨o1, e1, l1, r1⟩ := fullRows_eq (inv.run M) ark a ha (h - 1) 1 (junk.set 0 (a 0)) (by simpa using hj) (by omega)
  obtain ⟨o2, e2, l2, r2⟩ := partialRows_eq (inv.run M) ark a ha h P (by omega) P 0 o1 l1 (by omega)
  obtain ⟨o3, e3, l3, r3⟩ := fullRows_eq (inv.run M) ark a ha (P + 2 * h - (h + P + 1)) (h + P + 1)
    (o2.set h (inv.run M *ᵥ accV (inv.run M) a h P P)) (by simpa using l2) (by omega)
  refine ⟨o3, ?_, by omega, ?_, ?_, ?_, ?_, ?_⟩
  · unfold setRow
    rw [if_pos (by omega), Option.bind_some, e1, Option.bind_some, ha (h + P) (by omega), Option.bind_some,
      show partialRows (inv.run M) ark (2 * h + P) P h o1 (a (h + P)) = _ from e2, Option.bind_some,
      if_pos (show h < o2.length by omega), Option.bind_some, e3]
  · rw [r3, if_neg (by omega), List.getElem?_set_ne (by omega), r2, if_neg (by omega), r1, if_neg (by omega),
      List.getElem?_set_self (by omega)]
  · intro k h1 h2
    rw [r3, if_neg (by omega), List.getElem?_set_ne (by omega), r2, if_neg (by omega), r1, if_pos (by omega)]
  · rw [r3, if_neg (by omega), List.getElem?_set_self (by omega)]
  · intro j hj
    rw [r3, if_neg (by omega), List.getElem?_set_ne (by omega), r2, if_pos (by omega),
      show h + P - (h + 1 + j) = P - 1 - j by omega]
  · intro k h1 h2
    rw [r3, if_pos (by omega)]

/-! ## `Permute` -/

/-- The state before round `r`. -/
def specState (alpha h P : ℕ) (M : Matrix (Fin (t + 2)) (Fin (t + 2)) F) (a : ℕ → Fin (t + 2) → F)
    (s : Fin (t + 2) → F) : ℕ → Fin (t + 2) → F
  | 0 => s
  | r + 1 => Spec.round alpha M (r < h ∨ h + P ≤ r) (a r) (specState alpha h P M a s r)

theorem specState_succ (alpha h P : ℕ) (M : Matrix (Fin (t + 2)) (Fin (t + 2)) F) (a : ℕ → Fin (t + 2) → F)
    (s : Fin (t + 2) → F) (r : ℕ) : specState alpha h P M a s (r + 1) =
      Spec.round alpha M (r < h ∨ h + P ≤ r) (a r) (specState alpha h P M a s r) := rfl

theorem permute_specState (alpha h P : ℕ) (M : Matrix (Fin (t + 2)) (Fin (t + 2)) F) (ark : List (Fin (t + 2) → F))
    (a : ℕ → Fin (t + 2) → F) (ha : ∀ k < ark.length, ark[k]? = some (a k)) (s : Fin (t + 2) → F) :
    Spec.permute alpha h P M ark s = specState alpha h P M a s ark.length := by
  unfold Spec.permute
  have : ∀ (l : List (Fin (t + 2) → F)) (i : ℕ), (∀ k < l.length, l[k]? = some (a (i + k))) →
      (l.zipIdx i).foldl (fun s r => Spec.round alpha M (r.2 < h ∨ h + P ≤ r.2) r.1 s) (specState alpha h P M a s i) =
        specState alpha h P M a s (i + l.length) := by
    intro l
    induction l with
    | nil => intro i _; rfl
    | cons x l ih =>
      intro i hx
      have hx0 : x = a i := by
        have := hx 0 (by simp)
        simpa using this
      rw [List.zipIdx_cons, List.foldl_cons, List.length_cons, show i + (l.length + 1) = i + 1 + l.length by omega,
        ← ih (i + 1)]
      · rw [specState, hx0]
      · intro k hk
        have := hx (k + 1) (by simpa using hk)
        rw [List.getElem?_cons_succ] at this
        rw [this, show i + (k + 1) = i + 1 + k by omega]
  have := this ark 0 (by simpa using ha)
  rw [Nat.zero_add] at this
  exact this

theorem pow_eq (alpha : BitVec 32) (x : F) : pow alpha x = x ^ alpha.toNat := Props.C19_constPow x alpha

theorem sboxFull_eq (alpha : BitVec 32) (full : Prop) [Decidable full] (hf : full) (s : Fin (t + 2) → F) :
    sboxFull alpha s = Spec.sbox alpha.toNat full s := by
  funext i
  rw [sboxFull, Spec.sbox, if_pos (Or.inl hf), pow_eq]

theorem sboxPartial_eq (alpha : BitVec 32) (full : Prop) [Decidable full] (hf : ¬ full) (s : Fin (t + 2) → F) :
    sboxPartial alpha s = Spec.sbox alpha.toNat full s := by
  funext i
  rw [sboxPartial, Spec.sbox]
  refine Fin.cases ?_ (fun i => ?_) i
  · rw [Function.update_self, if_pos (Or.inr rfl), pow_eq]
  · rw [Function.update_of_ne (Fin.succ_ne_zero i), if_neg]
    rintro (h | h)
    · exact hf h
    · exact Fin.succ_ne_zero i h

section Permute
variable (alpha : BitVec 32) (h P : ℕ) (M Minv : Matrix (Fin (t + 2)) (Fin (t + 2)) F) (a : ℕ → Fin (t + 2) → F)
  (s : Fin (t + 2) → F) (c : Config F t)

/-- The state in round `r` after the constants are added. -/
def specX (r : ℕ) : Fin (t + 2) → F := specState alpha.toNat h P M a s r + a r

theorem fullRounds_eq (hM : M * Minv = 1) (hc : c.mds = M) (n i : ℕ)
    (hrow : ∀ k, i < k → k ≤ i + n → c.ark[k]? = some (Minv *ᵥ a k))
    (hfull : ∀ r, i ≤ r → r < i + n → (r < h ∨ h + P ≤ r)) :
    fullRounds alpha c n (i + 1) (specX alpha h P M a s i) = some (specX alpha h P M a s (i + n)) := by
  induction n generalizing i with
  | zero => rfl
  | succ n ih =>
    unfold fullRounds arkFull
    rw [hrow (i + 1) (by omega) (by omega), Option.map_some, Option.bind_some, mulMatVec_eq, hc,
      show i + (n + 1) = i + 1 + n by omega, ← ih (i + 1) (fun k h1 h2 => hrow k (by omega) (by omega))
        (fun r h1 h2 => hfull r (by omega) (by omega))]
    congr 1
    rw [Matrix.mulVec_add, Matrix.mulVec_mulVec, hM, Matrix.one_mulVec]
    conv_rhs => rw [specX, specState]
    rw [sboxFull_eq alpha _ (hfull i (by omega) (by omega))]
    rfl

/-- The state of the algorithm in partial round `j`, without the block matrix. -/
def stateZ (j : ℕ) : Fin (t + 2) → F :=
  specX alpha h P M a s (h + j) + (accV Minv a h P (P - j) - a (h + j))

theorem stateZ_step (hM : M * Minv = 1) (j : ℕ) (hj : j < P) :
    M *ᵥ (Function.update (sboxPartial alpha (stateZ alpha h P M Minv a s j)) 0
      (sboxPartial alpha (stateZ alpha h P M Minv a s j) 0 + (Minv *ᵥ accV Minv a h P (P - 1 - j)) 0)) =
      stateZ alpha h P M Minv a s (j + 1) := by
  have e1 : accV Minv a h P (P - j) =
      Function.update (Minv *ᵥ accV Minv a h P (P - 1 - j)) 0 0 + a (h + j) := by
    rw [show P - j = (P - 1 - j) + 1 by omega, accV, show h + P - (P - 1 - j) - 1 = h + j by omega]
  have e2 : stateZ alpha h P M Minv a s j =
      specX alpha h P M a s (h + j) + Function.update (Minv *ᵥ accV Minv a h P (P - 1 - j)) 0 0 := by
    rw [stateZ, e1, add_sub_cancel_right]
  have e3 : Function.update (sboxPartial alpha (stateZ alpha h P M Minv a s j)) 0
      (sboxPartial alpha (stateZ alpha h P M Minv a s j) 0 + (Minv *ᵥ accV Minv a h P (P - 1 - j)) 0) =
      sboxPartial alpha (specX alpha h P M a s (h + j)) + Minv *ᵥ accV Minv a h P (P - 1 - j) := by
    rw [e2]
    funext i
    unfold sboxPartial
    refine Fin.cases ?_ (fun i => ?_) i
    · simp only [Function.update_self, Pi.add_apply, add_zero]
    · simp only [Function.update_of_ne (Fin.succ_ne_zero _), Pi.add_apply]
  rw [e3, Matrix.mulVec_add, Matrix.mulVec_mulVec, hM, Matrix.one_mulVec, stateZ,
    sboxPartial_eq alpha (h + j < h ∨ h + P ≤ h + j) (by omega), show P - (j + 1) = P - 1 - j by omega,
    show h + (j + 1) = h + j + 1 by omega]
  unfold specX
  rw [specState_succ]
  unfold Spec.round
  abel

theorem partialRounds_eq (inv : EigenInv F) (hinv : inv.Lawful) (hM : M * Minv = 1)
    (hhat : IsUnit (M.submatrix Fin.succ Fin.succ).det)
    (hrow : ∀ j < P, c.ark[h + 1 + j]? = some (Function.update (0 : Fin (t + 2) → F) 0 ((Minv *ᵥ accV Minv a h P (P - 1 - j)) 0)))
    (hsp : ∀ j < P, c.sparse[j]? = some (sparseK inv M (P - 1 - j))) (n j : ℕ) (hn : j + n = P) :
    partialRounds alpha c h n (h + 1 + j) (nPrev M (P - j) *ᵥ stateZ alpha h P M Minv a s j) =
      some (stateZ alpha h P M Minv a s P) := by
  induction n generalizing j with
  | zero =>
    have : j = P := by omega
    subst this
    rw [Nat.sub_self]
    unfold partialRounds
    rw [nPrev, Matrix.one_mulVec]
  | succ n ih =>
    unfold partialRounds arkPartial
    rw [hrow j (by omega), Option.map_some, Option.bind_some, show h + 1 + j - (h + 1) = j by omega, hsp j (by omega),
      Option.bind_some, ← ih (j + 1) (by omega), show h + 1 + j + 1 = h + 1 + (j + 1) by omega]
    congr 1
    rw [apply_eq]
    have e : sboxPartial alpha (nPrev M (P - j) *ᵥ stateZ alpha h P M Minv a s j) =
        nPrev M (P - j) *ᵥ sboxPartial alpha (stateZ alpha h P M Minv a s j) := by
      unfold sboxPartial
      rw [nPrev_update, nPrev_apply]
    rw [e, nPrev_apply, nPrev_update, Matrix.mulVec_mulVec]
    rw [show P - j = (P - 1 - j) + 1 by omega, construct_mul inv hinv M hhat, ← Matrix.mulVec_mulVec,
      show P - (j + 1) = P - 1 - j by omega, Function.update_self,
      stateZ_step alpha h P M Minv a s hM j (by omega)]

theorem permute_eq (inv : EigenInv F) (hinv : inv.Lawful) (hh : 0 < h) (hM : IsUnit M.det)
    (hhat : IsUnit (M.submatrix Fin.succ Fin.succ).det) (hc : c.mds = M) (hpre : c.pre = (accM M P)ᵀ)
    (hsp : ∀ j < P, c.sparse[j]? = some (sparseK inv M (P - 1 - j)))
    (h0 : c.ark[0]? = some (a 0))
    (h1 : ∀ k, 1 ≤ k → k < h → c.ark[k]? = some (inv.run M *ᵥ a k))
    (h2 : c.ark[h]? = some (inv.run M *ᵥ accV (inv.run M) a h P P))
    (h3 : ∀ j < P, c.ark[h + 1 + j]? =
      some (Function.update (0 : Fin (t + 2) → F) 0 ((inv.run M *ᵥ accV (inv.run M) a h P (P - 1 - j)) 0)))
    (h4 : ∀ k, h + P < k → k < 2 * h + P → c.ark[k]? = some (inv.run M *ᵥ a k)) :
    permute alpha (2 * h) P c s = some (specState alpha.toNat h P M a s (2 * h + P)) := by
  have hMi := hinv.right M hM
  unfold permute
  dsimp only
  rw [show 2 * h / 2 = h by omega]
  have s0 : arkFull c 0 s = some (specX alpha h P M a s 0) := by
    rw [arkFull, h0, Option.map_some]; rfl
  rw [s0, Option.bind_some, show fullRounds alpha c (h - 1) 1 _ = _ from
    fullRounds_eq alpha h P M (inv.run M) a s c hMi hc (h - 1) 0 (fun k g1 g2 => h1 k (by omega) (by omega))
      (fun r _ _ => by omega), Option.bind_some, arkFull, h2, Option.map_some, Option.bind_some, hpre, mulMatVec_eq,
    accM_transpose]
  have s1 : (nPrev M P * M) *ᵥ (sboxFull alpha (specX alpha h P M a s (0 + (h - 1))) +
      inv.run M *ᵥ accV (inv.run M) a h P P) = nPrev M (P - 0) *ᵥ stateZ alpha h P M (inv.run M) a s 0 := by
    rw [← Matrix.mulVec_mulVec, Matrix.mulVec_add, Matrix.mulVec_mulVec, hMi, Matrix.one_mulVec, stateZ]
    simp only [Nat.sub_zero, Nat.add_zero, Nat.zero_add]
    congr 1
    obtain ⟨g, rfl⟩ : ∃ g, h = g + 1 := ⟨h - 1, by omega⟩
    rw [Nat.add_sub_cancel, sboxFull_eq alpha (g < g + 1 ∨ g + 1 + P ≤ g) (by omega)]
    unfold specX
    rw [specState_succ]
    unfold Spec.round
    abel
  rw [s1, show h + 1 = h + 1 + 0 from rfl, partialRounds_eq alpha h P M (inv.run M) a s c inv hinv hMi hhat h3 hsp P 0
    (by omega), Option.bind_some]
  have s2 : stateZ alpha h P M (inv.run M) a s P = specX alpha h P M a s (h + P) := by
    rw [stateZ, Nat.sub_self, accV, sub_self, add_zero]
  rw [s2, fullRounds_eq alpha h P M (inv.run M) a s c hMi hc (P + 2 * h - (h + P + 1)) (h + P)
    (fun k g1 g2 => h4 k (by omega) (by omega)) (fun r _ _ => by omega), Option.map_some, mulMatVec_eq, hc]
  congr 1
  rw [show h + P + (P + 2 * h - (h + P + 1)) = 2 * h + P - 1 by omega,
    sboxFull_eq alpha (2 * h + P - 1 < h ∨ h + P ≤ 2 * h + P - 1) (by omega)]
  obtain ⟨g, hg⟩ : ∃ g, 2 * h + P = g + 1 := ⟨2 * h + P - 1, by omega⟩
  rw [hg, Nat.add_sub_cancel, specState]
  rfl

end Permute

/-! ## The matrix -/

/-- A Cauchy matrix with different `x`s and different `y`s is invertible. -/
theorem cauchy_det {n : ℕ} (xs ys : Fin n → F) (hx : Function.Injective xs) (hy : Function.Injective ys)
    (hs : ∀ i j, xs i + ys j ≠ 0) : (Matrix.of fun i j => (xs i + ys j)⁻¹ : Matrix (Fin n) (Fin n) F).det ≠ 0 := by
  classical
  intro hdet
  obtain ⟨v, hv, h⟩ := Matrix.exists_mulVec_eq_zero_iff.2 hdet
  apply hv
  let p : Polynomial F := ∑ j, Polynomial.C (v j) * ∏ k ∈ Finset.univ.erase j, (Polynomial.X + Polynomial.C (ys k))
  have hev : ∀ x, p.eval x = ∑ j, v j * ∏ k ∈ Finset.univ.erase j, (x + ys k) := by
    intro x
    simp only [p, Polynomial.eval_finsetSum, Polynomial.eval_mul, Polynomial.eval_C, Polynomial.eval_prod,
      Polynomial.eval_add, Polynomial.eval_X]
  have hdeg : p.degree < (Finset.univ : Finset (Fin n)).card := by
    refine (Polynomial.degree_sum_le _ _).trans_lt ?_
    rw [Finset.sup_lt_iff]
    · intro j _
      refine (Polynomial.degree_mul_le _ _).trans_lt ?_
      refine lt_of_le_of_lt (add_le_add Polynomial.degree_C_le le_rfl) ?_
      rw [zero_add, Polynomial.degree_prod]
      simp only [Polynomial.degree_X_add_C, Finset.sum_const, Finset.card_erase_of_mem (Finset.mem_univ j),
        nsmul_eq_mul, mul_one]
      have : 0 < (Finset.univ : Finset (Fin n)).card := Finset.card_pos.2 ⟨j, Finset.mem_univ j⟩
      exact_mod_cast Nat.sub_lt this Nat.one_pos
    · simp
  have hzero : p = 0 := by
    refine Polynomial.eq_zero_of_degree_lt_of_eval_index_eq_zero Finset.univ hx.injOn hdeg ?_
    intro i _
    rw [hev]
    have hi : ∑ j, (xs i + ys j)⁻¹ * v j = 0 := by
      have := congrFun h i
      simpa [Matrix.mulVec, dotProduct] using this
    have : ∑ j, v j * ∏ k ∈ Finset.univ.erase j, (xs i + ys k) =
        (∏ k, (xs i + ys k)) * ∑ j, (xs i + ys j)⁻¹ * v j := by
      rw [Finset.mul_sum]
      refine Finset.sum_congr rfl fun j _ => ?_
      rw [← Finset.mul_prod_erase Finset.univ _ (Finset.mem_univ j)]
      field_simp [hs i j]
    rw [this, hi, mul_zero]
  funext j
  have := hev (-ys j)
  rw [hzero, Polynomial.eval_zero, Finset.sum_eq_single j] at this
  · rcases mul_eq_zero.1 this.symm with h' | h'
    · exact h'
    · obtain ⟨k, hk, e⟩ := Finset.prod_eq_zero_iff.1 h'
      exact absurd (hy (neg_add_eq_zero.1 e)).symm (Finset.ne_of_mem_erase hk)
  · intro k _ hk
    refine mul_eq_zero_of_right _ (Finset.prod_eq_zero (Finset.mem_erase.2 ⟨Ne.symm hk, Finset.mem_univ j⟩) ?_)
    rw [neg_add_cancel]
  · exact fun h => absurd (Finset.mem_univ j) h

end Tachyon.Poseidon
