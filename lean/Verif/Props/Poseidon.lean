import Mathlib.FieldTheory.Finite.Basic
import Verif.Proofs.Poseidon
import Verif.Spec.F7
/-!
# C72: the Poseidon permutation with optimised constants and sparse matrices
-/
namespace Tachyon.Props
open Tachyon.Poseidon Matrix
variable {F : Type} [Field F] {t : ℕ}

/-- **C72.** `MulMatVec` and `MulMatMat` are the products. -/
theorem C72_products {l m n : ℕ} (M : Matrix (Fin n) (Fin n) F) (v : Fin n → F) (A : Matrix (Fin l) (Fin m) F)
    (B : Matrix (Fin m) (Fin n) F) :
    mulMatVec M v = (fun i => ∑ j, M i j * v j) ∧ mulMatMat A B = fun i k => ∑ j, A i j * B j k :=
  ⟨mulMatVec_eq M v, by rw [mulMatMat_eq]; ext i k; exact Matrix.mul_apply⟩

/-- **C72.** A matrix from the generator is maximum distance separable: when the `x`s are different and the `y`s are
different, each square submatrix is invertible; the program fails exactly when a sum is zero. -/
theorem C72_mds [DecidableEq F] {n : ℕ} (xs ys : Fin n → F) :
    (cauchy xs ys = none ↔ ∃ i j, xs i + ys j = 0) ∧
    ∀ M, cauchy xs ys = some M → (∀ i j, M i j = (xs i + ys j)⁻¹) ∧
      (Function.Injective xs → Function.Injective ys →
        ∀ (k : ℕ) (f g : Fin k → Fin n), Function.Injective f → Function.Injective g →
          (M.submatrix f g).det ≠ 0) := by
  constructor
  · unfold cauchy
    split
    · next h => exact ⟨fun h' => absurd h' (by simp), fun ⟨i, j, h'⟩ => absurd h' (h i j)⟩
    · next h => exact ⟨fun _ => by push Not at h; exact h, fun _ => rfl⟩
  · intro M h
    unfold cauchy at h
    split at h
    · next h' =>
      obtain rfl := Option.some.inj h
      refine ⟨fun _ _ => rfl, fun hx hy k f g hf hg => ?_⟩
      exact cauchy_det (xs ∘ f) (ys ∘ g) (hx.comp hf) (hy.comp hg) fun i j => h' _ _
    · exact absurd h (by simp)

/-- **C72.** `Apply` of a sparse matrix is the product with the matrix `Construct` gives, which has the row, the column and ones on
the diagonal; `FromMDSMatrix` takes a matrix of this form apart, and fails for every other matrix. -/
theorem C72_sparse [DecidableEq F] (s : Sparse F t) (v : Fin (t + 2) → F) :
    s.apply v = s.construct *ᵥ v ∧
    s.apply v 0 = ∑ j, s.row j * v j ∧
    (∀ i : Fin (t + 1), s.apply v i.succ = v i.succ + s.colHat i * v 0) ∧
    Sparse.ofMatrix s.construct = some s ∧
    ∀ M, (∀ s : Sparse F t, s.construct ≠ M) → Sparse.ofMatrix M = none := by
  refine ⟨apply_eq s v, ?_, ?_, ?_, ?_⟩
  · rw [apply_eq, Matrix.mulVec, dotProduct]
    simp only [construct_zero]
  · intro i
    rw [apply_eq, mulVec_succ, construct_succ_zero]
    simp only [construct_succ_succ, ite_mul, one_mul, zero_mul, Finset.sum_ite_eq, Finset.mem_univ, if_true]
    exact add_comm _ _
  · unfold Sparse.ofMatrix
    rw [if_pos fun i j => construct_succ_succ s i j]
    obtain ⟨r, c⟩ := s
    congr 2
  · intro M h
    unfold Sparse.ofMatrix
    rw [if_neg]
    intro h'
    refine h ⟨M 0, fun i => M i.succ 0⟩ ?_
    ext i j
    refine Fin.cases ?_ (fun i => ?_) i
    · rw [construct_zero]
    · refine Fin.cases ?_ (fun j => ?_) j
      · rw [construct_succ_zero]
      · rw [construct_succ_succ, h']

/-- **C72.** For an even number of full rounds `Create` succeeds and the permutation with the optimised constants and the
sparse matrices is the Poseidon permutation with the constants and the matrix drawn, for every state. The
result does not depend on the memory `optimized_ark` was created with. -/
theorem C72_permute [DecidableEq F] (inv : EigenInv F) (hinv : inv.Lawful) (alpha : BitVec 32) (h P : ℕ) (hh : 0 < h)
    (ark junk : List (Fin (t + 2) → F)) (hl : ark.length = 2 * h + P) (hj : junk.length = ark.length)
    (xs ys : Fin (t + 2) → F) (hx : Function.Injective xs) (hy : Function.Injective ys)
    (hs : ∀ i j, xs i + ys j ≠ 0) :
    ∃ c, create inv (2 * h) P ark junk xs ys = some c ∧
      ∀ s, permute alpha (2 * h) P c s =
        some (Spec.permute alpha.toNat h P (Matrix.of fun i j => (xs i + ys j)⁻¹) ark s) := by
  let M : Matrix (Fin (t + 2)) (Fin (t + 2)) F := Matrix.of fun i j => (xs i + ys j)⁻¹
  have hM : IsUnit M.det := isUnit_iff_ne_zero.2 (cauchy_det xs ys hx hy hs)
  have hhat : IsUnit (M.submatrix Fin.succ Fin.succ).det :=
    isUnit_iff_ne_zero.2 (cauchy_det (xs ∘ Fin.succ) (ys ∘ Fin.succ) (hx.comp (Fin.succ_injective _))
      (hy.comp (Fin.succ_injective _)) fun i j => hs _ _)
  have ha : ∀ k < ark.length, ark[k]? = some (ark.getD k 0) := by
    intro k hk
    rw [List.getD_eq_getElem?_getD, List.getElem?_eq_getElem hk]
    rfl
  obtain ⟨opt, e1, l1, r0, r1, r2, r3, r4⟩ := optimizeArk_eq inv h P hh M ark junk hl hj (fun k => ark.getD k 0) ha
  obtain ⟨sp, e2, l2, r5⟩ := computeSparse_eq inv P M
  have hc : cauchy xs ys = some M := by
    unfold cauchy
    rw [if_pos hs]
  refine ⟨⟨opt, M, (accM M P)ᵀ, sp⟩, ?_, fun s => ?_⟩
  · unfold create
    rw [hc, Option.bind_some, e1, Option.bind_some, e2, Option.map_some]
  · rw [show (Matrix.of fun i j => (xs i + ys j)⁻¹) = M from rfl, permute_specState _ _ _ _ ark _ ha, hl]
    exact permute_eq alpha h P M (fun k => ark.getD k 0) s ⟨opt, M, (accM M P)ᵀ, sp⟩ inv hinv hh hM hhat rfl rfl r5
      r0 r1 r2 r3 r4

/-- The power is a bijection when the exponent has no common factor with the order of the group. -/
theorem pow_bijective [Fintype F] (n : ℕ) (hn : 0 < n) (hc : (Fintype.card F - 1).Coprime n) :
    Function.Bijective fun x : F => x ^ n := by
  classical
  rw [← Finite.injective_iff_bijective]
  intro x y hxy
  have hxy : x ^ n = y ^ n := hxy
  by_cases hx : x = 0
  · subst hx
    rw [zero_pow hn.ne'] at hxy
    exact (pow_eq_zero_iff hn.ne').1 hxy.symm |>.symm
  · have hy : y ≠ 0 := by
      rintro rfl
      rw [zero_pow hn.ne'] at hxy
      exact hx ((pow_eq_zero_iff hn.ne').1 hxy)
    have hcu : (Nat.card Fˣ).Coprime n := by
      rw [Nat.card_eq_fintype_card, Fintype.card_units]
      exact hc
    have : Units.mk0 x hx = Units.mk0 y hy := by
      apply (powCoprime hcu).injective
      ext
      simpa using hxy
    simpa using congrArg Units.val this

/-- **C72.** For a finite field whose multiplicative group has order prime to the exponent the permutation is one: every state
is the image of exactly one state. -/
theorem C72_bijective [DecidableEq F] [Fintype F] (inv : EigenInv F) (hinv : inv.Lawful) (alpha : BitVec 32)
    (h0 : 0 < alpha.toNat) (hal : (Fintype.card F - 1).Coprime alpha.toNat) (h P : ℕ) (hh : 0 < h)
    (ark junk : List (Fin (t + 2) → F)) (hl : ark.length = 2 * h + P) (hj : junk.length = ark.length)
    (xs ys : Fin (t + 2) → F) (hx : Function.Injective xs) (hy : Function.Injective ys)
    (hs : ∀ i j, xs i + ys j ≠ 0) (c : Config F t) (hc : create inv (2 * h) P ark junk xs ys = some c)
    (s' : Fin (t + 2) → F) : ∃! s, permute alpha (2 * h) P c s = some s' := by
  obtain ⟨c', e, hp⟩ := C72_permute inv hinv alpha h P hh ark junk hl hj xs ys hx hy hs
  obtain rfl := Option.some.inj (hc.symm.trans e)
  have hM : IsUnit (Matrix.of fun i j => (xs i + ys j)⁻¹ : Matrix (Fin (t + 2)) (Fin (t + 2)) F).det :=
    isUnit_iff_ne_zero.2 (cauchy_det xs ys hx hy hs)
  have hround : ∀ (full : Prop) [Decidable full] (a : Fin (t + 2) → F),
      Function.Injective (Spec.round alpha.toNat (Matrix.of fun i j => (xs i + ys j)⁻¹) full a) := by
    intro full _ a u v huv
    have h1 : Spec.sbox alpha.toNat full (u + a) = Spec.sbox alpha.toNat full (v + a) :=
      Matrix.mulVec_injective_of_isUnit ((Matrix.isUnit_iff_isUnit_det _).2 hM) huv
    funext i
    have h2 := congrFun h1 i
    unfold Spec.sbox at h2
    split at h2
    · exact add_right_cancel ((pow_bijective _ h0 hal).1 h2)
    · exact add_right_cancel h2
  have hinj : Function.Injective (Spec.permute alpha.toNat h P (Matrix.of fun i j => (xs i + ys j)⁻¹) ark) := by
    unfold Spec.permute
    generalize ark.zipIdx = l
    induction l with
    | nil => exact fun _ _ h => h
    | cons r l ih => exact fun u v huv => hround _ _ (ih huv)
  obtain ⟨s, hs'⟩ := (Finite.injective_iff_bijective.1 hinj).2 s'
  refine ⟨s, (hp s).trans (congrArg some hs'), fun u hu => hinj ?_⟩
  rw [hs']
  exact Option.some.inj ((hp u).symm.trans hu)

/-- **C72.** An odd number of full rounds is not rejected, and `OptimizeARK` then leaves the row used by the first partial round as the
memory was: the permutation depends on memory that was never written. -/
theorem C72_odd (inv : EigenInv F) (h P : ℕ) (hh : 0 < h) (hP : 0 < P) (M : Matrix (Fin (t + 2)) (Fin (t + 2)) F)
    (ark junk opt : List (Fin (t + 2) → F)) (ho : optimizeArk inv (2 * h + 1) P M ark junk = some opt) :
    opt[h + 1]? = junk[h + 1]? := by
  have hset : ∀ (m m' : List (Fin (t + 2) → F)) i v, setRow m i v = some m' → ∀ k, k ≠ i → m'[k]? = m[k]? := by
    intro m m' i v hm k hk
    unfold setRow at hm
    split at hm
    · obtain rfl := Option.some.inj hm
      exact List.getElem?_set_ne (Ne.symm hk)
    · exact absurd hm (by simp)
  have hfull : ∀ (Minv : Matrix (Fin (t + 2)) (Fin (t + 2)) F) n i (m m' : List (Fin (t + 2) → F)),
      fullRows Minv ark n i m = some m' → ∀ k, k < i ∨ i + n ≤ k → m'[k]? = m[k]? := by
    intro Minv n
    induction n with
    | zero =>
      intro i m m' hm k _
      obtain rfl := Option.some.inj hm
      rfl
    | succ n ih =>
      intro i m m' hm k hk
      unfold fullRows at hm
      obtain ⟨a, _, hm⟩ := Option.bind_eq_some_iff.1 hm
      obtain ⟨m1, h1, hm⟩ := Option.bind_eq_some_iff.1 hm
      rw [ih _ _ _ hm k (by omega), hset _ _ _ _ h1 k (by omega)]
  have hpart : ∀ (Minv : Matrix (Fin (t + 2)) (Fin (t + 2)) F) rounds n i (m : List (Fin (t + 2) → F)) acc q,
      partialRows Minv ark rounds n i m acc = some q → ∀ k, k + i + n ≤ rounds → q.1[k]? = m[k]? := by
    intro Minv rounds n
    induction n with
    | zero =>
      intro i m acc q hm k _
      obtain rfl := Option.some.inj hm
      rfl
    | succ n ih =>
      intro i m acc q hm k hk
      unfold partialRows at hm
      obtain ⟨m1, h1, hm⟩ := Option.bind_eq_some_iff.1 hm
      obtain ⟨a, _, hm⟩ := Option.bind_eq_some_iff.1 hm
      rw [ih _ _ _ _ hm k (by omega), hset _ _ _ _ h1 k (by omega)]
  unfold optimizeArk at ho
  dsimp only at ho
  rw [show (2 * h + 1) / 2 = h by omega] at ho
  obtain ⟨a0, _, ho⟩ := Option.bind_eq_some_iff.1 ho
  obtain ⟨m1, h1, ho⟩ := Option.bind_eq_some_iff.1 ho
  obtain ⟨m2, h2, ho⟩ := Option.bind_eq_some_iff.1 ho
  obtain ⟨acc, _, ho⟩ := Option.bind_eq_some_iff.1 ho
  obtain ⟨q, h3, ho⟩ := Option.bind_eq_some_iff.1 ho
  obtain ⟨m4, h4, ho⟩ := Option.bind_eq_some_iff.1 ho
  rw [hfull _ _ _ _ _ ho _ (by omega), hset _ _ _ _ h4 _ (by omega), hpart _ _ _ _ _ _ _ h3 _ (by omega),
    hfull _ _ _ _ _ h2 _ (by omega), hset _ _ _ _ h1 _ (by omega)]

/-! Examples: the inverse of Mathlib satisfies the law; width 2 over the field with seven elements. -/

example : (⟨fun M => M⁻¹⟩ : EigenInv F).Lawful := ⟨fun M h => Matrix.nonsing_inv_mul M h⟩

/-- The inverse of matrices of size 1 and 2. -/
def toyInv : EigenInv F7 where
  run {n} M :=
    match n, M with
    | 1, M => fun _ _ => (M 0 0)⁻¹
    | 2, M => fun i j => (M 0 0 * M 1 1 - M 0 1 * M 1 0)⁻¹ * (if i = j then M (1 - i) (1 - i) else - M i j)
    | _, M => M

/-- Four full and two partial rounds: the two permutations agree on a state; three full rounds depend on the memory. -/
example : ((create toyInv 4 2 [![1, 2], ![3, 4], ![5, 6], ![0, 1], ![2, 3], ![4, 5]] (List.replicate 6 ![6, 6])
      ![0, 1] ![1, 2]).bind fun c => (permute 5 4 2 c ![3, 5]).map fun v => (v 0, v 1)) =
    some (Spec.permute 5 2 2 ![![1, 4], ![4, 5]] [![1, 2], ![3, 4], ![5, 6], ![0, 1], ![2, 3], ![4, 5]] ![3, 5] 0,
      Spec.permute 5 2 2 ![![1, 4], ![4, 5]] [![1, 2], ![3, 4], ![5, 6], ![0, 1], ![2, 3], ![4, 5]] ![3, 5] 1) ∧
    ((create toyInv 3 1 [![1, 2], ![3, 4], ![5, 6], ![0, 1]] (List.replicate 4 ![6, 6]) ![0, 1] ![1, 2]).bind fun c =>
      (permute 5 3 1 c ![3, 5]).map fun v => (v 0, v 1)) ≠
    ((create toyInv 3 1 [![1, 2], ![3, 4], ![5, 6], ![0, 1]] (List.replicate 4 ![0, 0]) ![0, 1] ![1, 2]).bind fun c =>
      (permute 5 3 1 c ![3, 5]).map fun v => (v 0, v 1)) := by
  decide +kernel

end Tachyon.Props
