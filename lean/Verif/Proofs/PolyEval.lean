import Verif.Proofs.PolyMix
import Verif.Props.Parallel
import Verif.Props.Group
import Verif.Props.Pow
import Mathlib.Algebra.Polynomial.BigOperators
import Mathlib.Algebra.Polynomial.Roots
import Mathlib.LinearAlgebra.Lagrange
/-! Evaluation, folding, roots and interpolation. -/
universe u
namespace Tachyon.Poly
open Polynomial Tachyon.Parallel Tachyon.BigInt Tachyon.Group

variable {F : Type u} [Field F]

theorem dpoly_flatMap_chunks {α : Type*} (x : F) (f : α → List F) (e : α → ℕ) :
    ∀ (l : List α) (k : ℕ), (∀ (i : ℕ) (h : i < l.length),
      e l[i] = k + ((l.take i).flatMap f).length) →
    (l.map fun c => (dpoly (f c)).eval x * x ^ e c).sum = x ^ k * (dpoly (l.flatMap f)).eval x
  | [], k, _ => by simp [dpoly]
  | c :: l, k, h => by
    have h0 := h 0 (by simp)
    simp at h0
    have ih := dpoly_flatMap_chunks x f e l (k + (f c).length) fun i hi => by
      have := h (i + 1) (by simpa using hi)
      simp at this
      rw [this]; simp; ring
    rw [List.map_cons, List.sum_cons, ih, List.flatMap_cons, dpoly_append, h0]
    simp only [eval_add, eval_mul, eval_pow, eval_X, pow_add]; ring

namespace Dense

theorem horner_eq (l : List F) (x : F) : horner l x = (dpoly l).eval x := by
  rw [horner, List.foldl_reverse]
  induction l with
  | nil => simp [dpoly]
  | cons a l ih => rw [List.foldr_cons, ih, dpoly]; simp; ring

variable [DecidableEq F]

omit [DecidableEq F] in
theorem foldl_add (l : List F) (z : F) : l.foldl (· + ·) z = z + l.sum := by
  induction l generalizing z with
  | nil => simp
  | cons a l ih => rw [List.foldl_cons, ih, List.sum_cons]; ring

omit [DecidableEq F] in
theorem foldl_mul (l : List F) (z : F) : l.foldl (· * ·) z = z * l.prod := by
  induction l generalizing z with
  | nil => simp
  | cons a l ih => rw [List.foldl_cons, ih, List.prod_cons]; ring

/-- The offsets of the chunks are the lengths of what comes before. -/
theorem take_chunks {α : Type*} (xs : List α) {cs : ℕ} (hcs : 0 < cs) (h : xs.length + cs ≤ 2 ^ 64)
    (i : ℕ) (hi : i < (invocations xs.length cs).length) :
    (invocations xs.length cs)[i].1 = i ∧
    (((invocations xs.length cs).take i).flatMap (chunkOf xs cs)).length = i * cs := by
  have hlen : (invocations xs.length cs).length = numChunks xs.length cs := by
    rw [invocations, if_neg (by omega)]; simp
  rw [hlen] at hi
  constructor
  · simp only [invocations, if_neg (show ¬cs = 0 by omega)]; simp
  · have : (invocations xs.length cs).take i = (List.range i).map fun j => (j, chunkLen xs.length cs j) := by
      rw [invocations, if_neg (by omega), ← List.map_take, List.take_range, min_eq_left hi.le]
    rw [this]
    have key : ∀ m ≤ i, (((List.range m).map fun j => (j, chunkLen xs.length cs j)).flatMap
        (chunkOf xs cs)).length = m * cs := by
      intro m hm
      induction m with
      | zero => simp
      | succ m ih =>
        rw [List.range_succ, List.map_append, List.flatMap_append, List.length_append, ih (by omega)]
        have hl : chunkLen xs.length cs m = cs := by rw [chunkLen, if_neg (by omega)]
        obtain ⟨-, h2⟩ := numChunks_bounds hcs h
        have := length_chunkOf (xs := xs) hcs h (i := m) (by omega)
        simp only [List.map_cons, List.map_nil, List.flatMap_cons, List.flatMap_nil, List.append_nil]
        rw [this, hl]; ring
    exact key i le_rfl

theorem evaluate_spec {threads : ℕ} (l : List F) (x : F) (ht : 0 < threads)
    (h : l.length + threads ≤ 2 ^ 64) (h2 : 2 * l.length ≤ 2 ^ 64) :
    evaluate threads l x = (dpoly l).eval x := by
  rw [evaluate]
  split
  · next he => rw [List.isEmpty_iff.1 he]; simp [dpoly]
  · next he =>
    split
    · next hx => rw [hx, coeff_eq, coeff_zero_eq_eval_zero]
    · have hpos := List.length_pos_iff.2 (isEmpty_ne he)
      obtain ⟨hp, hle, -⟩ := sizePerThread_bounds ht h none
      have hcs := hp.2 hpos
      rw [parallelizeMap, foldl_add, zero_add]
      generalize hc : numElementsPerThread threads l.length none = cs
      replace hc : sizePerThread threads l.length none = cs := hc
      rw [hc] at hcs hle
      have e : (invocations l.length cs).map (fun c =>
          horner (chunkOf l cs c) x * powSize x (c.1 * cs)) =
          (invocations l.length cs).map fun c => (dpoly (chunkOf l cs c)).eval x * x ^ (c.1 * cs) := by
        refine List.map_congr_left fun c hc => ?_
        obtain ⟨h3, -⟩ := (mem_invocations hcs).1 hc
        obtain ⟨h5, h6, h7, h8⟩ := chunk_bounds hcs (by omega) h3
        rw [horner_eq, powSize_eq _ (by omega)]
      rw [e, dpoly_flatMap_chunks x (chunkOf l cs) (fun c => c.1 * cs) _ 0, flatMap_chunkOf l hcs (by omega)]
      · simp
      · intro i hi
        obtain ⟨h3, h4⟩ := take_chunks l hcs (by omega) i hi
        rw [h3, h4]; simp

theorem fold_spec (l : List F) (r : F) (he : 2 ∣ l.length) :
    ∃ w, fold l r = some w ∧ DClean w ∧ ∀ i, (dpoly w).coeff i =
      (dpoly l).coeff (2 * i) + r * (dpoly l).coeff (2 * i + 1) := by
  obtain ⟨m, hm⟩ := he
  have hn : (l.length + 1) / 2 = m := by omega
  have e : ((List.range ((l.length + 1) / 2)).map (foldAt l r)) = ((List.range m).map fun i => l.getD (2 * i + 1) 0 * r + l.getD (2 * i) 0).map some := by
    rw [hn, List.map_map]
    refine List.map_congr_left fun i hi => ?_
    have := List.mem_range.1 hi
    rw [foldAt, List.getElem?_eq_getElem (by omega), List.getElem?_eq_getElem (by omega)]
    simp only [Function.comp, List.getD_eq_getElem?_getD]
    rw [List.getElem?_eq_getElem (by omega), List.getElem?_eq_getElem (by omega)]; rfl
  rw [fold, e]
  rw [if_pos (by simp)]
  refine ⟨_, rfl, (removeZeros_spec _).2.1, fun i => ?_⟩
  rw [(removeZeros_spec _).1, List.filterMap_map]
  have : (id ∘ some : F → Option F) = some := rfl
  rw [this, List.filterMap_some, coeff_dpoly, getD_map_range, coeff_dpoly, coeff_dpoly]
  split
  · ring
  · rw [List.getD_eq_default _ _ (by omega), List.getD_eq_default _ _ (by omega)]; simp

theorem fold_odd (l : List F) (r : F) (ho : ¬2 ∣ l.length) : fold l r = none := by
  rw [fold]
  rw [if_neg]
  rw [List.all_eq_true]
  intro h
  have := h none (List.mem_map.2 ⟨l.length / 2, List.mem_range.2 (by omega), by
    rw [foldAt, List.getElem?_eq_none (i := 2 * (l.length / 2) + 1) (by omega)]
    split <;> simp_all⟩)
  simp at this

/-! ### Roots -/

omit [DecidableEq F] in
theorem rootInner_spec (root : F) : ∀ (n : ℕ) (c : List F), n < c.length →
    ∃ c', rootInner root n c = some c' ∧ c'.length = c.length ∧
      ∀ k, c'.getD k 0 = if 1 ≤ k ∧ k ≤ n then c.getD (k - 1) 0 - root * c.getD k 0 else c.getD k 0
  | 0, c, _ => ⟨c, rfl, rfl, fun k => by rw [if_neg (by omega)]⟩
  | j + 1, c, h => by
    obtain ⟨c', h1, h2, h3⟩ := rootInner_spec root j
      (c.set (j + 1) (c[j] - root * c[j + 1])) (by simp; omega)
    refine ⟨c', ?_, by simpa using h2, ?_⟩
    · rw [rootInner, List.getElem?_eq_getElem (by omega), List.getElem?_eq_getElem h]; exact h1
    · intro k
      have hset : ∀ k, (c.set (j + 1) (c[j] - root * c[j + 1])).getD k 0 =
          if k = j + 1 then c.getD j 0 - root * c.getD (j + 1) 0 else c.getD k 0 := by
        intro k
        simp only [List.getD_eq_getElem?_getD, List.getElem?_set]
        by_cases hk : k = j + 1
        · subst hk
          rw [if_pos rfl, if_pos h, if_pos rfl, List.getElem?_eq_getElem h,
            List.getElem?_eq_getElem (by omega)]
          rfl
        · rw [if_neg (fun e => hk e.symm), if_neg hk]
      rw [h3 k, hset, hset]
      by_cases h4 : 1 ≤ k ∧ k ≤ j
      · rw [if_pos h4, if_neg (show ¬k - 1 = j + 1 by omega), if_neg (show ¬k = j + 1 by omega),
          if_pos (by omega)]
      · rw [if_neg h4]
        by_cases h5 : k = j + 1
        · subst h5; rw [if_pos rfl, if_pos (by omega)]; rfl
        · rw [if_neg h5, if_neg (by omega)]

omit [DecidableEq F] in
/-- One root. -/
theorem rootStep_spec (root : F) {n : ℕ} {c : List F} (h : n < c.length)
    (hz : ∀ k, n ≤ k → (dpoly c).coeff k = 0) :
    ∃ c1 c', rootInner root n c = some c1 ∧ modifyAt c1 0 (· * (-root)) = some c' ∧
      c'.length = c.length ∧ dpoly c' = dpoly c * (X - C root) := by
  obtain ⟨c1, h1, h2, h3⟩ := rootInner_spec root n c h
  obtain ⟨c', h4, h5, h6⟩ := modifyAt_spec c1 (i := 0) (· * (-root)) (by omega)
  refine ⟨c1, c', h1, h4, by omega, ?_⟩
  ext k
  rw [h6, coeff_add, coeff_monomial, coeff_dpoly, coeff_dpoly, mul_sub, coeff_sub, coeff_mul_C]
  rcases k with _ | k
  · rw [if_pos rfl, h3 0, if_neg (by omega), coeff_mul_X_zero, coeff_dpoly]; ring
  · rw [if_neg (by omega), h3 (k + 1), coeff_mul_X, add_zero, coeff_dpoly, coeff_dpoly, Nat.add_sub_cancel]
    split
    · ring
    · next hk =>
      have e1 := hz (k + 1) (by omega)
      have e2 := hz k (by omega)
      rw [coeff_dpoly] at e1 e2
      rw [e1, e2]; ring

omit [DecidableEq F] in
theorem coeff_mul_root {p : F[X]} {n : ℕ} (hz : ∀ k, n ≤ k → p.coeff k = 0) (root : F) :
    ∀ k, n + 1 ≤ k → (p * (X - C root)).coeff k = 0 := by
  intro k hk
  obtain ⟨k, rfl⟩ : ∃ j, k = j + 1 := ⟨k - 1, by omega⟩
  rw [mul_sub, coeff_sub, coeff_mul_C, coeff_mul_X, hz k (by omega), hz (k + 1) (by omega)]; ring

omit [DecidableEq F] in
theorem rootLoop_spec : ∀ (roots : List F) (i : ℕ) (c : List F), i + roots.length < c.length →
    (∀ k, i + 1 ≤ k → (dpoly c).coeff k = 0) →
    ∃ c', rootLoop roots i c = some c' ∧ c'.length = c.length ∧
      dpoly c' = dpoly c * (roots.map fun r => X - C r).prod
  | [], i, c, _, _ => ⟨c, rfl, rfl, by simp⟩
  | root :: roots, i, c, h, hz => by
    rw [List.length_cons] at h
    obtain ⟨c1, c2, h1, h2, h3, h4⟩ := rootStep_spec root (n := i + 1) (c := c) (by omega) hz
    obtain ⟨c', h5, h6, h7⟩ := rootLoop_spec roots (i + 1) c2 (by omega)
      (by rw [h4]; exact coeff_mul_root hz root)
    refine ⟨c', by simp only [rootLoop, h1, h2]; exact h5, by omega, ?_⟩
    rw [h7, h4, List.map_cons, List.prod_cons]; ring

omit [DecidableEq F] in
theorem dpoly_one (n : ℕ) : dpoly ((1 : F) :: List.replicate n 0) = 1 := by
  rw [dpoly, dpoly_replicate_zero]; simp

omit [DecidableEq F] in
theorem fromRoots_spec (roots : List F) : ∃ c, fromRoots roots = some c ∧
    c.length = roots.length + 1 ∧ dpoly c = (roots.map fun r => X - C r).prod := by
  obtain ⟨c, h1, h2, h3⟩ := rootLoop_spec roots 0 (1 :: List.replicate roots.length 0) (by simp)
    (fun k hk => by rw [dpoly_one, coeff_one, if_neg (by omega)])
  exact ⟨c, h1, by simpa using h2, by rw [h3, dpoly_one, one_mul]⟩

omit [DecidableEq F] in
theorem vanishing_chunk (x : F) (l : List F) (z : F) :
    l.foldl (fun acc root => acc * (x - root)) z = z * (l.map fun r => x - r).prod := by
  induction l generalizing z with
  | nil => simp
  | cons a l ih => rw [List.foldl_cons, ih, List.map_cons, List.prod_cons]; ring

omit [DecidableEq F] in
theorem vanishing_spec {threads : ℕ} (roots : List F) (x : F) (ht : 0 < threads)
    (h : roots.length + threads ≤ 2 ^ 64) (h2 : 2 * roots.length ≤ 2 ^ 64) :
    vanishingByRoots threads roots x = (roots.map fun r => x - r).prod := by
  obtain ⟨cs, l, -, h4, h5⟩ := parallelizeMap_chunks (xs := roots)
    (fun _ _ chunk => chunk.foldl (fun acc root => acc * (x - root)) 1) ht h h2
  rw [vanishingByRoots, h5, foldl_mul, one_mul]
  conv_rhs => rw [← h4]
  clear h4 h5
  induction l with
  | nil => simp
  | cons c l ih =>
    rw [List.map_cons, List.prod_cons, ih, List.flatMap_cons, List.map_append, List.prod_append,
      vanishing_chunk, one_mul]

end Dense

namespace Sparse
variable [DecidableEq F]

omit [DecidableEq F] in
theorem squares_spec : ∀ (n : ℕ) (p : F), (squares n p).length = n + 1 ∧
    ∀ (i : ℕ) (h : i < (squares n p).length), (squares n p)[i] = p ^ 2 ^ i
  | 0, p => by
    refine ⟨rfl, fun i h => ?_⟩
    simp [squares] at h; subst h; simp [squares]
  | n + 1, p => by
    obtain ⟨h1, h2⟩ := squares_spec n (p * p)
    refine ⟨by simp [squares, h1], fun i h => ?_⟩
    rcases i with _ | i
    · simp [squares]
    · have := h2 i (by simpa [squares] using h)
      simp only [squares, List.getElem_cons_succ]
      rw [this, ← pow_two, ← pow_mul, pow_succ' 2 i]

theorem limbsVal_degree (d k : ℕ) (h : d < 2 ^ 64) :
    limbsVal (BitVec.ofNat 64 d :: List.replicate k 0#64) = d := by
  have : ∀ k, limbsVal (List.replicate k 0#64) = 0 := by
    intro k
    induction k with
    | zero => rfl
    | succ k ih => rw [List.replicate_succ, limbsVal, ih]; rfl
  rw [limbsVal, this]
  simp only [BitVec.toNat_ofNat, Nat.mod_eq_of_lt h]; omega

omit [DecidableEq F] in
theorem evaluate_spec (p limbs : ℕ) {ts : List (ℕ × F)} (h : ts.Pairwise fun a b => a.1 < b.1) (x : F)
    (hp : ∀ t ∈ ts, t.1 < p) (h64 : ∀ t ∈ ts, t.1 < 2 ^ 64) :
    evaluate p limbs ts x = some ((spoly ts).eval x) := by
  rw [evaluate]; split
  · next he => rw [List.isEmpty_iff.1 he]; simp
  · dsimp only
    generalize hn : (if degree ts = 0 then 0 else (degree ts).log2 + 1) = np
    have hlen : ∀ t ∈ ts, t.1 < 2 ^ (squares (np - 1) x).length := by
      intro t ht
      have h1 := degree_max h t ht
      rw [(squares_spec (np - 1) x).1]
      by_cases h0 : degree ts = 0
      · rw [h0] at h1
        have : 0 < 2 ^ (np - 1 + 1) := Nat.two_pow_pos _
        omega
      · rw [if_neg h0] at hn
        have : degree ts < 2 ^ (np - 1 + 1) := by
          rw [← hn, Nat.add_sub_cancel]
          exact Nat.lt_log2_self
        omega
    have key : ∀ (us : List (ℕ × F)) (z : F), (∀ t ∈ us, t ∈ ts) →
        us.foldlM (evalStep p limbs (squares (np - 1) x)) z = some (z + (spoly us).eval x) := by
      intro us
      induction us with
      | nil => intro z _; simp
      | cons t us ih =>
        intro z hu
        have ht := hu t (by simp)
        rw [List.foldlM_cons, evalStep, if_neg (by have := hp t ht; omega),
          Props.C19_powWithTable (by omega) x _ (squares_spec (np - 1) x).2 _ (by
            rw [limbsVal_degree _ _ (h64 t ht)]; exact hlen t ht), limbsVal_degree _ _ (h64 t ht)]
        show us.foldlM _ (z + x ^ t.1 * t.2) = _
        rw [ih _ fun s hs => hu s (by simp [hs]), spoly_cons, eval_add, eval_monomial]
        congr 1; ring
    rw [key ts 0 (fun t h => h), zero_add]

omit [DecidableEq F] in
theorem evaluate_undefined (p limbs : ℕ) {ts : List (ℕ × F)} (x : F)
    (h : ∃ t ∈ ts, p ≤ t.1) : evaluate p limbs ts x = none := by
  obtain ⟨t, ht, hp⟩ := h
  have he : ts.isEmpty = false := by cases ts <;> simp_all
  rw [evaluate, if_neg (by simp [he])]
  dsimp only
  generalize squares _ x = tb
  generalize (0 : F) = z
  clear he
  induction ts generalizing z with
  | nil => simp at ht
  | cons s ts ih =>
    rw [List.foldlM_cons, evalStep]
    by_cases hs : p ≤ s.1
    · rw [if_pos hs]; rfl
    · rw [if_neg hs]
      rcases List.mem_cons.1 ht with rfl | ht
      · exact absurd hp hs
      · rcases powWithTable (⟨1, (· * ·), fun x => x * x⟩ : MulOps F) tb
            (BitVec.ofNat 64 s.1 :: List.replicate (limbs - 1) 0#64) with _ | y
        · rfl
        · exact ih ht _

/-- The invariant of `Fold`. -/
theorem fold_inv (r : F) : ∀ (ts pre acc : List (ℕ × F)), SClean (pre ++ ts) → SClean acc →
    (∀ s ∈ acc, ∃ t ∈ pre, s.1 = t.1 / 2) →
    (∀ i, (spoly acc).coeff i = (spoly pre).coeff (2 * i) + r * (spoly pre).coeff (2 * i + 1)) →
    SClean (ts.foldl (foldStep r) acc) ∧ ∀ i, (spoly (ts.foldl (foldStep r) acc)).coeff i =
      (spoly (pre ++ ts)).coeff (2 * i) + r * (spoly (pre ++ ts)).coeff (2 * i + 1)
  | [], pre, acc, _, ha, _, hc => by simpa using ⟨ha, hc⟩
  | t :: ts, pre, acc, hp, ha, hs, hc => by
    have hp' : SClean ((pre ++ [t]) ++ ts) := by simpa using hp
    have ht0 : t.2 ≠ 0 := hp.2 t (by simp)
    have hpre : ∀ s ∈ pre, s.1 < t.1 := fun s hs' =>
      (List.pairwise_append.1 hp.1).2.2 s hs' t (by simp)
    have happ : ∀ (a : List (ℕ × F)) (d : ℕ) (c : F), SClean a → (∀ s ∈ a, s.1 < d) → c ≠ 0 →
        SClean (a ++ [(d, c)]) := by
      intro a d c h1 h2 h3
      refine ⟨List.pairwise_append.2 ⟨h1.1, List.pairwise_singleton _ _, ?_⟩, ?_⟩
      · intro s hs' u hu; simp at hu; subst hu; exact h2 s hs'
      · intro s hs'
        rcases List.mem_append.1 hs' with h | h
        · exact h1.2 s h
        · simp at h; subst h; exact h3
    have hco : ∀ i, (spoly (pre ++ [t])).coeff i = (spoly pre).coeff i + if t.1 = i then t.2 else 0 := by
      intro i; rw [spoly_append, coeff_add, spoly_cons, spoly_nil, add_zero, coeff_monomial]
    have hacc : ∀ (a : List (ℕ × F)) (d : ℕ) (c : F) (i : ℕ), (spoly (a ++ [(d, c)])).coeff i =
        (spoly a).coeff i + if d = i then c else 0 := by
      intro a d c i; rw [spoly_append, coeff_add, spoly_cons, spoly_nil, add_zero, coeff_monomial]
    have step : SClean (foldStep r acc t) ∧ (∀ s ∈ foldStep r acc t, ∃ u ∈ pre ++ [t], s.1 = u.1 / 2) ∧
        ∀ i, (spoly (foldStep r acc t)).coeff i = (spoly (pre ++ [t])).coeff (2 * i) +
          r * (spoly (pre ++ [t])).coeff (2 * i + 1) := by
      have hold : ∀ s ∈ acc, ∃ u ∈ pre ++ [t], s.1 = u.1 / 2 := fun s h => by
        obtain ⟨u, hu, e⟩ := hs s h
        exact ⟨u, by simp [hu], e⟩
      rw [foldStep]
      by_cases hev : t.1 % 2 = 0
      · rw [if_pos hev]
        refine ⟨happ acc _ _ ha (fun s h => ?_) ht0, ?_, ?_⟩
        · obtain ⟨u, hu, e⟩ := hs s h
          have := hpre u hu
          omega
        · intro s h
          rcases List.mem_append.1 h with h | h
          · exact hold s h
          · simp at h; subst h; exact ⟨t, by simp, rfl⟩
        · intro i
          rw [hacc, hc, hco, hco, if_neg (show ¬t.1 = 2 * i + 1 by omega)]
          by_cases h : t.1 / 2 = i
          · rw [if_pos h, if_pos (by omega)]; ring
          · rw [if_neg h, if_neg (by omega)]; ring
      · rw [if_neg hev]
        -- appending a new term, or nothing when `r = 0`
        have hnew : (∀ s ∈ acc, s.1 < t.1 / 2) →
            SClean (if r ≠ 0 then acc ++ [(t.1 / 2, t.2 * r)] else acc) ∧
            (∀ s ∈ (if r ≠ 0 then acc ++ [(t.1 / 2, t.2 * r)] else acc), ∃ u ∈ pre ++ [t], s.1 = u.1 / 2) ∧
            ∀ i, (spoly (if r ≠ 0 then acc ++ [(t.1 / 2, t.2 * r)] else acc)).coeff i =
              (spoly (pre ++ [t])).coeff (2 * i) + r * (spoly (pre ++ [t])).coeff (2 * i + 1) := by
          intro hlt
          by_cases hr : r ≠ 0
          · rw [if_pos hr]
            refine ⟨happ acc _ _ ha hlt (mul_ne_zero ht0 hr), ?_, ?_⟩
            · intro s h
              rcases List.mem_append.1 h with h | h
              · exact hold s h
              · simp at h; subst h; exact ⟨t, by simp, rfl⟩
            · intro i
              rw [hacc, hc, hco, hco, if_neg (show ¬t.1 = 2 * i by omega)]
              by_cases h : t.1 / 2 = i
              · rw [if_pos h, if_pos (by omega)]; ring
              · rw [if_neg h, if_neg (by omega)]; ring
          · rw [if_neg hr]
            rw [not_not] at hr
            refine ⟨ha, hold, fun i => ?_⟩
            rw [hc, hco, hco, if_neg (show ¬t.1 = 2 * i by omega), hr]; ring
        rcases List.eq_nil_or_concat acc with rfl | ⟨a, b, rfl⟩
        · exact hnew (by simp)
        · rw [List.concat_eq_append] at *
          simp only [List.getLast?_append, List.getLast?_singleton, Option.some_or,
            List.dropLast_concat]
          have hb0 := ha.2 b (by simp)
          have hab : ∀ s ∈ a, s.1 < b.1 := fun s h =>
            (List.pairwise_append.1 ha.1).2.2 s h b (by simp)
          have haC : SClean a := ⟨(List.pairwise_append.1 ha.1).1, fun s h => ha.2 s (by simp [h])⟩
          have hole : ∀ s ∈ a ++ [b], s.1 ≤ t.1 / 2 := fun s h => by
            obtain ⟨u, hu, e⟩ := hs s h
            have := hpre u hu
            omega
          by_cases hbt : b.1 = t.1 / 2
          · rw [if_pos hbt]
            have hcc : (if r ≠ 0 then b.2 + t.2 * r else b.2) = b.2 + t.2 * r := by
              split
              · rfl
              · next h => rw [not_not] at h; rw [h]; ring
            rw [hcc]
            have hcoef : ∀ i, (spoly a).coeff i + (if b.1 = i then b.2 + t.2 * r else 0) =
                (spoly (pre ++ [t])).coeff (2 * i) + r * (spoly (pre ++ [t])).coeff (2 * i + 1) := by
              intro i
              have h1 := hc i
              rw [show a ++ [b] = a ++ [(b.1, b.2)] from rfl, hacc] at h1
              rw [hco, hco, if_neg (show ¬t.1 = 2 * i by omega)]
              by_cases h : b.1 = i
              · rw [if_pos h] at h1 ⊢
                rw [if_pos (by omega)]
                linear_combination h1
              · rw [if_neg h] at h1 ⊢
                rw [if_neg (by omega)]
                linear_combination h1
            split
            · next h0 =>
              refine ⟨haC, fun s h => hold s (by simp [h]), fun i => ?_⟩
              rw [← hcoef, h0]; simp
            · next h0 =>
              refine ⟨happ a _ _ haC hab h0, ?_, fun i => by rw [hacc, hcoef]⟩
              intro s h
              rcases List.mem_append.1 h with h | h
              · exact hold s (by simp [h])
              · simp at h; subst h; exact ⟨t, by simp, hbt⟩
          · rw [if_neg hbt]
            refine hnew fun s h => ?_
            have h1 := hole b (by simp)
            rcases List.mem_append.1 h with h | h
            · have := hab s h; omega
            · simp at h; subst h; omega
    have := fold_inv r ts (pre ++ [t]) (foldStep r acc t) hp' step.1 step.2.1 step.2.2
    simpa using this

theorem fold_spec {ts : List (ℕ × F)} (h : SClean ts) (r : F) : SClean (fold ts r) ∧
    ∀ i, (spoly (fold ts r)).coeff i = (spoly ts).coeff (2 * i) + r * (spoly ts).coeff (2 * i + 1) := by
  have := fold_inv r ts [] [] (by simpa using h) sclean_nil (by simp) (by simp)
  simpa [fold] using this

end Sparse

/-! ### Interpolation -/

section Lagrange

theorem mapM_some {α β : Type*} {l : List α} {f : α → Option β} {g : α → β}
    (h : ∀ a ∈ l, f a = some (g a)) : l.mapM f = some (l.map g) := by
  induction l with
  | nil => rfl
  | cons a l ih =>
    rw [List.mapM_cons, h a (by simp), ih fun b hb => h b (by simp [hb])]; rfl

/-- The product of the differences to the other points. -/
def lagDen (points : List F) (i : ℕ) : F :=
  (((List.range points.length).filter fun j => i ≠ j).map fun j => points.getD i 0 - points.getD j 0).prod

theorem den_foldl (points : List F) (i : ℕ) (js : List ℕ) (d : F) :
    js.foldl (fun d j => if i = j then d else d * (points.getD i 0 - points.getD j 0)) d =
      d * ((js.filter fun j => i ≠ j).map fun j => points.getD i 0 - points.getD j 0).prod := by
  induction js generalizing d with
  | nil => simp
  | cons j js ih =>
    rw [List.foldl_cons, ih, List.filter_cons]
    by_cases h : i = j
    · simp [h]
    · rw [if_neg h, if_pos (by simpa using h), List.map_cons, List.prod_cons]; ring

/-- The product of the linear factors of the points other than number `i`, numbered from `j`. -/
noncomputable def lagNum (i : ℕ) : List F → ℕ → F[X]
  | [], _ => 1
  | x :: xs, j => (if i = j then 1 else X - C x) * lagNum i xs (j + 1)

theorem eval_lagNum (i : ℕ) (y : F) : ∀ (xs : List F) (j : ℕ), (lagNum i xs j).eval y =
    (((List.range xs.length).filter fun k => i ≠ j + k).map fun k => y - xs.getD k 0).prod
  | [], j => by simp [lagNum]
  | x :: xs, j => by
    rw [lagNum, eval_mul, eval_lagNum i y xs (j + 1), List.length_cons, List.range_succ_eq_map,
      List.filter_cons]
    have e : (((List.range xs.length).map Nat.succ).filter fun k => decide (i ≠ j + k)) =
        ((List.range xs.length).filter fun k => decide (i ≠ j + 1 + k)).map Nat.succ := by
      rw [List.filter_map]
      congr 1
      refine List.filter_congr fun k _ => ?_
      simp only [Function.comp, Nat.succ_eq_add_one]
      congr 2; omega
    by_cases h : i = j
    · rw [if_pos h, if_neg (by simpa using h), e, List.map_map]
      simp [Function.comp_def]
    · rw [if_neg h, if_pos (by simpa using h), e, List.map_cons, List.prod_cons, List.map_map]
      simp [Function.comp_def]

theorem lagrangeRoots_spec (i : ℕ) : ∀ (xs : List F) (j k : ℕ) (c : List F), 0 < k →
    (k - 1) + (xs.length - (if j ≤ i ∧ i < j + xs.length then 1 else 0)) < c.length →
    (∀ m, k ≤ m → (dpoly c).coeff m = 0) →
    ∃ c', lagrangeRoots i xs j k c = some c' ∧ c'.length = c.length ∧
      dpoly c' = dpoly c * lagNum i xs j
  | [], j, k, c, _, _, _ => ⟨c, rfl, rfl, by simp [lagNum]⟩
  | x :: xs, j, k, c, hk, hlen, hz => by
    rw [List.length_cons] at hlen
    rw [lagrangeRoots, lagNum]
    by_cases h : i = j
    · rw [if_pos h, if_pos h, one_mul]
      refine lagrangeRoots_spec i xs (j + 1) k c hk ?_ hz
      rw [if_pos (by omega)] at hlen
      rw [if_neg (by omega)]; omega
    · rw [if_neg h, if_neg h]
      have hb : (if j ≤ i ∧ i < j + (xs.length + 1) then 1 else 0) =
          if j + 1 ≤ i ∧ i < j + 1 + xs.length then 1 else 0 := by
        by_cases h2 : j ≤ i ∧ i < j + (xs.length + 1)
        · rw [if_pos h2, if_pos (by omega)]
        · rw [if_neg h2, if_neg (by omega)]
      rw [hb] at hlen
      have hle : (if j + 1 ≤ i ∧ i < j + 1 + xs.length then 1 else 0) ≤ xs.length := by
        split <;> omega
      obtain ⟨c1, c2, h1, h2, h3, h4⟩ := Dense.rootStep_spec x (n := k) (c := c) (by omega) hz
      rw [h1]
      dsimp only
      rw [h2]
      obtain ⟨c', h5, h6, h7⟩ := lagrangeRoots_spec i xs (j + 1) (k + 1) c2 (by omega) (by omega)
        (by rw [h4]; exact Dense.coeff_mul_root hz x)
      exact ⟨c', h5, by omega, by rw [h7, h4]; ring⟩

theorem zipWith_axpy (e : F) : ∀ (s c : List F), s.length = c.length → ∀ d,
    (List.zipWith (fun s x => s + x * e * d) s c).length = s.length ∧
    dpoly (List.zipWith (fun s x => s + x * e * d) s c) = dpoly s + C (e * d) * dpoly c
  | [], [], _, d => by simp [dpoly]
  | a :: s, b :: c, h, d => by
    obtain ⟨h1, h2⟩ := zipWith_axpy e s c (by simpa using h) d
    refine ⟨by simp [h1], ?_⟩
    rw [List.zipWith_cons_cons, dpoly, h2, dpoly, dpoly]
    simp only [C_add, C_mul]; ring

theorem zipWith_add_spec : ∀ (s c : List F), s.length = c.length →
    (List.zipWith (· + ·) s c).length = s.length ∧ dpoly (List.zipWith (· + ·) s c) = dpoly s + dpoly c
  | [], [], _ => by simp [dpoly]
  | a :: s, b :: c, h => by
    obtain ⟨h1, h2⟩ := zipWith_add_spec s c (by simpa using h)
    refine ⟨by simp [h1], ?_⟩
    rw [List.zipWith_cons_cons, dpoly, h2, dpoly, dpoly]
    simp only [C_add]; ring

/-- The sum of the scaled numerators of a chunk. -/
noncomputable def lagSum (points denoms : List F) : List F → ℕ → F[X]
  | [], _ => 0
  | e :: es, i => C (e * denoms.getD i 0) * lagNum i points 0 + lagSum points denoms es (i + 1)

theorem lagSum_append (points denoms : List F) : ∀ (a b : List F) (i : ℕ),
    lagSum points denoms (a ++ b) i = lagSum points denoms a i + lagSum points denoms b (i + a.length)
  | [], b, i => by simp [lagSum]
  | e :: a, b, i => by
    rw [List.cons_append, lagSum, lagSum_append points denoms a b (i + 1), lagSum, List.length_cons]
    rw [show i + 1 + a.length = i + (a.length + 1) by omega]; ring

theorem lagrangeChunk_spec (points denoms : List F) (hd : denoms.length = points.length) :
    ∀ (es : List F) (i : ℕ) (sum : List F), sum.length = points.length → i + es.length ≤ points.length →
    ∃ s, lagrangeChunk points denoms es i sum = some s ∧ s.length = points.length ∧
      dpoly s = dpoly sum + lagSum points denoms es i
  | [], i, sum, h, _ => ⟨sum, rfl, h, by simp [lagSum]⟩
  | e :: es, i, sum, h, hi => by
    rw [List.length_cons] at hi
    obtain ⟨c, h1, h2, h3⟩ := lagrangeRoots_spec i points 0 1 (1 :: List.replicate (points.length - 1) 0)
      (by omega) (by rw [if_pos (by omega)]; simp)
      (fun m hm => by rw [Dense.dpoly_one, coeff_one, if_neg (by omega)])
    have hc : c.length = points.length := by simp at h2; omega
    rw [lagrangeChunk, List.getElem?_eq_getElem (by omega), h1]
    dsimp only
    obtain ⟨h4, h5⟩ := zipWith_axpy e sum c (by omega) (denoms[i]'(by omega))
    obtain ⟨s, h6, h7, h8⟩ := lagrangeChunk_spec points denoms hd es (i + 1) _ (h4.trans h) (by omega)
    refine ⟨s, h6, h7, ?_⟩
    rw [h8, h5, h3, Dense.dpoly_one, one_mul, lagSum, List.getD_eq_getElem?_getD,
      List.getElem?_eq_getElem (by omega), Option.getD_some]
    ring

/-- Adding up the sums of the chunks. -/
theorem foldl_sums (n : ℕ) : ∀ (ss : List (List F)) (s : List F), s.length = n → (∀ x ∈ ss, x.length = n) →
    (ss.foldl (fun acc x => List.zipWith (· + ·) acc x) s).length = n ∧
    dpoly (ss.foldl (fun acc x => List.zipWith (· + ·) acc x) s) = dpoly s + (ss.map dpoly).sum
  | [], s, h, _ => by simp [h]
  | x :: ss, s, h, hx => by
    obtain ⟨h1, h2⟩ := zipWith_add_spec s x (h.trans (hx x (by simp)).symm)
    obtain ⟨h3, h4⟩ := foldl_sums n ss _ (h1.trans h) fun y hy => hx y (by simp [hy])
    refine ⟨h3, ?_⟩
    rw [List.foldl_cons, h4, h2, List.map_cons, List.sum_cons]; ring

/-- The value of the interpolating sum at point `k`. -/
theorem eval_lagSum (points denoms : List F) (k : ℕ) (hk : k < points.length) :
    ∀ (es : List F) (i : ℕ), i + es.length ≤ points.length →
    (lagSum points denoms es i).eval (points.getD k 0) =
      if i ≤ k ∧ k < i + es.length then
        es.getD (k - i) 0 * denoms.getD k 0 * lagDen points k else 0
  | [], i, _ => by simp only [lagSum, eval_zero, List.length_nil]; rw [if_neg (by omega)]
  | e :: es, i, hi => by
    rw [List.length_cons] at hi
    rw [lagSum, eval_add, eval_mul, eval_C, eval_lagSum points denoms k hk es (i + 1) (by omega),
      eval_lagNum]
    simp only [Nat.zero_add, List.length_cons]
    by_cases hki : k = i
    · subst hki
      rw [if_neg (by omega), if_pos (by omega), add_zero, Nat.sub_self, List.getD_cons_zero, lagDen]
    · have h0 : (((List.range points.length).filter fun j => decide (i ≠ j)).map fun j =>
          points.getD k 0 - points.getD j 0).prod = 0 := by
        apply List.prod_eq_zero
        exact List.mem_map.2 ⟨k, List.mem_filter.2 ⟨List.mem_range.2 hk, by
          simpa using fun e => hki e.symm⟩, sub_self _⟩
      rw [h0, mul_zero, zero_add]
      by_cases h1 : i + 1 ≤ k ∧ k < i + 1 + es.length
      · rw [if_pos h1, if_pos (by omega), show k - i = (k - (i + 1)) + 1 by omega, List.getD_cons_succ]
      · rw [if_neg h1, if_neg (by omega)]

theorem lagDen_ne_zero {points : List F} (hn : points.Nodup) {i : ℕ} (hi : i < points.length) :
    lagDen points i ≠ 0 := by
  rw [lagDen, Ne, List.prod_eq_zero_iff]
  intro h
  obtain ⟨j, hj, e⟩ := List.mem_map.1 h
  obtain ⟨h1, h2⟩ := List.mem_filter.1 hj
  have hj := List.mem_range.1 h1
  rw [sub_eq_zero, List.getD_eq_getElem?_getD, List.getD_eq_getElem?_getD,
    List.getElem?_eq_getElem hi, List.getElem?_eq_getElem hj] at e
  have := (List.Nodup.getElem_inj_iff hn).1 (by simpa using e)
  simp at h2
  exact h2 this

variable [DecidableEq F]

theorem lagrangeDenoms_spec (points : List F) (start n : ℕ) : lagrangeDenoms points start n =
    some ((List.range n).map fun k => if lagDen points (start + k) = 0 then 0
      else (lagDen points (start + k))⁻¹) := by
  rw [lagrangeDenoms, Props.C22_serial, List.map_map]
  congr 1
  refine List.map_congr_left fun k _ => ?_
  simp only [Function.comp]
  rw [den_foldl, one_mul, one_mul, ← lagDen]

omit [Field F] [DecidableEq F] in
/-- The denominators are gathered in order. -/
theorem denoms_flatten (g : ℕ → F) (n : ℕ) {cs : ℕ} (hcs : 0 < cs) (h : n + cs ≤ 2 ^ 64) :
    ((invocations n cs).map fun c => (List.range c.2).map fun k => g (c.1 * cs + k)).flatten =
      (List.range n).map g := by
  have hl : ((List.range n).map g).length = n := by simp
  have := flatMap_chunkOf ((List.range n).map g) hcs (by rw [hl]; exact h)
  rw [hl] at this
  rw [← this, List.flatMap_def]
  congr 1
  refine List.map_congr_left fun c hc => ?_
  obtain ⟨h3, h4⟩ := (mem_invocations hcs).1 hc
  obtain ⟨h5, h6, h7, h8⟩ := chunk_bounds hcs h h3
  rw [← h4] at h6 h7
  refine List.ext_getElem? fun k => ?_
  by_cases hk : k < c.2
  · rw [getElem?_chunkOf hk, List.getElem?_map, List.getElem?_range hk, List.getElem?_map,
      List.getElem?_range (by omega)]; rfl
  · rw [List.getElem?_eq_none (by simpa using hk), List.getElem?_eq_none]
    simp [chunkOf]; omega

omit [DecidableEq F] in
theorem lagSum_flatMap (points denoms evals : List F) {α : Type*} (f : α → List F) (e : α → ℕ) :
    ∀ (l : List α) (k : ℕ), (∀ (i : ℕ) (h : i < l.length),
      e l[i] = k + ((l.take i).flatMap f).length) →
    (l.map fun c => lagSum points denoms (f c) (e c)).sum = lagSum points denoms (l.flatMap f) k
  | [], k, _ => by simp [lagSum]
  | c :: l, k, h => by
    have h0 := h 0 (by simp)
    simp at h0
    have ih := lagSum_flatMap points denoms evals f e l (k + (f c).length) fun i hi => by
      have := h (i + 1) (by simpa using hi)
      simp at this
      rw [this]; simp; ring
    rw [List.map_cons, List.sum_cons, ih, List.flatMap_cons, lagSum_append, h0]

theorem lagrangeBody_spec {cs : ℕ} {points evals : List F} (hcs : 0 < cs)
    (hlen : points.length = evals.length) (h0 : points ≠ []) (hn : points.Nodup)
    (h : points.length + cs ≤ 2 ^ 64) :
    ∃ w, lagrangeBody cs points evals = some w ∧ DClean w ∧ w.length ≤ points.length ∧
      ∀ (k : ℕ) (hk : k < points.length),
        (dpoly w).eval points[k] = evals[k]'(hlen ▸ hk) := by
  have hpos := List.length_pos_iff.2 h0
  rw [lagrangeBody]
  generalize hg : (fun k => if lagDen points k = 0 then 0 else (lagDen points k)⁻¹) = g
  have hden : (invocations points.length cs).mapM (fun c => lagrangeDenoms points (c.1 * cs) c.2) =
      some ((invocations points.length cs).map fun c => (List.range c.2).map fun k => g (c.1 * cs + k)) :=
    mapM_some fun c _ => by rw [lagrangeDenoms_spec, ← hg]
  rw [hden]
  dsimp only
  rw [denoms_flatten g _ hcs (by omega)]
  generalize hdd : (List.range points.length).map g = denoms
  have hdl : denoms.length = points.length := by rw [← hdd]; simp
  have hchunk : ∀ c ∈ invocations evals.length cs, ∃ s,
      lagrangeChunk points denoms (chunkOf evals cs c) (c.1 * cs) (List.replicate points.length 0) = some s ∧
      s.length = points.length ∧ dpoly s = lagSum points denoms (chunkOf evals cs c) (c.1 * cs) := by
    intro c hc
    obtain ⟨h3, h4⟩ := (mem_invocations hcs).1 hc
    obtain ⟨h5, h6, h7, h8⟩ := chunk_bounds hcs (by omega) h3
    have hl := length_chunkOf (xs := evals) hcs (by omega) h3
    obtain ⟨s, e1, e2, e3⟩ := lagrangeChunk_spec points denoms hdl (chunkOf evals cs c) (c.1 * cs)
      (List.replicate points.length 0) (by simp) (by
        have : chunkOf evals cs c = chunkOf evals cs (c.1, chunkLen evals.length cs c.1) := by rw [← h4]
        rw [this, hl]; omega)
    exact ⟨s, e1, e2, by rw [e3, dpoly_replicate_zero, zero_add]⟩
  choose! S hS using hchunk
  rw [mapM_some (g := S) fun c hc => (hS c hc).1]
  have hsum : ((invocations evals.length cs).map fun c => dpoly (S c)).sum = lagSum points denoms evals 0 := by
    rw [List.map_congr_left fun c hc => (hS c hc).2.2,
      lagSum_flatMap points denoms evals (chunkOf evals cs) (fun c => c.1 * cs) _ 0,
      flatMap_chunkOf evals hcs (by omega)]
    intro i hi
    obtain ⟨h3, h4⟩ := Dense.take_chunks evals hcs (by omega) i hi
    rw [h3, h4]; simp
  rcases hinv : (invocations evals.length cs) with _ | ⟨c, l⟩
  · exfalso
    have := flatMap_chunkOf evals hcs (by omega)
    rw [hinv] at this
    have := congrArg List.length this
    simp at this; omega
  · rw [hinv] at hsum hS
    rw [List.map_cons]
    dsimp only
    obtain ⟨f1, f2⟩ := foldl_sums points.length (l.map S) (S c) (hS c (by simp)).2.1 (by
      intro x hx
      obtain ⟨d, hd, rfl⟩ := List.mem_map.1 hx
      exact (hS d (by simp [hd])).2.1)
    refine ⟨_, rfl, (Dense.removeZeros_spec _).2.1, (Dense.removeZeros_spec _).2.2.trans f1.le, ?_⟩
    intro k hk
    rw [(Dense.removeZeros_spec _).1, f2, List.map_map]
    rw [List.map_cons, List.sum_cons] at hsum
    have e1 : points[k] = points.getD k 0 := by
      rw [List.getD_eq_getElem?_getD, List.getElem?_eq_getElem hk]; rfl
    rw [show (dpoly ∘ S) = fun c => dpoly (S c) from rfl, hsum, e1, eval_lagSum points denoms k hk _ _ (by omega), if_pos (by omega),
      Nat.sub_zero, ← hdd, getD_map_range, if_pos hk, ← hg]
    dsimp only
    rw [if_neg (lagDen_ne_zero hn hk), mul_assoc, inv_mul_cancel₀ (lagDen_ne_zero hn hk), mul_one,
      List.getD_eq_getElem?_getD, List.getElem?_eq_getElem (by omega)]
    rfl

theorem interpolate_spec {threads : ℕ} {points evals : List F} (ht : 0 < threads)
    (hlen : points.length = evals.length) (h0 : points ≠ []) (hn : points.Nodup)
    (h : points.length + threads ≤ 2 ^ 64) (h2 : 2 * points.length ≤ 2 ^ 64) :
    ∃ w, lagrangeInterpolate threads points evals = some w ∧ DClean w ∧ w.length ≤ points.length ∧
      ∀ (k : ℕ) (hk : k < points.length),
        (dpoly w).eval points[k] = evals[k]'(hlen ▸ hk) := by
  have hpos := List.length_pos_iff.2 h0
  unfold lagrangeInterpolate
  rw [if_neg (by simpa using hlen)]
  split
  · next e0 =>
    refine ⟨_, rfl, (Dense.removeZeros_spec _).2.1, ?_, ?_⟩
    · have := (Dense.removeZeros_spec [e0]).2.2
      simp at this hlen ⊢; omega
    · intro k hk
      obtain rfl : k = 0 := by simp at hlen; omega
      rw [(Dense.removeZeros_spec _).1]; simp [dpoly]
  · obtain ⟨hp, hle, -⟩ := sizePerThread_bounds ht h none
    refine lagrangeBody_spec (hp.2 hpos) hlen h0 hn ?_
    have : numElementsPerThread threads points.length none ≤ points.length := hle
    omega

/-- A polynomial of degree below the number of points is determined by its values. -/
theorem eq_of_values {points : List F} (hn : points.Nodup) {p q : F[X]} (hp : p.degree < points.length)
    (hq : q.degree < points.length) (h : ∀ x ∈ points, p.eval x = q.eval x) : p = q := by
  have hcard : points.toFinset.card = points.length := List.toFinset_card_of_nodup hn
  exact eq_of_degrees_lt_of_eval_finset_eq points.toFinset (by rw [hcard]; exact hp)
    (by rw [hcard]; exact hq) fun x hx => h x (by simpa using hx)

omit [DecidableEq F] in
theorem degree_dpoly_lt {w : List F} {n : ℕ} (h : w.length ≤ n) : (dpoly w).degree < n := by
  rw [degree_lt_iff_coeff_zero]
  intro m hm
  exact coeff_dpoly_of_le (h.trans (by exact_mod_cast hm))

end Lagrange

end Tachyon.Poly
