import Verif.Model.Sumcheck
import Verif.Proofs.Multilinear
import Verif.Proofs.Parallel
import Verif.Props.Group
import Mathlib.LinearAlgebra.Lagrange
import Mathlib.Data.Nat.Factorial.BigOperators
import Mathlib.Algebra.CharP.Lemmas
/-! Lemmas for C42. -/
namespace Tachyon.Sumcheck
open Tachyon.Parallel Tachyon.Multilinear

variable {F : Type*} [Field F] {α β : Type*}

/-! ### Chunked loops over a size -/

theorem chunkOf_range {size cs i len : ℕ} (h : i * cs + len ≤ size) :
    chunkOf (List.range size) cs (i, len) = List.range' (i * cs) len := by
  refine List.ext_getElem? fun k => ?_
  rcases Nat.lt_or_ge k len with hk | hk
  · rw [getElem?_chunkOf hk, List.getElem?_range (by omega), List.getElem?_range' hk]
    simp
  · rw [List.getElem?_eq_none (by simp [chunkOf]; omega), List.getElem?_eq_none (by simpa using hk)]

theorem mapSize_eq {threads size th : ℕ} {f : ℕ → ℕ → ℕ → Option β} (g : List ℕ → Option β)
    (ht : 0 < threads) (h : size + threads ≤ 2 ^ 64) (h2 : 2 * size ≤ 2 ^ 64)
    (hf : ∀ len off cs, f len off cs = g (List.range' (off * cs) len)) :
    ∃ l : List (List ℕ), l.flatten = List.range size ∧ mapSize threads size th f = l.mapM g := by
  obtain ⟨hp, hle, -⟩ := sizePerThread_bounds ht h (some th)
  unfold mapSize
  generalize sizePerThread threads size (some th) = cs at *
  rcases Nat.eq_zero_or_pos cs with h0 | h0
  · refine ⟨[], ?_, ?_⟩
    · have : size = 0 := by omega
      subst this; rfl
    · rw [invocations, if_pos h0]; rfl
  · refine ⟨(invocations size cs).map fun c => List.range' (c.1 * cs) c.2, ?_, ?_⟩
    · have := flatMap_chunkOf (List.range size) h0 (by rw [List.length_range]; omega)
      rw [List.length_range, List.flatMap_def] at this
      rw [← this]
      congr 1
      refine List.map_congr_left fun c hc => ?_
      obtain ⟨h3, h4⟩ := (mem_invocations h0).1 hc
      obtain ⟨h5, h6, h7, h8⟩ := chunk_bounds h0 (by omega) h3
      rw [← h4] at h6
      exact (chunkOf_range (i := c.1) (by omega)).symm
    · rw [List.mapM_map]
      simp only [hf]
      rfl

theorem mapM_some' {g : α → Option β} {w : α → β} : ∀ {l : List α}, (∀ x ∈ l, g x = some (w x)) →
    l.mapM g = some (l.map w)
  | [], _ => rfl
  | x :: l, h => by
    rw [List.mapM_cons, h x (by simp), mapM_some' fun y hy => h y (by simp [hy])]
    rfl

theorem foldlM_some {γ : Type*} {f : γ → α → Option γ} {w : γ → α → γ} : ∀ (l : List α) (a : γ),
    (∀ a, ∀ x ∈ l, f a x = some (w a x)) → l.foldlM f a = some (l.foldl w a)
  | [], _, _ => rfl
  | x :: l, a, h => by
    rw [List.foldlM_cons, h a x (by simp), Option.bind_eq_bind, Option.bind_some,
      foldlM_some l _ fun a y hy => h a y (by simp [hy])]
    rfl

theorem foldl_add (g : α → F) : ∀ (l : List α) (a : F), l.foldl (fun a x => a + g x) a = a + (l.map g).sum
  | [], a => by simp
  | x :: l, a => by rw [List.foldl_cons, foldl_add g l, List.map_cons, List.sum_cons]; ring

theorem foldl_mul (g : α → F) : ∀ (l : List α) (a : F), l.foldl (fun a x => a * g x) a = a * (l.map g).prod
  | [], a => by simp
  | x :: l, a => by rw [List.foldl_cons, foldl_mul g l, List.map_cons, List.prod_cons]; ring

theorem sum_range_list (m : ℕ) (f : ℕ → F) : ((List.range m).map f).sum = ∑ i ∈ Finset.range m, f i := by
  induction m with
  | zero => rfl
  | succ m ih => rw [List.range_succ, List.map_append, List.sum_append, ih, Finset.sum_range_succ]; simp

theorem prod_range_list (m : ℕ) (f : ℕ → F) : ((List.range m).map f).prod = ∏ i ∈ Finset.range m, f i := by
  induction m with
  | zero => rfl
  | succ m ih => rw [List.range_succ, List.map_append, List.prod_append, ih, Finset.prod_range_succ]; simp

/-- Sums of chunk sums. -/
theorem sum_flatten (w : α → F) (l : List (List α)) :
    (l.map fun c => (c.map w).sum).sum = (l.flatten.map w).sum := by
  induction l with
  | nil => rfl
  | cons c l ih => simp [ih]

/-- `ParallelizeMap` over a container with a serial sum per chunk. -/
theorem parallelizeMap_sum {threads : ℕ} {xs : List α} {f : List α → Option F} {w : α → F}
    (ht : 0 < threads) (h : xs.length + threads ≤ 2 ^ 64) (h2 : 2 * xs.length ≤ 2 ^ 64)
    (hf : ∀ l, (∀ x ∈ l, x ∈ xs) → f l = some ((l.map w).sum)) :
    ((parallelizeMap threads xs fun _ _ chunk => f chunk).mapM id).map (fun r => r.foldl (· + ·) 0) =
      some ((xs.map w).sum) := by
  obtain ⟨cs, l, -, h3, h4⟩ := parallelizeMap_chunks (fun _ _ chunk => f chunk) ht h h2
  rw [h4, List.mapM_map, Function.id_comp, mapM_some' (w := fun c => ((chunkOf xs cs c).map w).sum) fun c hc =>
    hf _ fun x hx => List.mem_of_mem_drop (List.mem_of_mem_take hx)]
  have := foldl_add (fun x : F => x) (l.map fun c => ((chunkOf xs cs c).map w).sum) 0
  simp only [Option.map_some]
  rw [this, List.map_id', zero_add]
  have := sum_flatten w (l.map (chunkOf xs cs))
  rw [← List.flatMap_def, h3, List.map_map] at this
  exact congrArg some this

theorem parallelizeMap_prod {threads : ℕ} {xs : List α} {f : List α → Option F} {w : α → F}
    (ht : 0 < threads) (h : xs.length + threads ≤ 2 ^ 64) (h2 : 2 * xs.length ≤ 2 ^ 64)
    (hf : ∀ l, (∀ x ∈ l, x ∈ xs) → f l = some ((l.map w).prod)) (c : F) :
    ((parallelizeMap threads xs fun _ _ chunk => f chunk).mapM id).map (fun r => c * r.foldl (· * ·) 1) =
      some (c * (xs.map w).prod) := by
  obtain ⟨cs, l, -, h3, h4⟩ := parallelizeMap_chunks (fun _ _ chunk => f chunk) ht h h2
  rw [h4, List.mapM_map, Function.id_comp, mapM_some' (w := fun c => ((chunkOf xs cs c).map w).prod) fun c hc =>
    hf _ fun x hx => List.mem_of_mem_drop (List.mem_of_mem_take hx)]
  have := foldl_mul (fun x : F => x) (l.map fun c => ((chunkOf xs cs c).map w).prod) 1
  simp only [Option.map_some]
  rw [this, List.map_id', one_mul]
  congr 2
  conv_rhs => rw [← h3]
  clear h3 h4 this
  induction l with
  | nil => rfl
  | cons c l ih => simp [ih]

/-! ### Sums over the hypercube -/

/-- The tables as functions. -/
def tab (tabs : List (List F)) : ℕ → ℕ → F := fun ix i => (tabs.getD ix []).getD i 0

/-- The value of a term at a vertex. -/
def termVal (T : ℕ → ℕ → F) (i : ℕ) (t : Term F) : F := t.coeff * (t.indexes.map fun ix => T ix i).prod

/-- The sum over the hypercube. -/
def gsum (ts : List (Term F)) (m : ℕ) (T : ℕ → ℕ → F) : F :=
  ∑ i ∈ Finset.range (2 ^ m), (ts.map (termVal T i)).sum

/-- Fix the first variable of all tables. -/
def foldT (r : F) (T : ℕ → ℕ → F) : ℕ → ℕ → F := fun ix => fold1 r (T ix)

theorem termVal_congr {T T' : ℕ → ℕ → F} {i : ℕ} {t : Term F} (h : ∀ ix ∈ t.indexes, T ix i = T' ix i) :
    termVal T i t = termVal T' i t := by
  unfold termVal; rw [List.map_congr_left h]

theorem gsum_congr {ts : List (Term F)} {m : ℕ} {T T' : ℕ → ℕ → F}
    (h : ∀ t ∈ ts, ∀ ix ∈ t.indexes, ∀ i < 2 ^ m, T ix i = T' ix i) : gsum ts m T = gsum ts m T' := by
  unfold gsum
  refine Finset.sum_congr rfl fun i hi => ?_
  rw [List.map_congr_left fun t ht => termVal_congr fun ix hix => h t ht ix hix i (Finset.mem_range.1 hi)]

theorem gsum_succ (ts : List (Term F)) (m : ℕ) (T : ℕ → ℕ → F) :
    gsum ts (m + 1) T = gsum ts m (foldT 0 T) + gsum ts m (foldT 1 T) := by
  unfold gsum
  rw [Nat.pow_succ, Nat.mul_comm, Multilinear.sum_range_two_mul, ← Finset.sum_add_distrib]
  refine Finset.sum_congr rfl fun i _ => ?_
  have h0 : termVal (foldT 0 T) i = termVal T (2 * i) := by
    funext t; unfold termVal foldT fold1; simp
  have h1 : termVal (foldT 1 T) i = termVal T (2 * i + 1) := by
    funext t; unfold termVal foldT fold1; simp
  rw [h0, h1]

open Polynomial in
/-- The round polynomial. -/
noncomputable def rpoly (ts : List (Term F)) (m : ℕ) (T : ℕ → ℕ → F) : F[X] :=
  ∑ i ∈ Finset.range (2 ^ m), (ts.map fun t => C t.coeff *
    (t.indexes.map fun ix => C (T ix (2 * i)) + X * C (T ix (2 * i + 1) - T ix (2 * i))).prod).sum

theorem rpoly_eval (ts : List (Term F)) (m : ℕ) (T : ℕ → ℕ → F) (r : F) :
    (rpoly ts m T).eval r = gsum ts m (foldT r T) := by
  unfold rpoly gsum
  rw [Polynomial.eval_finsetSum]
  refine Finset.sum_congr rfl fun i _ => ?_
  rw [← Polynomial.coe_evalRingHom, map_list_sum, List.map_map]
  congr 1
  refine List.map_congr_left fun t _ => ?_
  simp only [Function.comp, termVal, map_mul, map_list_prod, List.map_map]
  simp [foldT, fold1, Function.comp_def]

theorem rpoly_degree (ts : List (Term F)) (m : ℕ) (T : ℕ → ℕ → F) {d : ℕ}
    (hd : ∀ t ∈ ts, t.indexes.length ≤ d) : (rpoly ts m T).natDegree ≤ d := by
  unfold rpoly
  refine Polynomial.natDegree_sum_le_of_forall_le _ _ fun i _ => ?_
  have hterm : ∀ t ∈ ts, (Polynomial.C t.coeff * (t.indexes.map fun ix => Polynomial.C (T ix (2 * i)) +
      Polynomial.X * Polynomial.C (T ix (2 * i + 1) - T ix (2 * i))).prod).natDegree ≤ d := by
    intro t ht
    refine (Polynomial.natDegree_C_mul_le _ _).trans (le_trans ?_ (hd t ht))
    generalize t.indexes = l
    induction l with
    | nil => simp
    | cons ix l ih =>
      rw [List.map_cons, List.prod_cons, List.length_cons]
      refine Polynomial.natDegree_mul_le.trans ?_
      have : (Polynomial.C (T ix (2 * i)) +
        Polynomial.X * Polynomial.C (T ix (2 * i + 1) - T ix (2 * i))).natDegree ≤ 1 := by
        compute_degree
      omega
  clear hd
  induction ts with
  | nil => simp
  | cons t ts ih =>
    rw [List.map_cons, List.sum_cons]
    exact (Polynomial.natDegree_add_le _ _).trans (max_le (hterm t (by simp))
      (ih fun t' ht' => hterm t' (by simp [ht'])))

/-! ### Linear combinations -/

section lc
variable [DecidableEq F]

omit [DecidableEq F] in
theorem vertexProduct_eq {tabs : List (List F)} {m i : ℕ} (hi : i < 2 ^ m) (htab : ∀ e ∈ tabs, e.length = 2 ^ m)
    {indexes : List ℕ} (h : ∀ ix ∈ indexes, ix < tabs.length) :
    vertexProduct tabs i indexes = some ((indexes.map fun ix => tab tabs ix i).prod) := by
  unfold vertexProduct
  rw [foldlM_some (w := fun acc ix => acc * tab tabs ix i), foldl_mul (fun ix => tab tabs ix i), one_mul]
  intro acc ix hix
  have h1 := h ix hix
  have h2 : i < (tabs[ix]).length := by rw [htab _ (List.getElem_mem h1)]; exact hi
  rw [List.getElem?_eq_getElem h1, Option.map_some, if_pos h2, tab, List.getD_eq_getElem _ _ h1]

omit [DecidableEq F] in
theorem combine_term {threads n : ℕ} {tabs : List (List F)} {t : Term F} (ht : 0 < threads)
    (hn : n ≤ 62) (hth : threads ≤ 2 ^ 62) (htab : ∀ e ∈ tabs, e.length = 2 ^ n) (hne : t.indexes ≠ [])
    (h : ∀ ix ∈ t.indexes, ix < tabs.length) :
    t.combine threads n tabs = some (∑ i ∈ Finset.range (2 ^ n), termVal (tab tabs) i t) := by
  have hp : 2 ^ n ≤ 2 ^ 62 := Nat.pow_le_pow_right (by omega) hn
  unfold Term.combine
  rw [if_neg (by simpa using hne)]
  obtain ⟨l, h1, h2⟩ := mapSize_eq (th := 16 * threads) (size := 2 ^ n)
    (f := fun len offset size => (List.range' (offset * size) len).foldlM
        (fun sum i => (vertexProduct tabs i t.indexes).map fun x => sum + x) 0)
    (fun c => c.foldlM (fun sum i => (vertexProduct tabs i t.indexes).map fun x => sum + x) 0) ht
    (by omega) (by omega) (fun _ _ _ => rfl)
  rw [h2, mapM_some' (w := fun c => (c.map fun i => (t.indexes.map fun ix => tab tabs ix i).prod).sum)]
  · rw [Option.map_some]
    have := foldl_add (fun x : F => x)
      (l.map fun c => (c.map fun i => (t.indexes.map fun ix => tab tabs ix i).prod).sum) 0
    rw [this, List.map_id', zero_add, sum_flatten, h1, sum_range_list, Finset.sum_mul]
    congr 1
    exact Finset.sum_congr rfl fun i _ => by rw [termVal, mul_comm]
  · intro c hc
    rw [foldlM_some (w := fun sum i => sum + (t.indexes.map fun ix => tab tabs ix i).prod), foldl_add, zero_add]
    intro a i hi
    have : i ∈ List.range (2 ^ n) := by rw [← h1]; exact List.mem_flatten.2 ⟨c, hc, hi⟩
    rw [vertexProduct_eq (List.mem_range.1 this) htab h, Option.map_some]

theorem evaluate_term {threads n : ℕ} {tabs : List (List F)} {point : List F} {t : Term F} (ht : 0 < threads)
    (hn : n ≤ 62) (hth : threads ≤ 2 ^ 62) (hlen : t.indexes.length ≤ 2 ^ 62)
    (htab : ∀ e ∈ tabs, e.length = 2 ^ n) (hpt : point.length = n) (h : ∀ ix ∈ t.indexes, ix < tabs.length) :
    t.evaluate threads tabs point =
      some (t.coeff * (t.indexes.map fun ix => foldAll point (tab tabs ix) 0).prod) := by
  unfold Term.evaluate
  refine parallelizeMap_prod ht (by omega) (by omega) (fun l hl => ?_) _
  unfold evaluateIndexes
  rw [foldlM_some (w := fun acc ix => acc * foldAll point (tab tabs ix) 0),
    foldl_mul (fun ix => foldAll point (tab tabs ix) 0), one_mul]
  intro acc ix hix
  have h1 := h ix (hl ix hix)
  rw [List.getElem?_eq_getElem h1, Option.bind_some,
    evaluate_eq (n := n) (by omega) (htab _ (List.getElem_mem h1)) hpt, Option.map_some]
  congr 3
  funext i
  rw [tab, List.getD_eq_getElem _ _ h1]

omit [DecidableEq F] in
theorem sumTerms_eq {f : Term F → Option F} {w : Term F → F} {ts : List (Term F)}
    (h : ∀ t ∈ ts, f t = some (w t)) : sumTerms f ts = some ((ts.map w).sum) := by
  unfold sumTerms
  rw [foldlM_some (w := fun acc t => acc + w t), foldl_add, zero_add]
  intro a t ht
  rw [h t ht, Option.map_some]

/-- The terms as given by their pointers. -/
def LinComb.mean (lc : LinComb F) : List (F × List ℕ) :=
  lc.terms.map fun t => (t.coeff, t.indexes.map fun ix => lc.flattened.getD ix 0)

/-- What `AddTerm` keeps true. -/
structure Good (P : ℕ → Prop) (lc : LinComb F) : Prop where
  index : ∀ t ∈ lc.terms, ∀ ix ∈ t.indexes, ix < lc.flattened.length
  le : ∀ t ∈ lc.terms, t.indexes.length ≤ lc.maxEvals
  look : ∀ p i, lc.lookup.lookup p = some i → lc.flattened[i]? = some p
  src : ∀ p ∈ lc.flattened, P p

omit [Field F] [DecidableEq F] in
theorem addIndex_spec {heap : ℕ → List F} : ∀ (ptrs : List ℕ) (lc : LinComb F) (acc : List ℕ),
    (∀ p ∈ ptrs, Multilinear.degree (heap p) = lc.numVars) →
    (∀ p i, lc.lookup.lookup p = some i → lc.flattened[i]? = some p) →
    ∃ (lc' : LinComb F) (new : List ℕ), ptrs.foldlM (addIndex heap) (lc, acc) = some (lc', acc ++ new) ∧
      new.length = ptrs.length ∧ (∀ ix ∈ new, ix < lc'.flattened.length) ∧
      (new.map fun ix => lc'.flattened.getD ix 0) = ptrs ∧
      (∃ ext, lc'.flattened = lc.flattened ++ ext ∧ ∀ p ∈ ext, p ∈ ptrs) ∧
      lc'.terms = lc.terms ∧ lc'.maxEvals = lc.maxEvals ∧ lc'.numVars = lc.numVars ∧
      (∀ p i, lc'.lookup.lookup p = some i → lc'.flattened[i]? = some p)
  | [], lc, acc, _, hl => ⟨lc, [], by simp, rfl, by simp, rfl, ⟨[], by simp⟩, rfl, rfl, rfl, hl⟩
  | p :: ptrs, lc, acc, hd, hl => by
    rw [List.foldlM_cons]
    unfold addIndex
    rw [if_neg (by simpa using hd p (by simp))]
    cases hp : lc.lookup.lookup p with
    | some i =>
      obtain ⟨lc', new, h1, h2, h3, h4, ⟨ext, h5, h5'⟩, h6, h7, h8, h9⟩ := addIndex_spec ptrs lc (acc ++ [i])
        (fun q hq => hd q (by simp [hq])) hl
      have hi := hl p i hp
      have hlt : i < lc.flattened.length := (List.getElem?_eq_some_iff.1 hi).1
      refine ⟨lc', i :: new, ?_, by simp [h2], ?_, ?_, ⟨ext, h5, fun q hq => by simp [h5' q hq]⟩, h6, h7, h8, h9⟩
      · simp only [Option.bind_eq_bind, Option.bind_some]
        rw [show acc ++ i :: new = acc ++ [i] ++ new by simp, ← h1]
        rfl
      · intro ix hix
        rcases List.mem_cons.1 hix with rfl | hix
        · rw [h5, List.length_append]; omega
        · exact h3 ix hix
      · rw [List.map_cons, h4, h5, List.getD_eq_getElem?_getD, List.getElem?_append_left hlt, hi, Option.getD_some]
    | none =>
      obtain ⟨lc', new, h1, h2, h3, h4, ⟨ext, h5, h5'⟩, h6, h7, h8, h9⟩ := addIndex_spec ptrs
        { lc with lookup := lc.lookup ++ [(p, lc.flattened.length)], flattened := lc.flattened ++ [p] }
        (acc ++ [lc.flattened.length]) (fun q hq => hd q (by simp [hq])) (by
          intro q i hq
          simp only at hq ⊢
          rw [List.lookup_append] at hq
          cases hq' : lc.lookup.lookup q with
          | some j =>
            rw [hq', Option.some_or] at hq
            have := hl q j hq'
            obtain rfl : j = i := by simpa using hq
            rw [List.getElem?_append_left (List.getElem?_eq_some_iff.1 this).1, this]
          | none =>
            rw [hq', Option.none_or, List.lookup_cons] at hq
            by_cases hqp : q = p
            · subst hqp
              simp only [beq_self_eq_true] at hq
              obtain rfl : lc.flattened.length = i := by simpa using hq
              simp
            · rw [show (q == p) = false by simpa using hqp] at hq
              simp at hq)
      simp only at h5 h6 h7 h8
      refine ⟨lc', lc.flattened.length :: new, ?_, by simp [h2], ?_, ?_,
        ⟨p :: ext, by simp [h5], fun q hq => ?_⟩, h6, h7, h8, h9⟩
      · simp only [Option.bind_eq_bind, Option.bind_some]
        rw [show acc ++ lc.flattened.length :: new = acc ++ [lc.flattened.length] ++ new by simp, ← h1]
        rfl
      · intro ix hix
        rcases List.mem_cons.1 hix with rfl | hix
        · rw [h5]; simp
        · exact h3 ix hix
      · rw [List.map_cons, h4, h5, List.getD_eq_getElem?_getD, List.getElem?_append_left (by simp)]
        simp
      · rcases List.mem_cons.1 hq with rfl | hq
        · simp
        · simp [h5' q hq]

omit [Field F] [DecidableEq F] in
theorem addTerm_spec {heap : ℕ → List F} {P : ℕ → Prop} {lc : LinComb F} (hg : Good P lc) (c : F) (ptrs : List ℕ)
    (hd : ∀ p ∈ ptrs, Multilinear.degree (heap p) = lc.numVars) (hP : ∀ p ∈ ptrs, P p) :
    ∃ lc', addTerm heap lc c ptrs = some lc' ∧ Good P lc' ∧ lc'.numVars = lc.numVars ∧
      lc'.maxEvals = max lc.maxEvals ptrs.length ∧
      lc'.mean = lc.mean ++ (if ptrs = [] then [] else [(c, ptrs)]) := by
  unfold addTerm
  by_cases h0 : ptrs = []
  · subst h0
    exact ⟨lc, rfl, hg, rfl, by simp, by simp⟩
  rw [if_neg (by simpa using h0), if_neg h0]
  obtain ⟨lc', new, h1, h2, h3, h4, ⟨ext, h5, h5'⟩, h6, h7, h8, h9⟩ := addIndex_spec (heap := heap) ptrs
    { lc with maxEvals := max lc.maxEvals ptrs.length } [] hd hg.look
  simp only [List.nil_append] at h1
  simp only at h5 h6 h7 h8
  rw [h1, Option.map_some]
  refine ⟨_, rfl, ⟨?_, ?_, h9, ?_⟩, h8, h7, ?_⟩
  · intro t ht ix hix
    simp only [h6, List.mem_append, List.mem_singleton] at ht
    simp only
    rcases ht with ht | rfl
    · have := hg.index t ht ix hix
      rw [h5, List.length_append]; omega
    · exact h3 ix hix
  · intro t ht
    simp only [h6, List.mem_append, List.mem_singleton] at ht
    simp only [h7]
    rcases ht with ht | rfl
    · exact (hg.le t ht).trans (le_max_left _ _)
    · simp only [h2]; exact le_max_right _ _
  · intro p hp
    simp only [h5, List.mem_append] at hp
    rcases hp with hp | hp
    · exact hg.src p hp
    · exact hP p (h5' p hp)
  · unfold LinComb.mean
    simp only [h6, List.map_append, List.map_cons, List.map_nil, h4]
    congr 1
    refine List.map_congr_left fun t ht => ?_
    congr 1
    refine List.map_congr_left fun ix hix => ?_
    rw [h5, List.getD_eq_getElem?_getD, List.getElem?_append_left (hg.index t ht ix hix),
      ← List.getD_eq_getElem?_getD]

omit [Field F] [DecidableEq F] in
theorem build_spec_from {heap : ℕ → List F} {P : ℕ → Prop} : ∀ (ts : List (F × List ℕ)) (lc : LinComb F),
    Good P lc → (∀ t ∈ ts, ∀ p ∈ t.2, Multilinear.degree (heap p) = lc.numVars ∧ P p) →
    ∃ lc', ts.foldlM (fun lc t => addTerm heap lc t.1 t.2) lc = some lc' ∧ Good P lc' ∧
      lc'.numVars = lc.numVars ∧ lc'.maxEvals = (ts.map fun t => t.2.length).foldl max lc.maxEvals ∧
      lc'.mean = lc.mean ++ ts.filter fun t => !t.2.isEmpty
  | [], lc, hg, _ => ⟨lc, rfl, hg, rfl, rfl, by simp⟩
  | t :: ts, lc, hg, hd => by
    obtain ⟨lc1, h1, h2, h3, h4, h5⟩ := addTerm_spec hg t.1 t.2
      (fun p hp => (hd t (by simp) p hp).1) fun p hp => (hd t (by simp) p hp).2
    obtain ⟨lc2, g1, g2, g3, g4, g5⟩ := build_spec_from ts lc1 h2 fun t' ht' p hp => by
      rw [h3]; exact hd t' (by simp [ht']) p hp
    refine ⟨lc2, ?_, g2, g3.trans h3, ?_, ?_⟩
    · rw [List.foldlM_cons, h1]; exact g1
    · rw [g4, h4]; rfl
    · rw [g5, h5, List.append_assoc]
      congr 1
      obtain ⟨c, ps⟩ := t
      cases ps <;> simp

omit [Field F] [DecidableEq F] in
theorem build_spec {heap : ℕ → List F} {P : ℕ → Prop} {n : ℕ} {ts : List (F × List ℕ)}
    (hd : ∀ t ∈ ts, ∀ p ∈ t.2, Multilinear.degree (heap p) = n ∧ P p) :
    ∃ lc, build heap n ts = some lc ∧ Good P lc ∧ lc.numVars = n ∧
      lc.maxEvals = (ts.map fun t => t.2.length).foldl max 0 ∧ lc.mean = ts.filter fun t => !t.2.isEmpty := by
  obtain ⟨lc, h1, h2, h3, h4, h5⟩ := build_spec_from (heap := heap) ts { numVars := n }
    ⟨by simp, by simp, by simp [List.lookup], by simp⟩ hd
  exact ⟨lc, h1, h2, h3, h4, by simpa [LinComb.mean] using h5⟩

omit [DecidableEq F] in
/-- Terms by indices and by pointers have the same values. -/
theorem mean_val {heap : ℕ → List F} {P : ℕ → Prop} {lc : LinComb F} (hg : Good P lc) (v : List F → F) :
    (lc.terms.map fun t => t.coeff * (t.indexes.map fun ix => v ((lc.tables heap).getD ix [])).prod) =
      lc.mean.map fun t => t.1 * (t.2.map fun p => v (heap p)).prod := by
  unfold LinComb.mean LinComb.tables
  rw [List.map_map]
  refine List.map_congr_left fun t ht => ?_
  simp only [Function.comp, List.map_map]
  congr 2
  refine List.map_congr_left fun ix hix => ?_
  have := hg.index t ht ix hix
  rw [List.getD_eq_getElem _ _ (by simpa using this)]
  simp [List.getElem?_eq_getElem this]

end lc
end Tachyon.Sumcheck
