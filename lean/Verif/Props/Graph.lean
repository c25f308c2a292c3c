import Verif.Proofs.Graph
import Verif.Spec.F17
import Mathlib.RingTheory.RootsOfUnity.PrimitiveRoots
import Mathlib.RingTheory.Polynomial.Cyclotomic.Basic
/-! C70: constraint expressions, their evaluators, and the graph evaluator that the prover uses for gates, lookups and
shuffles. -/
universe u
namespace Tachyon.Props
open Tachyon.Plonk Polynomial Finset

section
variable {F : Type u} [Field F]

/-- `Rotation::GetIndex` is the row modulo the number of rows, also for negative rotations. -/
theorem C70_rotation (r idx scale : ℤ) (n : ℕ) (hn : 0 < n) (h1 : -2 ^ 31 ≤ r * scale ∧ r * scale < 2 ^ 31)
    (h2 : -2 ^ 31 ≤ idx + r * scale ∧ idx + r * scale < 2 ^ 31) :
    ∃ k, getIndex r idx scale n = some k ∧ k < n ∧ (k : ℤ) ≡ idx + r * scale [ZMOD n] := by
  have hn' : (0 : ℤ) < n := by exact_mod_cast hn
  have h3 := Int.emod_nonneg (idx + r * scale) (b := n) (by omega)
  have h4 := Int.emod_lt_of_pos (idx + r * scale) hn'
  refine ⟨_, getIndex_eq hn h1 h2, by omega, ?_⟩
  rw [Int.toNat_of_nonneg h3]
  exact Int.mod_modEq _ _

/-- A result that is not an `int32_t` ends the program. -/
theorem C70_rotation_overflow (r idx scale n : ℤ) (h : ¬ (-2 ^ 31 ≤ idx + r * scale ∧ idx + r * scale < 2 ^ 31)) :
    getIndex r idx scale n = none := by
  unfold getIndex
  split_ifs with h1 h2
  · rfl
  · simp only [inInt32, Bool.and_eq_true, decide_eq_true_eq] at h2
    exact absurd h2.2 h
  · rfl

/-- The evaluator of the prover gives the value of the expression in the row. -/
theorem C70_proving (t : Table F) (idx scale : ℤ) (n : ℕ) (hn : 0 < n) (e : Expr F) (h : Fits t idx scale e) :
    evalProving t idx scale n e = some (rowValue t idx scale n e) := by
  classical exact evalProving_eq t hn e h

/-- Expressions with selectors have no value. -/
theorem C70_selector (t : Table F) (idx scale n : ℤ) (e : Expr F) (h : ¬ NoSelector e) :
    evalProving t idx scale n e = none := by
  classical
  cases hv : evalProving t idx scale n e with
  | none => rfl
  | some v => exact absurd (legal_of_evalProving e v hv) h

/-- If the columns hold the values of polynomials on the coset `s·⟨ω⟩`, the value of an expression in a row is the value
of its polynomial at `s·ω^idx`. -/
theorem C70_polynomial (t : Table F) (n : ℕ) (hn : 0 < n) (ω s : F) (hω : ω ^ n = 1) (cols : Kind → ℕ → F[X])
    (hc : ∀ k, ∀ i < (t.columns k).length, ∀ j < n, ((t.columns k).getD i []).getD j 0 = (cols k i).eval (s * ω ^ j))
    (idx : ℤ) (e : Expr F) (h : Fits t idx 1 e) :
    rowValue t idx 1 n e = (polyOf cols (fun i => t.challenges.getD i 0) ω e).eval (s * ω ^ idx) := by
  classical
  have h0 : ω ≠ 0 := by
    rintro rfl
    rw [zero_pow (by omega)] at hω
    exact zero_ne_one hω
  rw [eval_polyOf]
  refine denote_congr id (fun k q hq => ?_) (fun i _ => rfl) e h
  have hn' : (0 : ℤ) < n := by exact_mod_cast hn
  have h3 := Int.emod_nonneg (idx + q.rotation * 1) (b := n) (by omega)
  have h4 := Int.emod_lt_of_pos (idx + q.rotation * 1) hn'
  rw [hc k q.column hq.1 _ (by omega)]
  congr 1
  have h5 : ω ^ ((idx + q.rotation * 1) % n).toNat = ω ^ (idx + q.rotation) := by
    rw [← zpow_natCast, Int.toNat_of_nonneg h3, mul_one]
    conv_rhs => rw [← Int.emod_add_mul_ediv (idx + q.rotation) n]
    rw [zpow_add₀ h0, zpow_mul, zpow_natCast, hω, one_zpow, mul_one]
  rw [h5, zpow_add₀ h0]
  ring

/-- The evaluator of the verifier gives the value of the polynomial of the expression at `x`, if the evaluations are
those of the queried polynomials. -/
theorem C70_verifying (d : Evaluations F) (cols : Kind → ℕ → F[X]) (challenges : ℕ → F) (ω x : F) (e : Expr F)
    (h : Legal (fun k q => ∃ i v, q.index = some i ∧ (d.of k)[i]? = some v ∧
      v = (cols k q.column).eval (ω ^ q.rotation * x)) (fun i => d.challenges[i]? = some (challenges i)) e) :
    evalVerifying d e = some ((polyOf cols challenges ω e).eval x) := by
  classical
  rw [eval_polyOf, evalVerifying_eq d e (Legal.mono (fun k q hq => ?_) (fun i hi => ?_) e h)]
  · congr 1
    refine denote_congr id (fun k q hq => ?_) (fun i hi => ?_) e h
    · obtain ⟨i, v, h1, h2, rfl⟩ := hq
      simp only [h1, Option.getD_some]
      rw [List.getD_eq_getElem?_getD, h2, Option.getD_some]
    · rw [List.getD_eq_getElem?_getD, hi, Option.getD_some]
  · obtain ⟨i, v, h1, h2, -⟩ := hq
    exact ⟨i, h1, (List.getElem?_eq_some_iff.1 h2).1⟩
  · exact (List.getElem?_eq_some_iff.1 hi).1

/-- `Degree` bounds the degree of the polynomial of an expression, in units of the degree of the columns. -/
theorem C70_degree (cols : Kind → ℕ → F[X]) (challenges : ℕ → F) (ω : F) (n : ℕ)
    (h : ∀ k i, (cols k i).natDegree ≤ n - 1) (e : Expr F) :
    (polyOf cols challenges ω e).natDegree ≤ degree e * (n - 1) := by
  classical exact natDegree_polyOf cols challenges ω (n - 1) h e

/-- The shape of an expression as a polynomial: columns and selectors are `X`, constants and challenges are numbers; without signs
nothing cancels. -/
noncomputable def shapeOf : Expr F → ℕ[X]
  | .constant _ | .challenge _ => 1
  | .selector _ | .fixed _ | .advice _ | .inst _ => X
  | .neg e => shapeOf e
  | .sum a b => shapeOf a + shapeOf b
  | .prod a b => shapeOf a * shapeOf b
  | .scaled e _ => shapeOf e

omit [Field F] in
/-- `Degree` is exactly the degree in the columns when nothing cancels. -/
theorem C70_degree_exact (e : Expr F) : (shapeOf e).natDegree = degree e := by
  have h0 : ∀ e : Expr F, shapeOf e ≠ 0 := by
    intro e
    induction e with
    | sum a b iha _ =>
      intro h
      refine iha (Polynomial.ext fun k => ?_)
      have := congrArg (fun p => coeff p k) h
      simp only [shapeOf, coeff_add, coeff_zero] at this ⊢
      omega
    | prod a b iha ihb => exact mul_ne_zero iha ihb
    | neg e ih => exact ih
    | scaled e _ ih => exact ih
    | constant _ => exact one_ne_zero
    | challenge _ => exact one_ne_zero
    | selector _ => exact X_ne_zero
    | fixed _ => exact X_ne_zero
    | advice _ => exact X_ne_zero
    | inst _ => exact X_ne_zero
  induction e with
  | sum a b iha ihb =>
    show (shapeOf a + shapeOf b).natDegree = max (degree a) (degree b)
    rw [← iha, ← ihb]
    refine le_antisymm (natDegree_add_le _ _) (max_le ?_ ?_)
    · refine le_natDegree_of_ne_zero ?_
      have := mt leadingCoeff_eq_zero.1 (h0 a)
      rw [leadingCoeff] at this
      rw [coeff_add]
      omega
    · refine le_natDegree_of_ne_zero ?_
      have := mt leadingCoeff_eq_zero.1 (h0 b)
      rw [leadingCoeff] at this
      rw [coeff_add]
      omega
  | prod a b iha ihb => rw [shapeOf, natDegree_mul (h0 a) (h0 b), iha, ihb]; rfl
  | neg e ih => exact ih
  | scaled e _ ih => exact ih
  | constant _ => exact natDegree_one
  | challenge _ => exact natDegree_one
  | selector _ => exact natDegree_X
  | fixed _ => exact natDegree_X
  | advice _ => exact natDegree_X
  | inst _ => exact natDegree_X

/-- A constraint holds in all rows if and only if `X^n - 1` divides its polynomial. -/
theorem C70_satisfied (t : Table F) (n : ℕ) (hn : 0 < n) (ω : F) (hω : IsPrimitiveRoot ω n) (cols : Kind → ℕ → F[X])
    (hc : ∀ k, ∀ i < (t.columns k).length, ∀ j < n, ((t.columns k).getD i []).getD j 0 = (cols k i).eval (ω ^ j))
    (e : Expr F) (h : ∀ idx < n, Fits t idx 1 e) :
    (∀ idx < n, rowValue t (idx : ℕ) 1 n e = 0) ↔
      (X ^ n - 1 : F[X]) ∣ polyOf cols (fun i => t.challenges.getD i 0) ω e := by
  classical
  have hv : ∀ idx < n, rowValue t (idx : ℕ) 1 n e = (polyOf cols (fun i => t.challenges.getD i 0) ω e).eval (ω ^ idx) := by
    intro idx hi
    have := C70_polynomial t n hn ω 1 hω.pow_eq_one cols (by simpa using hc) idx e (h idx hi)
    rw [this, one_mul, zpow_natCast]
  have hp : (X ^ n - 1 : F[X]) = ∏ i ∈ range n, (X - C (ω ^ i)) := by
    rw [X_pow_sub_one_eq_prod hn hω]
    symm
    refine Finset.prod_bij (fun i _ => ω ^ i) ?_ ?_ ?_ ?_
    · intro i _
      rw [mem_nthRootsFinset hn, ← pow_mul, mul_comm, pow_mul, hω.pow_eq_one, one_pow]
    · intro i hi j hj e
      exact hω.pow_inj (mem_range.1 hi) (mem_range.1 hj) e
    · intro x hx
      have : NeZero n := ⟨by omega⟩
      obtain ⟨i, hi, rfl⟩ := hω.eq_pow_of_pow_eq_one ((mem_nthRootsFinset hn _).1 hx)
      exact ⟨i, mem_range.2 hi, rfl⟩
    · intro i _; rfl
  rw [hp]
  constructor
  · intro h0
    refine Finset.prod_dvd_of_coprime ?_ fun i hi => ?_
    · intro i hi j hj hij
      refine pairwise_coprime_X_sub_C (s := fun i : Fin n => ω ^ (i : ℕ)) ?_
        (i := ⟨i, mem_range.1 hi⟩) (j := ⟨j, mem_range.1 hj⟩) (by simpa [Fin.ext_iff] using hij)
      intro a b e
      exact Fin.ext (hω.pow_inj a.2 b.2 e)
    · rw [dvd_iff_isRoot, IsRoot.def, ← hv i (mem_range.1 hi)]
      exact h0 i (mem_range.1 hi)
  · intro hd i hi
    rw [hv i hi]
    have := (Finset.dvd_prod_of_mem (fun i => (X - C (ω ^ i) : F[X])) (mem_range.2 hi)).trans hd
    exact dvd_iff_isRoot.1 this

variable [DecidableEq F]

/-- The Horner form: the previous value and the values, the last one without power of the challenge. -/
def combine (y previous : F) (k : ℕ) (v : ℕ → F) : F := previous * y ^ k + ∑ i ∈ range k, v i * y ^ (k - 1 - i)

private theorem foldl_map (y prev : F) (es : List (Expr F)) (f : Expr F → F) :
    (es.map f).foldl (fun acc v => acc * y + v) prev = combine y prev es.length (fun i => f (es.getD i (.constant 0))) := by
  rw [foldl_horner, List.length_map, combine]
  congr 1
  refine sum_congr rfl fun i hi => ?_
  have hi := mem_range.1 hi
  rw [List.getD_eq_getElem _ _ (by simpa using hi), List.getD_eq_getElem _ _ hi, List.getElem_map]

/-- The graph of the gates exists if no gate has a selector, and in every row the evaluator gives
`previous·y^k + Σ vᵢ·y^(k-1-i)` for the values `vᵢ` of the constraints in this row, whatever the intermediates were. -/
theorem C70_gates (gates : List (List (Expr F))) (hs : ∀ e ∈ gates.flatten, NoSelector e) :
    ∃ g, constructGates gates = some g ∧ ∀ (t : Table F) (ch : Challenges F) (previous : F) (idx scale : ℤ) (n : ℕ)
      (ims : List F), 0 < n → ims.length = g.num → (∀ e ∈ gates.flatten, Fits t idx scale e) →
      ∃ ims', ims'.length = g.num ∧ g.evaluate t ch n ims idx scale previous =
        some (combine ch.y previous gates.flatten.length
          (fun i => rowValue t idx scale n (gates.flatten.getD i (.constant 0))), ims') := by
  obtain ⟨g, hg⟩ := constructGates_total hs
  refine ⟨g, hg, fun t ch prev idx scale n ims hn hl hf => ?_⟩
  obtain ⟨ims', h1, h2⟩ := gates_spec t ch prev idx scale n gates hg (mapM_evalProving t hn _ hf) ims hl
  refine ⟨ims', h1, ?_⟩
  rw [h2, foldl_map]

/-- The rows of a chunk: every entry is combined with the values of its own row. -/
theorem C70_gates_chunk (gates : List (List (Expr F))) (hs : ∀ e ∈ gates.flatten, NoSelector e) :
    ∃ g, constructGates gates = some g ∧ ∀ (t : Table F) (ch : Challenges F) (n start : ℕ) (chunk : List F), 0 < n →
      (∀ i < chunk.length, ∀ e ∈ gates.flatten, Fits t ((start + i : ℕ) : ℤ) 1 e) →
      ∃ out, g.chunk t ch n start chunk = some out ∧ out.length = chunk.length ∧ ∀ i < chunk.length,
        out.getD i 0 = combine ch.y (chunk.getD i 0) gates.flatten.length
          (fun k => rowValue t ((start + i : ℕ) : ℤ) 1 n (gates.flatten.getD k (.constant 0))) := by
  obtain ⟨g, hg, h⟩ := C70_gates gates hs
  refine ⟨g, hg, fun t ch n start chunk hn hf => ?_⟩
  refine ⟨_, rows_spec t ch n (fun idx prev => combine ch.y prev gates.flatten.length
    (fun k => rowValue t idx 1 n (gates.flatten.getD k (.constant 0)))) _ ?_ _ (by simp), by simp, ?_⟩
  · intro p hp ims hl
    obtain ⟨i, hi, rfl⟩ := List.mem_iff_getElem.1 hp
    simp only [List.length_mapIdx] at hi
    rw [List.getElem_mapIdx]
    exact h t ch _ _ 1 n ims hn hl (hf i hi)
  · intro i hi
    rw [List.getD_eq_getElem _ _ (by simpa using hi), List.getElem_map, List.getElem_mapIdx, List.getD_eq_getElem _ _ hi]

/-- The graph of a lookup: `(Σ inputᵢ·θ^(k-1-i) + β)·(Σ tableᵢ·θ^(m-1-i) + γ)`. -/
theorem C70_lookup (inputs table : List (Expr F)) (hi : ∀ e ∈ inputs, NoSelector e) (ht : ∀ e ∈ table, NoSelector e) :
    ∃ g, constructLookup inputs table = some g ∧ ∀ (t : Table F) (ch : Challenges F) (previous : F) (idx scale : ℤ)
      (n : ℕ) (ims : List F), 0 < n → ims.length = g.num → (∀ e ∈ inputs, Fits t idx scale e) →
      (∀ e ∈ table, Fits t idx scale e) →
      ∃ ims', ims'.length = g.num ∧ g.evaluate t ch n ims idx scale previous =
        some ((combine ch.theta 0 inputs.length (fun i => rowValue t idx scale n (inputs.getD i (.constant 0))) + ch.beta) *
          (combine ch.theta 0 table.length (fun i => rowValue t idx scale n (table.getD i (.constant 0))) + ch.gamma),
          ims') := by
  obtain ⟨g, hg⟩ := constructLookup_total hi ht
  refine ⟨g, hg, fun t ch prev idx scale n ims hn hl hf hf' => ?_⟩
  obtain ⟨ims', h1, h2⟩ := lookup_spec t ch prev idx scale n inputs table hg (mapM_evalProving t hn _ hf)
    (mapM_evalProving t hn _ hf') ims hl
  refine ⟨ims', h1, ?_⟩
  rw [h2, foldl_map, foldl_map]

/-- The graphs of a shuffle (`γ`) and of a lookup with logarithmic derivatives (`β`). -/
theorem C70_shift (es : List (Expr F)) (hs : ∀ e ∈ es, NoSelector e) (b : Bool) :
    ∃ g, constructShift (if b then .beta else .gamma) es = some g ∧ ∀ (t : Table F) (ch : Challenges F) (previous : F)
      (idx scale : ℤ) (n : ℕ) (ims : List F), 0 < n → ims.length = g.num → (∀ e ∈ es, Fits t idx scale e) →
      ∃ ims', ims'.length = g.num ∧ g.evaluate t ch n ims idx scale previous =
        some (combine ch.theta 0 es.length (fun i => rowValue t idx scale n (es.getD i (.constant 0))) +
          (if b then ch.beta else ch.gamma), ims') := by
  obtain ⟨g, hg⟩ := constructShift_total hs (if b then .beta else .gamma)
  refine ⟨g, hg, fun t ch prev idx scale n ims hn hl hf => ?_⟩
  obtain ⟨ims', h1, h2⟩ := shift_spec t ch prev idx scale n es (x := if b then ch.beta else ch.gamma)
    (by cases b <;> simp) hg (mapM_evalProving t hn _ hf) ims hl
  refine ⟨ims', h1, ?_⟩
  rw [h2, foldl_map]

/-- No calculation is in the graph of the gates twice, and each has a place of its own for its result. -/
theorem C70_once (gates : List (List (Expr F))) (g : Graph F) (hg : constructGates gates = some g) :
    (g.calcs.map Prod.fst).Nodup ∧ g.calcs.map Prod.snd = List.range g.num :=
  ⟨(once_gates hg).nodup, (once_gates hg).targets⟩

end

/-! Examples. -/

/-- `a·b - c` and `2·a(ω X) + (a·b)·b` with a fixed factor. -/
private def exGates : List (List (Expr F17)) :=
  [[.sum (.prod (.advice ⟨some 0, 0, 0⟩) (.advice ⟨some 1, 0, 1⟩)) (.neg (.inst ⟨some 0, 0, 0⟩))],
   [.prod (.fixed ⟨some 0, 0, 0⟩) (.sum (.scaled (.advice ⟨some 2, -1, 0⟩) 2)
     (.prod (.prod (.advice ⟨some 1, 0, 1⟩) (.advice ⟨some 0, 0, 0⟩)) (.challenge 0)))]]

private def exTable : Table F17 := ⟨[[1, 0, 1, 3]], [[1, 2, 3, 4], [5, 6, 7, 8]], [[5, 12, 4, 15]], [7]⟩

/-- The product `a·b` is calculated once. -/
example : (constructGates exGates).map (fun g => (g.calcs.length, g.num, g.rotations, g.constants)) =
    some (13, 13, [0, -1], [0, 1, 2]) := by decide +kernel

example : (constructGates exGates).bind (fun g => g.chunk exTable ⟨1, 2, 3, 10⟩ 4 1 [3, 4, 5]) = some [11, 7, 0] := by
  decide +kernel

example : rowValue exTable 3 1 4 (exGates.flatten.getD 1 (.constant 0)) = 1 * 3 * (2 * 3 + 4 * 8 * 7) := by decide +kernel

example : getIndex (-3) 1 1 4 = some 2 := by decide

example : ∃ k, getIndex (-5) 1 1 (4 : ℕ) = some k ∧ k < 4 ∧ (k : ℤ) ≡ 1 + -5 * 1 [ZMOD (4 : ℕ)] :=
  C70_rotation (-5) 1 1 4 (by omega) (by omega) (by omega)

example : getIndex (2 ^ 31 - 1) 1 1 4 = none := C70_rotation_overflow _ _ _ _ (by omega)

example : evalProving exTable 3 1 (4 : ℕ) (exGates.flatten.getD 1 (.constant 0)) =
    some (rowValue exTable 3 1 4 (exGates.flatten.getD 1 (.constant 0))) :=
  C70_proving _ _ _ _ (by omega) _ (by
    refine ⟨⟨by decide, ?_, ?_⟩, ⟨by decide, ?_, ?_⟩, ⟨⟨by decide, ?_, ?_⟩, ⟨by decide, ?_, ?_⟩⟩, (by decide : 0 < exTable.challenges.length)⟩ <;> decide)

example : evalProving exTable 0 1 4 (.scaled (.selector 0) 0) = none :=
  C70_selector _ _ _ _ _ (fun h => h)

example : ∃ g, constructGates exGates = some g ∧ (g.calcs.map Prod.fst).Nodup :=
  (Option.isSome_iff_exists.1 (by decide +kernel : (constructGates exGates).isSome)).imp fun g hg =>
    ⟨hg, (C70_once exGates g hg).1⟩

/-- With the same expression as input and as table, the compressed value is calculated once. -/
example : (constructLookup [.advice ⟨none, 0, 0⟩, .advice ⟨none, 1, 1⟩] [.advice ⟨none, 0, 0⟩, .advice ⟨none, 1, 1⟩] :
    Option (Graph F17)).bind (fun g => (g.evaluate exTable ⟨10, 2, 3, 4⟩ 4 (List.replicate g.num 0) 3 1 0).map Prod.fst) =
      some ((4 * 10 + 5 + 2) * (4 * 10 + 5 + 3)) := by decide +kernel

example : (constructShift .gamma [.advice ⟨none, 0, 0⟩, .advice ⟨none, 1, 1⟩] :
    Option (Graph F17)).bind (fun g => (g.evaluate exTable ⟨10, 2, 3, 4⟩ 4 (List.replicate g.num 0) 3 1 0).map Prod.fst) =
      some (4 * 10 + 5 + 3) := by decide +kernel

example : evalVerifying (⟨[3], [4, 5, 6], [7], [8]⟩ : Evaluations F17) (exGates.flatten.getD 1 (.constant 0)) =
    some (3 * (6 * 2 + 5 * 4 * 8)) := by decide +kernel

example : degree (exGates.flatten.getD 1 (.constant 0)) = 3 := by decide

example : ∃ g, constructGates exGates = some g ∧ ∃ ims', ims'.length = g.num ∧
    g.evaluate exTable ⟨1, 2, 3, 10⟩ (4 : ℕ) (List.replicate g.num 9) 3 1 5 =
      some (combine 10 5 2 (fun i => rowValue exTable 3 1 4 (exGates.flatten.getD i (.constant 0))), ims') := by
  obtain ⟨g, hg, h⟩ := C70_gates exGates (by simp [exGates, NoSelector, Legal])
  exact ⟨g, hg, h exTable ⟨1, 2, 3, 10⟩ 5 3 1 4 _ (by omega) (by simp)
    (by simp [exGates, exTable, Fits, Legal, Table.columns])⟩

/-- `a² - b` with `a = X³` and `b = X²` vanishes on the fourth roots of unity, and the polynomial is `X²·(X⁴ - 1)`. -/
private def exSquare : Expr F17 := .sum (.prod (.advice ⟨none, 0, 0⟩) (.advice ⟨none, 0, 0⟩)) (.neg (.advice ⟨none, 0, 1⟩))

private noncomputable def exCols : Kind → ℕ → F17[X] := fun _ i => if i = 0 then X ^ 3 else X ^ 2

private theorem prim4 : IsPrimitiveRoot (4 : F17) 4 := by
  refine IsPrimitiveRoot.of_map_of_injective (f := RingHom.id F17) ?_ Function.injective_id
  refine (IsPrimitiveRoot.iff (by omega)).2 ⟨by decide, fun l h1 h2 => ?_⟩
  interval_cases l <;> decide

example : (X ^ 4 - 1 : F17[X]) ∣ polyOf exCols (fun i => ([] : List F17).getD i 0) 4 exSquare := by
  refine (C70_satisfied ⟨[], [[1, 13, 16, 4], [1, 16, 1, 16]], [], []⟩ 4 (by omega) 4 prim4 exCols ?_ exSquare ?_).1 ?_
  · intro k i hi j hj
    cases k
    · simp [Table.columns] at hi
    · simp only [Table.columns, List.length_cons, List.length_nil] at hi
      interval_cases i <;> interval_cases j <;> simp [exCols, Table.columns] <;> decide
    · simp [Table.columns] at hi
  · intro idx hi
    simp [exSquare, Fits, Legal, Table.columns]
    omega
  · intro idx hi
    interval_cases idx <;> decide +kernel

example : (polyOf exCols (fun _ => 0) 4 exSquare).natDegree ≤ 2 * 3 :=
  C70_degree exCols (fun _ => 0) 4 4 (fun k i => by unfold exCols; split_ifs <;> simp) exSquare

end Tachyon.Props
