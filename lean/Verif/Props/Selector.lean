import Verif.Proofs.SelectorDegree
import Verif.Spec.F97
import Mathlib.Tactic.IntervalCases
/-! C89: the compression of selectors into fixed columns. -/
universe u
namespace Tachyon.Props
open Selector CircuitPoly Plonk

/-- C89: the exclusion matrix says of any two selectors whether there is a row where both are active. -/
theorem C89_exclusive {ds : List Desc} {i j : ℕ} (hi : i < ds.length) (hj : j < ds.length) (hij : i ≠ j) :
    ∃ b, isExclusive (exclusion ds) i j = some b ∧
      (b = true ↔ ∃ k, (ds[i].activations).getD k false = true ∧ (ds[j].activations).getD k false = true) := by
  have key : ∀ {i j : ℕ} (hi : i < ds.length) (hj : j < ds.length), j < i →
      isExclusive (exclusion ds) i j = some (!orthogonal ds[i].activations ds[j].activations) := fun {i j} hi hj h => by
    rw [isExclusive_eq h hi]
    simp [dget, hi, hj]
  have hb : ∀ a b : List Bool, (!orthogonal a b) = true ↔ ∃ k, a.getD k false = true ∧ b.getD k false = true :=
    fun a b => by
      rw [Bool.not_eq_true', Bool.eq_false_iff, ne_eq, orthogonal_iff]
      push Not
      rfl
  rcases Nat.lt_or_gt_of_ne hij with h | h
  · refine ⟨_, ?_, hb _ _⟩
    have : isExclusive (exclusion ds) i j = isExclusive (exclusion ds) j i := by
      unfold isExclusive; rw [max_comm, min_comm]
    rw [this, key hj hi h, orthogonal_symm]
  · exact ⟨_, key hi hj h, hb _ _⟩

section
variable {F : Type u} [Field F] [DecidableEq F]

/-- C89: for a proper constraint system the compression succeeds. There are at most as many new columns as selectors, no
selector is left in any expression, and in every row every expression is worth what it was, with the selectors worth a
constant `c s ≠ 0` where they are active and zero elsewhere; for the selectors that are not simple the constant is one. -/
theorem C89_compress {cs : CS F} {selectors : List (List Bool)} {n D : ℕ} (hp : cs.Proper)
    (hlen : selectors.length = cs.numSelectors) (hn : ∀ a ∈ selectors, a.length = n)
    (hdeg : computeDegree cs.sys = some D) (hc : ∀ k : ℕ, 0 < k → k ≤ D → (k : F) ≠ 0) :
    ∃ cs' map cols c, compress cs selectors = some (cs', map, cols) ∧ Compressed cs selectors n cs' cols c := by
  obtain ⟨cs', map, cols, c, h1, h2, _⟩ := compress_values hp hlen hn hdeg hc
  exact ⟨cs', map, cols, c, h1, h2⟩

/-- C89: the selector map names a new column for every selector, and the selector is active in the rows where this column
has one value that is not zero. -/
theorem C89_map {cs : CS F} {selectors : List (List Bool)} {n D : ℕ} (hp : cs.Proper)
    (hlen : selectors.length = cs.numSelectors) (hn : ∀ a ∈ selectors, a.length = n)
    (hdeg : computeDegree cs.sys = some D) (hc : ∀ k : ℕ, 0 < k → k ≤ D → (k : F) ≠ 0)
    {cs' : CS F} {map : List ℕ} {cols : List (List F)} (h : compress cs selectors = some (cs', map, cols)) :
    map.length = cs.numSelectors ∧ ∀ s < cs.numSelectors, ∃ k : ℕ, ∃ r : F, k < cols.length ∧
      map[s]? = some (cs.numFixed + k) ∧ r ≠ 0 ∧
        ∀ i < n, active selectors s i = true ↔ (cols.getD k []).getD i 0 = r := by
  obtain ⟨cs'', map', cols', c, h1, _, h3, h4⟩ := compress_values hp hlen hn hdeg hc
  rw [h] at h1
  simp only [Option.some.injEq, Prod.mk.injEq] at h1
  obtain ⟨rfl, rfl, rfl⟩ := h1
  exact ⟨h3, h4⟩

/-- C89: a gate without simple selectors, or that is a product with one, holds in a row after the compression if and only
if it held before, with selectors that are one where they are active and zero elsewhere. -/
theorem C89_gates {cs : CS F} {selectors : List (List Bool)} {n D : ℕ} (hp : cs.Proper)
    (hlen : selectors.length = cs.numSelectors) (hn : ∀ a ∈ selectors, a.length = n)
    (hdeg : computeDegree cs.sys = some D) (hc : ∀ k : ℕ, 0 < k → k ≤ D → (k : F) ≠ 0)
    {cs' : CS F} {map : List ℕ} {cols : List (List F)} (h : compress cs selectors = some (cs', map, cols)) :
    List.Forall₂ (List.Forall₂ fun e e' => (simpleOf cs.simple e = [] ∨ ∃ s, Gated cs.simple s e) →
      ∀ (t : Table F) (scale : ℤ), t.fixed.length = cs.numFixed → ∀ i < n,
        (rowValue (addFixed t cols) i scale n e' = 0 ↔
          rowValueSel t (fun s => if active selectors s i then 1 else 0) i scale n e = 0)) cs.sys.gates cs'.sys.gates := by
  obtain ⟨cs'', map', cols', c, h1, h2, _⟩ := compress_values hp hlen hn hdeg hc
  rw [h] at h1
  simp only [Option.some.injEq, Prod.mk.injEq] at h1
  obtain ⟨rfl, rfl, rfl⟩ := h1
  refine h2.gates.imp fun g g' hg => hg.imp fun e e' he hcase t scale ht i hi => ?_
  rw [he t scale ht i hi]
  unfold rowValueSel
  rcases hcase with h0 | ⟨s, hs⟩
  · rw [denoteSel_complex (on := fun s => active selectors s i) h2.complex e h0]
  · rw [denoteSel_gated (on := fun s => active selectors s i) h2.complex s e hs, mul_eq_zero]
    exact ⟨fun h => h.resolve_left (h2.nonzero s), Or.inr⟩

/-- C89: the expressions of lookups and shuffles have the values they had. -/
theorem C89_lookups {cs : CS F} {selectors : List (List Bool)} {n D : ℕ} (hp : cs.Proper)
    (hlen : selectors.length = cs.numSelectors) (hn : ∀ a ∈ selectors, a.length = n)
    (hdeg : computeDegree cs.sys = some D) (hc : ∀ k : ℕ, 0 < k → k ≤ D → (k : F) ≠ 0)
    {cs' : CS F} {map : List ℕ} {cols : List (List F)} (h : compress cs selectors = some (cs', map, cols)) :
    List.Forall₂ (ArgReplaced (Replaced selectors cs.numFixed n cols fun _ => 1)) cs.sys.lookups cs'.sys.lookups ∧
      List.Forall₂ (ArgReplaced (Replaced selectors cs.numFixed n cols fun _ => 1)) cs.sys.shuffles cs'.sys.shuffles := by
  obtain ⟨cs'', map', cols', c, h1, h2, _⟩ := compress_values hp hlen hn hdeg hc
  rw [h] at h1
  simp only [Option.some.injEq, Prod.mk.injEq] at h1
  obtain ⟨rfl, rfl, rfl⟩ := h1
  have key : ∀ a ∈ cs.sys.lookups ++ cs.sys.shuffles, ∀ e ∈ a.inputs ++ a.targets, ∀ e',
      Replaced selectors cs.numFixed n cols c e e' → Replaced selectors cs.numFixed n cols (fun _ => 1) e e' :=
    fun a ha e he e' hr t scale ht i hi => by
      rw [hr t scale ht i hi]
      exact denoteSel_complex (on := fun s => active selectors s i) h2.complex e (hp.noneLookups a ha e he)
  exact ⟨forall₂_imp_mem h2.lookups fun a ha a' har => har.imp (key a (by simp [ha])),
    forall₂_imp_mem h2.shuffles fun a ha a' har => har.imp (key a (by simp [ha]))⟩

/-- C89: the degree of the constraint system does not change if the degrees of the simple selectors do not grow with their
indices. -/
theorem C89_degree {cs : CS F} {selectors : List (List Bool)} {n D : ℕ} (hp : cs.Proper)
    (hlen : selectors.length = cs.numSelectors) (hn : ∀ a ∈ selectors, a.length = n)
    (hdeg : computeDegree cs.sys = some D)
    (hmono : ∀ s t, s < t → gateDegree cs s ≠ 0 → gateDegree cs t ≤ gateDegree cs s) :
    ∃ cs' map cols, compress cs selectors = some (cs', map, cols) ∧ computeDegree cs'.sys = some D :=
  compress_degree hp hlen hn hdeg hmono

end

/-! ### Examples -/

/-- An advice query. -/
def exAdv (i : ℕ) : Expr F97 := .advice ⟨some i, 0, i⟩

/-- Three gates with simple selectors, one with the complex selector 2 besides; a lookup with the complex selector. -/
def exCS : CS F97 where
  sys := { gates := [[.prod (.selector 0) (.prod (exAdv 0) (.sum (exAdv 1) (.neg (exAdv 2))))],
                     [.prod (.selector 1) (.sum (exAdv 0) (.neg (.fixed ⟨some 0, 1, 0⟩))),
                      .prod (.prod (.selector 2) (exAdv 1)) (.scaled (.selector 3) 5)]]
           columns := []
           lookups := [⟨[.prod (.selector 2) (exAdv 0)], [.fixed ⟨some 0, 1, 0⟩]⟩]
           shuffles := []
           fixedQueries := [(0, 1)]
           adviceQueries := [(0, 0), (1, 0), (2, 0)]
           instQueries := []
           minimumDegree := some 5 }
  numFixed := 1
  numSelectors := 4
  simple := fun i => decide (i ≠ 2)

/-- The rows where the selectors are active. -/
def exActive : List (List Bool) :=
  [[true, false, false, false], [false, true, true, false], [true, true, false, true], [false, false, false, true]]

theorem exCS_proper : exCS.Proper where
  queries := by decide
  fixed := by simp [exCS, FixedBelow, exAdv]
  fixedLookups := by simp [exCS, FixedBelow, exAdv]
  selectors := by simp [exCS, selectorsOf, exAdv]
  selectorsLookups := by simp [exCS, selectorsOf, exAdv]
  one := by simp [exCS, simpleOf, selectorsOf, exAdv]
  noneLookups := by simp [exCS, simpleOf, selectorsOf, exAdv]

theorem exCast97 : ∀ k : ℕ, 0 < k → k ≤ 5 → ((k : ℕ) : F97) ≠ 0 := by
  intro k h1 h2
  interval_cases k <;> decide +kernel

/-- The complex selector gets a column, and the three others share one. -/
example : ((compress exCS exActive).map fun r => (r.1.numFixed, r.2.1, r.2.2)) =
    some (3, [2, 2, 1, 2], [[1, 1, 0, 1], [1, 2, 2, 3]]) := by decide +kernel

example : ∃ cs' map cols c, compress exCS exActive = some (cs', map, cols) ∧ Compressed exCS exActive 4 cs' cols c :=
  C89_compress exCS_proper rfl (by decide) (D := 5) (by decide +kernel) exCast97

/-- The last gate is a product with the simple selector 3; the complex selector 2 is another factor. -/
example : Gated (F := F97) exCS.simple 3 (.prod (.prod (.selector 2) (exAdv 1)) (.scaled (.selector 3) 5)) :=
  Or.inr ⟨by simp [simpleOf, selectorsOf, exAdv, exCS], rfl⟩

/-- Two simple selectors, first one of degree two and then one of degree four. -/
def exGrow : CS F97 where
  sys := { gates := [[.prod (.selector 0) (exAdv 0)],
                     [.prod (.selector 1) (.prod (exAdv 0) (.prod (exAdv 1) (exAdv 2)))]]
           columns := []
           lookups := []
           shuffles := []
           fixedQueries := []
           adviceQueries := [(0, 0), (1, 0), (2, 0)]
           instQueries := []
           minimumDegree := none }
  numFixed := 0
  numSelectors := 2
  simple := fun _ => true

theorem exGrow_proper : exGrow.Proper where
  queries := by decide
  fixed := by simp [exGrow, FixedBelow, exAdv]
  fixedLookups := by simp [exGrow]
  selectors := by simp [exGrow, selectorsOf, exAdv]
  selectorsLookups := by simp [exGrow]
  one := by simp [exGrow, simpleOf, selectorsOf, exAdv]
  noneLookups := by simp [exGrow]

/-- C89: without the condition of `C89_degree` the degree can grow, against the comment "We will not increase the degree of
the constraint system" (constraint_system.h:503): the compressor takes the degree of the first selector of the combination
in the place of that of the new one (selector_compressor.h:223). -/
theorem C89_degree_fails : ∃ (cs : CS F97) (selectors : List (List Bool)) (cs' : CS F97) (map : List ℕ)
    (cols : List (List F97)), cs.Proper ∧ selectors.length = cs.numSelectors ∧ (∀ a ∈ selectors, a.length = 4) ∧
      computeDegree cs.sys = some 4 ∧ compress cs selectors = some (cs', map, cols) ∧ computeDegree cs'.sys = some 5 := by
  obtain ⟨cs', map, cols, _, h, _⟩ := C89_compress exGrow_proper
    (selectors := [[true, false, false, false], [false, true, false, false]]) rfl (n := 4) (by decide) (D := 4)
    (by decide +kernel) fun k h1 h2 => exCast97 k h1 (by omega)
  refine ⟨exGrow, [[true, false, false, false], [false, true, false, false]], cs', map, cols, exGrow_proper, rfl,
    by decide, by decide +kernel, h, ?_⟩
  have : ((compress exGrow [[true, false, false, false], [false, true, false, false]]).bind fun r =>
      computeDegree r.1.sys) = some 5 := by decide +kernel
  rw [h, Option.bind_some] at this
  exact this

/-- The same selectors in the other order. -/
def exFall : CS F97 := { exGrow with sys := { exGrow.sys with gates :=
  [[.prod (.selector 0) (.prod (exAdv 0) (.prod (exAdv 1) (exAdv 2)))], [.prod (.selector 1) (exAdv 0)]] } }

theorem exFall_proper : exFall.Proper where
  queries := by decide
  fixed := by simp [exFall, FixedBelow, exAdv]
  fixedLookups := by simp [exFall, exGrow]
  selectors := by simp [exFall, exGrow, selectorsOf, exAdv]
  selectorsLookups := by simp [exFall, exGrow]
  one := by simp [exFall, exGrow, simpleOf, selectorsOf, exAdv]
  noneLookups := by simp [exFall, exGrow]

theorem exFall_falls : ∀ s t, s < t → gateDegree exFall s ≠ 0 → gateDegree exFall t ≤ gateDegree exFall s := by
  have h : ∀ s, gateDegree exFall s = if s = 0 then 4 else if s = 1 then 2 else 0 := by
    intro s
    rcases s with _ | _ | s
    · decide +kernel
    · decide +kernel
    · simp [gateDegree, exFall, exGrow, simpleOf, selectorsOf, exAdv]
  intro s t hst
  rw [h s, h t]
  split_ifs <;> omega

/-- The selectors are not combined, and the degree stays. -/
example : ∃ cs' map cols, compress exFall [[true, false, false, false], [false, true, false, false]] =
    some (cs', map, cols) ∧ computeDegree cs'.sys = some 4 :=
  C89_degree exFall_proper rfl (n := 4) (by decide) (by decide +kernel) exFall_falls

example : ((compress exFall [[true, false, false, false], [false, true, false, false]]).map fun r => r.2.2) =
    some [[1, 0, 0, 0], [0, 1, 0, 0]] := by decide +kernel

/-- The condition on gates is needed: `1 - s` is zero where `s` is active, but if `s` is simple and shares its column then
after the compression it is worth minus two there, and the gate is worth three. -/
example : ((compress { exGrow with sys := { exGrow.sys with gates :=
    [[.prod (.selector 0) (exAdv 0)], [.sum (.constant 1) (.neg (.selector 1))]] } }
    [[true, false, false, false], [false, true, false, false]]).bind fun r => (r.1.sys.gates[1]?).bind fun g =>
      (g[0]?).map fun e => rowValue ⟨r.2.2, [[0, 0, 0, 0]], [], []⟩ 1 1 4 e) = some 3 := by decide +kernel

end Tachyon.Props
