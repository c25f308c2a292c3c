import Verif.Proofs.Selector
import Mathlib.Algebra.BigOperators.Ring.Finset
import Mathlib.Tactic.Ring
/-! Lemmas for C89: the columns and the expressions of the combinations. -/
universe u
namespace Tachyon.Selector
open Plonk CircuitPoly

section
variable {F : Type u} [Field F] [DecidableEq F]

/-- The column of a combination, from the column `col`. -/
def colOf : List Desc → F → List F → List F
  | [], _, col => col
  | s :: ss, root, col => colOf ss (root + 1) (List.zipWith (fun c a => if a then root else c) col s.activations)

omit [DecidableEq F] in
theorem colOf_length {n : ℕ} : ∀ (ss : List Desc) (root : F) (col : List F), col.length = n →
    (∀ d ∈ ss, d.activations.length = n) → (colOf ss root col).length = n
  | [], _, _, h, _ => h
  | s :: ss, root, col, h, hs => by
    rw [colOf]
    exact colOf_length ss _ _ (by simp [h, hs s (by simp)]) fun d hd => hs d (by simp [hd])

omit [DecidableEq F] in
theorem zipWith_getD {n i : ℕ} {col : List F} {a : List Bool} {root : F} (h : col.length = n) (ha : a.length = n)
    (hi : i < n) : (List.zipWith (fun c a => if a then root else c) col a).getD i 0 =
      if a.getD i false then root else col.getD i 0 := by
  simp [List.getD_eq_getElem?_getD, h, ha, hi]

omit [DecidableEq F] in
theorem colOf_none {n i : ℕ} (hi : i < n) : ∀ (ss : List Desc) (root : F) (col : List F), col.length = n →
    (∀ d ∈ ss, d.activations.length = n) → (∀ d ∈ ss, d.activations.getD i false = false) →
    (colOf ss root col).getD i 0 = col.getD i 0
  | [], _, _, _, _, _ => rfl
  | s :: ss, root, col, h, hs, hn => by
    rw [colOf, colOf_none hi ss _ _ (by simp [h, hs s (by simp)]) (fun d hd => hs d (by simp [hd]))
      (fun d hd => hn d (by simp [hd])), zipWith_getD h (hs s (by simp)) hi, hn s (by simp)]
    simp

omit [DecidableEq F] in
theorem colOf_active {n i : ℕ} (hi : i < n) : ∀ (ss : List Desc) (root : F) (col : List F) (r : ℕ) (d : Desc),
    col.length = n → (∀ d ∈ ss, d.activations.length = n) →
    ss.Pairwise (fun a b => orthogonal a.activations b.activations = true) → ss[r]? = some d →
    d.activations.getD i false = true → (colOf ss root col).getD i 0 = root + r
  | [], _, _, r, d, _, _, _, hr, _ => by simp at hr
  | s :: ss, root, col, 0, d, h, hs, ho, hr, ha => by
    rw [List.pairwise_cons] at ho
    simp only [List.getElem?_cons_zero, Option.some.injEq] at hr
    subst hr
    rw [colOf, colOf_none hi ss _ _ (by simp [h, hs s (by simp)]) (fun d hd => hs d (by simp [hd])) fun d hd => ?_,
      zipWith_getD h (hs s (by simp)) hi, ha]
    · simp
    · have := orthogonal_iff.1 (ho.1 d hd) i
      rw [ha] at this
      simpa only [true_and, Bool.not_eq_true] using this
  | s :: ss, root, col, r + 1, d, h, hs, ho, hr, ha => by
    rw [List.pairwise_cons] at ho
    rw [colOf, colOf_active hi ss _ _ r d (by simp [h, hs s (by simp)]) (fun d hd => hs d (by simp [hd])) ho.2
      (by simpa using hr) ha]
    push_cast; ring

theorem assignLoop_eq (q : Expr F) (k len : ℕ) : ∀ (ss : List Desc) (root : F) (col : List F) (as : List (Assignment F)),
    assignLoop q k len ss root col as = (colOf ss root col, as ++ ss.mapIdx fun r d =>
      ⟨d.index, k, rootExpr q (root + (r : F)) len 1 q⟩)
  | [], _, _, _ => by simp [assignLoop, colOf]
  | s :: ss, root, col, as => by
    rw [assignLoop, assignLoop_eq q k len ss, colOf, List.mapIdx_cons]
    simp only [List.append_assoc, List.singleton_append, Nat.cast_zero, add_zero, Prod.mk.injEq, true_and,
      List.append_cancel_left_eq, List.cons.injEq]
    congr 1
    funext r d
    congr 2
    push_cast; ring

/-- The query of the `k`-th new column. -/
def queryExpr (nf : ℕ) (qs : List (ℕ × ℤ)) (k : ℕ) : Expr F := .fixed ⟨some (qs.length + k), 0, nf + k⟩

/-- The assignments of a combination. -/
def groupAssign (nf : ℕ) (qs : List (ℕ × ℤ)) (k : ℕ) (g : List Desc) : List (Assignment F) :=
  g.mapIdx fun r d => ⟨d.index, k, rootExpr (queryExpr nf qs k) (1 + (r : F)) g.length 1 (queryExpr nf qs k)⟩

omit [Field F] [DecidableEq F] in
theorem run_eq {nf : ℕ} {qs : List (ℕ × ℤ)} (hq : ∀ q ∈ qs, q.1 < nf) (k : ℕ) :
    (Alloc.run ⟨nf + k, qs ++ (List.range k).map fun j => (nf + j, 0)⟩ : Expr F × Alloc) =
      (queryExpr nf qs k, ⟨nf + (k + 1), qs ++ (List.range (k + 1)).map fun j => (nf + j, 0)⟩) := by
  have hn : queryIndex (qs ++ (List.range k).map fun j => (nf + j, (0 : ℤ))) (nf + k) 0 = none := by
    unfold queryIndex
    rw [List.findIdx?_eq_none_iff]
    intro q hm
    rcases List.mem_append.1 hm with hm | hm
    · have := hq q hm
      simp only [decide_eq_false_iff_not]
      rintro rfl
      simp at this
    · obtain ⟨j, hj, rfl⟩ := List.mem_map.1 hm
      have := List.mem_range.1 hj
      simp only [Prod.mk.injEq, and_true, decide_eq_false_iff_not]
      omega
  unfold Alloc.run
  simp only [hn]
  simp [queryExpr, List.range_succ, Nat.add_assoc]

theorem foldl_construct {nf n : ℕ} {qs : List (ℕ × ℤ)} (hq : ∀ q ∈ qs, q.1 < nf) (gs : List (List Desc)) :
    gs.foldl (construct n) (⟨⟨nf, qs⟩, [], []⟩ : State F) =
      ⟨⟨nf + gs.length, qs ++ (List.range gs.length).map fun j => (nf + j, 0)⟩,
        gs.map (fun g => colOf g 1 (List.replicate n 0)), (gs.mapIdx fun k g => groupAssign nf qs k g).flatten⟩ := by
  induction gs using List.reverseRecOn with
  | nil => simp
  | append_singleton gs g ih =>
    rw [List.foldl_append, ih, List.foldl_cons, List.foldl_nil]
    unfold construct
    simp only [run_eq hq, assignLoop_eq]
    simp [List.mapIdx_append, groupAssign]

theorem addZero_eq {n : ℕ} (st : State F) (d : Desc) (h : d.activations.length = n) : addZero st d = construct n st [d] := by
  unfold addZero construct
  simp only [assignLoop, rootExpr, List.length_singleton, ne_eq, not_true_eq_false, if_false, State.mk.injEq, true_and,
    List.append_cancel_left_eq, List.cons.injEq, and_true]
  apply List.ext_getElem?
  intro i
  by_cases hi : i < n
  · simp [h, hi]
  · simp [h, hi]

theorem handleZero_eq {n : ℕ} : ∀ (ds : List Desc) (st : State F), (∀ d ∈ ds, d.activations.length = n) →
    handleZero st ds = ((ds.filter fun d => decide (d.maxDegree = 0)).map fun d => [d]).foldl (construct n) st
  | [], _, _ => rfl
  | d :: ds, st, h => by
    have ih := fun st => handleZero_eq ds st fun x hx => h x (by simp [hx])
    unfold handleZero at ih ⊢
    rw [List.foldl_cons, ih]
    by_cases h0 : d.maxDegree = 0
    · simp [h0, addZero_eq st d (h d (by simp))]
    · simp [h0]

/-- What holds of the selectors of a combination. -/
structure Combination (selectors : List (List Bool)) (degrees : List ℕ) (D : ℕ) (g : List ℕ) : Prop where
  ne : g ≠ []
  lt : g.Pairwise (· < ·)
  orth : g.Pairwise fun s t => ∀ i, ¬(active selectors s i = true ∧ active selectors t i = true)
  degree : g.length = 1 ∨ ((∀ s ∈ g, degrees.getD s 0 ≠ 0) ∧ ∀ h ∈ g.head?, degrees.getD h 0 - 1 + g.length ≤ D)

/-- The description of a selector. -/
def desc (selectors : List (List Bool)) (degrees : List ℕ) (s : ℕ) : Desc := ⟨s, selectors.getD s [], degrees.getD s 0⟩

theorem process_spec {selectors : List (List Bool)} {degrees : List ℕ} {D n : ℕ} (hn : ∀ a ∈ selectors, a.length = n)
    (hl : degrees.length = selectors.length) (hD : ∀ s, degrees.getD s 0 ≤ D) (st : State F) :
    ∃ gs : List (List ℕ), process selectors degrees D st =
        some ((gs.map (List.map (desc selectors degrees))).foldl (construct n) st) ∧
      gs.flatten.Nodup ∧ (∀ s, s ∈ gs.flatten ↔ s < selectors.length) ∧
      ∀ g ∈ gs, Combination selectors degrees D g := by
  match hs : selectors with
  | [] => exact ⟨[], by simp [process], by simp, by simp, by simp⟩
  | a :: as =>
    rw [← hs] at hn hl ⊢
    have han : a.length = n := hn a (by simp [hs])
    have hany : (selectors.any fun b => decide (b.length ≠ a.length)) = false := by
      rw [List.any_eq_false]
      intro b hb
      simp [hn b hb, han]
    have hproc : process selectors degrees D st =
        (let ds := selectors.mapIdx fun i a => (⟨i, a, degrees.getD i 0⟩ : Desc)
        let rest := ds.filter fun d => decide (d.maxDegree ≠ 0)
        combineLoop rest (exclusion rest) D n (List.range rest.length) (List.replicate rest.length false)
          (handleZero st ds)) := by
      rw [hs] at hany ⊢
      unfold process
      simp only []
      rw [if_neg (by rw [hany]; simp), if_neg (by rw [← hs, hl]; simp), han]
    rw [hproc]
    have hds : (selectors.mapIdx fun i a => (⟨i, a, degrees.getD i 0⟩ : Desc)) =
        (List.range selectors.length).map (desc selectors degrees) := by
      apply List.ext_getElem?
      intro i
      by_cases hi : i < selectors.length
      · simp [hi, desc]
      · simp [hi]
    simp only [hds]
    generalize hrest : (((List.range selectors.length).map (desc selectors degrees)).filter
      fun d => decide (d.maxDegree ≠ 0)) = rest
    have hrest' : rest = ((List.range selectors.length).filter fun s => decide (degrees.getD s 0 ≠ 0)).map
        (desc selectors degrees) := by
      rw [← hrest, List.filter_map]; rfl
    generalize hnz : ((List.range selectors.length).filter fun s => decide (degrees.getD s 0 ≠ 0)) = nz at hrest'
    have hlen : rest.length = nz.length := by rw [hrest', List.length_map]
    have hmem : ∀ s, s ∈ nz ↔ s < selectors.length ∧ degrees.getD s 0 ≠ 0 := fun s => by
      rw [← hnz, List.mem_filter, List.mem_range]; simp
    have hlt : nz.Pairwise (· < ·) := by
      rw [← hnz]; exact List.Pairwise.sublist List.filter_sublist List.pairwise_lt_range
    have hget : ∀ j < nz.length, dget rest j = desc selectors degrees (nz.getD j 0) := fun j hj => by
      unfold dget; simp [hrest', hj]
    obtain ⟨gs, h1, h2, h3, h4⟩ := combineLoop_spec rest D n (fun d hd => by
        rw [hrest'] at hd
        obtain ⟨s, hs', rfl⟩ := List.mem_map.1 hd
        exact ⟨Nat.pos_of_ne_zero ((hmem s).1 hs').2, hD s⟩) rest.length 0 (List.replicate rest.length false)
        (handleZero st ((List.range selectors.length).map (desc selectors degrees))) (by simp) (by simp) (by simp)
    rw [List.range_eq_range', h1, handleZero_eq (n := n) _ _ (by
      intro d hd
      obtain ⟨s, hs', rfl⟩ := List.mem_map.1 hd
      have hs' := List.mem_range.1 hs'
      simp only [desc, List.getD_eq_getElem?_getD, List.getElem?_eq_getElem hs', Option.getD_some]
      exact hn _ (List.getElem_mem _)), ← List.foldl_append]
    have h3' : ∀ j, j ∈ gs.flatten ↔ j < nz.length := fun j => by
      rw [h3, ← hlen]; simp [List.getElem?_replicate]
    have hgsb : ∀ g ∈ gs, ∀ j ∈ g, j < nz.length := fun g hg j hj => (h3' j).1 (List.mem_flatten.2 ⟨g, hg, hj⟩)
    have hinj : ∀ i < nz.length, ∀ j < nz.length, i < j → nz.getD i 0 < nz.getD j 0 := fun i hi j hj hij => by
      have := List.pairwise_iff_getElem.1 hlt i j hi hj hij
      simpa [hi, hj] using this
    have hflat : (gs.map (List.map fun j => nz.getD j 0)).flatten = gs.flatten.map fun j => nz.getD j 0 := by
      rw [List.map_flatten]
    refine ⟨((List.range selectors.length).filter fun s => decide (degrees.getD s 0 = 0)).map (fun s => [s]) ++
      gs.map (List.map fun j => nz.getD j 0), ?_, ?_, ?_, ?_⟩
    · congr 2
      rw [List.map_append]
      congr 1
      · rw [List.filter_map, List.map_map, List.map_map]
        rfl
      · rw [List.map_map]
        apply List.map_congr_left
        intro g hg
        simp only [Function.comp_apply, List.map_map]
        exact List.map_congr_left fun j hj => hget j (hgsb g hg j hj)
    · rw [List.flatten_append, hflat, List.nodup_append]
      have hz : ((((List.range selectors.length).filter fun s => decide (degrees.getD s 0 = 0)).map
          fun s => [s]).flatten) = (List.range selectors.length).filter fun s => decide (degrees.getD s 0 = 0) := by
        rw [← List.flatMap_def]; simp
      rw [hz]
      refine ⟨List.nodup_range.filter _, ?_, ?_⟩
      · refine List.Nodup.map_on (fun i hi j hj hij => ?_) h2
        have hi := (h3' i).1 hi
        have hj := (h3' j).1 hj
        rcases lt_trichotomy i j with h | h | h
        · exact absurd hij (hinj i hi j hj h).ne
        · exact h
        · exact absurd hij (hinj j hj i hi h).ne'
      · rintro x hx y hy rfl
        obtain ⟨j, hj, rfl⟩ := List.mem_map.1 hy
        have hj := (h3' j).1 hj
        have : nz.getD j 0 ∈ nz := by
          simp only [List.getD_eq_getElem?_getD, List.getElem?_eq_getElem hj, Option.getD_some]
          exact List.getElem_mem _
        have := ((hmem _).1 this).2
        exact this (by simpa using (List.mem_filter.1 hx).2)
    · intro s
      rw [List.flatten_append, hflat, List.mem_append]
      have hz : s ∈ ((((List.range selectors.length).filter fun s => decide (degrees.getD s 0 = 0)).map
          fun s => [s]).flatten) ↔ s < selectors.length ∧ degrees.getD s 0 = 0 := by
        rw [← List.flatMap_def]; simp
      have hnzs : (s ∈ gs.flatten.map fun j => nz.getD j 0) ↔ s ∈ nz := by
        rw [List.mem_map]
        constructor
        · rintro ⟨j, hj, rfl⟩
          have hj := (h3' j).1 hj
          simp only [List.getD_eq_getElem?_getD, List.getElem?_eq_getElem hj, Option.getD_some]
          exact List.getElem_mem _
        · intro h
          obtain ⟨j, hj, rfl⟩ := List.getElem_of_mem h
          exact ⟨j, (h3' j).2 hj, by simp [hj]⟩
      rw [hz, hnzs, hmem]
      tauto
    · intro g hg
      rcases List.mem_append.1 hg with hg | hg
      · obtain ⟨s, _, rfl⟩ := List.mem_map.1 hg
        exact ⟨by simp, by simp, by simp, Or.inl rfl⟩
      · obtain ⟨g, hg', rfl⟩ := List.mem_map.1 hg
        have hG := h4 g hg'
        have hb := hgsb g hg'
        refine ⟨by simpa using hG.ne, ?_, ?_, Or.inr ⟨?_, ?_⟩⟩
        · rw [List.pairwise_map]
          exact hG.lt.imp_of_mem fun {i j} hi hj hij => hinj i (hb i hi) j (hb j hj) hij
        · rw [List.pairwise_map]
          refine hG.orth.imp_of_mem fun {i j} hi hj hij k => ?_
          unfold Orth at hij
          rw [hget i (hb i hi), hget j (hb j hj)] at hij
          exact orthogonal_iff.1 hij k
        · intro s hs'
          obtain ⟨j, hj, rfl⟩ := List.mem_map.1 hs'
          have hj := hb j hj
          refine ((hmem _).1 ?_).2
          simp only [List.getD_eq_getElem?_getD, List.getElem?_eq_getElem hj, Option.getD_some]
          exact List.getElem_mem _
        · intro h hh
          rw [List.head?_map] at hh
          obtain ⟨j, hj, rfl⟩ := Option.mem_map.1 hh
          have := hG.degree j hj
          rw [hget j (hb j (List.mem_of_mem_head? hj))] at this
          simpa [desc] using this

end
end Tachyon.Selector
