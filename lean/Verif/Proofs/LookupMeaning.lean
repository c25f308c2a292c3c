import Verif.Proofs.LookupChunk
/-! The lookups that are meant and the arguments that are made (C90). -/
universe u
namespace Tachyon.LookupChunk
open Plonk CircuitPoly

section
variable {F : Type u}

theorem cost_eq (a : MultiArgument F) : cost a = argDegree a := by
  unfold cost argDegree
  congr 2
  · congr 1
    exact List.map_congr_left fun i _ => maxExprDegree_eq i
  · exact maxExprDegree_eq _

/-- The tables with each of their inputs. -/
def mapPairs (m : LookupMap F) : List (List (Expr F) × List (Expr F)) :=
  m.flatMap fun p => p.2.inputs.map fun i => (p.2.table, i)

/-- The tables of the arguments with each of the inputs. -/
def argPairs (as : List (MultiArgument F)) : List (List (Expr F) × List (Expr F)) :=
  as.flatMap fun a => a.inputs.map fun i => (a.table, i)

theorem argPairs_ofTable {table : List (Expr F)} {as : List (MultiArgument F)} (h : OfTable table as) :
    argPairs as = (allInputs as).map fun i => (table, i) := by
  induction as with
  | nil => rfl
  | cons a as ih =>
    have h1 := ih fun x hx => h x (by simp [hx])
    simp only [argPairs, allInputs, List.flatMap_cons, List.map_append] at h1 ⊢
    rw [h1, (h a (by simp)).1]

theorem argPairs_single (m : LookupMap F) : argPairs (m.map fun p => ⟨p.2.inputs, p.2.table⟩) = mapPairs m := by
  simp [argPairs, mapPairs, List.flatMap_map]

theorem allInputs_of_argPairs (as : List (MultiArgument F)) : (argPairs as).map Prod.snd = allInputs as := by
  simp [argPairs, allInputs, List.map_flatMap, Function.comp_def]

/-- The entry of a map fits: nothing is empty, and the columns of the inputs and of the table are as many. -/
def Tracker.Fits (t : Tracker F) : Prop := t.table ≠ [] ∧ t.inputs ≠ [] ∧ ∀ i ∈ t.inputs, i.length = t.table.length

theorem columnDegrees {t : Tracker F} (h : t.Fits) : t.inputs.mapM columnDegree = some (t.inputs.map maxDegree) := by
  have key : ∀ l : List (List (Expr F)), (∀ i ∈ l, i ≠ []) → l.mapM columnDegree = some (l.map maxDegree) := by
    intro l
    induction l with
    | nil => intro _; rfl
    | cons a l ih =>
      intro h
      rw [List.mapM_cons, columnDegree_eq (h a (by simp)), ih fun b hb => h b (by simp [hb])]
      rfl
  refine key _ fun i hi h0 => h.1 ?_
  have := h.2.2 i hi
  rw [h0] at this
  exact List.length_eq_zero_iff.1 this.symm

theorem singleDegree_eq {t : Tracker F} (h : t.Fits) :
    singleDegree t = some (max 3 (maxDegree t.table + 2) + (t.inputs.map maxDegree).foldl max 0) := by
  unfold singleDegree
  rw [columnDegree_eq h.1, columnDegrees h]
  rfl

/-- The degree that gates and single lookups need is at most `b`. -/
def Need (gates : List (List (Expr F))) (m : LookupMap F) (b : ℕ) : Prop :=
  (∀ g ∈ gates, ∀ e ∈ g, degree e ≤ b) ∧
    ∀ p ∈ m, ∀ i ∈ p.2.inputs, max 3 (maxDegree p.2.table + 2) + maxDegree i ≤ b

theorem singleDegrees {m : LookupMap F} (hm : ∀ p ∈ m, p.2.Fits) :
    (m.mapM fun t => singleDegree t.2) =
      some (m.map fun p => max 3 (maxDegree p.2.table + 2) + (p.2.inputs.map maxDegree).foldl max 0) := by
  induction m with
  | nil => rfl
  | cons p m ih =>
    rw [List.mapM_cons, singleDegree_eq (hm p (by simp)), ih fun q hq => hm q (by simp [hq])]
    rfl

theorem need_iff {gates : List (List (Expr F))} {m : LookupMap F} (hm : ∀ p ∈ m, p.2.Fits) (b : ℕ) :
    max (maxOr 0 (gates.flatten.map degree))
      ((m.map fun p => max 3 (maxDegree p.2.table + 2) + (p.2.inputs.map maxDegree).foldl max 0).foldl max 0) ≤ b ↔
    Need gates m b := by
  rw [max_le_iff, maxOr_zero_eq, foldr_max_le', foldl_max_le]
  unfold Need
  refine and_congr ?_ ?_
  · constructor
    · intro h g hg e he
      exact h _ (List.mem_map_of_mem (List.mem_flatten.2 ⟨g, hg, he⟩))
    · intro h x hx
      obtain ⟨e, he, rfl⟩ := List.mem_map.1 hx
      obtain ⟨g, hg, he⟩ := List.mem_flatten.1 he
      exact h g hg e he
  · simp only [List.mem_map, forall_exists_index, and_imp, forall_apply_eq_imp_iff₂, Nat.zero_le, true_and]
    refine forall_congr' fun p => forall_congr' fun hp => ?_
    have h0 := (hm p hp).2.1
    constructor
    · intro h i hi
      have : maxDegree i ≤ (p.2.inputs.map maxDegree).foldl max 0 :=
        ((foldl_max_le _ 0 _).1 le_rfl).2 _ (List.mem_map_of_mem hi)
      omega
    · intro h
      obtain ⟨i, hi⟩ := List.exists_mem_of_ne_nil _ h0
      have h1 := h i hi
      have : (p.2.inputs.map maxDegree).foldl max 0 ≤ b - max 3 (maxDegree p.2.table + 2) := by
        rw [foldl_max_le]
        refine ⟨Nat.zero_le _, fun x hx => ?_⟩
        obtain ⟨j, hj, rfl⟩ := List.mem_map.1 hx
        have := h j hj
        omega
      omega

/-- The chunks, if only the first table of the map has several inputs. -/
theorem chunkLookups_spec {gates : List (List (Expr F))} {minimum : Option ℕ} {k : List Char} {t : Tracker F}
    {m : LookupMap F} (hm : ∀ p ∈ (k, t) :: m, p.2.Fits) (hone : ∀ p ∈ m, ∃ i, p.2.inputs = [i]) :
    ∃ as r, chunkLookups gates minimum ((k, t) :: m) = some (as, some (max (minimum.getD 0) (2 ^ r + 1))) ∧
      (∀ j, Need gates ((k, t) :: m) (2 ^ j) ↔ r ≤ j) ∧
      (argPairs as).Perm (mapPairs ((k, t) :: m)) ∧
      (∀ a ∈ as, ∀ i ∈ a.inputs, i.length = a.table.length) ∧
      (∃ l, as = l ++ (m.map fun p => ⟨p.2.inputs, p.2.table⟩) ∧ OfTable t.table l ∧
        FirstFit (max (minimum.getD 0) (2 ^ r + 1)) l) ∧
      ((∀ p ∈ (k, t) :: m, ∀ i ∈ p.2.inputs, 1 ≤ maxDegree i) →
        ∀ a ∈ as, argDegree a ≤ max (minimum.getD 0) (2 ^ r + 1)) := by
  set R := max (maxOr 0 (gates.flatten.map degree)) (((((k, t) :: m : LookupMap F)).map fun p =>
    max 3 (maxDegree p.2.table + 2) + (p.2.inputs.map maxDegree).foldl max 0).foldl max 0) with hR
  obtain ⟨r, hr⟩ := bitCeil_pow R
  have hneed : ∀ j, Need gates ((k, t) :: m) (2 ^ j) ↔ r ≤ j := by
    intro j
    rw [← need_iff hm, ← hR, ← bitCeil_le_iff, hr]
    exact Nat.pow_le_pow_iff_right (by decide)
  set M := max (minimum.getD 0) (2 ^ r + 1) with hM
  have hset : setMinimumDegree minimum (bitCeil R + 1) = M := by
    rw [hr, hM]
    cases minimum with
    | none => simp [setMinimumDegree]
    | some d => rfl
  have hcost : ∀ p ∈ (k, t) :: m, ∀ i ∈ p.2.inputs, cost (⟨[i], p.2.table⟩ : MultiArgument F) ≤ M := by
    intro p hp i hi
    have h1 := ((hneed r).2 le_rfl).2 p hp i hi
    rw [cost_eq]
    simp only [argDegree, List.map_cons, List.map_nil, List.sum_cons, List.sum_nil]
    omega
  have hfits := hm (k, t) (by simp)
  simp only at hfits
  obtain ⟨i, is, hi⟩ : ∃ i is, t.inputs = i :: is := by
    cases h : t.inputs with
    | nil => exact absurd h hfits.2.1
    | cons i is => exact ⟨i, is, rfl⟩
  have hilen : i.length = t.table.length := hfits.2.2 i (by simp [hi])
  have ho : OfTable t.table [(⟨[i], t.table⟩ : MultiArgument F)] := by
    intro a ha
    simp only [List.mem_singleton] at ha
    subst ha
    refine ⟨rfl, fun j hj => ?_⟩
    simp only [List.mem_singleton] at hj
    exact hj ▸ hilen
  obtain ⟨l, h1, h2, h3, h4⟩ := chunkInputs_spec (M := M) hfits.1 is _ ho fun j hj => hfits.2.2 j (by simp [hi, hj])
  have hct : chunkTables M ((k, t) :: m) [] = some (l ++ m.map fun p => ⟨p.2.inputs, p.2.table⟩) := by
    simp only [chunkTables, hi, List.nil_append, h1, Option.bind_some]
    exact chunkTables_single m l hone
  refine ⟨l ++ m.map fun p => ⟨p.2.inputs, p.2.table⟩, r, ?_, hneed, ?_, ?_, ⟨l, rfl, h2, h3 (by simp [FirstFit])⟩, ?_⟩
  · unfold chunkLookups
    rw [if_neg (by simp), singleDegrees hm]
    simp only [Option.bind_some]
    rw [← hR, hset, hct]
    rfl
  · have hp := chunkInputs_perm h1
    have e : argPairs (l ++ m.map fun p => (⟨p.2.inputs, p.2.table⟩ : MultiArgument F)) = argPairs l ++ mapPairs m := by
      rw [← argPairs_single m]
      simp only [argPairs, List.flatMap_append]
    have e' : mapPairs ((k, t) :: m) = (t.inputs.map fun j => (t.table, j)) ++ mapPairs m := by
      simp only [mapPairs, List.flatMap_cons]
    rw [e, e', argPairs_ofTable h2]
    refine List.Perm.append_right _ (List.Perm.map _ ?_)
    rw [hi]
    simpa [allInputs] using hp
  · intro a ha j hj
    rcases List.mem_append.1 ha with ha | ha
    · rw [(h2 a ha).1]
      exact (h2 a ha).2 j hj
    · obtain ⟨p, hp, rfl⟩ := List.mem_map.1 ha
      exact (hm p (by simp [hp])).2.2 j hj
  · intro hd a ha
    rw [← cost_eq]
    rcases List.mem_append.1 ha with ha | ha
    · refine h4 ?_ ?_ a ha
      · intro b hb
        simp only [List.mem_singleton] at hb
        subst hb
        exact hcost (k, t) (by simp) i (by simp [hi])
      · intro j hj
        exact ⟨hd (k, t) (by simp) j (by simp [hi, hj]), hcost (k, t) (by simp) j (by simp [hi, hj])⟩
    · obtain ⟨p, hp, rfl⟩ := List.mem_map.1 ha
      obtain ⟨j, hj⟩ := hone p hp
      have := hcost p (by simp [hp]) j (by simp [hj])
      rw [hj]
      exact this

/-! The calls and the map. -/

theorem mem_entries {m : LookupMap F} {x : List Char × List (Expr F)} :
    x ∈ entries m ↔ ∃ p ∈ m, p.1 = x.1 ∧ x.2 ∈ p.2.inputs := by
  obtain ⟨k, i⟩ := x
  simp only [entries, List.mem_flatMap, List.mem_map, Prod.mk.injEq]
  constructor
  · rintro ⟨p, hp, j, hj, rfl, rfl⟩
    exact ⟨p, hp, rfl, hj⟩
  · rintro ⟨p, hp, rfl, hj⟩
    exact ⟨p, hp, i, hj, rfl, rfl⟩

theorem mapPairs_forget {canon : F → ℕ} (hcanon : Function.Injective canon) {m : LookupMap F}
    {calls : List (List (Expr F × Expr F))} (hc : ∀ c ∈ calls, Plain (c.map Prod.snd))
    (hm : ∀ p ∈ m, p.1 = tableIdentifier canon p.2.table ∧ Plain p.2.table)
    (h : (entries m).Perm (calls.map fun c => (tableIdentifier canon (c.map Prod.snd), c.map Prod.fst))) :
    ((mapPairs m).map fun x => (x.1.map forget, x.2)).Perm
      (calls.map fun c => ((c.map Prod.snd).map forget, c.map Prod.fst)) := by
  classical
  let g : List Char → List (Expr F) := fun k =>
    if h : ∃ t, Plain t ∧ tableIdentifier canon t = k then h.choose.map forget else []
  have hg : ∀ t, Plain t → g (tableIdentifier canon t) = t.map forget := by
    intro t ht
    have hex : ∃ t', Plain t' ∧ tableIdentifier canon t' = tableIdentifier canon t := ⟨t, ht, rfl⟩
    simp only [g, dif_pos hex]
    exact tableIdentifier_inj canon hcanon _ _ hex.choose_spec.1 ht hex.choose_spec.2
  have h1 := h.map fun x : List Char × List (Expr F) => (g x.1, x.2)
  have e1 : (entries m).map (fun x => (g x.1, x.2)) = (mapPairs m).map fun x => (x.1.map forget, x.2) := by
    clear h h1
    induction m with
    | nil => rfl
    | cons p m ih =>
      have h1 := ih fun q hq => hm q (by simp [hq])
      have h2 := hm p (by simp)
      simp only [entries, mapPairs, List.flatMap_cons, List.map_append, List.map_map] at h1 ⊢
      rw [h1]
      congr 1
      refine List.map_congr_left fun i _ => ?_
      simp only [Function.comp_apply, h2.1, hg _ h2.2]
  have e2 : (calls.map fun c => (tableIdentifier canon (c.map Prod.snd), c.map Prod.fst)).map
      (fun x : List Char × List (Expr F) => (g x.1, x.2)) =
      calls.map fun c => ((c.map Prod.snd).map forget, c.map Prod.fst) := by
    rw [List.map_map]
    refine List.map_congr_left fun c h' => ?_
    simp only [Function.comp_apply, hg _ (hc c h')]
  rw [e1, e2] at h1
  exact h1

theorem single_of_nodup {m : LookupMap F} (hne : ∀ p ∈ m, p.2.inputs ≠ []) (h : ((entries m).map Prod.fst).Nodup) :
    ∀ p ∈ m, ∃ i, p.2.inputs = [i] := by
  intro p hp
  cases hi : p.2.inputs with
  | nil => exact absurd hi (hne p hp)
  | cons i is =>
    cases is with
    | nil => exact ⟨i, rfl⟩
    | cons j is =>
      exfalso
      obtain ⟨l, r, rfl⟩ := List.append_of_mem hp
      simp only [entries, List.flatMap_append, List.flatMap_cons, hi, List.map_append, List.map_cons] at h
      have h1 := (List.nodup_append.1 h).2.1
      simp at h1

theorem fits_of_mem {canon : F → ℕ} {simple : ℕ → Bool} {calls : List (List (Expr F × Expr F))} {m : LookupMap F}
    (h : lookupAll canon simple calls [] = some m)
    (hw : ∀ c ∈ calls, c ≠ []) (hlen : ∀ c ∈ calls, ∀ c' ∈ calls,
      tableIdentifier canon (c.map Prod.snd) = tableIdentifier canon (c'.map Prod.snd) → c.length = c'.length) :
    ∀ p ∈ m, p.2.Fits := by
  obtain ⟨h1, h2, _⟩ := lookupAll_spec (P := fun t => ∃ c ∈ calls, t = c.map Prod.snd) h (by simp)
    (fun c hc => ⟨c, hc, rfl⟩) (by simp)
  intro p hp
  obtain ⟨hk, hi, c, hc, ht⟩ := h2 p hp
  refine ⟨by rw [ht]; simpa using hw c hc, hi, fun i hi' => ?_⟩
  have : (p.1, i) ∈ entries m := mem_entries.2 ⟨p, hp, rfl, hi'⟩
  have := h1.mem_iff.1 this
  simp only [entries, List.flatMap_nil, List.nil_append, List.mem_map, Prod.mk.injEq] at this
  obtain ⟨c', hc', e1, e2⟩ := this
  rw [← e2, ht]
  simp only [List.length_map]
  refine hlen c' hc' c hc ?_
  rw [e1, hk, ht]

end
end Tachyon.LookupChunk
