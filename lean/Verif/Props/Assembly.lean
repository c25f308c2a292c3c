import Verif.Proofs.LookupTable
import Verif.Proofs.Witness
import Verif.Spec.F97
/-! C92: fixed columns, selectors, copies, lookup tables and witnesses. -/
namespace Tachyon.Props
open Tachyon.Keygen Tachyon.Cycle

section
variable {K V : Type} [DecidableEq K]

/-- The key generation fails exactly if a call is out of bounds: a row that is not usable, an unknown column. -/
theorem C92_calls (numFixed numSelectors n blinding : ℕ) (columns : List K) (zero : V) (cs : List (Call K V)) :
    (Assembly.new numFixed numSelectors n blinding columns zero).run cs = none ↔
      ∃ c ∈ cs, ¬ c.Valid numFixed numSelectors (n - (blinding + 1)) columns := by
  obtain ⟨h1, h2⟩ := run_spec (by omega) cs _ (inv_new numFixed numSelectors n blinding columns zero)
  constructor
  · intro h
    by_contra hh
    push Not at hh
    obtain ⟨a, h3, _⟩ := h2 hh
    rw [h3] at h
    cases h
  · rintro ⟨c, hc, hv⟩
    exact h1 fun hh => hv (hh c hc)

/-- The fixed columns hold the last values they were given and zeros elsewhere; the rows that are not usable are zeros. A selector is
on exactly where it was enabled. The mapping of the cells respects exactly the values that respect all copies. -/
theorem C92_assembly (numFixed numSelectors n blinding : ℕ) (columns : List K) (zero : V) (cs : List (Call K V))
    (hv : ∀ c ∈ cs, c.Valid numFixed numSelectors (n - (blinding + 1)) columns) :
    ∃ a, (Assembly.new numFixed numSelectors n blinding columns zero).run cs = some a ∧
      a.fixed.length = numFixed ∧ a.selectors.length = numSelectors ∧
      (∀ i < numFixed, ∀ row < n, get a.fixed (i, row) = some (fixedAt (n - (blinding + 1)) zero cs i row)) ∧
      (∀ i < numFixed, ∀ row < n, n - (blinding + 1) ≤ row → get a.fixed (i, row) = some zero) ∧
      (∀ i < numSelectors, ∀ row < n, ∃ b, get a.selectors (i, row) = some b ∧ (b = true ↔ Call.selector i row ∈ cs)) ∧
      ∀ (W : Type) (w : K → ℕ → W),
        (∀ x y : Fin columns.length × Fin n, a.store.next (lab x) = some (lab y) →
          w columns[x.1] x.2 = w columns[y.1] y.2) ↔
        ∀ k row k' row', Call.copy k row k' row' ∈ cs → w k row = w k' row' := by
  obtain ⟨a, h1, h2, h3, h4, h5⟩ := (run_spec (by omega) cs _ (inv_new numFixed numSelectors n blinding columns zero)).2 hv
  have hfix : ∀ i < numFixed, ∀ row < n, get a.fixed (i, row) = some (fixedAt (n - (blinding + 1)) zero cs i row) := by
    intro i hi row hr
    rw [h3]
    have : Cycle.get (Assembly.new numFixed numSelectors n blinding columns zero).fixed (i, row) = some zero := by
      unfold Cycle.get Assembly.new
      simp [hi, hr]
    rw [this]
    unfold fixedAt
    cases (cs.filterMap (Call.valueAt (n - (blinding + 1)) i row)).getLast? <;> rfl
  refine ⟨a, h1, h2.fixed.1, h2.selectors.1, hfix, ?_, ?_, ?_⟩
  · intro i hi row hr hu
    rw [hfix i hi row hr]
    unfold fixedAt
    have : cs.filterMap (Call.valueAt (n - (blinding + 1)) i row) = [] := by
      rw [List.filterMap_eq_nil_iff]
      intro c hc
      have := hv c hc
      cases c with
      | selector => rfl
      | copy => rfl
      | fixed i' row' v =>
        simp only [Call.Valid] at this
        simp only [Call.valueAt]
        rw [if_neg (by omega)]
      | fill i' row' v =>
        simp only [Call.valueAt]
        rw [if_neg (by omega)]
    rw [this]
    rfl
  · intro i hi row hr
    have hf : Cycle.get (Assembly.new numFixed numSelectors n blinding columns zero).selectors (i, row) = some false := by
      unfold Cycle.get Assembly.new
      simp [hi, hr]
    by_cases hm : Call.selector i row ∈ cs
    · exact ⟨true, (h4 (i, row)).1 hm, by simp [hm]⟩
    · exact ⟨false, by rw [(h4 (i, row)).2 hm, hf], by simp [hm]⟩
  · intro W w
    obtain ⟨ps, hps⟩ := labels_fin (c := columns.length) (r := n) (cs.filterMap (copyLabel columns)) (by
      intro p hp
      obtain ⟨c, hc, hcp⟩ := List.mem_filterMap.1 hp
      have hvc := hv c hc
      cases c with
      | selector => cases hcp
      | fixed => cases hcp
      | fill => cases hcp
      | copy k row k' row' =>
        obtain rfl := Option.some.inj hcp
        obtain ⟨g1, g2, g3, g4⟩ := hvc
        refine ⟨⟨List.findIdx_lt_length_of_exists ⟨k, g1, by simp⟩, ?_⟩, List.findIdx_lt_length_of_exists ⟨k', g2, by simp⟩, ?_⟩ <;>
          simp only <;> omega)
    obtain ⟨s, e1, e2⟩ := C47_values columns.length n ps (fun x => w columns[x.1] x.2)
    rw [hps] at h5
    have h6 : Cycle.run (Store.new columns.length n) (ps.map fun p => (lab p.1, lab p.2)) = some a.store := h5
    rw [h6] at e1
    obtain rfl := Option.some.inj e1
    rw [e2]
    have hfind : ∀ k ∈ columns, ∀ (i : ℕ) (hi : i < columns.length), i = (columns.findIdx fun c => c = k) → columns[i] = k := by
      rintro k hk i hi rfl
      simpa using List.findIdx_getElem (w := hi)
    constructor
    · intro h k row k' row' hc
      have hvc := hv _ hc
      obtain ⟨g1, g2, g3, g4⟩ := hvc
      have hmem : ((columns.findIdx fun c => decide (c = k), row), (columns.findIdx fun c => decide (c = k'), row')) ∈
          cs.filterMap (copyLabel columns) := List.mem_filterMap.2 ⟨_, hc, rfl⟩
      rw [hps] at hmem
      obtain ⟨p, hp, hpe⟩ := List.mem_map.1 hmem
      obtain ⟨⟨⟨i, hi⟩, ⟨x, hx⟩⟩, ⟨⟨i', hi'⟩, ⟨x', hx'⟩⟩⟩ := p
      simp only [lab, Prod.mk.injEq] at hpe
      obtain ⟨⟨q1, rfl⟩, q2, rfl⟩ := hpe
      have := h _ hp
      simp only [Fin.getElem_fin] at this
      rw [hfind k g1 i hi q1, hfind k' g2 i' hi' q2] at this
      exact this
    · intro h p hp
      have hmem : (lab p.1, lab p.2) ∈ cs.filterMap (copyLabel columns) := by
        rw [hps]
        exact List.mem_map.2 ⟨p, hp, rfl⟩
      obtain ⟨c, hc, hcp⟩ := List.mem_filterMap.1 hmem
      have hvc := hv c hc
      cases c with
      | selector => cases hcp
      | fixed => cases hcp
      | fill => cases hcp
      | copy k row k' row' =>
        obtain ⟨g1, g2, g3, g4⟩ := hvc
        obtain ⟨⟨⟨i, hi⟩, ⟨x, hx⟩⟩, ⟨⟨i', hi'⟩, ⟨x', hx'⟩⟩⟩ := p
        simp only [copyLabel, lab, Option.some.injEq, Prod.mk.injEq] at hcp
        obtain ⟨⟨q1, rfl⟩, q2, rfl⟩ := hcp
        have := h k row k' row' hc
        simp only [Fin.getElem_fin]
        rw [hfind k g1 i hi q1.symm, hfind k' g2 i' hi' q2.symm]
        exact this

/-- Two fixed columns with eight rows, of which six are usable; a selector; two copies. -/
def exKeygenCalls : List (Call ℕ ℤ) :=
  [.fixed 0 1 5, .selector 0 2, .copy 7 0 8 3, .fixed 0 1 6, .fill 1 4 9, .copy 8 3 7 2]

example : ((Assembly.new 2 1 8 1 [7, 8] (0 : ℤ)).run exKeygenCalls).map (fun a => (a.fixed, a.selectors, a.store.next (0, 0))) =
    some ([[0, 6, 0, 0, 0, 0, 0, 0], [0, 0, 0, 0, 9, 9, 0, 0]], [[false, false, true, false, false, false, false, false]],
      some (1, 3)) := by decide +kernel
example : ∀ c ∈ exKeygenCalls, c.Valid 2 1 (8 - (1 + 1)) [7, 8] := by
  intro c hc
  simp only [exKeygenCalls, List.mem_cons, List.not_mem_nil, or_false] at hc
  rcases hc with rfl | rfl | rfl | rfl | rfl | rfl <;> simp [Call.Valid]
example : ¬ (Call.fixed 0 6 1 : Call ℕ ℤ).Valid 2 1 (8 - (1 + 1)) [7, 8] := by simp [Call.Valid]

end
section
variable {K V : Type}

/-- All assignments of cells of a table are fine exactly if no column belongs to an earlier table and no first cell is assigned
twice. -/
theorem C92_cells (used : List ℕ) (ws : List (ℕ × ℕ × V)) :
    (assignCells (K := K) used ws []).1 = true ↔
      (∀ w ∈ ws, w.1 ∉ used) ∧ ((ws.filter fun w => decide (w.2.1 = 0)).map Prod.fst).Nodup :=
  (assignCells_spec (K := K) used ws [] [] entriesOk_nil (by simp [zeros])).1

/-- A table is accepted exactly if it has a column and all columns have the same rows, from the first on without holes; whatever the
order of the hash map is. -/
theorem C92_table (o : MapOrder V) (used : List ℕ) (ws : List (ℕ × ℕ × V)) (hused : ∀ w ∈ ws, w.1 ∉ used)
    (hz : ((ws.filter fun w => decide (w.2.1 = 0)).map Prod.fst).Nodup) :
    (assignTable (K := K) o used ws).isSome = true ↔ ws ≠ [] ∧ ∃ n, ∀ c ∈ ws.map Prod.fst, ∀ x, (∃ v, (c, x, v) ∈ ws) ↔ x < n := by
  constructor
  · intro h
    obtain ⟨r, hr⟩ := Option.isSome_iff_exists.1 h
    obtain ⟨n, _, h1, h2, _⟩ := (assignTable_spec o used ws hused hz r).1 hr
    exact ⟨h1, n, h2⟩
  · rintro ⟨h1, n, h2⟩
    have hpos : 0 < n := by
      obtain ⟨⟨c, x, v⟩, hw⟩ := List.exists_mem_of_ne_nil ws h1
      have := (h2 c (List.mem_map.2 ⟨_, hw, rfl⟩) x).1 ⟨v, hw⟩
      omega
    obtain ⟨a1, a2⟩ := assignCells_spec (K := K) used ws [] [] entriesOk_nil (by simp [zeros])
    have a4 := (a2 (a1.2 ⟨hused, hz⟩)).2
    rw [List.nil_append] at a4
    have hp := (o.perm (assignCells (K := K) used ws []).2.1).map Prod.fst
    have hkeys : ∀ c, c ∈ (o.run (assignCells (K := K) used ws []).2.1).map Prod.fst ↔ c ∈ ws.map Prod.fst := fun c => by
      rw [hp.mem_iff, a4.keys]
    have hnd := hp.nodup_iff.2 a4.nodup
    revert hkeys hnd
    generalize hL : (o.run (assignCells (K := K) used ws []).2.1).map Prod.fst = L
    intro hkeys hnd
    have hex : ∀ M : List ℕ, (∀ c ∈ M, c ∈ ws.map Prod.fst) → ∃ cs : List (ℕ × V), cs.map Prod.fst = M ∧ ∀ x ∈ cs, (x.1, 0, x.2) ∈ ws := by
      intro M
      induction M with
      | nil => exact fun _ => ⟨[], rfl, by simp⟩
      | cons c M ih =>
        intro hM
        obtain ⟨cs, i1, i2⟩ := ih fun d hd => hM d (by simp [hd])
        obtain ⟨v, hv⟩ := (h2 c (hM c (by simp)) 0).2 hpos
        refine ⟨(c, v) :: cs, by simp [i1], fun x hx => ?_⟩
        rcases List.mem_cons.1 hx with rfl | hx
        · exact hv
        · exact i2 x hx
    obtain ⟨cs, c1, c2⟩ := hex L fun c hc => (hkeys c).1 hc
    have := (assignTable_spec (K := K) o used ws hused hz _).2
      ⟨n, hpos, h1, h2, cs, by rw [c1]; exact hnd, by rw [c1]; exact hkeys, c2, by rw [c1, hL], rfl⟩
    rw [this]
    rfl

variable [DecidableEq K]

/-- The rows of a table after the key generation, if nothing else is written to its columns: the `n` rows that were assigned, with
the last values given; all other usable rows are the first row again. So the rows that can be looked up are those assigned. The
columns count as used. -/
theorem C92_table_rows (numFixed numSelectors m blinding : ℕ) (columns : List K) (zero : V) (o : MapOrder V) (used : List ℕ)
    (ws : List (ℕ × ℕ × V)) (hused : ∀ w ∈ ws, w.1 ∉ used)
    (hz : ((ws.filter fun w => decide (w.2.1 = 0)).map Prod.fst).Nodup) (r : Bool × List (Call K V) × List ℕ)
    (hr : assignTable o used ws = some r) (pre post : List (Call K V))
    (hpost : ∀ c ∈ post, ∀ i ∈ ws.map Prod.fst, ∀ x, c.valueAt (m - (blinding + 1)) i x = none) (a : Assembly K V)
    (ha : (Assembly.new numFixed numSelectors m blinding columns zero).run (pre ++ (r.2.1 ++ post)) = some a) :
    r.1 = true ∧ (∃ cols : List ℕ, r.2.2 = used ++ cols ∧ cols.Nodup ∧ ∀ c, c ∈ cols ↔ c ∈ ws.map Prod.fst) ∧
    ∃ n, 0 < n ∧ n < m - (blinding + 1) ∧ (∀ c ∈ ws.map Prod.fst, ∀ x, (∃ v, (c, x, v) ∈ ws) ↔ x < n) ∧
      (∀ c ∈ ws.map Prod.fst, ∀ x < n, get a.fixed (c, x) =
        ((ws.filter fun w => decide (w.1 = c ∧ w.2.1 = x)).map fun w => w.2.2).getLast?) ∧
      (∀ c ∈ ws.map Prod.fst, ∀ x, n ≤ x → x < m - (blinding + 1) → get a.fixed (c, x) = get a.fixed (c, 0)) ∧
      ∀ x < m - (blinding + 1), ∃ y < n, ∀ c ∈ ws.map Prod.fst, get a.fixed (c, x) = get a.fixed (c, y) := by
  obtain ⟨n, hpos, hne, hrows, cs, hnd, hkeys, hcs, _, rfl⟩ := (assignTable_spec o used ws hused hz r).1 hr
  set u := m - (blinding + 1) with hu
  set calls : List (Call K V) :=
    ws.map (fun w => Call.fixed w.1 w.2.1 w.2.2) ++ cs.map (fun x => Call.fill x.1 n x.2) with hcalls
  simp only at ha
  have hvalid : ∀ c ∈ pre ++ (calls ++ post), c.Valid numFixed numSelectors u columns := by
    by_contra hh
    rw [(run_spec (by omega) _ _ (inv_new numFixed numSelectors m blinding columns zero)).1 hh] at ha
    cases ha
  obtain ⟨a', h1, _, _, h2, _⟩ := C92_assembly numFixed numSelectors m blinding columns zero _ hvalid
  rw [ha] at h1
  obtain rfl := Option.some.inj h1
  have hfillmem : ∀ c ∈ ws.map Prod.fst, ∃ v, (c, v) ∈ cs := fun c hc => by
    obtain ⟨⟨c', v⟩, hx, rfl⟩ := List.mem_map.1 ((hkeys c).2 hc)
    exact ⟨v, hx⟩
  have hfv : ∀ c v, (c, v) ∈ cs → c < numFixed ∧ n < u := fun c v hc =>
    hvalid (Call.fill c n v) (by
      rw [hcalls]
      simp only [List.mem_append, List.mem_map]
      exact Or.inr (Or.inl (Or.inr ⟨_, hc, rfl⟩)))
  have hnu : n < u := by
    obtain ⟨w, hw⟩ := List.exists_mem_of_ne_nil ws hne
    obtain ⟨v, hv⟩ := hfillmem w.1 (List.mem_map.2 ⟨w, hw, rfl⟩)
    exact (hfv _ _ hv).2
  have hcf : ∀ c ∈ ws.map Prod.fst, c < numFixed := fun c hc => by
    obtain ⟨v, hv⟩ := hfillmem c hc
    exact (hfv _ _ hv).1
  have hw := valueAt_cells (K := K) u ws
  have hpost' : ∀ c ∈ ws.map Prod.fst, ∀ x, post.filterMap (Call.valueAt u c x) = [] := fun c hc x => by
    rw [List.filterMap_eq_nil_iff]
    exact fun d hd => hpost d hd c hc x
  -- the cells below `n`
  have hlow : ∀ c ∈ ws.map Prod.fst, ∀ x < n, get a.fixed (c, x) =
      ((ws.filter fun w => decide (w.1 = c ∧ w.2.1 = x)).map fun w => w.2.2).getLast? := by
    intro c hc x hx
    rw [h2 c (hcf c hc) x (by omega)]
    unfold fixedAt
    rw [hcalls, List.filterMap_append, List.filterMap_append, List.filterMap_append, hpost' c hc, hw]
    have hfill : (cs.map fun x => (Call.fill x.1 n x.2 : Call K V)).filterMap (Call.valueAt u c x) = [] := by
      rw [List.filterMap_eq_nil_iff]
      intro d hd
      obtain ⟨y, _, rfl⟩ := List.mem_map.1 hd
      simp only [Call.valueAt]
      rw [if_neg (by omega)]
    rw [hfill, List.append_nil, List.append_nil]
    obtain ⟨v, hv⟩ := (hrows c hc x).2 hx
    have hne' : (ws.filter fun w => decide (w.1 = c ∧ w.2.1 = x)).map (fun w => w.2.2) ≠ [] := by
      intro h
      have : v ∈ (ws.filter fun w => decide (w.1 = c ∧ w.2.1 = x)).map (fun w => w.2.2) :=
        List.mem_map.2 ⟨(c, x, v), List.mem_filter.2 ⟨hv, by simp⟩, rfl⟩
      rw [h] at this
      cases this
    rw [List.getLast?_append_of_ne_nil _ hne', List.getLast?_eq_some_getLast hne']
    rfl
  -- there is one value for the first cell
  have huniq : ∀ c v v', (c, 0, v) ∈ ws → (c, 0, v') ∈ ws → v = v' := by
    obtain ⟨a1, a2⟩ := assignCells_spec (K := K) used ws [] [] entriesOk_nil (by simp [zeros])
    have a4 := (a2 (a1.2 ⟨hused, hz⟩)).2
    rw [List.nil_append] at a4
    intro c v v' g1 g2
    have e1 := ((a4.entry c).first v).2 g1
    rw [((a4.entry c).first v').2 g2] at e1
    exact (Option.some.inj e1).symm
  have hzero : ∀ c v, (c, v) ∈ cs → c ∈ ws.map Prod.fst → get a.fixed (c, 0) = some v := by
    intro c v hcv hc
    rw [hlow c hc 0 hpos]
    have hne' : (ws.filter fun w => decide (w.1 = c ∧ w.2.1 = 0)).map (fun w => w.2.2) ≠ [] := by
      intro h
      have : v ∈ (ws.filter fun w => decide (w.1 = c ∧ w.2.1 = 0)).map (fun w => w.2.2) :=
        List.mem_map.2 ⟨(c, 0, v), List.mem_filter.2 ⟨hcs _ hcv, by simp⟩, rfl⟩
      rw [h] at this
      cases this
    rw [List.getLast?_eq_some_getLast hne']
    obtain ⟨⟨c', x', v'⟩, hw1, hw2⟩ := List.mem_map.1 (List.getLast_mem hne')
    obtain ⟨hw3, hw4⟩ := List.mem_filter.1 hw1
    simp only [decide_eq_true_eq] at hw4
    obtain ⟨rfl, rfl⟩ := hw4
    rw [← hw2]
    exact congrArg some (huniq c' v' v hw3 (hcs _ hcv))
  have hhigh : ∀ c ∈ ws.map Prod.fst, ∀ x, n ≤ x → x < u → get a.fixed (c, x) = get a.fixed (c, 0) := by
    intro c hc x hx hxu
    obtain ⟨v, hv⟩ := hfillmem c hc
    rw [hzero c v hv hc, h2 c (hcf c hc) x (by omega)]
    unfold fixedAt
    rw [hcalls, List.filterMap_append, List.filterMap_append, List.filterMap_append, hpost' c hc]
    have hfill : ∀ y ∈ (cs.map fun x => (Call.fill x.1 n x.2 : Call K V)).filterMap (Call.valueAt u c x), y = v := by
      intro y hy
      obtain ⟨d, hd, hdy⟩ := List.mem_filterMap.1 hy
      obtain ⟨⟨c', v'⟩, hz1, rfl⟩ := List.mem_map.1 hd
      simp only [Call.valueAt] at hdy
      split at hdy
      · next hh =>
        obtain rfl := Option.some.inj hdy
        obtain ⟨rfl, _⟩ := hh
        exact huniq c' v' v (hcs _ hz1) (hcs _ hv)
      · cases hdy
    have hne' : (cs.map fun x => (Call.fill x.1 n x.2 : Call K V)).filterMap (Call.valueAt u c x) ≠ [] := by
      intro h
      have : v ∈ (cs.map fun x => (Call.fill x.1 n x.2 : Call K V)).filterMap (Call.valueAt u c x) :=
        List.mem_filterMap.2 ⟨Call.fill c n v, List.mem_map.2 ⟨_, hv, rfl⟩, by simp [Call.valueAt, hx, hxu]⟩
      rw [h] at this
      cases this
    rw [List.append_nil, List.getLast?_append_of_ne_nil _ (List.append_ne_nil_of_right_ne_nil _ hne'), List.getLast?_append_of_ne_nil _ hne',
      List.getLast?_eq_some_getLast hne', hfill _ (List.getLast_mem hne')]
    rfl
  refine ⟨rfl, ⟨_, rfl, hnd, hkeys⟩, n, hpos, hnu, hrows, hlow, hhigh, fun x hx => ?_⟩
  by_cases hxn : x < n
  · exact ⟨x, hxn, fun c _ => rfl⟩
  · exact ⟨0, hpos, fun c hc => hhigh c hc x (by omega) hx⟩

/-- A table with as many rows as are usable is accepted, but the key generation then fails. -/
theorem C92_table_full (numFixed numSelectors m blinding : ℕ) (columns : List K) (zero : V) (o : MapOrder V) (used : List ℕ)
    (ws : List (ℕ × ℕ × V)) (hused : ∀ w ∈ ws, w.1 ∉ used)
    (hz : ((ws.filter fun w => decide (w.2.1 = 0)).map Prod.fst).Nodup) (r : Bool × List (Call K V) × List ℕ)
    (hr : assignTable o used ws = some r) (pre post : List (Call K V)) (c : ℕ) (v : V)
    (hfull : (c, m - (blinding + 1) - 1, v) ∈ ws) :
    (Assembly.new numFixed numSelectors m blinding columns zero).run (pre ++ (r.2.1 ++ post)) = none := by
  obtain ⟨n, hpos, hne, hrows, cs, hnd, hkeys, hcs, _, rfl⟩ := (assignTable_spec o used ws hused hz r).1 hr
  have hc : c ∈ ws.map Prod.fst := List.mem_map.2 ⟨_, hfull, rfl⟩
  have hlt := (hrows c hc _).1 ⟨v, hfull⟩
  obtain ⟨⟨c', v'⟩, hx, rfl⟩ := List.mem_map.1 ((hkeys c).2 hc)
  rw [C92_calls]
  refine ⟨Call.fill c' n v', ?_, ?_⟩
  · simp only [List.mem_append, List.mem_map]
    exact Or.inr (Or.inl (Or.inr ⟨_, hx, rfl⟩))
  · simp only [Call.Valid]
    omega

omit [DecidableEq K] in
/-- If the first cell of a column is assigned twice, which the second `AssignCell` refuses, the table is made nevertheless: the first
row has the second value and the rows filled have the first. -/
theorem C92_table_twice (o : MapOrder V) (v w : V) :
    assignTable (K := K) o [] [(0, 0, v), (0, 0, w)] = some (false, [.fixed 0 0 v, .fixed 0 0 w, .fill 0 1 v], [0]) := by
  have hp := o.perm [(0, ⟨some v, [true]⟩)]
  have hrun := List.perm_singleton.1 hp
  have hr : assignCells (K := K) [] [(0, 0, v), (0, 0, w)] [] =
      (false, [(0, ⟨some v, [true]⟩)], [.fixed 0 0 v, .fixed 0 0 w]) := rfl
  unfold assignTable
  rw [hr]
  simp only [hrun]
  rfl

/-- The order of insertion. -/
def exMapOrder : MapOrder ℤ := ⟨id, fun _ => List.Perm.refl _⟩

/-- A table of two columns and three rows. -/
def exTableCells : List (ℕ × ℕ × ℤ) := [(0, 0, 1), (0, 1, 2), (2, 1, 20), (2, 0, 10), (0, 2, 3), (2, 2, 30)]

example : ((assignTable (K := ℕ) exMapOrder [1] exTableCells).bind fun r =>
      ((Assembly.new 3 0 8 1 [] (0 : ℤ)).run r.2.1).map fun a => (r.1, r.2.2, a.fixed)) =
    some (true, [1, 0, 2], [[1, 2, 3, 1, 1, 1, 0, 0], [0, 0, 0, 0, 0, 0, 0, 0], [10, 20, 30, 10, 10, 10, 0, 0]]) := by decide +kernel
example : (∀ w ∈ exTableCells, w.1 ∉ [1]) ∧ ((exTableCells.filter fun w => decide (w.2.1 = 0)).map Prod.fst).Nodup := by
  decide +kernel
example : (assignTable (K := ℕ) exMapOrder [] [(0, 0, 1), (0, 2, 2)]).isSome = false := by decide +kernel
example : ((assignTable (K := ℕ) exMapOrder [] [(0, 0, 5), (0, 0, 7)]).bind fun r =>
      ((Assembly.new 1 0 4 0 [] (0 : ℤ)).run r.2.1).map fun a => a.fixed) = some [[7, 5, 5, 0]] := by decide +kernel

end
section
variable {F : Type} [Field F]

/-- If the circuits stay within the bounds, all advice columns are made, phase by phase. The column of a phase is what the circuit
says if it knows the challenges of earlier phases only, followed by zeros and a one. The transcript is told all columns of all
circuits of the first phase, then asked for its challenges, and so on; a challenge is the answer after all this. Challenges of phases
without advice columns stay unknown. -/
theorem C92_advice (squeeze : List (Item F) → F) (n u : ℕ) (hn : 0 < n) (hu : u ≤ n) (phases cp : List ℕ)
    (circuits : List (Known F → List (Advice F)))
    (hb : ∀ c ∈ circuits, ∀ kn, ∀ a ∈ c kn, a.column < phases.length ∧ a.row < u) (log : List (Item F)) :
    ∃ (s : Synth F) (v : ℕ → F) (P : ℕ), generateAdvice squeeze n u phases cp circuits log = some s ∧
      (∀ q ∈ phases, q < P) ∧ (P = 1 ∨ P - 1 ∈ phases) ∧
      s.log = log ++ logBelow n phases cp circuits v P ∧
      (∀ i (hi : i < circuits.length) j q, phases[j]? = some q →
        get s.columns (i, j) = some (some (witnessColumn n q j (circuits[i] (knownBefore cp v q))))) ∧
      (∀ k q, cp[k]? = some q → q < P → s.challenges k = some (v k) ∧
        v k = squeeze (log ++ logBelow n phases cp circuits v q ++ commitsOf n phases cp circuits v q ++
          ((List.range k).filter fun k => decide (cp[k]? = some q)).map fun k => .squeeze k)) ∧
      ∀ k q, cp[k]? = some q → P ≤ q → s.challenges k = none := by
  obtain ⟨s, h1, h2⟩ := generateAdvice_spec squeeze hn hu phases cp circuits (fun c hc kn p a ha _ => hb c hc kn a ha) log
  refine ⟨s, vals s, phases.foldl max 0 + 1, h1, ?_, ?_, h2.told, ?_, ?_, ?_⟩
  · intro q hq
    have := le_foldl_max phases 0 q (Or.inl hq)
    omega
  · have : ∀ (l : List ℕ) (m : ℕ), l.foldl max m = m ∨ l.foldl max m ∈ l := by
      intro l
      induction l with
      | nil => intro m; exact Or.inl rfl
      | cons x l ih =>
        intro m
        rw [List.foldl_cons]
        rcases ih (max m x) with h | h
        · rw [h]
          rcases max_choice m x with h' | h' <;> rw [h'] <;> simp
        · exact Or.inr (List.mem_cons_of_mem _ h)
    rcases this phases 0 with h | h
    · left; omega
    · right; simpa using h
  · intro i hi j q hq
    have hle : q < phases.foldl max 0 + 1 := by
      have := le_foldl_max phases 0 q (Or.inl (List.mem_of_getElem? hq))
      omega
    rw [h2.cols i hi j q hq, if_pos hle, List.getD_eq_getElem?_getD, List.getElem?_eq_getElem hi]
    rfl
  · intro k q hk hq
    have := h2.ask k q hk hq
    have hv : vals s k = squeeze (log ++ logBelow n phases cp circuits (vals s) q ++ commitsOf n phases cp circuits (vals s) q ++
          ((List.range k).filter fun k => decide (cp[k]? = some q)).map fun k => .squeeze k) := by
      show (s.challenges k).getD 0 = _
      rw [this]
      rfl
    exact ⟨by rw [this, hv], hv⟩
  · intro k q hk hq
    rw [h2.known]
    unfold knownBefore
    rw [if_neg]
    rintro ⟨r, h3, h4⟩
    rw [hk] at h3
    have := Option.some.inj h3
    omega

/-- If the phases of all challenges have advice columns (or are the first), the challenges exported are all of them by index. -/
theorem C92_export (squeeze : List (Item F) → F) (n u : ℕ) (hn : 0 < n) (hu : u ≤ n) (phases cp : List ℕ)
    (circuits : List (Known F → List (Advice F)))
    (hb : ∀ c ∈ circuits, ∀ kn, ∀ a ∈ c kn, a.column < phases.length ∧ a.row < u) (log : List (Item F))
    (hc : ∀ q ∈ cp, q = 0 ∨ ∃ q' ∈ phases, q ≤ q') :
    ∃ s, generateAdvice squeeze n u phases cp circuits log = some s ∧ (exportChallenges cp s).length = cp.length ∧
      ∀ k < cp.length, (exportChallenges cp s)[k]? = s.challenges k := by
  obtain ⟨s, v, P, h1, h2, h3, _, _, h4, _⟩ := C92_advice squeeze n u hn hu phases cp circuits hb log
  have hP : 0 < P := by
    rcases h3 with h3 | h3
    · omega
    · have := h2 _ h3; omega
  have hs : ∀ k < cp.length, s.challenges k = some (v k) := fun k hk => by
    refine (h4 k cp[k] (List.getElem?_eq_getElem hk) ?_).1
    rcases hc _ (List.getElem_mem hk) with h | ⟨q', h5, h6⟩
    · omega
    · have := h2 _ h5; omega
  have he : exportChallenges cp s = (List.range cp.length).map v := by
    unfold exportChallenges
    rw [← List.filterMap_eq_map]
    apply List.filterMap_congr
    intro k hk
    exact hs k (List.mem_range.1 hk)
  refine ⟨s, h1, by rw [he]; simp, fun k hk => ?_⟩
  rw [he, hs k hk]
  simp [hk]

/-- The rows of an advice column that are not usable are zeros and, at the end, a one: no random values hide the column. -/
theorem C92_unusable (n u p j : ℕ) (calls : List (Advice F)) (hb : ∀ a ∈ calls, a.row < u) (row : ℕ) (h1 : u ≤ row) (h2 : row < n) :
    (witnessColumn n p j calls)[row]? = some (if row = n - 1 then 1 else 0) := by
  unfold witnessColumn
  rw [List.getElem?_map, List.getElem?_range h2, Option.map_some]
  have : (calls.filterMap fun a => if a.column = j ∧ a.row = row ∧ a.phase ≤ p then some a.value else none) = [] := by
    rw [List.filterMap_eq_nil_iff]
    intro a ha
    have := hb a ha
    rw [if_neg (by omega)]
  rw [this]
  rfl

/-- A circuit with two phases: the second column is the first times the challenge. -/
def exPhaseCircuit (x : F97) : Known F97 → List (Advice F97) := fun kn =>
  [⟨0, 0, 1, x⟩] ++ match kn 0 with
    | some c => [⟨1, 1, 1, x * c⟩]
    | none => []

/-- A transcript: the sum of the values committed. -/
def exPhaseSqueeze (l : List (Item F97)) : F97 :=
  (l.map fun i => match i with | .commit _ _ c => c.foldl (· + ·) 0 | .squeeze _ => 1).foldl (· + ·) 0

example : (generateAdvice exPhaseSqueeze 4 2 [0, 1] [0] [exPhaseCircuit 5, exPhaseCircuit 7] []).map
      (fun s => (s.columns, s.challenges 0, s.challenges 1)) =
    some ([[some [0, 5, 0, 1], some [0, 70, 0, 1]], [some [0, 7, 0, 1], some [0, 1, 0, 1]]], some 14, none) := by decide +kernel
example : ∀ c ∈ [exPhaseCircuit 5, exPhaseCircuit 7], ∀ kn, ∀ a ∈ c kn, a.column < [0, 1].length ∧ a.row < 2 := by
  intro c hc kn a ha
  simp only [List.mem_cons, List.not_mem_nil, or_false] at hc
  rcases hc with rfl | rfl <;> · unfold exPhaseCircuit at ha; cases h : kn 0 <;> simp [h] at ha <;> rcases ha with rfl | rfl <;> simp

end
end Tachyon.Props
