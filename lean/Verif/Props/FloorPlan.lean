import Verif.Proofs.FloorSingle
import Mathlib.Data.List.Sort
/-!
# C91: floor planners

`V1FloorPlanner` gives each region the least row where it does not overlap with the regions placed before it, biggest advice
area first, and the constants go to the free cells of the constant columns. `SimpleFloorPlanner` puts each region behind
everything in its columns. Either way no cell is written by two of them.
-/
namespace Tachyon.Props
open Tachyon.FloorPlan

section
variable {C V : Type} [DecidableEq C]

/-- C91: `SlotInBiggestAdviceFirst` finds a start for each region and no `CHECK` fails, the rectangles of different regions have no
cell in common, and there is an order of the regions with descending advice areas in which each start is the least row where
the region does not overlap with those before it. -/
theorem C91_plan (advice : C → Bool) (o : ColumnOrder C) (byArea : SortBy (adviceArea advice))
    (byIndex : SortBy (infoIndex (C := C))) (regions : List (Region C V)) :
    ∃ starts p, slotBiggest advice o byArea byIndex (regions.mapIdx fun i r => shapeOf i r.writes) = some (starts, p) ∧
      starts.length = regions.length ∧ ((starts.zip regions).Pairwise fun x y => Apart x.1 x.2 y.1 y.2) ∧
      ∃ order : List (ℕ × Region C V), order.Perm (starts.zip regions) ∧
        (order.Pairwise fun x y => y.2.area advice ≤ x.2.area advice) ∧
        ∀ l y r, order = l ++ y :: r → ∀ x, (∀ z ∈ l, Apart x y.2 z.1 z.2) → y.1 ≤ x := by
  obtain ⟨starts, p, h1, h2, _⟩ := slot_spec advice o byArea byIndex regions
  exact ⟨starts, p, h1, h2.length, h2.apart, h2.least⟩

/-- C91: in which order the columns of a region are tried does not matter for the starts. -/
theorem C91_order (advice : C → Bool) (o o' : ColumnOrder C) (byArea : SortBy (adviceArea advice))
    (byIndex : SortBy (infoIndex (C := C))) (regions : List (Region C V)) :
    (slotBiggest advice o byArea byIndex (regions.mapIdx fun i r => shapeOf i r.writes)).map Prod.fst =
      (slotBiggest advice o' byArea byIndex (regions.mapIdx fun i r => shapeOf i r.writes)).map Prod.fst := by
  refine slotBiggest_order advice o o' byArea byIndex _ fun s hs => ?_
  obtain ⟨i, hi, rfl⟩ := List.mem_mapIdx.1 hs
  exact shapeOf_ok _ _

/-- C91: no region ends behind the sum of the heights of all regions: the rows fit into 32 bits if this sum does. -/
theorem C91_bound (advice : C → Bool) (o : ColumnOrder C) (byArea : SortBy (adviceArea advice))
    (byIndex : SortBy (infoIndex (C := C))) (regions : List (Region C V)) (starts : List ℕ) (p : Plan C)
    (h : slotBiggest advice o byArea byIndex (regions.mapIdx fun i r => shapeOf i r.writes) = some (starts, p)) :
    ∀ y ∈ starts.zip regions, y.1 + y.2.height ≤ (regions.map Region.height).sum := by
  obtain ⟨s', p', h1, h2, _⟩ := slot_spec advice o byArea byIndex regions
  rw [h] at h1
  simp only [Option.some.injEq, Prod.mk.injEq] at h1
  obtain ⟨rfl, rfl⟩ := h1
  exact v1_bound h2

/-- C91: `V1FloorPlanner::Synthesize`. There are starts as in `C91_plan`, and positions for the constants: each cell of a constant
column that is above the end of some region and not in the rectangle of any, once. It fails exactly if there are fewer
positions than constants. Else the calls are those of each region from its start on, with copies between the cells where
they are, and each constant is written to its position and copied to its cell. -/
theorem C91_v1 (advice : C → Bool) (o : ColumnOrder C) (byArea : SortBy (adviceArea advice))
    (byIndex : SortBy (infoIndex (C := C))) (cols : List C) (hcols : cols.Nodup) (regions : List (Region C V))
    (hb : ∀ r ∈ regions, r.Below regions.length) :
    ∃ starts positions, V1Plan advice regions starts ∧ positions.Nodup ∧
      (∀ c x, (c, x) ∈ positions ↔ c ∈ cols ∧ (∃ y ∈ starts.zip regions, (∃ d, y.2.Uses d) ∧ x < y.1 + y.2.height) ∧
        ∀ y ∈ starts.zip regions, ¬ Covers y.1 y.2 c x) ∧
      synthesizeV1 advice o byArea byIndex cols regions =
        if positions.length < (regions.flatMap fun r => r.consts).length then none
        else some (List.zipWith (regionOut starts) starts regions,
          constOut starts positions (regions.flatMap fun r => r.consts)) :=
  v1_spec advice o byArea byIndex cols hcols regions hb

omit [DecidableEq C] in
theorem regionOut_cell {starts : List ℕ} {s : ℕ} {r : Region C V} {x : (C × ℕ) × V}
    (h : x ∈ (regionOut starts s r).writes) : Covers s r x.1.1 x.1.2 := by
  obtain ⟨w, hw, rfl⟩ := List.mem_map.1 h
  have := lt_height hw
  exact ⟨⟨w, hw, rfl⟩, by simp only; omega, by simp only; omega⟩

omit [DecidableEq C] in
theorem apart_cell {starts : List ℕ} {s s' : ℕ} {r r' : Region C V} (h : Apart s r s' r') {x y : (C × ℕ) × V}
    (hx : x ∈ (regionOut starts s r).writes) (hy : y ∈ (regionOut starts s' r').writes) : x.1 ≠ y.1 := by
  intro e
  obtain ⟨a1, a2, a3⟩ := regionOut_cell hx
  obtain ⟨b1, b2, b3⟩ := regionOut_cell hy
  rw [e] at a1 a2 a3
  have := h _ a1 b1
  omega

omit [DecidableEq C] in
theorem constOut_fst {starts : List ℕ} {cells : List (C × ℕ)} {consts : List (V × Cell C)} (h : consts.length ≤ cells.length) :
    (constOut starts cells consts).writes.map Prod.fst = cells.take consts.length ∧
      (constOut starts cells consts).writes.map Prod.snd = consts.map Prod.fst := by
  unfold constOut
  constructor
  · apply List.ext_getElem
    · simp; omega
    · intro i h1 h2; simp
  · apply List.ext_getElem
    · simp; omega
    · intro i h1 h2; simp

/-- C91: with `V1FloorPlanner` different regions write different cells, the constants go to cells that no region writes, one cell
for each, and they have the values that were asked for. -/
theorem C91_v1_cells (advice : C → Bool) (o : ColumnOrder C) (byArea : SortBy (adviceArea advice))
    (byIndex : SortBy (infoIndex (C := C))) (cols : List C) (hcols : cols.Nodup) (regions : List (Region C V))
    (hb : ∀ r ∈ regions, r.Below regions.length) (os : List (Out C V)) (k : Out C V)
    (h : synthesizeV1 advice o byArea byIndex cols regions = some (os, k)) :
    (os.Pairwise fun a b => ∀ x ∈ a.writes, ∀ y ∈ b.writes, x.1 ≠ y.1) ∧
      (∀ a ∈ os, ∀ x ∈ a.writes, ∀ y ∈ k.writes, x.1 ≠ y.1) ∧ (k.writes.map Prod.fst).Nodup ∧
      k.writes.map Prod.snd = (regions.flatMap fun r => r.consts).map Prod.fst := by
  obtain ⟨starts, positions, h1, h2, h3, h4⟩ := v1_spec advice o byArea byIndex cols hcols regions hb
  rw [h] at h4
  split at h4
  · simp at h4
  next hlen =>
  simp only [Option.some.injEq, Prod.mk.injEq] at h4
  obtain ⟨rfl, rfl⟩ := h4
  obtain ⟨k1, k2⟩ := constOut_fst (starts := starts) (cells := positions) (consts := regions.flatMap fun r => r.consts) (by omega)
  have hz : List.zipWith (regionOut starts) starts regions = (starts.zip regions).map fun y => regionOut starts y.1 y.2 := by
    simp [List.zip, List.map_zipWith]
  refine ⟨?_, ?_, ?_, k2⟩
  · rw [hz, List.pairwise_map]
    exact h1.apart.imp fun ha x hx y hy => apart_cell ha hx hy
  · intro a ha x hx y hy e
    rw [hz] at ha
    obtain ⟨z, hz, rfl⟩ := List.mem_map.1 ha
    have hp : y.1 ∈ positions := by
      have : y.1 ∈ (constOut starts positions (regions.flatMap fun r => r.consts)).writes.map Prod.fst :=
        List.mem_map_of_mem hy
      rw [k1] at this
      exact List.mem_of_mem_take this
    have := ((h3 y.1.1 y.1.2).1 hp).2.2 z hz
    rw [← e] at this
    exact this (regionOut_cell hx)
  · rw [k1]
    exact h2.sublist (List.take_sublist _ _)

/-- C91: `SimpleFloorPlanner`. If a cell only refers to its own region or to earlier ones, then it fails exactly if there is no
column for constants but a constant. Else each region starts at the first row that is behind everything in its columns: the
regions before and their constants. The constants of the region follow, in the first constant column, from the first row on
that is behind everything there. -/
theorem C91_simple (cols : List C) (regions : List (Region C V))
    (hb : ∀ (j : ℕ) (r : Region C V), regions[j]? = some r → r.Below (j + 1)) :
    if cols = [] ∧ ∃ r ∈ regions, r.consts ≠ [] then singleAll cols regions ⟨[], fun _ => 0⟩ = none
    else ∃ outs st, singleAll cols regions ⟨[], fun _ => 0⟩ = some (outs, st) ∧ st.starts.length = regions.length ∧
      outs.length = regions.length ∧ ∀ l x r, st.starts.zip (regions.zip outs) = l ++ x :: r →
        SingleStep cols st.starts (l.map fun y => (y.1, y.2.1, y.2.2.2)) x.1 x.2.1 x.2.2.1 x.2.2.2 := by
  have h := singleAll_spec cols regions ⟨[], fun _ => 0⟩ [] (fun c x => by simp [Behind]) fun j r hj => by
    simpa using hb j r hj
  split at h
  · next hc => rw [if_pos hc]; exact h
  · next hc =>
    rw [if_neg hc]
    obtain ⟨outs, st, new, h1, h2, h3, h4, h5⟩ := h
    simp only [List.nil_append] at h2 h5
    rw [← h2] at h3 h5
    exact ⟨outs, st, h1, h3, h4, h5⟩

/-- The cells written by a region and its constants. -/
def floorCells (o : Out C V × Out C V) : List (C × ℕ) := o.1.writes.map Prod.fst ++ o.2.writes.map Prod.fst

/-- C91: with `SimpleFloorPlanner` different regions with their constants write different cells, the constants of a region go to
cells the region does not write, one cell for each, they have the values that were asked for, and no row reaches the sum of
the heights of the regions and the number of constants. -/
theorem C91_simple_cells (cols : List C) (regions : List (Region C V))
    (hb : ∀ (j : ℕ) (r : Region C V), regions[j]? = some r → r.Below (j + 1)) (outs : List (Out C V × Out C V)) (st : Single C)
    (h : singleAll cols regions ⟨[], fun _ => 0⟩ = some (outs, st)) :
    (outs.Pairwise fun a b => ∀ x ∈ floorCells a, x ∉ floorCells b) ∧
      (∀ a ∈ outs, (∀ x ∈ a.1.writes, ∀ y ∈ a.2.writes, x.1 ≠ y.1) ∧ (a.2.writes.map Prod.fst).Nodup) ∧
      outs.map (fun a => a.2.writes.map Prod.snd) = regions.map (fun r => r.consts.map Prod.fst) ∧
      ∀ a ∈ outs, ∀ x ∈ floorCells a, x.2 < (regions.map fun r => r.height + r.consts.length).sum := by
  have hs := C91_simple cols regions hb
  split at hs
  · rw [h] at hs; simp at hs
  next hcols =>
  obtain ⟨outs', st', h1, h2, h3, h4⟩ := hs
  rw [h] at h1
  simp only [Option.some.injEq, Prod.mk.injEq] at h1
  obtain ⟨rfl, rfl⟩ := h1
  have houts : outs = (st.starts.zip (regions.zip outs)).map fun y => y.2.2 := by
    rw [show (fun y : ℕ × Region C V × (Out C V × Out C V) => y.2.2) = Prod.snd ∘ Prod.snd from rfl, ← List.map_map,
      List.map_snd_zip (by simp [h2, h3]), List.map_snd_zip (by simp [h3])]
  have hregs : regions = (st.starts.zip (regions.zip outs)).map fun y => y.2.1 := by
    rw [show (fun y : ℕ × Region C V × (Out C V × Out C V) => y.2.1) = Prod.fst ∘ Prod.snd from rfl, ← List.map_map,
      List.map_snd_zip (by simp [h2, h3]), List.map_fst_zip (by simp [h3])]
  have hmem : ∀ a ∈ outs, ∃ l x r, st.starts.zip (regions.zip outs) = l ++ x :: r ∧ x.2.2 = a := by
    intro a ha
    rw [houts] at ha
    obtain ⟨x, hx, rfl⟩ := List.mem_map.1 ha
    obtain ⟨l, r, hl⟩ := List.append_of_mem hx
    exact ⟨l, x, r, hl, rfl⟩
  -- the cells of a step are behind what was done before
  have hnew : ∀ l x r, st.starts.zip (regions.zip outs) = l ++ x :: r → ∀ c ∈ floorCells x.2.2,
      Behind (l.map fun y => (y.1, y.2.1, y.2.2.2)) c.1 c.2 := by
    intro l x r hl c hc
    obtain ⟨g1, g2, g3⟩ := h4 l x r hl
    unfold floorCells at hc
    rcases List.mem_append.1 hc with hc | hc
    · rw [g1] at hc
      obtain ⟨w, hw, rfl⟩ := List.mem_map.1 hc
      obtain ⟨b1, b2, _⟩ := regionOut_cell hw
      exact (g2 w.1.2).1 b2 _ b1
    · cases hcol : cols with
      | nil => rw [hcol] at g3; simp only at g3; rw [g3] at hc; simp at hc
      | cons d ds =>
        rw [hcol] at g3
        obtain ⟨n, g3, g4⟩ := g3
        rw [g4, (constOut_fst (by simp)).1] at hc
        obtain ⟨row, hrow, rfl⟩ := List.mem_map.1 (List.mem_of_mem_take hc)
        have := (g3 row).1 (List.mem_range'_1.1 hrow).1
        exact ((behind_append _ _ _ _).1 this).1
  -- and behind the cells of the region itself, if they are constants
  have hown : ∀ l x r, st.starts.zip (regions.zip outs) = l ++ x :: r →
      (∀ y ∈ x.2.2.1.writes, ∀ z ∈ x.2.2.2.writes, y.1 ≠ z.1) ∧ (x.2.2.2.writes.map Prod.fst).Nodup ∧
        x.2.2.2.writes.map Prod.snd = x.2.1.consts.map Prod.fst := by
    intro l x r hl
    obtain ⟨g1, g2, g3⟩ := h4 l x r hl
    cases hcol : cols with
    | nil =>
      have hx : x.2.1 ∈ regions := by
        rw [hregs, hl]
        simp
      have hno : x.2.1.consts = [] := by
        by_contra hne
        exact hcols ⟨hcol, x.2.1, hx, hne⟩
      rw [hcol] at g3
      simp only at g3
      rw [g3, hno]
      simp
    | cons d ds =>
      rw [hcol] at g3
      obtain ⟨n, g3, g4⟩ := g3
      obtain ⟨k1, k2⟩ := constOut_fst (starts := st.starts)
        (cells := (List.range' n x.2.1.consts.length).map fun row => (d, row)) (consts := x.2.1.consts) (by simp)
      refine ⟨fun y hy z hz e => ?_, ?_, ?_⟩
      · rw [g4] at hz
        have hz := List.mem_map_of_mem (f := Prod.fst) hz
        rw [k1] at hz
        obtain ⟨row, hrow, hz⟩ := List.mem_map.1 (List.mem_of_mem_take hz)
        rw [g1] at hy
        obtain ⟨b1, b2, b3⟩ := regionOut_cell hy
        rw [e, ← hz] at b1 b2 b3
        have := (behind_append _ _ _ _).1 ((g3 row).1 (List.mem_range'_1.1 hrow).1)
        have := this.2.1 b1
        simp only at this b3
        omega
      · rw [g4, k1]
        refine List.Nodup.sublist (List.take_sublist _ _) ?_
        exact List.Nodup.map (fun a b h => by simpa using h) List.nodup_range'
      · rw [g4]
        exact k2
  -- the cells of a step are not behind what is done with it
  have hold : ∀ l x r, st.starts.zip (regions.zip outs) = l ++ x :: r → ∀ c ∈ floorCells x.2.2, ∀ done,
      (x.1, x.2.1, x.2.2.2) ∈ done → ¬ Behind done c.1 c.2 := by
    intro l x r hl c hc done hd hbeh
    obtain ⟨g1, _, _⟩ := h4 l x r hl
    obtain ⟨e1, e2⟩ := hbeh _ hd
    unfold floorCells at hc
    rcases List.mem_append.1 hc with hc | hc
    · rw [g1] at hc
      obtain ⟨w, hw, rfl⟩ := List.mem_map.1 hc
      obtain ⟨b1, b2, b3⟩ := regionOut_cell hw
      have := e1 b1
      simp only at this
      omega
    · obtain ⟨w, hw, rfl⟩ := List.mem_map.1 hc
      exact absurd (e2 w hw rfl) (lt_irrefl _)
  refine ⟨?_, ?_, ?_, ?_⟩
  · rw [houts, List.pairwise_map, List.pairwise_iff_getElem]
    intro i j hi hj hij c hc hc'
    generalize hL : st.starts.zip (regions.zip outs) = L at *
    have hsplit : ∀ n (hn : n < L.length), L = L.take n ++ L[n] :: L.drop (n + 1) := fun n hn => by
      rw [← List.drop_eq_getElem_cons hn, List.take_append_drop]
    have hin : L[i] ∈ L.take j := by
      rw [List.mem_take_iff_getElem]
      exact ⟨i, by omega, rfl⟩
    exact hold _ _ _ (hsplit i hi) c hc _ (List.mem_map_of_mem (f := fun y => (y.1, y.2.1, y.2.2.2)) hin)
      (hnew _ _ _ (hsplit j hj) c hc')
  · intro a ha
    obtain ⟨l, x, r, hl, rfl⟩ := hmem a ha
    exact ⟨(hown l x r hl).1, (hown l x r hl).2.1⟩
  · conv_lhs => rw [houts]
    conv_rhs => rw [hregs]
    rw [List.map_map, List.map_map]
    refine List.map_congr_left fun x hx => ?_
    obtain ⟨l, r, hl⟩ := List.append_of_mem hx
    exact (hown l x r hl).2.2
  · intro a ha c hc
    obtain ⟨l, x, r, hl, rfl⟩ := hmem a ha
    obtain ⟨b1, b2⟩ := single_bound h4 l.length l x r rfl hl
    have hsum : (regions.map fun r => r.height + r.consts.length).sum =
        (((l ++ [x]).map fun y => (y.1, y.2.1, y.2.2.2)).map roomOf).sum + ((r.map fun y => (y.1, y.2.1, y.2.2.2)).map roomOf).sum := by
      conv_lhs => rw [hregs, hl]
      simp only [List.map_map, List.map_append, List.map_cons, List.sum_append, List.sum_cons, List.map_nil, List.sum_nil,
        Function.comp_def, roomOf]
      omega
    unfold floorCells at hc
    rcases List.mem_append.1 hc with hc | hc
    · rw [(h4 l x r hl).1] at hc
      obtain ⟨w, hw, rfl⟩ := List.mem_map.1 hc
      obtain ⟨_, _, c3⟩ := regionOut_cell hw
      rw [hsum]
      simp only [List.map_append, List.map_cons, List.map_nil, List.sum_append, List.sum_cons, List.sum_nil] at b1 ⊢
      have : roomOf (x.1, x.2.1, x.2.2.2) = x.2.1.height + x.2.1.consts.length := rfl
      rw [this]
      omega
    · obtain ⟨w, hw, rfl⟩ := List.mem_map.1 hc
      have := b2 w hw
      omega

end

/-! Examples: columns are numbers, `0` and `1` are advice columns. -/

/-- A sort by a number. -/
def exFloorSort {α : Type} (key : α → ℕ) : SortBy key where
  run := List.insertionSort fun a b => key a ≤ key b
  perm := List.perm_insertionSort _
  sorted l := by
    have : Std.Total fun a b : α => key a ≤ key b := ⟨fun a b => le_total _ _⟩
    have : IsTrans α fun a b : α => key a ≤ key b := ⟨fun _ _ _ => le_trans⟩
    exact List.pairwise_insertionSort _ l

def exFloorOrder : ColumnOrder ℕ := ⟨id, fun _ => List.Perm.refl _⟩
def exFloorBack : ColumnOrder ℕ := ⟨List.reverse, List.reverse_perm⟩

/-- Three regions: one row in column 0, three rows in columns 0 and 1, two rows in column 1. A constant is asked for twice. -/
def exFloor : List (Region ℕ ℕ) :=
  [⟨[⟨0, 0, 10⟩, ⟨2, 0, 1⟩], [], [(7, ⟨0, 0, 0⟩)]⟩,
   ⟨[⟨0, 0, 20⟩, ⟨0, 2, 21⟩, ⟨1, 1, 22⟩], [(⟨1, 2, 0⟩, ⟨0, 0, 0⟩)], []⟩,
   ⟨[⟨1, 1, 30⟩], [], [(8, ⟨2, 1, 1⟩)]⟩]

/-- The biggest region is at row 0, the other ones are behind it. -/
example : (slotBiggest (· < 2) exFloorOrder (exFloorSort _) (exFloorSort _)
    (exFloor.mapIdx fun i r => shapeOf i r.writes)).map Prod.fst = some [3, 0, 3] := by decide +kernel

example : (slotBiggest (· < 2) exFloorBack (exFloorSort _) (exFloorSort _)
    (exFloor.mapIdx fun i r => shapeOf i r.writes)).map Prod.fst = some [3, 0, 3] := by decide +kernel

/-- The constants go to column 2, where row 3 is taken. -/
example : (synthesizeV1 (· < 2) exFloorOrder (exFloorSort _) (exFloorSort _) [2] exFloor).map
    (fun x => (x.2.writes, x.2.copies)) =
    some ([((2, 0), 7), ((2, 1), 8)], [((2, 0), (0, 3)), ((2, 1), (1, 4))]) := by decide +kernel

/-- The hypothesis of `C91_v1` holds. -/
example : ∀ r ∈ exFloor, r.Below exFloor.length := by simp [exFloor, Region.Below]

/-- Too few cells: the constants may not go below the last region. -/
example : (synthesizeV1 (· < 2) exFloorOrder (exFloorSort _) (exFloorSort _) [2]
    [(⟨[⟨0, 0, 10⟩], [], [(7, ⟨0, 0, 0⟩), (8, ⟨0, 0, 0⟩)]⟩ : Region ℕ ℕ)]).isNone = true := by decide +kernel

/-- A gap is used: the third region fits between the other two in column 1. -/
example : (slotBiggest (fun _ => true) exFloorOrder (exFloorSort _) (exFloorSort _)
    ([(⟨[⟨0, 4, 0⟩], [], []⟩ : Region ℕ ℕ), ⟨[⟨0, 1, 0⟩, ⟨1, 0, 0⟩], [], []⟩, ⟨[⟨1, 2, 0⟩], [], []⟩].mapIdx
      fun i r => shapeOf i r.writes)).map Prod.fst = some [0, 5, 0] := by decide +kernel

example : (singleAll [2] exFloor ⟨[], fun _ => 0⟩).map (fun x => (x.2.starts, x.1.map floorCells)) =
    some ([0, 1, 4], [[(0, 0), (2, 0), (2, 1)], [(0, 1), (0, 3), (1, 2)], [(1, 5), (2, 2)]]) := by decide +kernel

/-- The hypothesis of `C91_simple` holds. -/
example : ∀ (j : ℕ) (r : Region ℕ ℕ), exFloor[j]? = some r → r.Below (j + 1) := by
  intro j r h
  match j with
  | 0 | 1 | 2 => simp [exFloor] at h; subst h; simp [Region.Below]
  | j + 3 => simp [exFloor] at h

example : (singleAll [] exFloor ⟨[], fun _ => 0⟩).isNone = true := by decide +kernel

end Tachyon.Props
