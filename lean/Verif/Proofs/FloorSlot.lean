import Verif.Proofs.FloorFit
/-! The slots of the regions (C91). -/
namespace Tachyon.FloorPlan

section
variable {C V : Type} [DecidableEq C]

theorem shapeOf_spec (i : ℕ) (r : Region C V) :
    (shapeOf i r.writes).index = i ∧ (shapeOf i r.writes).columns.Nodup ∧
      (∀ c, c ∈ (shapeOf i r.writes).columns ↔ r.Uses c) ∧ (shapeOf i r.writes).rowCount = r.height := by
  have key : ∀ (ws : List (Write C V)) (s : Shape C), s.columns.Nodup →
      (ws.foldl (fun s w => s.update w.column w.offset) s).index = s.index ∧
      (ws.foldl (fun s w => s.update w.column w.offset) s).columns.Nodup ∧
      (∀ c, c ∈ (ws.foldl (fun s w => s.update w.column w.offset) s).columns ↔ c ∈ s.columns ∨ ∃ w ∈ ws, w.column = c) ∧
      (ws.foldl (fun s w => s.update w.column w.offset) s).rowCount =
        max s.rowCount ((ws.map fun w => w.offset + 1).foldr max 0) := by
    intro ws
    induction ws with
    | nil => intro s h; simp [h]
    | cons w ws ih =>
      intro s h
      have hn : (s.update w.column w.offset).columns.Nodup := by
        unfold Shape.update
        simp only
        split
        · exact h
        · next hw =>
          refine List.nodup_append.2 ⟨h, by simp, ?_⟩
          intro a ha b hb
          simp only [List.mem_singleton] at hb
          subst hb
          exact fun e => hw (e ▸ ha)
      obtain ⟨h1, h2, h3, h4⟩ := ih _ hn
      simp only [List.foldl_cons]
      refine ⟨h1, h2, fun c => ?_, ?_⟩
      · rw [h3 c]
        have : c ∈ (s.update w.column w.offset).columns ↔ c ∈ s.columns ∨ w.column = c := by
          unfold Shape.update
          simp only
          split
          · next hw =>
            constructor
            · exact Or.inl
            · rintro (h | rfl)
              · exact h
              · exact hw
          · simp [eq_comm]
        rw [this]
        simp only [List.mem_cons, exists_eq_or_imp]
        tauto
      · rw [h4]
        simp only [Shape.update, List.map_cons, List.foldr_cons]
        omega
  obtain ⟨h1, h2, h3, h4⟩ := key r.writes ⟨i, [], 0⟩ (by simp)
  refine ⟨h1, h2, fun c => ?_, ?_⟩
  · unfold shapeOf
    rw [h3 c]
    simp [Region.Uses]
  · unfold shapeOf Region.height
    rw [h4]
    simp

omit [DecidableEq C] in
theorem height_pos {r : Region C V} {c : C} (h : r.Uses c) : 0 < r.height := by
  obtain ⟨w, hw, _⟩ := h
  unfold Region.height
  revert hw
  induction r.writes with
  | nil => simp
  | cons a l ih => intro _; simp

omit [DecidableEq C] in
theorem lt_height {r : Region C V} {w : Write C V} (h : w ∈ r.writes) : w.offset < r.height := by
  unfold Region.height
  revert h
  induction r.writes with
  | nil => simp
  | cons a l ih =>
    intro h
    simp only [List.map_cons, List.foldr_cons]
    rcases List.mem_cons.1 h with rfl | h
    · omega
    · have := ih h
      omega

/-- The shape has no repeated columns, and rows if it has columns. -/
def Shape.Ok (s : Shape C) : Prop := s.columns.Nodup ∧ (s.columns ≠ [] → 0 < s.rowCount)

theorem shapeOf_ok (i : ℕ) (r : Region C V) : (shapeOf i r.writes).Ok := by
  obtain ⟨_, h2, h3, h4⟩ := shapeOf_spec i r
  refine ⟨h2, fun h => ?_⟩
  obtain ⟨c, hc⟩ := List.exists_mem_of_ne_nil _ h
  rw [h4]
  exact height_pos ((h3 c).1 hc)

/-- Rows `x` on are apart from a placed region. -/
def ApartAt (x : ℕ) (s : Shape C) (z : ℕ × Shape C) : Prop :=
  ∀ c ∈ s.columns, c ∈ z.2.columns → x + s.rowCount ≤ z.1 ∨ z.1 + z.2.rowCount ≤ x

omit [DecidableEq C] in
theorem exists_free (p : Plan C) (cs : List C) (len : ℕ) : ∃ y, AllFree p cs y len := by
  induction cs with
  | nil => exact ⟨0, by simp [AllFree]⟩
  | cons c cs _ =>
    refine ⟨(((c :: cs).flatMap p.allocs).map Alloc.stop).foldr max 0, fun d hd a ha => Or.inr ?_⟩
    have hmem : a.stop ∈ ((c :: cs).flatMap p.allocs).map Alloc.stop :=
      List.mem_map_of_mem (List.mem_flatMap.2 ⟨d, hd, ha⟩)
    revert hmem
    generalize ((c :: cs).flatMap p.allocs).map Alloc.stop = l
    unfold Alloc.stop
    induction l with
    | nil => simp
    | cons b l ih =>
      intro h
      simp only [List.foldr_cons]
      rcases List.mem_cons.1 h with h | h
      · omega
      · have := ih h
        omega

/-- First fit without a bound. -/
theorem firstFit_place {s : Shape C} (hs : s.Ok) {cs : List C} (hcs : cs.Perm s.columns) {p : Plan C}
    (hp : ∀ c, Sorted (p.allocs c)) :
    ∃ x p', firstFit cs s.rowCount 0 none p = some (some x, p') ∧ AllFree p s.columns x s.rowCount ∧
      (∀ y, AllFree p s.columns y s.rowCount → x ≤ y) ∧
      (∀ c, Sorted (p'.allocs c)) ∧
      (∀ c a, a ∈ p'.allocs c ↔ a ∈ p.allocs c ∨ (c ∈ s.columns ∧ a = ⟨x, s.rowCount⟩)) ∧
      (∀ c, c ∈ p'.keys ↔ c ∈ p.keys ∨ c ∈ s.columns) := by
  have hmem : ∀ c, c ∈ cs ↔ c ∈ s.columns := fun c => hcs.mem_iff
  have hall : ∀ y, AllFree p cs y s.rowCount ↔ AllFree p s.columns y s.rowCount := by
    intro y
    unfold AllFree
    simp only [hmem]
  by_cases h0 : s.columns = []
  · have hcs0 : cs = [] := by rw [h0] at hcs; exact List.perm_nil.1 hcs
    subst hcs0
    refine ⟨0, p, rfl, ?_, fun y _ => by omega, hp, ?_, ?_⟩
    · rw [h0]; simp [AllFree]
    · intro c a; rw [h0]; simp
    · intro c; rw [h0]; simp
  · have hlen := hs.2 h0
    obtain ⟨row, p', hr, hspec⟩ := firstFit_spec hlen cs (hcs.nodup_iff.2 hs.1) 0 none p fun c _ => hp c
    cases row with
    | none =>
      simp only at hspec
      obtain ⟨y, hy⟩ := exists_free p cs s.rowCount
      exact absurd hy (hspec.1 y (by omega) (by simp))
    | some x =>
      simp only at hspec
      obtain ⟨_, _, a3, a4, a5, a6⟩ := hspec
      refine ⟨x, p', hr, (hall x).1 a3, ?_, ?_, ?_, ?_⟩
      · intro y hy
        by_contra hlt
        exact a4 y (by omega) (by omega) ((hall y).2 hy)
      · intro c
        rw [a5 c]
        split
        · next hc => exact sorted_insertAlloc (hp c) hlen (a3 c hc)
        · exact hp c
      · intro c a
        rw [a5 c]
        split
        · next hc =>
          rw [mem_insertAlloc (hp c) hlen (a3 c hc)]
          have := (hmem c).1 hc
          tauto
        · next hc =>
          have : c ∉ s.columns := fun h => hc ((hmem c).2 h)
          tauto
      · intro c
        constructor
        · intro h
          rcases a6.2.1 c h with h | h
          · exact Or.inl h
          · exact Or.inr ((hmem c).1 h)
        · rintro (h | h)
          · exact a6.1 c h
          · exact a6.2.2 rfl c ((hmem c).2 h)

theorem slotIn_spec (o : ColumnOrder C) : ∀ (shapes : List (Shape C)) (p : Plan C), (∀ s ∈ shapes, s.Ok) →
    (∀ c, Sorted (p.allocs c)) →
    ∃ infos p', slotIn o shapes p = some (infos, p') ∧ infos.map Prod.snd = shapes ∧ (∀ c, Sorted (p'.allocs c)) ∧
      (∀ c a, a ∈ p'.allocs c ↔ a ∈ p.allocs c ∨ ∃ y ∈ infos, c ∈ y.2.columns ∧ a = ⟨y.1, y.2.rowCount⟩) ∧
      (∀ c, c ∈ p'.keys ↔ c ∈ p.keys ∨ ∃ y ∈ infos, c ∈ y.2.columns) ∧
      ∀ l y r, infos = l ++ y :: r → (AllFree p y.2.columns y.1 y.2.rowCount ∧ ∀ z ∈ l, ApartAt y.1 y.2 z) ∧
        ∀ x, (AllFree p y.2.columns x y.2.rowCount ∧ ∀ z ∈ l, ApartAt x y.2 z) → y.1 ≤ x := by
  intro shapes
  induction shapes with
  | nil =>
    intro p _ hp
    refine ⟨[], p, rfl, rfl, hp, by simp, by simp, ?_⟩
    intro l y r h
    simp at h
  | cons s ss ih =>
    intro p hok hp
    obtain ⟨x, p1, h1, h2, h3, h4, h5, h6⟩ := firstFit_place (hok s (by simp)) (o.perm s.columns) hp
    obtain ⟨infos, p', g1, g2, g3, g4, g5, g6⟩ := ih p1 (fun t ht => hok t (by simp [ht])) h4
    have hfree : ∀ cs y len, AllFree p1 cs y len ↔ AllFree p cs y len ∧
        ∀ c ∈ cs, c ∈ s.columns → y + len ≤ x ∨ x + s.rowCount ≤ y := by
      intro cs y len
      unfold AllFree Free
      simp only [h5]
      constructor
      · intro h
        exact ⟨fun c hc a ha => h c hc a (Or.inl ha), fun c hc hc' => h c hc ⟨x, s.rowCount⟩ (Or.inr ⟨hc', rfl⟩)⟩
      · rintro ⟨ha, hb⟩ c hc a (h | ⟨h, rfl⟩)
        · exact ha c hc a h
        · exact hb c hc h
    refine ⟨(x, s) :: infos, p', ?_, by simp [g2], g3, ?_, ?_, ?_⟩
    · simp only [slotIn, h1, Option.bind_some, g1, Option.map_some]
    · intro c a
      rw [g4, h5]
      simp only [List.mem_cons, exists_eq_or_imp]
      tauto
    · intro c
      rw [g5, h6]
      simp only [List.mem_cons, exists_eq_or_imp]
      tauto
    · intro l y r h
      cases l with
      | nil =>
        simp only [List.nil_append, List.cons.injEq] at h
        obtain ⟨rfl, rfl⟩ := h
        exact ⟨⟨h2, by simp⟩, fun z hz => h3 z hz.1⟩
      | cons z l =>
        simp only [List.cons_append, List.cons.injEq] at h
        obtain ⟨rfl, h⟩ := h
        obtain ⟨⟨k1, k2⟩, k3⟩ := g6 l y r h
        obtain ⟨k4, k5⟩ := (hfree _ _ _).1 k1
        refine ⟨⟨k4, ?_⟩, ?_⟩
        · intro z hz
          rcases List.mem_cons.1 hz with rfl | hz
          · exact k5
          · exact k2 z hz
        · rintro w ⟨hw1, hw2⟩
          refine k3 w ⟨(hfree _ _ _).2 ⟨hw1, hw2 (x, s) (by simp)⟩, fun z hz => hw2 z (by simp [hz])⟩

theorem sorted_indices {l : List ℕ} {n : ℕ} (h : l.Perm (List.range n)) (hs : l.Pairwise (· ≤ ·)) : l = List.range n :=
  List.Perm.eq_of_pairwise (fun _ _ _ _ h1 h2 => Nat.le_antisymm h1 h2) hs
    (List.pairwise_lt_range.imp fun h => Nat.le_of_lt h) h

/-- The region with an index. -/
def regionAt (regions : List (Region C V)) (i : ℕ) : Region C V := regions.getD i ⟨[], [], []⟩

/-- The shapes of the regions. -/
def shapesOf (regions : List (Region C V)) : List (Shape C) := regions.mapIdx fun i r => shapeOf i r.writes

theorem mem_shapesOf {regions : List (Region C V)} {s : Shape C} (h : s ∈ shapesOf regions) :
    s.index < regions.length ∧ s = shapeOf s.index (regionAt regions s.index).writes := by
  unfold shapesOf at h
  rw [List.mem_mapIdx] at h
  obtain ⟨i, hi, rfl⟩ := h
  have hidx := (shapeOf_spec i regions[i]).1
  rw [hidx]
  refine ⟨hi, ?_⟩
  simp [regionAt, List.getD_eq_getElem?_getD, hi]

theorem shapesOf_index (regions : List (Region C V)) : (shapesOf regions).map Shape.index = List.range regions.length := by
  unfold shapesOf
  apply List.ext_getElem
  · simp
  · intro i h1 h2
    simp [(shapeOf_spec i _).1]

/-- An entry of the result with its region. -/
def withRegion (regions : List (Region C V)) (y : ℕ × Shape C) : ℕ × Region C V := (y.1, regionAt regions y.2.index)

theorem slotBiggest_spec (advice : C → Bool) (o : ColumnOrder C) (byArea : SortBy (adviceArea advice))
    (byIndex : SortBy (infoIndex (C := C))) (regions : List (Region C V)) :
    ∃ starts p infos, slotBiggest advice o byArea byIndex (shapesOf regions) = some (starts, p) ∧
      starts.length = regions.length ∧
      (infos.map (withRegion regions)).Perm (starts.zip regions) ∧
      (∀ y ∈ infos, y.2 = shapeOf y.2.index (regionAt regions y.2.index).writes) ∧
      (infos.Pairwise fun a b => adviceArea advice b.2 ≤ adviceArea advice a.2) ∧
      (∀ c, Sorted (p.allocs c)) ∧
      (∀ c a, a ∈ p.allocs c ↔ ∃ y ∈ infos, c ∈ y.2.columns ∧ a = ⟨y.1, y.2.rowCount⟩) ∧
      (∀ c, c ∈ p.keys ↔ ∃ y ∈ infos, c ∈ y.2.columns) ∧
      ∀ l y r, infos = l ++ y :: r → (∀ z ∈ l, ApartAt y.1 y.2 z) ∧ ∀ x, (∀ z ∈ l, ApartAt x y.2 z) → y.1 ≤ x := by
  have hperm : ((byArea.run (shapesOf regions)).reverse).Perm (shapesOf regions) :=
    (List.reverse_perm _).trans (byArea.perm _)
  have hok : ∀ s ∈ (byArea.run (shapesOf regions)).reverse, s.Ok := by
    intro s hs
    rw [(mem_shapesOf (hperm.mem_iff.1 hs)).2]
    exact shapeOf_ok _ _
  obtain ⟨infos, p, h1, h2, h3, h4, h5, h6⟩ := slotIn_spec o _ (⟨fun _ => [], []⟩ : Plan C) hok
    (fun c => ⟨by simp, by simp⟩)
  have hmem : ∀ y ∈ infos, y.2 ∈ shapesOf regions := by
    intro y hy
    refine hperm.mem_iff.1 ?_
    rw [← h2]
    exact List.mem_map_of_mem hy
  have hidx : (byIndex.run infos).map infoIndex = List.range regions.length := by
    refine sorted_indices ?_ (List.pairwise_map.2 (byIndex.sorted infos))
    have e : infos.map infoIndex = (infos.map Prod.snd).map Shape.index := by simp [infoIndex]
    refine ((byIndex.perm infos).map _).trans ?_
    rw [e, h2, ← shapesOf_index]
    exact hperm.map _
  have hlen : (byIndex.run infos).length = regions.length := by
    have := congrArg List.length hidx
    simpa using this
  have hzip : (byIndex.run infos).map (withRegion regions) = ((byIndex.run infos).map Prod.fst).zip regions := by
    apply List.ext_getElem
    · simp [hlen]
    · intro i hi1 hi2
      have hi : i < (byIndex.run infos).length := by simpa using hi1
      have : ((byIndex.run infos).map infoIndex)[i]'(by simpa using hi) = i := by simp [hidx]
      simp only [List.getElem_map, infoIndex] at this
      simp only [List.getElem_map, List.getElem_zip, withRegion, this, Prod.mk.injEq, true_and]
      simp [regionAt, List.getD_eq_getElem?_getD, hlen ▸ hi]
  refine ⟨(byIndex.run infos).map Prod.fst, p, infos, ?_, by simpa using hlen, ?_, ?_, ?_, h3, ?_, ?_, ?_⟩
  · unfold slotBiggest
    rw [h1]
    rfl
  · rw [← hzip]
    exact ((byIndex.perm infos).map _).symm
  · intro y hy
    exact (mem_shapesOf (hmem y hy)).2
  · have hs := List.pairwise_reverse.2 (byArea.sorted (shapesOf regions))
    rw [← h2] at hs
    exact List.pairwise_map.1 hs
  · intro c a
    rw [h4]
    simp
  · intro c
    rw [h5]
    simp
  · intro l y r h
    obtain ⟨⟨_, k2⟩, k3⟩ := h6 l y r h
    refine ⟨k2, fun x hx => k3 x ⟨?_, hx⟩⟩
    intro c _ a ha
    simp at ha

end
end Tachyon.FloorPlan
