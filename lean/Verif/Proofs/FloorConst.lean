import Verif.Proofs.FloorSlot
/-! The constants and the second pass of the floor planner (C91). -/
namespace Tachyon.FloorPlan

theorem foldl_max_le_iff (l : List ℕ) (a h : ℕ) : l.foldl max a ≤ h ↔ a ≤ h ∧ ∀ x ∈ l, x ≤ h := by
  induction l generalizing a with
  | nil => simp
  | cons b l ih =>
    rw [List.foldl_cons, ih]
    simp only [List.mem_cons, forall_eq_or_imp, max_le_iff]
    tauto

theorem unboundedStart_le {l : List Alloc} (hs : Sorted l) (h : ℕ) : unboundedStart l ≤ h ↔ ∀ a ∈ l, a.stop ≤ h := by
  unfold unboundedStart
  rcases List.eq_nil_or_concat l with rfl | ⟨i, a, rfl⟩
  · simp
  · simp only [List.concat_eq_append, List.getLast?_append, List.getLast?_singleton, Option.some_or, List.mem_append,
      List.mem_singleton]
    constructor
    · rintro h b (hb | rfl)
      · have := (List.pairwise_append.1 (by simpa using hs.1)).2.2 b hb a (by simp)
        unfold Alloc.stop at *
        omega
      · exact h
    · intro h
      exact h a (Or.inr rfl)

section
variable {C V : Type}

theorem mapM_eq {α β : Type} {f : α → Option β} {g : α → β} {l : List α} (h : ∀ x ∈ l, f x = some (g x)) :
    l.mapM f = some (l.map g) := by
  induction l with
  | nil => rfl
  | cons a l ih =>
    rw [List.mapM_cons, h a (by simp), ih fun x hx => h x (by simp [hx])]
    rfl

theorem absolute_eq {starts : List ℕ} {c : Cell C} (h : c.region < starts.length) :
    absolute starts c = some (place starts c) := by
  simp [absolute, place, List.getD_eq_getElem?_getD, h]

theorem absolutePair_eq {starts : List ℕ} {p : Cell C × Cell C} (h : p.1.region < starts.length ∧ p.2.region < starts.length) :
    absolutePair starts p = some (place starts p.1, place starts p.2) := by
  simp [absolutePair, absolute_eq h.1, absolute_eq h.2]

theorem assignRegion_eq {starts : List ℕ} {i s : ℕ} {r : Region C V} (hi : starts[i]? = some s)
    (h : r.Below starts.length) : assignRegion starts i r = some (regionOut starts s r) := by
  unfold assignRegion
  rw [hi, Option.bind_some, mapM_eq fun p hp => absolutePair_eq (h.1 p hp)]
  rfl

theorem assignFrom_eq (starts : List ℕ) : ∀ (rs : List (Region C V)) (i : ℕ), i + rs.length ≤ starts.length →
    (∀ r ∈ rs, r.Below starts.length) →
    assignFrom starts i rs = some (List.zipWith (regionOut starts) (starts.drop i) rs) := by
  intro rs
  induction rs with
  | nil => intro i _ _; simp [assignFrom]
  | cons r rs ih =>
    intro i hi hb
    simp only [List.length_cons] at hi
    have h1 : i < starts.length := by omega
    simp only [assignFrom]
    rw [assignRegion_eq (List.getElem?_eq_getElem h1) (hb r (by simp)), Option.bind_some,
      ih (i + 1) (by omega) fun x hx => hb x (by simp [hx]), List.drop_eq_getElem_cons h1]
    rfl

theorem assignConstants_eq (starts : List ℕ) (cells : List (C × ℕ)) (consts : List (V × Cell C))
    (hb : ∀ k ∈ consts, k.2.region < starts.length) :
    assignConstants starts (cells.zip consts) = some (constOut starts cells consts) := by
  unfold assignConstants constOut
  rw [mapM_eq (g := fun x => (x.1, place starts x.2.2))]
  · simp only [Option.map_some, List.zip, List.map_zipWith]
  · intro x hx
    rw [absolute_eq (hb _ (List.of_mem_zip hx).2)]
    rfl

theorem mem_constantPositions {p : Plan C} (hp : ∀ c, Sorted (p.allocs c)) {cols : List C} {c : C} {x : ℕ} :
    (c, x) ∈ constantPositions p cols ↔ c ∈ cols ∧ x < firstUnassigned p ∧ Free (p.allocs c) x 1 := by
  unfold constantPositions freeIntervals
  obtain ⟨h1, _, h3⟩ := freeGo_spec (some (firstUnassigned p)) (p.allocs c) 0 (hp c)
  have h3 := h3 x 1 (by omega) (by omega)
  simp only [List.mem_flatMap]
  constructor
  · rintro ⟨d, hd, s, hs, hx⟩
    obtain ⟨h1', _, _⟩ := freeGo_spec (some (firstUnassigned p)) (p.allocs d) 0 (hp d)
    obtain ⟨_, he, _⟩ := h1' s hs
    obtain ⟨e, he, hle⟩ := he _ rfl
    rw [he] at hx
    simp only [List.mem_map, List.mem_range'_1, Prod.mk.injEq] at hx
    obtain ⟨row, hrow, rfl, rfl⟩ := hx
    refine ⟨hd, by omega, (h3 ?_).2 ⟨s, hs, hrow.1, ?_⟩⟩
    · intro y hy
      simp only [Option.mem_def, Option.some.injEq] at hy
      omega
    · intro y hy
      rw [he] at hy
      simp only [Option.mem_def, Option.some.injEq] at hy
      omega
  · rintro ⟨hc, hx, hf⟩
    obtain ⟨s, hs, hi⟩ := (h3 (by intro y hy; simp only [Option.mem_def, Option.some.injEq] at hy; omega)).1 hf
    refine ⟨c, hc, s, hs, ?_⟩
    obtain ⟨_, he, _⟩ := h1 s hs
    obtain ⟨e, he, hle⟩ := he _ rfl
    have := hi.2 e (by rw [he]; rfl)
    have := hi.1
    rw [he]
    simp only [List.mem_map, List.mem_range'_1, Prod.mk.injEq, true_and, exists_eq_right]
    omega

theorem constantPositions_nodup {p : Plan C} (hp : ∀ c, Sorted (p.allocs c)) {cols : List C} (hc : cols.Nodup) :
    (constantPositions p cols).Nodup := by
  unfold constantPositions freeIntervals
  rw [List.nodup_flatMap]
  refine ⟨fun c _ => ?_, ?_⟩
  · obtain ⟨h1, h2, _⟩ := freeGo_spec (some (firstUnassigned p)) (p.allocs c) 0 (hp c)
    rw [List.nodup_flatMap]
    refine ⟨fun s _ => ?_, ?_⟩
    · split
      · exact List.Nodup.map (fun a b h => by simpa using h) List.nodup_range'
      · exact List.nodup_nil
    · refine List.Pairwise.imp ?_ h2
      intro s t hst
      obtain ⟨e, he, hle⟩ := hst
      simp only [Function.onFun, List.disjoint_left]
      intro x hx hx'
      rw [he] at hx
      cases ht : t.2 with
      | none => rw [ht] at hx'; simp at hx'
      | some f =>
        rw [ht] at hx'
        simp only [List.mem_map, List.mem_range'_1] at hx hx'
        obtain ⟨a, ha, rfl⟩ := hx
        obtain ⟨b, hb, hab⟩ := hx'
        simp only [Prod.mk.injEq, true_and] at hab
        omega
  · refine List.Pairwise.imp ?_ hc
    intro c d hcd
    simp only [Function.onFun, List.disjoint_left]
    intro x hx hx'
    simp only [List.mem_flatMap] at hx hx'
    obtain ⟨s, _, hs⟩ := hx
    obtain ⟨t, _, ht⟩ := hx'
    have e1 : x.1 = c := by
      split at hs
      · obtain ⟨_, _, rfl⟩ := List.mem_map.1 hs; rfl
      · simp at hs
    have e2 : x.1 = d := by
      split at ht
      · obtain ⟨_, _, rfl⟩ := List.mem_map.1 ht; rfl
      · simp at ht
    exact hcd (e1.symm.trans e2)

end
section
variable {C V : Type} [DecidableEq C]

omit [DecidableEq C] in
theorem apart_symm {x y : ℕ × Region C V} (h : Apart x.1 x.2 y.1 y.2) : Apart y.1 y.2 x.1 x.2 :=
  fun c hc hc' => (h c hc' hc).symm

theorem adviceArea_eq (advice : C → Bool) (i : ℕ) (r : Region C V) :
    adviceArea advice (shapeOf i r.writes) = r.area advice := by
  obtain ⟨_, h2, h3, h4⟩ := shapeOf_spec i r
  unfold adviceArea Region.area
  rw [h4]
  congr 1
  refine List.Perm.length_eq (List.Perm.filter _ ?_)
  refine (List.perm_ext_iff_of_nodup h2 (List.nodup_dedup _)).2 fun c => ?_
  rw [h3 c, List.mem_dedup, List.mem_map]
  rfl

theorem slot_spec (advice : C → Bool) (o : ColumnOrder C) (byArea : SortBy (adviceArea advice))
    (byIndex : SortBy (infoIndex (C := C))) (regions : List (Region C V)) :
    ∃ starts p, slotBiggest advice o byArea byIndex (regions.mapIdx fun i r => shapeOf i r.writes) = some (starts, p) ∧
      V1Plan advice regions starts ∧ (∀ c, Sorted (p.allocs c)) ∧
      (∀ c a, a ∈ p.allocs c ↔ ∃ y ∈ starts.zip regions, y.2.Uses c ∧ a = ⟨y.1, y.2.height⟩) ∧
      (∀ c, c ∈ p.keys ↔ ∃ y ∈ starts.zip regions, y.2.Uses c) := by
  obtain ⟨starts, p, infos, h1, h2, h3, h4, h5, h6, h7, h8, h9⟩ := slotBiggest_spec advice o byArea byIndex regions
  have hcol : ∀ y ∈ infos, (∀ c, c ∈ y.2.columns ↔ (withRegion regions y).2.Uses c) ∧
      y.2.rowCount = (withRegion regions y).2.height ∧ y.1 = (withRegion regions y).1 := by
    intro y hy
    obtain ⟨_, _, k3, k4⟩ := shapeOf_spec y.2.index (regionAt regions y.2.index)
    rw [← h4 y hy] at k3 k4
    exact ⟨k3, k4, rfl⟩
  have hex : ∀ P : ℕ × Region C V → Prop, (∃ y ∈ starts.zip regions, P y) ↔ ∃ y ∈ infos, P (withRegion regions y) := by
    intro P
    constructor
    · rintro ⟨y, hy, h⟩
      obtain ⟨z, hz, rfl⟩ := List.mem_map.1 (h3.mem_iff.2 hy)
      exact ⟨z, hz, h⟩
    · rintro ⟨z, hz, h⟩
      exact ⟨_, h3.mem_iff.1 (List.mem_map_of_mem hz), h⟩
  have hap : ∀ y ∈ infos, ∀ z ∈ infos, ∀ x, ApartAt x y.2 z ↔
      Apart x (withRegion regions y).2 (withRegion regions z).1 (withRegion regions z).2 := by
    intro y hy z hz x
    obtain ⟨a1, a2, _⟩ := hcol y hy
    obtain ⟨b1, b2, b3⟩ := hcol z hz
    unfold ApartAt Apart
    simp only [a1, a2, b1, b2, b3]
  refine ⟨starts, p, h1, ⟨h2, ?_, infos.map (withRegion regions), h3, ?_, ?_⟩, h6, ?_, ?_⟩
  · refine (h3.pairwise_iff fun {x y} h => apart_symm h).1 ?_
    rw [List.pairwise_map]
    rw [List.pairwise_iff_getElem]
    intro i j hi hj hij
    have hsplit : infos = infos.take j ++ infos[j] :: infos.drop (j + 1) := by
      rw [← List.drop_eq_getElem_cons hj, List.take_append_drop]
    have hmem : infos[i] ∈ infos.take j := by
      rw [List.mem_take_iff_getElem]
      exact ⟨i, by omega, rfl⟩
    exact apart_symm ((hap _ (List.getElem_mem hj) _ (List.getElem_mem hi) _).1 ((h9 _ _ _ hsplit).1 _ hmem))
  · rw [List.pairwise_map]
    refine List.Pairwise.imp_of_mem ?_ h5
    intro a b ha hb hab
    rw [h4 a ha, h4 b hb, adviceArea_eq, adviceArea_eq] at hab
    exact hab
  · intro l y r hl x hx
    obtain ⟨l', t, rfl, rfl, ht⟩ := List.map_eq_append_iff.1 hl
    obtain ⟨y', r', rfl, rfl, rfl⟩ := List.map_eq_cons_iff.1 ht
    refine (h9 l' y' r' rfl).2 x fun z hz => ?_
    exact (hap y' (by simp) z (by simp [hz]) x).2 (hx _ (List.mem_map_of_mem hz))
  · intro c a
    rw [h7, hex]
    refine exists_congr fun y => and_congr_right fun hy => ?_
    obtain ⟨a1, a2, a3⟩ := hcol y hy
    rw [a1, a2, ← a3]
  · intro c
    rw [h8, hex]
    refine exists_congr fun y => and_congr_right fun hy => ?_
    rw [(hcol y hy).1]

omit [DecidableEq C] in
theorem firstUnassigned_le {p : Plan C} {l : List (ℕ × Region C V)} (hs : ∀ c, Sorted (p.allocs c))
    (ha : ∀ c a, a ∈ p.allocs c ↔ ∃ y ∈ l, y.2.Uses c ∧ a = ⟨y.1, y.2.height⟩)
    (hk : ∀ c, c ∈ p.keys ↔ ∃ y ∈ l, y.2.Uses c) (h : ℕ) :
    firstUnassigned p ≤ h ↔ ∀ y ∈ l, ∀ c, y.2.Uses c → y.1 + y.2.height ≤ h := by
  unfold firstUnassigned
  rw [foldl_max_le_iff]
  simp only [Nat.zero_le, true_and, List.mem_map, forall_exists_index, and_imp, forall_apply_eq_imp_iff₂]
  constructor
  · intro hh y hy c hc
    have := (unboundedStart_le (hs c) h).1 (hh c ((hk c).2 ⟨y, hy, hc⟩)) _ ((ha c _).2 ⟨y, hy, hc, rfl⟩)
    exact this
  · intro hh c _
    rw [unboundedStart_le (hs c)]
    intro a haa
    obtain ⟨y, hy, hc, rfl⟩ := (ha c a).1 haa
    exact hh y hy c hc

theorem v1_spec (advice : C → Bool) (o : ColumnOrder C) (byArea : SortBy (adviceArea advice))
    (byIndex : SortBy (infoIndex (C := C))) (cols : List C) (hcols : cols.Nodup) (regions : List (Region C V))
    (hb : ∀ r ∈ regions, r.Below regions.length) :
    ∃ starts positions, V1Plan advice regions starts ∧ positions.Nodup ∧
      (∀ c x, (c, x) ∈ positions ↔ c ∈ cols ∧ (∃ y ∈ starts.zip regions, (∃ d, y.2.Uses d) ∧ x < y.1 + y.2.height) ∧
        ∀ y ∈ starts.zip regions, ¬ Covers y.1 y.2 c x) ∧
      synthesizeV1 advice o byArea byIndex cols regions =
        if positions.length < (regions.flatMap fun r => r.consts).length then none
        else some (List.zipWith (regionOut starts) starts regions,
          constOut starts positions (regions.flatMap fun r => r.consts)) := by
  obtain ⟨starts, p, h1, h2, h3, h4, h5⟩ := slot_spec advice o byArea byIndex regions
  refine ⟨starts, constantPositions p cols, h2, constantPositions_nodup h3 hcols, ?_, ?_⟩
  · intro c x
    rw [mem_constantPositions h3]
    refine and_congr_right fun _ => and_congr ?_ ?_
    · rw [← not_le, firstUnassigned_le h3 h4 h5]
      push Not
      constructor
      · rintro ⟨y, hy, d, hd, hx⟩
        exact ⟨y, hy, ⟨d, hd⟩, hx⟩
      · rintro ⟨y, hy, ⟨d, hd⟩, hx⟩
        exact ⟨y, hy, d, hd, hx⟩
    · unfold Free Covers
      constructor
      · rintro h y hy ⟨hc, hx⟩
        have := h ⟨y.1, y.2.height⟩ ((h4 c _).2 ⟨y, hy, hc, rfl⟩)
        simp only at this
        omega
      · intro h a haa
        obtain ⟨y, hy, hc, rfl⟩ := (h4 c a).1 haa
        have := h y hy
        simp only
        by_contra hh
        exact this ⟨hc, by omega, by omega⟩
  · unfold synthesizeV1
    have hb' : ∀ r ∈ regions, r.Below starts.length := by rw [h2.length]; exact hb
    rw [h1, Option.bind_some]
    simp only
    rw [assignFrom_eq starts regions 0 (by rw [h2.length]; omega) hb', Option.bind_some, assignConstants_eq]
    · simp
    · intro k hk
      obtain ⟨r, hr, hk⟩ := List.mem_flatMap.1 hk
      exact (hb' r hr).2 k hk

end
end Tachyon.FloorPlan
