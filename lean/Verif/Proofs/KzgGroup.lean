import Verif.Spec.Kzg
import Verif.Proofs.PolyEval
/-! Grouping of claims. -/
namespace Tachyon.Kzg
open Tachyon.Poly

variable {F : Type} [DecidableEq F]

theorem nodup_eraseDups {α : Type} [BEq α] [LawfulBEq α] : ∀ (n : ℕ) (l : List α), l.length ≤ n → l.eraseDups.Nodup := by
  intro n
  induction n with
  | zero => intro l h; rw [List.length_eq_zero_iff.1 (by omega : l.length = 0)]; simp
  | succ n ih =>
    intro l h
    cases l with
    | nil => simp
    | cons a l =>
      rw [List.eraseDups_cons, List.nodup_cons]
      refine ⟨?_, ih _ ((List.length_filter_le _ _).trans (by simpa using h))⟩
      rw [List.mem_eraseDups, List.mem_filter]
      simp

theorem eraseDups_nodup {α : Type} [BEq α] [LawfulBEq α] (l : List α) : l.eraseDups.Nodup :=
  nodup_eraseDups _ l le_rfl

theorem eraseDups_snoc {α : Type} [BEq α] [LawfulBEq α] [DecidableEq α] (l : List α) (a : α) :
    (l ++ [a]).eraseDups = if a ∈ l then l.eraseDups else l.eraseDups ++ [a] := by
  rw [List.eraseDups_append, List.removeAll]
  by_cases h : a ∈ l
  · simp [h]
  · simp [h, List.eraseDups_cons]

theorem length_eraseDups_le {α : Type} [BEq α] [LawfulBEq α] (l : List α) : l.eraseDups.length ≤ l.length := by
  have h1 := (List.subperm_of_subset (eraseDups_nodup l) fun x hx => List.mem_eraseDups.1 hx)
  exact h1.length_le

/-! ### By point -/

/-- The group of the claims at `x`. -/
def singleGroup (claims : List (Claim F)) (x : F) : Grouped F :=
  ⟨(claims.filter (·.point = x)).map fun c => ⟨c.oracle, [c.opening]⟩, [x]⟩

theorem singleGroup_ne {claims : List (Claim F)} {c : Claim F} {x : F} (h : c.point ≠ x) :
    singleGroup (claims ++ [c]) x = singleGroup claims x := by
  rw [singleGroup, singleGroup, List.filter_append, List.filter_cons_of_neg (by simpa using h)]; simp

theorem addSingle_eq (claims : List (Claim F)) (c : Claim F) : ∀ (K : List F), K.Nodup →
    addSingle c (K.map (singleGroup claims)) = some (if c.point ∈ K then K.map (singleGroup (claims ++ [c]))
      else K.map (singleGroup claims) ++ [⟨[⟨c.oracle, [c.opening]⟩], [c.point]⟩]) := by
  intro K
  induction K with
  | nil => intro _; rfl
  | cons x K ih =>
    intro hn
    rw [List.nodup_cons] at hn
    have hmap : ∀ (K : List F), c.point ∉ K → K.map (singleGroup (claims ++ [c])) = K.map (singleGroup claims) := by
      intro K hK
      exact List.map_congr_left fun y hy => singleGroup_ne fun h => hK (h ▸ hy)
    rw [List.map_cons, addSingle]
    simp only [show (singleGroup claims x).points = [x] from rfl]
    by_cases hx : x = c.point
    · rw [if_pos hx, if_pos (by simp [hx]), List.map_cons, hmap K (hx ▸ hn.1)]
      congr 2
      rw [singleGroup, singleGroup, List.filter_append, List.filter_cons_of_pos (by simp [hx])]
      simp
    · rw [if_neg hx, ih hn.2, Option.map_some]
      by_cases hK : c.point ∈ K
      · rw [if_pos hK, if_pos (by simp [hK]), List.map_cons, singleGroup_ne (fun h => hx h.symm)]
      · rw [if_neg hK, if_neg (by simp [hK, Ne.symm hx])]; rfl

theorem groupBySinglePoint_eq (claims : List (Claim F)) :
    groupBySinglePoint claims = some ((claims.map (·.point)).eraseDups.map (singleGroup claims)) := by
  induction claims using List.reverseRecOn with
  | nil => rfl
  | append_singleton l c ih =>
    rw [groupBySinglePoint] at ih ⊢
    rw [List.foldlM_append, ih]
    show (List.foldlM (fun gs c => addSingle c gs) (((l.map (·.point)).eraseDups).map (singleGroup l)) [c]) = _
    rw [List.foldlM_cons, addSingle_eq l c _ (eraseDups_nodup _)]
    show some _ = some _
    congr 1
    rw [List.map_append, List.map_cons, List.map_nil, eraseDups_snoc]
    by_cases h : c.point ∈ l.map (·.point)
    · rw [if_pos h, if_pos (List.mem_eraseDups.2 h)]
    · rw [if_neg h, if_neg (fun h' => h (List.mem_eraseDups.1 h')), List.map_append]
      congr 1
      · refine (List.map_congr_left fun y hy => (singleGroup_ne fun e => h ?_).symm)
        rw [e]; exact List.mem_eraseDups.1 hy
      · rw [List.map_cons, List.map_nil, singleGroup, List.filter_append, List.filter_cons_of_pos (by simp),
          List.filter_eq_nil_iff.2]
        · simp
        · intro a ha; simp only [decide_eq_true_eq]; intro e
          exact h (e ▸ List.mem_map_of_mem ha)

/-! ### Point sets -/

/-- Sorted, without repetition. -/
def Sorted (canon : F → ℕ) (l : List F) : Prop := l.Pairwise fun a b => canon a < canon b

omit [DecidableEq F] in
theorem Sorted.nodup {canon : F → ℕ} {l : List F} (h : Sorted canon l) : l.Nodup :=
  List.Pairwise.imp (fun hab => by rintro rfl; exact absurd hab (lt_irrefl _)) h

omit [DecidableEq F] in
theorem setInsert_spec {canon : F → ℕ} (hc : Function.Injective canon) (x : F) : ∀ (l : List F),
    Sorted canon l → Sorted canon (setInsert canon x l) ∧ ∀ y, y ∈ setInsert canon x l ↔ y = x ∨ y ∈ l := by
  intro l
  induction l with
  | nil => intro _; exact ⟨List.pairwise_singleton _ _, by simp [setInsert]⟩
  | cons a l ih =>
    intro h
    obtain ⟨h1, h2⟩ := List.pairwise_cons.1 h
    obtain ⟨i1, i2⟩ := ih h2
    rw [setInsert]
    split
    · next hlt =>
      refine ⟨List.pairwise_cons.2 ⟨fun b hb => ?_, h⟩, by simp⟩
      rcases List.mem_cons.1 hb with rfl | hb
      · exact hlt
      · exact hlt.trans (h1 b hb)
    split
    · next hlt =>
      refine ⟨List.pairwise_cons.2 ⟨fun b hb => ?_, i1⟩, fun y => ?_⟩
      · rcases (i2 b).1 hb with rfl | hb
        · exact hlt
        · exact h1 b hb
      · rw [List.mem_cons, i2, List.mem_cons]; tauto
    · next g1 g2 =>
      have : x = a := hc (by omega)
      refine ⟨h, fun y => ?_⟩
      rw [this]; simp

omit [DecidableEq F] in
theorem superPoints_snoc (canon : F → ℕ) (l : List (Claim F)) (c : Claim F) :
    superPoints canon (l ++ [c]) = setInsert canon c.point (superPoints canon l) := by
  rw [superPoints, List.foldl_append]; rfl

omit [DecidableEq F] in
theorem superPoints_spec {canon : F → ℕ} (hc : Function.Injective canon) (l : List (Claim F)) :
    Sorted canon (superPoints canon l) ∧ ∀ y, y ∈ superPoints canon l ↔ ∃ c ∈ l, c.point = y := by
  induction l using List.reverseRecOn with
  | nil => exact ⟨List.Pairwise.nil, by simp [superPoints]⟩
  | append_singleton l c ih =>
    obtain ⟨h1, h2⟩ := setInsert_spec hc c.point _ ih.1
    rw [superPoints_snoc]
    refine ⟨h1, fun y => ?_⟩
    rw [h2, ih.2]
    simp only [List.mem_append, List.mem_singleton]
    constructor
    · rintro (rfl | ⟨d, hd, e⟩)
      · exact ⟨c, .inr rfl, rfl⟩
      · exact ⟨d, .inl hd, e⟩
    · rintro ⟨d, hd | rfl, e⟩
      · exact .inr ⟨d, hd, e⟩
      · exact .inl e.symm

/-! ### By oracle and points -/

/-- The points at which `o` is claimed. -/
def pointsOf (canon : F → ℕ) (claims : List (Claim F)) (o : ℕ) : List F :=
  superPoints canon (claims.filter (·.oracle = o))

omit [DecidableEq F] in
theorem pointsOf_ne {canon : F → ℕ} {claims : List (Claim F)} {c : Claim F} {o : ℕ} (h : c.oracle ≠ o) :
    pointsOf canon (claims ++ [c]) o = pointsOf canon claims o := by
  rw [pointsOf, pointsOf, List.filter_append, List.filter_cons_of_neg (by simpa using h)]; simp

omit [DecidableEq F] in
theorem addOracle_eq (canon : F → ℕ) (claims : List (Claim F)) (c : Claim F) : ∀ (K : List ℕ), K.Nodup →
    addOracle canon c (K.map fun o => (o, pointsOf canon claims o)) =
      if c.oracle ∈ K then K.map fun o => (o, pointsOf canon (claims ++ [c]) o)
      else (K.map fun o => (o, pointsOf canon claims o)) ++ [(c.oracle, [c.point])] := by
  intro K
  induction K with
  | nil => intro _; rfl
  | cons x K ih =>
    intro hn
    rw [List.nodup_cons] at hn
    rw [List.map_cons, addOracle]
    by_cases hx : x = c.oracle
    · rw [if_pos hx, if_pos (by simp [hx]), List.map_cons]
      congr 1
      · simp only [Prod.mk.injEq, true_and]
        rw [pointsOf, pointsOf, List.filter_append, List.filter_cons_of_pos (by simp [hx])]
        exact (superPoints_snoc canon _ c).symm
      · refine List.map_congr_left fun y hy => ?_
        rw [pointsOf_ne (by rintro rfl; exact hn.1 (hx ▸ hy))]
    · rw [if_neg hx, ih hn.2]
      by_cases hK : c.oracle ∈ K
      · rw [if_pos hK, if_pos (by simp [hK]), List.map_cons, pointsOf_ne (fun h => hx h.symm)]
      · rw [if_neg hK, if_neg (by simp [hK, Ne.symm hx])]; rfl

omit [DecidableEq F] in
theorem groupByPolyOracle_eq (canon : F → ℕ) (claims : List (Claim F)) :
    groupByPolyOracle canon claims =
      (claims.map (·.oracle)).eraseDups.map fun o => (o, pointsOf canon claims o) := by
  induction claims using List.reverseRecOn with
  | nil => rfl
  | append_singleton l c ih =>
    rw [groupByPolyOracle] at ih ⊢
    rw [List.foldl_append, ih, List.foldl_cons, List.foldl_nil, addOracle_eq canon l c _ (eraseDups_nodup _),
      List.map_append, List.map_cons, List.map_nil, eraseDups_snoc]
    by_cases h : c.oracle ∈ l.map (·.oracle)
    · rw [if_pos h, if_pos (List.mem_eraseDups.2 h)]
    · rw [if_neg h, if_neg (fun h' => h (List.mem_eraseDups.1 h')), List.map_append]
      congr 1
      · refine (List.map_congr_left fun y hy => ?_)
        rw [pointsOf_ne]; rintro rfl; exact h (List.mem_eraseDups.1 hy)
      · rw [List.map_cons, List.map_nil, pointsOf, List.filter_append, List.filter_cons_of_pos (by simp),
          List.filter_eq_nil_iff.2]
        · rfl
        · intro a ha; simp only [decide_eq_true_eq]; intro e
          exact h (e ▸ List.mem_map_of_mem ha)

/-- The oracles with the point set `S`. -/
def oraclesOf (pairs : List (ℕ × List F)) (S : List F) : List ℕ := (pairs.filter (·.2 = S)).map (·.1)

theorem oraclesOf_ne {pairs : List (ℕ × List F)} {p : ℕ × List F} {S : List F} (h : p.2 ≠ S) :
    oraclesOf (pairs ++ [p]) S = oraclesOf pairs S := by
  rw [oraclesOf, oraclesOf, List.filter_append, List.filter_cons_of_neg (by simpa using h)]; simp

theorem addPoints_eq (pairs : List (ℕ × List F)) (p : ℕ × List F) : ∀ (K : List (List F)), K.Nodup →
    addPoints p (K.map fun S => (S, oraclesOf pairs S)) =
      if p.2 ∈ K then K.map fun S => (S, oraclesOf (pairs ++ [p]) S)
      else (K.map fun S => (S, oraclesOf pairs S)) ++ [(p.2, [p.1])] := by
  intro K
  induction K with
  | nil => intro _; rfl
  | cons x K ih =>
    intro hn
    rw [List.nodup_cons] at hn
    rw [List.map_cons, addPoints]
    by_cases hx : x = p.2
    · rw [if_pos hx, if_pos (by simp [hx]), List.map_cons]
      congr 1
      · simp only [Prod.mk.injEq, true_and]
        rw [oraclesOf, oraclesOf, List.filter_append, List.filter_cons_of_pos (by simp [hx])]
        simp
      · refine List.map_congr_left fun y hy => ?_
        rw [oraclesOf_ne (by rintro rfl; exact hn.1 (hx ▸ hy))]
    · rw [if_neg hx, ih hn.2]
      by_cases hK : p.2 ∈ K
      · rw [if_pos hK, if_pos (by simp [hK]), List.map_cons, oraclesOf_ne (fun h => hx h.symm)]
      · rw [if_neg hK, if_neg (by simp [hK, Ne.symm hx])]; rfl

theorem groupByPoints_eq (pairs : List (ℕ × List F)) :
    groupByPoints pairs = (pairs.map (·.2)).eraseDups.map fun S => (S, oraclesOf pairs S) := by
  induction pairs using List.reverseRecOn with
  | nil => rfl
  | append_singleton l p ih =>
    rw [groupByPoints] at ih ⊢
    rw [List.foldl_append, ih, List.foldl_cons, List.foldl_nil, addPoints_eq l p _ (eraseDups_nodup _),
      List.map_append, List.map_cons, List.map_nil, eraseDups_snoc]
    by_cases h : p.2 ∈ l.map (·.2)
    · rw [if_pos h, if_pos (List.mem_eraseDups.2 h)]
    · rw [if_neg h, if_neg (fun h' => h (List.mem_eraseDups.1 h')), List.map_append]
      congr 1
      · refine (List.map_congr_left fun y hy => ?_)
        rw [oraclesOf_ne]; rintro rfl; exact h (List.mem_eraseDups.1 hy)
      · rw [List.map_cons, List.map_nil, oraclesOf, List.filter_append, List.filter_cons_of_pos (by simp),
          List.filter_eq_nil_iff.2]
        · rfl
        · intro a ha; simp only [decide_eq_true_eq]; intro e
          exact h (e ▸ List.mem_map_of_mem ha)

/-- The point sets, in the order of the first oracle that has them. -/
def pointSets (canon : F → ℕ) (claims : List (Claim F)) : List (List F) :=
  ((claims.map (·.oracle)).eraseDups.map (pointsOf canon claims)).eraseDups

/-- The oracles claimed at the points `S`, in the order of their first claims. -/
def oraclesAt (canon : F → ℕ) (claims : List (Claim F)) (S : List F) : List ℕ :=
  (claims.map (·.oracle)).eraseDups.filter (pointsOf canon claims · = S)

/-- The group of the oracles claimed at the points `S`. -/
def multiGroup [Field F] (canon : F → ℕ) (claims : List (Claim F)) (S : List F) : Grouped F :=
  ⟨(oraclesAt canon claims S).map fun o => ⟨o, S.map (opened claims o)⟩, S⟩

theorem getOpening_some [Field F] {claims : List (Claim F)} {o : ℕ} {x : F} (h : ∃ c ∈ claims, c.oracle = o ∧ c.point = x) :
    getOpening claims o x = some (opened claims o x) := by
  rw [opened, getOpening]
  cases h' : claims.find? fun c => decide (c.oracle = o) && decide (c.point = x) with
  | some c => rfl
  | none =>
    obtain ⟨c, hc, h1, h2⟩ := h
    have := List.find?_eq_none.1 h' c hc
    simp [h1, h2] at this

theorem groups_eq [Field F] {canon : F → ℕ} (hc : Function.Injective canon) (claims : List (Claim F)) :
    groupByPolyOracleAndPoints canon claims =
      some ((pointSets canon claims).map (multiGroup canon claims)) := by
  have hor : ∀ S, oraclesOf ((claims.map (·.oracle)).eraseDups.map fun o => (o, pointsOf canon claims o)) S =
      oraclesAt canon claims S := by
    intro S
    rw [oraclesOf, oraclesAt, List.filter_map, List.map_map]
    exact List.map_id _
  rw [groupByPolyOracleAndPoints, groupByPolyOracle_eq, groupByPoints_eq, createMulti, List.map_map, pointSets]
  refine Eq.trans (mapM_some (g := fun q : List F × List ℕ => multiGroup canon claims q.1) fun q hq => ?_) ?_
  · obtain ⟨S, -, rfl⟩ := List.mem_map.1 hq
    simp only [hor]
    rw [mapM_some (g := fun o => ⟨o, S.map (opened claims o)⟩), Option.map_some]
    · rfl
    intro o ho
    rw [openingsOf, mapM_some (g := opened claims o), Option.map_some]
    intro x hx
    refine getOpening_some ?_
    have h1 : pointsOf canon claims o = S := by simpa using (List.mem_filter.1 ho).2
    rw [← h1, pointsOf, (superPoints_spec hc _).2] at hx
    obtain ⟨c, h2, h3⟩ := hx
    exact ⟨c, (List.mem_filter.1 h2).1, by simpa using (List.mem_filter.1 h2).2, h3⟩
  · rw [List.map_map]; rfl

end Tachyon.Kzg
