import Verif.Proofs.FloorConst
/-! The layouter of the simple floor planner (C91). -/
namespace Tachyon.FloorPlan

section
variable {C V : Type}

theorem place_append {l m : List ℕ} {c : Cell C} (h : c.region < l.length) : place (l ++ m) c = place l c := by
  simp [place, List.getD_eq_getElem?_getD, List.getElem?_append_left h]

theorem regionOut_append {l m : List ℕ} {s : ℕ} {r : Region C V} (h : r.Below l.length) :
    regionOut (l ++ m) s r = regionOut l s r := by
  unfold regionOut
  congr 1
  refine List.map_congr_left fun p hp => ?_
  rw [place_append (h.1 p hp).1, place_append (h.1 p hp).2]

theorem constOut_append {l m : List ℕ} (cells : List (C × ℕ)) {consts : List (V × Cell C)}
    (h : ∀ k ∈ consts, k.2.region < l.length) : constOut (l ++ m) cells consts = constOut l cells consts := by
  unfold constOut
  congr 1
  induction cells generalizing consts with
  | nil => simp
  | cons x cells ih =>
    cases consts with
    | nil => simp
    | cons k consts =>
      rw [List.zipWith_cons_cons, List.zipWith_cons_cons, place_append (h k (by simp)),
        ih fun k hk => h k (by simp [hk])]

/-- The next rows are the first ones behind everything. -/
def NextOk (st : Single C) (done : List (ℕ × Region C V × Out C V)) : Prop := ∀ c x, st.next c ≤ x ↔ Behind done c x

theorem behind_append (done : List (ℕ × Region C V × Out C V)) (e : ℕ × Region C V × Out C V) (c : C) (x : ℕ) :
    Behind (done ++ [e]) c x ↔ Behind done c x ∧ (e.2.1.Uses c → e.1 + e.2.1.height ≤ x) ∧
      ∀ k ∈ e.2.2.writes, k.1.1 = c → k.1.2 < x := by
  unfold Behind
  simp only [List.mem_append, List.mem_singleton, or_imp, forall_and, forall_eq]
  constructor
  · rintro ⟨⟨a, b⟩, c, d⟩
    exact ⟨⟨a, c⟩, b, d⟩
  · rintro ⟨⟨a, c⟩, b, d⟩
    exact ⟨⟨a, b⟩, c, d⟩

end
section
variable {C V : Type} [DecidableEq C]

omit [DecidableEq C] in
theorem constOut_writes (starts : List ℕ) (c : C) (n : ℕ) (consts : List (V × Cell C)) (d : C) (x : ℕ) :
    (∀ k ∈ (constOut starts ((List.range' n consts.length).map fun row => (c, row)) consts).writes, k.1.1 = d → k.1.2 < x) ↔
      (c = d → consts ≠ [] → n + consts.length ≤ x) := by
  have hmem : ∀ row, n ≤ row → row < n + consts.length → ∃ v, ((c, row), v) ∈
      (constOut starts ((List.range' n consts.length).map fun row => (c, row)) consts).writes := by
    intro row h1 h2
    refine ⟨(consts[row - n]'(by omega)).1, ?_⟩
    unfold constOut
    rw [List.mem_iff_getElem]
    refine ⟨row - n, by simp; omega, ?_⟩
    simp only [List.getElem_zipWith, List.getElem_map, List.getElem_range', Prod.mk.injEq, and_true, true_and]
    omega
  constructor
  · rintro h rfl hne
    have hlen : 0 < consts.length := List.length_pos_of_ne_nil hne
    obtain ⟨v, hv⟩ := hmem (n + consts.length - 1) (by omega) (by omega)
    have := h _ hv rfl
    simp only at this
    omega
  · intro h k hk hkd
    unfold constOut at hk
    rw [List.mem_iff_getElem] at hk
    obtain ⟨i, hi, rfl⟩ := hk
    simp only [List.length_zipWith, List.length_map, List.length_range', min_self] at hi
    simp only [List.getElem_zipWith, List.getElem_map, List.getElem_range'] at hkd ⊢
    have := h hkd (List.ne_nil_of_length_pos (by omega))
    omega

theorem singleRegion_spec {cols : List C} {st : Single C} {r : Region C V} {done : List (ℕ × Region C V × Out C V)}
    (hn : NextOk st done) (hb : r.Below (st.starts.length + 1)) :
    if cols = [] ∧ r.consts ≠ [] then singleRegion cols st r = none
    else ∃ s o k st', singleRegion cols st r = some ((o, k), st') ∧ st'.starts = st.starts ++ [s] ∧
      NextOk st' (done ++ [(s, r, k)]) ∧ SingleStep cols st'.starts done s r o k := by
  obtain ⟨_, h2, h3, h4⟩ := shapeOf_spec st.starts.length r
  set shape := shapeOf st.starts.length r.writes with hshape
  set start := (shape.columns.map st.next).foldl max 0 with hstart
  have hsx : ∀ x, start ≤ x ↔ ∀ c, r.Uses c → Behind done c x := by
    intro x
    rw [hstart, foldl_max_le_iff]
    simp only [Nat.zero_le, true_and, List.mem_map, forall_exists_index, and_imp, forall_apply_eq_imp_iff₂, h3, hn _ _]
  have hnext : ∀ c x, (if c ∈ shape.columns then start + shape.rowCount else st.next c) ≤ x ↔
      Behind (done ++ [(start, r, ⟨[], []⟩)]) c x := by
    intro c x
    rw [behind_append]
    simp only [List.not_mem_nil, false_imp_iff, implies_true, and_true]
    split
    · next hc =>
      have hu := (h3 c).1 hc
      rw [h4]
      constructor
      · intro h
        refine ⟨?_, fun _ => h⟩
        have hs := (hsx start).1 le_rfl c hu
        exact (hn c x).1 (((hn c start).2 hs).trans (by omega))
      · rintro ⟨_, h⟩
        exact h hu
    · next hc =>
      have hu : ¬ r.Uses c := fun h => hc ((h3 c).2 h)
      rw [hn c x]
      exact ⟨fun h => ⟨h, fun h' => absurd h' hu⟩, fun h => h.1⟩
  have hb' : r.Below (st.starts ++ [start]).length := by simpa using hb
  have ho : assignRegion (st.starts ++ [start]) st.starts.length r = some (regionOut (st.starts ++ [start]) start r) :=
    assignRegion_eq (by simp) hb'
  cases cols with
  | nil =>
    have hrun : singleRegion [] st r = if r.consts.isEmpty then
        some ((regionOut (st.starts ++ [start]) start r, ⟨[], []⟩),
          ⟨st.starts ++ [start], fun c => if c ∈ shape.columns then start + shape.rowCount else st.next c⟩) else none := by
      unfold singleRegion
      simp only [← hshape, ← hstart]
      rw [ho]
      rfl
    by_cases hc : r.consts = []
    · rw [if_neg (by simp [hc]), hrun, if_pos (by simp [hc])]
      exact ⟨start, _, _, _, rfl, rfl, hnext, rfl, hsx, rfl⟩
    · rw [if_pos ⟨rfl, hc⟩, hrun]
      simp [hc]
  | cons c cs =>
    rw [if_neg (by simp)]
    have hrun : singleRegion (c :: cs) st r = some ((regionOut (st.starts ++ [start]) start r,
        constOut (st.starts ++ [start]) ((List.range' (if c ∈ shape.columns then start + shape.rowCount else st.next c)
          r.consts.length).map fun row => (c, row)) r.consts),
          ⟨st.starts ++ [start], fun c' => if c' = c then
            (if c ∈ shape.columns then start + shape.rowCount else st.next c) + r.consts.length
            else if c' ∈ shape.columns then start + shape.rowCount else st.next c'⟩) := by
      unfold singleRegion
      simp only [← hshape, ← hstart]
      rw [ho, Option.bind_some, assignConstants_eq _ _ _ hb'.2]
      rfl
    refine ⟨start, _, _, _, hrun, rfl, ?_, rfl, hsx, _, hnext c, rfl⟩
    intro d x
    rw [behind_append, constOut_writes]
    have hd := hnext d x
    have hcx := hnext c x
    rw [behind_append] at hd hcx
    simp only [List.not_mem_nil, false_imp_iff, implies_true, and_true] at hd hcx
    simp only
    rw [← and_assoc, ← hd]
    by_cases hdc : d = c
    · subst hdc
      rw [if_pos rfl]
      rcases List.eq_nil_or_concat r.consts with hc | ⟨_, _, hc⟩
      · simp [hc]
      · have hne : r.consts ≠ [] := by rw [hc]; simp
        simp only [forall_const, ne_eq, hne, not_false_eq_true]
        omega
    · rw [if_neg hdc]
      have : ¬ c = d := fun h => hdc h.symm
      tauto

theorem singleAll_spec (cols : List C) : ∀ (rs : List (Region C V)) (st : Single C) (done : List (ℕ × Region C V × Out C V)),
    NextOk st done → (∀ (j : ℕ) (r : Region C V), rs[j]? = some r → r.Below (st.starts.length + j + 1)) →
    if cols = [] ∧ ∃ r ∈ rs, r.consts ≠ [] then singleAll cols rs st = none
    else ∃ outs st' new, singleAll cols rs st = some (outs, st') ∧ st'.starts = st.starts ++ new ∧ new.length = rs.length ∧
      outs.length = rs.length ∧
      ∀ l x r, new.zip (rs.zip outs) = l ++ x :: r →
        SingleStep cols st'.starts (done ++ l.map fun y => (y.1, y.2.1, y.2.2.2)) x.1 x.2.1 x.2.2.1 x.2.2.2 := by
  intro rs
  induction rs with
  | nil =>
    intro st done _ _
    rw [if_neg (by simp)]
    refine ⟨[], st, [], rfl, by simp, rfl, rfl, ?_⟩
    intro l x r h
    simp at h
  | cons q rs ih =>
    intro st done hn hb
    have hq : q.Below (st.starts.length + 1) := hb 0 q rfl
    have h1 := singleRegion_spec (cols := cols) hn hq
    by_cases hc : cols = [] ∧ q.consts ≠ []
    · rw [if_pos hc] at h1
      rw [if_pos ⟨hc.1, q, by simp, hc.2⟩]
      simp only [singleAll, h1, Option.bind_none]
    · rw [if_neg hc] at h1
      obtain ⟨s, o, k, st1, h1, h2, h3, h4⟩ := h1
      have hrest := ih st1 _ h3 fun j r hj => by
        have := hb (j + 1) r (by simpa using hj)
        rw [h2]
        simp only [List.length_append, List.length_singleton]
        rw [show st.starts.length + 1 + j + 1 = st.starts.length + (j + 1) + 1 by omega]
        exact this
      by_cases hc' : cols = [] ∧ ∃ r ∈ rs, r.consts ≠ []
      · rw [if_pos hc'] at hrest
        obtain ⟨e1, r, hr, e2⟩ := hc'
        rw [if_pos ⟨e1, r, by simp [hr], e2⟩]
        simp only [singleAll, h1, Option.bind_some, hrest, Option.map_none]
      · rw [if_neg hc'] at hrest
        obtain ⟨outs, st', new, g1, g2, g3, g4, g5⟩ := hrest
        rw [if_neg (by
          rintro ⟨e1, r, hr, e2⟩
          rcases List.mem_cons.1 hr with rfl | hr
          · exact hc ⟨e1, e2⟩
          · exact hc' ⟨e1, r, hr, e2⟩)]
        refine ⟨(o, k) :: outs, st', s :: new, ?_, by rw [g2, h2]; simp, by simp [g3], by simp [g4], ?_⟩
        · simp only [singleAll, h1, Option.bind_some, g1, Option.map_some]
        · intro l x r h
          cases l with
          | nil =>
            simp only [List.zip_cons_cons, List.nil_append, List.cons.injEq] at h
            obtain ⟨rfl, _⟩ := h
            simp only [List.map_nil, List.append_nil]
            obtain ⟨k1, k2, k3⟩ := h4
            have hq1 : q.Below st1.starts.length := by rw [h2]; simpa using hq
            rw [g2]
            refine ⟨by rw [regionOut_append hq1]; exact k1, k2, ?_⟩
            cases cols with
            | nil => exact k3
            | cons c cs =>
              obtain ⟨n, k3, k4⟩ := k3
              exact ⟨n, k3, by rw [constOut_append _ hq1.2]; exact k4⟩
          | cons z l =>
            simp only [List.zip_cons_cons, List.cons_append, List.cons.injEq] at h
            obtain ⟨rfl, h⟩ := h
            have := g5 l x r h
            simpa using this

end
end Tachyon.FloorPlan

namespace Tachyon.FloorPlan
section
variable {C V : Type}

/-- The sum of the heights. -/
def heights (l : List (ℕ × Region C V)) : ℕ := (l.map fun y => y.2.height).sum

theorem order_bound {order : List (ℕ × Region C V)}
    (h : ∀ l y r, order = l ++ y :: r → ∀ x, (∀ z ∈ l, Apart x y.2 z.1 z.2) → y.1 ≤ x) :
    ∀ n l y r, l.length = n → order = l ++ y :: r → y.1 ≤ heights l := by
  intro n
  induction n using Nat.strong_induction_on with
  | _ n ih =>
    intro l y r hn hl
    refine h l y r hl _ fun z hz c _ _ => Or.inr ?_
    obtain ⟨a, b, rfl⟩ := List.append_of_mem hz
    have := ih a.length (by subst hn; simp) a z (b ++ y :: r) rfl (by rw [hl]; simp)
    simp only [heights, List.map_append, List.map_cons, List.sum_append, List.sum_cons] at this ⊢
    omega

theorem v1_bound [DecidableEq C] {advice : C → Bool} {regions : List (Region C V)} {starts : List ℕ} (h : V1Plan advice regions starts) :
    ∀ y ∈ starts.zip regions, y.1 + y.2.height ≤ (regions.map Region.height).sum := by
  intro y hy
  obtain ⟨order, h1, _, h3⟩ := h.least
  obtain ⟨a, b, hab⟩ := List.append_of_mem (h1.mem_iff.2 hy)
  have := order_bound h3 a.length a y b rfl hab
  have hs : (regions.map Region.height).sum = heights order := by
    unfold heights
    rw [(h1.map _).sum_nat, show (fun y : ℕ × Region C V => y.2.height) = Region.height ∘ Prod.snd from rfl, ← List.map_map,
      List.map_snd_zip (by rw [h.length])]
  rw [hs, hab]
  simp only [heights, List.map_append, List.map_cons, List.sum_append, List.sum_cons] at this ⊢
  omega

/-- The rows that a region can take. -/
def roomOf (e : ℕ × Region C V × Out C V) : ℕ := e.2.1.height + e.2.1.consts.length

theorem single_bound {cols : List C} {starts : List ℕ} {L : List (ℕ × Region C V × (Out C V × Out C V))}
    (h : ∀ l x r, L = l ++ x :: r →
      SingleStep cols starts (l.map fun y => (y.1, y.2.1, y.2.2.2)) x.1 x.2.1 x.2.2.1 x.2.2.2) :
    ∀ n l x r, l.length = n → L = l ++ x :: r →
      x.1 ≤ ((l.map fun y => (y.1, y.2.1, y.2.2.2)).map roomOf).sum ∧
      (∀ k ∈ x.2.2.2.writes, k.1.2 < (((l ++ [x]).map fun y => (y.1, y.2.1, y.2.2.2)).map roomOf).sum) := by
  intro n
  induction n using Nat.strong_induction_on with
  | _ n ih =>
    intro l x r hn hl
    obtain ⟨h1, h2, h3⟩ := h l x r hl
    have hbehind : ∀ c, Behind (l.map fun y => (y.1, y.2.1, y.2.2.2)) c
        ((l.map fun y => (y.1, y.2.1, y.2.2.2)).map roomOf).sum := by
      intro c e he
      obtain ⟨z, hz, rfl⟩ := List.mem_map.1 he
      obtain ⟨a, b, rfl⟩ := List.append_of_mem hz
      obtain ⟨i1, i2⟩ := ih a.length (by subst hn; simp) a z (b ++ x :: r) rfl (by rw [hl]; simp)
      simp only [List.map_append, List.map_cons, List.sum_append, List.sum_cons, List.map_nil, List.sum_nil, roomOf] at i1 i2 ⊢
      refine ⟨fun _ => by omega, fun k hk _ => ?_⟩
      have := i2 k hk
      omega
    have hs : x.1 ≤ ((l.map fun y => (y.1, y.2.1, y.2.2.2)).map roomOf).sum := (h2 _).2 fun c _ => hbehind c
    refine ⟨hs, ?_⟩
    cases cols with
    | nil =>
      simp only at h3
      rw [h3]
      simp
    | cons c cs =>
      obtain ⟨n, h3, h4⟩ := h3
      have hn : n ≤ ((l.map fun y => (y.1, y.2.1, y.2.2.2)).map roomOf).sum + x.2.1.height := by
        rw [h3, behind_append]
        refine ⟨fun e he => ?_, fun _ => by simp only; omega, by simp⟩
        have := hbehind c e he
        exact ⟨fun hu => (this.1 hu).trans (by omega), fun k hk hkc => (this.2 k hk hkc).trans_le (by omega)⟩
      intro k hk
      rw [h4] at hk
      simp only [List.map_append, List.map_cons, List.sum_append, List.sum_cons, List.map_nil, List.sum_nil]
      have hr : roomOf (x.1, x.2.1, x.2.2.2) = x.2.1.height + x.2.1.consts.length := rfl
      rw [hr]
      by_cases hd : c = k.1.1
      · have := (constOut_writes starts c n x.2.1.consts c (n + x.2.1.consts.length)).2 (fun _ _ => le_rfl) k hk hd.symm
        omega
      · exfalso
        have := (constOut_writes starts c n x.2.1.consts k.1.1 0).2 (fun h => absurd h hd) k hk rfl
        omega

end
end Tachyon.FloorPlan

namespace Tachyon.FloorPlan
section
variable {C : Type} [DecidableEq C]

omit [DecidableEq C] in
/-- Starts that are the least ones are determined. -/
theorem infos_unique {a b : List (ℕ × Shape C)} (hm : a.map Prod.snd = b.map Prod.snd)
    (ha : ∀ l y r, a = l ++ y :: r → (∀ z ∈ l, ApartAt y.1 y.2 z) ∧ ∀ x, (∀ z ∈ l, ApartAt x y.2 z) → y.1 ≤ x)
    (hb : ∀ l y r, b = l ++ y :: r → (∀ z ∈ l, ApartAt y.1 y.2 z) ∧ ∀ x, (∀ z ∈ l, ApartAt x y.2 z) → y.1 ≤ x) : a = b := by
  have hlen : a.length = b.length := by simpa using congrArg List.length hm
  have key : ∀ n, n ≤ a.length → a.take n = b.take n := by
    intro n
    induction n with
    | zero => intro _; simp
    | succ n ih =>
      intro hn
      have ih := ih (by omega)
      have h1 : n < a.length := by omega
      have h2 : n < b.length := by omega
      have e1 : a = a.take n ++ a[n] :: a.drop (n + 1) := by
        rw [← List.drop_eq_getElem_cons h1, List.take_append_drop]
      have e2 : b = a.take n ++ b[n] :: b.drop (n + 1) := by
        rw [ih, ← List.drop_eq_getElem_cons h2, List.take_append_drop]
      obtain ⟨p1, p2⟩ := ha _ _ _ e1
      obtain ⟨q1, q2⟩ := hb _ _ _ e2
      have hs : a[n].2 = b[n].2 := by
        have : (a.map Prod.snd)[n]'(by simpa using h1) = (b.map Prod.snd)[n]'(by simpa using h2) := by simp only [hm]
        simpa using this
      have hf : a[n].1 = b[n].1 := by
        refine Nat.le_antisymm (p2 _ ?_) (q2 _ ?_)
        · rw [hs]; exact q1
        · rw [← hs]; exact p1
      rw [List.take_succ_eq_append_getElem h1, List.take_succ_eq_append_getElem h2, ih, Prod.ext hf hs]
  have := key a.length le_rfl
  rw [List.take_length, hlen, List.take_length] at this
  exact this

theorem slotBiggest_order (advice : C → Bool) (o o' : ColumnOrder C) (byArea : SortBy (adviceArea advice))
    (byIndex : SortBy (infoIndex (C := C))) (shapes : List (Shape C)) (hok : ∀ s ∈ shapes, s.Ok) :
    (slotBiggest advice o byArea byIndex shapes).map Prod.fst = (slotBiggest advice o' byArea byIndex shapes).map Prod.fst := by
  have hok' : ∀ s ∈ (byArea.run shapes).reverse, s.Ok := fun s hs =>
    hok s (((List.reverse_perm _).trans (byArea.perm _)).mem_iff.1 hs)
  obtain ⟨a, p, h1, h2, _, _, _, h6⟩ := slotIn_spec o _ (⟨fun _ => [], []⟩ : Plan C) hok' fun c => ⟨by simp, by simp⟩
  obtain ⟨b, q, g1, g2, _, _, _, g6⟩ := slotIn_spec o' _ (⟨fun _ => [], []⟩ : Plan C) hok' fun c => ⟨by simp, by simp⟩
  have hfree : ∀ cs x len, AllFree (⟨fun _ => [], []⟩ : Plan C) cs x len := fun cs x len c _ a ha => by simp at ha
  have hab : a = b := infos_unique (h2.trans g2.symm)
    (fun l y r h => ⟨(h6 l y r h).1.2, fun x hx => (h6 l y r h).2 x ⟨hfree _ _ _, hx⟩⟩)
    (fun l y r h => ⟨(g6 l y r h).1.2, fun x hx => (g6 l y r h).2 x ⟨hfree _ _ _, hx⟩⟩)
  unfold slotBiggest
  rw [h1, g1, hab]
  rfl

end
end Tachyon.FloorPlan
