import Verif.Model.Lookup
import Mathlib.Data.List.Perm.Basic
import Mathlib.Data.List.Count
import Mathlib.Data.List.Perm.Lattice
import Mathlib.Tactic.Common
universe u
namespace Tachyon.Lookup

variable {F : Type u} [LinearOrder F]

/-- The multiset a map of counts stands for. -/
def expand (m : List (F × Nat)) : List F := m.flatMap fun p => List.replicate p.2 p.1

theorem expand_bump (x : F) (m : List (F × Nat)) : (expand (bump x m)).Perm (x :: expand m) := by
  induction m with
  | nil => simp [bump, expand]
  | cons p m ih =>
    obtain ⟨k, c⟩ := p
    unfold bump
    split
    · rename_i h; subst h; simp [expand, List.replicate_succ]
    · split
      · simp [expand]
      · have : expand ((k, c) :: bump x m) = List.replicate c k ++ expand (bump x m) := by simp [expand]
        rw [this]
        have : expand ((k, c) :: m) = List.replicate c k ++ expand m := by simp [expand]
        rw [this]
        exact (ih.append_left _).trans List.perm_middle

/-- Every key has a positive count, and the keys are distinct and ascending. -/
theorem keys_bump (x : F) (m : List (F × Nat)) : ∀ p ∈ bump x m, p.1 = x ∨ p.1 ∈ m.map Prod.fst := by
  induction m with
  | nil => simp [bump]
  | cons p m ih =>
    obtain ⟨k, c⟩ := p
    unfold bump
    split
    · rename_i h; intro p hp; subst h
      rcases List.mem_cons.1 hp with h | h
      · left; rw [h]
      · right; simp only [List.map_cons, List.mem_cons]; right; exact List.mem_map_of_mem h
    · split
      · intro p hp
        rcases List.mem_cons.1 hp with h | h
        · left; rw [h]
        · right; exact List.mem_map_of_mem h
      · intro p hp
        rcases List.mem_cons.1 hp with h | h
        · right; rw [h]; simp
        · rcases ih p h with h | h
          · exact .inl h
          · right; simp only [List.map_cons, List.mem_cons]; exact .inr h

theorem bump_sorted (x : F) (m : List (F × Nat)) (hm : (m.map Prod.fst).Pairwise (· < ·)) :
    ((bump x m).map Prod.fst).Pairwise (· < ·) := by
  induction m with
  | nil => simp [bump]
  | cons p m ih =>
    obtain ⟨k, c⟩ := p
    rw [List.map_cons, List.pairwise_cons] at hm
    unfold bump
    split
    · rw [List.map_cons, List.pairwise_cons]; exact hm
    · rename_i h1
      split
      · rename_i h2
        rw [List.map_cons, List.map_cons, List.pairwise_cons, List.pairwise_cons]
        refine ⟨?_, hm⟩
        intro y hy
        rcases List.mem_cons.1 hy with h | h
        · rw [h]; exact h2
        · exact lt_trans h2 (hm.1 y h)
      · rename_i h2
        rw [List.map_cons, List.pairwise_cons]
        refine ⟨?_, ih hm.2⟩
        intro y hy
        obtain ⟨p, hp, rfl⟩ := List.mem_map.1 hy
        rcases keys_bump x m p hp with h | h
        · rw [h]; exact lt_of_le_of_ne (not_lt.1 h2) (Ne.symm h1)
        · exact hm.1 _ h

theorem bump_pos (x : F) (m : List (F × Nat)) (hm : ∀ p ∈ m, 0 < p.2) : ∀ p ∈ bump x m, 0 < p.2 := by
  induction m with
  | nil => simp [bump]
  | cons p m ih =>
    obtain ⟨k, c⟩ := p
    unfold bump
    split
    · intro p hp
      rcases List.mem_cons.1 hp with h | h
      · rw [h]; exact Nat.succ_pos _
      · exact hm p (List.mem_cons_of_mem _ h)
    · split
      · intro p hp
        rcases List.mem_cons.1 hp with h | h
        · rw [h]; exact Nat.one_pos
        · exact hm p h
      · intro p hp
        rcases List.mem_cons.1 hp with h | h
        · rw [h]; exact hm (k, c) (List.mem_cons_self ..)
        · exact ih (fun p hp => hm p (List.mem_cons_of_mem _ hp)) p h

theorem foldl_bump (l : List F) (m : List (F × Nat)) (hm : (m.map Prod.fst).Pairwise (· < ·))
    (hp : ∀ p ∈ m, 0 < p.2) :
    (expand (l.foldl (fun m x => bump x m) m)).Perm (l ++ expand m) ∧
      ((l.foldl (fun m x => bump x m) m).map Prod.fst).Pairwise (· < ·) ∧
      ∀ p ∈ l.foldl (fun m x => bump x m) m, 0 < p.2 := by
  induction l generalizing m with
  | nil => exact ⟨List.Perm.refl _, hm, hp⟩
  | cons x l ih =>
    obtain ⟨h1, h2, h3⟩ := ih (bump x m) (bump_sorted x m hm) (bump_pos x m hp)
    refine ⟨?_, h2, h3⟩
    refine h1.trans (((expand_bump x m).append_left l).trans ?_)
    simp

omit [LinearOrder F] in
theorem mem_keys_iff (m : List (F × Nat)) (hp : ∀ p ∈ m, 0 < p.2) (x : F) :
    x ∈ m.map Prod.fst ↔ x ∈ expand m := by
  unfold expand
  simp only [List.mem_map, List.mem_flatMap, List.mem_replicate]
  constructor
  · rintro ⟨p, h, rfl⟩; exact ⟨p, h, (hp p h).ne', rfl⟩
  · rintro ⟨p, h, _, rfl⟩; exact ⟨p, h, rfl⟩

/-- `takeOne` on a map without the key. -/
theorem takeOne_absent (x : F) (m : List (F × Nat)) (hx : x ∉ m.map Prod.fst) : takeOne x m = some none := by
  induction m with
  | nil => rfl
  | cons p m ih =>
    obtain ⟨k, c⟩ := p
    rw [List.map_cons, List.mem_cons, not_or] at hx
    unfold takeOne
    rw [if_neg hx.1, ih hx.2]; rfl

/-- `takeOne` removes one instance if there is one. -/
theorem takeOne_present (x : F) (m : List (F × Nat)) (hn : (m.map Prod.fst).Pairwise (· < ·))
    (hx : x ∈ expand m) :
    ∃ m', takeOne x m = some (some m') ∧ m'.map Prod.fst = m.map Prod.fst ∧ (x :: expand m').Perm (expand m) := by
  induction m with
  | nil => simp [expand] at hx
  | cons p m ih =>
    obtain ⟨k, c⟩ := p
    rw [List.map_cons, List.pairwise_cons] at hn
    unfold takeOne
    have e : ∀ m' : List (F × Nat), ∀ c, expand ((k, c) :: m') = List.replicate c k ++ expand m' :=
      fun m' c => by simp [expand]
    rw [e] at hx
    split
    · rename_i h; subst h
      have hc : 0 < c := by
        rcases List.mem_append.1 hx with h | h
        · exact Nat.pos_of_ne_zero (List.mem_replicate.1 h).1
        · exfalso
          unfold expand at h
          simp only [List.mem_flatMap, List.mem_replicate] at h
          obtain ⟨p, hp, _, he⟩ := h
          exact absurd (hn.1 p.1 (List.mem_map_of_mem hp)) (by rw [← he]; exact lt_irrefl _)
      rw [if_pos hc]
      refine ⟨_, rfl, rfl, ?_⟩
      rw [e, e]
      obtain ⟨c, rfl⟩ : ∃ d, c = d + 1 := ⟨c - 1, by omega⟩
      simp [List.replicate_succ]
    · rename_i h
      have hx' : x ∈ expand m := by
        rcases List.mem_append.1 hx with h' | h'
        · exact absurd (List.mem_replicate.1 h').2 h
        · exact h'
      obtain ⟨m', h1, h2, h3⟩ := ih hn.2 hx'
      refine ⟨(k, c) :: m', by rw [h1]; rfl, by simp [h2], ?_⟩
      rw [e, e]
      exact List.perm_middle.symm.trans (h3.append_left _)

/-- `fillValue`, `fillLoop` in closed form. -/
def setAll (t : List F) (rows : List Nat) (vals : List F) : List F :=
  (List.zip rows vals).foldl (fun t p => t.set p.1 p.2) t

omit [LinearOrder F] in
theorem fillValue_eq (x : F) (c : Nat) (t : List F) (rows : List Nat) (h : c ≤ rows.length) :
    fillValue x c (t, rows) = some (setAll t (rows.take c) (List.replicate c x), rows.drop c) := by
  induction c generalizing t rows with
  | zero => simp [fillValue, setAll]
  | succ c ih =>
    cases rows with
    | nil => simp at h
    | cons r rows =>
      unfold fillValue
      rw [ih _ _ (by simpa using h)]
      simp [setAll, List.replicate_succ]

omit [LinearOrder F] in
theorem setAll_append (t : List F) (r1 r2 : List Nat) (v1 v2 : List F) (h : r1.length = v1.length) :
    setAll t (r1 ++ r2) (v1 ++ v2) = setAll (setAll t r1 v1) r2 v2 := by
  unfold setAll; rw [List.zip_append h, List.foldl_append]

omit [LinearOrder F] in
theorem fillLoop_eq (m : List (F × Nat)) (t : List F) (rows : List Nat) (h : rows.length = (expand m).length) :
    fillLoop m (t, rows) = some (setAll t rows (expand m)) := by
  induction m generalizing t rows with
  | nil =>
    have : rows = [] := List.eq_nil_of_length_eq_zero (by simpa [expand] using h)
    subst this; simp [fillLoop, expand, setAll]
  | cons p m ih =>
    obtain ⟨x, c⟩ := p
    have e : expand ((x, c) :: m) = List.replicate c x ++ expand m := by simp [expand]
    rw [e, List.length_append, List.length_replicate] at h
    unfold fillLoop
    rw [fillValue_eq x c t rows (by omega)]
    show fillLoop m (_, rows.drop c) = _
    rw [ih _ _ (by rw [List.length_drop]; omega), e]
    conv_rhs => rw [← List.take_append_drop c rows]
    rw [setAll_append _ _ _ _ _ (by simp; omega)]

omit [LinearOrder F] in
theorem fillValue_none (x : F) (c : Nat) (t : List F) (rows : List Nat) (h : rows.length < c) :
    fillValue x c (t, rows) = none := by
  induction c generalizing t rows with
  | zero => omega
  | succ c ih =>
    cases rows with
    | nil => rfl
    | cons r rows => exact ih _ _ (by simpa using h)

omit [LinearOrder F] in
theorem fillLoop_none (m : List (F × Nat)) (t : List F) (rows : List Nat) (h : rows.length ≠ (expand m).length) :
    fillLoop m (t, rows) = none := by
  induction m generalizing t rows with
  | nil =>
    cases rows with
    | nil => simp [expand] at h
    | cons r rows => rfl
  | cons p m ih =>
    obtain ⟨x, c⟩ := p
    have e : expand ((x, c) :: m) = List.replicate c x ++ expand m := by simp [expand]
    rw [e, List.length_append, List.length_replicate] at h
    unfold fillLoop
    by_cases hc : c ≤ rows.length
    · rw [fillValue_eq x c t rows hc]
      exact ih _ _ (by rw [List.length_drop]; omega)
    · rw [fillValue_none x c t rows (by omega)]

omit [LinearOrder F] in
theorem length_setAll (t : List F) (rows : List Nat) (vals : List F) : (setAll t rows vals).length = t.length := by
  unfold setAll
  generalize List.zip rows vals = z
  induction z generalizing t with
  | nil => rfl
  | cons p z ih => rw [List.foldl_cons, ih, List.length_set]

omit [LinearOrder F] in
theorem setAll_other (t : List F) (rows : List Nat) (vals : List F) (i : Nat) (hi : i ∉ rows) :
    (setAll t rows vals)[i]? = t[i]? := by
  induction rows generalizing t vals with
  | nil => simp [setAll]
  | cons r rows ih =>
    rw [List.mem_cons, not_or] at hi
    cases vals with
    | nil => simp [setAll]
    | cons v vals =>
      have : setAll t (r :: rows) (v :: vals) = setAll (t.set r v) rows vals := by simp [setAll]
      rw [this, ih _ _ hi.2, List.getElem?_set_ne (Ne.symm hi.1)]

omit [LinearOrder F] in
theorem setAll_map [Zero F] (t : List F) (rows : List Nat) (vals : List F) (hn : rows.Nodup)
    (hr : ∀ r ∈ rows, r < t.length) (hl : rows.length = vals.length) :
    rows.map (fun i => (setAll t rows vals).getD i 0) = vals := by
  induction rows generalizing t vals with
  | nil => symm; exact List.eq_nil_of_length_eq_zero (by simpa using hl.symm)
  | cons r rows ih =>
    cases vals with
    | nil => simp at hl
    | cons v vals =>
      rw [List.nodup_cons] at hn
      have e : setAll t (r :: rows) (v :: vals) = setAll (t.set r v) rows vals := by simp [setAll]
      rw [List.map_cons, e]
      congr 1
      · rw [List.getD_eq_getElem?_getD, setAll_other _ _ _ _ hn.1,
          List.getElem?_set_self (hr r (List.mem_cons_self ..))]; rfl
      · exact ih _ _ hn.2 (fun i hi => by rw [List.length_set]; exact hr i (List.mem_cons_of_mem _ hi))
          (by simpa using hl)

/-- A row of a sorted column that repeats the row before. -/
def isRep (f : Nat → F) (i : Nat) : Bool := decide (i ≠ 0 ∧ f (i - 1) = f i)

/-- What holds before row `r`. -/
structure Inv [Zero F] (f : Nat → F) (n : Nat) (T : List F) (K : List F) (r : Nat) (s : State F) : Prop where
  len : s.table.length = n
  keys : s.counts.map Prod.fst = K
  rep : s.repeated = ((List.range r).filter (isRep f)).reverse
  set : ∀ i < r, isRep f i = false → s.table.getD i 0 = f i
  perm : ((((List.range r).filter fun i => !isRep f i).map f) ++ expand s.counts).Perm T

theorem rowLoop_spec [Zero F] (a : List F) (f : Nat → F) (n u : Nat) (hun : u ≤ n)
    (ha : ∀ i < u, a[i]? = some (f i)) (hs : ∀ i j, i ≤ j → j < u → f i ≤ f j) (T K : List F)
    (hK : K.Pairwise (· < ·)) (hT : ∀ x, x ∈ K ↔ x ∈ T) :
    ∀ (k r : Nat) (s : State F), r + k = u → Inv f n T K r s →
      (∃ s', rowLoop a (List.range' r k) s = some (some s') ∧ Inv f n T K u s') ∨
        (rowLoop a (List.range' r k) s = some none ∧ ∃ i < u, f i ∉ T) := by
  intro k
  induction k with
  | zero => intro r s h hI; left; exact ⟨s, rfl, by rw [← h]; exact hI⟩
  | succ k ih =>
    intro r s h hI
    have hr : r < u := by omega
    have hrs : ∀ x, (∃ m', takeOne x s.counts = some (some m')) ∨ True := fun _ => .inr trivial
    rw [List.range'_succ]
    unfold rowLoop rowStep
    rw [ha r hr]
    by_cases hrep : isRep f r = true
    · have hd : r ≠ 0 ∧ f (r - 1) = f r := by simpa [isRep] using hrep
      have hc : ¬ (r = 0 ∨ a[r - 1]? ≠ some (f r)) := by
        rw [ha (r - 1) (by omega), hd.2]; simp [hd.1]
      simp only [if_neg hc]
      refine ih (r + 1) _ (by omega) ⟨hI.len, hI.keys, ?_, ?_, ?_⟩
      · show r :: s.repeated = _
        rw [List.range_succ, List.filter_append, hI.rep]; simp [hrep]
      · intro i hi hi2
        rcases Nat.lt_succ_iff_lt_or_eq.1 hi with h' | h'
        · exact hI.set i h' hi2
        · rw [h', hrep] at hi2; cases hi2
      · rw [List.range_succ, List.filter_append]; simpa [hrep] using hI.perm
    · have hrep' : isRep f r = false := by simpa using hrep
      have hd : ¬ (r ≠ 0 ∧ f (r - 1) = f r) := by simpa [isRep] using hrep'
      have hc : r = 0 ∨ a[r - 1]? ≠ some (f r) := by
        by_cases h0 : r = 0
        · exact .inl h0
        · right; rw [ha (r - 1) (by omega)]; intro hx; exact hd ⟨h0, Option.some.inj hx⟩
      simp only [if_pos hc]
      by_cases hx : f r ∈ T
      · have hlt : ∀ j < r, f j ≠ f r := by
          intro j hj he
          have h0 : r ≠ 0 := by omega
          have h1 := hs j (r - 1) (by omega) (by omega)
          have h2 := hs (r - 1) r (by omega) hr
          exact hd ⟨h0, le_antisymm h2 (he ▸ h1)⟩
        have hx' : f r ∈ expand s.counts := by
          rcases List.mem_append.1 (hI.perm.mem_iff.2 hx) with h' | h'
          · obtain ⟨j, hj, he⟩ := List.mem_map.1 h'
            exact absurd he (hlt j (List.mem_range.1 (List.mem_filter.1 hj).1))
          · exact h'
        obtain ⟨m', h1, h2, h3⟩ := takeOne_present (f r) s.counts (by rw [hI.keys]; exact hK) hx'
        rw [h1]
        simp only [Option.map_some]
        refine ih (r + 1) _ (by omega) ⟨by simp [hI.len], by simpa [h2] using hI.keys, ?_, ?_, ?_⟩
        · rw [List.range_succ, List.filter_append]; simpa [hrep'] using hI.rep
        · intro i hi hi2
          show (s.table.set r (f r)).getD i 0 = f i
          rw [List.getD_eq_getElem?_getD]
          rcases Nat.lt_succ_iff_lt_or_eq.1 hi with h' | h'
          · rw [List.getElem?_set_ne (by omega), ← List.getD_eq_getElem?_getD]
            exact hI.set i h' hi2
          · subst h'; rw [List.getElem?_set_self (by rw [hI.len]; omega)]; rfl
        · rw [List.range_succ, List.filter_append]
          simp only [List.filter_cons, hrep', Bool.not_false, if_true, List.filter_nil, List.map_append,
            List.map_cons, List.map_nil, List.append_assoc]
          exact (h3.append_left _).trans hI.perm
      · right
        have : takeOne (f r) s.counts = some none := by
          apply takeOne_absent
          rw [hI.keys, hT]; exact hx
        rw [this]
        exact ⟨rfl, r, hr, hx⟩

end Tachyon.Lookup
