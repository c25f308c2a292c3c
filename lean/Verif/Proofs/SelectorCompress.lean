import Verif.Proofs.SelectorProcess
import Mathlib.Data.List.Forall2
/-! Lemmas for C89: the degrees, the replacements, and `compress`. -/
universe u
namespace Tachyon.Selector
open Plonk CircuitPoly

section
variable {F : Type u}

theorem extractSimple_eq (simple : ℕ → Bool) : ∀ e : Expr F, (simpleOf simple e).length ≤ 1 →
    extractSimple simple e = some (simpleOf simple e).head?
  | .constant _, _ => rfl
  | .selector i, _ => by cases h : simple i <;> simp [extractSimple, simpleOf, selectorsOf, h]
  | .fixed _, _ => rfl
  | .advice _, _ => rfl
  | .inst _, _ => rfl
  | .challenge _, _ => rfl
  | .neg e, h => extractSimple_eq simple e h
  | .scaled e _, h => extractSimple_eq simple e h
  | .sum a b, h => by
    have he : simpleOf simple (.sum a b) = simpleOf simple a ++ simpleOf simple b := by simp [simpleOf, selectorsOf]
    rw [he, List.length_append] at h
    rw [extractSimple, extractSimple_eq simple a (by omega), extractSimple_eq simple b (by omega), he]
    rcases ha : simpleOf simple a with _ | ⟨x, xs⟩ <;> rcases hb : simpleOf simple b with _ | ⟨y, ys⟩ <;>
      simp_all [pick]
    omega
  | .prod a b, h => by
    have he : simpleOf simple (.prod a b) = simpleOf simple a ++ simpleOf simple b := by simp [simpleOf, selectorsOf]
    rw [he, List.length_append] at h
    rw [extractSimple, extractSimple_eq simple a (by omega), extractSimple_eq simple b (by omega), he]
    rcases ha : simpleOf simple a with _ | ⟨x, xs⟩ <;> rcases hb : simpleOf simple b with _ | ⟨y, ys⟩ <;>
      simp_all [pick]
    omega

/-- The largest degree of the expressions with the simple selector `s`. -/
def maxDeg (simple : ℕ → Bool) (es : List (Expr F)) (s : ℕ) : ℕ :=
  ((es.filter fun e => decide (s ∈ simpleOf simple e)).map degree).foldr max 0

theorem selectorDegrees_eq (simple : ℕ → Bool) : ∀ (es : List (Expr F)) (ds : List ℕ),
    (∀ e ∈ es, (simpleOf simple e).length ≤ 1) → (∀ e ∈ es, ∀ s ∈ selectorsOf e, s < ds.length) →
    ∃ ds', selectorDegrees simple es ds = some ds' ∧ ds'.length = ds.length ∧
      ∀ s, ds'.getD s 0 = max (ds.getD s 0) (maxDeg simple es s)
  | [], ds, _, _ => ⟨ds, rfl, rfl, by simp [maxDeg]⟩
  | e :: es, ds, h1, h2 => by
    rw [selectorDegrees, extractSimple_eq simple e (h1 e (by simp)), Option.bind_some]
    have h1' := fun x hx => h1 x (List.mem_cons_of_mem e hx)
    have h2' := fun x hx => h2 x (List.mem_cons_of_mem e hx)
    rcases hs : simpleOf simple e with _ | ⟨i, is⟩
    · obtain ⟨ds', hd, hl, hv⟩ := selectorDegrees_eq simple es ds h1' h2'
      refine ⟨ds', by simpa using hd, hl, fun s => ?_⟩
      rw [hv]; simp [maxDeg, hs]
    · have his : is = [] := by
        have := h1 e (by simp)
        rw [hs] at this
        exact List.length_eq_zero_iff.1 (by simpa using this)
      subst his
      have hi : i < ds.length := h2 e (by simp) i (by
        have : i ∈ simpleOf simple e := by simp [hs]
        exact (List.mem_filter.1 this).1)
      obtain ⟨ds', hd, hl, hv⟩ := selectorDegrees_eq simple es (ds.set i (max (ds.getD i 0) (degree e))) h1'
        (by simpa using h2')
      refine ⟨ds', ?_, by simpa using hl, fun s => ?_⟩
      · have : ds[i]? = some (ds.getD i 0) := by simp [hi]
        simp only [List.head?_cons, this, Option.bind_some]
        exact hd
      · rw [hv]
        by_cases hsi : s = i
        · subst hsi
          simp [maxDeg, hs, hi, max_assoc]
        · simp [maxDeg, hs, hsi, List.getElem?_set_ne (Ne.symm hsi)]

theorem degree_pos_of_selector : ∀ (e : Expr F), selectorsOf e ≠ [] → 0 < degree e
  | .constant _, h => absurd rfl h
  | .selector _, _ => by simp [degree]
  | .fixed _, h => absurd rfl h
  | .advice _, h => absurd rfl h
  | .inst _, h => absurd rfl h
  | .challenge _, h => absurd rfl h
  | .neg e, h => degree_pos_of_selector e h
  | .scaled e _, h => degree_pos_of_selector e h
  | .sum a b, h => by
    rw [degree]
    by_cases ha : selectorsOf a = []
    · exact lt_max_of_lt_right (degree_pos_of_selector b fun hb => h (by simp [selectorsOf, ha, hb]))
    · exact lt_max_of_lt_left (degree_pos_of_selector a ha)
  | .prod a b, h => by
    rw [degree]
    by_cases ha : selectorsOf a = []
    · have := degree_pos_of_selector b fun hb => h (by simp [selectorsOf, ha, hb])
      omega
    · have := degree_pos_of_selector a ha
      omega

theorem foldr_max_le {l : List ℕ} {D : ℕ} (h : ∀ x ∈ l, x ≤ D) : l.foldr max 0 ≤ D := by
  induction l with
  | nil => simp
  | cons x l ih => simp only [List.foldr_cons]; exact max_le (h x (by simp)) (ih fun y hy => h y (by simp [hy]))

theorem le_foldr_max {l : List ℕ} {x : ℕ} (h : x ∈ l) : x ≤ l.foldr max 0 := by
  induction l with
  | nil => simp at h
  | cons y l ih =>
    simp only [List.foldr_cons]
    rcases List.mem_cons.1 h with rfl | h
    · exact le_max_left _ _
    · exact (ih h).trans (le_max_right _ _)

theorem maxDeg_le {simple : ℕ → Bool} {es : List (Expr F)} {D : ℕ} (h : ∀ e ∈ es, degree e ≤ D) (s : ℕ) :
    maxDeg simple es s ≤ D := by
  refine foldr_max_le fun x hx => ?_
  obtain ⟨e, he, rfl⟩ := List.mem_map.1 hx
  exact h e (List.mem_filter.1 he).1

theorem le_maxDeg {simple : ℕ → Bool} {es : List (Expr F)} {e : Expr F} (he : e ∈ es) {s : ℕ}
    (hs : s ∈ simpleOf simple e) : degree e ≤ maxDeg simple es s :=
  le_foldr_max (List.mem_map.2 ⟨e, List.mem_filter.2 ⟨he, by simpa using hs⟩, rfl⟩)

theorem maxDeg_complex {simple : ℕ → Bool} {es : List (Expr F)} {s : ℕ} (hs : simple s = false) :
    maxDeg simple es s = 0 := by
  have : (es.filter fun e => decide (s ∈ simpleOf simple e)) = [] := by
    rw [List.filter_eq_nil_iff]
    intro e _
    simp [simpleOf, hs]
  simp [maxDeg, this]

theorem maxOr_le {empty : ℕ} {l : List ℕ} {x : ℕ} (h : x ∈ l) : x ≤ maxOr empty l := by
  unfold maxOr
  rcases hm : l.max? with _ | m
  · rw [List.max?_eq_none_iff] at hm; simp [hm] at h
  · exact (List.max?_eq_some_iff.1 hm).2 x h

theorem computeDegree_bounds {s : System F} {D : ℕ} (h : computeDegree s = some D) :
    3 ≤ D ∧ ∀ e ∈ s.gates.flatten, degree e ≤ D := by
  unfold computeDegree at h
  obtain ⟨ls, _, rfl⟩ := Option.map_eq_some_iff.1 h
  refine ⟨by simp, fun e he => ?_⟩
  have := maxOr_le (empty := 0) (List.mem_map.2 ⟨e, he, rfl⟩ : degree e ∈ s.gates.flatten.map degree)
  simp only [le_max_iff]
  exact Or.inl (Or.inr this)

/-! ### Replacements -/

theorem replacements_eq (first : ℕ) : ∀ (as : List (Assignment F)) (rs : List (Option (Expr F))) (m : List ℕ),
    m.length = rs.length → (∀ a ∈ as, a.index < rs.length) → (as.map (·.index)).Nodup →
    ∃ rs' m', replacements first as rs m = some (rs', m') ∧ rs'.length = rs.length ∧ m'.length = rs.length ∧
      (∀ a ∈ as, rs'[a.index]? = some (some a.expr) ∧ m'[a.index]? = some (first + a.combination)) ∧
      ∀ j, j ∉ as.map (·.index) → rs'[j]? = rs[j]? ∧ m'[j]? = m[j]?
  | [], rs, m, hl, _, _ => ⟨rs, m, rfl, rfl, hl, by simp, by simp⟩
  | a :: as, rs, m, hl, hb, hn => by
    rw [List.map_cons, List.nodup_cons] at hn
    have ha := hb a (by simp)
    obtain ⟨rs', m', h1, h2, h3, h4, h5⟩ := replacements_eq first as (rs.set a.index (some a.expr))
      (m.set a.index (first + a.combination)) (by simpa using hl) (fun x hx => by simpa using hb x (by simp [hx])) hn.2
    refine ⟨rs', m', ?_, by simpa using h2, by simpa using h3, ?_, ?_⟩
    · rw [replacements, if_pos ha, h1]
    · intro x hx
      rcases List.mem_cons.1 hx with rfl | hx
      · have := h5 _ hn.1
        rw [this.1, this.2]
        simp [ha, hl]
      · exact h4 x hx
    · intro j hj
      rw [List.map_cons, List.mem_cons, not_or] at hj
      have := h5 j hj.2
      rw [this.1, this.2, List.getElem?_set_ne (Ne.symm hj.1), List.getElem?_set_ne (Ne.symm hj.1)]
      exact ⟨rfl, rfl⟩

theorem replace_some (rs : List (Option (Expr F))) : ∀ e : Expr F,
    (∀ s ∈ selectorsOf e, ∃ r, rs[s]? = some (some r)) → ∃ e', replace rs e = some e'
  | .constant _, _ => ⟨_, rfl⟩
  | .selector i, h => by
    obtain ⟨r, hr⟩ := h i (by simp [selectorsOf])
    exact ⟨r, by simp [replace, hr]⟩
  | .fixed _, _ => ⟨_, rfl⟩
  | .advice _, _ => ⟨_, rfl⟩
  | .inst _, _ => ⟨_, rfl⟩
  | .challenge _, _ => ⟨_, rfl⟩
  | .neg e, h => by
    obtain ⟨e', he⟩ := replace_some rs e h
    exact ⟨_, by simp [replace, he]; rfl⟩
  | .scaled e _, h => by
    obtain ⟨e', he⟩ := replace_some rs e h
    exact ⟨_, by simp [replace, he]; rfl⟩
  | .sum a b, h => by
    obtain ⟨a', ha⟩ := replace_some rs a fun s hs => h s (by simp [selectorsOf, hs])
    obtain ⟨b', hb⟩ := replace_some rs b fun s hs => h s (by simp [selectorsOf, hs])
    exact ⟨_, by simp [replace, ha, hb]; rfl⟩
  | .prod a b, h => by
    obtain ⟨a', ha⟩ := replace_some rs a fun s hs => h s (by simp [selectorsOf, hs])
    obtain ⟨b', hb⟩ := replace_some rs b fun s hs => h s (by simp [selectorsOf, hs])
    exact ⟨_, by simp [replace, ha, hb]; rfl⟩

theorem replace_value {R : Type u} [CommRing R] {c : F → R} {q q' : Kind → Query → R} {ch sel : ℕ → R} {nf : ℕ}
    {rs : List (Option (Expr F))} (hf : ∀ x : Query, x.column < nf → q' .fixed x = q .fixed x)
    (ha : q' .advice = q .advice) (hi : q' .inst = q .inst) : ∀ (e e' : Expr F), replace rs e = some e' →
    FixedBelow nf e → (∀ s ∈ selectorsOf e, ∀ r, rs[s]? = some (some r) → denote c q' ch r = sel s) →
    denote c q' ch e' = denoteSel c q ch sel e
  | .constant _, e', h, _, _ => by simp only [replace, Option.some.injEq] at h; subst h; rfl
  | .selector i, e', h, _, hs => by
    simp only [replace, Option.bind_eq_some_iff] at h
    obtain ⟨r, h1, rfl⟩ := h
    exact hs i (by simp [selectorsOf]) _ h1
  | .fixed x, e', h, hb, _ => by simp only [replace, Option.some.injEq] at h; subst h; exact hf x hb
  | .advice x, e', h, _, _ => by simp only [replace, Option.some.injEq] at h; subst h; simp [denote, denoteSel, ha]
  | .inst x, e', h, _, _ => by simp only [replace, Option.some.injEq] at h; subst h; simp [denote, denoteSel, hi]
  | .challenge _, e', h, _, _ => by simp only [replace, Option.some.injEq] at h; subst h; rfl
  | .neg e, e', h, hb, hs => by
    simp only [replace, Option.map_eq_some_iff] at h
    obtain ⟨r, h1, rfl⟩ := h
    rw [denote, denoteSel, replace_value hf ha hi e r h1 hb hs]
  | .scaled e _, e', h, hb, hs => by
    simp only [replace, Option.map_eq_some_iff] at h
    obtain ⟨r, h1, rfl⟩ := h
    rw [denote, denoteSel, replace_value hf ha hi e r h1 hb hs]
  | .sum a b, e', h, hb, hs => by
    simp only [replace, Option.bind_eq_some_iff, Option.map_eq_some_iff] at h
    obtain ⟨l, h1, r, h2, rfl⟩ := h
    rw [denote, denoteSel, replace_value hf ha hi a l h1 hb.1 fun s h => hs s (by simp [selectorsOf, h]),
      replace_value hf ha hi b r h2 hb.2 fun s h => hs s (by simp [selectorsOf, h])]
  | .prod a b, e', h, hb, hs => by
    simp only [replace, Option.bind_eq_some_iff, Option.map_eq_some_iff] at h
    obtain ⟨l, h1, r, h2, rfl⟩ := h
    rw [denote, denoteSel, replace_value hf ha hi a l h1 hb.1 fun s h => hs s (by simp [selectorsOf, h]),
      replace_value hf ha hi b r h2 hb.2 fun s h => hs s (by simp [selectorsOf, h])]

/-- The degree of the replacement of an expression: it grows with the replacements of its simple selectors. -/
theorem replace_degree {rs : List (Option (Expr F))} {simple : ℕ → Bool} {extra : ℕ → ℕ} : ∀ (e e' : Expr F),
    replace rs e = some e' → (∀ s ∈ selectorsOf e, ∀ r, rs[s]? = some (some r) →
      1 ≤ degree r ∧ degree r ≤ 1 + (if simple s then extra s else 0)) →
    degree e ≤ degree e' ∧ degree e' ≤ degree e + ((simpleOf simple e).map extra).sum
  | .constant _, e', h, _ => by simp only [replace, Option.some.injEq] at h; subst h; simp
  | .selector i, e', h, hs => by
    simp only [replace, Option.bind_eq_some_iff] at h
    obtain ⟨r, h1, rfl⟩ := h
    have := hs i (by simp [selectorsOf]) _ h1
    cases hi : simple i <;> simp_all [simpleOf, selectorsOf, degree]
  | .fixed x, e', h, _ => by simp only [replace, Option.some.injEq] at h; subst h; simp
  | .advice x, e', h, _ => by simp only [replace, Option.some.injEq] at h; subst h; simp
  | .inst x, e', h, _ => by simp only [replace, Option.some.injEq] at h; subst h; simp
  | .challenge _, e', h, _ => by simp only [replace, Option.some.injEq] at h; subst h; simp
  | .neg e, e', h, hs => by
    simp only [replace, Option.map_eq_some_iff] at h
    obtain ⟨r, h1, rfl⟩ := h
    exact replace_degree e r h1 hs
  | .scaled e _, e', h, hs => by
    simp only [replace, Option.map_eq_some_iff] at h
    obtain ⟨r, h1, rfl⟩ := h
    exact replace_degree e r h1 hs
  | .sum a b, e', h, hs => by
    simp only [replace, Option.bind_eq_some_iff, Option.map_eq_some_iff] at h
    obtain ⟨l, h1, r, h2, rfl⟩ := h
    have i1 := replace_degree a l h1 fun s h => hs s (by simp [selectorsOf, h])
    have i2 := replace_degree b r h2 fun s h => hs s (by simp [selectorsOf, h])
    have he : simpleOf simple (.sum a b) = simpleOf simple a ++ simpleOf simple b := by simp [simpleOf, selectorsOf]
    rw [he, List.map_append, List.sum_append]
    simp only [degree]
    omega
  | .prod a b, e', h, hs => by
    simp only [replace, Option.bind_eq_some_iff, Option.map_eq_some_iff] at h
    obtain ⟨l, h1, r, h2, rfl⟩ := h
    have i1 := replace_degree a l h1 fun s h => hs s (by simp [selectorsOf, h])
    have i2 := replace_degree b r h2 fun s h => hs s (by simp [selectorsOf, h])
    have he : simpleOf simple (.prod a b) = simpleOf simple a ++ simpleOf simple b := by simp [simpleOf, selectorsOf]
    rw [he, List.map_append, List.sum_append]
    simp only [degree]
    omega

theorem mapM_forall₂ {α β : Type u} {f : α → Option β} : ∀ {l : List α}, (∀ x ∈ l, ∃ y, f x = some y) →
    ∃ l', l.mapM f = some l' ∧ List.Forall₂ (fun x y => f x = some y) l l'
  | [], _ => ⟨[], rfl, .nil⟩
  | x :: l, h => by
    obtain ⟨y, hy⟩ := h x (by simp)
    obtain ⟨l', h1, h2⟩ := mapM_forall₂ (l := l) fun z hz => h z (by simp [hz])
    exact ⟨y :: l', by simp [List.mapM_cons, hy, h1], .cons hy h2⟩

theorem forall₂_of_mapM {α β : Type u} {f : α → Option β} {l : List α} {l' : List β} (h : l.mapM f = some l') :
    List.Forall₂ (fun x y => f x = some y) l l' := by
  induction l generalizing l' with
  | nil =>
    simp only [List.mapM_nil, Option.pure_def, Option.some.injEq] at h
    subst h; exact .nil
  | cons x l ih =>
    simp only [List.mapM_cons, Option.bind_eq_bind, Option.bind_eq_some_iff, Option.pure_def, Option.some.injEq] at h
    obtain ⟨y, hy, ys, hys, rfl⟩ := h
    exact .cons hy (ih hys)

theorem replaceArguments {rs : List (Option (Expr F))} {l : List (Argument F)}
    (h : ∀ a ∈ l, ∀ e ∈ a.inputs ++ a.targets, ∃ e', replace rs e = some e') :
    ∃ l', l.mapM (replaceArgument rs) = some l' ∧
      List.Forall₂ (ArgReplaced fun e e' => replace rs e = some e') l l' := by
  have := mapM_forall₂ (f := replaceArgument rs) (l := l) fun a ha => by
    obtain ⟨i, hi, _⟩ := mapM_forall₂ (f := replace rs) (l := a.inputs) fun e he => h a ha e (by simp [he])
    obtain ⟨t, ht, _⟩ := mapM_forall₂ (f := replace rs) (l := a.targets) fun e he => h a ha e (by simp [he])
    exact ⟨⟨i, t⟩, by simp [replaceArgument, hi, ht]⟩
  obtain ⟨l', h1, h2⟩ := this
  refine ⟨l', h1, ?_⟩
  clear h1
  induction h2 with
  | nil => exact .nil
  | @cons a a' l l' haa hll ih =>
    refine .cons ?_ (ih fun x hx => h x (by simp [hx]))
    obtain ⟨i, hi, hi'⟩ := mapM_forall₂ (f := replace rs) (l := a.inputs) fun e he => h a (by simp) e (by simp [he])
    obtain ⟨t, ht, ht'⟩ := mapM_forall₂ (f := replace rs) (l := a.targets) fun e he => h a (by simp) e (by simp [he])
    simp only [replaceArgument, hi, ht, Option.bind_some, Option.map_some, Option.some.injEq] at haa
    subst haa
    exact ⟨hi', ht'⟩

end

section
variable {F : Type u} [Field F] [DecidableEq F]

theorem denote_rootExpr {R : Type u} [CommRing R] (c : F →+* R) (q : Kind → Query → R) (ch : ℕ → R) (x : Expr F) (a : F) :
    ∀ (k : ℕ) (root : F) (e : Expr F), denote c q ch (rootExpr x a k root e) =
      denote c q ch e * ∏ j ∈ Finset.range k, if root + (j : F) ≠ a then c (root + (j : F)) - denote c q ch x else 1
  | 0, _, _ => by simp [rootExpr]
  | k + 1, root, e => by
    rw [rootExpr, denote_rootExpr c q ch x a k, Finset.prod_range_succ']
    have hj : ∀ j : ℕ, root + 1 + (j : F) = root + ((j + 1 : ℕ) : F) := fun j => by push_cast; ring
    simp only [hj, Nat.cast_zero, add_zero]
    split
    · simp only [denote]; ring
    · ring

theorem degree_rootExpr (x : Expr F) (a : F) (hx : degree x = 1) : ∀ (k : ℕ) (root : F) (e : Expr F),
    degree (rootExpr x a k root e) =
      degree e + ((Finset.range k).filter fun j : ℕ => root + (j : F) ≠ a).card
  | 0, _, _ => by simp [rootExpr]
  | k + 1, root, e => by
    rw [rootExpr, degree_rootExpr x a hx k, Finset.card_filter, Finset.card_filter, Finset.sum_range_succ']
    have hj : ∀ j : ℕ, root + 1 + (j : F) = root + ((j + 1 : ℕ) : F) := fun j => by push_cast; ring
    simp only [hj, Nat.cast_zero, add_zero]
    split
    · simp only [degree, hx]; omega
    · omega

/-- The value of the replacement of the `r`-th selector of a combination of `len` in the rows where it is active. -/
def rootConst (len r : ℕ) : F :=
  (1 + (r : F)) * ∏ j ∈ Finset.range len, if 1 + (j : F) ≠ 1 + (r : F) then 1 + (j : F) - (1 + (r : F)) else 1

/-- Numbers up to `D` are not zero in the field. -/
def CharAbove (F : Type u) [Field F] (D : ℕ) : Prop := ∀ k : ℕ, 0 < k → k ≤ D → (k : F) ≠ 0

omit [DecidableEq F] in
theorem cast_ne {D : ℕ} (hc : CharAbove F D) {i j : ℕ} (hi : i ≤ D) (hj : j ≤ D) (hij : i ≠ j) : (i : F) ≠ (j : F) := by
  rcases Nat.lt_or_gt_of_ne hij with h | h
  · intro he
    refine hc (j - i) (by omega) (by omega) ?_
    rw [Nat.cast_sub h.le, he, sub_self]
  · intro he
    refine hc (i - j) (by omega) (by omega) ?_
    rw [Nat.cast_sub h.le, he, sub_self]

theorem rootConst_ne {D len r : ℕ} (hc : CharAbove F D) (hlen : len ≤ D) (hr : r < len) : (rootConst len r : F) ≠ 0 := by
  unfold rootConst
  refine mul_ne_zero ?_ (Finset.prod_ne_zero_iff.2 fun j _ => ?_)
  · have := hc (1 + r) (by omega) (by omega)
    push_cast at this
    exact this
  · split
    · rename_i h
      exact sub_ne_zero.2 h
    · exact one_ne_zero

theorem rootConst_one : (rootConst 1 0 : F) = 1 := by simp [rootConst]

/-- `compress` in terms of the combinations. -/
theorem compress_spec {cs : CS F} {selectors : List (List Bool)} {n D : ℕ} (hp : cs.Proper)
    (hlen : selectors.length = cs.numSelectors) (hn : ∀ a ∈ selectors, a.length = n)
    (hdeg : computeDegree cs.sys = some D) :
    ∃ (gs : List (List ℕ)) (degrees : List ℕ) (rs : List (Option (Expr F))) (map : List ℕ) (gates : List (List (Expr F)))
        (lookups shuffles : List (Argument F)),
      (∀ s, degrees.getD s 0 = gateDegree cs s) ∧
      compress cs selectors = some ({ cs with
        sys := { cs.sys with
          gates := gates
          lookups := lookups
          shuffles := shuffles
          fixedQueries := cs.sys.fixedQueries ++ (List.range gs.length).map fun j => (cs.numFixed + j, 0) }
        numFixed := cs.numFixed + gs.length }, map,
        gs.map fun g => colOf (g.map (desc selectors degrees)) 1 (List.replicate n 0)) ∧
      map.length = cs.numSelectors ∧ gs.flatten.length = cs.numSelectors ∧
      (∀ s, s ∈ gs.flatten ↔ s < cs.numSelectors) ∧ (∀ g ∈ gs, Combination selectors degrees D g) ∧
      (∀ (k : ℕ) (g : List ℕ) (r s : ℕ), gs[k]? = some g → g[r]? = some s → map[s]? = some (cs.numFixed + k) ∧
        rs[s]? = some (some (rootExpr (queryExpr cs.numFixed cs.sys.fixedQueries k) (1 + (r : F)) g.length 1
          (queryExpr cs.numFixed cs.sys.fixedQueries k)))) ∧
      List.Forall₂ (List.Forall₂ fun e e' => replace rs e = some e') cs.sys.gates gates ∧
      List.Forall₂ (ArgReplaced fun e e' => replace rs e = some e') cs.sys.lookups lookups ∧
      List.Forall₂ (ArgReplaced fun e e' => replace rs e = some e') cs.sys.shuffles shuffles := by
  obtain ⟨hD3, hDe⟩ := computeDegree_bounds hdeg
  obtain ⟨degrees, hd1, hd2, hd3⟩ := selectorDegrees_eq cs.simple cs.sys.gates.flatten (List.replicate selectors.length 0)
    (fun e he => by obtain ⟨g, hg, he⟩ := List.mem_flatten.1 he; exact hp.one g hg e he)
    (fun e he s hs => by
      obtain ⟨g, hg, he⟩ := List.mem_flatten.1 he
      rw [List.length_replicate, hlen]; exact hp.selectors g hg e he s hs)
  have hd : ∀ s, degrees.getD s 0 = maxDeg cs.simple cs.sys.gates.flatten s := fun s => by
    rw [hd3]
    have : (List.replicate selectors.length 0).getD s 0 = 0 := by
      by_cases h : s < selectors.length <;> simp [h]
    rw [this]; simp
  obtain ⟨gs, hg1, hg2, hg3, hg4⟩ := process_spec (F := F) hn (by simpa using hd2)
    (fun s => by rw [hd]; exact maxDeg_le hDe s) (⟨⟨cs.numFixed, cs.sys.fixedQueries⟩, [], []⟩ : State F)
  rw [foldl_construct hp.queries] at hg1
  simp only [List.length_map, List.map_map] at hg1
  generalize has : ((gs.map (List.map (desc selectors degrees))).mapIdx fun k g =>
    groupAssign (F := F) cs.numFixed cs.sys.fixedQueries k g).flatten = as at hg1
  have hidx : as.map (·.index) = gs.flatten := by
    rw [← has, List.map_flatten]
    congr 1
    apply List.ext_getElem?
    intro k
    rcases hk : gs[k]? with _ | g
    · simp [hk]
    · simp only [List.getElem?_map, List.getElem?_mapIdx, hk, Option.map_some, Option.some.injEq]
      apply List.ext_getElem?
      intro r
      rcases hr : g[r]? with _ | s
      · simp [groupAssign, hr]
      · simp [groupAssign, hr, desc]
  have hperm : gs.flatten.Perm (List.range selectors.length) :=
    (List.perm_ext_iff_of_nodup hg2 List.nodup_range).2 fun s => by rw [hg3, List.mem_range]
  have hasl : as.length = selectors.length := by
    have := hperm.length_eq
    rw [← hidx] at this
    simpa using this
  have hmem : ∀ (k : ℕ) (g : List ℕ) (r s : ℕ), gs[k]? = some g → g[r]? = some s → (⟨s, k, rootExpr (queryExpr cs.numFixed cs.sys.fixedQueries k)
      (1 + (r : F)) g.length 1 (queryExpr cs.numFixed cs.sys.fixedQueries k)⟩ : Assignment F) ∈ as := by
    intro k g r s hk hr
    rw [← has, List.mem_flatten]
    refine ⟨groupAssign cs.numFixed cs.sys.fixedQueries k (g.map (desc selectors degrees)), ?_, ?_⟩
    · refine List.mem_of_getElem? (i := k) ?_
      simp [hk]
    · refine List.mem_of_getElem? (i := r) ?_
      simp [groupAssign, hr, desc]
  obtain ⟨rs, map, hr1, hr2, hr3, hr4, _⟩ := replacements_eq cs.numFixed as (List.replicate as.length none)
    (List.replicate as.length 0) (by simp) (fun a ha => by
      have : a.index ∈ gs.flatten := by rw [← hidx]; exact List.mem_map.2 ⟨a, ha, rfl⟩
      rw [List.length_replicate, hasl]; exact (hg3 _).1 this) (by rw [hidx]; exact hg2)
  have hrs : ∀ s < cs.numSelectors, ∃ r, rs[s]? = some (some r) := fun s hs => by
    have : s ∈ gs.flatten := (hg3 s).2 (by omega)
    rw [← hidx] at this
    obtain ⟨a, ha, rfl⟩ := List.mem_map.1 this
    exact ⟨_, (hr4 a ha).1⟩
  obtain ⟨gates, ht1, ht2⟩ := mapM_forall₂ (f := fun g : List (Expr F) => g.mapM (replace rs)) (l := cs.sys.gates)
    fun g hg => by
      obtain ⟨g', h1, _⟩ := mapM_forall₂ (f := replace rs) (l := g) fun e he =>
        replace_some rs e fun s hs => hrs s (hp.selectors g hg e he s hs)
      exact ⟨g', h1⟩
  obtain ⟨lookups, hl1, hl2⟩ := replaceArguments (rs := rs) (l := cs.sys.lookups) fun a ha e he =>
    replace_some rs e fun s hs => hrs s (hp.selectorsLookups a (by simp [ha]) e he s hs)
  obtain ⟨shuffles, hs1, hs2⟩ := replaceArguments (rs := rs) (l := cs.sys.shuffles) fun a ha e he =>
    replace_some rs e fun s hs => hrs s (hp.selectorsLookups a (by simp [ha]) e he s hs)
  refine ⟨gs, degrees, rs, map, gates, lookups, shuffles, hd, ?_, ?_, ?_, ?_, hg4, ?_, ?_, hl2, hs2⟩
  · unfold compress
    rw [if_neg (by simpa using hlen), hd1, Option.bind_some, hdeg, Option.bind_some, hg1, Option.bind_some]
    simp only [hr1, ht1, hl1, hs1, Option.bind_some, Option.map_some]
    rfl
  · rw [hr3]; simp [hasl, hlen]
  · rw [hperm.length_eq, List.length_range, hlen]
  · intro s; rw [hg3, hlen]
  · intro k g r s hk hr
    have := hr4 _ (hmem k g r s hk hr)
    exact ⟨this.2, this.1⟩
  · refine ht2.imp fun g g' h => ?_
    exact forall₂_of_mapM h

end
end Tachyon.Selector
