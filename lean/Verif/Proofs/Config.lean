import Verif.Model.Config
import Mathlib.Data.List.Nodup
import Mathlib.Tactic.Push
/-! Lemmas about the configuration of constraint systems. -/
namespace Tachyon.Config

/-- What holds after every configuration. -/
structure Inv (s : State) : Prop where
  lengths : s.numAdviceQueries.length = s.advicePhases.length
  counts : ∀ i < s.numAdviceQueries.length, s.numAdviceQueries[i]? = some (s.adviceQueries.countP fun q => q.1.1 = i)
  inRange : ∀ q ∈ s.adviceQueries, q.1.1 < s.numAdviceQueries.length
  advice : s.adviceQueries.Nodup
  fixed : s.fixedQueries.Nodup
  inst : s.instanceQueries.Nodup
  perm : s.permutation.Nodup
  queried : ∀ c ∈ s.permutation, match c with
    | .fixed i => (i, 0) ∈ s.fixedQueries
    | .advice i p => ((i, p), 0) ∈ s.adviceQueries
    | .instance_ i => (i, 0) ∈ s.instanceQueries
  constants : s.constants.Nodup ∧ ∀ c ∈ s.constants, Column.fixed c ∈ s.permutation
  phases : ∀ p ∈ s.advicePhases, ∀ q ≤ p, q ∈ s.advicePhases
  challenges : ∀ p ∈ s.challengePhases, p ∈ s.advicePhases

theorem Inv.new : Inv State.new := by
  refine ⟨rfl, ?_, ?_, List.nodup_nil, List.nodup_nil, List.nodup_nil, List.nodup_nil, ?_, ⟨List.nodup_nil, ?_⟩, ?_, ?_⟩ <;> simp [State.new]

theorem not_mem_of_find {A : Type} [DecidableEq A] {l : List A} {a : A} (h : l.findIdx? (fun b => decide (b = a)) = none) : a ∉ l := by
  rw [List.findIdx?_eq_none_iff] at h
  intro hm
  simpa using h a hm

theorem get_of_find {A : Type} [DecidableEq A] {l : List A} {a : A} {i : ℕ} (h : l.findIdx? (fun b => decide (b = a)) = some i) :
    l[i]? = some a := by
  rw [List.findIdx?_eq_some_iff_getElem] at h
  obtain ⟨hi, h1, -⟩ := h
  rw [List.getElem?_eq_getElem hi]
  simpa using h1

theorem nodup_snoc {A : Type} {l : List A} {a : A} (h : l.Nodup) (ha : a ∉ l) : (l ++ [a]).Nodup := by
  rw [List.nodup_append]
  refine ⟨h, List.nodup_singleton a, ?_⟩
  intro b hb c hc e
  rw [List.mem_singleton] at hc
  subst hc e
  exact ha hb

theorem queryFixed_spec {s : State} (hs : Inv s) (c : ℕ) (r : Int) : Inv (s.queryFixed c r).2 ∧
    (s.queryFixed c r).2.fixedQueries[(s.queryFixed c r).1]? = some (c, r) ∧ s.fixedQueries <+: (s.queryFixed c r).2.fixedQueries ∧
    (s.queryFixed c r).2.permutation = s.permutation ∧ (s.queryFixed c r).2.constants = s.constants := by
  rw [State.queryFixed]
  split
  · rename_i i h
    exact ⟨hs, get_of_find h, List.prefix_refl _, rfl, rfl⟩
  · rename_i h
    refine ⟨⟨hs.1, hs.2, hs.3, hs.4, nodup_snoc hs.5 (not_mem_of_find h), hs.6, hs.7, fun d hd => ?_, hs.9, hs.10, hs.11⟩, by simp,
      List.prefix_append _ _, rfl, rfl⟩
    have := hs.queried d hd
    cases d with
    | fixed i => exact List.mem_append_left _ this
    | advice i p => exact this
    | instance_ i => exact this

theorem queryInstance_spec {s : State} (hs : Inv s) (c : ℕ) (r : Int) : Inv (s.queryInstance c r).2 ∧
    (s.queryInstance c r).2.instanceQueries[(s.queryInstance c r).1]? = some (c, r) ∧
    s.instanceQueries <+: (s.queryInstance c r).2.instanceQueries ∧
    (s.queryInstance c r).2.permutation = s.permutation ∧ (s.queryInstance c r).2.constants = s.constants := by
  rw [State.queryInstance]
  split
  · rename_i i h
    exact ⟨hs, get_of_find h, List.prefix_refl _, rfl, rfl⟩
  · rename_i h
    refine ⟨⟨hs.1, hs.2, hs.3, hs.4, hs.5, nodup_snoc hs.6 (not_mem_of_find h), hs.7, fun d hd => ?_, hs.9, hs.10, hs.11⟩, by simp,
      List.prefix_append _ _, rfl, rfl⟩
    have := hs.queried d hd
    cases d with
    | fixed i => exact this
    | advice i p => exact this
    | instance_ i => exact List.mem_append_left _ this

theorem queryAdvice_spec {s t : State} (hs : Inv s) {c : ℕ × ℕ} {r : Int} {i : ℕ} (h : s.queryAdvice c r = some (i, t)) : Inv t ∧
    t.adviceQueries[i]? = some (c, r) ∧ s.adviceQueries <+: t.adviceQueries ∧ t.permutation = s.permutation ∧ t.constants = s.constants := by
  rw [State.queryAdvice] at h
  split at h
  · rename_i j hj
    simp only [Option.some.injEq, Prod.mk.injEq] at h
    obtain ⟨rfl, rfl⟩ := h
    exact ⟨hs, get_of_find hj, List.prefix_refl _, rfl, rfl⟩
  · rename_i hnone
    split at h
    · simp at h
    · rename_i n hn
      simp only [Option.some.injEq, Prod.mk.injEq] at h
      obtain ⟨rfl, rfl⟩ := h
      have hlt : c.1 < s.numAdviceQueries.length := by
        by_contra hc
        rw [List.getElem?_eq_none (by omega)] at hn
        simp at hn
      refine ⟨⟨by simpa using hs.1, fun j hj => ?_, fun q hq => ?_, nodup_snoc hs.4 (not_mem_of_find hnone), hs.5, hs.6, hs.7, fun d hd => ?_,
        hs.9, hs.10, hs.11⟩, by simp, List.prefix_append _ _, rfl, rfl⟩
      · simp only [List.length_set] at hj
        have hcount := hs.counts j hj
        simp only [List.countP_append, List.countP_cons, List.countP_nil]
        by_cases e : c.1 = j
        · subst e
          rw [hn, Option.some.injEq] at hcount
          subst hcount
          rw [List.getElem?_set_self hlt]
          simp
        · rw [List.getElem?_set_ne e, hcount]
          simp [e]
      · simp only [List.length_set]
        rcases List.mem_append.1 hq with hq | hq
        · exact hs.inRange q hq
        · rw [List.mem_singleton] at hq
          subst hq
          exact hlt
      · have := hs.queried d hd
        cases d with
        | fixed i => exact this
        | advice i p => exact List.mem_append_left _ this
        | instance_ i => exact this

/-- The queries of the type of a column. -/
def hasQuery (s : State) (c : Column) (r : Int) (i : ℕ) : Prop :=
  match c with
  | .fixed j => s.fixedQueries[i]? = some (j, r)
  | .advice j p => s.adviceQueries[i]? = some ((j, p), r)
  | .instance_ j => s.instanceQueries[i]? = some (j, r)

theorem queryAny_spec {s t : State} (hs : Inv s) {c : Column} {r : Int} {i : ℕ} (h : s.queryAny c r = some (i, t)) :
    Inv t ∧ hasQuery t c r i ∧ t.permutation = s.permutation ∧ t.constants = s.constants := by
  cases c with
  | fixed j =>
    simp only [State.queryAny, Option.some.injEq] at h
    have := queryFixed_spec hs j r
    rw [h] at this
    exact ⟨this.1, this.2.1, this.2.2.2⟩
  | advice j p =>
    have := queryAdvice_spec hs h
    exact ⟨this.1, this.2.1, this.2.2.2⟩
  | instance_ j =>
    simp only [State.queryAny, Option.some.injEq] at h
    have := queryInstance_spec hs j r
    rw [h] at this
    exact ⟨this.1, this.2.1, this.2.2.2⟩

theorem enableEquality_spec {s t : State} {c : Column} (hs : Inv s) (h : s.enableEquality c = some t) :
    Inv t ∧ c ∈ t.permutation ∧ t.constants = s.constants ∧ ∀ d ∈ s.permutation, d ∈ t.permutation := by
  rw [State.enableEquality, Option.map_eq_some_iff] at h
  obtain ⟨⟨i, u⟩, hq, h⟩ := h
  obtain ⟨h1, h2, h3, h4⟩ := queryAny_spec hs hq
  simp only at h
  split at h
  · rename_i hm
    subst h
    exact ⟨h1, hm, h4, fun d hd => h3 ▸ hd⟩
  · rename_i hm
    subst h
    refine ⟨⟨h1.1, h1.2, h1.3, h1.4, h1.5, h1.6, nodup_snoc h1.7 hm, fun d hd => ?_, ⟨h1.9.1, fun d hd => List.mem_append_left _ (h1.9.2 d hd)⟩,
      h1.10, h1.11⟩, by simp, h4, fun d hd => List.mem_append_left _ (h3 ▸ hd)⟩
    rcases List.mem_append.1 hd with hd | hd
    · exact h1.queried d hd
    · rw [List.mem_singleton] at hd
      subst hd
      cases d with
      | fixed j => exact List.mem_of_getElem? h2
      | advice j p => exact List.mem_of_getElem? h2
      | instance_ j => exact List.mem_of_getElem? h2

theorem queryFixed_constants (s : State) (cs : List ℕ) (c : ℕ) (r : Int) :
    ({ s with constants := cs } : State).queryFixed c r = ((s.queryFixed c r).1, { (s.queryFixed c r).2 with constants := cs }) := by
  simp only [State.queryFixed]
  split <;> rfl

theorem enableConstant_spec {s t : State} {c : ℕ} (hs : Inv s) (h : s.enableConstant c = some t) : Inv t ∧ c ∈ t.constants := by
  rw [State.enableConstant] at h
  split at h
  · rename_i hm
    rw [Option.some.injEq] at h
    subst h
    exact ⟨hs, hm⟩
  · rename_i hm
    have h' : s.enableEquality (.fixed c) = some { t with constants := s.constants } ∧ t.constants = s.constants ++ [c] := by
      simp only [State.enableEquality, State.queryAny, Option.map_some, Option.some.injEq, queryFixed_constants] at h ⊢
      subst h
      have hc := (queryFixed_spec hs c 0).2.2.2.2
      split <;> simp [← hc]
    obtain ⟨h1, h2, h3, h4⟩ := enableEquality_spec hs h'.1
    refine ⟨⟨h1.1, h1.2, h1.3, h1.4, h1.5, h1.6, h1.7, h1.8, ⟨by rw [h'.2]; exact nodup_snoc hs.9.1 hm, fun d hd => ?_⟩, h1.10, h1.11⟩,
      by rw [h'.2]; simp⟩
    rw [h'.2, List.mem_append, List.mem_singleton] at hd
    rcases hd with hd | rfl
    · exact h1.9.2 d hd
    · exact h2

theorem step_inv {s t : State} {a : Action} (hs : Inv s) (h : s.step a = some t) : Inv t := by
  cases a with
  | createFixed =>
    simp only [State.step, State.createFixed, Option.some.injEq] at h
    subst h
    exact ⟨hs.1, hs.2, hs.3, hs.4, hs.5, hs.6, hs.7, hs.8, hs.9, hs.10, hs.11⟩
  | createInstance =>
    simp only [State.step, State.createInstance, Option.some.injEq] at h
    subst h
    exact ⟨hs.1, hs.2, hs.3, hs.4, hs.5, hs.6, hs.7, hs.8, hs.9, hs.10, hs.11⟩
  | createSimple =>
    simp only [State.step, State.createSimple, Option.some.injEq] at h
    subst h
    exact ⟨hs.1, hs.2, hs.3, hs.4, hs.5, hs.6, hs.7, hs.8, hs.9, hs.10, hs.11⟩
  | createComplex =>
    simp only [State.step, State.createComplex, Option.some.injEq] at h
    subst h
    exact ⟨hs.1, hs.2, hs.3, hs.4, hs.5, hs.6, hs.7, hs.8, hs.9, hs.10, hs.11⟩
  | setMinimumDegree d =>
    simp only [State.step, State.setMinimumDegree, Option.some.injEq] at h
    subst h
    exact ⟨hs.1, hs.2, hs.3, hs.4, hs.5, hs.6, hs.7, hs.8, hs.9, hs.10, hs.11⟩
  | createAdvice p =>
    simp only [State.step, State.createAdvice] at h
    split at h
    · simp at h
    · rename_i hp
      simp only [Option.map_some, Option.some.injEq] at h
      subst h
      have hprev : ∀ q ≤ p, q ∈ s.advicePhases ++ [p] := by
        intro q hq
        by_cases e : q = p
        · simp [e]
        · by_cases h0 : p = 0
          · omega
          · have : p - 1 ∈ s.advicePhases := by
              by_contra hc
              exact hp ⟨h0, hc⟩
            exact List.mem_append_left _ (hs.phases _ this q (by omega))
      refine ⟨by simp [hs.1], fun i hi => ?_, fun q hq => ?_, hs.4, hs.5, hs.6, hs.7, hs.8, hs.9, fun q hq r hr => ?_, fun q hq => ?_⟩
      · simp only [List.length_append, List.length_singleton] at hi
        by_cases e : i < s.numAdviceQueries.length
        · rw [List.getElem?_append_left e, hs.counts i e]
        · have e' : i = s.numAdviceQueries.length := by omega
          subst e'
          rw [List.getElem?_append_right (Nat.le_refl _), Nat.sub_self]
          simp only [List.getElem?_cons_zero, Option.some.injEq]
          symm
          rw [List.countP_eq_zero]
          intro q hq
          have := hs.inRange q hq
          simp
          omega
      · have := hs.inRange q hq
        simp only [List.length_append, List.length_singleton]
        omega
      · rcases List.mem_append.1 hq with hq | hq
        · exact List.mem_append_left _ (hs.phases q hq r hr)
        · rw [List.mem_singleton] at hq
          subst hq
          exact hprev r hr
      · exact List.mem_append_left _ (hs.challenges q hq)
  | createChallenge p =>
    simp only [State.step, State.createChallenge] at h
    split at h
    · rename_i hp
      simp only [Option.map_some, Option.some.injEq] at h
      subst h
      refine ⟨hs.1, hs.2, hs.3, hs.4, hs.5, hs.6, hs.7, hs.8, hs.9, hs.10, fun q hq => ?_⟩
      rcases List.mem_append.1 hq with hq | hq
      · exact hs.challenges q hq
      · rw [List.mem_singleton] at hq
        subst hq
        exact hp
    · simp at h
  | query c r =>
    simp only [State.step, Option.map_eq_some_iff] at h
    obtain ⟨⟨i, u⟩, h, rfl⟩ := h
    exact (queryAny_spec hs h).1
  | enableEquality c => exact (enableEquality_spec hs h).1
  | enableConstant c => exact (enableConstant_spec hs h).1
  | blindingFactors =>
    simp only [State.step, Option.map_eq_some_iff] at h
    obtain ⟨⟨b, u⟩, h, rfl⟩ := h
    rw [State.blindingFactors] at h
    split at h
    · simp only [Option.some.injEq, Prod.mk.injEq] at h
      obtain ⟨-, rfl⟩ := h
      exact hs
    · simp only at h
      split at h
      · simp only [Option.some.injEq, Prod.mk.injEq] at h
        obtain ⟨-, rfl⟩ := h
        exact ⟨hs.1, hs.2, hs.3, hs.4, hs.5, hs.6, hs.7, hs.8, hs.9, hs.10, hs.11⟩
      · simp at h

theorem run_inv (as : List Action) : ∀ {s t : State}, Inv s → s.run as = some t → Inv t := by
  induction as with
  | nil =>
    intro s t hs h
    simp only [State.run, Option.some.injEq] at h
    exact h ▸ hs
  | cons a as ih =>
    intro s t hs h
    rw [State.run, Option.bind_eq_some_iff] at h
    obtain ⟨u, h1, h2⟩ := h
    exact ih (step_inv hs h1) h2

/-- The queries of one state are the first ones of another. -/
def Extends (s t : State) : Prop :=
  s.fixedQueries <+: t.fixedQueries ∧ s.adviceQueries <+: t.adviceQueries ∧ s.instanceQueries <+: t.instanceQueries

theorem Extends.refl (s : State) : Extends s s := ⟨List.prefix_refl _, List.prefix_refl _, List.prefix_refl _⟩

theorem Extends.trans {s t u : State} (h : Extends s t) (h' : Extends t u) : Extends s u :=
  ⟨h.1.trans h'.1, h.2.1.trans h'.2.1, h.2.2.trans h'.2.2⟩

theorem queryAny_extends {s t : State} {c : Column} {r : Int} {i : ℕ} (h : s.queryAny c r = some (i, t)) : Extends s t := by
  cases c with
  | fixed j =>
    simp only [State.queryAny, State.queryFixed, Option.some.injEq] at h
    split at h <;> (obtain ⟨rfl, rfl⟩ := Prod.mk.inj h)
    · exact Extends.refl _
    · exact ⟨List.prefix_append _ _, List.prefix_refl _, List.prefix_refl _⟩
  | instance_ j =>
    simp only [State.queryAny, State.queryInstance, Option.some.injEq] at h
    split at h <;> (obtain ⟨rfl, rfl⟩ := Prod.mk.inj h)
    · exact Extends.refl _
    · exact ⟨List.prefix_refl _, List.prefix_refl _, List.prefix_append _ _⟩
  | advice j p =>
    simp only [State.queryAny, State.queryAdvice] at h
    split at h
    · obtain ⟨rfl, rfl⟩ := Prod.mk.inj (Option.some.inj h)
      exact Extends.refl _
    · split at h
      · simp at h
      · obtain ⟨rfl, rfl⟩ := Prod.mk.inj (Option.some.inj h)
        exact ⟨List.prefix_refl _, List.prefix_append _ _, List.prefix_refl _⟩

theorem enableEquality_extends {s t : State} {c : Column} (h : s.enableEquality c = some t) : Extends s t := by
  rw [State.enableEquality, Option.map_eq_some_iff] at h
  obtain ⟨⟨i, u⟩, hq, h⟩ := h
  have := queryAny_extends hq
  simp only at h
  split at h
  · exact h ▸ this
  · subst h
    exact this

theorem step_extends {s t : State} {a : Action} (h : s.step a = some t) : Extends s t := by
  cases a with
  | createFixed => simp only [State.step, Option.some.injEq] at h; subst h; exact Extends.refl _
  | createInstance => simp only [State.step, Option.some.injEq] at h; subst h; exact Extends.refl _
  | createSimple => simp only [State.step, Option.some.injEq] at h; subst h; exact Extends.refl _
  | createComplex => simp only [State.step, Option.some.injEq] at h; subst h; exact Extends.refl _
  | setMinimumDegree d => simp only [State.step, Option.some.injEq] at h; subst h; exact Extends.refl _
  | createAdvice p =>
    simp only [State.step, State.createAdvice] at h
    split at h
    · simp at h
    · simp only [Option.map_some, Option.some.injEq] at h
      subst h
      exact Extends.refl _
  | createChallenge p =>
    simp only [State.step, State.createChallenge] at h
    split at h
    · simp only [Option.map_some, Option.some.injEq] at h
      subst h
      exact Extends.refl _
    · simp at h
  | query c r =>
    simp only [State.step, Option.map_eq_some_iff] at h
    obtain ⟨⟨i, u⟩, h, rfl⟩ := h
    exact queryAny_extends h
  | enableEquality c => exact enableEquality_extends h
  | enableConstant c =>
    simp only [State.step, State.enableConstant] at h
    split at h
    · rw [Option.some.injEq] at h
      subst h
      exact Extends.refl _
    · have h' := enableEquality_extends h
      exact ⟨h'.1, h'.2.1, h'.2.2⟩
  | blindingFactors =>
    simp only [State.step, State.blindingFactors, Option.map_eq_some_iff] at h
    obtain ⟨⟨b, u⟩, h, rfl⟩ := h
    split at h
    · obtain ⟨rfl, rfl⟩ := Prod.mk.inj (Option.some.inj h)
      exact Extends.refl _
    · split at h
      · obtain ⟨rfl, rfl⟩ := Prod.mk.inj (Option.some.inj h)
        exact Extends.refl _
      · simp at h

theorem run_extends (as : List Action) : ∀ {s t : State}, s.run as = some t → Extends s t := by
  induction as with
  | nil =>
    intro s t h
    simp only [State.run, Option.some.injEq] at h
    exact h ▸ Extends.refl _
  | cons a as ih =>
    intro s t h
    rw [State.run, Option.bind_eq_some_iff] at h
    obtain ⟨u, h1, h2⟩ := h
    exact (step_extends h1).trans (ih h2)

theorem getElem?_of_prefix {A : Type} {l m : List A} {i : ℕ} {a : A} (h : l <+: m) (hi : l[i]? = some a) : m[i]? = some a := by
  obtain ⟨k, rfl⟩ := h
  have : i < l.length := by
    by_contra hc
    rw [List.getElem?_eq_none (by omega)] at hi
    simp at hi
  rw [List.getElem?_append_left this, hi]

theorem hasQuery_extends {s t : State} (h : Extends s t) {c : Column} {r : Int} {i : ℕ} (hq : hasQuery s c r i) : hasQuery t c r i := by
  cases c with
  | fixed j => exact getElem?_of_prefix h.1 hq
  | advice j p => exact getElem?_of_prefix h.2.1 hq
  | instance_ j => exact getElem?_of_prefix h.2.2 hq

theorem index_unique {A : Type} {l : List A} (h : l.Nodup) {i j : ℕ} {a : A} (hi : l[i]? = some a) (hj : l[j]? = some a) : i = j := by
  obtain ⟨h1, h2⟩ := List.getElem?_eq_some_iff.1 hi
  obtain ⟨h3, h4⟩ := List.getElem?_eq_some_iff.1 hj
  exact (List.Nodup.getElem_inj_iff h).1 (h2.trans h4.symm)

theorem hasQuery_unique {s : State} (hs : Inv s) {c : Column} {r : Int} {i j : ℕ} (hi : hasQuery s c r i) (hj : hasQuery s c r j) : i = j := by
  cases c with
  | fixed k => exact index_unique hs.fixed hi hj
  | advice k p => exact index_unique hs.advice hi hj
  | instance_ k => exact index_unique hs.inst hi hj

theorem le_foldl_max (l : List ℕ) : ∀ a : ℕ, a ≤ l.foldl max a ∧ ∀ b ∈ l, b ≤ l.foldl max a := by
  induction l with
  | nil => intro a; simp
  | cons b l ih =>
    intro a
    obtain ⟨h1, h2⟩ := ih (max a b)
    simp only [List.foldl_cons]
    refine ⟨by omega, fun c hc => ?_⟩
    rcases List.mem_cons.1 hc with rfl | hc
    · omega
    · exact h2 c hc

theorem foldl_max_mem (l : List ℕ) : ∀ a : ℕ, l.foldl max a = a ∨ l.foldl max a ∈ l := by
  induction l with
  | nil => intro a; simp
  | cons b l ih =>
    intro a
    simp only [List.foldl_cons]
    rcases ih (max a b) with h | h
    · rw [h]
      rcases Nat.le_total a b with e | e
      · right; rw [Nat.max_eq_right e]; exact List.mem_cons_self ..
      · left; exact Nat.max_eq_left e
    · right; exact List.mem_cons_of_mem _ h

end Tachyon.Config
