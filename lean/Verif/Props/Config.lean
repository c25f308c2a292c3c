import Verif.Proofs.Config
import Mathlib.Data.List.Count
/-! C104: the configuration of constraint systems of plonk. -/
namespace Tachyon.Props
open Tachyon.Config

/-! ## Queries -/

/-- C104: in every configuration, a query of a column at a rotation gets an index at which it is found, now and after everything that follows; it is
the only one, so that asking again gives the same index. -/
theorem C104_query (before after : List Action) (s t u v : State) (c : Column) (r : Int) (i j : ℕ) (hs : State.new.run before = some s)
    (hq : s.queryAny c r = some (i, t)) (ht : t.run after = some u) (hq' : u.queryAny c r = some (j, v)) :
    hasQuery t c r i ∧ hasQuery u c r i ∧ (∀ k, hasQuery u c r k → k = i) ∧ j = i := by
  have h1 := run_inv before Inv.new hs
  obtain ⟨h2, h3, -⟩ := queryAny_spec h1 hq
  have h4 := run_inv after h2 ht
  have h5 := hasQuery_extends (run_extends after ht) h3
  obtain ⟨h6, h7, -⟩ := queryAny_spec h4 hq'
  exact ⟨h3, h5, fun k hk => hasQuery_unique h4 hk h5, hasQuery_unique h6 h7 (hasQuery_extends (queryAny_extends hq') h5)⟩

/-- C104: in every configuration no query is there twice, and the queries of advice columns are of columns that there are. -/
theorem C104_nodup (as : List Action) (s : State) (h : State.new.run as = some s) :
    s.fixedQueries.Nodup ∧ s.adviceQueries.Nodup ∧ s.instanceQueries.Nodup ∧ ∀ q ∈ s.adviceQueries, q.1.1 < s.advicePhases.length := by
  have hs := run_inv as Inv.new h
  exact ⟨hs.fixed, hs.advice, hs.inst, fun q hq => hs.lengths ▸ hs.inRange q hq⟩

/-- C104: an advice column that was not created cannot be queried. -/
theorem C104_foreign (as : List Action) (s : State) (h : State.new.run as = some s) (c : ℕ × ℕ) (r : Int) (hc : s.advicePhases.length ≤ c.1) :
    s.queryAdvice c r = none := by
  have hs := run_inv as Inv.new h
  have hnot : (c, r) ∉ s.adviceQueries := fun hm => by
    have := hs.inRange _ hm
    rw [hs.lengths] at this
    simp only at this
    omega
  have hf : s.adviceQueries.findIdx? (fun b => decide (b = (c, r))) = none := by
    rw [List.findIdx?_eq_none_iff]
    intro x hx
    simp only [decide_eq_false_iff_not]
    rintro rfl
    exact hnot hx
  rw [State.queryAdvice, hf]
  simp only
  rw [List.getElem?_eq_none (by rw [hs.lengths]; exact hc)]

/-! ## Columns, selectors and phases -/

/-- C104: columns, selectors and challenges are numbered from zero on, in the order in which they are created; simple and complex selectors
together. -/
theorem C104_counts (as : List Action) : ∀ (s t : State), s.run as = some t →
    t.numFixed = s.numFixed + as.countP (fun | .createFixed => true | _ => false) ∧
    t.numInstance = s.numInstance + as.countP (fun | .createInstance => true | _ => false) ∧
    t.numSimple + t.numComplex = s.numSimple + s.numComplex + as.countP (fun | .createSimple => true | .createComplex => true | _ => false) ∧
    t.advicePhases.length = s.advicePhases.length + as.countP (fun | .createAdvice _ => true | _ => false) ∧
    t.challengePhases.length = s.challengePhases.length + as.countP (fun | .createChallenge _ => true | _ => false) := by
  have hfix : ∀ (s : State) c r, (s.queryFixed c r).2.numFixed = s.numFixed ∧ (s.queryFixed c r).2.numInstance = s.numInstance ∧
      (s.queryFixed c r).2.numSimple = s.numSimple ∧ (s.queryFixed c r).2.numComplex = s.numComplex ∧
      (s.queryFixed c r).2.advicePhases = s.advicePhases ∧ (s.queryFixed c r).2.challengePhases = s.challengePhases := by
    intro s c r
    rw [State.queryFixed]
    split <;> exact ⟨rfl, rfl, rfl, rfl, rfl, rfl⟩
  have hinst : ∀ (s : State) c r, (s.queryInstance c r).2.numFixed = s.numFixed ∧ (s.queryInstance c r).2.numInstance = s.numInstance ∧
      (s.queryInstance c r).2.numSimple = s.numSimple ∧ (s.queryInstance c r).2.numComplex = s.numComplex ∧
      (s.queryInstance c r).2.advicePhases = s.advicePhases ∧ (s.queryInstance c r).2.challengePhases = s.challengePhases := by
    intro s c r
    rw [State.queryInstance]
    split <;> exact ⟨rfl, rfl, rfl, rfl, rfl, rfl⟩
  have hany : ∀ (s t : State) c r i, s.queryAny c r = some (i, t) → t.numFixed = s.numFixed ∧ t.numInstance = s.numInstance ∧
      t.numSimple = s.numSimple ∧ t.numComplex = s.numComplex ∧ t.advicePhases = s.advicePhases ∧ t.challengePhases = s.challengePhases := by
    intro s t c r i h
    cases c with
    | fixed j => simp only [State.queryAny, Option.some.injEq] at h; have := hfix s j r; rwa [h] at this
    | instance_ j => simp only [State.queryAny, Option.some.injEq] at h; have := hinst s j r; rwa [h] at this
    | advice j p =>
      simp only [State.queryAny, State.queryAdvice] at h
      split at h
      · obtain ⟨rfl, rfl⟩ := Prod.mk.inj (Option.some.inj h)
        exact ⟨rfl, rfl, rfl, rfl, rfl, rfl⟩
      · split at h
        · simp at h
        · obtain ⟨rfl, rfl⟩ := Prod.mk.inj (Option.some.inj h)
          exact ⟨rfl, rfl, rfl, rfl, rfl, rfl⟩
  have heq : ∀ (s t : State) c, s.enableEquality c = some t → t.numFixed = s.numFixed ∧ t.numInstance = s.numInstance ∧
      t.numSimple = s.numSimple ∧ t.numComplex = s.numComplex ∧ t.advicePhases = s.advicePhases ∧ t.challengePhases = s.challengePhases := by
    intro s t c h
    rw [State.enableEquality, Option.map_eq_some_iff] at h
    obtain ⟨⟨i, u⟩, hq, h⟩ := h
    have := hany _ _ _ _ _ hq
    simp only at h
    split at h
    · exact h ▸ this
    · subst h
      exact this
  induction as with
  | nil =>
    intro s t h
    simp only [State.run, Option.some.injEq] at h
    subst h
    simp
  | cons a as ih =>
    intro s t h
    rw [State.run, Option.bind_eq_some_iff] at h
    obtain ⟨u, h1, h2⟩ := h
    obtain ⟨i1, i2, i3, i4, i5⟩ := ih u t h2
    simp only [List.countP_cons]
    rw [i1, i2, i3, i4, i5]
    cases a with
    | createFixed => simp only [State.step, State.createFixed, Option.some.injEq] at h1; subst h1; simp; omega
    | createInstance => simp only [State.step, State.createInstance, Option.some.injEq] at h1; subst h1; simp; omega
    | createSimple => simp only [State.step, State.createSimple, Option.some.injEq] at h1; subst h1; simp; omega
    | createComplex => simp only [State.step, State.createComplex, Option.some.injEq] at h1; subst h1; simp; omega
    | setMinimumDegree d => simp only [State.step, State.setMinimumDegree, Option.some.injEq] at h1; subst h1; simp
    | createAdvice p =>
      simp only [State.step, State.createAdvice] at h1
      split at h1
      · simp at h1
      · simp only [Option.map_some, Option.some.injEq] at h1
        subst h1
        simp
        omega
    | createChallenge p =>
      simp only [State.step, State.createChallenge] at h1
      split at h1
      · simp only [Option.map_some, Option.some.injEq] at h1
        subst h1
        simp
        omega
      · simp at h1
    | query c r =>
      simp only [State.step, Option.map_eq_some_iff] at h1
      obtain ⟨⟨i, w⟩, h1, rfl⟩ := h1
      obtain ⟨e1, e2, e3, e4, e5, e6⟩ := hany _ _ _ _ _ h1
      simp [e1, e2, e3, e4, e5, e6]
    | enableEquality c =>
      obtain ⟨e1, e2, e3, e4, e5, e6⟩ := heq _ _ _ h1
      simp [e1, e2, e3, e4, e5, e6]
    | enableConstant c =>
      simp only [State.step, State.enableConstant] at h1
      split at h1
      · rw [Option.some.injEq] at h1
        subst h1
        simp
      · obtain ⟨e1, e2, e3, e4, e5, e6⟩ := heq _ _ _ h1
        simp [e1, e2, e3, e4, e5, e6]
    | blindingFactors =>
      simp only [State.step, State.blindingFactors, Option.map_eq_some_iff] at h1
      obtain ⟨⟨b, w⟩, h1, rfl⟩ := h1
      split at h1
      · obtain ⟨rfl, rfl⟩ := Prod.mk.inj (Option.some.inj h1)
        simp
      · split at h1
        · obtain ⟨rfl, rfl⟩ := Prod.mk.inj (Option.some.inj h1)
          simp
        · simp at h1

/-- C104: what is created gets the next number. -/
theorem C104_indices (s : State) : s.createFixed.1 = s.numFixed ∧ s.createInstance.1 = s.numInstance ∧
    s.createSimple.1 = s.numSimple + s.numComplex ∧ s.createComplex.1 = s.numSimple + s.numComplex ∧
    (∀ p c t, s.createAdvice p = some (c, t) → c = (s.advicePhases.length, p)) ∧
    (∀ p c t, s.createChallenge p = some (c, t) → c = (s.challengePhases.length, p)) := by
  refine ⟨rfl, rfl, rfl, rfl, fun p c t h => ?_, fun p c t h => ?_⟩
  · rw [State.createAdvice] at h
    split at h
    · simp at h
    · exact (Prod.mk.inj (Option.some.inj h)).1.symm
  · rw [State.createChallenge] at h
    split at h
    · exact (Prod.mk.inj (Option.some.inj h)).1.symm
    · simp at h

/-- C104: in every configuration with an advice column, `GetPhases` gives exactly the phases of the advice columns, and each challenge comes after
a phase in which there is a column. -/
theorem C104_phases (as : List Action) (s : State) (h : State.new.run as = some s) (hne : s.advicePhases ≠ []) :
    (∀ p, p ∈ s.phases ↔ p ∈ s.advicePhases) ∧ ∀ p ∈ s.challengePhases, p ∈ s.advicePhases := by
  have hs := run_inv as Inv.new h
  refine ⟨fun p => ?_, hs.challenges⟩
  rw [State.phases, List.mem_range, State.maxPhase]
  have hmem : s.advicePhases.foldl max 0 ∈ s.advicePhases := by
    rcases foldl_max_mem s.advicePhases 0 with e | e
    · rw [e]
      obtain ⟨q, hq⟩ := List.exists_mem_of_ne_nil _ hne
      exact hs.phases q hq 0 (Nat.zero_le _)
    · exact e
  exact ⟨fun hp => hs.phases _ hmem p (by omega), fun hp => Nat.lt_succ_of_le ((le_foldl_max s.advicePhases 0).2 p hp)⟩

/-- C104: a column of a phase can be created exactly if the phase is the first one or that before it has a column. -/
theorem C104_phase_order (s : State) (p : ℕ) : (∃ r, s.createAdvice p = some r) ↔ p = 0 ∨ p - 1 ∈ s.advicePhases := by
  rw [State.createAdvice]
  split
  · rename_i h
    exact ⟨fun ⟨_, hr⟩ => absurd hr (by simp), fun hp => (hp.elim h.1 h.2).elim⟩
  · rename_i h
    simp only [Option.some.injEq, exists_eq', true_iff]
    by_contra hc
    rw [not_or] at hc
    exact h hc

/-! ## Equality -/

/-- C104: in every configuration each column with equality is once in the permutation argument, is queried at rotation zero, and all columns of
constants are among them. -/
theorem C104_equality (as : List Action) (s : State) (h : State.new.run as = some s) :
    s.permutation.Nodup ∧ (∀ c ∈ s.permutation, ∃ i, hasQuery s c 0 i) ∧ s.constants.Nodup ∧ ∀ c ∈ s.constants, Column.fixed c ∈ s.permutation := by
  have hs := run_inv as Inv.new h
  refine ⟨hs.perm, fun c hc => ?_, hs.constants⟩
  have := hs.queried c hc
  cases c with
  | fixed j => exact List.mem_iff_getElem?.1 this
  | advice j p => exact List.mem_iff_getElem?.1 this
  | instance_ j => exact List.mem_iff_getElem?.1 this

/-- C104: after `EnableEquality` and `EnableConstant` the column is there. -/
theorem C104_enable (as : List Action) (s t : State) (h : State.new.run as = some s) :
    (∀ c, s.enableEquality c = some t → c ∈ t.permutation) ∧ (∀ c, s.enableConstant c = some t → c ∈ t.constants ∧ Column.fixed c ∈ t.permutation) := by
  have hs := run_inv as Inv.new h
  refine ⟨fun c hc => (enableEquality_spec hs hc).2.1, fun c hc => ?_⟩
  obtain ⟨h1, h2⟩ := enableConstant_spec hs hc
  exact ⟨h2, h1.constants.2 c h2⟩

/-! ## Blinding factors -/

/-- C104: the first time, `ComputeBlindingFactors` gives at least five, at least two more than any advice column has queries, and no more than
needed for that; `ComputeMinimumRows` three more. -/
theorem C104_blinding (as : List Action) (s : State) (h : State.new.run as = some s) (hc : s.cachedBlinding = none) (b : ℕ) (t : State)
    (hb : s.blindingFactors = some (b, t)) :
    5 ≤ b ∧ (∀ i, (s.adviceQueries.countP fun q => q.1.1 = i) + 2 ≤ b) ∧
    (b = 5 ∨ ∃ i < s.advicePhases.length, (s.adviceQueries.countP fun q => q.1.1 = i) + 2 = b) ∧ s.minimumRows = some (b + 3, t) := by
  have hs := run_inv as Inv.new h
  have hrows : s.minimumRows = some (b + 3, t) := by rw [State.minimumRows, hb]; rfl
  rw [State.blindingFactors, hc] at hb
  simp only at hb
  split at hb
  · obtain ⟨rfl, -⟩ := Prod.mk.inj (Option.some.inj hb)
    refine ⟨by omega, fun i => ?_, ?_, hrows⟩
    · by_cases hi : i < s.numAdviceQueries.length
      · have h1 := List.mem_of_getElem? (hs.counts i hi)
        have h2 := (le_foldl_max s.numAdviceQueries 0).2 _ h1
        have h3 : s.numAdviceQueries ≠ [] := by rintro e; simp [e] at hi
        rw [maxQueries, if_neg h3]
        omega
      · have : (s.adviceQueries.countP fun q => q.1.1 = i) = 0 := by
          rw [List.countP_eq_zero]
          intro q hq
          have := hs.inRange q hq
          simp
          omega
        omega
    · by_cases hm : maxQueries s ≤ 3
      · left; omega
      · right
        have h3 : s.numAdviceQueries ≠ [] := by
          intro e
          rw [maxQueries, if_pos e] at hm
          omega
        rw [maxQueries, if_neg h3] at hm ⊢
        rcases foldl_max_mem s.numAdviceQueries 0 with e | e
        · omega
        · obtain ⟨i, hi⟩ := List.mem_iff_getElem?.1 e
          have hlt : i < s.numAdviceQueries.length := by
            by_contra hn
            rw [List.getElem?_eq_none (by omega)] at hi
            simp at hi
          refine ⟨i, hs.lengths ▸ hlt, ?_⟩
          rw [hs.counts i hlt, Option.some.injEq] at hi
          omega
  · simp at hb

/-- Six queries of one column after the blinding factors were computed. -/
def late104 : List Action := [.createAdvice 0, .blindingFactors, .query (.advice 0 0) 0, .query (.advice 0 0) 1, .query (.advice 0 0) 2,
  .query (.advice 0 0) 3, .query (.advice 0 0) 4, .query (.advice 0 0) 5]

/-- C104: finding: the number is cached, and not computed again when queries are added after it was asked for: then there are columns with more
queries than blinding factors. -/
theorem C104_stale : ∃ s b t, State.new.run late104 = some s ∧ s.blindingFactors = some (b, t) ∧
    b < s.adviceQueries.countP fun q => q.1.1 = 0 :=
  ⟨_, 5, _, rfl, rfl, by decide⟩

/-! ## The order of columns -/

/-- C104: `operator<` is a strict weak order with instance columns before advice columns before fixed columns. -/
theorem C104_order (a b c : Column) : a.lt a = false ∧ (a.lt b = true → b.lt a = false) ∧ (a.lt b = true → b.lt c = true → a.lt c = true) ∧
    (a.lt b = false → b.lt c = false → a.lt c = false) := by
  cases a <;> cases b <;> cases c <;> simp [Column.lt] <;> omega

/-- C104: finding: the order does not look at the index, so that different columns of one type (and phase) count as equal. -/
theorem C104_order_index (i j p : ℕ) : (Column.fixed i).lt (.fixed j) = false ∧ (Column.instance_ i).lt (.instance_ j) = false ∧
    (Column.advice i p).lt (.advice j p) = false := by simp [Column.lt]

/-- A configuration with two phases, a selector and a permutation. -/
example : (State.new.run [.createAdvice 0, .createAdvice 1, .createChallenge 0, .createFixed, .createSimple, .createComplex,
    .query (.advice 0 0) 0, .query (.advice 0 0) 1, .query (.advice 0 0) 0, .enableEquality (.advice 1 1), .enableConstant 0,
    .enableConstant 0]).map (fun s => (s.adviceQueries, s.numAdviceQueries, s.permutation, s.phases, s.numSimple + s.numComplex)) =
    some ([((0, 0), 0), ((0, 0), 1), ((1, 1), 0)], [2, 1], [.advice 1 1, .fixed 0], [0, 1], 2) := by decide

example : State.new.run [.createAdvice 1] = none ∧ State.new.run [.query (.advice 0 0) 0] = none := by decide

end Tachyon.Props
