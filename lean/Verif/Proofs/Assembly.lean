import Verif.Spec.Assembly
import Verif.Proofs.Cycle
import Verif.Props.Cycle
/-! Fixed columns, selectors and copies after the calls of a circuit (C92). -/
namespace Tachyon.Keygen
open Tachyon.Cycle

section
variable {α : Type}

/-- A table with `c` columns of `r` rows. -/
def IsTable (t : List (List α)) (c r : ℕ) : Prop := t.length = c ∧ ∀ col ∈ t, col.length = r

theorem get_isSome {t : List (List α)} {c r : ℕ} (h : IsTable t c r) (l : Label) :
    (get t l).isSome = true ↔ l.1 < c ∧ l.2 < r := by
  unfold Cycle.get
  by_cases h1 : l.1 < t.length
  · have hr := h.2 _ (List.getElem_mem h1)
    rw [List.getElem?_eq_getElem h1, Option.bind_some, isSome_getElem?, hr]
    rw [h.1] at h1
    exact ⟨fun h2 => ⟨h1, h2⟩, fun h2 => h2.2⟩
  · rw [List.getElem?_eq_none (by omega)]
    simp only [Option.bind_none, Option.isSome_none, Bool.false_eq_true, false_iff]
    rw [h.1] at h1
    exact fun h2 => h1 h2.1

theorem put_spec {t : List (List α)} {c r : ℕ} (h : IsTable t c r) (l : Label) (x : α) :
    (¬ (l.1 < c ∧ l.2 < r) → put t l x = none) ∧
    (l.1 < c ∧ l.2 < r → ∃ t', put t l x = some t' ∧ IsTable t' c r ∧ ∀ m, get t' m = if m = l then some x else get t m) := by
  unfold put
  constructor
  · intro hl
    rw [if_neg (by rw [get_isSome h]; exact hl)]
  · intro hl
    rw [if_pos ((get_isSome h l).2 hl)]
    refine ⟨_, rfl, ⟨by simp [h.1], ?_⟩, ?_⟩
    · intro col hcol
      obtain ⟨i, hi, rfl⟩ := List.mem_iff_getElem.1 hcol
      simp only [List.length_modify] at hi
      rw [List.getElem_modify]
      split
      · rw [List.length_set]; exact h.2 _ (List.getElem_mem hi)
      · exact h.2 _ (List.getElem_mem hi)
    · intro m
      unfold Cycle.get
      rw [List.getElem?_modify]
      by_cases hm : l.1 = m.1
      · have hlt : m.1 < t.length := by rw [h.1, ← hm]; exact hl.1
        have hr := h.2 _ (List.getElem_mem hlt)
        simp only [hm, if_true, List.getElem?_eq_getElem hlt, Option.map_eq_map, Option.map_some, Option.bind_some]
        rw [List.getElem?_set]
        by_cases hm2 : l.2 = m.2
        · have : m = l := Prod.ext hm.symm hm2.symm
          rw [if_pos hm2, if_pos this, hr, if_pos hl.2]
        · have : m ≠ l := fun e => hm2 (by rw [e])
          rw [if_neg hm2, if_neg this]
      · have : m ≠ l := fun e => hm (by rw [e])
        rw [if_neg this]
        simp [hm]

theorem putRows_spec {c r i : ℕ} (v : α) : ∀ (rows : List ℕ) (t : List (List α)), IsTable t c r → i < c → (∀ row ∈ rows, row < r) →
    ∃ t', putRows t i v rows = some t' ∧ IsTable t' c r ∧
      ∀ m, get t' m = if m.1 = i ∧ m.2 ∈ rows then some v else get t m := by
  intro rows
  induction rows with
  | nil => intro t h _ _; exact ⟨t, rfl, h, fun m => by simp⟩
  | cons row rows ih =>
    intro t h hi hrows
    obtain ⟨t1, h1, h2, h3⟩ := (put_spec h (i, row) v).2 ⟨hi, hrows row (by simp)⟩
    obtain ⟨t', g1, g2, g3⟩ := ih t1 h2 hi fun x hx => hrows x (by simp [hx])
    refine ⟨t', by simp only [putRows, h1, Option.bind_some, g1], g2, fun m => ?_⟩
    rw [g3, h3]
    by_cases hm : m.1 = i ∧ m.2 ∈ rows
    · rw [if_pos hm, if_pos ⟨hm.1, by simp [hm.2]⟩]
    · rw [if_neg hm]
      by_cases hm' : m = (i, row)
      · rw [if_pos hm', if_pos (by rw [hm']; simp)]
      · rw [if_neg hm', if_neg]
        rintro ⟨e1, e2⟩
        rcases List.mem_cons.1 e2 with e2 | e2
        · exact hm' (Prod.ext e1 e2)
        · exact hm ⟨e1, e2⟩

end
section
variable {K V : Type} [DecidableEq K]

theorem run_append (s : Store) (p q : List (Label × Label)) : Cycle.run s (p ++ q) = (Cycle.run s p).bind fun s => Cycle.run s q := by
  induction p generalizing s with
  | nil => rfl
  | cons a p ih =>
    simp only [List.cons_append, Cycle.run]
    cases h : s.merge a.1 a.2 with
    | none => rfl
    | some x => simp only [Option.bind_some, ih]

/-- The labels of copies. -/
def copyLabel (columns : List K) : Call K V → Option (Label × Label)
  | .copy k row k' row' => some ((columns.findIdx fun c => c = k, row), (columns.findIdx fun c => c = k', row'))
  | _ => none

/-- The store comes from merges. -/
def Reached (c r : ℕ) (s : Store) : Prop :=
  ∃ ps : List ((Fin c × Fin r) × (Fin c × Fin r)), Cycle.run (Store.new c r) (ps.map fun p => (lab p.1, lab p.2)) = some s

/-- The invariant of an assembly. -/
structure Inv (numFixed numSelectors n u : ℕ) (columns : List K) (a : Assembly K V) : Prop where
  fixed : IsTable a.fixed numFixed n
  selectors : IsTable a.selectors numSelectors n
  cols : a.columns = columns
  rows : a.rows = n
  usable : a.usable = u
  reached : Reached columns.length n a.store

theorem copy_step {columns : List K} {n u : ℕ} (hu : u ≤ n) {s : Store} (hs : Reached columns.length n s) {k k' : K}
    (hk : k ∈ columns) (hk' : k' ∈ columns) {row row' : ℕ} (hr : row < u) (hr' : row' < u) :
    ∃ s', Cycle.copy columns n s k row k' row' = some s' ∧ Reached columns.length n s' ∧
      Cycle.run s [((columns.findIdx fun c => c = k, row), (columns.findIdx fun c => c = k', row'))] = some s' := by
  obtain ⟨ps, hps⟩ := hs
  have e1 : (columns.findIdx fun c => c = k) < columns.length := List.findIdx_lt_length_of_exists ⟨k, hk, by simp⟩
  have e2 : (columns.findIdx fun c => c = k') < columns.length := List.findIdx_lt_length_of_exists ⟨k', hk', by simp⟩
  obtain ⟨s0, s', f, h1, h2, _⟩ := Props.C47_merge columns.length n ps
    (⟨_, e1⟩, ⟨row, by omega⟩) (⟨_, e2⟩, ⟨row', by omega⟩)
  rw [hps] at h1
  obtain rfl := Option.some.inj h1
  have hrun : Cycle.run s [((columns.findIdx fun c => c = k, row), (columns.findIdx fun c => c = k', row'))] = some s' := by
    simp only [Cycle.run]
    rw [show ((columns.findIdx fun c => decide (c = k)), row) = lab ((⟨_, e1⟩, ⟨row, by omega⟩) : Fin columns.length × Fin n) from rfl,
      show ((columns.findIdx fun c => decide (c = k')), row') = lab ((⟨_, e2⟩, ⟨row', by omega⟩) : Fin columns.length × Fin n) from rfl,
      h2]
    rfl
  refine ⟨s', ?_, ⟨ps ++ [((⟨_, e1⟩, ⟨row, by omega⟩), (⟨_, e2⟩, ⟨row', by omega⟩))], ?_⟩, hrun⟩
  · unfold Cycle.copy copyCheck columnIndex
    rw [if_pos (by simp; omega), if_pos hk, if_pos hk', Option.bind_some, Option.bind_some]
    have : s.merge (columns.findIdx fun c => decide (c = k), row) (columns.findIdx fun c => decide (c = k'), row') = some (s', f) := h2
    rw [this]
    rfl
  · rw [List.map_append, run_append, hps, Option.bind_some]
    exact hrun

/-- A call does what it should. -/
theorem step_spec {numFixed numSelectors n u : ℕ} (hu : u ≤ n) {columns : List K} {a : Assembly K V}
    (h : Inv numFixed numSelectors n u columns a) (c : Call K V) :
    (¬ c.Valid numFixed numSelectors u columns → a.step c = none) ∧
    (c.Valid numFixed numSelectors u columns → ∃ a', a.step c = some a' ∧ Inv numFixed numSelectors n u columns a' ∧
      (∀ l, get a'.fixed l = if (c.valueAt u l.1 l.2).isSome then c.valueAt u l.1 l.2 else get a.fixed l) ∧
      (∀ l, (c = .selector l.1 l.2 → get a'.selectors l = some true) ∧ (c ≠ .selector l.1 l.2 → get a'.selectors l = get a.selectors l)) ∧
      Cycle.run a.store (copyLabel columns c).toList = some a'.store) := by
  cases c with
  | selector i row =>
    simp only [Call.Valid, Assembly.step, h.usable]
    obtain ⟨p1, p2⟩ := put_spec h.selectors (i, row) true
    constructor
    · intro hv
      split
      · next hr => rw [p1 (fun e => hv ⟨e.1, hr⟩)]; rfl
      · rfl
    · rintro ⟨hi, hr⟩
      obtain ⟨t', q1, q2, q3⟩ := p2 ⟨hi, by simp only; omega⟩
      rw [if_pos hr, q1]
      refine ⟨_, rfl, ⟨h.fixed, q2, h.cols, h.rows, rfl, h.reached⟩, fun l => by simp [Call.valueAt], fun l => ?_, rfl⟩
      have : l = (i, row) ↔ i = l.1 ∧ row = l.2 := by
        rw [Prod.ext_iff]
        exact ⟨fun e => ⟨e.1.symm, e.2.symm⟩, fun e => ⟨e.1.symm, e.2.symm⟩⟩
      simp only [q3, Call.selector.injEq, this, ne_eq]
      exact ⟨fun e => if_pos e, fun e => if_neg e⟩
  | fixed i row v =>
    simp only [Call.Valid, Assembly.step, h.usable]
    obtain ⟨p1, p2⟩ := put_spec h.fixed (i, row) v
    constructor
    · intro hv
      split
      · next hr => rw [p1 (fun e => hv ⟨e.1, hr⟩)]; rfl
      · rfl
    · rintro ⟨hi, hr⟩
      obtain ⟨t', q1, q2, q3⟩ := p2 ⟨hi, by simp only; omega⟩
      rw [if_pos hr, q1]
      refine ⟨_, rfl, ⟨q2, h.selectors, h.cols, h.rows, rfl, h.reached⟩, fun l => ?_, fun l => by simp, rfl⟩
      have : l = (i, row) ↔ i = l.1 ∧ row = l.2 := by
        rw [Prod.ext_iff]
        exact ⟨fun e => ⟨e.1.symm, e.2.symm⟩, fun e => ⟨e.1.symm, e.2.symm⟩⟩
      simp only [q3, Call.valueAt, this]
      split <;> simp
  | copy k row k' row' =>
    simp only [Call.Valid, Assembly.step, h.usable, h.cols, h.rows]
    constructor
    · intro hv
      split
      · next hr =>
        rw [Props.C47_copy_unknown]
        · rfl
        · by_contra hh
          push Not at hh
          exact hv ⟨hh.1, hh.2, hr⟩
      · rfl
    · rintro ⟨hk, hk', hr, hr'⟩
      obtain ⟨s', q1, q2, q3⟩ := copy_step hu h.reached hk hk' hr hr'
      rw [if_pos ⟨hr, hr'⟩, q1]
      exact ⟨_, rfl, ⟨h.fixed, h.selectors, rfl, rfl, rfl, q2⟩, fun l => by simp [Call.valueAt], fun l => by simp, q3⟩
  | fill i row v =>
    simp only [Call.Valid, Assembly.step, h.usable]
    constructor
    · intro hv
      split
      · next hr =>
        have hi : ¬ i < numFixed := fun e => hv ⟨e, hr⟩
        rw [show u - row = (u - row - 1) + 1 by omega, List.range'_succ]
        simp only [putRows]
        rw [(put_spec h.fixed (i, row) v).1 fun e => hi e.1]
        rfl
      · rfl
    · rintro ⟨hi, hr⟩
      obtain ⟨t', q1, q2, q3⟩ := putRows_spec v (List.range' row (u - row)) a.fixed h.fixed hi fun x hx => by
        have := List.mem_range'_1.1 hx
        omega
      rw [if_pos hr, q1]
      refine ⟨_, rfl, ⟨q2, h.selectors, h.cols, h.rows, rfl, h.reached⟩, fun l => ?_, fun l => by simp, rfl⟩
      have : (l.1 = i ∧ l.2 ∈ List.range' row (u - row)) ↔ i = l.1 ∧ row ≤ l.2 ∧ l.2 < u := by
        rw [List.mem_range'_1]
        omega
      simp only [q3, Call.valueAt, this]
      split <;> simp

theorem run_spec {numFixed numSelectors n u : ℕ} (hu : u ≤ n) {columns : List K} : ∀ (cs : List (Call K V)) (a : Assembly K V),
    Inv numFixed numSelectors n u columns a →
    ((¬ ∀ c ∈ cs, c.Valid numFixed numSelectors u columns) → a.run cs = none) ∧
    ((∀ c ∈ cs, c.Valid numFixed numSelectors u columns) → ∃ a', a.run cs = some a' ∧ Inv numFixed numSelectors n u columns a' ∧
      (∀ l, get a'.fixed l = ((cs.filterMap (Call.valueAt u l.1 l.2)).getLast?).or (get a.fixed l)) ∧
      (∀ l, (Call.selector l.1 l.2 ∈ cs → get a'.selectors l = some true) ∧
        (Call.selector l.1 l.2 ∉ cs → get a'.selectors l = get a.selectors l)) ∧
      Cycle.run a.store (cs.filterMap (copyLabel columns)) = some a'.store) := by
  intro cs
  induction cs with
  | nil =>
    intro a h
    exact ⟨fun hh => absurd (by simp) hh, fun _ => ⟨a, rfl, h, fun l => by simp, fun l => by simp, rfl⟩⟩
  | cons c cs ih =>
    intro a h
    obtain ⟨s1, s2⟩ := step_spec hu h c
    by_cases hc : c.Valid numFixed numSelectors u columns
    · obtain ⟨a1, g1, g2, g3, g4, g5⟩ := s2 hc
      obtain ⟨i1, i2⟩ := ih a1 g2
      refine ⟨fun hh => ?_, fun hh => ?_⟩
      · simp only [Assembly.run, g1, Option.bind_some]
        exact i1 fun h2 => hh fun x hx => by
          rcases List.mem_cons.1 hx with rfl | hx
          · exact hc
          · exact h2 x hx
      · obtain ⟨a', k1, k2, k3, k4, k5⟩ := i2 fun x hx => hh x (by simp [hx])
        refine ⟨a', by simp only [Assembly.run, g1, Option.bind_some, k1], k2, fun l => ?_, fun l => ?_, ?_⟩
        · rw [k3, g3]
          simp only [List.filterMap_cons]
          cases hv : c.valueAt u l.1 l.2 with
          | none => simp
          | some v =>
            simp only [Option.isSome_some, if_true, List.getLast?_cons]
            cases (cs.filterMap (Call.valueAt u l.1 l.2)).getLast? <;> simp
        · by_cases h1 : Call.selector l.1 l.2 ∈ cs
          · exact ⟨fun _ => (k4 l).1 h1, fun e => absurd (List.mem_cons_of_mem _ h1) e⟩
          · rw [(k4 l).2 h1]
            refine ⟨fun e => (g4 l).1 ?_, fun e => (g4 l).2 fun e' => e (by simp [e'])⟩
            rcases List.mem_cons.1 e with e | e
            · exact e.symm
            · exact absurd e h1
        · have : (c :: cs).filterMap (copyLabel columns) = (copyLabel columns c).toList ++ cs.filterMap (copyLabel columns) := by
            simp only [List.filterMap_cons]
            cases copyLabel columns c <;> simp
          rw [this, run_append, g5, Option.bind_some, k5]
    · refine ⟨fun _ => ?_, fun hh => absurd (hh c (by simp)) hc⟩
      simp only [Assembly.run, s1 hc, Option.bind_none]

omit [DecidableEq K] in
theorem inv_new (numFixed numSelectors n blinding : ℕ) (columns : List K) (zero : V) :
    Inv numFixed numSelectors n (n - (blinding + 1)) columns (Assembly.new numFixed numSelectors n blinding columns zero) := by
  refine ⟨⟨by simp [Assembly.new], ?_⟩, ⟨by simp [Assembly.new], ?_⟩, rfl, rfl, rfl, ⟨[], rfl⟩⟩
  · intro col hcol
    simp only [Assembly.new, List.mem_replicate] at hcol
    rw [hcol.2]; simp
  · intro col hcol
    simp only [Assembly.new, List.mem_replicate] at hcol
    rw [hcol.2]; simp

theorem labels_fin {c r : ℕ} (L : List (Label × Label)) (h : ∀ p ∈ L, (p.1.1 < c ∧ p.1.2 < r) ∧ p.2.1 < c ∧ p.2.2 < r) :
    ∃ ps : List ((Fin c × Fin r) × (Fin c × Fin r)), L = ps.map fun p => (lab p.1, lab p.2) := by
  induction L with
  | nil => exact ⟨[], rfl⟩
  | cons p L ih =>
    obtain ⟨ps, rfl⟩ := ih fun x hx => h x (by simp [hx])
    obtain ⟨⟨h1, h2⟩, h3, h4⟩ := h p (by simp)
    exact ⟨((⟨_, h1⟩, ⟨_, h2⟩), (⟨_, h3⟩, ⟨_, h4⟩)) :: ps, rfl⟩

end
end Tachyon.Keygen
