import Verif.Proofs.Assembly
/-! The rows of a lookup table (C92). -/
namespace Tachyon.Keygen
open Tachyon.Cycle

section
variable {K V : Type}

theorem lookup_setEntry (E : List (ℕ × Entry V)) (c : ℕ) (e : Entry V) (d : ℕ) :
    (setEntry E c e).lookup d = if d = c then some e else E.lookup d := by
  induction E with
  | nil =>
    simp only [setEntry, List.lookup_cons, List.lookup_nil]
    by_cases h : d = c
    · simp [h]
    · have : (d == c) = false := by simpa using h
      rw [this, if_neg h]
  | cons x E ih =>
    obtain ⟨k, y⟩ := x
    simp only [setEntry]
    by_cases hk : k = c
    · rw [if_pos hk, List.lookup_cons, List.lookup_cons]
      by_cases h : d = c
      · simp [h, hk]
      · have : (d == k) = false := by simpa [hk] using h
        rw [this, if_neg h]
    · rw [if_neg hk, List.lookup_cons, List.lookup_cons, ih]
      by_cases h : d = k
      · have : d ≠ c := fun e => hk (h.symm.trans e)
        simp [h, hk]
      · have : (d == k) = false := by simpa using h
        rw [this]

theorem mem_keys_setEntry (E : List (ℕ × Entry V)) (c : ℕ) (e : Entry V) (d : ℕ) :
    d ∈ (setEntry E c e).map Prod.fst ↔ d = c ∨ d ∈ E.map Prod.fst := by
  induction E with
  | nil => simp [setEntry]
  | cons x E ih =>
    obtain ⟨k, y⟩ := x
    simp only [setEntry]
    by_cases hk : k = c
    · rw [if_pos hk]
      simp only [List.map_cons, List.mem_cons, hk]
      tauto
    · rw [if_neg hk]
      simp only [List.map_cons, List.mem_cons, ih]
      tauto

theorem nodup_setEntry (E : List (ℕ × Entry V)) (c : ℕ) (e : Entry V) (h : (E.map Prod.fst).Nodup) :
    ((setEntry E c e).map Prod.fst).Nodup := by
  induction E with
  | nil => simp [setEntry]
  | cons x E ih =>
    obtain ⟨k, y⟩ := x
    simp only [List.map_cons, List.nodup_cons] at h
    simp only [setEntry]
    by_cases hk : k = c
    · rw [if_pos hk]
      simp only [List.map_cons, List.nodup_cons]
      exact h
    · rw [if_neg hk]
      simp only [List.map_cons, List.nodup_cons, mem_keys_setEntry]
      exact ⟨fun hh => hh.elim hk h.1, ih h.2⟩

theorem entryOf_of_mem (E : List (ℕ × Entry V)) (h : (E.map Prod.fst).Nodup) (c : ℕ) (e : Entry V) (hm : (c, e) ∈ E) :
    entryOf E c = e := by
  unfold entryOf
  induction E with
  | nil => simp at hm
  | cons x E ih =>
    obtain ⟨k, y⟩ := x
    simp only [List.map_cons, List.nodup_cons] at h
    rw [List.lookup_cons]
    rcases List.mem_cons.1 hm with hm' | hm'
    · obtain ⟨rfl, rfl⟩ := Prod.mk.inj hm'
      simp
    · have : (c == k) = false := by
        simp only [beq_eq_false_iff_ne, ne_eq]
        rintro rfl
        exact h.1 (List.mem_map.2 ⟨(c, e), hm', rfl⟩)
      rw [this]
      exact ih h.2 hm'

theorem entryOf_set (E : List (ℕ × Entry V)) (c : ℕ) (e : Entry V) (d : ℕ) :
    entryOf (setEntry E c e) d = if d = c then e else entryOf E d := by
  unfold entryOf
  rw [lookup_setEntry]
  split <;> rfl

/-- An entry knows about the assigned cells of a column. -/
structure EntryOk (P : List (ℕ × ℕ × V)) (c : ℕ) (e : Entry V) : Prop where
  first : ∀ v, e.default = some v ↔ (c, 0, v) ∈ P
  bits : ∀ o : ℕ, e.assigned[o]? = some true ↔ ∃ v, (c, o, v) ∈ P
  top : e.assigned ≠ [] → ∃ v, (c, e.assigned.length - 1, v) ∈ P

/-- The entries know about the assigned cells. -/
structure EntriesOk (P : List (ℕ × ℕ × V)) (E : List (ℕ × Entry V)) : Prop where
  nodup : (E.map Prod.fst).Nodup
  keys : ∀ c, c ∈ E.map Prod.fst ↔ c ∈ P.map Prod.fst
  entry : ∀ c, EntryOk P c (entryOf E c)

theorem getElem?_markAssigned (l : List Bool) (o x : ℕ) :
    (markAssigned l o)[x]? = some true ↔ x = o ∨ l[x]? = some true := by
  unfold markAssigned
  rw [List.getElem?_set]
  by_cases h : o = x
  · rw [if_pos h, if_pos (by simp; omega)]
    simp [h]
  · rw [if_neg h, List.getElem?_append]
    split
    · simp [Ne.symm h]
    · next hx =>
      rw [List.getElem?_replicate, List.getElem?_eq_none (by omega)]
      simp only [reduceCtorEq, or_false]
      constructor
      · intro hh
        split at hh <;> simp at hh
      · intro hh; exact absurd hh.symm h

theorem length_markAssigned (l : List Bool) (o : ℕ) : (markAssigned l o).length = max l.length (o + 1) := by
  unfold markAssigned
  simp only [List.length_set, List.length_append, List.length_replicate]
  omega

theorem entriesOk_step {P : List (ℕ × ℕ × V)} {E : List (ℕ × Entry V)} (h : EntriesOk P E) (c o : ℕ) (v : V)
    (hz : ¬ (o = 0 ∧ (entryOf E c).default.isSome = true)) :
    EntriesOk (P ++ [(c, o, v)]) (setEntry E c
      ⟨if o = 0 then some v else (entryOf E c).default, markAssigned (entryOf E c).assigned o⟩) := by
  have hc := h.entry c
  refine ⟨nodup_setEntry _ _ _ h.nodup, fun d => ?_, fun d => ?_⟩
  · rw [mem_keys_setEntry, h.keys, List.map_append, List.mem_append]
    simp only [List.map_cons, List.map_nil, List.mem_singleton]
    tauto
  · rw [entryOf_set]
    by_cases hd : d = c
    · subst hd
      rw [if_pos rfl]
      refine ⟨fun w => ?_, fun x => ?_, fun _ => ?_⟩
      · simp only [List.mem_append, List.mem_singleton, Prod.mk.injEq, true_and]
        by_cases ho : o = 0
        · have hn : ∀ w, (d, 0, w) ∉ P := fun w hw => by
            refine hz ⟨ho, ?_⟩
            rw [(hc.first w).2 hw]; rfl
          simp only [ho, if_true, hn w, false_or, true_and, Option.some.injEq]
          exact eq_comm
        · rw [if_neg ho, hc.first]
          constructor
          · exact Or.inl
          · rintro (hh | ⟨hh, _⟩)
            · exact hh
            · exact absurd hh.symm ho
      · rw [getElem?_markAssigned, hc.bits]
        simp only [List.mem_append, List.mem_singleton, Prod.mk.injEq, true_and]
        constructor
        · rintro (rfl | ⟨w, hw⟩)
          · exact ⟨v, Or.inr ⟨rfl, rfl⟩⟩
          · exact ⟨w, Or.inl hw⟩
        · rintro ⟨w, hw | ⟨hw, _⟩⟩
          · exact Or.inr ⟨w, hw⟩
          · exact Or.inl hw
      · simp only [length_markAssigned]
        by_cases hl : (entryOf E d).assigned.length ≤ o + 1
        · exact ⟨v, by simp [max_eq_right hl]⟩
        · obtain ⟨w, hw⟩ := hc.top fun e => hl (by rw [e]; simp)
          refine ⟨w, ?_⟩
          rw [max_eq_left (by omega)]
          simp [hw]
    · rw [if_neg hd]
      have hm : ∀ o' w, (d, o', w) ∈ P ++ [(c, o, v)] ↔ (d, o', w) ∈ P := fun o' w => by simp [hd]
      have he := h.entry d
      exact ⟨fun w => by rw [he.first, hm], fun x => by simp only [he.bits, hm], fun hh => by simpa only [hm] using he.top hh⟩

/-- The columns whose first cell is assigned. -/
def zeros (ws : List (ℕ × ℕ × V)) : List ℕ := (ws.filter fun w => decide (w.2.1 = 0)).map Prod.fst

theorem assignCells_spec (used : List ℕ) : ∀ (ws P : List (ℕ × ℕ × V)) (E : List (ℕ × Entry V)), EntriesOk P E → (zeros P).Nodup →
    ((assignCells (K := K) used ws E).1 = true ↔ (∀ w ∈ ws, w.1 ∉ used) ∧ (zeros (P ++ ws)).Nodup) ∧
    ((assignCells (K := K) used ws E).1 = true →
      (assignCells (K := K) used ws E).2.2 = ws.map (fun w => Call.fixed w.1 w.2.1 w.2.2) ∧
      EntriesOk (P ++ ws) (assignCells (K := K) used ws E).2.1) := by
  intro ws
  induction ws with
  | nil =>
    intro P E h hP
    simp only [assignCells, List.append_nil, List.map_nil, true_iff, forall_const]
    exact ⟨⟨by simp, hP⟩, trivial, h⟩
  | cons w ws ih =>
    obtain ⟨c, o, v⟩ := w
    intro P E h hP
    have happ : P ++ (c, o, v) :: ws = (P ++ [(c, o, v)]) ++ ws := by simp
    by_cases hu : c ∈ used
    · have : (assignCells (K := K) used ((c, o, v) :: ws) E).1 = false := by
        simp only [assignCells, assignCell, if_pos hu, Bool.false_and]
      rw [this]
      simp only [Bool.false_eq_true, false_iff, false_implies, and_true]
      exact fun hh => hh.1 (c, o, v) (by simp) hu
    · by_cases hz : o = 0 ∧ (entryOf E c).default.isSome = true
      · have : (assignCells (K := K) used ((c, o, v) :: ws) E).1 = false := by
          simp only [assignCells, assignCell, if_neg hu, if_pos hz, Bool.false_and]
        rw [this]
        simp only [Bool.false_eq_true, false_iff, false_implies, and_true]
        rintro ⟨_, hh⟩
        obtain ⟨x, hx⟩ := Option.isSome_iff_exists.1 hz.2
        have hx := ((h.entry c).first x).1 hx
        unfold zeros at hh
        rw [List.filter_append, List.map_append] at hh
        refine (List.nodup_append.1 hh).2.2 c ?_ c ?_ rfl
        · exact List.mem_map.2 ⟨_, List.mem_filter.2 ⟨hx, by simp⟩, rfl⟩
        · exact List.mem_map.2 ⟨(c, o, v), List.mem_filter.2 ⟨by simp, by simp [hz.1]⟩, rfl⟩
      · have hP' : (zeros (P ++ [(c, o, v)])).Nodup := by
          unfold zeros at hP ⊢
          rw [List.filter_append, List.map_append]
          by_cases ho : o = 0
          · subst ho
            simp only [decide_true, List.filter_cons_of_pos, List.filter_nil, List.map_cons, List.map_nil]
            refine List.nodup_append.2 ⟨hP, by simp, ?_⟩
            rintro a ha b hb rfl
            obtain rfl := List.mem_singleton.1 hb
            obtain ⟨⟨c', o', v'⟩, hx, rfl⟩ := List.mem_map.1 ha
            obtain ⟨hx, ho⟩ := List.mem_filter.1 hx
            simp only [decide_eq_true_eq] at ho
            subst ho
            refine hz ⟨rfl, ?_⟩
            rw [((h.entry c').first v').2 hx]; rfl
          · simpa [ho] using hP
        obtain ⟨i1, i2⟩ := ih _ _ (entriesOk_step h c o v hz) hP'
        have e : assignCell (K := K) used E c o v = (true, setEntry E c
            ⟨if o = 0 then some v else (entryOf E c).default, markAssigned (entryOf E c).assigned o⟩, [.fixed c o v]) := by
          simp only [assignCell, if_neg hu, if_neg hz]
        simp only [assignCells, e, Bool.true_and, happ]
        refine ⟨?_, fun hh => ?_⟩
        · rw [i1]
          simp only [List.mem_cons, forall_eq_or_imp]
          tauto
        · obtain ⟨j1, j2⟩ := i2 hh
          rw [j1]
          exact ⟨rfl, j2⟩

theorem entriesOk_nil : EntriesOk ([] : List (ℕ × ℕ × V)) [] :=
  ⟨by simp, fun c => by simp, fun c => ⟨fun v => by simp [entryOf], fun o => by simp [entryOf], fun h => by simp [entryOf] at h⟩⟩

theorem entry_full {P : List (ℕ × ℕ × V)} {c : ℕ} {e : Entry V} (h : EntryOk P c e) (n : ℕ) :
    (e.assigned.all id = true ∧ e.assigned.length = n) ↔ ∀ x, (∃ v, (c, x, v) ∈ P) ↔ x < n := by
  constructor
  · rintro ⟨h1, rfl⟩ x
    rw [← h.bits]
    constructor
    · intro hh
      by_contra hx
      rw [List.getElem?_eq_none (by omega)] at hh
      cases hh
    · intro hx
      rw [List.getElem?_eq_getElem hx]
      have := List.all_eq_true.1 h1 _ (List.getElem_mem hx)
      simpa using this
  · intro hh
    have hb : ∀ x : ℕ, e.assigned[x]? = some true ↔ x < n := fun x => by rw [h.bits, hh]
    have h1 : e.assigned.length ≤ n := by
      by_cases he : e.assigned = []
      · simp [he]
      · have := (hh _).1 (h.top he)
        omega
    have h2 : n ≤ e.assigned.length := by
      by_contra hx
      have := (hb e.assigned.length).2 (by omega)
      rw [List.getElem?_eq_none (by omega)] at this
      cases this
    refine ⟨List.all_eq_true.2 fun b hbm => ?_, by omega⟩
    obtain ⟨x, hx, rfl⟩ := List.mem_iff_getElem.1 hbm
    have := (hb x).2 (by omega)
    rw [List.getElem?_eq_getElem hx] at this
    exact Option.some.inj this

theorem firstUnused_some (l : List (ℕ × Entry V)) (n : ℕ) (r : Option ℕ) :
    firstUnused l (some n) = some r ↔ r = some n ∧ ∀ x ∈ l, x.2.assigned.all id = true ∧ x.2.assigned.length = n := by
  induction l with
  | nil =>
    simp only [firstUnused, Option.some.injEq, List.not_mem_nil, false_implies, implies_true, and_true]
    exact eq_comm
  | cons x l ih =>
    obtain ⟨c, e⟩ := x
    simp only [firstUnused, List.mem_cons, forall_eq_or_imp]
    by_cases h1 : e.assigned.all id = true
    · rw [if_pos h1]
      by_cases h2 : n = e.assigned.length
      · rw [if_pos h2, ih]
        exact ⟨fun h => ⟨h.1, ⟨h1, h2.symm⟩, h.2⟩, fun h => ⟨h.1, h.2.2⟩⟩
      · rw [if_neg h2]
        exact ⟨fun h => absurd h (by simp), fun h => absurd h.2.1.2.symm h2⟩
    · rw [if_neg h1]
      exact ⟨fun h => absurd h (by simp), fun h => absurd h.2.1.1 h1⟩

theorem firstUnused_none (l : List (ℕ × Entry V)) (n : ℕ) :
    firstUnused l none = some (some n) ↔ l ≠ [] ∧ ∀ x ∈ l, x.2.assigned.all id = true ∧ x.2.assigned.length = n := by
  cases l with
  | nil => simp [firstUnused]
  | cons x l =>
    obtain ⟨c, e⟩ := x
    simp only [firstUnused, List.mem_cons, forall_eq_or_imp]
    by_cases h1 : e.assigned.all id = true
    · rw [if_pos h1, firstUnused_some, Option.some.injEq]
      constructor
      · rintro ⟨rfl, h⟩
        exact ⟨by simp, ⟨h1, rfl⟩, h⟩
      · rintro ⟨_, ⟨_, h⟩, h'⟩
        subst h
        exact ⟨rfl, h'⟩
    · rw [if_neg h1]
      exact ⟨fun h => absurd h (by simp), fun h => absurd h.2.1.1 h1⟩

/-- The rows of a table and the calls made for it. -/
theorem assignTable_spec (o : MapOrder V) (used : List ℕ) (ws : List (ℕ × ℕ × V)) (hused : ∀ w ∈ ws, w.1 ∉ used)
    (hz : (zeros ws).Nodup) (r : Bool × List (Call K V) × List ℕ) :
    assignTable o used ws = some r ↔ ∃ n, 0 < n ∧ ws ≠ [] ∧ TableRows ws n ∧ ∃ cs : List (ℕ × V), (cs.map Prod.fst).Nodup ∧
      (∀ c, c ∈ cs.map Prod.fst ↔ c ∈ ws.map Prod.fst) ∧ (∀ x ∈ cs, (x.1, 0, x.2) ∈ ws) ∧
      cs.map Prod.fst = (o.run (assignCells (K := K) used ws []).2.1).map Prod.fst ∧
      r = (true, ws.map (fun w => Call.fixed w.1 w.2.1 w.2.2) ++ cs.map (fun x => Call.fill x.1 n x.2), used ++ cs.map Prod.fst) := by
  obtain ⟨a1, a2⟩ := assignCells_spec (K := K) used ws [] [] entriesOk_nil (by simp [zeros])
  have hok := a1.2 ⟨hused, hz⟩
  obtain ⟨a3, a4⟩ := a2 hok
  simp only [List.nil_append] at a4
  set E := (assignCells (K := K) used ws []).2.1 with hE
  have hp := o.perm E
  have hent : ∀ x ∈ o.run E, EntryOk ws x.1 x.2 := fun x hx => by
    have := entryOf_of_mem E a4.nodup x.1 x.2 (hp.mem_iff.1 hx)
    rw [← this]
    exact a4.entry x.1
  have hkeys : ∀ c, c ∈ (o.run E).map Prod.fst ↔ c ∈ ws.map Prod.fst := fun c => by
    rw [← a4.keys]
    exact (hp.map Prod.fst).mem_iff
  have hnd : ((o.run E).map Prod.fst).Nodup := (hp.map Prod.fst).nodup_iff.2 a4.nodup
  have hne : o.run E ≠ [] ↔ ws ≠ [] := by
    rw [← not_iff_not]
    push Not
    constructor
    · intro h
      rw [h] at hkeys
      simp only [List.map_nil, List.not_mem_nil, false_iff] at hkeys
      cases ws with
      | nil => rfl
      | cons w ws => exact absurd (by simp) (hkeys w.1)
    · rintro rfl
      simp only [List.map_nil, List.not_mem_nil, iff_false] at hkeys
      cases hh : o.run E with
      | nil => rfl
      | cons w l => rw [hh] at hkeys; exact absurd (by simp) (hkeys w.1)
  have hfull : ∀ n, (∀ x ∈ o.run E, x.2.assigned.all id = true ∧ x.2.assigned.length = n) ↔ TableRows ws n := fun n => by
    unfold TableRows
    constructor
    · intro h c hc
      obtain ⟨x, hx, rfl⟩ := List.mem_map.1 ((hkeys c).2 hc)
      exact (entry_full (hent x hx) n).1 (h x hx)
    · intro h x hx
      exact (entry_full (hent x hx) n).2 (h x.1 ((hkeys _).1 (List.mem_map.2 ⟨x, hx, rfl⟩)))
  have hpos : ∀ n, ws ≠ [] → TableRows ws n → 0 < n := fun n h1 h2 => by
    obtain ⟨⟨c, x, v⟩, hw⟩ := List.exists_mem_of_ne_nil ws h1
    have := (h2 c (List.mem_map.2 ⟨_, hw, rfl⟩) x).1 ⟨v, hw⟩
    omega
  have hcs : ∀ n, ws ≠ [] → TableRows ws n → ∃ cs : List (ℕ × V), cs.map Prod.fst = (o.run E).map Prod.fst ∧
      (∀ x ∈ cs, (x.1, 0, x.2) ∈ ws) ∧
      ((o.run E).mapM fun (x : ℕ × Entry V) => x.2.default.map fun v => (Call.fill x.1 n v : Call K V)) =
        some (cs.map fun x => Call.fill x.1 n x.2) := fun n h1 h2 => by
    have hd : ∀ x ∈ o.run E, ∃ v, x.2.default = some v ∧ (x.1, 0, v) ∈ ws := fun x hx => by
      obtain ⟨v, hv⟩ := (h2 x.1 ((hkeys _).1 (List.mem_map.2 ⟨x, hx, rfl⟩)) 0).2 (hpos n h1 h2)
      exact ⟨v, ((hent x hx).first v).2 hv, hv⟩
    clear hp hent hkeys hnd hne hfull
    revert hd
    generalize o.run E = L
    intro hd
    induction L with
    | nil => exact ⟨[], rfl, by simp, by simp⟩
    | cons x l ih =>
      obtain ⟨v, hv, hv'⟩ := hd x (by simp)
      obtain ⟨cs, i1, i2, i3⟩ := ih fun y hy => hd y (by simp [hy])
      refine ⟨(x.1, v) :: cs, by simp [i1], ?_, ?_⟩
      · intro y hy
        rcases List.mem_cons.1 hy with rfl | hy
        · exact hv'
        · exact i2 y hy
      · rw [List.mapM_cons, i3, hv]
        simp
  unfold assignTable
  simp only [← hE]
  rw [Option.bind_eq_some_iff]
  constructor
  · rintro ⟨first, h1, h2⟩
    obtain ⟨n, rfl, h3⟩ := Option.bind_eq_some_iff.1 h2
    obtain ⟨h4, h5⟩ := (firstUnused_none _ n).1 h1
    have h4 := hne.1 h4
    have h5 := (hfull n).1 h5
    obtain ⟨cs, c1, c2, c3⟩ := hcs n h4 h5
    rw [c3, Option.map_some, Option.some.injEq] at h3
    refine ⟨n, hpos n h4 h5, h4, h5, cs, by rw [c1]; exact hnd, by rw [c1]; exact hkeys, c2, c1, ?_⟩
    rw [← h3, hok, a3, c1]
  · rintro ⟨n, h1, h2, h3, cs, _, _, h4, h5, rfl⟩
    refine ⟨some n, (firstUnused_none _ n).2 ⟨hne.2 h2, (hfull n).2 h3⟩, ?_⟩
    obtain ⟨cs', c1, c2, c3⟩ := hcs n h2 h3
    rw [Option.bind_some, c3, Option.map_some, hok, a3, ← h5]
    have huniq : ∀ c v v', (c, 0, v) ∈ ws → (c, 0, v') ∈ ws → v = v' := fun c v v' g1 g2 => by
      have e1 := ((a4.entry c).first v).2 g1
      have e2 := ((a4.entry c).first v').2 g2
      rw [e1] at e2
      exact Option.some.inj e2
    have : cs' = cs := by
      have hl : cs'.map Prod.fst = cs.map Prod.fst := by rw [c1, h5]
      apply List.ext_getElem
      · simpa using congrArg List.length hl
      · intro i hi hi'
        have h6 : (cs'[i]).1 = (cs[i]).1 := by
          have := List.getElem_of_eq hl (i := i) (by simpa using hi)
          simpa using this
        refine Prod.ext h6 (huniq (cs[i]).1 _ _ ?_ (h4 _ (List.getElem_mem hi')))
        rw [← h6]
        exact c2 _ (List.getElem_mem hi)
    rw [this]

theorem valueAt_cells (u : ℕ) (ws : List (ℕ × ℕ × V)) (c x : ℕ) :
    (ws.map fun w => (Call.fixed w.1 w.2.1 w.2.2 : Call K V)).filterMap (Call.valueAt u c x) =
      (ws.filter fun w => decide (w.1 = c ∧ w.2.1 = x)).map fun w => w.2.2 := by
  rw [List.filterMap_map]
  induction ws with
  | nil => rfl
  | cons w ws ih =>
    rw [List.filterMap_cons, List.filter_cons, ih]
    simp only [Function.comp, Call.valueAt]
    by_cases h : w.1 = c ∧ w.2.1 = x
    · simp [h]
    · simp [h]

end
end Tachyon.Keygen
