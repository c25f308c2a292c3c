import Verif.Proofs.R1csLC
import Mathlib.Tactic.Linarith
/-! `TransformLCMap`: every linear combination keeps its value. -/
namespace Tachyon.R1cs

variable {F : Type} [Field F] [DecidableEq F]

/-! ### Maps -/

section
variable {α : Type}

theorem mapFind_cons (e : ℕ × α) (m : List (ℕ × α)) (j : ℕ) :
    mapFind (e :: m) j = if e.1 = j then some e.2 else mapFind m j := by
  rw [mapFind, List.find?_cons]
  by_cases h : e.1 = j <;> simp [h, mapFind]

theorem mapFind_set (m : List (ℕ × α)) (k : ℕ) (v : α) (j : ℕ) :
    mapFind (mapSet m k v) j = if k = j then some v else mapFind m j := by
  induction m with
  | nil => rw [mapSet, mapFind_cons]
  | cons e m ih =>
    rw [mapSet]
    split
    · rw [mapFind_cons]
    · split
      · next h h' =>
        rw [mapFind_cons, mapFind_cons]
        by_cases hj : k = j
        · simp [hj]
        · rw [if_neg hj, if_neg hj, if_neg (by rw [← h']; exact hj)]
      · next h h' =>
        rw [mapFind_cons, mapFind_cons, ih]
        by_cases hj : k = j
        · rw [if_pos hj, if_pos hj, if_neg (by rw [← hj]; exact fun e => h' e.symm)]
        · rw [if_neg hj, if_neg hj]

theorem mapFind_erase (m : List (ℕ × α)) (k j : ℕ) :
    mapFind (mapErase m k) j = if k = j then none else mapFind m j := by
  induction m with
  | nil => rw [mapErase, List.filter_nil]; split <;> rfl
  | cons e m ih =>
    rw [mapErase, List.filter_cons]
    by_cases h : e.1 = k
    · rw [if_neg (by simpa using h)]
      rw [mapErase] at ih
      rw [ih, mapFind_cons]
      by_cases hj : k = j
      · rw [if_pos hj, if_pos hj]
      · rw [if_neg hj, if_neg hj, if_neg (by rw [h]; exact hj)]
    · rw [if_pos (by simpa using h), mapFind_cons]
      rw [mapErase] at ih
      rw [ih, mapFind_cons]
      by_cases hj : k = j
      · rw [if_pos hj, if_pos hj, if_neg (by rw [← hj]; exact h)]
      · rw [if_neg hj, if_neg hj]

/-- The entries of a map whose keys are `0, 1, …`. -/
theorem mapFind_range {m : List (ℕ × α)} {n : ℕ} (h : m.map (·.1) = List.range n) (j : ℕ) (v : α) :
    mapFind m j = some v ↔ m[j]? = some (j, v) := by
  have hl : m.length = n := by have := congrArg List.length h; simpa using this
  have hk : ∀ i (hi : i < m.length), m[i].1 = i := by
    intro i hi
    have h1 : (m.map (·.1))[i]? = (List.range n)[i]? := by rw [h]
    rw [List.getElem?_map, List.getElem?_eq_getElem hi, List.getElem?_range (by omega)] at h1
    simpa using h1
  constructor
  · intro e
    rw [mapFind, Option.map_eq_some_iff] at e
    obtain ⟨x, hx, rfl⟩ := e
    have hmem := List.mem_of_find?_eq_some hx
    have hx1 : x.1 = j := by simpa using List.find?_some hx
    obtain ⟨i, hi, rfl⟩ := List.mem_iff_getElem.1 hmem
    rw [hk i hi] at hx1
    subst hx1
    rw [List.getElem?_eq_getElem hi]
    exact congrArg some (Prod.ext (hk i hi) rfl)
  · intro e
    obtain ⟨hj, e⟩ := List.getElem?_eq_some_iff.1 e
    cases hf : mapFind m j with
    | none =>
      rw [mapFind, Option.map_eq_none_iff, List.find?_eq_none] at hf
      exact absurd (hf m[j] (List.getElem_mem hj)) (by simp [hk j hj])
    | some w =>
      rw [mapFind, Option.map_eq_some_iff] at hf
      obtain ⟨x, hx, rfl⟩ := hf
      have hmem := List.mem_of_find?_eq_some hx
      have hx1 : x.1 = j := by simpa using List.find?_some hx
      obtain ⟨i, hi, rfl⟩ := List.mem_iff_getElem.1 hmem
      rw [hk i hi] at hx1
      subst hx1
      rw [e]

theorem mapFind_range_isSome {m : List (ℕ × α)} {n : ℕ} (h : m.map (·.1) = List.range n) {j : ℕ} (hj : j < n) :
    ∃ v, mapFind m j = some v := by
  have hl : m.length = n := by have := congrArg List.length h; simpa using this
  have h1 : (m.map (·.1))[j]? = (List.range n)[j]? := by rw [h]
  rw [List.getElem?_map, List.getElem?_eq_getElem (by omega), List.getElem?_range hj] at h1
  refine ⟨(m[j]'(by omega)).2, (mapFind_range h _ _).2 ?_⟩
  rw [List.getElem?_eq_getElem (by omega)]
  exact congrArg some (Prod.ext (by simpa using h1) rfl)

theorem mapFind_range_lt {m : List (ℕ × α)} {n : ℕ} (h : m.map (·.1) = List.range n) {j : ℕ} {v : α}
    (e : mapFind m j = some v) : j < n := by
  have hl : m.length = n := by have := congrArg List.length h; simpa using this
  obtain ⟨hj, -⟩ := List.getElem?_eq_some_iff.1 ((mapFind_range h j v).1 e)
  omega

theorem mapSet_append {m : List (ℕ × α)} {n : ℕ} (h : m.map (·.1) = List.range n) (v : α) :
    mapSet m n v = m ++ [(n, v)] := by
  have hlt : ∀ e ∈ m, e.1 < n := by
    intro e he
    have : e.1 ∈ m.map (·.1) := List.mem_map.2 ⟨e, he, rfl⟩
    rw [h] at this
    simpa using this
  clear h
  induction m with
  | nil => rfl
  | cons e m ih =>
    have := hlt e (by simp)
    rw [mapSet, if_neg (by omega), if_neg (by omega), ih fun x hx => hlt x (by simp [hx])]
    rfl

end

/-! ### Counting -/

omit [Field F] [DecidableEq F] in
theorem refsT_cons (t : Term F) (l : LC F) (j : ℕ) :
    refsT (t :: l) j = refsT l j + if t.var = .lc j then 1 else 0 := by
  rw [refsT, List.countP_cons]; simp [refsT]

omit [Field F] [DecidableEq F] in
theorem refs_cons (e : ℕ × LC F) (m : List (ℕ × LC F)) (j : ℕ) : refs (e :: m) j = refsT e.2 j + refs m j := by
  simp [refs]

omit [Field F] [DecidableEq F] in
theorem refsT_pos {l : LC F} {t : Term F} (ht : t ∈ l) {j : ℕ} (h : t.var = .lc j) : 0 < refsT l j :=
  List.countP_pos_iff.2 ⟨t, ht, by simpa using h⟩

/-- The counters are right and in range. -/
def Counts (used : List ℕ) (n : ℕ) (f : ℕ → ℕ) : Prop := used.length = n ∧ ∀ j < n, used[j]? = some (f j)

theorem Counts.set {used : List ℕ} {n : ℕ} {f g : ℕ → ℕ} (h : Counts used n f) {i : ℕ} (hg : ∀ j ≠ i, g j = f j) :
    Counts (used.set i (g i)) n g := by
  refine ⟨by rw [List.length_set]; exact h.1, fun j hj => ?_⟩
  rw [List.getElem?_set]
  split
  · next e => subst e; rw [if_pos (by rw [h.1]; exact hj)]
  · next e => rw [h.2 j hj, hg j fun e' => e e'.symm]

theorem Counts.congr {used : List ℕ} {n : ℕ} {f g : ℕ → ℕ} (h : Counts used n f) (hg : ∀ j < n, g j = f j) :
    Counts used n g := ⟨h.1, fun j hj => by rw [h.2 j hj, hg j hj]⟩

omit [Field F] [DecidableEq F] in
theorem countTerms_spec {n : ℕ} (l : LC F) : ∀ {used : List ℕ} {f : ℕ → ℕ}, Counts used n f →
    (∀ t ∈ l, ∀ j, t.var = .lc j → j < n) → ∃ used', countTerms used l = some used' ∧
      Counts used' n fun j => f j + refsT l j := by
  induction l with
  | nil => intro used f h _; exact ⟨used, rfl, h.congr fun j _ => by simp [refsT]⟩
  | cons t l ih =>
    intro used f h hl
    rw [countTerms, List.foldlM_cons]
    have hl' : ∀ u ∈ l, ∀ j, u.var = .lc j → j < n := fun u hu => hl u (by simp [hu])
    cases ht : t.var with
    | lc i =>
      have hi := hl t (by simp) i ht
      have hs := h.set (g := fun j => f j + if t.var = .lc j then 1 else 0) (i := i) (fun j hj => by
        simp [ht, Ne.symm hj])
      obtain ⟨used', e, h'⟩ := ih hs hl'
      refine ⟨used', ?_, h'.congr fun j _ => by rw [refsT_cons]; omega⟩
      rw [countTerms] at e
      rw [if_pos ht] at e
      have hm : modifyAt used i (· + 1) = some (used.set i (f i + 1)) := by
        rw [modifyAt, h.2 i hi, Option.map_some]
      simp only [hm, Option.bind_eq_bind, Option.bind_some]
      exact e
    | _ =>
      obtain ⟨used', e, h'⟩ := ih h hl'
      refine ⟨used', ?_, h'.congr fun j _ => by rw [refsT_cons, ht]; simp⟩
      rw [countTerms] at e
      exact e

omit [DecidableEq F] in
theorem numTimesUsed_spec {cs : CS F} {n : ℕ} (hk : cs.lcMap.map (·.1) = List.range n) (sinks : Bool)
    (hl : ∀ e ∈ cs.lcMap, ∀ t ∈ e.2, ∀ j, t.var = .lc j → j < n) :
    ∃ used, cs.numTimesUsed sinks = some used ∧
      Counts used n fun j => refs cs.lcMap j + if sinks then 1 else 0 := by
  have hlen : cs.lcMap.length = n := by have := congrArg List.length hk; simpa using this
  have key : ∀ (m : List (ℕ × LC F)) (used : List ℕ) (f : ℕ → ℕ), Counts used n f →
      (m.map (·.1)).Nodup → (∀ e ∈ m, e.1 < n ∧ ∀ t ∈ e.2, ∀ j, t.var = .lc j → j < n) →
      ∃ used', m.foldlM (fun used e =>
        (modifyAt used e.1 (· + if sinks then 1 else 0)).bind fun used => countTerms used e.2) used = some used' ∧
        Counts used' n fun j => f j + refs m j + if sinks ∧ j ∈ m.map (·.1) then 1 else 0 := by
    intro m
    induction m with
    | nil => intro used f h _ _; exact ⟨used, rfl, h.congr fun j _ => by simp [refs]⟩
    | cons e m ih =>
      intro used f h hnd hm
      obtain ⟨he, het⟩ := hm e (by simp)
      have hs := h.set (g := fun j => f j + if j = e.1 then (if sinks then 1 else 0) else 0) (i := e.1)
        (fun j hj => by simp [hj])
      obtain ⟨u1, e1, h1⟩ := countTerms_spec e.2 hs het
      obtain ⟨u2, e2, h2⟩ := ih u1 _ h1 (List.nodup_cons.1 hnd).2 fun x hx => hm x (by simp [hx])
      refine ⟨u2, ?_, h2.congr fun j _ => ?_⟩
      · rw [List.foldlM_cons]
        simp only [modifyAt, h.2 e.1 he, Option.map_some, Option.bind_eq_bind, Option.bind_some]
        simp only [if_true] at e1
        rw [e1, Option.bind_some]
        exact e2
      · rw [refs_cons]
        have hnm : e.1 ∉ m.map (·.1) := (List.nodup_cons.1 hnd).1
        by_cases hj : j = e.1
        · subst hj
          cases sinks <;> simp [hnm] <;> omega
        · have : j ∈ (e :: m).map (·.1) ↔ j ∈ m.map (·.1) := by simp [hj]
          simp only [this, if_neg hj]; omega
  obtain ⟨used, e, h⟩ := key cs.lcMap (List.replicate cs.lcMap.length 0) (fun _ => 0)
    ⟨by simp [hlen], fun j hj => by rw [List.getElem?_replicate, if_pos (by omega)]⟩
    (by rw [hk]; exact List.nodup_range) fun x hx => ⟨by
      have : x.1 ∈ cs.lcMap.map (·.1) := List.mem_map.2 ⟨x, hx, rfl⟩
      rw [hk] at this
      simpa using this, hl x hx⟩
  refine ⟨used, e, h.congr fun j hj => ?_⟩
  rw [hk]
  simp [hj]

/-! ### The inner loop -/

omit [DecidableEq F] in
theorem inlineTerm_concrete {s : Inl F} {t : Term F} (h : ∀ j, t.var ≠ .lc j) :
    inlineTerm s t = some { s with acc := s.acc ++ [t] } := by
  rw [inlineTerm]
  split
  · next i e => exact absurd e (h i)
  · rfl

/-- Concrete; without `Z`, also not the variable `Zero`. -/
def Var.Conc (Z : Prop) (ni nw : ℕ) (v : Var) : Prop := v.Concrete ni nw ∧ (v = .zero → Z)

/-- A linear combination over concrete variables only. -/
def Concrete (Z : Prop) (ni nw : ℕ) (l : LC F) : Prop := ∀ t ∈ l, t.var.Conc Z ni nw

theorem Var.Concrete.mono {ni nw nw' : ℕ} (h : nw ≤ nw') {v : Var} (hv : v.Concrete ni nw) : v.Concrete ni nw' := by
  cases v <;> simp only [Var.Concrete] at * <;> omega

omit [Field F] [DecidableEq F] in
theorem Concrete.mono {Z : Prop} {ni nw nw' : ℕ} (h : nw ≤ nw') {l : LC F} (hl : Concrete Z ni nw l) :
    Concrete Z ni nw' l :=
  fun t ht => ⟨(hl t ht).1.mono h, (hl t ht).2⟩

omit [DecidableEq F] in
/-- The inner loop over the terms `l`, with `fut` references still to come from later entries. `tot` are all
references. -/
theorem inline_spec {Z : Prop} {n k ni nw : ℕ} {tot fut : ℕ → ℕ} {P : (Var → F) → Prop} (hk : k ≤ n)
    (hfut : ∀ j, tot j < 2 ^ 64)
    (l : LC F) : ∀ {s : Inl F}, Counts s.used n (fun j => refsT l j + fut j) →
    (∀ j, refsT l j + fut j ≤ tot j) →
    (∀ t ∈ l, t.var.Conc Z ni nw ∨ ∃ j < k, t.var = .lc j) →
    (∀ j < k, 0 < refsT l j + fut j ∨ tot j = 0 → ∃ m, mapFind s.tmap j = some m) →
    (∀ j m, mapFind s.tmap j = some m → j < k ∧ Strict m ∧ Concrete Z ni nw m ∧ ∀ z, P z → lin z m = z (.lc j)) →
    Concrete Z ni nw s.acc →
    ∃ r, l.foldlM inlineTerm s = some r ∧ Counts r.used n fut ∧
      (∀ j < k, 0 < fut j ∨ tot j = 0 → ∃ m, mapFind r.tmap j = some m) ∧
      (∀ j m, mapFind r.tmap j = some m → j < k ∧ Strict m ∧ Concrete Z ni nw m ∧ ∀ z, P z → lin z m = z (.lc j)) ∧
      Concrete Z ni nw r.acc ∧ ∀ z, P z → lin z r.acc = lin z s.acc + lin z l := by
  induction l with
  | nil =>
    intro s h1 _ _ h3 h4 h5
    exact ⟨s, rfl, h1.congr fun j _ => by simp [refsT], fun j hj h => h3 j hj (by simpa [refsT] using h), h4, h5,
      fun z _ => by simp⟩
  | cons t l ih =>
    intro s h1 h2 hl h3 h4 h5
    have hl' : ∀ u ∈ l, u.var.Conc Z ni nw ∨ ∃ j < k, u.var = .lc j := fun u hu => hl u (by simp [hu])
    have h2' : ∀ j, refsT l j + fut j ≤ tot j := fun j => by have := h2 j; rw [refsT_cons] at this; omega
    rw [List.foldlM_cons]
    rcases hl t (by simp) with hc | ⟨j, hj, hv⟩
    · have hne : ∀ j, t.var ≠ .lc j := by
        intro j e; have := hc.1; rw [e] at this; exact this
      rw [inlineTerm_concrete hne]
      have hr : ∀ j, refsT (t :: l) j = refsT l j := fun j => by rw [refsT_cons, if_neg (hne j)]; rfl
      obtain ⟨r, e, q1, q2, q3, q4, q5⟩ := ih (s := { s with acc := s.acc ++ [t] })
        (h1.congr fun j _ => by rw [hr]) h2' hl' (fun j hj h => h3 j hj (by rw [hr]; exact h)) h4
        (fun u hu => by
          rcases List.mem_append.1 hu with hu | hu
          · exact h5 u hu
          · rw [List.mem_singleton.1 hu]; exact hc)
      exact ⟨r, e, q1, q2, q3, q4, fun z hz => by rw [q5 z hz]; simp [add_assoc]⟩
    · have hpos : refsT (t :: l) j = refsT l j + 1 := by rw [refsT_cons, if_pos hv]
      have hother : ∀ i ≠ j, refsT (t :: l) i = refsT l i := fun i hi => by
        rw [refsT_cons, hv, if_neg (by simpa using fun e : j = i => hi e.symm)]; rfl
      obtain ⟨m, hm⟩ := h3 j hj (Or.inl (by omega))
      obtain ⟨-, -, m3, m4⟩ := h4 j m hm
      have hu := h1.2 j (by omega)
      have hw : (refsT (t :: l) j + fut j + (2 ^ 64 - 1)) % 2 ^ 64 = refsT l j + fut j := by
        have a1 := h2 j
        have a2 := hfut j
        rw [hpos] at a1 ⊢
        generalize refsT l j = x at a1 ⊢
        generalize fut j = y at a1 ⊢
        generalize tot j = w at a1 a2
        omega
      have hstep : inlineTerm s t = some ⟨if refsT l j + fut j = 0 then mapErase s.tmap j else s.tmap,
          s.used.set j (refsT l j + fut j), s.acc ++ mulScalar m t.coeff⟩ := by
        rw [inlineTerm]
        split
        · next i e =>
          obtain rfl : j = i := by rw [hv] at e; simpa using e
          rw [hm, Option.bind_some, hu, Option.map_some]
          simp only [hw]
        · next h => exact absurd hv (h j)
      rw [hstep]
      have hfind : ∀ i m', mapFind (if refsT l j + fut j = 0 then mapErase s.tmap j else s.tmap) i = some m' →
          mapFind s.tmap i = some m' := by
        intro i m' e
        split at e
        · rw [mapFind_erase] at e
          split at e
          · exact absurd e (by simp)
          · exact e
        · exact e
      obtain ⟨r, e, q1, q2, q3, q4, q5⟩ := ih
        (s := ⟨if refsT l j + fut j = 0 then mapErase s.tmap j else s.tmap,
          s.used.set j (refsT l j + fut j), s.acc ++ mulScalar m t.coeff⟩)
        (h1.set (g := fun i => refsT l i + fut i) fun i hi => by rw [hother i hi]) h2' hl'
        (fun i hi h => by
          by_cases hij : i = j
          · subst hij
            have h2i := h2 i
            rw [if_neg (by omega)]
            exact ⟨m, hm⟩
          · obtain ⟨m', e'⟩ := h3 i hi (by rw [hother i hij]; exact h)
            refine ⟨m', ?_⟩
            show mapFind (if _ then _ else _) i = _
            split
            · rw [mapFind_erase, if_neg fun e => hij e.symm]; exact e'
            · exact e')
        (fun i m' e => h4 i m' (hfind i m' e))
        (fun u hu => by
          rcases List.mem_append.1 hu with hu | hu
          · exact h5 u hu
          · obtain ⟨u', hu', rfl⟩ := List.mem_map.1 hu
            exact m3 u' hu')
      refine ⟨r, e, q1, q2, q3, q4, fun z hz => ?_⟩
      rw [q5 z hz, lin_cons, hv]
      simp only [lin_append, lin_mulScalar, m4 z hz]
      ring

/-! ### The outer loop -/

/-- What a callback may do: `I` is an invariant of the system and the captured variables, `G` says that an
assignment respects what the callback has introduced. -/
def CbSpec {α : Type} (cb : CS F → α → ℕ → LC F → Option (CbResult F α)) (I : CS F → α → Prop)
    (G : α → (Var → F) → Prop) (Z : Prop) (ni : ℕ) : Prop :=
  ∀ cs aux u l, I cs aux → Strict l → Concrete Z ni cs.numWit l →
    ∃ o cs', cb cs aux u l = some o ∧ updateWitness o.cs o.numNew o.newWit = some cs' ∧ I cs' o.aux ∧
      cs.numWit ≤ cs'.numWit ∧ Strict o.lc ∧ Concrete Z ni cs'.numWit o.lc ∧
      ∀ z, G o.aux z → G aux z ∧ lin z o.lc = lin z l

omit [DecidableEq F] in
theorem transform_spec {α : Type} (s : Sorter F) {cb : CS F → α → ℕ → LC F → Option (CbResult F α)}
    {I : CS F → α → Prop} {G : α → (Var → F) → Prop} {Z : Prop} {ni : ℕ} (hcb : CbSpec cb I G Z ni) {cs : CS F} {n : ℕ}
    (hk : cs.lcMap.map (·.1) = List.range n)
    (ht : ∀ k l, mapFind cs.lcMap k = some l → ∀ t ∈ l, t.var.Conc Z ni cs.numWit ∨ ∃ j < k, t.var = .lc j)
    (hsize : ∀ j, refs cs.lcMap j < 2 ^ 64) {aux : α} (hI : I cs aux) :
    ∃ cs' tmap aux', cs.transform s aux cb = some ({ cs' with lcMap := tmap }, aux') ∧ I cs' aux' ∧
      (∀ j < n, refs cs.lcMap j = 0 → ∃ m, mapFind tmap j = some m) ∧
      ∀ j m, mapFind tmap j = some m → j < n ∧ Strict m ∧ Concrete Z ni cs'.numWit m ∧
        ∀ z, (∀ k l, mapFind cs.lcMap k = some l → z (.lc k) = lin z l) → G aux' z → lin z m = z (.lc j) := by
  have hlen : cs.lcMap.length = n := by have := congrArg List.length hk; simpa using this
  have hmem : ∀ e ∈ cs.lcMap, mapFind cs.lcMap e.1 = some e.2 := by
    intro e he
    obtain ⟨i, hi, rfl⟩ := List.mem_iff_getElem.1 he
    have h1 : (cs.lcMap.map (·.1))[i]? = (List.range n)[i]? := by rw [hk]
    rw [List.getElem?_map, List.getElem?_eq_getElem hi, List.getElem?_range (by omega)] at h1
    have h1' : cs.lcMap[i].1 = i := by simpa using h1
    rw [mapFind_range hk, h1', List.getElem?_eq_getElem hi]
    exact congrArg some (Prod.ext h1' rfl)
  have hlt : ∀ e ∈ cs.lcMap, e.1 < n := fun e he => mapFind_range_lt hk (hmem e he)
  obtain ⟨used, eu, hu⟩ := numTimesUsed_spec hk false fun e he t htt j hv => by
    rcases ht _ _ (hmem e he) t htt with h | ⟨i, hi, h⟩
    · have := h.1; rw [hv] at this; exact absurd this (by simp [Var.Concrete])
    · have := hlt e he
      rw [hv] at h
      obtain rfl : j = i := by simpa using h
      omega
  let P : α → (Var → F) → Prop := fun aux z =>
    (∀ k l, mapFind cs.lcMap k = some l → z (.lc k) = lin z l) ∧ G aux z
  have key : ∀ (suf pre : List (ℕ × LC F)) (st : Tr F α), pre ++ suf = cs.lcMap →
      I st.cs st.aux → cs.numWit ≤ st.cs.numWit → Counts st.used n (refs suf) →
      (∀ j < pre.length, 0 < refs suf j ∨ refs cs.lcMap j = 0 → ∃ m, mapFind st.tmap j = some m) →
      (∀ j m, mapFind st.tmap j = some m → j < pre.length ∧ Strict m ∧ Concrete Z ni st.cs.numWit m ∧
        ∀ z, P st.aux z → lin z m = z (.lc j)) →
      ∃ st', suf.foldlM (transformEntry s cb) st = some st' ∧ I st'.cs st'.aux ∧
        (∀ j < n, refs cs.lcMap j = 0 → ∃ m, mapFind st'.tmap j = some m) ∧
        ∀ j m, mapFind st'.tmap j = some m → j < n ∧ Strict m ∧ Concrete Z ni st'.cs.numWit m ∧
          ∀ z, P st'.aux z → lin z m = z (.lc j) := by
    intro suf
    induction suf with
    | nil =>
      intro pre st hpre h1 _ _ h4 h5
      have : pre.length = n := by rw [List.append_nil] at hpre; rw [hpre, hlen]
      rw [this] at h4 h5
      exact ⟨st, rfl, h1, fun j hj h => h4 j hj (Or.inr h), h5⟩
    | cons e suf ih =>
      intro pre st hpre h1 h2 h3 h4 h5
      have he : e ∈ cs.lcMap := by rw [← hpre]; simp
      have hep : e.1 = pre.length := by
        have h := congrArg (fun m => (m.map (·.1))[pre.length]?) hpre
        simp only [hk, List.map_append, List.map_cons] at h
        rw [List.getElem?_append_right (by simp), List.length_map, Nat.sub_self, List.getElem?_cons_zero,
          List.getElem?_range (by have := congrArg List.length hpre; simp [hlen] at this; omega)] at h
        simpa using h
      have hen : pre.length < n := hep ▸ hlt e he
      have hsuf : ∀ j, refs (e :: suf) j ≤ refs cs.lcMap j := fun j => by
        rw [← hpre]; simp [refs]
      obtain ⟨r, er, q1, q2, q3, q4, q5⟩ := inline_spec (n := n) (Z := Z) (k := pre.length) (ni := ni) (nw := st.cs.numWit)
        (tot := refs cs.lcMap) (fut := refs suf) (P := P st.aux) hen.le hsize e.2
        (s := ⟨st.tmap, st.used, []⟩) (h3.congr fun j _ => by rw [refs_cons])
        (fun j => by rw [← refs_cons]; exact hsuf j)
        (fun t htt => by
          rcases ht _ _ (hmem e he) t htt with h | ⟨j, hj, h⟩
          · exact Or.inl ⟨h.1.mono h2, h.2⟩
          · exact Or.inr ⟨j, hep ▸ hj, h⟩)
        (fun j hj h => h4 j hj (by rw [refs_cons]; exact h)) h5 (by intro t ht; simp at ht)
      have hded : Concrete Z ni st.cs.numWit (dedup s r.acc) := by
        intro t htt
        obtain ⟨u, hu', e'⟩ := (mem_dedup s r.acc t.var).1 ⟨t, htt, rfl⟩
        rw [← e']; exact q4 u hu'
      obtain ⟨o, cs', o1, o2, o3, o4, o5, o6, o7⟩ := hcb st.cs st.aux (refs suf e.1) (dedup s r.acc) h1
        (strict_dedup s _) hded
      have hstep : transformEntry s cb st e = some ⟨mapSet r.tmap e.1 o.lc, r.used, cs', o.aux⟩ := by
        rw [transformEntry, er, Option.bind_some, q1.2 e.1 (by omega), Option.bind_some, o1, Option.bind_some, o2,
          Option.map_some]
      rw [List.foldlM_cons, hstep]
      have hgrow : ∀ z, P o.aux z → P st.aux z := fun z hz => ⟨hz.1, (o7 z hz.2).1⟩
      refine ih (pre ++ [e]) _ (by rw [List.append_assoc]; exact hpre) o3 (le_trans h2 o4) q1 ?_ ?_
      · intro j hj h
        show ∃ m, mapFind (mapSet _ _ _) j = some m
        rw [mapFind_set]
        split
        · exact ⟨_, rfl⟩
        · next hne =>
          refine q2 j ?_ h
          rw [List.length_append, List.length_singleton] at hj
          omega
      · intro j m hm
        have hm' : mapFind (mapSet r.tmap e.1 o.lc) j = some m := hm
        rw [mapFind_set] at hm'
        split at hm'
        · next hj =>
          obtain rfl : o.lc = m := by simpa using hm'
          refine ⟨by rw [List.length_append, List.length_singleton]; omega, o5, o6, fun z hz => ?_⟩
          have hz' := hgrow z hz
          rw [(o7 z hz.2).2, lin_dedup, q5 z hz', lin_nil, zero_add, ← hj]
          exact (hz.1 e.1 e.2 (hmem e he)).symm
        · obtain ⟨a1, a2, a3, a4⟩ := q3 j m hm'
          exact ⟨by rw [List.length_append, List.length_singleton]; omega, a2, a3.mono o4,
            fun z hz => a4 z (hgrow z hz)⟩
  obtain ⟨st, e, k1, k2, k3⟩ := key cs.lcMap [] ⟨[], used, cs, aux⟩ rfl hI le_rfl
    (hu.congr fun j _ => by simp) (by simp) (by intro j m h; simp [mapFind] at h)
  refine ⟨st.cs, st.tmap, st.aux, ?_, k1, k2, fun j m h => ?_⟩
  · rw [CS.transform, eu, Option.bind_some, e, Option.map_some]
  · obtain ⟨a1, a2, a3, a4⟩ := k3 j m h
    exact ⟨a1, a2, a3, fun z hz hg => a4 z ⟨hz, hg⟩⟩

end Tachyon.R1cs
