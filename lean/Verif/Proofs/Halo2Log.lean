import Verif.Proofs.Halo2Openings
/-! What the transcript has seen when the challenges of the circuits are asked for. -/
namespace Tachyon.Halo2
open Tachyon.FFT Tachyon.Vanishing

set_option linter.unusedSectionVars false

variable {P F : Type} [Field F] [DecidableEq F]

theorem challenges_log (env : Env P F) (s : Shape) (phase : ℕ) : ∀ (l : List ℕ) (known : ℕ → Option F) (w : Writer P F)
    {known' : ℕ → Option F} {w' : Writer P F}, foldEach (challengeStep env s phase) l known w = some (known', w') →
    w.log <+: w'.log ∧ ∀ i, known' i = known i ∨
      ∃ l', s.challengePhases[i]? = some phase ∧ known' i = some (env.squeeze l') ∧ w.log <+: l' ∧ l' ++ [.squeeze] <+: w'.log
  | [], known, w, known', w', h => by
    obtain ⟨rfl, rfl⟩ := Prod.mk.inj (Option.some.inj h)
    exact ⟨List.prefix_rfl, fun i => Or.inl rfl⟩
  | a :: l, known, w, known', w', h => by
    rw [foldEach, bind_run] at h
    obtain ⟨⟨known1, w1⟩, h1, h2⟩ := Option.bind_eq_some_iff.1 h
    obtain ⟨i1, i2⟩ := challenges_log env s phase l known1 w1 h2
    rw [challengeStep] at h1
    split at h1
    · next hp =>
      simp only [bind_run, challenge, Option.bind_some] at h1
      split at h1
      · cases h1
      · obtain ⟨rfl, rfl⟩ := Prod.mk.inj (Option.some.inj h1)
        refine ⟨(List.prefix_append _ _).trans i1, fun i => ?_⟩
        rcases i2 i with e | ⟨l', e0, e1, e2, e3⟩
        · by_cases hi : i = a
          · subst hi
            exact Or.inr ⟨w.log, hp, by rw [e]; exact if_pos rfl, List.prefix_rfl, i1⟩
          · left; rw [e]; exact if_neg hi
        · exact Or.inr ⟨l', e0, e1, (List.prefix_append _ _).trans e2, e3⟩
    · obtain ⟨rfl, rfl⟩ := Prod.mk.inj (Option.some.inj h1)
      exact ⟨i1, i2⟩

theorem setAt_of_notMem {i j : ℕ} : ∀ (cols : List (ℕ × ℕ × List F)) (t : ℕ → ℕ → List F), (∀ c ∈ cols, ¬(c.1 = i ∧ c.2.1 = j)) →
    (cols.foldl (fun t c => setAt t c.1 c.2.1 c.2.2) t) i j = t i j
  | [], _, _ => rfl
  | c :: cols, t, h => by
    rw [List.foldl_cons, setAt_of_notMem cols _ fun d hd => h d (by simp [hd])]
    have := h c (by simp)
    rw [setAt, if_neg fun e => this ⟨e.1.symm, e.2.symm⟩]

theorem setAt_of_mem {i j : ℕ} {a : List F} : ∀ (cols : List (ℕ × ℕ × List F)) (t : ℕ → ℕ → List F),
    (∀ c ∈ cols, c.1 = i → c.2.1 = j → c.2.2 = a) → (∃ c ∈ cols, c.1 = i ∧ c.2.1 = j) →
    (cols.foldl (fun t c => setAt t c.1 c.2.1 c.2.2) t) i j = a
  | [], _, _, h => by simp at h
  | c :: cols, t, h, hex => by
    rw [List.foldl_cons]
    by_cases hin : ∃ d ∈ cols, d.1 = i ∧ d.2.1 = j
    · exact setAt_of_mem cols _ (fun d hd => h d (by simp [hd])) hin
    · obtain ⟨d, hd, h1, h2⟩ := hex
      rcases List.mem_cons.1 hd with rfl | hd
      · rw [setAt_of_notMem cols _ fun e he h' => hin ⟨e, he, h'⟩, setAt, if_pos ⟨h1.symm, h2.symm⟩]
        exact h d (by simp) h1 h2
      · exact absurd ⟨d, hd, h1, h2⟩ hin

theorem mem_adviceColumns {s : Shape} {work : Work P F} {circuits phase : ℕ} {log : Log P F} {known : ℕ → Option F}
    {c : ℕ × ℕ × List F} : c ∈ adviceColumns s work circuits phase log known ↔
      c.1 < circuits ∧ s.advicePhases[c.2.1]? = some phase ∧ c.2.2 = work.advice log known phase c.1 c.2.1 := by
  obtain ⟨i, j, a⟩ := c
  simp only [adviceColumns, List.mem_flatMap, List.mem_filterMap, List.mem_range]
  constructor
  · rintro ⟨i', hi, j', hj, h⟩
    split at h
    · next hp =>
      obtain ⟨rfl, rfl, rfl⟩ := (by simpa using h : i' = i ∧ j' = j ∧ work.advice log known phase i' j' = a)
      exact ⟨hi, hp, rfl⟩
    · cases h
  · rintro ⟨hi, hp, rfl⟩
    exact ⟨i, hi, j, (List.getElem?_eq_some_iff.1 hp).1, by rw [if_pos hp]⟩

theorem phases_log [Zero P] (env : Env P F) (s : Shape) (work : Work P F) (circuits : ℕ) :
    ∀ (phs : List ℕ) (t : ℕ → ℕ → List F) (known : ℕ → Option F) (w : Writer P F) {t2 : ℕ → ℕ → List F} {known2 : ℕ → Option F}
      {w2 : Writer P F}, phs.Pairwise (· < ·) → foldEach (advicePhase env s work circuits) phs (t, known) w = some ((t2, known2), w2) →
    w.log <+: w2.log ∧
    (∀ i j, (∀ ph ∈ phs, ¬(i < circuits ∧ s.advicePhases[j]? = some ph)) → t2 i j = t i j) ∧
    (∀ ph ∈ phs, ∀ i < circuits, ∀ j, s.advicePhases[j]? = some ph → .absorb (.point (env.commit (t2 i j))) ∈ w2.log) ∧
    ∀ i, known2 i = known i ∨ ∃ l ph, ph ∈ phs ∧ s.challengePhases[i]? = some ph ∧ known2 i = some (env.squeeze l) ∧ w.log <+: l ∧
      l ++ [.squeeze] <+: w2.log ∧ ∀ ph' ∈ phs, ph' ≤ ph → ∀ i' < circuits, ∀ j, s.advicePhases[j]? = some ph' →
        .absorb (.point (env.commit (t2 i' j))) ∈ l
  | [], t, known, w, t2, known2, w2, _, h => by
    obtain ⟨h1, rfl⟩ := Prod.mk.inj (Option.some.inj h)
    obtain ⟨rfl, rfl⟩ := Prod.mk.inj h1
    exact ⟨List.prefix_rfl, fun _ _ _ => rfl, by simp, fun _ => Or.inl rfl⟩
  | ph :: phs, t, known, w, t2, known2, w2, hs, h => by
    rw [List.pairwise_cons] at hs
    set cols := adviceColumns s work circuits ph w.log known with hcols
    have hc := writes_commitAll (P := P) env s.batch (count := (s.advicePhases.filter (· = ph)).length * circuits)
      (polys := cols.map (·.2.2)) (by rw [List.length_map]; exact count_columns s work circuits ph w.log known)
    simp only [foldEach, advicePhase, bind_run, written, Option.bind_some] at h
    rw [← hcols, hc w] at h
    simp only [Option.bind_some, updateChallenges] at h
    obtain ⟨⟨⟨t1, known1⟩, w1⟩, h1, h2⟩ := Option.bind_eq_some_iff.1 h
    obtain ⟨⟨known1', w1'⟩, h3, h4⟩ := Option.bind_eq_some_iff.1 h1
    rw [pure_run] at h4
    obtain ⟨h5, rfl⟩ := Prod.mk.inj (Option.some.inj h4)
    obtain ⟨ht1, rfl⟩ := Prod.mk.inj h5
    obtain ⟨c1, c2⟩ := challenges_log env s ph _ known _ h3
    obtain ⟨i1, i2, i3, i4⟩ := phases_log env s work circuits phs t1 _ _ hs.2 h2
    have hhead : ∀ i < circuits, ∀ j, s.advicePhases[j]? = some ph → t2 i j = work.advice w.log known ph i j ∧
        .absorb (.point (env.commit (t2 i j))) ∈ w.log ++ (cols.map (·.2.2)).map (fun p => Event.absorb (Msg.point (F := F) (env.commit p))) := by
      intro i hi j hj
      have e : t2 i j = work.advice w.log known ph i j := by
        rw [i2 i j, ← ht1]
        · refine setAt_of_mem cols t (fun c hc h1 h2 => ?_) ⟨(i, j, work.advice w.log known ph i j), mem_adviceColumns.2 ⟨hi, hj, rfl⟩, rfl, rfl⟩
          rw [(mem_adviceColumns.1 hc).2.2, h1, h2]
        · rintro ph' hph' ⟨_, h'⟩
          have := hs.1 ph' hph'
          rw [hj] at h'
          have := Option.some.inj h'
          omega
      refine ⟨e, List.mem_append_right _ ?_⟩
      rw [List.map_map, List.mem_map]
      exact ⟨(i, j, work.advice w.log known ph i j), mem_adviceColumns.2 ⟨hi, hj, rfl⟩, by simp [e]⟩
    have hlog : ((cols.map (·.2.2)).map fun p => Msg.point (F := F) (env.commit p)).map Event.absorb =
        (cols.map (·.2.2)).map (fun p => Event.absorb (Msg.point (F := F) (env.commit p))) := by rw [List.map_map]; rfl
    simp only [hlog] at c1 c2
    refine ⟨(List.prefix_append _ _).trans (c1.trans i1), fun i j hij => ?_, fun p hp i hi j hj => ?_, fun i => ?_⟩
    · rw [i2 i j fun p hp => hij p (by simp [hp]), ← ht1]
      refine setAt_of_notMem cols t fun c hc h' => ?_
      obtain ⟨a, b, _⟩ := mem_adviceColumns.1 hc
      exact hij ph (by simp) ⟨h'.1 ▸ a, h'.2 ▸ b⟩
    · rcases List.mem_cons.1 hp with rfl | hp
      · exact (c1.trans i1).subset (hhead i hi j hj).2
      · exact i3 p hp i hi j hj
    · rcases i4 i with e | ⟨l, p, hp, e0, e1, e2, e3, e4⟩
      · rcases c2 i with e' | ⟨l, e0, e1, e2, e3⟩
        · exact Or.inl (e.trans e')
        · refine Or.inr ⟨l, ph, by simp, e0, e.trans e1, (List.prefix_append _ _).trans e2, e3.trans i1, fun p hp hle i' hi' j hj => ?_⟩
          rcases List.mem_cons.1 hp with rfl | hp
          · exact e2.subset (hhead i' hi' j hj).2
          · have := hs.1 p hp
            omega
      · refine Or.inr ⟨l, p, by simp [hp], e0, e1, ((List.prefix_append _ _).trans c1).trans e2, e3, fun p' hp' hle i' hi' j hj => ?_⟩
        rcases List.mem_cons.1 hp' with rfl | hp'
        · exact (c1.trans e2).subset (hhead i' hi' j hj).2
        · exact e4 p' hp' hle i' hi' j hj

theorem advice_schedule [Zero P] {env : Env P F} {s : Shape} {key : Key F} {work : Work P F} {instances : List (List (List F))} {d : Held F}
    {w : Writer P F} (h : generateAdvice env s work instances.length
      ⟨.absorb (.scalar key.repr) :: (instances.flatMap (instanceMsgs env s)).map .absorb, []⟩ = some ((d.advice, d.challenges), w)) :
    AdviceSchedule env s key instances d w.log := by
  obtain ⟨h1, h2, h3, h4⟩ := phases_log env s work instances.length _ _ _ _ (by
    rw [Keygen.getPhases]; exact List.pairwise_lt_range) h
  refine ⟨h1, fun i hi j hj => ?_, fun i c hc => ?_⟩
  · exact h3 _ (mem_getPhases (List.getElem?_eq_getElem hj)) i hi j (List.getElem?_eq_getElem hj)
  · rcases h4 i with e | ⟨l, ph, _, e0, e1, e2, e3, e4⟩
    · rw [hc] at e; cases e
    · rw [hc] at e1
      exact ⟨l, ph, e3, e0, Option.some.inj e1, e2, fun i' hi' j ph' hj hle => e4 ph' (mem_getPhases hj) hle i' hi' j hj⟩

/-! ### Sizes -/

theorem polyAt_small {env : Env P F} {s : Shape} {key : Key F} {work : Work P F} {instances : List (List (List F))}
    (hs : Sizes env s key work instances) (hn : 0 < env.n) {d : Held F} (hd : d.Fits s instances env) {l log : Log P F}
    (hsch : Schedule env s work instances.length d l log)
    (hadv : ∀ good : List F → Prop, good [] → (∀ log known ph i j, good (work.advice log known ph i j)) → ∀ i j, good (d.advice i j))
    {comb : List F} (hc : Opens env.n comb) {place : Place} {f : List F} (h : d.polyAt s key comb place = some f) : Opens env.n f := by
  have h2 : ∀ {x : List (List (List F))} {i j : ℕ} (_ : ∀ c ∈ x, ∀ p ∈ c, Opens env.n p) (_ : (x[i]?).bind (·[j]?) = some f), Opens env.n f := by
    intro x i j hx he
    obtain ⟨c, hc, he⟩ := Option.bind_eq_some_iff.1 he
    exact hx c (List.mem_of_getElem? hc) f (List.mem_of_getElem? he)
  have h3 : ∀ {i j : ℕ} {p : Prepared (List F)}, (d.prepared[i]?).bind (·[j]?) = some p → ∀ q ∈ p.toList, Opens env.n q := by
    intro i j p he
    obtain ⟨c, hc, he⟩ := Option.bind_eq_some_iff.1 he
    have hc := List.mem_of_getElem? hc
    rw [hsch.prepared] at hc
    obtain ⟨i', _, rfl⟩ := List.mem_map.1 hc
    exact hs.prepared _ _ p (List.mem_of_getElem? he)
  cases place with
  | inst i j =>
    refine h2 (fun c hc p hp => ?_) h
    rw [hd.instancePolys] at hc
    obtain ⟨c', hc', rfl⟩ := List.mem_map.1 hc
    obtain ⟨col, hcol, rfl⟩ := List.mem_map.1 hp
    exact hs.instances c' hc' col hcol
  | advice i j =>
    simp only [Held.polyAt] at h
    split at h
    · cases h
      exact hadv (Opens env.n) ⟨by simp [Poly.DClean], by simp⟩ hs.advice i j
    · cases h
  | product i j =>
    refine h2 (fun c hc p hp => ?_) h
    rw [hsch.products] at hc
    obtain ⟨i', _, rfl⟩ := List.mem_map.1 hc
    exact hs.products _ _ p hp
  | grand i j =>
    refine h2 (fun c hc p hp => ?_) h
    rw [hsch.grands] at hc
    obtain ⟨i', _, rfl⟩ := List.mem_map.1 hc
    exact hs.grands _ _ p hp
  | input i j =>
    obtain ⟨p, hp, h⟩ := Option.bind_eq_some_iff.1 h
    cases p with
    | pair a b => cases h; exact h3 hp _ (by simp [Prepared.toList])
    | single m => cases h
  | table i j =>
    obtain ⟨p, hp, h⟩ := Option.bind_eq_some_iff.1 h
    cases p with
    | pair a b => cases h; exact h3 hp _ (by simp [Prepared.toList])
    | single m => cases h
  | single i j =>
    obtain ⟨p, hp, h⟩ := Option.bind_eq_some_iff.1 h
    cases p with
    | pair a b => cases h
    | single m => cases h; exact h3 hp _ (by simp [Prepared.toList])
  | shuffle i j =>
    refine h2 (fun c hc p hp => ?_) h
    rw [hsch.shuffles] at hc
    obtain ⟨i', _, rfl⟩ := List.mem_map.1 hc
    exact hs.shuffles _ _ p hp
  | fixed i => exact hs.fixed f (List.mem_of_getElem? h)
  | sigma i => exact hs.sigmas f (List.mem_of_getElem? h)
  | quotient => cases h; exact hc
  | random => cases h; rw [hsch.random]; exact ⟨by simp [Poly.DClean], by simp; omega⟩

/-! ### The order of the challenges -/

theorem byPhase_sorted {s : Shape} (hs : s.challengePhases.Pairwise (· ≤ ·)) {known : ℕ → Option F} {top : ℕ}
    (hk : ∀ i, (known i).isSome → ∃ ph < top, s.challengePhases[i]? = some ph) :
    byPhase s known (List.range top) = (List.range s.challengePhases.length).filterMap known := by
  have key : ∀ (l : List ℕ) (start : ℕ) (top : ℕ), l.Pairwise (· ≤ ·) → (∀ k (hk : k < l.length), s.challengePhases[start + k]? = some l[k]) →
      ((List.range top).flatMap fun ph => (List.range' start l.length).filterMap fun i =>
        if s.challengePhases[i]? = some ph then known i else none) =
      (List.range' start l.length).filterMap fun i => if ∃ ph < top, s.challengePhases[i]? = some ph then known i else none := by
    intro l start top hl hst
    induction top with
    | zero => simp
    | succ top ih =>
      rw [List.range_succ, List.flatMap_append, ih]
      simp only [List.flatMap_cons, List.flatMap_nil, List.append_nil]
      clear ih
      induction l generalizing start with
      | nil => rfl
      | cons a l ih =>
        rw [List.pairwise_cons] at hl
        have h0 : s.challengePhases[start]? = some a := hst 0 (by simp)
        have hst' : ∀ k (hk : k < l.length), s.challengePhases[start + 1 + k]? = some l[k] := by
          intro k hk
          have := hst (k + 1) (by simpa using hk)
          rw [← Nat.add_assoc, Nat.add_right_comm] at this
          simpa using this
        have ih := ih (start + 1) hl.2 hst'
        rw [List.length_cons, List.range'_succ]
        by_cases ha : a < top
        · have e1 : (∃ ph < top, s.challengePhases[start]? = some ph) := ⟨a, ha, h0⟩
          have e2 : (∃ ph < top + 1, s.challengePhases[start]? = some ph) := ⟨a, by omega, h0⟩
          have e3 : s.challengePhases[start]? ≠ some top := by rw [h0]; simp; omega
          cases hkn : known start <;> simp only [List.filterMap_cons, if_pos e1, if_pos e2, if_neg e3, hkn, ← ih, List.cons_append]
        · -- no earlier phase from here on
          have hnone : ∀ i ∈ List.range' start (l.length + 1), ¬ ∃ ph < top, s.challengePhases[i]? = some ph := by
            rintro i hi ⟨ph, hph, he⟩
            rw [List.mem_range'_1] at hi
            by_cases hi0 : i = start
            · subst hi0; rw [h0] at he; have := Option.some.inj he; omega
            · have := hst' (i - (start + 1)) (by omega)
              rw [show start + 1 + (i - (start + 1)) = i by omega, he] at this
              have h4 := hl.1 _ (List.getElem_mem (show i - (start + 1) < l.length by omega))
              have := Option.some.inj this
              omega
          have e4 : (start :: List.range' (start + 1) l.length) = List.range' start (l.length + 1) := by rw [List.range'_succ]
          rw [e4]
          have e5 : ((List.range' start (l.length + 1)).filterMap fun i =>
              if ∃ ph < top, s.challengePhases[i]? = some ph then known i else none) = [] := by
            rw [List.filterMap_eq_nil_iff]
            intro i hi
            rw [if_neg (hnone i hi)]
          rw [e5, List.nil_append]
          refine List.filterMap_congr fun i hi => ?_
          by_cases ht : s.challengePhases[i]? = some top
          · rw [if_pos ht, if_pos ⟨top, by omega, ht⟩]
          · rw [if_neg ht, if_neg]
            rintro ⟨ph, hph, he⟩
            by_cases hpt : ph = top
            · exact ht (hpt ▸ he)
            · exact hnone i hi ⟨ph, by omega, he⟩
  rw [byPhase, List.range_eq_range' (n := s.challengePhases.length), key s.challengePhases 0 top hs (by simp)]
  refine List.filterMap_congr fun i _ => ?_
  cases hi : known i with
  | none => simp
  | some c => rw [if_pos (hk i (by rw [hi]; rfl))]

end Tachyon.Halo2
