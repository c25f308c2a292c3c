import Verif.Proofs.Circom
/-! Proofs for the circuits of circom. -/
namespace Tachyon.Circom
open Tachyon.R1cs Tachyon.Groth16 Tachyon.Props

variable {F : Type} [Field F] [DecidableEq F]

omit [DecidableEq F] in
theorem scoped_instances {p : Prog F} {nw nl : ℕ} : ∀ (vs : List F) {K : Var → Prop} {ni : ℕ},
    (∀ K' : Var → Prop, (∀ v, K v → K' v) → (∀ i, ni ≤ i → i < ni + vs.length → K' (.inst i)) →
      p.Scoped K' (ni + vs.length) nw nl) → (instances vs p).Scoped K ni nw nl
  | [], K, ni, h => h K (fun _ h => h) fun i h1 h2 => by rw [List.length_nil] at h2; omega
  | v :: vs, K, ni, h => by
    refine scoped_instances vs fun K' h1 h2 => ?_
    rw [show ni + 1 + vs.length = ni + (v :: vs).length by rw [List.length_cons]; omega]
    refine h K' (fun u hu => h1 u (Or.inl hu)) fun i h3 h4 => ?_
    rw [List.length_cons] at h4
    rcases Nat.eq_or_lt_of_le h3 with rfl | h3
    · exact h1 _ (Or.inr rfl)
    · exact h2 i h3 (by omega)

omit [DecidableEq F] in
theorem scoped_witnesses {p : Prog F} {ni nl : ℕ} : ∀ (vs : List F) {K : Var → Prop} {nw : ℕ},
    (∀ K' : Var → Prop, (∀ v, K v → K' v) → (∀ i, nw ≤ i → i < nw + vs.length → K' (.wit i)) →
      p.Scoped K' ni (nw + vs.length) nl) → (witnesses vs p).Scoped K ni nw nl
  | [], K, nw, h => h K (fun _ h => h) fun i h1 h2 => by rw [List.length_nil] at h2; omega
  | v :: vs, K, nw, h => by
    refine scoped_witnesses vs fun K' h1 h2 => ?_
    rw [show nw + 1 + vs.length = nw + (v :: vs).length by rw [List.length_cons]; omega]
    refine h K' (fun u hu => h1 u (Or.inl hu)) fun i h3 h4 => ?_
    rw [List.length_cons] at h4
    rcases Nat.eq_or_lt_of_le h3 with rfl | h3
    · exact h1 _ (Or.inr rfl)
    · exact h2 i h3 (by omega)

omit [DecidableEq F] in
theorem makeLC_vars (s : Sorter F) (ni : ℕ) (l : List (CTerm F)) {P : Var → Prop} (h : ∀ t ∈ l, P (wireVar ni t.wire)) :
    ∀ t ∈ makeLC s ni l, P t.var := by
  intro t ht
  obtain ⟨u, hu, e⟩ := (mem_dedup s _ t.var).1 ⟨t, ht, rfl⟩
  obtain ⟨c, hc, rfl⟩ := List.mem_map.1 hu
  rw [← e]
  exact h c hc

omit [DecidableEq F] in
theorem scoped_enforceAll (s : Sorter F) (m ni nw : ℕ) {K : Var → Prop} : ∀ (cs : List (Constraint F)) {nl : ℕ},
    (∀ c ∈ cs, (∀ t ∈ c.a, K (wireVar m t.wire)) ∧ (∀ t ∈ c.b, K (wireVar m t.wire)) ∧
      ∀ t ∈ c.c, K (wireVar m t.wire)) → (enforceAll s m cs).Scoped K ni nw nl
  | [], _, _ => trivial
  | c :: cs, _, h =>
    have hc := h c List.mem_cons_self
    ⟨makeLC_vars s m c.a hc.1, makeLC_vars s m c.b hc.2.1, makeLC_vars s m c.c hc.2.2,
      scoped_enforceAll s m ni nw cs fun c hc => h c (List.mem_cons_of_mem _ hc)⟩

omit [DecidableEq F] in
theorem run_instances {p : Prog F} : ∀ (vs : List F) (cs : CS F), cs.setup = false →
    (instances vs p).run cs = p.run { cs with numInst := cs.numInst + vs.length, inst := cs.inst ++ vs }
  | [], cs, _ => by rw [instances]; simp
  | v :: vs, cs, h => by
    rw [instances, Prog.run, run_instances vs _ (by rw [CS.createInstance]; exact h)]
    simp [CS.createInstance, h, Nat.add_assoc, Nat.add_comm 1]

omit [DecidableEq F] in
theorem run_witnesses {p : Prog F} : ∀ (vs : List F) (cs : CS F), cs.setup = false →
    (witnesses vs p).run cs = p.run { cs with numWit := cs.numWit + vs.length, wit := cs.wit ++ vs }
  | [], cs, _ => by rw [witnesses]; simp
  | v :: vs, cs, h => by
    rw [witnesses, Prog.run, run_witnesses vs _ (by rw [CS.createWitness]; exact h)]
    simp [CS.createWitness, h, Nat.add_assoc, Nat.add_comm 1]

omit [DecidableEq F] in
theorem same_instances {p q : Prog F} : ∀ vs vs' : List F, vs.length = vs'.length → Same p q →
    Same (instances vs p) (instances vs' q)
  | [], [], _, h => h
  | v :: vs, v' :: vs', e, h => .createInstance fun _ => same_instances vs vs' (by simpa using e) h

omit [DecidableEq F] in
theorem same_witnesses {p q : Prog F} : ∀ vs vs' : List F, vs.length = vs'.length → Same p q →
    Same (witnesses vs p) (witnesses vs' q)
  | [], [], _, h => h
  | v :: vs, v' :: vs', e, h => .createWitness fun _ => same_witnesses vs vs' (by simpa using e) h

omit [DecidableEq F] in
theorem mem_mapSet {α : Type} (k : ℕ) (v : α) : ∀ (m : List (ℕ × α)) (e : ℕ × α), e ∈ mapSet m k v → e.2 = v ∨ e ∈ m
  | [], e, h => by
    rw [mapSet, List.mem_singleton] at h
    exact Or.inl (by rw [h])
  | x :: m, e, h => by
    rw [mapSet] at h
    split at h
    · rcases List.mem_cons.1 h with rfl | h
      · exact Or.inl rfl
      · exact Or.inr h
    split at h
    · rcases List.mem_cons.1 h with rfl | h
      · exact Or.inl rfl
      · exact Or.inr (List.mem_cons_of_mem _ h)
    · rcases List.mem_cons.1 h with rfl | h
      · exact Or.inr List.mem_cons_self
      · rcases mem_mapSet k v m e h with h | h
        · exact Or.inl h
        · exact Or.inr (List.mem_cons_of_mem _ h)

/-- No linear combination refers to another one. -/
def NoRefs (cs : CS F) : Prop := ∀ e ∈ cs.lcMap, ∀ t ∈ e.2, ∀ j, t.var ≠ .lc j

omit [DecidableEq F] in
theorem NoRefs.refs {cs : CS F} (h : NoRefs cs) (j : ℕ) : refs cs.lcMap j = 0 := by
  rw [R1cs.refs]
  refine List.sum_eq_zero fun x hx => ?_
  obtain ⟨e, he, rfl⟩ := List.mem_map.1 hx
  rw [refsT, List.countP_eq_zero]
  intro t ht
  simpa using h e he t ht j

omit [DecidableEq F] in
theorem lin_makeLC (s : Sorter F) {cs : CS F} {x w : List F} {z : Var → F} (hz : Assign cs x w z) (l : List (CTerm F))
    (hl : ∀ t ∈ l, t.wire < x.length + w.length) : lin z (makeLC s x.length l) = valueOf (x ++ w) l := by
  rw [makeLC, lin_dedup, lin, List.map_map, valueOf]
  refine congrArg List.sum (List.map_congr_left fun t ht => ?_)
  show t.coeff * z (wireVar x.length t.wire) = _
  congr 1
  rw [wireVar, List.getD_eq_getElem?_getD]
  split
  · next h => rw [hz.inst _ _ (List.getElem?_eq_getElem h), List.getElem?_append_left h, List.getElem?_eq_getElem h,
      Option.getD_some]
  · next h =>
    have h2 : t.wire - x.length < w.length := by have := hl t ht; omega
    rw [hz.wit _ _ (List.getElem?_eq_getElem h2), List.getElem?_append_right (by omega), List.getElem?_eq_getElem h2,
      Option.getD_some]

omit [DecidableEq F] in
theorem run_enforceAll (s : Sorter F) : ∀ (l : List (Constraint F)) {cs : CS F}, Built cs → cs.shouldConstruct = true →
    NoRefs cs →
    (∀ c ∈ l, (∀ t ∈ c.a, t.wire < cs.numInst + cs.numWit) ∧ (∀ t ∈ c.b, t.wire < cs.numInst + cs.numWit) ∧
      ∀ t ∈ c.c, t.wire < cs.numInst + cs.numWit) →
    ∃ r, (enforceAll s cs.numInst l).run cs = some r ∧ Built r ∧ NoRefs r ∧ r.numInst = cs.numInst ∧ r.numWit = cs.numWit ∧
      r.numCons = cs.numCons + l.length ∧ r.inst = cs.inst ∧ r.wit = cs.wit ∧
      ∀ x w, x.length = cs.numInst → w.length = cs.numWit → (Sat r x w ↔ Sat cs x w ∧
        ∀ c ∈ l, valueOf (x ++ w) c.a * valueOf (x ++ w) c.b = valueOf (x ++ w) c.c)
  | [], cs, hb, _, hn, _ => ⟨cs, rfl, hb, hn, rfl, rfl, rfl, rfl, rfl, fun x w _ _ => by simp⟩
  | c :: l, cs, hb, hc, hn, h => by
    have hk : ∀ t : CTerm F, t.wire < cs.numInst + cs.numWit → cs.Known (wireVar cs.numInst t.wire) := fun t ht => by
      rw [wireVar]
      split
      · next h => exact h
      · exact (show t.wire - cs.numInst < cs.numWit by omega)
    obtain ⟨h1, h2, h3⟩ := h c List.mem_cons_self
    obtain ⟨r, e, hr, n1, n2, n3, n4, n5, -, hs⟩ := hb.enforce hc
      (makeLC_vars s cs.numInst c.a fun t ht => hk t (h1 t ht)) (makeLC_vars s cs.numInst c.b fun t ht => hk t (h2 t ht))
      (makeLC_vars s cs.numInst c.c fun t ht => hk t (h3 t ht))
    obtain ⟨r', e', s1, s2, -, -, -, -, -, s8, -⟩ := enforce_some hc (makeLC s cs.numInst c.a) (makeLC s cs.numInst c.b)
      (makeLC s cs.numInst c.c)
    obtain rfl := Option.some.inj (e.symm.trans e')
    have hw : ∀ (l : List (CTerm F)) j, ∀ t ∈ makeLC s cs.numInst l, t.var ≠ .lc j := fun l j =>
      makeLC_vars s cs.numInst l (P := (· ≠ .lc j)) fun t _ => by rw [wireVar]; split <;> simp
    have hn' : NoRefs r := by
      intro x hx t ht j
      rw [s8] at hx
      rcases mem_mapSet _ _ _ _ hx with h | hx
      · exact hw c.c j t (h ▸ ht)
      rcases mem_mapSet _ _ _ _ hx with h | hx
      · exact hw c.b j t (h ▸ ht)
      rcases mem_mapSet _ _ _ _ hx with h | hx
      · exact hw c.a j t (h ▸ ht)
      · exact hn x hx t ht j
    obtain ⟨r', e2, b2, k2, m1, m2, m3, m4, m5, hs'⟩ := run_enforceAll s l hr
      (by rw [CS.shouldConstruct, s1, s2]; exact hc) hn' (by
        rw [n1, n2]; exact fun c hc => h c (List.mem_cons_of_mem _ hc))
    refine ⟨r', ?_, b2, k2, m1.trans n1, m2.trans n2, by rw [m3, n3, List.length_cons]; omega, m4.trans n4, m5.trans n5,
      fun x w hx hw => ?_⟩
    · rw [enforceAll, Prog.run, e, Option.bind_some, ← e2, n1]
    · obtain ⟨z, hz⟩ := hb.exists x w
      rw [hs' x w (hx.trans n1.symm) (hw.trans n2.symm), hs x w z hx hw hz, List.forall_mem_cons, ← hx,
        lin_makeLC s hz c.a (by rw [hx, hw]; exact h1), lin_makeLC s hz c.b (by rw [hx, hw]; exact h2),
        lin_makeLC s hz c.c (by rw [hx, hw]; exact h3), and_assoc]

omit [DecidableEq F] in
theorem built_instances : ∀ (vs : List F) {cs : CS F}, Built cs → cs.setup = false →
    Built { cs with numInst := cs.numInst + vs.length, inst := cs.inst ++ vs }
  | [], cs, hb, _ => by simpa using hb
  | v :: vs, cs, hb, h => by
    have := built_instances vs (hb.createInstance v) (by rw [CS.createInstance]; exact h)
    simpa [CS.createInstance, h, Nat.add_assoc, Nat.add_comm 1] using this

omit [DecidableEq F] in
theorem built_witnesses : ∀ (vs : List F) {cs : CS F}, Built cs → cs.setup = false →
    Built { cs with numWit := cs.numWit + vs.length, wit := cs.wit ++ vs }
  | [], cs, hb, _ => by simpa using hb
  | v :: vs, cs, hb, h => by
    have := built_witnesses vs (hb.createWitness v) (by rw [CS.createWitness]; exact h)
    simpa [CS.createWitness, h, Nat.add_assoc, Nat.add_comm 1] using this

omit [DecidableEq F] in
/-- The system after the first two loops. -/
theorem run_variables (vs ws : List F) : ∃ cs : CS F, (∀ p, (instances vs (witnesses ws p)).run {} = p.run cs) ∧ Built cs ∧
    cs.shouldConstruct = true ∧ NoRefs cs ∧ cs.numInst = 1 + vs.length ∧ cs.numWit = ws.length ∧ cs.numCons = 0 ∧
    cs.inst = 1 :: vs ∧ cs.wit = ws ∧ ∀ x w, Sat cs x w := by
  have hb0 : Built ({} : CS F) := built_new false true false
  have hb := built_witnesses ws (built_instances vs hb0 rfl) rfl
  refine ⟨_, fun p => by rw [run_instances _ _ rfl, run_witnesses _ _ rfl], hb, rfl, fun e he => ?_, rfl, ?_, rfl, rfl, ?_,
    fun x w => ?_⟩
  · simp at he
  · show 0 + ws.length = _; omega
  · show [] ++ ws = _; simp
  · obtain ⟨z, hz⟩ := hb.exists x w
    exact ⟨z, hz, fun i a b c h => by simp at h⟩

end Tachyon.Circom
