import Verif.Spec.Groth16
import Verif.Props.Qap
/-! Proofs for Groth16: the constraint systems of the key and of the proof are the same but for the values. -/
namespace Tachyon.Groth16
open Polynomial Tachyon.R1cs Tachyon.FFT Tachyon.Props

variable {F : Type} [Field F] [DecidableEq F]

/-- The same system but for the values and the mode. -/
structure Shape (cs cs' : CS F) : Prop where
  numInst : cs.numInst = cs'.numInst
  numWit : cs.numWit = cs'.numWit
  numCons : cs.numCons = cs'.numCons
  numLC : cs.numLC = cs'.numLC
  lcMap : cs.lcMap = cs'.lcMap
  aCons : cs.aCons = cs'.aCons
  bCons : cs.bCons = cs'.bCons
  cCons : cs.cCons = cs'.cCons
  weight : cs.weight = cs'.weight

omit [DecidableEq F] in
theorem Shape.refl (cs : CS F) : Shape cs cs := ⟨rfl, rfl, rfl, rfl, rfl, rfl, rfl, rfl, rfl⟩

omit [DecidableEq F] in
theorem enforce_some {cs : CS F} (h : cs.shouldConstruct = true) (a b c : LC F) :
    ∃ r, cs.enforce a b c = some r ∧ r.setup = cs.setup ∧ r.construct = cs.construct ∧ r.weight = cs.weight ∧
      r.numInst = cs.numInst ∧ r.numWit = cs.numWit ∧ r.numCons = cs.numCons + 1 ∧ r.numLC = cs.numLC + 1 + 1 + 1 ∧
      r.lcMap = mapSet (mapSet (mapSet cs.lcMap cs.numLC a) (cs.numLC + 1) b) (cs.numLC + 1 + 1) c ∧
      r.aCons = cs.aCons ++ [cs.numLC] ∧ r.bCons = cs.bCons ++ [cs.numLC + 1] ∧ r.cCons = cs.cCons ++ [cs.numLC + 1 + 1] := by
  rw [CS.enforce, if_pos h]
  exact ⟨_, rfl, rfl, rfl, rfl, rfl, rfl, rfl, rfl, rfl, rfl, rfl, rfl⟩

omit [DecidableEq F] in
theorem run_shape {p q : Prog F} (h : Same p q) : ∀ {cs cs' : CS F}, Shape cs cs' → cs.shouldConstruct = true →
    cs'.shouldConstruct = true → ∀ {r}, p.run cs = some r →
    ∃ r', q.run cs' = some r' ∧ Shape r r' ∧ r'.setup = cs'.setup ∧ r'.construct = cs'.construct := by
  induction h with
  | done =>
    intro cs cs' hs _ _ r e
    obtain rfl := Option.some.inj e
    exact ⟨cs', rfl, hs, rfl, rfl⟩
  | @createInstance v v' k k' hk ih =>
    intro cs cs' hs h1 h2 r e
    have e' : (k (.inst cs.numInst)).run (cs.createInstance v).2 = some r := e
    rw [hs.numInst] at e'
    exact ih (.inst cs'.numInst) (cs := (cs.createInstance v).2) (cs' := (cs'.createInstance v').2)
      ⟨congrArg (· + 1) hs.numInst, hs.numWit, hs.numCons, hs.numLC, hs.lcMap, hs.aCons, hs.bCons, hs.cCons, hs.weight⟩
      h1 h2 e'
  | @createWitness v v' k k' hk ih =>
    intro cs cs' hs h1 h2 r e
    have e' : (k (.wit cs.numWit)).run (cs.createWitness v).2 = some r := e
    rw [hs.numWit] at e'
    exact ih (.wit cs'.numWit) (cs := (cs.createWitness v).2) (cs' := (cs'.createWitness v').2)
      ⟨hs.numInst, congrArg (· + 1) hs.numWit, hs.numCons, hs.numLC, hs.lcMap, hs.aCons, hs.bCons, hs.cCons, hs.weight⟩
      h1 h2 e'
  | @createLC l k k' hk ih =>
    intro cs cs' hs h1 h2 r e
    have e' : (k (.lc cs.numLC)).run (cs.createLC l).2 = some r := e
    rw [hs.numLC] at e'
    exact ih (.lc cs'.numLC) (cs := (cs.createLC l).2) (cs' := (cs'.createLC l).2)
      ⟨hs.numInst, hs.numWit, hs.numCons, congrArg (· + 1) hs.numLC, by
        show mapSet cs.lcMap cs.numLC l = mapSet cs'.lcMap cs'.numLC l
        rw [hs.lcMap, hs.numLC], hs.aCons, hs.bCons, hs.cCons, hs.weight⟩
      h1 h2 e'
  | @enforce a b c k k' hk ih =>
    intro cs cs' hs h1 h2 r e
    obtain ⟨r1, e1, s1, s2, s3, s4, s5, s6, s7, s8, s9, s10, s11⟩ := enforce_some h1 a b c
    obtain ⟨r2, e2, t1, t2, t3, t4, t5, t6, t7, t8, t9, t10, t11⟩ := enforce_some h2 a b c
    rw [Prog.run, e1, Option.bind_some] at e
    obtain ⟨r', e', hsh, u1, u2⟩ := ih (cs := r1) (cs' := r2)
      ⟨by rw [s4, t4, hs.numInst], by rw [s5, t5, hs.numWit], by rw [s6, t6, hs.numCons], by rw [s7, t7, hs.numLC],
        by rw [s8, t8, hs.lcMap, hs.numLC], by rw [s9, t9, hs.aCons, hs.numLC], by rw [s10, t10, hs.bCons, hs.numLC],
        by rw [s11, t11, hs.cCons, hs.numLC], by rw [s3, t3, hs.weight]⟩
      (by rw [CS.shouldConstruct, s1, s2]; exact h1) (by rw [CS.shouldConstruct, t1, t2]; exact h2) e
    exact ⟨r', by rw [Prog.run, e2, Option.bind_some, e'], hsh, u1.trans t1, u2.trans t2⟩

omit [Field F] [DecidableEq F] in
theorem same_refl (p : Prog F) : Same p p := by
  induction p with
  | done => exact .done
  | createInstance v k ih => exact .createInstance ih
  | createWitness v k ih => exact .createWitness ih
  | createLC l k ih => exact .createLC ih
  | enforce a b c k ih => exact .enforce ih

omit [Field F] [DecidableEq F] in
theorem same_symm {p q : Prog F} (h : Same p q) : Same q p := by
  induction h with
  | done => exact .done
  | createInstance _ ih => exact .createInstance ih
  | createWitness _ ih => exact .createWitness ih
  | createLC _ ih => exact .createLC ih
  | enforce _ ih => exact .enforce ih

omit [Field F] [DecidableEq F] in
theorem Prog.Scoped.same {p q : Prog F} (h : Same p q) : ∀ {K : Var → Prop} {ni nw nl : ℕ}, p.Scoped K ni nw nl →
    q.Scoped K ni nw nl := by
  induction h with
  | done => intro K ni nw nl h; exact h
  | createInstance _ ih => intro K ni nw nl h; exact ih _ h
  | createWitness _ ih => intro K ni nw nl h; exact ih _ h
  | createLC _ ih => intro K ni nw nl h; exact ⟨h.1, ih _ h.2⟩
  | enforce _ ih => intro K ni nw nl h; exact ⟨h.1, h.2.1, h.2.2.1, ih h.2.2.2⟩

omit [DecidableEq F] in
theorem run_built {p : Prog F} : ∀ {K : Var → Prop} {cs : CS F}, p.Scoped K cs.numInst cs.numWit cs.numLC → Built cs → cs.ZeroFree →
    cs.shouldConstruct = true → (∀ u, K u → cs.Known u ∧ u ≠ .zero) →
    ∃ r, p.run cs = some r ∧ Built r ∧ r.ZeroFree ∧ r.setup = cs.setup ∧ r.construct = cs.construct ∧
      r.weight = cs.weight := by
  induction p with
  | done => intro K cs _ hb hz _ _; exact ⟨cs, rfl, hb, hz, rfl, rfl, rfl⟩
  | createInstance v k ih =>
    intro K cs hs hb hz hc hk
    obtain ⟨-, ⟨h1, h2, h3, -⟩, -⟩ := C82_build hb v (l := []) (by simp)
    exact ih (.inst cs.numInst) hs h1 hz hc fun u hu => by
      rcases hu with hu | rfl
      · exact ⟨h3 u (hk u hu).1, (hk u hu).2⟩
      · exact ⟨h2, by simp⟩
  | createWitness v k ih =>
    intro K cs hs hb hz hc hk
    obtain ⟨-, -, ⟨h1, h2, h3, -⟩, -⟩ := C82_build hb v (l := []) (by simp)
    exact ih (.wit cs.numWit) hs h1 hz hc fun u hu => by
      rcases hu with hu | rfl
      · exact ⟨h3 u (hk u hu).1, (hk u hu).2⟩
      · exact ⟨h2, by simp⟩
  | createLC l k ih =>
    intro K cs hs hb hz hc hk
    obtain ⟨-, -, -, ⟨h1, h2, h3, -⟩⟩ := C82_build hb 0 (l := l) fun t ht => (hk _ (hs.1 t ht)).1
    refine ih (.lc cs.numLC) hs.2 h1 (fun j m hm t ht => ?_) hc fun u hu => by
      rcases hu with hu | rfl
      · exact ⟨h3 u (hk u hu).1, (hk u hu).2⟩
      · exact ⟨h2, by simp⟩
    have hm : mapFind (mapSet cs.lcMap cs.numLC l) j = some m := hm
    rw [mapFind_set] at hm
    split at hm
    · obtain rfl := Option.some.inj hm
      exact (hk _ (hs.1 t ht)).2
    · exact hz j m hm t ht
  | enforce a b c k ih =>
    intro K cs hs hb hz hc hk
    obtain ⟨r, e, h1, -, -, -, -, -, h2, -⟩ := hb.enforce hc (fun t ht => (hk _ (hs.1 t ht)).1)
      (fun t ht => (hk _ (hs.2.1 t ht)).1) (fun t ht => (hk _ (hs.2.2.1 t ht)).1)
    obtain ⟨r', e', s1, s2, s3, s4, s5, s6, s7, s8, s9, s10, s11⟩ := enforce_some hc a b c
    obtain rfl := Option.some.inj (e.symm.trans e')
    have hz' : r.ZeroFree := by
      intro j m hm t ht
      rw [s8, mapFind_set, mapFind_set, mapFind_set] at hm
      split at hm
      · obtain rfl := Option.some.inj hm
        exact (hk _ (hs.2.2.1 t ht)).2
      split at hm
      · obtain rfl := Option.some.inj hm
        exact (hk _ (hs.2.1 t ht)).2
      split at hm
      · obtain rfl := Option.some.inj hm
        exact (hk _ (hs.1 t ht)).2
      · exact hz j m hm t ht
    obtain ⟨r', e', i1, i2, i3, i4, i5⟩ := ih (K := K) (cs := r) (by rw [s4, s5, s7]; exact hs.2.2.2) h1 hz'
      (by rw [CS.shouldConstruct, s1, s2]; exact hc) fun u hu => ⟨h2 u (hk u hu).1, (hk u hu).2⟩
    exact ⟨r', by rw [Prog.run, e, Option.bind_some, e'], i1, i2, i3.trans s1, i4.trans s2, i5.trans s3⟩

omit [DecidableEq F] in
theorem run_closed {p : Prog F} (hp : p.Closed) (setup construct : Bool)
    (hc : ({ setup := setup, construct := construct } : CS F).shouldConstruct = true) :
    ∃ r, p.run { setup := setup, construct := construct } = some r ∧ Built r ∧ r.ZeroFree ∧ r.setup = setup ∧
      r.construct = construct ∧ r.weight = false :=
  run_built (cs := { setup := setup, construct := construct }) hp (built_new setup construct false)
    (by intro k l h; simp [mapFind] at h) hc fun u hu => by
      rcases hu with rfl | rfl
      · exact ⟨trivial, by simp⟩
      · exact ⟨Nat.zero_lt_one, by simp⟩

/-! ### Finalize -/

/-- The outer loop of `InlineAllLCs`, without the system. -/
def inlineEntry (s : Sorter F) (st : List (ℕ × LC F) × List ℕ) (e : ℕ × LC F) :
    Option (List (ℕ × LC F) × List ℕ) :=
  (e.2.foldlM inlineTerm ⟨st.1, st.2, []⟩).bind fun r => (r.used[e.1]?).map fun _ =>
    (mapSet r.tmap e.1 (dedup s r.acc), r.used)

omit [DecidableEq F] in
theorem transformEntry_inline (s : Sorter F) (cs : CS F) (es : List (ℕ × LC F)) :
    ∀ st : List (ℕ × LC F) × List ℕ, es.foldlM (transformEntry s inlineCb) ⟨st.1, st.2, cs, ()⟩ =
      (es.foldlM (inlineEntry s) st).map fun r => ⟨r.1, r.2, cs, ()⟩ := by
  induction es with
  | nil => intro st; rfl
  | cons e es ih =>
    intro st
    have h1 : transformEntry s inlineCb ⟨st.1, st.2, cs, ()⟩ e =
        (inlineEntry s st e).map fun r => (⟨r.1, r.2, cs, ()⟩ : Tr F Unit) := by
      rw [transformEntry, inlineEntry]
      cases e.2.foldlM inlineTerm ⟨st.1, st.2, []⟩ with
      | none => rfl
      | some r =>
        rw [Option.bind_some, Option.bind_some]
        cases r.used[e.1]? with
        | none => rfl
        | some u => simp [inlineCb, updateWitness]
    rw [List.foldlM_cons, List.foldlM_cons, h1]
    cases inlineEntry s st e with
    | none => rfl
    | some r => exact ih r

omit [DecidableEq F] in
theorem inlineAll_eq (s : Sorter F) {cs : CS F} (h : cs.shouldConstruct = true) :
    cs.inlineAll s = ((({ lcMap := cs.lcMap } : CS F).numTimesUsed false).bind fun used =>
      (cs.lcMap.foldlM (inlineEntry s) ([], used)).map fun r => r.1).map fun m => { cs with lcMap := m } := by
  rw [CS.inlineAll, if_pos h, CS.transform]
  show ((({ lcMap := cs.lcMap } : CS F).numTimesUsed false).bind _).map _ = _
  cases (({ lcMap := cs.lcMap } : CS F).numTimesUsed false) with
  | none => rfl
  | some used =>
    rw [Option.bind_some, Option.bind_some, transformEntry_inline s cs cs.lcMap ([], used), Option.map_map, Option.map_map,
      Option.map_map]
    rfl

theorem toMatrices_shape {cs cs' : CS F} (h : Shape cs cs') (h1 : cs.shouldConstruct = true)
    (h2 : cs'.shouldConstruct = true) : cs.toMatrices = cs'.toMatrices := by
  have hr : ∀ l : LC F, cs.makeRow l = cs'.makeRow l := fun l => by rw [CS.makeRow, CS.makeRow, h.numInst]
  have hm : ∀ l, cs.makeMatrix l = cs'.makeMatrix l := fun l => by
    rw [CS.makeMatrix, CS.makeMatrix, h.lcMap, funext hr]
  rw [CS.toMatrices, CS.toMatrices, if_pos h1, if_pos h2, hm, hm, hm, h.aCons, h.bCons, h.cCons, h.numInst, h.numWit,
    h.numCons]

omit [DecidableEq F] in
theorem sat_shape {cs cs' : CS F} (h : Shape cs cs') (x w : List F) : Sat cs x w ↔ Sat cs' x w := by
  refine exists_congr fun z => and_congr ?_ ?_
  · exact ⟨fun a => ⟨a.zero, a.one, a.inst, a.wit, by rw [← h.lcMap]; exact a.lc⟩,
      fun a => ⟨a.zero, a.one, a.inst, a.wit, by rw [h.lcMap]; exact a.lc⟩⟩
  · rw [Products, Products, h.aCons, h.bCons, h.cCons]

/-- The starting point of a synthesis. -/
def start (setup : Bool) : CS F := { setup := setup, construct := if setup then false else true }

omit [DecidableEq F] in
theorem synthesize_eq (s : Sorter F) (p : Prog F) (setup : Bool) :
    synthesize s p setup = (p.run (start setup)).bind fun cs => cs.finalize s := by
  cases setup <;> rfl

theorem synth {s : Sorter F} {p : Prog F} (hp : p.Closed) {cs : CS F} (hrun : p.run {} = some cs)
    (hsize : ∀ j, refs cs.lcMap j < 2 ^ 64) :
    ∃ m : Matrices F, MatOk m ∧ m.numInst = cs.numInst ∧ m.numWit = cs.numWit ∧ m.numCons = cs.numCons ∧
      (∀ x w, x.length = cs.numInst → w.length = cs.numWit → x[0]? = some 1 → (MatSat m (x ++ w) ↔ Sat cs x w)) ∧
      ∀ q, Same p q → ∀ setup, ∃ cs', synthesize s q setup = some cs' ∧ Finalized cs' ∧ cs'.ZeroFree ∧
        cs'.shouldConstruct = true ∧ cs'.setup = setup ∧ cs'.toMatrices = some (some m) ∧ cs'.numInst = cs.numInst ∧
        cs'.numWit = cs.numWit ∧ cs'.numCons = cs.numCons ∧
        (setup = false → ∃ csq, q.run {} = some csq ∧ cs'.inst = csq.inst ∧ cs'.wit = csq.wit ∧
          Built csq ∧ csq.numInst = cs.numInst ∧ csq.numWit = cs.numWit ∧
          ∀ x w, (Sat csq x w ↔ Sat cs x w)) := by
  have key : ∀ q, Same p q → ∀ setup, ∃ csq cs', q.run (start setup) = some csq ∧ synthesize s q setup = some cs' ∧
      Finalized cs' ∧ cs'.ZeroFree ∧ cs'.shouldConstruct = true ∧ cs'.setup = setup ∧ Shape cs csq ∧
      cs.inlineAll s = (some cs'.lcMap).map (fun m => { cs with lcMap := m }) ∧
      cs' = { csq with lcMap := cs'.lcMap } ∧ Built csq ∧
      ∀ x w, x.length = csq.numInst → w.length = csq.numWit → (Sat cs' x w ↔ Sat csq x w) := by
    intro q hq setup
    have hc : (start setup : CS F).shouldConstruct = true := by cases setup <;> rfl
    have hsh : Shape ({} : CS F) (start setup) := ⟨rfl, rfl, rfl, rfl, rfl, rfl, rfl, rfl, rfl⟩
    obtain ⟨csq, eq, sh, hse, hco⟩ := run_shape hq hsh rfl hc hrun
    obtain ⟨csq', eq', hb, hz, -, -, hw⟩ := run_closed (Prog.Scoped.same hq hp) setup _ hc
    obtain rfl := Option.some.inj (eq.symm.trans eq')
    have hc' : csq.shouldConstruct = true := by rw [CS.shouldConstruct, hse, hco]; exact hc
    have hw' : csq.weight = false := hw
    obtain ⟨tmap, et, f1, f2, f3⟩ := C82_inline s hb hc' (by rw [← sh.lcMap]; exact hsize)
    refine ⟨csq, _, eq, by rw [synthesize_eq, eq, Option.bind_some, CS.finalize, if_neg (by simp [hw']), et], f1, f2 hz,
      hc', hse, sh, ?_, rfl, hb, f3⟩
    · rw [inlineAll_eq s hc'] at et
      have hcc : cs.shouldConstruct = true := by
        obtain ⟨cs2, e2, -, -, z1, z2, -⟩ := run_closed hp false true rfl
        obtain rfl := Option.some.inj (hrun.symm.trans e2)
        rw [CS.shouldConstruct, z1, z2]; rfl
      rw [inlineAll_eq s hcc, sh.lcMap]
      generalize hX : ((({ lcMap := csq.lcMap } : CS F).numTimesUsed false).bind fun used =>
        (csq.lcMap.foldlM (inlineEntry s) ([], used)).map fun r => r.1) = X at et
      cases X with
      | none => simp at et
      | some m =>
        have := congrArg CS.lcMap (Option.some.inj et)
        simp only at this
        rw [this]
  obtain ⟨c0, c1, ec0, -, f1, f2, f3, -, sh0, l0, b0, -, hsat⟩ := key p (same_refl p) false
  obtain rfl : cs = c0 := Option.some.inj (hrun.symm.trans ec0)
  obtain ⟨m, e, h1, h2, h3, h4, h5, h6, -, -, -, h7, h8, h9, hms⟩ := C82_matrices f1 f2 f3
  have sh1 : Shape c1 { cs with lcMap := c1.lcMap } := by rw [← b0]; exact Shape.refl _
  rw [← h1, ← h2] at h7 h8 h9
  refine ⟨m, ⟨h4.trans h3.symm, h5.trans h3.symm, h6.trans h3.symm, h7, h8, h9⟩, h1.trans (sh1.numInst.trans sh0.numInst.symm),
    h2.trans (sh1.numWit.trans sh0.numWit.symm), h3.trans (sh1.numCons.trans sh0.numCons.symm), fun x w hx hw h0 => ?_, fun q hq setup => ?_⟩
  · exact (hms x w (hx.trans sh1.numInst.symm) (hw.trans sh1.numWit.symm) h0).trans (hsat x w hx hw)
  obtain ⟨csq, cs', e1, e2, g1, g2, g3, g4, sh, l1, b1, hbq, -⟩ := key q hq setup
  have sh2 : Shape cs' { csq with lcMap := cs'.lcMap } := by rw [← b1]; exact Shape.refl _
  have hl : c1.lcMap = cs'.lcMap := by
    have := congrArg CS.lcMap (Option.some.inj (l0.symm.trans l1))
    exact this
  have sh3 : Shape c1 cs' :=
    ⟨sh1.numInst.trans (sh0.numInst.symm.trans (sh.numInst.trans sh2.numInst.symm)),
      sh1.numWit.trans (sh0.numWit.symm.trans (sh.numWit.trans sh2.numWit.symm)),
      sh1.numCons.trans (sh0.numCons.symm.trans (sh.numCons.trans sh2.numCons.symm)),
      sh1.numLC.trans (sh0.numLC.symm.trans (sh.numLC.trans sh2.numLC.symm)), hl,
      sh1.aCons.trans (sh0.aCons.symm.trans (sh.aCons.trans sh2.aCons.symm)),
      sh1.bCons.trans (sh0.bCons.symm.trans (sh.bCons.trans sh2.bCons.symm)),
      sh1.cCons.trans (sh0.cCons.symm.trans (sh.cCons.trans sh2.cCons.symm)),
      sh1.weight.trans (sh0.weight.symm.trans (sh.weight.trans sh2.weight.symm))⟩
  refine ⟨cs', e2, g1, g2, g3, g4, by rw [← toMatrices_shape sh3 f3 g3, e], sh2.numInst.trans sh.numInst.symm,
    sh2.numWit.trans sh.numWit.symm, sh2.numCons.trans sh.numCons.symm, fun hset => ?_⟩
  subst hset
  exact ⟨csq, e1, (congrArg CS.inst b1 :), (congrArg CS.wit b1 :), hbq, sh.numInst.symm, sh.numWit.symm, fun x w => (sat_shape sh x w).symm⟩

end Tachyon.Groth16
