import Verif.Spec.Graph
import Mathlib.Tactic.LinearCombination
import Mathlib.Data.List.GetD
import Mathlib.Data.List.Forall2
import Mathlib.Algebra.BigOperators.Intervals
import Mathlib.Algebra.Polynomial.Degree.Lemmas
import Mathlib.Tactic.Ring
/-! Lemmas for C70: the graph evaluator computes the values of the expressions. -/
universe u
set_option linter.unusedSectionVars false
namespace Tachyon.Plonk

section
variable {F : Type u} [Field F]

theorem hornerLoop_mono {get get' : Source → Option F} (h : ∀ s v, get s = some v → get' s = some v) (f : F) :
    ∀ (ps : List Source) (a v : F), hornerLoop get f ps a = some v → hornerLoop get' f ps a = some v
  | [], _, _, e => e
  | p :: ps, a, v, e => by
    simp only [hornerLoop, Option.bind_eq_some_iff] at e ⊢
    obtain ⟨w, h1, h2⟩ := e
    exact ⟨w, h _ _ h1, hornerLoop_mono h f ps _ _ h2⟩

theorem eval_mono {get get' : Source → Option F} (h : ∀ s v, get s = some v → get' s = some v) (c : Calc) (v : F)
    (e : c.eval get = some v) : c.eval get' = some v := by
  cases c with
  | add l r | sub l r | mul l r =>
    simp only [Calc.eval, Option.bind_eq_some_iff, Option.map_eq_some_iff] at e ⊢
    obtain ⟨a, h1, b, h2, h3⟩ := e
    exact ⟨a, h _ _ h1, b, h _ _ h2, h3⟩
  | square s | double s | negate s =>
    simp only [Calc.eval, Option.map_eq_some_iff] at e ⊢
    obtain ⟨a, h1, h2⟩ := e
    exact ⟨a, h _ _ h1, h2⟩
  | store s => exact h _ _ e
  | horner i ps f =>
    simp only [Calc.eval, Option.bind_eq_some_iff] at e ⊢
    obtain ⟨a, h1, b, h2, h3⟩ := e
    exact ⟨a, h _ _ h1, b, h _ _ h2, hornerLoop_mono h a ps _ _ h3⟩

theorem getElem?_prefix {α : Type*} {l l' : List α} (h : l <+: l') {i : ℕ} {v : α} (e : l[i]? = some v) :
    l'[i]? = some v := by
  obtain ⟨r, rfl⟩ := h
  rw [List.getElem?_append_left (List.getElem?_eq_some_iff.1 e).1]
  exact e

theorem get_mono (t : Table F) (ch : Challenges F) (prev : F) {cs cs' : List F} {rs rs' : List ℕ} {vs vs' : List F}
    (h1 : cs <+: cs') (h2 : rs <+: rs') (h3 : vs <+: vs') (s : Source) (v : F)
    (e : s.get t ch cs rs prev vs = some v) : s.get t ch cs' rs' prev vs' = some v := by
  cases s with
  | constant i => exact getElem?_prefix h1 e
  | intermediate i => exact getElem?_prefix h3 e
  | fixed c r | advice c r | inst c r =>
    simp only [Source.get, Option.bind_eq_some_iff] at e ⊢
    obtain ⟨k, h4, h5⟩ := e
    exact ⟨k, getElem?_prefix h2 h4, h5⟩
  | challenge i => exact e
  | beta => exact e
  | gamma => exact e
  | theta => exact e
  | y => exact e
  | previous => exact e

/-- The values `vals` are what the calculations of the graph give in a row. -/
structure Inv (t : Table F) (ch : Challenges F) (prev : F) (idx scale n : ℤ) (g : Graph F) (rots : List ℕ)
    (vals : List F) : Prop where
  rot : g.rotations.mapM (fun r => getIndex r idx scale n) = some rots
  con : [0, 1, 2] <+: g.constants
  num : g.calcs.length = g.num
  len : vals.length = g.num
  tgt : ∀ (i : ℕ) (c : Calc) (k : ℕ), g.calcs[i]? = some (c, k) → k = i
  val : ∀ (i : ℕ) (c : Calc) (k : ℕ) (v : F), g.calcs[i]? = some (c, k) → vals[i]? = some v →
    c.eval (Source.get t ch g.constants rots prev (vals.take i)) = some v

/-- A graph with values continues another one. -/
structure Ext (g : Graph F) (rots : List ℕ) (vals : List F) (g' : Graph F) (rots' : List ℕ) (vals' : List F) :
    Prop where
  con : g.constants <+: g'.constants
  rot : rots <+: rots'
  val : vals <+: vals'
  cal : g.calcs <+: g'.calcs

theorem Ext.refl (g : Graph F) (rots : List ℕ) (vals : List F) : Ext g rots vals g rots vals :=
  ⟨List.prefix_rfl, List.prefix_rfl, List.prefix_rfl, List.prefix_rfl⟩

theorem Ext.trans {g g' g'' : Graph F} {r r' r'' : List ℕ} {v v' v'' : List F} (h : Ext g r v g' r' v')
    (h' : Ext g' r' v' g'' r'' v'') : Ext g r v g'' r'' v'' :=
  ⟨h.con.trans h'.con, h.rot.trans h'.rot, h.val.trans h'.val, h.cal.trans h'.cal⟩

variable {t : Table F} {ch : Challenges F} {prev : F} {idx scale n : ℤ}

theorem Ext.get {g g' : Graph F} {r r' : List ℕ} {v v' : List F} (h : Ext g r v g' r' v') {s : Source} {x : F}
    (e : s.get t ch g.constants r prev v = some x) : s.get t ch g'.constants r' prev v' = some x :=
  get_mono t ch prev h.con h.rot h.val s x e

variable [DecidableEq F]

/-- A calculation that is not in the graph. -/
theorem addCalc_fresh {g : Graph F} {rots : List ℕ} {vals : List F} (h : Inv t ch prev idx scale n g rots vals)
    {c : Calc} {v : F} (hc : c.eval (Source.get t ch g.constants rots prev vals) = some v)
    (hf : g.calcs.find? (fun info => decide (info.1 = c)) = none) :
    Inv t ch prev idx scale n (g.addCalc c).2 rots (vals ++ [v]) ∧
      Ext g rots vals (g.addCalc c).2 rots (vals ++ [v]) ∧ (g.addCalc c).1 = .intermediate g.num ∧
      (g.addCalc c).2.calcs = g.calcs ++ [(c, g.num)] := by
  unfold Graph.addCalc
  rw [hf]
  refine ⟨⟨h.rot, h.con, by simp [h.num], by simp [h.len], ?_, ?_⟩,
    ⟨List.prefix_rfl, List.prefix_rfl, List.prefix_append _ _, List.prefix_append _ _⟩, rfl, rfl⟩
  · intro i c' k hi
    rcases Nat.lt_or_ge i g.calcs.length with hlt | hge
    · rw [List.getElem?_append_left hlt] at hi
      exact h.tgt i c' k hi
    · rw [List.getElem?_append_right hge, List.getElem?_singleton] at hi
      split at hi
      · cases hi; have := h.num; omega
      · cases hi
  · intro i c' k w hi hw
    rcases Nat.lt_or_ge i g.calcs.length with hlt | hge
    · have hl : i < vals.length := by rw [h.len, ← h.num]; exact hlt
      rw [List.getElem?_append_left hlt] at hi
      rw [List.getElem?_append_left hl] at hw
      rw [List.take_append_of_le_length (by omega)]
      exact h.val i c' k w hi hw
    · rw [List.getElem?_append_right hge, List.getElem?_singleton] at hi
      split at hi
      · cases hi
        have hl : i = vals.length := by rw [h.len, ← h.num]; omega
        subst hl
        rw [List.getElem?_append_right le_rfl, Nat.sub_self] at hw
        cases hw
        rw [List.take_left]
        exact hc
      · cases hi

theorem find_some {g : Graph F} {c : Calc} {info : Calc × ℕ}
    (hf : g.calcs.find? (fun info => decide (info.1 = c)) = some info) :
    ∃ i, i < g.calcs.length ∧ g.calcs[i]? = some (c, info.2) := by
  have h1 : info.1 = c := by simpa using List.find?_some hf
  obtain ⟨i, hi, h2⟩ := List.mem_iff_getElem.1 (List.mem_of_find?_eq_some hf)
  refine ⟨i, hi, ?_⟩
  rw [List.getElem?_eq_getElem hi, h2, ← h1]

theorem addCalc_spec {g : Graph F} {rots : List ℕ} {vals : List F} (h : Inv t ch prev idx scale n g rots vals)
    {c : Calc} {v : F} (hc : c.eval (Source.get t ch g.constants rots prev vals) = some v) :
    ∃ rots' vals', Inv t ch prev idx scale n (g.addCalc c).2 rots' vals' ∧
      Ext g rots vals (g.addCalc c).2 rots' vals' ∧
      (g.addCalc c).1.get t ch (g.addCalc c).2.constants rots' prev vals' = some v := by
  cases hf : g.calcs.find? (fun info => decide (info.1 = c)) with
  | some info =>
    obtain ⟨i, hi, h2⟩ := find_some hf
    have hk := h.tgt i c info.2 h2
    have hl : i < vals.length := by rw [h.len, ← h.num]; exact hi
    have h3 := h.val i c info.2 _ h2 (List.getElem?_eq_getElem hl)
    have h4 := eval_mono (fun s w e => get_mono t ch prev List.prefix_rfl List.prefix_rfl (List.take_prefix i vals) s w e)
      c _ h3
    rw [hc] at h4
    cases h4
    refine ⟨rots, vals, ?_⟩
    unfold Graph.addCalc
    rw [hf]
    refine ⟨h, Ext.refl _ _ _, ?_⟩
    simp only [Source.get, hk]
    exact List.getElem?_eq_getElem hl
  | none =>
    obtain ⟨h1, h2, h3, -⟩ := addCalc_fresh h hc hf
    refine ⟨rots, vals ++ [v], h1, h2, ?_⟩
    rw [h3]
    simp only [Source.get, ← h.len]
    simp

theorem findIdx_some {α : Type*} {l : List α} {p : α → Bool} {i : ℕ} (h : l.findIdx? p = some i) :
    ∃ x, l[i]? = some x ∧ p x = true := by
  obtain ⟨h1, h2, -⟩ := List.findIdx?_eq_some_iff_getElem.1 h
  exact ⟨_, List.getElem?_eq_getElem h1, h2⟩

theorem addConstant_spec {g : Graph F} {rots : List ℕ} {vals : List F} (h : Inv t ch prev idx scale n g rots vals)
    (v : F) :
    Inv t ch prev idx scale n (g.addConstant v).2 rots vals ∧ Ext g rots vals (g.addConstant v).2 rots vals ∧
      (g.addConstant v).1.get t ch (g.addConstant v).2.constants rots prev vals = some v ∧
      (g.addConstant v).2.calcs = g.calcs := by
  unfold Graph.addConstant
  cases hf : g.constants.findIdx? (fun value => decide (value = v)) with
  | some i =>
    obtain ⟨x, h1, h2⟩ := findIdx_some hf
    refine ⟨h, Ext.refl _ _ _, ?_, rfl⟩
    simp only [Source.get, h1]
    simpa using h2
  | none =>
    refine ⟨⟨h.rot, h.con.trans (List.prefix_append _ _), h.num, h.len, h.tgt, fun i c k w hi hw => ?_⟩,
      ⟨List.prefix_append _ _, List.prefix_rfl, List.prefix_rfl, List.prefix_rfl⟩, by simp [Source.get], rfl⟩
    exact eval_mono (fun s w e => get_mono t ch prev (List.prefix_append _ _) List.prefix_rfl List.prefix_rfl s w e)
      c w (h.val i c k w hi hw)

theorem mapM_get {α β : Type*} {f : α → Option β} : ∀ {l : List α} {l' : List β}, l.mapM f = some l' →
    ∀ (i : ℕ) (x : α), l[i]? = some x → l'[i]? = f x
  | [], _, h, i, x, hx => by simp at hx
  | y :: l, l', h, i, x, hx => by
    rw [List.mapM_cons] at h
    cases e1 : f y with
    | none => rw [e1] at h; cases h
    | some b =>
      rw [e1] at h
      cases e2 : l.mapM f with
      | none => rw [e2] at h; cases h
      | some bs =>
        rw [e2] at h
        cases h
        cases i with
        | zero => simp only [List.getElem?_cons_zero, Option.some.injEq] at hx ⊢; rw [← hx, e1]
        | succ i =>
          simp only [List.getElem?_cons_succ] at hx ⊢
          exact mapM_get e2 i x hx

theorem mapM_length {α β : Type*} {f : α → Option β} : ∀ {l : List α} {l' : List β}, l.mapM f = some l' →
    l'.length = l.length
  | [], _, h => by cases h; rfl
  | y :: l, l', h => by
    rw [List.mapM_cons] at h
    cases e1 : f y with
    | none => rw [e1] at h; cases h
    | some b =>
      rw [e1] at h
      cases e2 : l.mapM f with
      | none => rw [e2] at h; cases h
      | some bs =>
        rw [e2] at h
        cases h
        simp [mapM_length e2]

theorem addRotation_spec {g : Graph F} {rots : List ℕ} {vals : List F} (h : Inv t ch prev idx scale n g rots vals)
    {r : ℤ} {k : ℕ} (hr : getIndex r idx scale n = some k) :
    ∃ rots', Inv t ch prev idx scale n (g.addRotation r).2 rots' vals ∧
      Ext g rots vals (g.addRotation r).2 rots' vals ∧ rots'[(g.addRotation r).1]? = some k ∧
      (g.addRotation r).2.calcs = g.calcs := by
  unfold Graph.addRotation
  cases hf : g.rotations.findIdx? (fun value => decide (value = r)) with
  | some i =>
    obtain ⟨x, h1, h2⟩ := findIdx_some hf
    have h2 : x = r := by simpa using h2
    refine ⟨rots, h, Ext.refl _ _ _, ?_, rfl⟩
    show rots[i]? = some k
    rw [mapM_get h.rot i x h1, h2, hr]
  | none =>
    refine ⟨rots ++ [k], ⟨?_, h.con, h.num, h.len, h.tgt, fun i c k w hi hw => ?_⟩,
      ⟨List.prefix_rfl, List.prefix_append _ _, List.prefix_rfl, List.prefix_rfl⟩, ?_, rfl⟩
    · show List.mapM _ (g.rotations ++ [r]) = _
      rw [List.mapM_append, h.rot]
      simp [hr]
    · exact eval_mono (fun s w e => get_mono t ch prev List.prefix_rfl (List.prefix_append _ _) List.prefix_rfl s w e)
        c w (h.val i c k w hi hw)
    · show (rots ++ [k])[g.rotations.length]? = some k
      rw [← mapM_length h.rot]
      simp

/-- What is known about the result of a step. -/
def Step (t : Table F) (ch : Challenges F) (prev : F) (idx scale n : ℤ) (g : Graph F) (rots : List ℕ) (vals : List F)
    (p : Source × Graph F) (v : F) : Prop :=
  ∃ rots' vals', Inv t ch prev idx scale n p.2 rots' vals' ∧ Ext g rots vals p.2 rots' vals' ∧
    p.1.get t ch p.2.constants rots' prev vals' = some v

theorem get_con (g : Graph F) (h : [0, 1, 2] <+: g.constants) (rots : List ℕ) (vals : List F) {x v : F} {i : ℕ}
    (hi : ([0, 1, 2] : List F)[i]? = some x) (e : (Source.constant i).get t ch g.constants rots prev vals = some v) :
    v = x := by
  have := getElem?_prefix h hi
  simp only [Source.get] at e
  rw [this] at e
  cases e
  rfl

section
variable {g : Graph F} {rots : List ℕ} {vals : List F} {l r : Source} {a b : F}

theorem addSum_spec (h : Inv t ch prev idx scale n g rots vals)
    (hl : l.get t ch g.constants rots prev vals = some a) (hr : r.get t ch g.constants rots prev vals = some b) :
    Step t ch prev idx scale n g rots vals (g.addSum l r) (a + b) := by
  unfold Graph.addSum
  split
  · rename_i e; subst e
    refine ⟨rots, vals, h, Ext.refl _ _ _, ?_⟩
    rw [get_con g h.con rots vals (x := 0) rfl hl, zero_add]; exact hr
  split
  · rename_i e; subst e
    refine ⟨rots, vals, h, Ext.refl _ _ _, ?_⟩
    rw [get_con g h.con rots vals (x := 0) rfl hr, add_zero]; exact hl
  split
  · exact addCalc_spec h (by simp [Calc.eval, hl, hr])
  · exact addCalc_spec h (by simp [Calc.eval, hl, hr, add_comm])

theorem addSub_spec (h : Inv t ch prev idx scale n g rots vals)
    (hl : l.get t ch g.constants rots prev vals = some a) (hr : r.get t ch g.constants rots prev vals = some b) :
    Step t ch prev idx scale n g rots vals (g.addSub l r) (a - b) := by
  unfold Graph.addSub
  split
  · rename_i e; subst e
    rw [get_con g h.con rots vals (x := 0) rfl hl, zero_sub]
    exact addCalc_spec h (by simp [Calc.eval, hr])
  split
  · rename_i e; subst e
    refine ⟨rots, vals, h, Ext.refl _ _ _, ?_⟩
    rw [get_con g h.con rots vals (x := 0) rfl hr, sub_zero]; exact hl
  · exact addCalc_spec h (by simp [Calc.eval, hl, hr])

theorem addNeg_spec (h : Inv t ch prev idx scale n g rots vals)
    (hr : r.get t ch g.constants rots prev vals = some b) :
    Step t ch prev idx scale n g rots vals (g.addNeg r) (-b) := by
  unfold Graph.addNeg
  split
  · rename_i e; subst e
    refine ⟨rots, vals, h, Ext.refl _ _ _, ?_⟩
    have := get_con g h.con rots vals (x := 0) rfl hr
    subst this
    rw [neg_zero]; exact hr
  · exact addCalc_spec h (by simp [Calc.eval, hr])

theorem addMul_spec (h : Inv t ch prev idx scale n g rots vals)
    (hl : l.get t ch g.constants rots prev vals = some a) (hr : r.get t ch g.constants rots prev vals = some b) :
    Step t ch prev idx scale n g rots vals (g.addMul l r) (a * b) := by
  unfold Graph.addMul
  split
  · rename_i e
    refine ⟨rots, vals, h, Ext.refl _ _ _, ?_⟩
    have h0 : a * b = 0 := by
      rcases e with rfl | rfl
      · rw [get_con g h.con rots vals (x := 0) rfl hl, zero_mul]
      · rw [get_con g h.con rots vals (x := 0) rfl hr, mul_zero]
    rw [h0]
    exact getElem?_prefix h.con rfl
  split
  · rename_i e; subst e
    refine ⟨rots, vals, h, Ext.refl _ _ _, ?_⟩
    rw [get_con g h.con rots vals (x := 1) rfl hl, one_mul]; exact hr
  split
  · rename_i e; subst e
    refine ⟨rots, vals, h, Ext.refl _ _ _, ?_⟩
    rw [get_con g h.con rots vals (x := 1) rfl hr, mul_one]; exact hl
  split
  · rename_i e; subst e
    rw [get_con g h.con rots vals (x := 2) rfl hl]
    exact addCalc_spec h (by simp [Calc.eval, hr, two_mul])
  split
  · rename_i e; subst e
    rw [get_con g h.con rots vals (x := 2) rfl hr]
    exact addCalc_spec h (by simp [Calc.eval, hl, mul_two])
  split
  · rename_i e; subst e
    rw [hl] at hr; cases hr
    exact addCalc_spec h (by simp [Calc.eval, hl, sq])
  split
  · exact addCalc_spec h (by simp [Calc.eval, hl, hr])
  · exact addCalc_spec h (by simp [Calc.eval, hl, hr, mul_comm])

theorem addQuery_spec (h : Inv t ch prev idx scale n g rots vals) {q : Query} {v : F} {k : ℕ}
    (hk : getIndex q.rotation idx scale n = some k) (source : ℕ → ℕ → Source)
    (hs : ∀ cs rs vs i, rs[i]? = some k → (source q.column i).get t ch cs rs prev vs = some v) :
    Step t ch prev idx scale n g rots vals (g.addQuery source q) v := by
  obtain ⟨rots', h1, h2, h3, -⟩ := addRotation_spec h hk
  obtain ⟨rots2, vals2, h4, h5, h6⟩ := addCalc_spec (c := .store (source q.column (g.addRotation q.rotation).1)) (v := v) h1
    (hs _ _ _ _ h3)
  exact ⟨rots2, vals2, h4, h2.trans h5, h6⟩

end

theorem addExpr_neg (g : Graph F) {e : Expr F} (h : ∀ v, e ≠ .constant v) :
    g.addExpr (.neg e) = (g.addExpr e).map fun p => p.2.addNeg p.1 := by
  cases e <;> first | rfl | exact absurd rfl (h _)

theorem addExpr_sum (g : Graph F) (a : Expr F) {b : Expr F} (h : ∀ e, b ≠ .neg e) :
    g.addExpr (.sum a b) = (g.addExpr a).bind fun p => (p.2.addExpr b).map fun q => q.2.addSum p.1 q.1 := by
  cases b <;> first | rfl | exact absurd rfl (h _)

theorem Step.of_ext {g g' : Graph F} {rots rots' : List ℕ} {vals vals' : List F} {p : Source × Graph F} {v : F}
    (h : Ext g rots vals g' rots' vals') (hs : Step t ch prev idx scale n g' rots' vals' p v) :
    Step t ch prev idx scale n g rots vals p v := by
  obtain ⟨r, w, h1, h2, h3⟩ := hs
  exact ⟨r, w, h1, h.trans h2, h3⟩

/-- `AddExpression` keeps the invariant and gives a source with the value of the expression. -/
theorem addExpr_spec : (e : Expr F) → ∀ (g : Graph F) (rots : List ℕ) (vals : List F),
    Inv t ch prev idx scale n g rots vals → ∀ v, evalProving t idx scale n e = some v →
    ∀ p, g.addExpr e = some p → Step t ch prev idx scale n g rots vals p v
  | .constant w, g, rots, vals, h, v, hv, p, hp => by
    cases hv; cases hp
    obtain ⟨h1, h2, h3, -⟩ := addConstant_spec h w
    exact ⟨_, _, h1, h2, h3⟩
  | .selector _, _, _, _, _, _, hv, _, _ => by cases hv
  | .fixed q, g, rots, vals, h, v, hv, p, hp => by
    cases hp
    simp only [evalProving, queryCell, Option.bind_eq_some_iff] at hv
    obtain ⟨k, hk, hv⟩ := hv
    exact addQuery_spec h hk .fixed (fun _ _ _ _ e => by simp [Source.get, e, hv])
  | .advice q, g, rots, vals, h, v, hv, p, hp => by
    cases hp
    simp only [evalProving, queryCell, Option.bind_eq_some_iff] at hv
    obtain ⟨k, hk, hv⟩ := hv
    exact addQuery_spec h hk .advice (fun _ _ _ _ e => by simp [Source.get, e, hv])
  | .inst q, g, rots, vals, h, v, hv, p, hp => by
    cases hp
    simp only [evalProving, queryCell, Option.bind_eq_some_iff] at hv
    obtain ⟨k, hk, hv⟩ := hv
    exact addQuery_spec h hk .inst (fun _ _ _ _ e => by simp [Source.get, e, hv])
  | .challenge i, g, rots, vals, h, v, hv, p, hp => by
    cases hp
    exact addCalc_spec h hv
  | .neg (.constant w), g, rots, vals, h, v, hv, p, hp => by
    cases hv; cases hp
    obtain ⟨h1, h2, h3, -⟩ := addConstant_spec h (-w)
    exact ⟨_, _, h1, h2, h3⟩
  | .neg e, g, rots, vals, h, v, hv, p, hp => by
    by_cases hc : ∃ w, e = .constant w
    · obtain ⟨w, rfl⟩ := hc
      cases hv; cases hp
      obtain ⟨h1, h2, h3, -⟩ := addConstant_spec h (-w)
      exact ⟨_, _, h1, h2, h3⟩
    rw [addExpr_neg g (fun w hw => hc ⟨w, hw⟩)] at hp
    simp only [evalProving, Option.map_eq_some_iff] at hv hp
    obtain ⟨a, ha, rfl⟩ := hv
    obtain ⟨q, hq, rfl⟩ := hp
    obtain ⟨r1, v1, h1, h2, h3⟩ := addExpr_spec e g rots vals h a ha q hq
    exact Step.of_ext h2 (addNeg_spec h1 h3)
  | .sum a (.neg b), g, rots, vals, h, v, hv, p, hp => by
    simp only [evalProving, Graph.addExpr, Option.map_eq_some_iff, Option.bind_eq_some_iff] at hv hp
    obtain ⟨x, hx, _, ⟨y, hy, rfl⟩, rfl⟩ := hv
    obtain ⟨q, hq, q', hq', rfl⟩ := hp
    obtain ⟨r1, v1, h1, h2, h3⟩ := addExpr_spec a g rots vals h x hx q hq
    obtain ⟨r2, v2, h4, h5, h6⟩ := addExpr_spec b q.2 r1 v1 h1 y hy q' hq'
    rw [← sub_eq_add_neg]
    exact Step.of_ext (h2.trans h5) (addSub_spec h4 (h5.get h3) h6)
  | .sum a b, g, rots, vals, h, v, hv, p, hp => by
    by_cases hc : ∃ w, b = .neg w
    · obtain ⟨b, rfl⟩ := hc
      simp only [evalProving, Graph.addExpr, Option.map_eq_some_iff, Option.bind_eq_some_iff] at hv hp
      obtain ⟨x, hx, _, ⟨y, hy, rfl⟩, rfl⟩ := hv
      obtain ⟨q, hq, q', hq', rfl⟩ := hp
      obtain ⟨r1, v1, h1, h2, h3⟩ := addExpr_spec a g rots vals h x hx q hq
      obtain ⟨r2, v2, h4, h5, h6⟩ := addExpr_spec b q.2 r1 v1 h1 y hy q' hq'
      rw [← sub_eq_add_neg]
      exact Step.of_ext (h2.trans h5) (addSub_spec h4 (h5.get h3) h6)
    rw [addExpr_sum g a (fun w hw => hc ⟨w, hw⟩)] at hp
    simp only [evalProving, Option.map_eq_some_iff, Option.bind_eq_some_iff] at hv hp
    obtain ⟨x, hx, y, hy, rfl⟩ := hv
    obtain ⟨q, hq, q', hq', rfl⟩ := hp
    obtain ⟨r1, v1, h1, h2, h3⟩ := addExpr_spec a g rots vals h x hx q hq
    obtain ⟨r2, v2, h4, h5, h6⟩ := addExpr_spec b q.2 r1 v1 h1 y hy q' hq'
    exact Step.of_ext (h2.trans h5) (addSum_spec h4 (h5.get h3) h6)
  | .prod a b, g, rots, vals, h, v, hv, p, hp => by
    simp only [evalProving, Graph.addExpr, Option.map_eq_some_iff, Option.bind_eq_some_iff] at hv hp
    obtain ⟨x, hx, y, hy, rfl⟩ := hv
    obtain ⟨q, hq, q', hq', rfl⟩ := hp
    obtain ⟨r1, v1, h1, h2, h3⟩ := addExpr_spec a g rots vals h x hx q hq
    obtain ⟨r2, v2, h4, h5, h6⟩ := addExpr_spec b q.2 r1 v1 h1 y hy q' hq'
    exact Step.of_ext (h2.trans h5) (addMul_spec h4 (h5.get h3) h6)
  | .scaled e s, g, rots, vals, h, v, hv, p, hp => by
    simp only [evalProving, Option.map_eq_some_iff] at hv
    obtain ⟨x, hx, rfl⟩ := hv
    simp only [Graph.addExpr] at hp
    split at hp
    · rename_i h0
      cases hp
      refine ⟨rots, vals, h, Ext.refl _ _ _, ?_⟩
      rw [h0, mul_zero]
      exact getElem?_prefix h.con rfl
    split at hp
    · rename_i h0
      rw [h0, mul_one]
      exact addExpr_spec e g rots vals h x hx p hp
    simp only [Option.map_eq_some_iff] at hp
    obtain ⟨q, hq, rfl⟩ := hp
    obtain ⟨h1, h2, h3, -⟩ := addConstant_spec h s
    obtain ⟨r1, v1, h4, h5, h6⟩ := addExpr_spec e _ rots vals h1 x hx q hq
    exact Step.of_ext (h2.trans h5) (addCalc_spec h4 (by simp [Calc.eval, h6, h5.get h3]))

theorem addExpr_total : (e : Expr F) → NoSelector e → ∀ g : Graph F, ∃ p, g.addExpr e = some p
  | .constant w, _, g => ⟨_, rfl⟩
  | .selector _, h, _ => (h : False).elim
  | .fixed q, _, g => ⟨_, rfl⟩
  | .advice q, _, g => ⟨_, rfl⟩
  | .inst q, _, g => ⟨_, rfl⟩
  | .challenge i, _, g => ⟨_, rfl⟩
  | .neg (.constant w), _, g => ⟨_, rfl⟩
  | .neg e, h, g => by
    by_cases hc : ∃ w, e = .constant w
    · obtain ⟨w, rfl⟩ := hc
      exact ⟨_, rfl⟩
    obtain ⟨p, hp⟩ := addExpr_total e h g
    exact ⟨_, by rw [addExpr_neg g (fun w hw => hc ⟨w, hw⟩), hp]; rfl⟩
  | .sum a (.neg b), h, g => by
    obtain ⟨p, hp⟩ := addExpr_total a h.1 g
    obtain ⟨q, hq⟩ := addExpr_total b h.2 p.2
    exact ⟨_, by simp only [Graph.addExpr, hp, hq, Option.bind_some]; rfl⟩
  | .sum a b, h, g => by
    by_cases hc : ∃ w, b = .neg w
    · obtain ⟨b, rfl⟩ := hc
      obtain ⟨p, hp⟩ := addExpr_total a h.1 g
      obtain ⟨q, hq⟩ := addExpr_total b h.2 p.2
      exact ⟨_, by simp only [Graph.addExpr, hp, hq, Option.bind_some]; rfl⟩
    obtain ⟨p, hp⟩ := addExpr_total a h.1 g
    obtain ⟨q, hq⟩ := addExpr_total b h.2 p.2
    exact ⟨_, by rw [addExpr_sum g a (fun w hw => hc ⟨w, hw⟩)]; simp only [hp, hq, Option.bind_some]; rfl⟩
  | .prod a b, h, g => by
    obtain ⟨p, hp⟩ := addExpr_total a h.1 g
    obtain ⟨q, hq⟩ := addExpr_total b h.2 p.2
    exact ⟨_, by simp only [Graph.addExpr, hp, hq, Option.bind_some]; rfl⟩
  | .scaled e s, h, g => by
    simp only [Graph.addExpr]
    split
    · exact ⟨_, rfl⟩
    split
    · exact addExpr_total e h g
    · obtain ⟨p, hp⟩ := addExpr_total e h (g.addConstant s).2
      exact ⟨_, by rw [hp]; rfl⟩

/-! Which calculations the expressions make. -/

/-- A calculation of an expression or a Horner form of a compression: it does not use `previous`, `β` or `γ`. -/
def Plain : Calc → Prop
  | .horner i _ _ => i ≠ .previous
  | .add l r => l ≠ .beta ∧ l ≠ .gamma ∧ r ≠ .beta ∧ r ≠ .gamma
  | _ => True

/-- The sources that expressions give. -/
def PlainSource (s : Source) : Prop := s ≠ .beta ∧ s ≠ .gamma

/-- All calculations of a graph are plain. -/
def AllPlain (g : Graph F) : Prop := ∀ c ∈ g.calcs, Plain c.1

theorem addCalc_plain {g : Graph F} (h : AllPlain g) {c : Calc} (hc : Plain c) :
    AllPlain (g.addCalc c).2 ∧ PlainSource (g.addCalc c).1 := by
  unfold Graph.addCalc
  split
  · exact ⟨h, by constructor <;> intro e <;> cases e⟩
  · refine ⟨fun x hx => ?_, by constructor <;> intro e <;> cases e⟩
    rcases List.mem_append.1 hx with hx | hx
    · exact h x hx
    · rw [List.mem_singleton] at hx
      rw [hx]; exact hc

theorem addConstant_plain {g : Graph F} (h : AllPlain g) (v : F) :
    AllPlain (g.addConstant v).2 ∧ PlainSource (g.addConstant v).1 := by
  unfold Graph.addConstant
  split <;> exact ⟨h, by constructor <;> intro e <;> cases e⟩

theorem addRotation_plain {g : Graph F} (h : AllPlain g) (r : ℤ) : AllPlain (g.addRotation r).2 := by
  unfold Graph.addRotation
  split <;> exact h

theorem addNeg_plain {g : Graph F} (h : AllPlain g) {s : Source} (hs : PlainSource s) :
    AllPlain (g.addNeg s).2 ∧ PlainSource (g.addNeg s).1 := by
  unfold Graph.addNeg
  split
  · exact ⟨h, hs⟩
  · exact addCalc_plain h trivial

theorem addSum_plain {g : Graph F} (h : AllPlain g) {l r : Source} (hl : PlainSource l) (hr : PlainSource r) :
    AllPlain (g.addSum l r).2 ∧ PlainSource (g.addSum l r).1 := by
  unfold Graph.addSum
  split
  · exact ⟨h, hr⟩
  split
  · exact ⟨h, hl⟩
  split
  · exact addCalc_plain h ⟨hl.1, hl.2, hr.1, hr.2⟩
  · exact addCalc_plain h ⟨hr.1, hr.2, hl.1, hl.2⟩

theorem addSub_plain {g : Graph F} (h : AllPlain g) {l r : Source} (hl : PlainSource l) :
    AllPlain (g.addSub l r).2 ∧ PlainSource (g.addSub l r).1 := by
  unfold Graph.addSub
  split
  · exact addCalc_plain h trivial
  split
  · exact ⟨h, hl⟩
  · exact addCalc_plain h trivial

theorem addMul_plain {g : Graph F} (h : AllPlain g) {l r : Source} (hl : PlainSource l) (hr : PlainSource r) :
    AllPlain (g.addMul l r).2 ∧ PlainSource (g.addMul l r).1 := by
  unfold Graph.addMul
  split
  · exact ⟨h, by constructor <;> intro e <;> cases e⟩
  split
  · exact ⟨h, hr⟩
  split
  · exact ⟨h, hl⟩
  split
  · exact addCalc_plain h trivial
  split
  · exact addCalc_plain h trivial
  split
  · exact addCalc_plain h trivial
  split
  · exact addCalc_plain h trivial
  · exact addCalc_plain h trivial

theorem addExpr_plain : (e : Expr F) → ∀ (g : Graph F), AllPlain g → ∀ p, g.addExpr e = some p →
    AllPlain p.2 ∧ PlainSource p.1
  | .constant w, g, h, p, hp => by cases hp; exact addConstant_plain h w
  | .selector _, _, _, _, hp => by cases hp
  | .fixed q, g, h, p, hp => by cases hp; exact addCalc_plain (addRotation_plain h _) trivial
  | .advice q, g, h, p, hp => by cases hp; exact addCalc_plain (addRotation_plain h _) trivial
  | .inst q, g, h, p, hp => by cases hp; exact addCalc_plain (addRotation_plain h _) trivial
  | .challenge i, g, h, p, hp => by cases hp; exact addCalc_plain h trivial
  | .neg (.constant w), g, h, p, hp => by cases hp; exact addConstant_plain h (-w)
  | .neg e, g, h, p, hp => by
    by_cases hc : ∃ w, e = .constant w
    · obtain ⟨w, rfl⟩ := hc
      cases hp; exact addConstant_plain h (-w)
    rw [addExpr_neg g (fun w hw => hc ⟨w, hw⟩)] at hp
    simp only [Option.map_eq_some_iff] at hp
    obtain ⟨q, hq, rfl⟩ := hp
    obtain ⟨h1, h2⟩ := addExpr_plain e g h q hq
    exact addNeg_plain h1 h2
  | .sum a (.neg b), g, h, p, hp => by
    simp only [Graph.addExpr, Option.map_eq_some_iff, Option.bind_eq_some_iff] at hp
    obtain ⟨q, hq, q', hq', rfl⟩ := hp
    obtain ⟨h1, h2⟩ := addExpr_plain a g h q hq
    exact addSub_plain (addExpr_plain b _ h1 q' hq').1 h2
  | .sum a b, g, h, p, hp => by
    by_cases hc : ∃ w, b = .neg w
    · obtain ⟨b, rfl⟩ := hc
      simp only [Graph.addExpr, Option.map_eq_some_iff, Option.bind_eq_some_iff] at hp
      obtain ⟨q, hq, q', hq', rfl⟩ := hp
      obtain ⟨h1, h2⟩ := addExpr_plain a g h q hq
      exact addSub_plain (addExpr_plain b _ h1 q' hq').1 h2
    rw [addExpr_sum g a (fun w hw => hc ⟨w, hw⟩)] at hp
    simp only [Option.map_eq_some_iff, Option.bind_eq_some_iff] at hp
    obtain ⟨q, hq, q', hq', rfl⟩ := hp
    obtain ⟨h1, h2⟩ := addExpr_plain a g h q hq
    obtain ⟨h3, h4⟩ := addExpr_plain b _ h1 q' hq'
    exact addSum_plain h3 h2 h4
  | .prod a b, g, h, p, hp => by
    simp only [Graph.addExpr, Option.map_eq_some_iff, Option.bind_eq_some_iff] at hp
    obtain ⟨q, hq, q', hq', rfl⟩ := hp
    obtain ⟨h1, h2⟩ := addExpr_plain a g h q hq
    obtain ⟨h3, h4⟩ := addExpr_plain b _ h1 q' hq'
    exact addMul_plain h3 h2 h4
  | .scaled e s, g, h, p, hp => by
    simp only [Graph.addExpr] at hp
    split at hp
    · cases hp; exact ⟨h, by constructor <;> intro e <;> cases e⟩
    split at hp
    · exact addExpr_plain e g h p hp
    simp only [Option.map_eq_some_iff] at hp
    obtain ⟨q, hq, rfl⟩ := hp
    exact addCalc_plain (addExpr_plain e _ (addConstant_plain h s).1 q hq).1 trivial

/-- The sources of a list have the values of a list. -/
def Gets (get : Source → Option F) (ss : List Source) (vs : List F) : Prop := List.Forall₂ (fun s v => get s = some v) ss vs

theorem Gets.mono {get get' : Source → Option F} (h : ∀ s v, get s = some v → get' s = some v) {ss : List Source}
    {vs : List F} (hg : Gets get ss vs) : Gets get' ss vs := List.Forall₂.imp (fun s v e => h s v e) hg

theorem Gets.horner {get : Source → Option F} (f : F) {ss : List Source} {vs : List F} (h : Gets get ss vs) :
    ∀ a, hornerLoop get f ss a = some (vs.foldl (fun acc v => acc * f + v) a) := by
  induction h with
  | nil => intro a; rfl
  | cons h1 _ ih => intro a; simp only [hornerLoop, h1, Option.bind_some, List.foldl_cons]; exact ih _

theorem addExprs_spec : (es : List (Expr F)) → ∀ (g : Graph F) (rots : List ℕ) (vals : List F),
    Inv t ch prev idx scale n g rots vals → ∀ vs, es.mapM (evalProving t idx scale n) = some vs →
    ∀ p, g.addExprs es = some p → ∃ rots' vals', Inv t ch prev idx scale n p.2 rots' vals' ∧
      Ext g rots vals p.2 rots' vals' ∧ Gets (Source.get t ch p.2.constants rots' prev vals') p.1 vs
  | [], g, rots, vals, h, vs, hv, p, hp => by
    cases hp
    simp only [List.mapM_nil] at hv
    cases hv
    exact ⟨rots, vals, h, Ext.refl _ _ _, .nil⟩
  | e :: es, g, rots, vals, h, vs, hv, p, hp => by
    simp only [Graph.addExprs, Option.map_eq_some_iff, Option.bind_eq_some_iff] at hp
    obtain ⟨q, hq, q', hq', rfl⟩ := hp
    rw [List.mapM_cons] at hv
    simp only [Option.bind_eq_bind, Option.bind_eq_some_iff, Option.pure_def, Option.some.injEq] at hv
    obtain ⟨x, hx, xs, hxs, rfl⟩ := hv
    obtain ⟨r1, v1, h1, h2, h3⟩ := addExpr_spec e g rots vals h x hx q hq
    obtain ⟨r2, v2, h4, h5, h6⟩ := addExprs_spec es q.2 r1 v1 h1 xs hxs q' hq'
    exact ⟨r2, v2, h4, h2.trans h5, .cons (h5.get h3) h6⟩

theorem addExprs_total : (es : List (Expr F)) → (∀ e ∈ es, NoSelector e) → ∀ g : Graph F, ∃ p, g.addExprs es = some p
  | [], _, _ => ⟨_, rfl⟩
  | e :: es, h, g => by
    obtain ⟨p, hp⟩ := addExpr_total e (h e (by simp)) g
    obtain ⟨q, hq⟩ := addExprs_total es (fun x hx => h x (by simp [hx])) p.2
    exact ⟨_, by simp only [Graph.addExprs, hp, hq, Option.bind_some]; rfl⟩

theorem addExprs_plain : (es : List (Expr F)) → ∀ (g : Graph F), AllPlain g → ∀ p, g.addExprs es = some p → AllPlain p.2
  | [], g, h, p, hp => by cases hp; exact h
  | e :: es, g, h, p, hp => by
    simp only [Graph.addExprs, Option.map_eq_some_iff, Option.bind_eq_some_iff] at hp
    obtain ⟨q, hq, q', hq', rfl⟩ := hp
    exact addExprs_plain es q.2 (addExpr_plain e g h q hq).1 q' hq'

theorem empty_inv (t : Table F) (ch : Challenges F) (prev : F) (idx scale n : ℤ) :
    Inv t ch prev idx scale n (Graph.empty : Graph F) [] [] :=
  ⟨rfl, List.prefix_rfl, rfl, rfl, by simp [Graph.empty], by simp [Graph.empty]⟩

theorem empty_plain : AllPlain (Graph.empty : Graph F) := by simp [AllPlain, Graph.empty]

/-! Running the calculations. -/

theorem runCalcs_spec {g : Graph F} {rots : List ℕ} {vals : List F} (h : Inv t ch prev idx scale n g rots vals)
    (ims : List F) (hl : ims.length = g.num) : ∀ k, k ≤ g.calcs.length →
    runCalcs (fun ims => Source.get t ch g.constants rots prev ims) (g.calcs.drop (g.calcs.length - k))
      (vals.take (g.calcs.length - k) ++ ims.drop (g.calcs.length - k)) = some vals := by
  have hlen : vals.length = g.calcs.length := by rw [h.len, h.num]
  intro k
  induction k with
  | zero =>
    intro _
    rw [Nat.sub_zero, List.drop_of_length_le le_rfl, List.drop_of_length_le (by rw [hl, h.num]), ← hlen]
    simp [runCalcs]
  | succ k ih =>
    intro hk
    have ih := ih (by omega)
    obtain ⟨i, hi⟩ : ∃ i, i = g.calcs.length - (k + 1) := ⟨_, rfl⟩
    have hi' : g.calcs.length - k = i + 1 := by omega
    rw [← hi]
    rw [hi'] at ih
    have hlt : i < g.calcs.length := by omega
    have hltv : i < vals.length := by omega
    have hlti : i < ims.length := by rw [hl, ← h.num]; omega
    rw [List.drop_eq_getElem_cons hlt]
    have ht := h.tgt i g.calcs[i].1 g.calcs[i].2 (List.getElem?_eq_getElem hlt)
    have hv := h.val i g.calcs[i].1 g.calcs[i].2 _ (List.getElem?_eq_getElem hlt) (List.getElem?_eq_getElem hltv)
    have hv' := eval_mono (fun s w e => get_mono t ch prev List.prefix_rfl List.prefix_rfl
      (List.prefix_append (vals.take i) (ims.drop i)) s w e) _ _ hv
    have hc : g.calcs[i] = (g.calcs[i].1, i) := by
      ext1
      · rfl
      · exact ht
    rw [hc]
    simp only [runCalcs, hv', Option.bind_some]
    have hset : (vals.take i ++ ims.drop i).set i vals[i] = vals.take (i + 1) ++ ims.drop (i + 1) := by
      rw [List.set_append_right _ _ (by simp), List.length_take, Nat.min_eq_left (by omega), Nat.sub_self,
        List.drop_eq_getElem_cons hlti, List.set_cons_zero, List.take_succ_eq_append_getElem hltv,
        List.append_assoc]
      rfl
    rw [hset, if_pos (by simp; omega)]
    exact ih

theorem evaluate_spec {g : Graph F} {rots : List ℕ} {vals : List F} (h : Inv t ch prev idx scale n g rots vals)
    (ims : List F) (hl : ims.length = g.num) {v : F} (hlast : vals.getLast? = some v) :
    g.evaluate t ch n ims idx scale prev = some (v, vals) := by
  have hlen : vals.length = g.calcs.length := by rw [h.len, h.num]
  have h1 := runCalcs_spec h ims hl g.calcs.length le_rfl
  simp only [Nat.sub_self, List.drop_zero, List.take_zero, List.nil_append] at h1
  unfold Graph.evaluate
  rw [h.rot]
  simp only [Option.bind_some, h1]
  have hne : 0 < g.calcs.length := by
    rw [← hlen]
    cases vals with
    | nil => cases hlast
    | cons _ _ => simp
  rw [List.getLast?_eq_getElem?, List.getElem?_eq_getElem (by omega)]
  have ht := h.tgt _ g.calcs[g.calcs.length - 1].1 g.calcs[g.calcs.length - 1].2 (List.getElem?_eq_getElem (by omega))
  simp only [ht]
  rw [List.getLast?_eq_getElem?, hlen] at hlast
  rw [hlast]
  rfl

/-! The rows and the values of expressions. -/

theorem getIndex_eq {r idx scale : ℤ} {n : ℕ} (hn : 0 < n) (h1 : -2 ^ 31 ≤ r * scale ∧ r * scale < 2 ^ 31)
    (h2 : -2 ^ 31 ≤ idx + r * scale ∧ idx + r * scale < 2 ^ 31) :
    getIndex r idx scale n = some ((idx + r * scale) % n).toNat := by
  have hn' : (0 : ℤ) < n := by exact_mod_cast hn
  unfold getIndex
  rw [if_neg (by omega), if_pos]
  · generalize idx + r * scale = z
    simp only [Option.some.injEq]
    congr 1
    have e := Int.tmod_eq_emod (a := z) (b := n)
    have h3 := Int.emod_nonneg z (b := n) (by omega)
    have h4 := Int.emod_lt_of_pos z hn'
    rw [e]
    simp only [Int.natAbs_natCast]
    split_ifs <;> omega
  · simp only [inInt32, Bool.and_eq_true, decide_eq_true_eq]
    exact ⟨h1, h2⟩

theorem queryCell_eq {cols : List (List F)} {q : Query} {idx scale : ℤ} {n : ℕ} (hn : 0 < n)
    (hc : q.column < cols.length) (h1 : -2 ^ 31 ≤ q.rotation * scale ∧ q.rotation * scale < 2 ^ 31)
    (h2 : -2 ^ 31 ≤ idx + q.rotation * scale ∧ idx + q.rotation * scale < 2 ^ 31) :
    queryCell cols q idx scale n = some ((cols.getD q.column []).getD ((idx + q.rotation * scale) % n).toNat 0) := by
  unfold queryCell cell
  rw [getIndex_eq hn h1 h2, Option.bind_some, List.getElem?_eq_getElem hc, Option.map_some, List.getD_eq_getElem _ _ hc]

theorem evalProving_eq (t : Table F) {idx scale : ℤ} {n : ℕ} (hn : 0 < n) : (e : Expr F) → Fits t idx scale e →
    evalProving t idx scale n e = some (rowValue t idx scale n e)
  | .constant v, _ => rfl
  | .selector _, h => (h : False).elim
  | .fixed q, h => queryCell_eq hn h.1 h.2.1 h.2.2
  | .advice q, h => queryCell_eq hn h.1 h.2.1 h.2.2
  | .inst q, h => queryCell_eq hn h.1 h.2.1 h.2.2
  | .challenge i, h => by
    have h : i < t.challenges.length := h
    simp only [evalProving, rowValue, denote]
    rw [List.getElem?_eq_getElem h, List.getD_eq_getElem _ _ h]
  | .neg e, h => by
    simp only [evalProving, evalProving_eq t hn e h]; rfl
  | .sum a b, h => by
    simp only [evalProving, evalProving_eq t hn a h.1, evalProving_eq t hn b h.2]; rfl
  | .prod a b, h => by
    simp only [evalProving, evalProving_eq t hn a h.1, evalProving_eq t hn b h.2]; rfl
  | .scaled e s, h => by
    simp only [evalProving, evalProving_eq t hn e h]; rfl

theorem mapM_evalProving (t : Table F) {idx scale : ℤ} {n : ℕ} (hn : 0 < n) : (es : List (Expr F)) →
    (∀ e ∈ es, Fits t idx scale e) →
    es.mapM (evalProving t idx scale n) = some (es.map (rowValue t idx scale n))
  | [], _ => rfl
  | e :: es, h => by
    rw [List.mapM_cons, evalProving_eq t hn e (h e (by simp)), mapM_evalProving t hn es (fun x hx => h x (by simp [hx]))]
    rfl

theorem Legal.mono {q q' : Kind → Query → Prop} {ch ch' : ℕ → Prop} (hq : ∀ k x, q k x → q' k x)
    (hc : ∀ i, ch i → ch' i) : (e : Expr F) → Legal q ch e → Legal q' ch' e
  | .constant _, _ => trivial
  | .selector _, h => h
  | .fixed _, h => hq _ _ h
  | .advice _, h => hq _ _ h
  | .inst _, h => hq _ _ h
  | .challenge _, h => hc _ h
  | .neg e, h => Legal.mono hq hc e h
  | .sum a b, h => ⟨Legal.mono hq hc a h.1, Legal.mono hq hc b h.2⟩
  | .prod a b, h => ⟨Legal.mono hq hc a h.1, Legal.mono hq hc b h.2⟩
  | .scaled e _, h => Legal.mono hq hc e h

/-! The graphs. -/

theorem addCalc_mem {g : Graph F} {c : Calc} {x : Calc × ℕ} (hx : x ∈ (g.addCalc c).2.calcs) : x ∈ g.calcs ∨ x.1 = c := by
  unfold Graph.addCalc at hx
  split at hx
  · exact .inl hx
  · rcases List.mem_append.1 hx with hx | hx
    · exact .inl hx
    · rw [List.mem_singleton] at hx
      exact .inr (by rw [hx])

theorem find_none {g : Graph F} {c : Calc} (h : ∀ x ∈ g.calcs, x.1 ≠ c) :
    g.calcs.find? (fun info => decide (info.1 = c)) = none := by
  rw [List.find?_eq_none]
  intro x hx
  simpa using h x hx

theorem gates_spec (t : Table F) (ch : Challenges F) (prev : F) (idx scale n : ℤ) (gates : List (List (Expr F)))
    {g : Graph F} (hg : constructGates gates = some g) {vs : List F}
    (hv : gates.flatten.mapM (evalProving t idx scale n) = some vs) (ims : List F) (hl : ims.length = g.num) :
    ∃ ims', ims'.length = g.num ∧
      g.evaluate t ch n ims idx scale prev = some (vs.foldl (fun acc v => acc * ch.y + v) prev, ims') := by
  unfold constructGates at hg
  simp only [Option.map_eq_some_iff] at hg
  obtain ⟨p, hp, rfl⟩ := hg
  obtain ⟨r1, v1, h1, h2, h3⟩ := addExprs_spec _ _ _ _ (empty_inv t ch prev idx scale n) vs hv p hp
  have hpl := addExprs_plain _ _ empty_plain p hp
  have hf : p.2.calcs.find? (fun info => decide (info.1 = .horner .previous p.1 .y)) = none :=
    find_none fun x hx e => by have := hpl x hx; rw [e] at this; exact this rfl
  have he : (Calc.horner .previous p.1 .y).eval (Source.get t ch p.2.constants r1 prev v1) =
      some (vs.foldl (fun acc v => acc * ch.y + v) prev) := by
    simp only [Calc.eval]
    show hornerLoop _ _ _ _ = _
    exact h3.horner _ _
  obtain ⟨h4, -, -, -⟩ := addCalc_fresh h1 he hf
  exact ⟨_, h4.len, evaluate_spec h4 ims hl (by simp)⟩


theorem compress_spec {g : Graph F} {rots : List ℕ} {vals : List F} (h : Inv t ch prev idx scale n g rots vals)
    (hpl : AllPlain g) (es : List (Expr F)) {vs : List F} (hv : es.mapM (evalProving t idx scale n) = some vs)
    {p : Source × Graph F} (hp : g.compress es = some p) :
    Step t ch prev idx scale n g rots vals p (vs.foldl (fun acc v => acc * ch.theta + v) 0) ∧ AllPlain p.2 ∧
      PlainSource p.1 := by
  unfold Graph.compress at hp
  simp only [Option.map_eq_some_iff] at hp
  obtain ⟨q, hq, rfl⟩ := hp
  obtain ⟨r1, v1, h1, h2, h3⟩ := addExprs_spec _ _ _ _ h vs hv q hq
  have hpl' := addExprs_plain _ _ hpl q hq
  have he : (Calc.horner (.constant 0) q.1 .theta).eval (Source.get t ch q.2.constants r1 prev v1) =
      some (vs.foldl (fun acc v => acc * ch.theta + v) 0) := by
    have h0 : Source.get t ch q.2.constants r1 prev v1 (.constant 0) = some 0 := getElem?_prefix h1.con rfl
    simp only [Calc.eval, h0, Option.bind_some]
    show hornerLoop _ _ _ _ = _
    exact h3.horner _ _
  exact ⟨Step.of_ext h2 (addCalc_spec h1 he), addCalc_plain hpl' (c := .horner (.constant 0) q.1 .theta) (by intro e; cases e)⟩

theorem shift_spec (t : Table F) (ch : Challenges F) (prev : F) (idx scale n : ℤ) (es : List (Expr F)) {shift : Source}
    {x : F} (hs : (shift = .beta ∧ x = ch.beta) ∨ (shift = .gamma ∧ x = ch.gamma))
    {g : Graph F} (hg : constructShift shift es = some g) {vs : List F}
    (hv : es.mapM (evalProving t idx scale n) = some vs) (ims : List F) (hl : ims.length = g.num) :
    ∃ ims', ims'.length = g.num ∧
      g.evaluate t ch n ims idx scale prev = some (vs.foldl (fun acc v => acc * ch.theta + v) 0 + x, ims') := by
  unfold constructShift at hg
  simp only [Option.map_eq_some_iff] at hg
  obtain ⟨p, hp, rfl⟩ := hg
  obtain ⟨⟨r1, v1, h1, h2, h3⟩, hpl, hps⟩ := compress_spec (empty_inv t ch prev idx scale n) empty_plain es hv hp
  have hf : p.2.calcs.find? (fun info => decide (info.1 = .add p.1 shift)) = none :=
    find_none fun y hy e => by
      have := hpl y hy
      rw [e] at this
      rcases hs with ⟨rfl, -⟩ | ⟨rfl, -⟩
      · exact this.2.2.1 rfl
      · exact this.2.2.2 rfl
  have hx : Source.get t ch p.2.constants r1 prev v1 shift = some x := by
    rcases hs with ⟨rfl, rfl⟩ | ⟨rfl, rfl⟩ <;> rfl
  have he : (Calc.add p.1 shift).eval (Source.get t ch p.2.constants r1 prev v1) =
      some (vs.foldl (fun acc v => acc * ch.theta + v) 0 + x) := by
    simp only [Calc.eval, h3, hx, Option.bind_some, Option.map_some]
  obtain ⟨h4, -, -, -⟩ := addCalc_fresh h1 he hf
  exact ⟨_, h4.len, evaluate_spec h4 ims hl (by simp)⟩

theorem lookup_spec (t : Table F) (ch : Challenges F) (prev : F) (idx scale n : ℤ) (inputs table : List (Expr F))
    {g : Graph F} (hg : constructLookup inputs table = some g) {vs ws : List F}
    (hv : inputs.mapM (evalProving t idx scale n) = some vs) (hw : table.mapM (evalProving t idx scale n) = some ws)
    (ims : List F) (hl : ims.length = g.num) :
    ∃ ims', ims'.length = g.num ∧ g.evaluate t ch n ims idx scale prev =
      some ((vs.foldl (fun acc v => acc * ch.theta + v) 0 + ch.beta) *
        (ws.foldl (fun acc v => acc * ch.theta + v) 0 + ch.gamma), ims') := by
  unfold constructLookup at hg
  simp only [Option.map_eq_some_iff, Option.bind_eq_some_iff] at hg
  obtain ⟨p, hp, q, hq, rfl⟩ := hg
  obtain ⟨⟨r1, v1, h1, h2, h3⟩, hpl, hps⟩ := compress_spec (empty_inv t ch prev idx scale n) empty_plain inputs hv hp
  obtain ⟨⟨r2, v2, h4, h5, h6⟩, hql, hqs⟩ := compress_spec h1 hpl table hw hq
  have h3' := h5.get h3
  generalize vs.foldl (fun acc v => acc * ch.theta + v) 0 = a at *
  generalize ws.foldl (fun acc v => acc * ch.theta + v) 0 = b at *
  have hf1 : q.2.calcs.find? (fun info => decide (info.1 = .add p.1 .beta)) = none :=
    find_none fun y hy e => by
      have := hql y hy
      rw [e] at this
      exact this.2.2.1 rfl
  have he1 : (Calc.add p.1 .beta).eval (Source.get t ch q.2.constants r2 prev v2) = some (a + ch.beta) := by
    simp only [Calc.eval, h3', Option.bind_some]; rfl
  obtain ⟨h7, h8, h9, h10⟩ := addCalc_fresh h4 he1 hf1
  have hf2 : (q.2.addCalc (.add p.1 .beta)).2.calcs.find? (fun info => decide (info.1 = .add q.1 .gamma)) = none :=
    find_none fun y hy e => by
      rcases addCalc_mem hy with hy | hy
      · have := hql y hy
        rw [e] at this
        exact this.2.2.2 rfl
      · rw [hy] at e
        simp at e
  have he2 : (Calc.add q.1 .gamma).eval (Source.get t ch (q.2.addCalc (.add p.1 .beta)).2.constants r2 prev
      (v2 ++ [a + ch.beta])) = some (b + ch.gamma) := by
    simp only [Calc.eval, h8.get h6, Option.bind_some]; rfl
  obtain ⟨h11, h12, h13, h14⟩ := addCalc_fresh h7 he2 hf2
  generalize hA : q.2.addCalc (.add p.1 .beta) = A at *
  generalize hB : A.2.addCalc (.add q.1 .gamma) = B at *
  have hf3 : B.2.calcs.find? (fun info => decide (info.1 = .mul A.1 B.1)) = none :=
    find_none fun y hy e => by
      obtain ⟨i, hi, e2⟩ := List.mem_iff_getElem.1 hy
      have hgi : B.2.calcs[i]? = some (.mul A.1 B.1, y.2) := by
        rw [List.getElem?_eq_getElem hi, e2, ← e]
      have hlen : (v2 ++ [a + ch.beta] ++ [b + ch.gamma]).length = B.2.calcs.length := by rw [h11.len, h11.num]
      have hv := h11.val i _ _ _ hgi (List.getElem?_eq_getElem (by rw [hlen]; exact hi))
      simp only [Calc.eval, Option.bind_eq_some_iff, Option.map_eq_some_iff] at hv
      obtain ⟨_, _, _, hv, _⟩ := hv
      rw [h13] at hv
      simp only [Source.get] at hv
      have := (List.getElem?_eq_some_iff.1 hv).1
      rw [List.length_take] at this
      have h15 : B.2.calcs.length = A.2.num + 1 := by rw [h14, List.length_append, h7.num]; rfl
      omega
  have he3 : (Calc.mul A.1 B.1).eval (Source.get t ch B.2.constants r2 prev (v2 ++ [a + ch.beta] ++ [b + ch.gamma])) =
      some ((a + ch.beta) * (b + ch.gamma)) := by
    have hA1 : Source.get t ch A.2.constants r2 prev (v2 ++ [a + ch.beta]) A.1 = some (a + ch.beta) := by
      rw [h9]; simp only [Source.get, ← h4.len]; simp
    have hB1 : Source.get t ch B.2.constants r2 prev (v2 ++ [a + ch.beta] ++ [b + ch.gamma]) B.1 = some (b + ch.gamma) := by
      rw [h13]; simp only [Source.get, ← h7.len]; simp
    simp only [Calc.eval, h12.get hA1, hB1, Option.bind_some, Option.map_some]
  obtain ⟨h16, -, -, -⟩ := addCalc_fresh h11 he3 hf3
  exact ⟨_, h16.len, evaluate_spec h16 ims hl (by simp)⟩

theorem constructGates_total {gates : List (List (Expr F))} (h : ∀ e ∈ gates.flatten, NoSelector e) :
    ∃ g, constructGates gates = some g := by
  obtain ⟨p, hp⟩ := addExprs_total gates.flatten h Graph.empty
  exact ⟨_, by unfold constructGates; rw [hp]; rfl⟩

theorem compress_total {es : List (Expr F)} (h : ∀ e ∈ es, NoSelector e) (g : Graph F) : ∃ p, g.compress es = some p := by
  obtain ⟨p, hp⟩ := addExprs_total es h g
  exact ⟨_, by unfold Graph.compress; rw [hp]; rfl⟩

theorem constructShift_total {es : List (Expr F)} (h : ∀ e ∈ es, NoSelector e) (s : Source) :
    ∃ g, constructShift s es = some g := by
  obtain ⟨p, hp⟩ := compress_total h Graph.empty
  exact ⟨_, by unfold constructShift; rw [hp]; rfl⟩

theorem constructLookup_total {is ts : List (Expr F)} (h : ∀ e ∈ is, NoSelector e) (h' : ∀ e ∈ ts, NoSelector e) :
    ∃ g, constructLookup is ts = some g := by
  obtain ⟨p, hp⟩ := compress_total h Graph.empty
  obtain ⟨q, hq⟩ := compress_total h' p.2
  exact ⟨_, by unfold constructLookup; simp only [hp, hq, Option.bind_some]; rfl⟩

/-- A chunk of rows. -/
theorem rows_spec {g : Graph F} (t : Table F) (ch : Challenges F) (n : ℤ) (f : ℤ → F → F) :
    (l : List (ℤ × F)) → (∀ p ∈ l, ∀ ims : List F, ims.length = g.num → ∃ ims', ims'.length = g.num ∧
      g.evaluate t ch n ims p.1 1 p.2 = some (f p.1 p.2, ims')) → ∀ ims : List F, ims.length = g.num →
    g.rows t ch n ims l = some (l.map fun p => f p.1 p.2)
  | [], _, _, _ => rfl
  | (i, v) :: l, h, ims, hl => by
    obtain ⟨ims', h1, h2⟩ := h (i, v) (by simp) ims hl
    simp only [Graph.rows, h2, Option.bind_some, rows_spec t ch n f l (fun p hp => h p (by simp [hp])) ims' h1]
    rfl

theorem foldl_horner (y : F) : ∀ (vs : List F) (a : F), vs.foldl (fun acc v => acc * y + v) a =
    a * y ^ vs.length + ∑ i ∈ Finset.range vs.length, vs.getD i 0 * y ^ (vs.length - 1 - i)
  | [], a => by simp
  | v :: vs, a => by
    rw [List.foldl_cons, foldl_horner y vs, List.length_cons, Finset.sum_range_succ']
    simp only [List.getD_cons_succ, List.getD_cons_zero, Nat.add_sub_cancel, Nat.sub_zero]
    have : ∀ i ∈ Finset.range vs.length, vs.getD i 0 * y ^ (vs.length - (i + 1)) = vs.getD i 0 * y ^ (vs.length - 1 - i) :=
      fun i _ => by rw [Nat.sub_sub, Nat.add_comm 1 i]
    rw [Finset.sum_congr rfl this]
    ring

/-! Polynomials of expressions. -/

theorem denote_map {R S : Type u} [CommRing R] [CommRing S] (φ : R →+* S) (c : F → R) (q : Kind → Query → R) (x : ℕ → R) :
    (e : Expr F) → φ (denote c q x e) = denote (fun v => φ (c v)) (fun k y => φ (q k y)) (fun i => φ (x i)) e
  | .constant _ => rfl
  | .selector _ => map_zero φ
  | .fixed _ => rfl
  | .advice _ => rfl
  | .inst _ => rfl
  | .challenge _ => rfl
  | .neg e => by simp only [denote, map_neg, denote_map φ c q x e]
  | .sum a b => by simp only [denote, map_add, denote_map φ c q x a, denote_map φ c q x b]
  | .prod a b => by simp only [denote, map_mul, denote_map φ c q x a, denote_map φ c q x b]
  | .scaled e s => by simp only [denote, map_mul, denote_map φ c q x e]

theorem denote_congr {R : Type u} [CommRing R] (c : F → R) {q q' : Kind → Query → R} {x x' : ℕ → R}
    {P : Kind → Query → Prop} {Q : ℕ → Prop} (hq : ∀ k y, P k y → q k y = q' k y) (hx : ∀ i, Q i → x i = x' i) :
    (e : Expr F) → Legal P Q e → denote c q x e = denote c q' x' e
  | .constant _, _ => rfl
  | .selector _, _ => rfl
  | .fixed _, h => hq _ _ h
  | .advice _, h => hq _ _ h
  | .inst _, h => hq _ _ h
  | .challenge _, h => hx _ h
  | .neg e, h => by simp only [denote, denote_congr c hq hx e h]
  | .sum a b, h => by simp only [denote, denote_congr c hq hx a h.1, denote_congr c hq hx b h.2]
  | .prod a b, h => by simp only [denote, denote_congr c hq hx a h.1, denote_congr c hq hx b h.2]
  | .scaled e s, h => by simp only [denote, denote_congr c hq hx e h]

open Polynomial in
theorem eval_polyOf (cols : Kind → ℕ → F[X]) (chs : ℕ → F) (ω x : F) (e : Expr F) :
    (polyOf cols chs ω e).eval x = denote id (fun k q => (cols k q.column).eval (ω ^ q.rotation * x)) chs e := by
  unfold polyOf
  rw [← coe_evalRingHom, denote_map]
  congr 1
  · funext v; simp
  · funext k q; simp
  · funext i; simp

open Polynomial in
theorem natDegree_polyOf (cols : Kind → ℕ → F[X]) (chs : ℕ → F) (ω : F) (m : ℕ) (h : ∀ k i, (cols k i).natDegree ≤ m) :
    (e : Expr F) → (polyOf cols chs ω e).natDegree ≤ degree e * m
  | .constant v => by simp [polyOf, denote]
  | .selector _ => by simp [polyOf, denote]
  | .fixed q | .advice q | .inst q => by
    simp only [polyOf, denote, degree, one_mul]
    refine natDegree_comp_le.trans ?_
    exact (Nat.mul_le_mul (h _ _) ((natDegree_C_mul_le _ _).trans natDegree_X_le)).trans (by simp)
  | .challenge _ => by simp [polyOf, denote]
  | .neg e => by
    have := natDegree_polyOf cols chs ω m h e
    simpa [polyOf, denote, degree] using this
  | .sum a b => by
    have h1 := natDegree_polyOf cols chs ω m h a
    have h2 := natDegree_polyOf cols chs ω m h b
    refine (natDegree_add_le _ _).trans (max_le (h1.trans ?_) (h2.trans ?_))
    · exact Nat.mul_le_mul_right _ (le_max_left _ _)
    · exact Nat.mul_le_mul_right _ (le_max_right _ _)
  | .prod a b => by
    have h1 := natDegree_polyOf cols chs ω m h a
    have h2 := natDegree_polyOf cols chs ω m h b
    refine natDegree_mul_le.trans ?_
    simp only [degree, Nat.add_mul]
    exact Nat.add_le_add h1 h2
  | .scaled e s => by
    have h1 := natDegree_polyOf cols chs ω m h e
    exact (natDegree_mul_C_le _ _).trans h1

theorem evalVerifying_eq (d : Evaluations F) : (e : Expr F) →
    Legal (fun k q => ∃ i, q.index = some i ∧ i < (d.of k).length) (fun i => i < d.challenges.length) e →
    evalVerifying d e = some (denote id (fun k q => (d.of k).getD (q.index.getD 0) 0) (fun i => d.challenges.getD i 0) e)
  | .constant _, _ => rfl
  | .selector _, h => (h : False).elim
  | .fixed q, ⟨i, h1, h2⟩ => by
    simp only [evalVerifying, queryEval, denote, h1, Option.bind_some, Option.getD_some, Evaluations.of] at h2 ⊢
    rw [List.getElem?_eq_getElem h2, List.getD_eq_getElem _ _ h2]
  | .advice q, ⟨i, h1, h2⟩ => by
    simp only [evalVerifying, queryEval, denote, h1, Option.bind_some, Option.getD_some, Evaluations.of] at h2 ⊢
    rw [List.getElem?_eq_getElem h2, List.getD_eq_getElem _ _ h2]
  | .inst q, ⟨i, h1, h2⟩ => by
    simp only [evalVerifying, queryEval, denote, h1, Option.bind_some, Option.getD_some, Evaluations.of] at h2 ⊢
    rw [List.getElem?_eq_getElem h2, List.getD_eq_getElem _ _ h2]
  | .challenge i, h => by
    have h : i < d.challenges.length := h
    simp only [evalVerifying, denote]
    rw [List.getElem?_eq_getElem h, List.getD_eq_getElem _ _ h]
  | .neg e, h => by simp only [evalVerifying, evalVerifying_eq d e h]; rfl
  | .sum a b, h => by simp only [evalVerifying, evalVerifying_eq d a h.1, evalVerifying_eq d b h.2]; rfl
  | .prod a b, h => by simp only [evalVerifying, evalVerifying_eq d a h.1, evalVerifying_eq d b h.2]; rfl
  | .scaled e s, h => by simp only [evalVerifying, evalVerifying_eq d e h]; rfl

/-! Every calculation is stored once. -/

/-- The calculations are different and write to the positions `0, 1, …`. -/
structure Once (g : Graph F) : Prop where
  nodup : (g.calcs.map Prod.fst).Nodup
  targets : g.calcs.map Prod.snd = List.range g.num

theorem Once.addCalc {g : Graph F} (h : Once g) (c : Calc) : Once (g.addCalc c).2 := by
  unfold Graph.addCalc
  split
  · exact h
  · rename_i hf
    rw [List.find?_eq_none] at hf
    refine ⟨?_, ?_⟩
    · simp only [List.map_append, List.map_cons, List.map_nil]
      rw [List.nodup_append]
      refine ⟨h.nodup, by simp, ?_⟩
      intro a ha b hb e
      rw [List.mem_singleton] at hb
      obtain ⟨x, hx, rfl⟩ := List.mem_map.1 ha
      have := hf x hx
      simp only [decide_eq_true_eq] at this
      exact this (e.trans hb)
    · simp only [List.map_append, List.map_cons, List.map_nil, h.targets, List.range_succ]

theorem Once.addConstant {g : Graph F} (h : Once g) (v : F) : Once (g.addConstant v).2 := by
  unfold Graph.addConstant
  split
  · exact h
  · exact ⟨h.nodup, h.targets⟩

theorem Once.addRotation {g : Graph F} (h : Once g) (r : ℤ) : Once (g.addRotation r).2 := by
  unfold Graph.addRotation
  split
  · exact h
  · exact ⟨h.nodup, h.targets⟩

theorem Once.addNeg {g : Graph F} (h : Once g) (s : Source) : Once (g.addNeg s).2 := by
  unfold Graph.addNeg; split_ifs <;> first | exact h | exact h.addCalc _

theorem Once.addSum {g : Graph F} (h : Once g) (l r : Source) : Once (g.addSum l r).2 := by
  unfold Graph.addSum; split_ifs <;> first | exact h | exact h.addCalc _

theorem Once.addSub {g : Graph F} (h : Once g) (l r : Source) : Once (g.addSub l r).2 := by
  unfold Graph.addSub; split_ifs <;> first | exact h | exact h.addCalc _

theorem Once.addMul {g : Graph F} (h : Once g) (l r : Source) : Once (g.addMul l r).2 := by
  unfold Graph.addMul; split_ifs <;> first | exact h | exact h.addCalc _

theorem Once.addExpr : (e : Expr F) → ∀ (g : Graph F), Once g → ∀ p, g.addExpr e = some p → Once p.2
  | .constant w, g, h, p, hp => by cases hp; exact h.addConstant w
  | .selector _, _, _, _, hp => by cases hp
  | .fixed q, g, h, p, hp => by cases hp; exact (h.addRotation _).addCalc _
  | .advice q, g, h, p, hp => by cases hp; exact (h.addRotation _).addCalc _
  | .inst q, g, h, p, hp => by cases hp; exact (h.addRotation _).addCalc _
  | .challenge i, g, h, p, hp => by cases hp; exact h.addCalc _
  | .neg (.constant w), g, h, p, hp => by cases hp; exact h.addConstant (-w)
  | .neg e, g, h, p, hp => by
    by_cases hc : ∃ w, e = .constant w
    · obtain ⟨w, rfl⟩ := hc
      cases hp; exact h.addConstant (-w)
    rw [addExpr_neg g (fun w hw => hc ⟨w, hw⟩)] at hp
    simp only [Option.map_eq_some_iff] at hp
    obtain ⟨q, hq, rfl⟩ := hp
    exact (Once.addExpr e g h q hq).addNeg _
  | .sum a (.neg b), g, h, p, hp => by
    simp only [Graph.addExpr, Option.map_eq_some_iff, Option.bind_eq_some_iff] at hp
    obtain ⟨q, hq, q', hq', rfl⟩ := hp
    exact (Once.addExpr b _ (Once.addExpr a g h q hq) q' hq').addSub _ _
  | .sum a b, g, h, p, hp => by
    by_cases hc : ∃ w, b = .neg w
    · obtain ⟨b, rfl⟩ := hc
      simp only [Graph.addExpr, Option.map_eq_some_iff, Option.bind_eq_some_iff] at hp
      obtain ⟨q, hq, q', hq', rfl⟩ := hp
      exact (Once.addExpr b _ (Once.addExpr a g h q hq) q' hq').addSub _ _
    rw [addExpr_sum g a (fun w hw => hc ⟨w, hw⟩)] at hp
    simp only [Option.map_eq_some_iff, Option.bind_eq_some_iff] at hp
    obtain ⟨q, hq, q', hq', rfl⟩ := hp
    exact (Once.addExpr b _ (Once.addExpr a g h q hq) q' hq').addSum _ _
  | .prod a b, g, h, p, hp => by
    simp only [Graph.addExpr, Option.map_eq_some_iff, Option.bind_eq_some_iff] at hp
    obtain ⟨q, hq, q', hq', rfl⟩ := hp
    exact (Once.addExpr b _ (Once.addExpr a g h q hq) q' hq').addMul _ _
  | .scaled e s, g, h, p, hp => by
    simp only [Graph.addExpr] at hp
    split at hp
    · cases hp; exact h
    split at hp
    · exact Once.addExpr e g h p hp
    simp only [Option.map_eq_some_iff] at hp
    obtain ⟨q, hq, rfl⟩ := hp
    exact (Once.addExpr e _ (h.addConstant s) q hq).addCalc _

theorem Once.addExprs : (es : List (Expr F)) → ∀ (g : Graph F), Once g → ∀ p, g.addExprs es = some p → Once p.2
  | [], g, h, p, hp => by cases hp; exact h
  | e :: es, g, h, p, hp => by
    simp only [Graph.addExprs, Option.map_eq_some_iff, Option.bind_eq_some_iff] at hp
    obtain ⟨q, hq, q', hq', rfl⟩ := hp
    exact Once.addExprs es q.2 (Once.addExpr e g h q hq) q' hq'

theorem once_empty : Once (Graph.empty : Graph F) := ⟨by simp [Graph.empty], by simp [Graph.empty]⟩

theorem once_gates {gates : List (List (Expr F))} {g : Graph F} (hg : constructGates gates = some g) : Once g := by
  unfold constructGates at hg
  simp only [Option.map_eq_some_iff] at hg
  obtain ⟨p, hp, rfl⟩ := hg
  exact (Once.addExprs _ _ once_empty p hp).addCalc _

theorem legal_of_evalProving {t : Table F} {idx scale n : ℤ} : (e : Expr F) → ∀ v, evalProving t idx scale n e = some v →
    NoSelector e
  | .constant _, _, _ => trivial
  | .selector _, _, h => by cases h
  | .fixed _, _, _ => trivial
  | .advice _, _, _ => trivial
  | .inst _, _, _ => trivial
  | .challenge _, _, _ => trivial
  | .neg e, v, h => by
    simp only [evalProving, Option.map_eq_some_iff] at h
    obtain ⟨a, ha, -⟩ := h
    exact legal_of_evalProving e a ha
  | .sum a b, v, h => by
    simp only [evalProving, Option.map_eq_some_iff, Option.bind_eq_some_iff] at h
    obtain ⟨x, hx, y, hy, -⟩ := h
    exact ⟨legal_of_evalProving a x hx, legal_of_evalProving b y hy⟩
  | .prod a b, v, h => by
    simp only [evalProving, Option.map_eq_some_iff, Option.bind_eq_some_iff] at h
    obtain ⟨x, hx, y, hy, -⟩ := h
    exact ⟨legal_of_evalProving a x hx, legal_of_evalProving b y hy⟩
  | .scaled e s, v, h => by
    simp only [evalProving, Option.map_eq_some_iff] at h
    obtain ⟨a, ha, -⟩ := h
    exact legal_of_evalProving e a ha

end
end Tachyon.Plonk
