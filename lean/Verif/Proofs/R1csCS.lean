import Verif.Proofs.R1csTransform
import Mathlib.Tactic.Linarith
/-! Evaluation, satisfaction and finalisation of rank-one constraint systems. -/
namespace Tachyon.R1cs

variable {F : Type} [Field F] [DecidableEq F]

/-! ### Assignments -/

/-- The values of the variables, unfolding linear combinations `fuel` deep. -/
def zGo (cs : CS F) (x w : List F) : ℕ → Var → F
  | _, .zero => 0
  | _, .one => 1
  | _, .inst i => x.getD i 0
  | _, .wit i => w.getD i 0
  | 0, .lc _ => 0
  | fuel + 1, .lc i => lin (zGo cs x w fuel) ((mapFind cs.lcMap i).getD [])

omit [DecidableEq F] in
theorem zGo_fuel {cs : CS F} (h : ∀ k l, mapFind cs.lcMap k = some l → ∀ t ∈ l, ∀ j, t.var = .lc j → j < k)
    (x w : List F) : ∀ i f g, i < f → i < g → zGo cs x w f (.lc i) = zGo cs x w g (.lc i) := by
  intro i
  induction i using Nat.strong_induction_on with
  | _ i ih =>
    intro f g hf hg
    obtain ⟨f, rfl⟩ := Nat.exists_eq_add_of_lt hf
    obtain ⟨g, rfl⟩ := Nat.exists_eq_add_of_lt hg
    rw [zGo, zGo]
    cases hl : mapFind cs.lcMap i with
    | none => rfl
    | some l =>
      refine lin_congr fun t ht => ?_
      rw [Option.getD_some] at ht
      cases hv : t.var with
      | lc j =>
        have := h i l hl t ht j hv
        exact ih j this _ _ (by omega) (by omega)
      | _ => simp [zGo]

omit [DecidableEq F] in
/-- Any values of the variables extend to the linear combinations. -/
theorem exists_assign {cs : CS F} {n : ℕ} (hn : ∀ k l, mapFind cs.lcMap k = some l → k < n)
    (h : ∀ k l, mapFind cs.lcMap k = some l → ∀ t ∈ l, ∀ j, t.var = .lc j → j < k) (x w : List F) :
    ∃ z, Assign cs x w z := by
  refine ⟨zGo cs x w (n + 1), by simp [zGo], by simp [zGo], fun i v e => by simp [zGo, e],
    fun i v e => by simp [zGo, e], fun i l e => ?_⟩
  rw [zGo, e, Option.getD_some]
  refine lin_congr fun t ht => ?_
  cases hv : t.var with
  | lc j =>
    have := h i l e t ht j hv
    have := hn i l e
    exact zGo_fuel h x w j _ _ (by omega) (by omega)
  | _ => simp [zGo]

omit [DecidableEq F] in
theorem Assign.concrete {cs cs' : CS F} {x w : List F} {z z' : Var → F} (h : Assign cs x w z) (h' : Assign cs' x w z')
    {v : Var} (hv : v.Concrete x.length w.length) : z v = z' v := by
  cases v with
  | zero => rw [h.zero, h'.zero]
  | one => rw [h.one, h'.one]
  | inst i =>
    have hi : x[i]? = some (x[i]'hv) := List.getElem?_eq_getElem hv
    rw [h.inst _ _ hi, h'.inst _ _ hi]
  | wit i =>
    have hi : w[i]? = some (w[i]'hv) := List.getElem?_eq_getElem hv
    rw [h.wit _ _ hi, h'.wit _ _ hi]
  | lc i => exact hv.elim

omit [DecidableEq F] in
/-- The values of the linear combinations are determined. -/
theorem Assign.unique {cs : CS F} (hb : Built cs) {x w : List F} (hx : x.length = cs.numInst)
    (hw : w.length = cs.numWit) {z z' : Var → F} (h : Assign cs x w z) (h' : Assign cs x w z') :
    ∀ i < cs.numLC, z (.lc i) = z' (.lc i) := by
  intro i
  induction i using Nat.strong_induction_on with
  | _ i ih =>
    intro hi
    obtain ⟨l, hl⟩ := mapFind_range_isSome hb.keys hi
    rw [h.lc i l hl, h'.lc i l hl]
    refine lin_congr fun t ht => ?_
    obtain ⟨hk, hj⟩ := hb.terms i l hl t ht
    cases hv : t.var with
    | lc j =>
      have := hj j hv
      exact ih j this (by omega)
    | _ =>
      rw [hv] at hk
      refine h.concrete h' ?_
      simpa [Var.Concrete, hx, hw, CS.Known] using hk

omit [DecidableEq F] in
theorem Built.exists {cs : CS F} (hb : Built cs) (x w : List F) : ∃ z, Assign cs x w z :=
  exists_assign (fun _ _ => mapFind_range_lt hb.keys) (fun k l hl t ht => (hb.terms k l hl t ht).2) x w

/-! ### Evaluation -/

/-- The cache holds right values. -/
def CacheOk (z : Var → F) (c : List (ℕ × F)) : Prop := ∀ i v, mapFind c i = some v → z (.lc i) = v

omit [DecidableEq F] in
theorem evalFold_spec {z : Var → F} {f : List (ℕ × F) → Var → Option (F × List (ℕ × F))} (l : LC F)
    (hf : ∀ t ∈ l, ∀ c, CacheOk z c → ∃ c', f c t.var = some (z t.var, c') ∧ CacheOk z c') :
    ∀ (a : F) c, CacheOk z c → ∃ c', l.foldlM (evalStep f) (a, c) = some (a + lin z l, c') ∧ CacheOk z c' := by
  induction l with
  | nil => intro a c hc; exact ⟨c, by simp, hc⟩
  | cons t l ih =>
    intro a c hc
    obtain ⟨c1, e1, h1⟩ := hf t (by simp) c hc
    obtain ⟨c2, e2, h2⟩ := ih (fun u hu => hf u (by simp [hu])) (a + t.coeff * z t.var) c1 h1
    refine ⟨c2, ?_, h2⟩
    rw [List.foldlM_cons, evalStep, e1, Option.map_some, Option.bind_eq_bind, Option.bind_some, e2, lin_cons, add_assoc]

/-- A variable that can be evaluated with depth `n`. -/
def Var.Evaluable (cs : CS F) (n : ℕ) (v : Var) : Prop :=
  v.Concrete cs.inst.length cs.wit.length ∨ ∃ j < n, v = .lc j

omit [DecidableEq F] in
theorem valueGo_spec {cs : CS F} {z : Var → F} (hz : Assign cs cs.inst cs.wit z) {n : ℕ}
    (hl : ∀ i < n, ∃ l, mapFind cs.lcMap i = some l ∧ ∀ t ∈ l, t.var.Evaluable cs i) :
    ∀ f ≤ n, ∀ c v, CacheOk z c → v.Evaluable cs f →
      ∃ c', cs.valueGo f c v = some (z v, c') ∧ CacheOk z c' := by
  have conc : ∀ f c (v : Var), CacheOk z c → v.Concrete cs.inst.length cs.wit.length →
      ∃ c', cs.valueGo f c v = some (z v, c') ∧ CacheOk z c' := by
    intro f c v hc hv
    refine ⟨c, ?_, hc⟩
    cases v with
    | zero => cases f <;> simp [CS.valueGo, hz.zero]
    | one => cases f <;> simp [CS.valueGo, hz.one]
    | inst i =>
      have hi : cs.inst[i]? = some (cs.inst[i]'hv) := List.getElem?_eq_getElem hv
      cases f <;> simp only [CS.valueGo, hi, Option.map_some, hz.inst _ _ hi]
    | wit i =>
      have hi : cs.wit[i]? = some (cs.wit[i]'hv) := List.getElem?_eq_getElem hv
      cases f <;> simp only [CS.valueGo, hi, Option.map_some, hz.wit _ _ hi]
    | lc i => exact hv.elim
  intro f
  induction f with
  | zero =>
    intro _ c v hc hv
    rcases hv with hv | ⟨j, hj, -⟩
    · exact conc _ _ _ hc hv
    · omega
  | succ f ih =>
    intro hf c v hc hv
    rcases hv with hv | ⟨j, hj, rfl⟩
    · exact conc _ _ _ hc hv
    · rw [CS.valueGo]
      split
      · next v e => exact ⟨c, by rw [hc j v e], hc⟩
      · obtain ⟨l, el, ht⟩ := hl j (by omega)
        obtain ⟨c', e', h'⟩ := evalFold_spec (f := cs.valueGo f) l (fun t htt c hc => ih (by omega) c t.var hc (by
          rcases ht t htt with h | ⟨i, hi, h⟩
          · exact Or.inl h
          · exact Or.inr ⟨i, by omega, h⟩)) 0 c hc
        rw [zero_add, ← hz.lc j l el] at e'
        refine ⟨mapSet c' j (z (.lc j)), by rw [el, Option.bind_some, e', Option.map_some], fun i v e => ?_⟩
        rw [mapFind_set] at e
        split at e
        · next hij => rw [← hij]; simpa using e
        · exact h' i v e

omit [DecidableEq F] in
theorem Built.evaluable {cs : CS F} (hb : Built cs) (hs : cs.setup = false) {k : ℕ} {l : LC F}
    (hl : mapFind cs.lcMap k = some l) : ∀ t ∈ l, t.var.Evaluable cs k := by
  intro t ht
  obtain ⟨h1, h2⟩ := hb.terms k l hl t ht
  cases hv : t.var with
  | lc j => exact Or.inr ⟨j, h2 j hv, rfl⟩
  | _ =>
    left
    rw [hv] at h1
    simpa [Var.Concrete, CS.Known, hb.inst hs, hb.wit hs] using h1

omit [DecidableEq F] in
theorem evalLC_spec {cs : CS F} {z : Var → F} (hz : Assign cs cs.inst cs.wit z)
    (hl : ∀ i < cs.numLC, ∃ l, mapFind cs.lcMap i = some l ∧ ∀ t ∈ l, t.var.Evaluable cs i)
    (hc : CacheOk z cs.cache) {l : LC F} (h : ∀ t ∈ l, t.var.Evaluable cs cs.numLC) :
    ∃ c', cs.evalLC l = some (lin z l, { cs with cache := c' }) ∧ CacheOk z c' := by
  obtain ⟨c', e, h'⟩ := evalFold_spec (f := cs.valueGo cs.numLC) l
    (fun t ht c hc => valueGo_spec hz hl cs.numLC le_rfl c t.var hc (h t ht)) 0 cs.cache hc
  exact ⟨c', by rw [CS.evalLC, e, Option.map_some, zero_add], h'⟩

omit [DecidableEq F] in
/-- Evaluating a linear combination of concrete variables leaves the cache alone. -/
theorem evalLC_concrete {cs : CS F} {z : Var → F} (hz : Assign cs cs.inst cs.wit z) {l : LC F}
    (h : ∀ t ∈ l, t.var.Concrete cs.inst.length cs.wit.length) : cs.evalLC l = some (lin z l, cs) := by
  have key : ∀ (l : LC F), (∀ t ∈ l, t.var.Concrete cs.inst.length cs.wit.length) → ∀ a : F,
      l.foldlM (evalStep (cs.valueGo cs.numLC)) (a, cs.cache) = some (a + lin z l, cs.cache) := by
    intro l
    induction l with
    | nil => intro _ a; simp
    | cons t l ih =>
      intro h a
      have ht := h t (by simp)
      have hv : cs.valueGo cs.numLC cs.cache t.var = some (z t.var, cs.cache) := by
        cases hv : t.var with
        | zero => cases cs.numLC <;> simp [CS.valueGo, hz.zero]
        | one => cases cs.numLC <;> simp [CS.valueGo, hz.one]
        | inst i =>
          rw [hv] at ht
          have hi : cs.inst[i]? = some (cs.inst[i]'ht) := List.getElem?_eq_getElem ht
          cases cs.numLC <;> simp only [CS.valueGo, hi, Option.map_some, hz.inst _ _ hi]
        | wit i =>
          rw [hv] at ht
          have hi : cs.wit[i]? = some (cs.wit[i]'ht) := List.getElem?_eq_getElem ht
          cases cs.numLC <;> simp only [CS.valueGo, hi, Option.map_some, hz.wit _ _ hi]
        | lc i => rw [hv] at ht; exact ht.elim
      rw [List.foldlM_cons, evalStep, hv, Option.map_some, Option.bind_eq_bind, Option.bind_some,
        ih (fun u hu => h u (by simp [hu])), lin_cons, add_assoc]
  rw [CS.evalLC, key l h, Option.map_some, zero_add]

/-- The loop of `IsSatisfied`, for a system whose constraints can be evaluated; `P` is an invariant of the
cache. -/
theorem satGo_spec {cs : CS F} {z : Var → F} {P : List (ℕ × F) → Prop}
    (heval : ∀ c, P c → ∀ k, (k ∈ cs.aCons ∨ k ∈ cs.bCons ∨ k ∈ cs.cCons) →
      ∃ c', CS.evalIndex { cs with cache := c } k = some (z (.lc k), { cs with cache := c' }) ∧ P c')
    (n : ℕ) : ∀ i c, P c → i + n = cs.aCons.length → i + n = cs.bCons.length → i + n = cs.cCons.length →
    ∃ c' r, satGo n i { cs with cache := c } = some (r, { cs with cache := c' }) ∧ P c' ∧
      (r = true ↔ ∀ j a b c : ℕ, i ≤ j → cs.aCons[j]? = some a → cs.bCons[j]? = some b → cs.cCons[j]? = some c →
        z (.lc a) * z (.lc b) = z (.lc c)) := by
  induction n with
  | zero =>
    intro i c hc ha _ _
    refine ⟨c, true, rfl, hc, by
      simp only [true_iff]
      intro j a _ _ hij e
      have := (List.getElem?_eq_some_iff.1 e).1
      omega⟩
  | succ n ih =>
    intro i c hc ha hb hcc
    have ea : cs.aCons[i]? = some (cs.aCons[i]'(by omega)) := List.getElem?_eq_getElem (by omega)
    have eb : cs.bCons[i]? = some (cs.bCons[i]'(by omega)) := List.getElem?_eq_getElem (by omega)
    have ec : cs.cCons[i]? = some (cs.cCons[i]'(by omega)) := List.getElem?_eq_getElem (by omega)
    obtain ⟨c1, e1, h1⟩ := heval c hc (cs.aCons[i]'(by omega)) (Or.inl (List.getElem_mem _))
    obtain ⟨c2, e2, h2⟩ := heval c1 h1 (cs.bCons[i]'(by omega)) (Or.inr (Or.inl (List.getElem_mem _)))
    obtain ⟨c3, e3, h3⟩ := heval c2 h2 (cs.cCons[i]'(by omega)) (Or.inr (Or.inr (List.getElem_mem _)))
    rw [satGo]
    simp only [ea, eb, ec, e1, e2, e3, Option.bind_some]
    split
    · next hne =>
      refine ⟨c3, false, rfl, h3, ?_⟩
      simp only [Bool.false_eq_true, false_iff]
      intro hall
      exact hne (hall i _ _ _ le_rfl ea eb ec)
    · next heq =>
      obtain ⟨c', r, e, h', hr⟩ := ih (i + 1) c3 h3 (by omega) (by omega) (by omega)
      refine ⟨c', r, e, h', hr.trans ⟨fun hall j a b c hij ja jb jc => ?_, fun hall j a b c hij => hall j a b c (by omega)⟩⟩
      rcases Nat.lt_or_ge i j with hlt | hge
      · exact hall j a b c hlt ja jb jc
      · obtain rfl : i = j := by omega
        rw [ea] at ja; rw [eb] at jb; rw [ec] at jc
        obtain rfl := Option.some.inj ja
        obtain rfl := Option.some.inj jb
        obtain rfl := Option.some.inj jc
        exact not_not.1 heq

theorem isSatisfied_spec {cs : CS F} (hs : cs.setup = false) {z : Var → F} {P : List (ℕ × F) → Prop}
    (heval : ∀ c, P c → ∀ k, (k ∈ cs.aCons ∨ k ∈ cs.bCons ∨ k ∈ cs.cCons) →
      ∃ c', CS.evalIndex { cs with cache := c } k = some (z (.lc k), { cs with cache := c' }) ∧ P c')
    (hc : P cs.cache) (ha : cs.aCons.length = cs.numCons) (hb : cs.bCons.length = cs.numCons)
    (hcc : cs.cCons.length = cs.numCons) :
    ∃ c' r, cs.isSatisfied = some (r, { cs with cache := c' }) ∧ P c' ∧ (r = true ↔ Products cs z) := by
  obtain ⟨c', r, e, h', hr⟩ := satGo_spec heval cs.numCons 0 cs.cache hc (by omega) (by omega) (by omega)
  refine ⟨c', r, ?_, h', hr.trans ⟨fun h i a b c => h i a b c (Nat.zero_le _), fun h i a b c _ => h i a b c⟩⟩
  rw [CS.isSatisfied, if_neg (by simp [hs])]
  exact e

omit [DecidableEq F] in
theorem Assign.cache {cs : CS F} {x w : List F} {z : Var → F} {c : List (ℕ × F)} (h : Assign cs x w z) :
    Assign { cs with cache := c } x w z := ⟨h.zero, h.one, h.inst, h.wit, h.lc⟩

omit [DecidableEq F] in
theorem Built.evalIndex {cs : CS F} (hb : Built cs) (hs : cs.setup = false) {z : Var → F}
    (hz : Assign cs cs.inst cs.wit z) (c : List (ℕ × F)) (hc : CacheOk z c) (k : ℕ) (hk : k < cs.numLC) :
    ∃ c', CS.evalIndex { cs with cache := c } k = some (z (.lc k), { cs with cache := c' }) ∧ CacheOk z c' := by
  obtain ⟨l, hl⟩ := mapFind_range_isSome hb.keys hk
  obtain ⟨c', e, h'⟩ := evalLC_spec (cs := { cs with cache := c }) hz.cache
    (fun i hi => by
      obtain ⟨l, hl⟩ := mapFind_range_isSome hb.keys hi
      exact ⟨l, hl, hb.evaluable hs hl⟩) hc (l := l) (fun t ht => by
        rcases hb.evaluable hs hl t ht with h | ⟨j, hj, h⟩
        · exact Or.inl h
        · exact Or.inr ⟨j, lt_trans hj hk, h⟩)
  refine ⟨c', ?_, h'⟩
  rw [CS.evalIndex]
  show (mapFind cs.lcMap k).bind _ = _
  rw [hl, Option.bind_some, e, hz.lc k l hl]

end Tachyon.R1cs
