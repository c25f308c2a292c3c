import Verif.Proofs.R1csFinal
/-! The calls of `ConstraintSystem` before `Finalize`. -/
namespace Tachyon.R1cs

variable {F : Type} [Field F] [DecidableEq F]

omit [DecidableEq F] in
theorem built_new (setup construct weight : Bool) :
    Built ({ setup := setup, construct := construct, weight := weight } : CS F) where
  keys := rfl
  terms := by intro k l h; simp [mapFind] at h
  lena := rfl
  lenb := rfl
  lenc := rfl
  cons := by simp
  inst := fun _ => rfl
  wit := fun _ => rfl
  one := rfl
  pos := Nat.one_pos
  cache := by intro z _ i v h; simp [mapFind] at h

omit [DecidableEq F] in
theorem Built.createInstance {cs : CS F} (hb : Built cs) (v : F) : Built (cs.createInstance v).2 where
  keys := hb.keys
  terms := fun k l h t ht => by
    obtain ⟨h1, h2⟩ := hb.terms k l h t ht
    refine ⟨?_, h2⟩
    cases hv : t.var <;> rw [hv] at h1 <;> simp only [CS.Known, CS.createInstance] at * <;> first | trivial | omega
  lena := hb.lena
  lenb := hb.lenb
  lenc := hb.lenc
  cons := hb.cons
  inst := fun h => by
    have h : cs.setup = false := h
    simp [CS.createInstance, h, hb.inst h]
  wit := hb.wit
  one := by
    have := (List.getElem?_eq_some_iff.1 hb.one).1
    simp only [CS.createInstance]
    split
    · exact hb.one
    · rw [List.getElem?_append_left this]; exact hb.one
  pos := Nat.succ_pos _
  cache := fun z hz => hb.cache z ⟨hz.zero, hz.one, fun i u h => hz.inst i u (by
    simp only [CS.createInstance]
    split
    · exact h
    · rw [List.getElem?_append_left (List.getElem?_eq_some_iff.1 h).1]; exact h), hz.wit, hz.lc⟩

omit [DecidableEq F] in
theorem Built.createWitness {cs : CS F} (hb : Built cs) (v : F) : Built (cs.createWitness v).2 where
  keys := hb.keys
  terms := fun k l h t ht => by
    obtain ⟨h1, h2⟩ := hb.terms k l h t ht
    refine ⟨?_, h2⟩
    cases hv : t.var <;> rw [hv] at h1 <;> simp only [CS.Known, CS.createWitness] at * <;> first | trivial | omega
  lena := hb.lena
  lenb := hb.lenb
  lenc := hb.lenc
  cons := hb.cons
  inst := hb.inst
  wit := fun h => by
    have h : cs.setup = false := h
    simp [CS.createWitness, h, hb.wit h]
  one := hb.one
  pos := hb.pos
  cache := fun z hz => hb.cache z ⟨hz.zero, hz.one, hz.inst, fun i u h => hz.wit i u (by
    simp only [CS.createWitness]
    split
    · exact h
    · rw [List.getElem?_append_left (List.getElem?_eq_some_iff.1 h).1]; exact h), hz.lc⟩

omit [DecidableEq F] in
theorem Built.find_none {cs : CS F} (hb : Built cs) {k : ℕ} (hk : cs.numLC ≤ k) : mapFind cs.lcMap k = none := by
  cases h : mapFind cs.lcMap k with
  | none => rfl
  | some l => exact absurd (mapFind_range_lt hb.keys h) (by omega)

omit [DecidableEq F] in
theorem Built.find_createLC {cs : CS F} (hb : Built cs) (l : LC F) {k : ℕ} {m : LC F}
    (h : mapFind cs.lcMap k = some m) : mapFind (cs.createLC l).2.lcMap k = some m := by
  show mapFind (mapSet cs.lcMap cs.numLC l) k = some m
  have := mapFind_range_lt hb.keys h
  rw [mapFind_set, if_neg (by omega), h]

omit [DecidableEq F] in
theorem Built.createLC {cs : CS F} (hb : Built cs) {l : LC F} (hl : ∀ t ∈ l, cs.Known t.var) :
    Built (cs.createLC l).2 where
  keys := by
    show (mapSet cs.lcMap cs.numLC l).map (·.1) = List.range (cs.numLC + 1)
    rw [mapSet_append hb.keys, List.map_append, hb.keys, List.range_succ]; rfl
  terms := fun k m h t ht => by
    have h : mapFind (mapSet cs.lcMap cs.numLC l) k = some m := h
    have hmono : ∀ v, cs.Known v → (cs.createLC l).2.Known v := by
      intro v hv
      cases v <;> simp only [CS.Known, CS.createLC] at *
      all_goals first | trivial | exact hv | exact ⟨by omega, hv.2⟩
    rw [mapFind_set] at h
    split at h
    · next e =>
      obtain rfl := Option.some.inj h
      refine ⟨hmono _ (hl t ht), fun j hj => ?_⟩
      have := hl t ht
      rw [hj] at this
      rw [← e]; exact this.1
    · obtain ⟨h1, h2⟩ := hb.terms k m h t ht
      exact ⟨hmono _ h1, h2⟩
  lena := hb.lena
  lenb := hb.lenb
  lenc := hb.lenc
  cons := fun k h => Nat.lt_succ_of_lt (hb.cons k h)
  inst := hb.inst
  wit := hb.wit
  one := hb.one
  pos := hb.pos
  cache := fun z hz => hb.cache z ⟨hz.zero, hz.one, hz.inst, hz.wit, fun i m h => hz.lc i m (hb.find_createLC l h)⟩

omit [DecidableEq F] in
theorem Built.enforce {cs : CS F} (hb : Built cs) (hc : cs.shouldConstruct = true) {a b c : LC F}
    (ha : ∀ t ∈ a, cs.Known t.var) (hbb : ∀ t ∈ b, cs.Known t.var) (hcc : ∀ t ∈ c, cs.Known t.var) :
    ∃ cs', cs.enforce a b c = some cs' ∧ Built cs' ∧ cs'.numInst = cs.numInst ∧ cs'.numWit = cs.numWit ∧
      cs'.numCons = cs.numCons + 1 ∧ cs'.inst = cs.inst ∧ cs'.wit = cs.wit ∧
      (∀ v, cs.Known v → cs'.Known v) ∧
      ∀ x w z, x.length = cs.numInst → w.length = cs.numWit → Assign cs x w z →
        (Sat cs' x w ↔ Sat cs x w ∧ lin z a * lin z b = lin z c) := by
  have hfind := mapFind_three cs.lcMap cs.numLC a b c
  have hold : ∀ k l, mapFind cs.lcMap k = some l → mapFind (mapSet (mapSet (mapSet cs.lcMap cs.numLC a)
      (cs.numLC + 1) b) (cs.numLC + 1 + 1) c) k = some l := fun k l h => by
    have := mapFind_range_lt hb.keys h
    rw [hfind, if_neg (by omega), if_neg (by omega), if_neg (by omega), h]
  have hA := hfind cs.numLC
  rw [if_pos rfl] at hA
  have hB := hfind (cs.numLC + 1)
  rw [if_neg (by omega), if_pos rfl] at hB
  have hC := hfind (cs.numLC + 1 + 1)
  rw [if_neg (by omega), if_neg (by omega), if_pos rfl] at hC
  have e := enforce_eq hc a b c
  have hk1 := (hb.createLC ha).keys
  have hk2 := ((hb.createLC ha).createLC (l := b) (fun t ht => by
    have h := hbb t ht
    revert h
    cases t.var <;> simp only [CS.Known, CS.createLC] <;> intro h <;> first | trivial | exact h | exact ⟨by omega, h.2⟩)).keys
  have hk3 := (((hb.createLC ha).createLC (l := b) (fun t ht => by
    have h := hbb t ht
    revert h
    cases t.var <;> simp only [CS.Known, CS.createLC] <;> intro h <;> first | trivial | exact h | exact ⟨by omega, h.2⟩)).createLC
    (l := c) (fun t ht => by
    have h := hcc t ht
    revert h
    cases t.var <;> simp only [CS.Known, CS.createLC] <;> intro h <;> first | trivial | exact h | exact ⟨by omega, h.2⟩)).keys
  generalize hcs' : ({ cs with
      lcMap := mapSet (mapSet (mapSet cs.lcMap cs.numLC a) (cs.numLC + 1) b) (cs.numLC + 1 + 1) c
      numLC := cs.numLC + 1 + 1 + 1
      aCons := cs.aCons ++ [cs.numLC]
      bCons := cs.bCons ++ [cs.numLC + 1]
      cCons := cs.cCons ++ [cs.numLC + 1 + 1]
      numCons := cs.numCons + 1 } : CS F) = cs' at e
  have hmono : ∀ v, cs.Known v → cs'.Known v := by
    intro v hv
    subst hcs'
    cases v <;> simp only [CS.Known, List.mem_append, List.mem_singleton] at * 
    all_goals first | trivial | exact hv | (obtain ⟨h1, h2, h3, h4⟩ := hv; refine ⟨by omega, ?_, ?_, ?_⟩ <;> rintro (h | h) <;> first | contradiction | omega)
  have hbuilt : Built cs' := by
    subst hcs'
    refine ⟨hk3, ?_, by simp [hb.lena], by simp [hb.lenb], by simp [hb.lenc], ?_, hb.inst, hb.wit, hb.one, hb.pos, ?_⟩
    · intro k m h t ht
      have h : mapFind (mapSet (mapSet (mapSet cs.lcMap cs.numLC a) (cs.numLC + 1) b) (cs.numLC + 1 + 1) c) k =
        some m := h
      have hlt : ∀ l : LC F, t ∈ l → (∀ t ∈ l, cs.Known t.var) → ∀ j, t.var = .lc j → j < cs.numLC :=
        fun l htl hl j hj => by
          have := hl t htl
          rw [hj] at this
          exact this.1
      rw [hfind] at h
      split_ifs at h with h1 h2 h3
      · obtain rfl := Option.some.inj h
        exact ⟨hmono _ (ha t ht), fun j hj => by have := hlt _ ht ha j hj; omega⟩
      · obtain rfl := Option.some.inj h
        exact ⟨hmono _ (hbb t ht), fun j hj => by have := hlt _ ht hbb j hj; omega⟩
      · obtain rfl := Option.some.inj h
        exact ⟨hmono _ (hcc t ht), fun j hj => by have := hlt _ ht hcc j hj; omega⟩
      · obtain ⟨q1, q2⟩ := hb.terms k m h t ht
        exact ⟨hmono _ q1, q2⟩
    · intro k h
      simp only [List.mem_append, List.mem_singleton] at h ⊢
      have := hb.cons k
      rcases h with (h | h) | (h | h) | (h | h)
      · have := this (Or.inl h); omega
      · omega
      · have := this (Or.inr (Or.inl h)); omega
      · omega
      · have := this (Or.inr (Or.inr h)); omega
      · omega
    · exact fun z hz => hb.cache z ⟨hz.zero, hz.one, hz.inst, hz.wit, fun i m h => hz.lc i m (hold i m h)⟩
  refine ⟨cs', e, hbuilt, by subst hcs'; rfl, by subst hcs'; rfl, by subst hcs'; rfl, by subst hcs'; rfl,
    by subst hcs'; rfl, hmono, fun x w z hx hw hz => ?_⟩
  obtain ⟨z', hz'⟩ := hbuilt.exists x w
  have hmap : cs'.lcMap = mapSet (mapSet (mapSet cs.lcMap cs.numLC a) (cs.numLC + 1) b) (cs.numLC + 1 + 1) c := by
    subst hcs'; rfl
  have hzz : Assign cs x w z' := ⟨hz'.zero, hz'.one, hz'.inst, hz'.wit, fun i m h => hz'.lc i m (by
    rw [hmap]; exact hold i m h)⟩
  have hlin : ∀ l : LC F, (∀ t ∈ l, cs.Known t.var) → lin z l = lin z' l := fun l hl => lin_congr fun t ht => by
    have hk := hl t ht
    cases hv : t.var with
    | lc j => rw [hv] at hk; exact Assign.unique hb hx hw hz hzz j hk.1
    | zero => rw [hz.zero, hz'.zero]
    | one => rw [hz.one, hz'.one]
    | inst i => rw [hv] at hk; exact hz.concrete hzz (by show i < _; rw [hx]; exact hk)
    | wit i => rw [hv] at hk; exact hz.concrete hzz (by show i < _; rw [hw]; exact hk)
  rw [hbuilt.sat_iff (by rw [← hcs']; exact hx) (by rw [← hcs']; exact hw) hz', hb.sat_iff hx hw hzz, hlin a ha,
    hlin b hbb, hlin c hcc, ← hz'.lc _ _ (by rw [hmap]; exact hA), ← hz'.lc _ _ (by rw [hmap]; exact hB),
    ← hz'.lc _ _ (by rw [hmap]; exact hC)]
  have hla := hb.lena
  have hlb := hb.lenb
  have hlc := hb.lenc
  subst hcs'
  constructor
  · intro h
    refine ⟨fun i ia ib ic ea eb ec => ?_, ?_⟩
    · exact h i ia ib ic (getElem?_snoc.2 (Or.inl ea)) (getElem?_snoc.2 (Or.inl eb)) (getElem?_snoc.2 (Or.inl ec))
    · exact h cs.numCons _ _ _ (getElem?_snoc.2 (Or.inr ⟨hla.symm, rfl⟩))
        (getElem?_snoc.2 (Or.inr ⟨hlb.symm, rfl⟩)) (getElem?_snoc.2 (Or.inr ⟨hlc.symm, rfl⟩))
  · rintro ⟨h, hn⟩ i ia ib ic ea eb ec
    simp only at ea eb ec
    rw [getElem?_snoc] at ea eb ec
    rcases ea with ea | ⟨hi, rfl⟩
    · have hi := (List.getElem?_eq_some_iff.1 ea).1
      exact h i ia ib ic ea (eb.resolve_right fun h => by omega) (ec.resolve_right fun h => by omega)
    · have hb' := eb.resolve_left fun h => by
        have := (List.getElem?_eq_some_iff.1 h).1
        omega
      have hc' := ec.resolve_left fun h => by
        have := (List.getElem?_eq_some_iff.1 h).1
        omega
      obtain ⟨-, rfl⟩ := hb'
      obtain ⟨-, rfl⟩ := hc'
      exact hn

/-! ### Evaluation -/

omit [DecidableEq F] in
theorem Built.setCache {cs : CS F} (hb : Built cs) {c : List (ℕ × F)}
    (h : ∀ z, Assign cs cs.inst cs.wit z → CacheOk z c) : Built { cs with cache := c } :=
  ⟨hb.keys, hb.terms, hb.lena, hb.lenb, hb.lenc, hb.cons, hb.inst, hb.wit, hb.one, hb.pos, fun z hz =>
    h z ⟨hz.zero, hz.one, hz.inst, hz.wit, hz.lc⟩⟩

omit [DecidableEq F] in
theorem Built.known_evaluable {cs : CS F} (hb : Built cs) (hs : cs.setup = false) {v : Var}
    (hv : v.Concrete cs.numInst cs.numWit ∨ ∃ j < cs.numLC, v = .lc j) : v.Evaluable cs cs.numLC := by
  rw [Var.Evaluable, hb.inst hs, hb.wit hs]; exact hv

omit [DecidableEq F] in
theorem Built.value {cs : CS F} (hb : Built cs) (hs : cs.setup = false) {v : Var}
    (hv : v.Concrete cs.numInst cs.numWit ∨ ∃ j < cs.numLC, v = .lc j) :
    ∃ r c, cs.value v = some (r, { cs with cache := c }) ∧ Built { cs with cache := c } ∧
      ∀ z, Assign cs cs.inst cs.wit z → z v = r := by
  have key : ∀ z, Assign cs cs.inst cs.wit z → ∃ c', cs.valueGo cs.numLC cs.cache v = some (z v, c') ∧ CacheOk z c' :=
    fun z hz => valueGo_spec hz (fun i hi => by
      obtain ⟨l, hl⟩ := mapFind_range_isSome hb.keys hi
      exact ⟨l, hl, hb.evaluable hs hl⟩) cs.numLC le_rfl cs.cache v (hb.cache z hz) (hb.known_evaluable hs hv)
  obtain ⟨z, hz⟩ := hb.exists cs.inst cs.wit
  obtain ⟨c, e, -⟩ := key z hz
  have all : ∀ z', Assign cs cs.inst cs.wit z' → z' v = z v ∧ CacheOk z' c := fun z' hz' => by
    obtain ⟨c', e', h'⟩ := key z' hz'
    rw [e] at e'
    obtain ⟨h1, rfl⟩ := Prod.mk.inj (Option.some.inj e')
    exact ⟨h1.symm, h'⟩
  exact ⟨z v, c, by rw [CS.value, e, Option.map_some], hb.setCache fun z' hz' => (all z' hz').2,
    fun z' hz' => (all z' hz').1⟩

theorem Built.isSatisfied {cs : CS F} (hb : Built cs) (hs : cs.setup = false) :
    ∃ r c, cs.isSatisfied = some (r, { cs with cache := c }) ∧ Built { cs with cache := c } ∧
      (r = true ↔ Sat cs cs.inst cs.wit) := by
  have key : ∀ z, Assign cs cs.inst cs.wit z → ∃ c' r, cs.isSatisfied = some (r, { cs with cache := c' }) ∧
      CacheOk z c' ∧ (r = true ↔ Products cs z) := fun z hz =>
    isSatisfied_spec hs (fun c hc k hk => hb.evalIndex hs hz c hc k (hb.cons k hk)) (hb.cache z hz) hb.lena hb.lenb
      hb.lenc
  obtain ⟨z, hz⟩ := hb.exists cs.inst cs.wit
  obtain ⟨c, r, e, -, hr⟩ := key z hz
  refine ⟨r, c, e, hb.setCache fun z' hz' => ?_, by rw [hr, hb.sat_iff (hb.inst hs) (hb.wit hs) hz]⟩
  obtain ⟨c', r', e', h', -⟩ := key z' hz'
  rw [e] at e'
  have := congrArg CS.cache (Prod.mk.inj (Option.some.inj e')).2
  simp only at this
  rw [this]; exact h'

theorem Finalized.isSatisfied {cs : CS F} (hf : Finalized cs) (hs : cs.setup = false) :
    ∃ r, cs.isSatisfied = some (r, cs) ∧ (r = true ↔ Sat cs cs.inst cs.wit) := by
  obtain ⟨z, hz⟩ := hf.exists cs.inst cs.wit
  obtain ⟨c, r, e, rfl, hr⟩ := isSatisfied_spec (P := fun c => c = cs.cache) (z := z) hs (fun c hc k hk => by
    obtain ⟨l, hl⟩ := hf.cons k hk
    refine ⟨c, ?_, hc⟩
    rw [CS.evalIndex]
    show (mapFind cs.lcMap k).bind _ = _
    rw [hl, Option.bind_some, evalLC_concrete (cs := { cs with cache := c }) hz.cache
      (by intro t ht; have := (hf.lcs k l hl).2.2 t ht; rw [← hf.inst hs, ← hf.wit hs] at this; exact this),
      hz.lc k l hl]) rfl hf.lena hf.lenb hf.lenc
  refine ⟨r, e, ?_⟩
  rw [hr, hf.products_iff (hf.inst hs) (hf.wit hs) hz, hf.sat_iff (hf.inst hs) (hf.wit hs)]

end Tachyon.R1cs
