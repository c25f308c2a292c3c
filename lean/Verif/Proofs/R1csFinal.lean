import Verif.Proofs.R1csCS
import Mathlib.Data.List.Induction
/-! `InlineAllLCs`, `OutlineLCs` and `ToMatrices` keep what a system says. -/
namespace Tachyon.R1cs

variable {F : Type} [Field F] [DecidableEq F]

/-! ### Finalised systems -/

/-- `Finalized`, and without `Z` also free of the variable `Zero`. -/
structure Fin' (Z : Prop) (cs : CS F) : Prop where
  fin : Finalized cs
  zero : ¬ Z → cs.ZeroFree

/-- All constraints hold for values of the concrete variables. -/
def Rows (cs : CS F) (z : Var → F) : Prop :=
  ∀ (i a b c : ℕ) la lb lc, cs.aCons[i]? = some a → cs.bCons[i]? = some b → cs.cCons[i]? = some c →
    mapFind cs.lcMap a = some la → mapFind cs.lcMap b = some lb → mapFind cs.lcMap c = some lc →
    lin z la * lin z lb = lin z lc

omit [DecidableEq F] in
theorem asg_eq {cs : CS F} {x w : List F} {z : Var → F} (h : Assign cs x w z) {v : Var}
    (hv : v.Concrete x.length w.length) : asg x w v = z v := by
  cases v with
  | zero => rw [h.zero]; rfl
  | one => rw [h.one]; rfl
  | inst i =>
    have hi : x[i]? = some (x[i]'hv) := List.getElem?_eq_getElem hv
    rw [h.inst _ _ hi, asg, List.getD_eq_getElem?_getD, hi]; rfl
  | wit i =>
    have hi : w[i]? = some (w[i]'hv) := List.getElem?_eq_getElem hv
    rw [h.wit _ _ hi, asg, List.getD_eq_getElem?_getD, hi]; rfl
  | lc i => exact hv.elim

omit [DecidableEq F] in
theorem lin_asg {cs : CS F} {x w : List F} {z : Var → F} (h : Assign cs x w z) {l : LC F}
    (hl : ∀ t ∈ l, t.var.Concrete x.length w.length) : lin (asg x w) l = lin z l :=
  lin_congr fun t ht => asg_eq h (hl t ht)

omit [DecidableEq F] in
theorem Finalized.exists {cs : CS F} (hf : Finalized cs) (x w : List F) : ∃ z, Assign cs x w z :=
  exists_assign (fun k l h => (hf.lcs k l h).1) (fun k l h t ht j e => by
    have := (hf.lcs k l h).2.2 t ht
    rw [e] at this
    exact this.elim) x w

omit [DecidableEq F] in
theorem Finalized.products_iff {cs : CS F} (hf : Finalized cs) {x w : List F} (hx : x.length = cs.numInst)
    (hw : w.length = cs.numWit) {z : Var → F} (hz : Assign cs x w z) : Products cs z ↔ Rows cs (asg x w) := by
  have key : ∀ k l, mapFind cs.lcMap k = some l → z (.lc k) = lin (asg x w) l := fun k l h => by
    rw [hz.lc k l h, lin_asg hz]
    rw [hx, hw]; exact (hf.lcs k l h).2.2
  constructor
  · intro h i a b c la lb lc ea eb ec fa fb fc
    rw [← key a la fa, ← key b lb fb, ← key c lc fc]
    exact h i a b c ea eb ec
  · intro h i a b c ea eb ec
    obtain ⟨la, fa⟩ := hf.cons a (Or.inl (List.mem_of_getElem? ea))
    obtain ⟨lb, fb⟩ := hf.cons b (Or.inr (Or.inl (List.mem_of_getElem? eb)))
    obtain ⟨lc, fc⟩ := hf.cons c (Or.inr (Or.inr (List.mem_of_getElem? ec)))
    rw [key a la fa, key b lb fb, key c lc fc]
    exact h i a b c la lb lc ea eb ec fa fb fc

omit [DecidableEq F] in
theorem Finalized.sat_iff {cs : CS F} (hf : Finalized cs) {x w : List F} (hx : x.length = cs.numInst)
    (hw : w.length = cs.numWit) : Sat cs x w ↔ Rows cs (asg x w) := by
  constructor
  · rintro ⟨z, hz, hp⟩; exact (hf.products_iff hx hw hz).1 hp
  · intro h
    obtain ⟨z, hz⟩ := hf.exists x w
    exact ⟨z, hz, (hf.products_iff hx hw hz).2 h⟩

omit [DecidableEq F] in
theorem Built.sat_iff {cs : CS F} (hb : Built cs) {x w : List F} (hx : x.length = cs.numInst)
    (hw : w.length = cs.numWit) {z : Var → F} (hz : Assign cs x w z) : Sat cs x w ↔ Products cs z := by
  constructor
  · rintro ⟨z', hz', hp⟩ i a b c ea eb ec
    have h := Assign.unique hb hx hw hz hz'
    rw [h a (hb.cons a (Or.inl (List.mem_of_getElem? ea))),
      h b (hb.cons b (Or.inr (Or.inl (List.mem_of_getElem? eb)))),
      h c (hb.cons c (Or.inr (Or.inr (List.mem_of_getElem? ec))))]
    exact hp i a b c ea eb ec
  · intro h; exact ⟨z, hz, h⟩

/-! ### Adding a constraint to a finalised system -/

omit [DecidableEq F] in
theorem enforce_eq {cs : CS F} (hc : cs.shouldConstruct = true) (a b c : LC F) :
    cs.enforce a b c = some { cs with
      lcMap := mapSet (mapSet (mapSet cs.lcMap cs.numLC a) (cs.numLC + 1) b) (cs.numLC + 1 + 1) c
      numLC := cs.numLC + 1 + 1 + 1
      aCons := cs.aCons ++ [cs.numLC]
      bCons := cs.bCons ++ [cs.numLC + 1]
      cCons := cs.cCons ++ [cs.numLC + 1 + 1]
      numCons := cs.numCons + 1 } := by
  rw [CS.enforce, if_pos hc]
  rfl

omit [Field F] [DecidableEq F] in
theorem mapFind_three (m : List (ℕ × LC F)) (n : ℕ) (a b c : LC F) (j : ℕ) :
    mapFind (mapSet (mapSet (mapSet m n a) (n + 1) b) (n + 1 + 1) c) j =
      if j = n then some a else if j = n + 1 then some b else if j = n + 1 + 1 then some c else mapFind m j := by
  rw [mapFind_set, mapFind_set, mapFind_set]
  split_ifs <;> first | rfl | omega

theorem getElem?_snoc {α : Type} {l : List α} {a : α} {i : ℕ} {v : α} :
    (l ++ [a])[i]? = some v ↔ l[i]? = some v ∨ (i = l.length ∧ v = a) := by
  rcases Nat.lt_trichotomy i l.length with h | h | h
  · rw [List.getElem?_append_left h]
    constructor
    · exact Or.inl
    · rintro (h' | ⟨rfl, -⟩)
      · exact h'
      · omega
  · subst h
    simp [eq_comm]
  · rw [List.getElem?_eq_none (by simp; omega), List.getElem?_eq_none (by omega)]
    simp
    omega

omit [DecidableEq F] in
theorem enforce_spec {Z : Prop} {cs : CS F} (hf : Fin' Z cs) (hc : cs.shouldConstruct = true) {a b c : LC F}
    (ha : Strict a ∧ Concrete Z cs.numInst cs.numWit a) (hb : Strict b ∧ Concrete Z cs.numInst cs.numWit b)
    (hcc : Strict c ∧ Concrete Z cs.numInst cs.numWit c) :
    ∃ cs', cs.enforce a b c = some cs' ∧ Fin' Z cs' ∧ cs'.numCons = cs.numCons + 1 ∧ cs'.cache = cs.cache ∧
      (cs'.setup = cs.setup ∧ cs'.construct = cs.construct ∧ cs'.weight = cs.weight ∧ cs'.numInst = cs.numInst ∧
        cs'.numWit = cs.numWit ∧ cs'.inst = cs.inst ∧ cs'.wit = cs.wit) ∧
      ∀ z, Rows cs' z ↔ Rows cs z ∧ lin z a * lin z b = lin z c := by
  have hfind := mapFind_three cs.lcMap cs.numLC a b c
  have hold : ∀ k l, mapFind cs.lcMap k = some l → mapFind (mapSet (mapSet (mapSet cs.lcMap cs.numLC a)
      (cs.numLC + 1) b) (cs.numLC + 1 + 1) c) k = some l := fun k l h => by
    have := (hf.fin.lcs k l h).1
    rw [hfind, if_neg (by omega), if_neg (by omega), if_neg (by omega), h]
  have hA := hfind cs.numLC
  rw [if_pos rfl] at hA
  have hB := hfind (cs.numLC + 1)
  rw [if_neg (by omega), if_pos rfl] at hB
  have hC := hfind (cs.numLC + 1 + 1)
  rw [if_neg (by omega), if_neg (by omega), if_pos rfl] at hC
  have hlt : ∀ k, k ∈ cs.aCons ∨ k ∈ cs.bCons ∨ k ∈ cs.cCons → k < cs.numLC := fun k hk => by
    obtain ⟨l, hl⟩ := hf.fin.cons k hk
    exact (hf.fin.lcs k l hl).1
  refine ⟨_, enforce_eq hc a b c, ⟨⟨?_, ?_, ?_, ?_, ?_, hf.fin.inst, hf.fin.wit, hf.fin.one, hf.fin.pos⟩, ?_⟩, rfl, rfl,
    ⟨rfl, rfl, rfl, rfl, rfl, rfl, rfl⟩, ?_⟩
  · intro k l h
    simp only at h ⊢
    rw [hfind] at h
    split_ifs at h with h1 h2 h3
    · obtain rfl := Option.some.inj h; exact ⟨by omega, ha.1, fun t ht => (ha.2 t ht).1⟩
    · obtain rfl := Option.some.inj h; exact ⟨by omega, hb.1, fun t ht => (hb.2 t ht).1⟩
    · obtain rfl := Option.some.inj h; exact ⟨by omega, hcc.1, fun t ht => (hcc.2 t ht).1⟩
    · have := hf.fin.lcs k l h; exact ⟨by omega, this.2⟩
  · intro k h
    simp only [List.mem_append, List.mem_singleton] at h ⊢
    rcases h with (h | rfl) | (h | rfl) | (h | rfl)
    · obtain ⟨l, hl⟩ := hf.fin.cons k (Or.inl h); exact ⟨l, hold k l hl⟩
    · exact ⟨a, hA⟩
    · obtain ⟨l, hl⟩ := hf.fin.cons k (Or.inr (Or.inl h)); exact ⟨l, hold k l hl⟩
    · exact ⟨b, hB⟩
    · obtain ⟨l, hl⟩ := hf.fin.cons k (Or.inr (Or.inr h)); exact ⟨l, hold k l hl⟩
    · exact ⟨c, hC⟩
  · simp [hf.fin.lena]
  · simp [hf.fin.lenb]
  · simp [hf.fin.lenc]
  · intro hZ k l h t ht e
    simp only at h
    rw [hfind] at h
    split_ifs at h with h1 h2 h3
    · obtain rfl := Option.some.inj h; exact hZ ((ha.2 t ht).2 e)
    · obtain rfl := Option.some.inj h; exact hZ ((hb.2 t ht).2 e)
    · obtain rfl := Option.some.inj h; exact hZ ((hcc.2 t ht).2 e)
    · exact hf.zero hZ k l h t ht e
  · intro z
    have hla := hf.fin.lena
    have hlb := hf.fin.lenb
    have hlc := hf.fin.lenc
    constructor
    · intro h
      refine ⟨fun i ia ib ic la lb lc ea eb ec fa fb fc => ?_, ?_⟩
      · exact h i ia ib ic la lb lc (getElem?_snoc.2 (Or.inl ea)) (getElem?_snoc.2 (Or.inl eb))
          (getElem?_snoc.2 (Or.inl ec)) (hold _ _ fa) (hold _ _ fb) (hold _ _ fc)
      · exact h cs.numCons _ _ _ a b c (getElem?_snoc.2 (Or.inr ⟨hla.symm, rfl⟩))
          (getElem?_snoc.2 (Or.inr ⟨hlb.symm, rfl⟩)) (getElem?_snoc.2 (Or.inr ⟨hlc.symm, rfl⟩)) hA hB hC
    · rintro ⟨h, hn⟩ i ia ib ic la lb lc ea eb ec fa fb fc
      simp only at ea eb ec fa fb fc
      rw [getElem?_snoc] at ea eb ec
      rcases ea with ea | ⟨hi, rfl⟩
      · have hi := (List.getElem?_eq_some_iff.1 ea).1
        have eb := eb.resolve_right fun h => by omega
        have ec := ec.resolve_right fun h => by omega
        have l1 := hlt ia (Or.inl (List.mem_of_getElem? ea))
        have l2 := hlt ib (Or.inr (Or.inl (List.mem_of_getElem? eb)))
        have l3 := hlt ic (Or.inr (Or.inr (List.mem_of_getElem? ec)))
        rw [hfind, if_neg (by omega), if_neg (by omega), if_neg (by omega)] at fa fb fc
        exact h i ia ib ic la lb lc ea eb ec fa fb fc
      · have hb' := eb.resolve_left fun h => by
          have := (List.getElem?_eq_some_iff.1 h).1
          omega
        have hc' := ec.resolve_left fun h => by
          have := (List.getElem?_eq_some_iff.1 h).1
          omega
        obtain ⟨-, rfl⟩ := hb'
        obtain ⟨-, rfl⟩ := hc'
        rw [hA] at fa; rw [hB] at fb; rw [hC] at fc
        obtain rfl := Option.some.inj fa
        obtain rfl := Option.some.inj fb
        obtain rfl := Option.some.inj fc
        exact hn

/-! ### After the transformation -/

omit [DecidableEq F] in
theorem Built.refs_cons {cs : CS F} (hb : Built cs) {k : ℕ} (hk : k ∈ cs.aCons ∨ k ∈ cs.bCons ∨ k ∈ cs.cCons) :
    refs cs.lcMap k = 0 := by
  have hlen : cs.lcMap.length = cs.numLC := by have := congrArg List.length hb.keys; simpa using this
  rw [refs]
  refine List.sum_eq_zero fun n hn => ?_
  obtain ⟨e, he, rfl⟩ := List.mem_map.1 hn
  rw [refsT, List.countP_eq_zero]
  intro t ht hv
  have hv : t.var = .lc k := by simpa using hv
  obtain ⟨i, hi, rfl⟩ := List.mem_iff_getElem.1 he
  have h1 : (cs.lcMap.map (·.1))[i]? = (List.range cs.numLC)[i]? := by rw [hb.keys]
  rw [List.getElem?_map, List.getElem?_eq_getElem hi, List.getElem?_range (by omega)] at h1
  have h1' : cs.lcMap[i].1 = i := by simpa using h1
  have hf : mapFind cs.lcMap i = some cs.lcMap[i].2 := by
    rw [mapFind_range hb.keys, List.getElem?_eq_getElem hi]
    exact congrArg some (Prod.ext h1' rfl)
  have := (hb.terms i _ hf t ht).1
  rw [hv] at this
  obtain ⟨-, h2, h3, h4⟩ := this
  tauto

/-- The transformed map, over `nw` witness variables. -/
structure Transformed (Z : Prop) (cs : CS F) (nw : ℕ) (G : (Var → F) → Prop) (tmap : List (ℕ × LC F)) : Prop where
  cons : ∀ k, k ∈ cs.aCons ∨ k ∈ cs.bCons ∨ k ∈ cs.cCons → ∃ m, mapFind tmap k = some m
  lcs : ∀ j m, mapFind tmap j = some m → j < cs.numLC ∧ Strict m ∧ Concrete Z cs.numInst nw m ∧
    ∀ z, (∀ k l, mapFind cs.lcMap k = some l → z (.lc k) = lin z l) → G z → lin z m = z (.lc j)

omit [DecidableEq F] in
theorem Transformed.rows {Z : Prop} {cs : CS F} (hb : Built cs) {nw : ℕ} {G : (Var → F) → Prop} {tmap : List (ℕ × LC F)}
    (ht : Transformed Z cs nw G tmap) (hnw : cs.numWit ≤ nw) {cs' : CS F} (hm : cs'.lcMap = tmap)
    (ha : cs'.aCons = cs.aCons) (hbb : cs'.bCons = cs.bCons) (hc : cs'.cCons = cs.cCons) {x w : List F}
    (hx : x.length = cs.numInst) (hw : w.length = nw) (hG : G (asg x w))
    (hGc : ∀ z z' : Var → F, (∀ v, v.Concrete cs.numInst nw → z v = z' v) → G z → G z') :
    Rows cs' (asg x w) ↔ Sat cs x (w.take cs.numWit) := by
  obtain ⟨z, hz⟩ := hb.exists x w
  have hz' : Assign cs x (w.take cs.numWit) z := ⟨hz.zero, hz.one, hz.inst, fun i v e => by
    rw [List.getElem?_take] at e
    split at e
    · exact hz.wit i v e
    · exact absurd e (by simp), hz.lc⟩
  have hGz : G z := hGc _ _ (fun v hv => asg_eq hz (by rw [hx, hw]; exact hv)) hG
  have hlin : ∀ j m, mapFind tmap j = some m → lin (asg x w) m = z (.lc j) := fun j m h => by
    obtain ⟨-, -, h3, h4⟩ := ht.lcs j m h
    rw [lin_asg hz, h4 z hz.lc hGz]
    rw [hx, hw]
    exact fun t htt => (h3 t htt).1
  rw [hb.sat_iff hx (by rw [List.length_take]; omega) hz']
  constructor
  · intro h i a b c ea eb ec
    obtain ⟨la, fa⟩ := ht.cons a (Or.inl (List.mem_of_getElem? ea))
    obtain ⟨lb, fb⟩ := ht.cons b (Or.inr (Or.inl (List.mem_of_getElem? eb)))
    obtain ⟨lc, fc⟩ := ht.cons c (Or.inr (Or.inr (List.mem_of_getElem? ec)))
    rw [← hlin a la fa, ← hlin b lb fb, ← hlin c lc fc]
    exact h i a b c la lb lc (by rw [ha]; exact ea) (by rw [hbb]; exact eb) (by rw [hc]; exact ec)
      (by rw [hm]; exact fa) (by rw [hm]; exact fb) (by rw [hm]; exact fc)
  · intro h i a b c la lb lc ea eb ec fa fb fc
    rw [ha] at ea; rw [hbb] at eb; rw [hc] at ec
    rw [hm] at fa fb fc
    rw [hlin a la fa, hlin b lb fb, hlin c lc fc]
    exact h i a b c ea eb ec

omit [DecidableEq F] in
theorem Built.terms' {cs : CS F} (hb : Built cs) {Z : Prop} (hZ : ¬ Z → cs.ZeroFree) :
    ∀ k l, mapFind cs.lcMap k = some l → ∀ t ∈ l, t.var.Conc Z cs.numInst cs.numWit ∨ ∃ j < k, t.var = .lc j := by
  intro k l hl t ht
  obtain ⟨h1, h2⟩ := hb.terms k l hl t ht
  have hz : t.var = .zero → Z := fun e => by
    by_contra hn
    exact hZ hn k l hl t ht e
  cases hv : t.var with
  | lc j => exact Or.inr ⟨j, h2 j hv, rfl⟩
  | zero => exact Or.inl ⟨trivial, fun _ => hz hv⟩
  | one => exact Or.inl ⟨trivial, fun e => by simp at e⟩
  | inst i => rw [hv] at h1; exact Or.inl ⟨h1, fun e => by simp at e⟩
  | wit i => rw [hv] at h1; exact Or.inl ⟨h1, fun e => by simp at e⟩

/-! ### Inlining -/

omit [DecidableEq F] in
theorem inlineAll_spec (s : Sorter F) {cs : CS F} (hb : Built cs) (hc : cs.shouldConstruct = true) {Z : Prop}
    (hZ : ¬ Z → cs.ZeroFree) (hsize : ∀ j, refs cs.lcMap j < 2 ^ 64) :
    ∃ tmap, cs.inlineAll s = some { cs with lcMap := tmap } ∧ Fin' Z { cs with lcMap := tmap } ∧
      ∀ x w, x.length = cs.numInst → w.length = cs.numWit → (Sat { cs with lcMap := tmap } x w ↔ Sat cs x w) := by
  obtain ⟨cs', tmap, aux, e, rfl, h2, h3⟩ := transform_spec s (cb := inlineCb) (I := fun c _ => c = cs)
    (G := fun _ _ => True) (Z := Z) (ni := cs.numInst) (fun c a u l hI hs hl =>
      ⟨_, c, rfl, by simp [updateWitness], hI, le_rfl, hs, hl, fun z _ => ⟨trivial, rfl⟩⟩)
    hb.keys (hb.terms' hZ) hsize (aux := ()) rfl
  have ht : Transformed Z cs' cs'.numWit (fun _ => True) tmap :=
    ⟨fun k hk => h2 k (hb.cons k hk) (hb.refs_cons hk), fun j m h => by
      obtain ⟨a1, a2, a3, a4⟩ := h3 j m h
      exact ⟨a1, a2, a3, fun z hz hg => a4 z hz hg⟩⟩
  have hf : Finalized { cs' with lcMap := tmap } := ⟨fun k l h => ⟨(ht.lcs k l h).1, (ht.lcs k l h).2.1,
    fun t htt => ((ht.lcs k l h).2.2.1 t htt).1⟩, ht.cons, hb.lena, hb.lenb, hb.lenc, hb.inst, hb.wit, hb.one, hb.pos⟩
  refine ⟨tmap, ?_, ⟨hf, fun hnz k l h t htt e => hnz (((ht.lcs k l h).2.2.1 t htt).2 e)⟩, fun x w hx hw => ?_⟩
  · rw [CS.inlineAll, if_pos hc, e]; rfl
  · rw [hf.sat_iff hx hw, ht.rows hb le_rfl (cs' := { cs' with lcMap := tmap }) rfl rfl rfl rfl hx hw trivial
      (fun _ _ _ _ => trivial), List.take_of_length_le (by omega)]

/-! ### Outlining -/

/-- The witnesses, extended by the values of linear combinations one after the other. -/
def extend (x w : List F) (ls : List (LC F)) : List F := ls.foldl (fun v l => v ++ [lin (asg x v) l]) w

omit [DecidableEq F] in
theorem extend_snoc (x w : List F) (ls : List (LC F)) (l : LC F) :
    extend x w (ls ++ [l]) = extend x w ls ++ [lin (asg x (extend x w ls)) l] := by
  rw [extend, List.foldl_append]; rfl

omit [DecidableEq F] in
theorem extend_length (x w : List F) (ls : List (LC F)) : (extend x w ls).length = w.length + ls.length := by
  induction ls using List.reverseRecOn with
  | nil => rfl
  | append_singleton ls l ih => rw [extend_snoc]; simp [ih]; omega

omit [DecidableEq F] in
theorem extend_prefix (x w : List F) (ls : List (LC F)) : ∃ u, extend x w ls = w ++ u := by
  induction ls using List.reverseRecOn with
  | nil => exact ⟨[], by simp [extend]⟩
  | append_singleton ls l ih =>
    obtain ⟨u, e⟩ := ih
    exact ⟨u ++ [lin (asg x (extend x w ls)) l], by rw [extend_snoc, e, List.append_assoc]⟩

omit [DecidableEq F] in
theorem lin_asg_take {x w : List F} {n : ℕ} {l : LC F} (hl : ∀ t ∈ l, t.var.Concrete x.length n) :
    lin (asg x (w.take n)) l = lin (asg x w) l := by
  refine lin_congr fun t ht => ?_
  have := hl t ht
  cases hv : t.var with
  | wit i =>
    rw [hv] at this
    have hi : i < n := this
    rw [asg, asg, List.getD_eq_getElem?_getD, List.getD_eq_getElem?_getD, List.getElem?_take, if_pos hi]
  | lc i => rw [hv] at this; exact this.elim
  | _ => rfl

/-- What `OutlineLCs` records about its new witnesses. -/
def AuxOk (Z : Prop) (ni nw : ℕ) (aux : List (LC F × ℕ)) : Prop :=
  ∀ (i : ℕ) e, aux[i]? = some e → e.2 = nw + i ∧ Strict e.1 ∧ Concrete Z ni (nw + i) e.1

omit [DecidableEq F] in
/-- The new constraints say exactly that the new witnesses are the values of the linear combinations. -/
theorem aux_iff {Z : Prop} {nw : ℕ} {x w : List F} (aux : List (LC F × ℕ)) (ha : AuxOk Z x.length nw aux)
    (hw : nw + aux.length ≤ w.length) :
    (∀ e ∈ aux, asg x w (.wit e.2) = lin (asg x w) e.1) ↔
      w.take (nw + aux.length) = extend x (w.take nw) (aux.map (·.1)) := by
  induction aux using List.reverseRecOn with
  | nil => simp [extend]
  | append_singleton aux e ih =>
    rw [List.length_append, List.length_singleton] at hw
    have ha' : AuxOk Z x.length nw aux := fun i e h => ha i e (getElem?_snoc.2 (Or.inl h))
    obtain ⟨h1, -, h3⟩ := ha aux.length e (getElem?_snoc.2 (Or.inr ⟨rfl, rfl⟩))
    have ih := ih ha' (by omega)
    have hlt : nw + aux.length < w.length := by omega
    rw [List.map_append, List.map_singleton, extend_snoc, List.length_append, List.length_singleton, ← add_assoc,
      List.take_add_one, List.getElem?_eq_getElem hlt, Option.toList_some]
    have hval : asg x w (.wit e.2) = w[nw + aux.length] := by
      rw [h1, asg, List.getD_eq_getElem?_getD, List.getElem?_eq_getElem hlt]; rfl
    have hsplit : (∀ e' ∈ aux ++ [e], asg x w (.wit e'.2) = lin (asg x w) e'.1) ↔
        (∀ e' ∈ aux, asg x w (.wit e'.2) = lin (asg x w) e'.1) ∧ asg x w (.wit e.2) = lin (asg x w) e.1 := by
      simp only [List.mem_append, List.mem_singleton, or_imp, forall_and, forall_eq]
    rw [hsplit, ih, hval]
    constructor
    · rintro ⟨h, h'⟩
      rw [← h, h', lin_asg_take fun t ht => (h3 t ht).1]
    · intro h
      obtain ⟨h, h'⟩ := List.append_inj' h rfl
      refine ⟨h, ?_⟩
      rw [← h, lin_asg_take fun t ht => (h3 t ht).1] at h'
      simpa using h'

omit [DecidableEq F] in
theorem Assign.of_fields {cs cs' : CS F} {x w : List F} {z : Var → F} (h : Assign cs x w z)
    (hm : cs'.lcMap = cs.lcMap) : Assign cs' x w z :=
  ⟨h.zero, h.one, h.inst, h.wit, fun i l e => h.lc i l (by rw [← hm]; exact e)⟩

/-- The system while `OutlineLCs` runs. -/
def outlined (cs : CS F) (aux : List (LC F × ℕ)) : CS F :=
  { cs with
    numWit := cs.numWit + aux.length
    wit := if cs.setup then cs.wit else extend cs.inst cs.wit (aux.map (·.1)) }

omit [DecidableEq F] in
theorem outlineCb_spec {cs : CS F} (hb : Built cs) (Z : Prop) :
    CbSpec outlineCb (fun c aux => c = outlined cs aux ∧ AuxOk Z cs.numInst cs.numWit aux)
      (fun aux z => ∀ e ∈ aux, z (.wit e.2) = lin z e.1) Z cs.numInst := by
  rintro c aux u l ⟨rfl, ha⟩ hs hl
  rw [outlineCb]
  by_cases hcost : u + 1 + l.length + 2 < l.length * (u + 1)
  · simp only [if_pos hcost]
    have hnum : (outlined cs aux).numWit = cs.numWit + aux.length := rfl
    have hAux : AuxOk Z cs.numInst cs.numWit (aux ++ [(l, (outlined cs aux).numWit)]) := by
      intro i e h
      rcases getElem?_snoc.1 h with h | ⟨rfl, rfl⟩
      · exact ha i e h
      · exact ⟨rfl, hs, hl⟩
    have hlc : Strict ([Term.ofVar (.wit (outlined cs aux).numWit)] : LC F) ∧
        Concrete Z cs.numInst (cs.numWit + (aux.length + 1))
          ([Term.ofVar (.wit (outlined cs aux).numWit)] : LC F) := by
      refine ⟨List.pairwise_singleton _ _, fun t ht => ?_⟩
      rw [List.mem_singleton.1 ht]
      exact ⟨by show _ < _; rw [hnum]; omega, fun e => by simp [Term.ofVar] at e⟩
    have hG : ∀ z : Var → F, (∀ e ∈ aux ++ [(l, (outlined cs aux).numWit)], z (.wit e.2) = lin z e.1) →
        (∀ e ∈ aux, z (.wit e.2) = lin z e.1) ∧ lin z [Term.ofVar (.wit (outlined cs aux).numWit)] = lin z l := by
      intro z h
      refine ⟨fun e he => h e (by simp [he]), ?_⟩
      rw [← h (l, (outlined cs aux).numWit) (by simp)]
      simp [Term.ofVar]
    by_cases hset : cs.setup = true
    · have h' : (outlined cs aux).setup = true := hset
      refine ⟨_, outlined cs (aux ++ [(l, (outlined cs aux).numWit)]), by rw [if_pos h']; rfl, ?_, ⟨rfl, hAux⟩, ?_,
        hlc.1, ?_, hG⟩
      · simp only [updateWitness, h', Bool.true_eq_false, false_and, if_false]
        simp [outlined, hset, add_assoc]
      · simp [outlined]
      · simp only [outlined, List.length_append, List.length_singleton]
        exact hlc.2
    · have hset : cs.setup = false := by simpa using hset
      have h' : (outlined cs aux).setup = false := hset
      have hwit : (outlined cs aux).wit = extend cs.inst cs.wit (aux.map (·.1)) := by simp [outlined, hset]
      have hwl : (outlined cs aux).wit.length = cs.numWit + aux.length := by
        rw [hwit, extend_length, hb.wit hset, List.length_map]
      obtain ⟨z, hz⟩ := hb.exists cs.inst (outlined cs aux).wit
      have hz' : Assign (outlined cs aux) (outlined cs aux).inst (outlined cs aux).wit z := hz.of_fields rfl
      have hconc : ∀ t ∈ l, t.var.Concrete (outlined cs aux).inst.length (outlined cs aux).wit.length := by
        intro t ht
        rw [hwl]
        have : (outlined cs aux).inst.length = cs.numInst := hb.inst hset
        rw [this]
        exact (hl t ht).1
      have hev := evalLC_concrete hz' hconc
      refine ⟨_, outlined cs (aux ++ [(l, (outlined cs aux).numWit)]),
        by rw [if_neg (by simp [h']), hev]; rfl, ?_, ⟨rfl, hAux⟩, ?_, hlc.1, ?_, hG⟩
      · simp only [updateWitness, h', true_and, Nat.zero_lt_one, if_true, Option.bind_some, List.length_singleton]
        rw [hwit]
        have hl' : lin z l = lin (asg cs.inst (extend cs.inst cs.wit (aux.map (·.1)))) l := by
          rw [← hwit]; exact (lin_asg hz' hconc).symm
        simp [outlined, hset, extend_snoc, hl', add_assoc]
      · simp [outlined]
      · simp only [outlined, List.length_append, List.length_singleton]
        exact hlc.2
  · simp only [if_neg hcost]
    exact ⟨_, outlined cs aux, rfl, by simp [updateWitness], ⟨rfl, ha⟩, le_rfl, hs, hl, fun z h => ⟨h, rfl⟩⟩

omit [DecidableEq F] in
/-- Adding the constraints for the new witnesses. -/
theorem enforceFold_spec {Z : Prop} (aux : List (LC F × ℕ)) : ∀ {cs : CS F}, Fin' Z cs → cs.shouldConstruct = true →
    (∀ e ∈ aux, Strict e.1 ∧ Concrete Z cs.numInst cs.numWit e.1 ∧ e.2 < cs.numWit) →
    ∃ cs', aux.foldlM (fun cs e => cs.enforce e.1 [Term.ofVar .one] [Term.ofVar (.wit e.2)]) cs = some cs' ∧
      Fin' Z cs' ∧ cs'.numCons = cs.numCons + aux.length ∧ cs'.cache = cs.cache ∧
      (cs'.setup = cs.setup ∧ cs'.construct = cs.construct ∧ cs'.weight = cs.weight ∧ cs'.numInst = cs.numInst ∧
        cs'.numWit = cs.numWit ∧ cs'.inst = cs.inst ∧ cs'.wit = cs.wit) ∧
      ∀ z, z .one = 1 → (Rows cs' z ↔ Rows cs z ∧ ∀ e ∈ aux, z (.wit e.2) = lin z e.1) := by
  induction aux with
  | nil => intro cs hf _ _; exact ⟨cs, rfl, hf, rfl, rfl, ⟨rfl, rfl, rfl, rfl, rfl, rfl, rfl⟩, fun z _ => by simp⟩
  | cons e aux ih =>
    intro cs hf hc ha
    obtain ⟨a1, a2, a3⟩ := ha e (by simp)
    obtain ⟨cs1, e1, f1, n1, k1, ⟨b1, b2, b3, b4, b5, b6, b7⟩, r1⟩ := enforce_spec hf hc (a := e.1)
      (b := [Term.ofVar .one]) (c := [Term.ofVar (.wit e.2)]) ⟨a1, a2⟩
      ⟨List.pairwise_singleton _ _, fun t ht => by
        rw [List.mem_singleton.1 ht]; exact ⟨trivial, fun e => by simp [Term.ofVar] at e⟩⟩
      ⟨List.pairwise_singleton _ _, fun t ht => by
        rw [List.mem_singleton.1 ht]; exact ⟨a3, fun e => by simp [Term.ofVar] at e⟩⟩
    obtain ⟨cs2, e2, f2, n2, k2, ⟨d1, d2, d3, d4, d5, d6, d7⟩, r2⟩ := ih f1
      (by rw [CS.shouldConstruct, b1, b2]; exact hc) fun e' he' => by
        rw [b4, b5]; exact ha e' (by simp [he'])
    refine ⟨cs2, by rw [List.foldlM_cons, e1]; exact e2, f2, by rw [n2, n1, List.length_cons]; omega,
      by rw [k2, k1], ⟨by rw [d1, b1], by rw [d2, b2], by rw [d3, b3], by rw [d4, b4], by rw [d5, b5],
        by rw [d6, b6], by rw [d7, b7]⟩, fun z hz => ?_⟩
    rw [r2 z hz, r1 z]
    have : lin z e.1 * lin z [Term.ofVar .one] = lin z [Term.ofVar (.wit e.2)] ↔ z (.wit e.2) = lin z e.1 := by
      simp only [lin_cons, lin_nil, Term.ofVar, hz, one_mul, add_zero, mul_one]
      exact eq_comm
    rw [this]
    simp only [List.mem_cons, forall_eq_or_imp]
    tauto

omit [DecidableEq F] in
theorem outline_spec (s : Sorter F) {cs : CS F} (hb : Built cs) (hc : cs.shouldConstruct = true) {Z : Prop}
    (hZ : ¬ Z → cs.ZeroFree) (hsize : ∀ j, refs cs.lcMap j < 2 ^ 64) :
    ∃ (cs' : CS F) (ls : List (LC F)), cs.outline s = some cs' ∧ Fin' Z cs' ∧ cs'.setup = cs.setup ∧
      cs'.numInst = cs.numInst ∧ cs'.inst = cs.inst ∧ cs'.numWit = cs.numWit + ls.length ∧
      cs'.numCons = cs.numCons + ls.length ∧ cs'.cache = cs.cache ∧
      (cs.setup = false → cs'.wit = extend cs.inst cs.wit ls) ∧
      ∀ x w, x.length = cs'.numInst → w.length = cs'.numWit →
        (Sat cs' x w ↔ Sat cs x (w.take cs.numWit) ∧ w = extend x (w.take cs.numWit) ls) := by
  obtain ⟨cs1, tmap, aux, e, ⟨rfl, ha⟩, h2, h3⟩ := transform_spec s (outlineCb_spec hb Z) hb.keys (hb.terms' hZ) hsize
    (aux := []) ⟨by simp [outlined, extend], by intro i e h; simp at h⟩
  have hnum : (outlined cs aux).numWit = cs.numWit + aux.length := rfl
  have ht : Transformed Z cs (cs.numWit + aux.length) (fun z => ∀ e ∈ aux, z (.wit e.2) = lin z e.1) tmap :=
    ⟨fun k hk => h2 k (hb.cons k hk) (hb.refs_cons hk), h3⟩
  have hf : Fin' Z { outlined cs aux with lcMap := tmap } :=
    ⟨⟨fun k l h => ⟨(ht.lcs k l h).1, (ht.lcs k l h).2.1, fun t htt => ((ht.lcs k l h).2.2.1 t htt).1⟩, ht.cons,
      hb.lena, hb.lenb, hb.lenc, hb.inst, fun hs => by
        have hs : cs.setup = false := hs
        simp only [outlined, hs]
        simp [extend_length, hb.wit hs], hb.one, hb.pos⟩,
      fun hnz k l h t htt e => hnz (((ht.lcs k l h).2.2.1 t htt).2 e)⟩
  obtain ⟨cs2, e2, f2, n2, k2, ⟨d1, d2, d3, d4, d5, d6, d7⟩, r2⟩ := enforceFold_spec aux hf hc (fun e he => by
    obtain ⟨i, hi, rfl⟩ := List.mem_iff_getElem.1 he
    obtain ⟨q1, q2, q3⟩ := ha i _ (List.getElem?_eq_getElem hi)
    refine ⟨q2, q3.mono (by show _ ≤ cs.numWit + aux.length; omega), ?_⟩
    rw [q1]
    show _ < cs.numWit + aux.length
    omega)
  refine ⟨cs2, aux.map (·.1), ?_, f2, d1, d4, d6, by rw [d5, List.length_map]; rfl, by rw [n2, List.length_map]; rfl,
    k2, fun hs => by rw [d7]; simp [outlined, hs], fun x w hx hw => ?_⟩
  · rw [CS.outline, if_pos hc, e, Option.bind_some]; exact e2
  · have hx' : x.length = cs.numInst := by rw [hx, d4]; rfl
    have hw' : w.length = cs.numWit + aux.length := by rw [hw, d5]; rfl
    rw [f2.fin.sat_iff hx hw, r2 _ rfl]
    have ha' : AuxOk Z x.length cs.numWit aux := by rw [hx']; exact ha
    have hiff := aux_iff (w := w) aux ha' (by omega)
    rw [List.take_of_length_le (by omega)] at hiff
    rw [← hiff]
    refine and_congr_left fun hG => ?_
    exact ht.rows hb (by omega) (cs' := { outlined cs aux with lcMap := tmap }) rfl rfl rfl rfl hx' hw' hG
      (fun z z' hzz h e he => by
        obtain ⟨i, hi, rfl⟩ := List.mem_iff_getElem.1 he
        obtain ⟨q1, q2, q3⟩ := ha i _ (List.getElem?_eq_getElem hi)
        rw [← hzz _ (by show _ < _; omega), h _ he]
        exact lin_congr fun t htt => hzz _ ((q3.mono (by omega) t htt).1))

/-! ### Matrices -/

theorem makeRow_spec {cs : CS F} {l : LC F} (hpos : 0 < cs.numInst) (hl : ∀ t ∈ l, t.var.Concrete cs.numInst cs.numWit)
    (hz : ∀ t ∈ l, t.var ≠ .zero) : ∃ row, cs.makeRow l = some row ∧
      (∀ c ∈ row, c.coeff ≠ 0 ∧ c.index < cs.numInst + cs.numWit) ∧
      ∀ x w, x.length = cs.numInst → w.length = cs.numWit → x[0]? = some 1 →
        dot row (x ++ w) = lin (asg x w) l := by
  induction l with
  | nil => exact ⟨[], rfl, by simp, fun x w _ _ _ => by simp [dot]⟩
  | cons t l ih =>
    obtain ⟨row, e, h1, h2⟩ := ih (fun u hu => hl u (by simp [hu])) fun u hu => hz u (by simp [hu])
    rw [CS.makeRow] at e
    by_cases h0 : t.coeff = 0
    · refine ⟨row, by rw [CS.makeRow, List.filter_cons, if_neg (by simp [h0])]; exact e, h1, fun x w hx hw hx1 => ?_⟩
      rw [h2 x w hx hw hx1, lin_cons, h0, zero_mul, zero_add]
    · have hc := hl t (by simp)
      have hzt := hz t (by simp)
      obtain ⟨i, hi, hlt, hv⟩ : ∃ i, t.var.getIndex cs.numInst = some i ∧ i < cs.numInst + cs.numWit ∧
          ∀ x w : List F, x.length = cs.numInst → w.length = cs.numWit → x[0]? = some 1 →
            (x ++ w).getD i 0 = asg x w t.var := by
        cases hv : t.var with
        | zero => exact absurd hv hzt
        | one =>
          refine ⟨0, rfl, by omega, fun x w _ _ hx1 => ?_⟩
          have := (List.getElem?_eq_some_iff.1 hx1).1
          rw [List.getD_eq_getElem?_getD, List.getElem?_append_left this, hx1]; rfl
        | inst i =>
          rw [hv] at hc
          have hc : i < cs.numInst := hc
          refine ⟨i, rfl, by omega, fun x w hx _ _ => ?_⟩
          rw [List.getD_eq_getElem?_getD, List.getElem?_append_left (by omega), asg, List.getD_eq_getElem?_getD]
        | wit i =>
          rw [hv] at hc
          have hc : i < cs.numWit := hc
          refine ⟨cs.numInst + i, rfl, by omega, fun x w hx _ _ => ?_⟩
          rw [List.getD_eq_getElem?_getD, List.getElem?_append_right (by omega), hx, Nat.add_sub_cancel_left, asg,
            List.getD_eq_getElem?_getD]
        | lc i => rw [hv] at hc; exact hc.elim
      refine ⟨⟨t.coeff, i⟩ :: row, ?_, ?_, fun x w hx hw hx1 => ?_⟩
      · rw [CS.makeRow, List.filter_cons, if_pos (by simp [h0]), List.mapM_cons, hi, e]; rfl
      · intro c hcm
        rcases List.mem_cons.1 hcm with rfl | hcm
        · exact ⟨h0, hlt⟩
        · exact h1 c hcm
      · have := h2 x w hx hw hx1
        rw [lin_cons, ← this, ← hv x w hx hw hx1]
        simp [dot]

theorem makeMatrix_spec {cs : CS F} (hf : Finalized cs) (hz : cs.ZeroFree) (ks : List ℕ)
    (hk : ∀ k ∈ ks, ∃ l, mapFind cs.lcMap k = some l) : ∃ m, cs.makeMatrix ks = some m ∧ m.length = ks.length ∧
      CellsOk m (cs.numInst + cs.numWit) ∧
      ∀ (i : ℕ) row, m[i]? = some row → ∃ k l, ks[i]? = some k ∧ mapFind cs.lcMap k = some l ∧
        ∀ x w, x.length = cs.numInst → w.length = cs.numWit → x[0]? = some 1 →
          dot row (x ++ w) = lin (asg x w) l := by
  induction ks with
  | nil => exact ⟨[], rfl, rfl, by simp [CellsOk], by simp⟩
  | cons k ks ih =>
    obtain ⟨m, e, h1, h1', h2⟩ := ih fun k hk' => hk k (by simp [hk'])
    obtain ⟨l, hl⟩ := hk k (by simp)
    obtain ⟨row, er, hcl, hr⟩ := makeRow_spec hf.pos (hf.lcs k l hl).2.2 (hz k l hl)
    refine ⟨row :: m, ?_, by simp [h1], List.forall_mem_cons.2 ⟨hcl, h1'⟩, ?_⟩
    · rw [CS.makeMatrix] at e ⊢
      rw [List.mapM_cons, hl, Option.bind_some, er, e]; rfl
    · intro i row' hi
      cases i with
      | zero =>
        obtain rfl : row = row' := by simpa using hi
        exact ⟨k, l, rfl, hl, hr⟩
      | succ i => exact h2 i row' (by simpa using hi)

theorem toMatrices_spec {cs : CS F} (hf : Finalized cs) (hz : cs.ZeroFree) (hc : cs.shouldConstruct = true) :
    ∃ m : Matrices F, cs.toMatrices = some (some m) ∧ m.numInst = cs.numInst ∧ m.numWit = cs.numWit ∧
      m.numCons = cs.numCons ∧ m.a.length = cs.numCons ∧ m.b.length = cs.numCons ∧ m.c.length = cs.numCons ∧
      m.aNonZero = (m.a.map List.length).sum ∧ m.bNonZero = (m.b.map List.length).sum ∧
      m.cNonZero = (m.c.map List.length).sum ∧ CellsOk m.a (cs.numInst + cs.numWit) ∧
      CellsOk m.b (cs.numInst + cs.numWit) ∧ CellsOk m.c (cs.numInst + cs.numWit) ∧
      ∀ x w, x.length = cs.numInst → w.length = cs.numWit → x[0]? = some 1 →
        (MatSat m (x ++ w) ↔ Sat cs x w) := by
  obtain ⟨a, ea, la, ca, ha⟩ := makeMatrix_spec hf hz cs.aCons fun k hk => hf.cons k (Or.inl hk)
  obtain ⟨b, eb, lb, cb, hb⟩ := makeMatrix_spec hf hz cs.bCons fun k hk => hf.cons k (Or.inr (Or.inl hk))
  obtain ⟨c, ec, lc, cc, hcc⟩ := makeMatrix_spec hf hz cs.cCons fun k hk => hf.cons k (Or.inr (Or.inr hk))
  have hcount : ∀ m : List (List (Cell F)), countNonZero m = (m.map List.length).sum := by
    intro m
    have key : ∀ (m : List (List (Cell F))) n, m.foldl (fun acc row => acc + row.length) n =
        n + (m.map List.length).sum := by
      intro m
      induction m with
      | nil => intro n; rfl
      | cons r m ih => intro n; rw [List.foldl_cons, ih, List.map_cons, List.sum_cons, add_assoc]
    rw [countNonZero, key, zero_add]
  refine ⟨_, by rw [CS.toMatrices, if_pos hc, ea, Option.bind_some, eb, Option.bind_some, ec, Option.map_some], rfl, rfl,
    rfl, by rw [← hf.lena]; exact la, by rw [← hf.lenb]; exact lb, by rw [← hf.lenc]; exact lc, hcount a, hcount b,
    hcount c, ca, cb, cc, fun x w hx hw hx1 => ?_⟩
  rw [hf.sat_iff hx hw]
  constructor
  · intro h i ia ib ic la' lb' lc' ja jb jc fa fb fc
    have hia := (List.getElem?_eq_some_iff.1 ja).1
    have hib := (List.getElem?_eq_some_iff.1 jb).1
    have hic := (List.getElem?_eq_some_iff.1 jc).1
    have ra : a[i]? = some (a[i]'(by omega)) := List.getElem?_eq_getElem (by omega)
    have rb : b[i]? = some (b[i]'(by omega)) := List.getElem?_eq_getElem (by omega)
    have rc : c[i]? = some (c[i]'(by omega)) := List.getElem?_eq_getElem (by omega)
    obtain ⟨k1, l1, p1, q1, s1⟩ := ha i _ ra
    obtain ⟨k2, l2, p2, q2, s2⟩ := hb i _ rb
    obtain ⟨k3, l3, p3, q3, s3⟩ := hcc i _ rc
    rw [ja] at p1; rw [jb] at p2; rw [jc] at p3
    obtain rfl := Option.some.inj p1
    obtain rfl := Option.some.inj p2
    obtain rfl := Option.some.inj p3
    rw [fa] at q1; rw [fb] at q2; rw [fc] at q3
    obtain rfl := Option.some.inj q1
    obtain rfl := Option.some.inj q2
    obtain rfl := Option.some.inj q3
    rw [← s1 x w hx hw hx1, ← s2 x w hx hw hx1, ← s3 x w hx hw hx1]
    exact h i _ _ _ ra rb rc
  · intro h i ra rb rc ja jb jc
    obtain ⟨k1, l1, p1, q1, s1⟩ := ha i _ ja
    obtain ⟨k2, l2, p2, q2, s2⟩ := hb i _ jb
    obtain ⟨k3, l3, p3, q3, s3⟩ := hcc i _ jc
    rw [s1 x w hx hw hx1, s2 x w hx hw hx1, s3 x w hx hw hx1]
    exact h i k1 k2 k3 l1 l2 l3 p1 p2 p3 q1 q2 q3

end Tachyon.R1cs
