import Verif.Proofs.R1csApi
import Verif.Spec.F7
import Mathlib.Data.List.Sort
/-! # C81 linear combinations, C82 rank-one constraint systems: `tachyon/zk/r1cs/constraint_system` -/
namespace Tachyon.Props
open Tachyon.R1cs

variable {F : Type} [Field F] [DecidableEq F]

/-! ## C81: linear combinations -/

/-- C81: variables are ordered by type, then by index; the four comparisons agree with one another. -/
theorem C81_order (a b c : Var) :
    (a.lt b = true ↔ a.type < b.type ∨ a.type = b.type ∧ a.index < b.index) ∧
    (a = b ↔ a.type = b.type ∧ a.index = b.index) ∧ a.gt b = b.lt a ∧ a.le b = !(b.lt a) ∧ a.ge b = !(a.lt b) ∧
    a.lt a = false ∧ (a.lt b = true → b.lt c = true → a.lt c = true) ∧ (a = b ∨ a.lt b = true ∨ b.lt a = true) := by
  refine ⟨Var.lt_iff a b, Var.ext_iff' a b, Var.gt_eq a b, Var.le_eq a b, rfl, Var.lt_irrefl a, Var.lt_trans, ?_⟩
  by_cases h : a = b
  · exact Or.inl h
  · cases h' : b.lt a with
    | true => exact Or.inr (Or.inr rfl)
    | false => exact Or.inr (Or.inl (Var.lt_of_le_of_ne h' h))

/-- C81: a witness variable comes after an instance variable, whatever the indices. -/
example : (Var.inst 7).lt (.wit 2) = true ∧ (Var.wit 2).le (.inst 7) = false ∧ (Var.one).ge .zero = true := by
  decide

omit [DecidableEq F] in
/-- C81: however equal variables are sorted, `Deduplicate` leaves the same strictly sorted list; every
variable keeps its total coefficient, no variable is lost, and no value changes. -/
theorem C81_deduplicate (s : Sorter F) (l : LC F) :
    Strict (dedup s l) ∧ isSorted (dedup s l) = true ∧ (∀ s', dedup s' l = dedup s l) ∧
    (∀ v, coeffOf (dedup s l) v = coeffOf l v) ∧ (∀ v, (∃ u ∈ dedup s l, u.var = v) ↔ ∃ u ∈ l, u.var = v) ∧
    ∀ z, lin z (dedup s l) = lin z l := by
  refine ⟨strict_dedup s l, ?_, fun s' => dedup_sorter s' s l, fun v => ?_, mem_dedup s l, fun z => lin_dedup s z l⟩
  · rw [isSorted_iff]
    exact (strict_dedup s l).imp fun h => Var.not_lt_of_lt h
  · rw [coeffOf_eq_lin, coeffOf_eq_lin, lin_dedup]

/-- A sort for the examples. -/
def exSorter {F : Type} : Sorter F where
  run := List.insertionSort fun a b => b.var.lt a.var = false
  perm l := List.perm_insertionSort _ l
  sorted l := by
    have : Std.Total fun a b : Term F => b.var.lt a.var = false := ⟨fun a b => by
      cases h : b.var.lt a.var with
      | false => exact Or.inl rfl
      | true => exact Or.inr (Var.not_lt_of_lt h)⟩
    have : IsTrans (Term F) fun a b => b.var.lt a.var = false := ⟨fun a b c h h' => Var.le_trans h h'⟩
    exact List.pairwise_insertionSort _ l

/-- C81: as in linear_combination_unittest.cc:52-54. -/
example : dedup exSorter [(⟨2, .zero⟩ : Term F7), ⟨3, .one⟩, ⟨2, .one⟩, ⟨2, .zero⟩, ⟨1, .one⟩] = [⟨4, .zero⟩, ⟨6, .one⟩] := by
  decide +kernel

omit [Field F] [DecidableEq F] in
/-- C81: both searches find a variable exactly if it is there, and otherwise the place where it belongs. -/
theorem C81_search {l : LC F} (hl : Strict l) (v : Var) :
    ∃ b k, getVarLocation l v = some (b, k) ∧ binarySearch l v = some (b, k) ∧ linearSearch v l 0 = (b, k) ∧
      (b = true ↔ ∃ t ∈ l, t.var = v) ∧ (b = true → ∃ t, l[k]? = some t ∧ t.var = v) ∧
      (b = false → k ≤ l.length ∧ (∀ t ∈ l.take k, t.var.lt v = true) ∧ ∀ t ∈ l.drop k, v.lt t.var = true) := by
  have iffOf : ∀ (b : Bool) (k : ℕ), (b = true → ∃ t, l[k]? = some t ∧ t.var = v) →
      (b = false → (∀ t ∈ l.take k, t.var.lt v = true) ∧ ∀ t ∈ l.drop k, v.lt t.var = true) →
      (b = true ↔ ∃ t ∈ l, t.var = v) := by
    intro b k h1 h2
    cases b with
    | true => obtain ⟨t, e, hv⟩ := h1 rfl; simp only [true_iff]; exact ⟨t, List.mem_of_getElem? e, hv⟩
    | false =>
      obtain ⟨p, q⟩ := h2 rfl
      simp only [Bool.false_eq_true, false_iff]
      rintro ⟨t, ht, rfl⟩
      rw [← List.take_append_drop k l, List.mem_append] at ht
      rcases ht with ht | ht
      · exact Var.ne_of_lt (p t ht) rfl
      · exact Var.ne_of_lt (q t ht) rfl
  have uniq : ∀ (b b' : Bool) (k k' : ℕ), (b = true → ∃ t, l[k]? = some t ∧ t.var = v) →
      (b = false → (∀ t ∈ l.take k, t.var.lt v = true) ∧ ∀ t ∈ l.drop k, v.lt t.var = true) → k ≤ l.length →
      (b' = true → ∃ t, l[k']? = some t ∧ t.var = v) →
      (b' = false → (∀ t ∈ l.take k', t.var.lt v = true) ∧ ∀ t ∈ l.drop k', v.lt t.var = true) → k' ≤ l.length →
      b = b' ∧ k = k' := by
    intro b b' k k' h1 h2 hk h1' h2' hk'
    have hb : b = b' := Bool.eq_iff_iff.2 ((iffOf b k h1 h2).trans (iffOf b' k' h1' h2').symm)
    subst hb
    refine ⟨rfl, ?_⟩
    cases b with
    | true =>
      obtain ⟨t, e, hv⟩ := h1 rfl
      obtain ⟨t', e', hv'⟩ := h1' rfl
      obtain ⟨i1, e⟩ := List.getElem?_eq_some_iff.1 e
      obtain ⟨i2, e'⟩ := List.getElem?_eq_some_iff.1 e'
      have hp := List.pairwise_iff_getElem.1 hl
      rcases Nat.lt_trichotomy k k' with h | h | h
      · have := hp k k' i1 i2 h
        rw [e, e', hv, hv', Var.lt_irrefl] at this
        exact absurd this (by simp)
      · exact h
      · have := hp k' k i2 i1 h
        rw [e, e', hv, hv', Var.lt_irrefl] at this
        exact absurd this (by simp)
    | false =>
      obtain ⟨p, q⟩ := h2 rfl
      obtain ⟨p', q'⟩ := h2' rfl
      have key : ∀ i j, i ≤ l.length → j ≤ l.length → (∀ t ∈ l.take j, t.var.lt v = true) →
          (∀ t ∈ l.drop i, v.lt t.var = true) → ¬ i < j := by
        intro i j hi hj hp hq hij
        have h1 : l[i] ∈ l.take j := List.mem_take_iff_getElem.2 ⟨i, by omega, rfl⟩
        have h2 : l[i] ∈ l.drop i := List.mem_drop_iff_getElem.2 ⟨0, by omega, by simp⟩
        have := Var.lt_trans (hp _ h1) (hq _ h2)
        rw [Var.lt_irrefl] at this
        exact absurd this (by simp)
      have := key k k' hk hk' p' q
      have := key k' k hk' hk p q'
      omega
  obtain ⟨b, k, e, hk, h1, h2⟩ := getVarLocation_spec l v
  obtain ⟨b', k', e', hk', h1', h2'⟩ := binarySearch_spec l v
  obtain ⟨k'', e'', hk'', h1'', h2''⟩ := linearSearch_spec v l 0
  rw [zero_add] at e''
  obtain ⟨rfl, rfl⟩ := uniq b b' k k' h1 (fun h => h2 h hl) hk h1' (fun h => h2' h hl) hk'
  obtain ⟨q1, rfl⟩ := uniq b _ k k'' h1 (fun h => h2 h hl) hk h1'' (fun h => h2'' h hl) hk''
  exact ⟨b, k, e, e', by rw [e'', ← q1], iffOf b k h1 fun h => h2 h hl, h1, fun h => ⟨hk, h2 h hl⟩⟩

/-- C81: in a list of seven. -/
example : let l : LC F7 := [⟨1, .one⟩, ⟨1, .inst 1⟩, ⟨1, .inst 4⟩, ⟨1, .wit 0⟩, ⟨1, .wit 3⟩, ⟨1, .lc 0⟩, ⟨1, .lc 9⟩]
    getVarLocation l (.wit 3) = some (true, 4) ∧ getVarLocation l (.wit 2) = some (false, 4) ∧
      linearSearch (.wit 2) l 0 = (false, 4) := by
  decide +kernel

omit [DecidableEq F] in
/-- C81: adding and subtracting a term works for every list, and keeps strictly sorted lists so. -/
theorem C81_term (l : LC F) (t : Term F) :
    (∃ r, addTerm l t = some r ∧ (∀ z, lin z r = lin z l + t.coeff * z t.var) ∧ (Strict l → Strict r)) ∧
    ∃ r, subTerm l t = some r ∧ (∀ z, lin z r = lin z l - t.coeff * z t.var) ∧ (Strict l → Strict r) := by
  refine ⟨addTerm_spec l t, ?_⟩
  obtain ⟨r, e, h1, h2⟩ := addTerm_spec l t.neg
  refine ⟨r, e, fun z => ?_, h2⟩
  rw [h1 z]
  simp only [Term.neg]
  ring

/-- C81: as in linear_combination_unittest.cc:81-85 and :108-111. -/
example : addTerm [⟨5, .zero⟩, ⟨2, .one⟩] (⟨3, .inst 0⟩ : Term F7) = some [⟨5, .zero⟩, ⟨2, .one⟩, ⟨3, .inst 0⟩] ∧
    subTerm [⟨5, .zero⟩, ⟨2, .one⟩] (⟨3, .one⟩ : Term F7) = some [⟨5, .zero⟩, ⟨6, .one⟩] := by
  decide +kernel

omit [DecidableEq F] in
/-- C81: the sum, difference, negation and multiple of linear combinations have the values they should. -/
theorem C81_values (z : Var → F) (l r : LC F) (s : F) :
    lin z (add l r) = lin z l + lin z r ∧ lin z (sub l r) = lin z l - lin z r ∧ lin z (neg l) = -lin z l ∧
    lin z (mulScalar l s) = lin z l * s := by
  refine ⟨?_, ?_, lin_neg z l, lin_mulScalar z l s⟩
  · rw [add]
    split
    · next h => rw [List.isEmpty_iff.1 h]; simp
    · split
      · next h => rw [List.isEmpty_iff.1 h]; simp
      · rw [lin_doAddition]; simp
  · rw [sub]
    split
    · next h => rw [List.isEmpty_iff.1 h, lin_neg]; simp
    · split
      · next h => rw [List.isEmpty_iff.1 h]; simp
      · rw [lin_doAddition]; simp [sub_eq_add_neg]

omit [DecidableEq F] in
/-- C81: on strictly sorted linear combinations the merge is what sorting and deduplicating the joined lists
gives. -/
theorem C81_merge (s : Sorter F) {l r : LC F} (hl : Strict l) (hr : Strict r) :
    add l r = dedup s (l ++ r) ∧ sub l r = dedup s (l ++ neg r) ∧ Strict (neg l) ∧ ∀ c, Strict (mulScalar l c) := by
  have hneg : ∀ {l : LC F}, Strict l → Strict (neg l) := fun h => strict_map (f := Term.neg) (fun _ => rfl) h
  have hmemneg : ∀ (l : LC F) v, (∃ u ∈ neg l, u.var = v) ↔ ∃ u ∈ l, u.var = v := by
    intro l v; simp [neg, Term.neg]
  have hmem : ∀ (a b : LC F) v, (∃ u ∈ dedup s (a ++ b), u.var = v) ↔ (∃ u ∈ a, u.var = v) ∨ ∃ u ∈ b, u.var = v := by
    intro a b v
    rw [mem_dedup]
    simp only [List.mem_append, or_and_right, exists_or]
  refine ⟨Strict.ext ?_ (strict_dedup s _) (fun v => ?_) fun v => ?_,
    Strict.ext ?_ (strict_dedup s _) (fun v => ?_) fun v => ?_, hneg hl, fun c => strict_map (f := (Term.mul · c)) (fun _ => rfl) hl⟩
  · rw [add]; split
    · exact hr
    · split
      · exact hl
      · exact strict_doAddition false l hl r hr
  · rw [hmem, add]; split
    · next h => rw [List.isEmpty_iff.1 h]; simp
    · split
      · next h => rw [List.isEmpty_iff.1 h]; simp
      · exact mem_doAddition false v l r
  · rw [coeffOf_eq_lin, coeffOf_eq_lin, lin_dedup, lin_append, (C81_values _ l r 0).1]
  · rw [sub]; split
    · exact hneg hr
    · split
      · exact hl
      · exact strict_doAddition true l hl r hr
  · rw [hmem, sub, hmemneg]; split
    · next h => rw [List.isEmpty_iff.1 h, hmemneg]; simp
    · split
      · next h => rw [List.isEmpty_iff.1 h]; simp
      · exact mem_doAddition true v l r
  · rw [coeffOf_eq_lin, coeffOf_eq_lin, lin_dedup, lin_append, (C81_values _ l r 0).2.1, lin_neg, sub_eq_add_neg]

/-- C81: a sum and a difference. -/
example : let l : LC F7 := [⟨5, .zero⟩, ⟨2, .inst 1⟩, ⟨1, .wit 4⟩]
    let r : LC F7 := [⟨3, .one⟩, ⟨5, .inst 1⟩, ⟨6, .lc 0⟩]
    add l r = [⟨5, .zero⟩, ⟨3, .one⟩, ⟨0, .inst 1⟩, ⟨1, .wit 4⟩, ⟨6, .lc 0⟩] ∧
    sub l r = [⟨5, .zero⟩, ⟨4, .one⟩, ⟨4, .inst 1⟩, ⟨1, .wit 4⟩, ⟨1, .lc 0⟩] := by
  decide +kernel

omit [Field F] [DecidableEq F] in
/-- C81: `std::is_sorted` on the terms asks for sortedness only, not for distinct variables. -/
theorem C81_isSorted (l : LC F) : isSorted l = true ↔ l.Pairwise fun a b => b.var.lt a.var = false := isSorted_iff l

example : isSorted ([⟨1, .one⟩, ⟨2, .one⟩, ⟨1, .wit 0⟩] : LC F7) = true ∧
    isSorted ([⟨1, .wit 1⟩, ⟨1, .wit 0⟩] : LC F7) = false := by
  decide +kernel

/-! ## C82: constraint systems -/

omit [DecidableEq F] in
/-- C82: a new system, and every call with known variables, leaves a well-formed system that knows its old
variables and the new one. -/
theorem C82_build {cs : CS F} (hb : Built cs) (v : F) {l : LC F} (hl : ∀ t ∈ l, cs.Known t.var) :
    (∀ setup construct weight, Built ({ setup := setup, construct := construct, weight := weight } : CS F)) ∧
    (Built (cs.createInstance v).2 ∧ (cs.createInstance v).2.Known (cs.createInstance v).1 ∧
      (∀ u, cs.Known u → (cs.createInstance v).2.Known u) ∧ ¬ cs.Known (cs.createInstance v).1) ∧
    (Built (cs.createWitness v).2 ∧ (cs.createWitness v).2.Known (cs.createWitness v).1 ∧
      (∀ u, cs.Known u → (cs.createWitness v).2.Known u) ∧ ¬ cs.Known (cs.createWitness v).1) ∧
    (Built (cs.createLC l).2 ∧ (cs.createLC l).2.Known (cs.createLC l).1 ∧
      (∀ u, cs.Known u → (cs.createLC l).2.Known u) ∧ ¬ cs.Known (cs.createLC l).1) := by
  refine ⟨built_new, ⟨hb.createInstance v, ?_, ?_, ?_⟩, ⟨hb.createWitness v, ?_, ?_, ?_⟩, hb.createLC hl, ?_, ?_, ?_⟩
  · exact Nat.lt_succ_self _
  · intro u hu
    cases u <;> simp only [CS.Known, CS.createInstance] at * <;> first | trivial | omega
  · exact Nat.lt_irrefl _
  · exact Nat.lt_succ_self _
  · intro u hu
    cases u <;> simp only [CS.Known, CS.createWitness] at * <;> first | trivial | omega
  · exact Nat.lt_irrefl _
  · exact ⟨Nat.lt_succ_self _, fun h => absurd (hb.cons _ (Or.inl h)) (Nat.lt_irrefl _),
      fun h => absurd (hb.cons _ (Or.inr (Or.inl h))) (Nat.lt_irrefl _),
      fun h => absurd (hb.cons _ (Or.inr (Or.inr h))) (Nat.lt_irrefl _)⟩
  · intro u hu
    cases u <;> simp only [CS.Known, CS.createLC] at *
    all_goals first | trivial | exact hu | exact ⟨by omega, hu.2⟩
  · exact fun h => Nat.lt_irrefl _ h.1

omit [DecidableEq F] in
/-- C82: the new variables stand for what they should, and change nothing about the constraints. -/
theorem C82_create {cs : CS F} (hb : Built cs) (v : F) (l : LC F) :
    (∀ x w z, Assign (cs.createLC l).2 x w z ↔ Assign cs x w z ∧ z (cs.createLC l).1 = lin z l) ∧
    (∀ x w z, Assign (cs.createInstance v).2 x w z ↔ Assign cs x w z) ∧
    (∀ x w z, Assign (cs.createWitness v).2 x w z ↔ Assign cs x w z) ∧
    (cs.setup = false → ∀ z, (Assign (cs.createInstance v).2 (cs.createInstance v).2.inst (cs.createInstance v).2.wit z ↔
      Assign cs cs.inst cs.wit z ∧ z (cs.createInstance v).1 = v) ∧
      (Assign (cs.createWitness v).2 (cs.createWitness v).2.inst (cs.createWitness v).2.wit z ↔
        Assign cs cs.inst cs.wit z ∧ z (cs.createWitness v).1 = v)) ∧
    ∀ z, (Products (cs.createLC l).2 z ↔ Products cs z) ∧ (Products (cs.createInstance v).2 z ↔ Products cs z) ∧
      (Products (cs.createWitness v).2 z ↔ Products cs z) := by
  refine ⟨fun x w z => ⟨fun h => ⟨⟨h.zero, h.one, h.inst, h.wit, fun i m e => h.lc i m (hb.find_createLC l e)⟩,
    h.lc _ _ ?_⟩, fun h => ⟨h.1.zero, h.1.one, h.1.inst, h.1.wit, fun i m e => ?_⟩⟩,
    fun x w z => ⟨fun h => ⟨h.zero, h.one, h.inst, h.wit, h.lc⟩, fun h => ⟨h.zero, h.one, h.inst, h.wit, h.lc⟩⟩,
    fun x w z => ⟨fun h => ⟨h.zero, h.one, h.inst, h.wit, h.lc⟩, fun h => ⟨h.zero, h.one, h.inst, h.wit, h.lc⟩⟩,
    fun hs z => ⟨⟨fun h => ?_, fun h => ?_⟩, fun h => ?_, fun h => ?_⟩, fun z => ⟨Iff.rfl, Iff.rfl, Iff.rfl⟩⟩
  · show mapFind (mapSet cs.lcMap cs.numLC l) cs.numLC = some l
    rw [mapFind_set, if_pos rfl]
  · have e : mapFind (mapSet cs.lcMap cs.numLC l) i = some m := e
    rw [mapFind_set] at e
    split at e
    · next hi => obtain rfl := Option.some.inj e; rw [← hi]; exact h.2
    · exact h.1.lc i m e
  · have hi : ∀ (i : ℕ) u, (cs.inst ++ [v])[i]? = some u → z (.inst i) = u := by
      intro i u e; refine h.inst i u ?_; simpa [CS.createInstance, hs] using e
    exact ⟨⟨h.zero, h.one, fun i u e => hi i u (getElem?_snoc.2 (Or.inl e)), h.wit, h.lc⟩,
      hi _ _ (getElem?_snoc.2 (Or.inr ⟨(hb.inst hs).symm, rfl⟩))⟩
  · refine ⟨h.1.zero, h.1.one, fun i u e => ?_, h.1.wit, h.1.lc⟩
    have e : (cs.inst ++ [v])[i]? = some u := by simpa [CS.createInstance, hs] using e
    rcases getElem?_snoc.1 e with e | ⟨rfl, rfl⟩
    · exact h.1.inst i u e
    · rw [hb.inst hs]; exact h.2
  · have hi : ∀ (i : ℕ) u, (cs.wit ++ [v])[i]? = some u → z (.wit i) = u := by
      intro i u e; refine h.wit i u ?_; simpa [CS.createWitness, hs] using e
    exact ⟨⟨h.zero, h.one, h.inst, fun i u e => hi i u (getElem?_snoc.2 (Or.inl e)), h.lc⟩,
      hi _ _ (getElem?_snoc.2 (Or.inr ⟨(hb.wit hs).symm, rfl⟩))⟩
  · refine ⟨h.1.zero, h.1.one, h.1.inst, fun i u e => ?_, h.1.lc⟩
    have e : (cs.wit ++ [v])[i]? = some u := by simpa [CS.createWitness, hs] using e
    rcases getElem?_snoc.1 e with e | ⟨rfl, rfl⟩
    · exact h.1.wit i u e
    · rw [hb.wit hs]; exact h.2

omit [DecidableEq F] in
/-- C82: `EnforceConstraint` adds exactly the constraint `a * b = c`; it aborts when no matrices are wanted. -/
theorem C82_enforce {cs : CS F} (hb : Built cs) {a b c : LC F} (ha : ∀ t ∈ a, cs.Known t.var)
    (hbb : ∀ t ∈ b, cs.Known t.var) (hc : ∀ t ∈ c, cs.Known t.var) :
    (cs.shouldConstruct = true → ∃ cs', cs.enforce a b c = some cs' ∧ Built cs' ∧ cs'.numInst = cs.numInst ∧
      cs'.numWit = cs.numWit ∧ cs'.numCons = cs.numCons + 1 ∧ cs'.inst = cs.inst ∧ cs'.wit = cs.wit ∧
      (∀ v, cs.Known v → cs'.Known v) ∧
      ∀ x w z, x.length = cs.numInst → w.length = cs.numWit → Assign cs x w z →
        (Sat cs' x w ↔ Sat cs x w ∧ lin z a * lin z b = lin z c)) ∧
    (cs.shouldConstruct = false → cs.enforce a b c = none) :=
  ⟨fun h => hb.enforce h ha hbb hc, fun h => by rw [CS.enforce, h]; rfl⟩

omit [DecidableEq F] in
/-- C82: the goal can be chosen for a new system only, not after a variable, a linear combination or a constraint. -/
theorem C82_goal {cs : CS F} (hb : Built cs) (v : F) (l a b c : LC F) (w : Bool) :
    (∀ setup construct weight, ({ setup := setup, construct := construct, weight := weight } : CS F).setGoal w =
      some { setup := setup, construct := construct, weight := w }) ∧
    (cs.createInstance v).2.setGoal w = none ∧ (cs.createWitness v).2.setGoal w = none ∧
    (cs.createLC l).2.setGoal w = none ∧ ∀ cs', cs.enforce a b c = some cs' → cs'.setGoal w = none := by
  have hp := hb.pos
  refine ⟨fun _ _ _ => rfl, if_neg ?_, if_neg ?_, if_neg ?_, fun cs' h => if_neg ?_⟩
  · rintro ⟨h, -⟩
    have : cs.numInst + 1 = 1 := h
    omega
  · rintro ⟨-, h, -⟩
    have : cs.numWit + 1 = 0 := h
    omega
  · rintro ⟨-, -, -, h⟩
    have : cs.numLC + 1 = 0 := h
    omega
  · rintro ⟨-, -, h', -⟩
    rw [CS.enforce] at h
    split at h
    · cases h
      exact absurd (show cs.numCons + 1 = 0 from h') (by omega)
    · cases h

example : (({} : CS F7).setGoal true).isSome = true ∧ ((({} : CS F7).createWitness 3).2.setGoal true).isSome = false ∧
    ((({} : CS F7).createLC [⟨2, .one⟩]).2.setGoal false).isSome = false := by
  decide +kernel

omit [DecidableEq F] in
/-- C82: all values of the instance and witness variables extend to the linear combinations in one way. -/
theorem C82_assign {cs : CS F} (hb : Built cs) (x w : List F) :
    (∃ z, Assign cs x w z) ∧ (x.length = cs.numInst → w.length = cs.numWit → ∀ z z', Assign cs x w z →
      Assign cs x w z' → (∀ i < cs.numLC, z (.lc i) = z' (.lc i)) ∧ (Products cs z ↔ Sat cs x w)) :=
  ⟨hb.exists x w, fun hx hw _ _ h h' => ⟨Assign.unique hb hx hw h h', (hb.sat_iff hx hw h).symm⟩⟩

omit [DecidableEq F] in
/-- C82: `GetAssignedValue` gives the value of any variable, whatever has been cached, and what it caches is
right for all later calls. -/
theorem C82_value {cs : CS F} (hb : Built cs) (hs : cs.setup = false) {v : Var}
    (hv : v.Concrete cs.numInst cs.numWit ∨ ∃ j < cs.numLC, v = .lc j) :
    ∃ r c, cs.value v = some (r, { cs with cache := c }) ∧ Built { cs with cache := c } ∧
      ∀ z, Assign cs cs.inst cs.wit z → z v = r := hb.value hs hv

/-- C82: `IsSatisfied` is right before `Finalize`. -/
theorem C82_satisfied {cs : CS F} (hb : Built cs) :
    (cs.setup = false → ∃ r c, cs.isSatisfied = some (r, { cs with cache := c }) ∧ Built { cs with cache := c } ∧
      (r = true ↔ Sat cs cs.inst cs.wit)) ∧
    (cs.setup = true → cs.isSatisfied = some (false, cs)) :=
  ⟨fun hs => hb.isSatisfied hs, fun hs => by rw [CS.isSatisfied, if_pos hs]⟩

/-- C82: `IsSatisfied` is right after `Finalize`. -/
theorem C82_satisfied_final {cs : CS F} (hf : Finalized cs) (hs : cs.setup = false) :
    ∃ r, cs.isSatisfied = some (r, cs) ∧ (r = true ↔ Sat cs cs.inst cs.wit) := hf.isSatisfied hs

omit [DecidableEq F] in
/-- C82: `InlineAllLCs` removes all references between linear combinations, keeps the number of constraints
and variables, and the same values satisfy the system before and after. -/
theorem C82_inline (s : Sorter F) {cs : CS F} (hb : Built cs) (hc : cs.shouldConstruct = true)
    (hsize : ∀ j, refs cs.lcMap j < 2 ^ 64) :
    ∃ tmap, cs.inlineAll s = some { cs with lcMap := tmap } ∧ Finalized { cs with lcMap := tmap } ∧
      (cs.ZeroFree → CS.ZeroFree { cs with lcMap := tmap }) ∧
      ∀ x w, x.length = cs.numInst → w.length = cs.numWit → (Sat { cs with lcMap := tmap } x w ↔ Sat cs x w) := by
  obtain ⟨tmap, e, hf, hsat⟩ := inlineAll_spec s hb hc (Z := ¬ cs.ZeroFree) (by simp) hsize
  exact ⟨tmap, e, hf.fin, fun h => hf.zero (by simpa using h), hsat⟩

omit [DecidableEq F] in
/-- C82: `OutlineLCs` gives linear combinations `ls` witnesses of their own. Values satisfy the new system
exactly if the old ones among them satisfy the old system and the new ones are the values of `ls`, which are
the ones it assigns. -/
theorem C82_outline (s : Sorter F) {cs : CS F} (hb : Built cs) (hc : cs.shouldConstruct = true)
    (hsize : ∀ j, refs cs.lcMap j < 2 ^ 64) :
    ∃ (cs' : CS F) (ext : List F → List F → List F) (k : ℕ), cs.outline s = some cs' ∧ Finalized cs' ∧
      (cs.ZeroFree → cs'.ZeroFree) ∧ cs'.setup = cs.setup ∧ cs'.numInst = cs.numInst ∧ cs'.inst = cs.inst ∧
      cs'.numWit = cs.numWit + k ∧ cs'.numCons = cs.numCons + k ∧
      (cs.setup = false → cs'.wit = cs.wit ++ ext cs.inst cs.wit) ∧
      ∀ x w, x.length = cs.numInst → w.length = cs.numWit → (ext x w).length = k ∧
        ∀ u, u.length = k → (Sat cs' x (w ++ u) ↔ Sat cs x w ∧ u = ext x w) := by
  obtain ⟨cs', ls, e, hf, h1, h2, h3, h4, h5, -, h6, hsat⟩ := outline_spec s hb hc (Z := ¬ cs.ZeroFree) (by simp) hsize
  have hext : ∀ x w, extend x w ls = w ++ (extend x w ls).drop w.length := by
    intro x w
    obtain ⟨u, e⟩ := extend_prefix x w ls
    rw [e]; simp
  refine ⟨cs', fun x w => (extend x w ls).drop w.length, ls.length, e, hf.fin, fun h => hf.zero (by simpa using h),
    h1, h2, h3, h4, h5, fun hs => by rw [h6 hs]; exact hext _ _, fun x w hx hw => ⟨by
      rw [List.length_drop, extend_length]; omega, fun u hu => ?_⟩⟩
  rw [hsat x (w ++ u) (by rw [hx, h2]) (by rw [List.length_append, h4, hw, hu]), ← hw, List.take_left]
  refine and_congr_right fun _ => ?_
  constructor
  · intro h; simp only; rw [← h]; simp
  · intro h
    have := hext x w
    simp only at h
    rw [← h] at this; exact this.symm

omit [DecidableEq F] in
/-- C82: whatever the goal, `Finalize` leaves a system that the same instance values can satisfy, and that its
own values satisfy exactly if they did before; without matrices it does nothing. -/
theorem C82_finalize (s : Sorter F) {cs : CS F} (hb : Built cs) (hsize : ∀ j, refs cs.lcMap j < 2 ^ 64) :
    (cs.shouldConstruct = true → ∃ cs', cs.finalize s = some cs' ∧ Finalized cs' ∧ (cs.ZeroFree → cs'.ZeroFree) ∧
      cs'.numInst = cs.numInst ∧ cs'.inst = cs.inst ∧ cs'.setup = cs.setup ∧
      (cs.weight = false → cs'.numWit = cs.numWit ∧ cs'.numCons = cs.numCons ∧ cs'.wit = cs.wit) ∧
      (∀ x, x.length = cs.numInst →
        ((∃ w, w.length = cs.numWit ∧ Sat cs x w) ↔ ∃ w, w.length = cs'.numWit ∧ Sat cs' x w)) ∧
      (cs.setup = false → (Sat cs cs.inst cs.wit ↔ Sat cs' cs'.inst cs'.wit))) ∧
    (cs.shouldConstruct = false → cs.finalize s = some cs) := by
  refine ⟨fun hc => ?_, fun h => ?_⟩
  · cases hw : cs.weight with
    | false =>
      obtain ⟨tmap, e, h1, h2, h3⟩ := C82_inline s hb hc hsize
      refine ⟨_, by rw [CS.finalize, if_neg (by simp [hw]), e], h1, h2, rfl, rfl, rfl, fun _ => ⟨rfl, rfl, rfl⟩,
        fun x hx => exists_congr fun w => and_congr_right fun hwl => (h3 x w hx hwl).symm,
        fun hs => (h3 _ _ (hb.inst hs) (hb.wit hs)).symm⟩
    | true =>
      obtain ⟨cs', ext, k, e, h1, h2, h3, h4, h5, h6, h7, h8, h9⟩ := C82_outline s hb hc hsize
      refine ⟨cs', by rw [CS.finalize, if_pos hw, e], h1, h2, h4, h5, h3, fun h => absurd h (by simp),
        fun x hx => ⟨?_, ?_⟩, fun hs => ?_⟩
      · rintro ⟨w, hwl, hsat⟩
        obtain ⟨q1, q2⟩ := h9 x w hx hwl
        exact ⟨w ++ ext x w, by rw [List.length_append, q1, hwl, h6], (q2 _ q1).2 ⟨hsat, rfl⟩⟩
      · rintro ⟨w, hwl, hsat⟩
        have ht : (w.take cs.numWit).length = cs.numWit := by rw [List.length_take]; omega
        have hd : (w.drop cs.numWit).length = k := by rw [List.length_drop]; omega
        obtain ⟨-, q2⟩ := h9 x (w.take cs.numWit) hx ht
        refine ⟨_, ht, ((q2 _ hd).1 ?_).1⟩
        rw [List.take_append_drop]; exact hsat
      · obtain ⟨q1, q2⟩ := h9 cs.inst cs.wit (hb.inst hs) (hb.wit hs)
        rw [h8 hs, h5, q2 _ q1]
        simp
  · rw [CS.finalize, CS.outline, CS.inlineAll, h]
    split <;> rfl

/-- C82: after `Finalize`, the matrices of `ToMatrices` say about the vector of all values what the system
says; every cell is in range and has a coefficient other than zero. -/
theorem C82_matrices {cs : CS F} (hf : Finalized cs) (hz : cs.ZeroFree) (hc : cs.shouldConstruct = true) :
    ∃ m : Matrices F, cs.toMatrices = some (some m) ∧ m.numInst = cs.numInst ∧ m.numWit = cs.numWit ∧
      m.numCons = cs.numCons ∧ m.a.length = cs.numCons ∧ m.b.length = cs.numCons ∧ m.c.length = cs.numCons ∧
      m.aNonZero = (m.a.map List.length).sum ∧ m.bNonZero = (m.b.map List.length).sum ∧
      m.cNonZero = (m.c.map List.length).sum ∧ CellsOk m.a (cs.numInst + cs.numWit) ∧
      CellsOk m.b (cs.numInst + cs.numWit) ∧ CellsOk m.c (cs.numInst + cs.numWit) ∧
      ∀ x w, x.length = cs.numInst → w.length = cs.numWit → x[0]? = some 1 →
        (MatSat m (x ++ w) ↔ Sat cs x w) := toMatrices_spec hf hz hc

/-- C82: without matrices there is no result. -/
theorem C82_matrices_none {cs : CS F} (hc : cs.shouldConstruct = false) : cs.toMatrices = some none := by
  rw [CS.toMatrices, hc]; rfl

omit [DecidableEq F] in
/-- C82: `ComputeLCNumTimesUsed` counts the references, and each linear combination once more if asked. -/
theorem C82_used {cs : CS F} (hb : Built cs) (sinks : Bool) :
    ∃ used, cs.numTimesUsed sinks = some used ∧ used.length = cs.numLC ∧
      ∀ j < cs.numLC, used[j]? = some (refs cs.lcMap j + if sinks then 1 else 0) := by
  have hlen : cs.lcMap.length = cs.numLC := by have := congrArg List.length hb.keys; simpa using this
  obtain ⟨used, e, h⟩ := numTimesUsed_spec hb.keys sinks (fun e he t ht j hv => by
    obtain ⟨i, hi, rfl⟩ := List.mem_iff_getElem.1 he
    have h1 : (cs.lcMap.map (·.1))[i]? = (List.range cs.numLC)[i]? := by rw [hb.keys]
    rw [List.getElem?_map, List.getElem?_eq_getElem hi, List.getElem?_range (by omega)] at h1
    have h1' : cs.lcMap[i].1 = i := by simpa using h1
    have hf : mapFind cs.lcMap i = some cs.lcMap[i].2 := by
      rw [mapFind_range hb.keys, List.getElem?_eq_getElem hi]
      exact congrArg some (Prod.ext h1' rfl)
    have := (hb.terms i _ hf t ht).2 j hv
    omega)
  exact ⟨used, e, h.1, h.2⟩

/-! ### The system of constraint_system_unittest.cc:158-228 -/

/-- `a` is an instance variable, `b` and `c` are witnesses; `a * 2b = c`, `d = a + b`, `a * d = d`,
`e = d + d`, `1 * e = e`. -/
def exSystem (weight : Bool) : Option (CS F7) :=
  let a := CS.createInstance ({ weight := weight } : CS F7) 1
  let b := a.2.createWitness 1
  let c := b.2.createWitness 2
  (c.2.enforce [⟨1, a.1⟩] [⟨2, b.1⟩] [⟨1, c.1⟩]).bind fun s1 =>
  let d := s1.createLC [⟨1, a.1⟩, ⟨1, b.1⟩]
  (d.2.enforce [⟨1, a.1⟩] [⟨1, d.1⟩] [⟨1, d.1⟩]).bind fun s2 =>
  let e := s2.createLC [⟨1, d.1⟩, ⟨1, d.1⟩]
  e.2.enforce [⟨1, .one⟩] [⟨1, e.1⟩] [⟨1, e.1⟩]

/-- C82: the matrices the test expects for `OptimizationGoal::kConstraints`. -/
example : ((exSystem false).bind (·.finalize exSorter)).bind (·.toMatrices) = some (some
    ⟨2, 2, 3, 3, 5, 5, [[⟨1, 1⟩], [⟨1, 1⟩], [⟨1, 0⟩]], [[⟨2, 2⟩], [⟨1, 1⟩, ⟨1, 2⟩], [⟨2, 1⟩, ⟨2, 2⟩]],
      [[⟨1, 3⟩], [⟨1, 1⟩, ⟨1, 2⟩], [⟨2, 1⟩, ⟨2, 2⟩]]⟩) := by
  decide +kernel

/-- C82: the matrices the test expects for `OptimizationGoal::kWeight`. -/
example : ((exSystem true).bind (·.finalize exSorter)).bind (·.toMatrices) = some (some
    ⟨2, 3, 4, 5, 4, 4, [[⟨1, 1⟩], [⟨1, 1⟩], [⟨1, 0⟩], [⟨1, 1⟩, ⟨1, 2⟩]], [[⟨2, 2⟩], [⟨1, 4⟩], [⟨2, 4⟩], [⟨1, 0⟩]],
      [[⟨1, 3⟩], [⟨1, 4⟩], [⟨2, 4⟩], [⟨1, 4⟩]]⟩) := by
  decide +kernel

/-- C82: the system is satisfied before and after, and its counts. -/
example : ((exSystem true).bind (·.isSatisfied)).map (·.1) = some true ∧
    (((exSystem true).bind (·.finalize exSorter)).bind (·.isSatisfied)).map (·.1) = some true ∧
    ((exSystem true).bind (·.numTimesUsed false)) = some [0, 0, 0, 4, 0, 0, 0, 2, 0, 0, 0] ∧
    ((exSystem true).bind (·.value (.lc 7))).map (·.1) = some 4 := by
  decide +kernel

/-! ### What the code gets wrong -/

/-- C82: a term with the variable `Zero`, which `CreateZero` hands out, has no column: `MakeRow` dereferences
`std::nullopt`. -/
theorem C82_zero (cs : CS F) {l : LC F} {t : Term F} (ht : t ∈ l) (hv : t.var = .zero) (hc : t.coeff ≠ 0) :
    cs.makeRow l = none := by
  rw [CS.makeRow]
  have hmem : t ∈ l.filter fun t => t.coeff ≠ 0 := List.mem_filter.2 ⟨ht, by simpa using hc⟩
  generalize l.filter (fun t => decide (t.coeff ≠ 0)) = m at hmem
  clear ht
  induction m with
  | nil => simp at hmem
  | cons u m ih =>
    rw [List.mapM_cons]
    rcases List.mem_cons.1 hmem with rfl | h
    · rw [hv]; rfl
    · cases hu : (u.var.getIndex cs.numInst).map fun i => (⟨u.coeff, i⟩ : Cell F) with
      | none => rfl
      | some c => rw [ih h]; rfl

example : ((({} : CS F7).enforce [⟨1, .zero⟩] [⟨1, .one⟩] [⟨0, .zero⟩]).bind fun cs => cs.isSatisfied).map (·.1) =
      some true ∧
    (({} : CS F7).enforce [⟨1, .zero⟩] [⟨1, .one⟩] [⟨0, .zero⟩]).bind (·.finalize exSorter) ≠ none ∧
    (({} : CS F7).enforce [⟨1, .zero⟩] [⟨1, .one⟩] [⟨0, .zero⟩]).bind (fun cs => (cs.finalize exSorter).bind
      (·.toMatrices)) = none := by
  decide +kernel

/-- C82: calling `Finalize` again is out of bounds, as `num_times_used` has an entry for every linear
combination left and is indexed by their numbers. -/
theorem C82_finalize_twice : ∃ cs cs' : CS F7, Built cs ∧ cs.finalize exSorter = some cs' ∧
    cs'.finalize exSorter = none := by
  have hl : ∀ t ∈ ([⟨1, .one⟩] : LC F7), ({} : CS F7).Known t.var := by
    intro t ht; rw [List.mem_singleton.1 ht]; trivial
  have hk : ∀ t ∈ ([⟨1, .lc 0⟩] : LC F7), (({} : CS F7).createLC [⟨1, .one⟩]).2.Known t.var := by
    intro t ht; rw [List.mem_singleton.1 ht]; exact ⟨by decide, by simp [CS.createLC], by simp [CS.createLC], by simp [CS.createLC]⟩
  obtain ⟨cs, e, hb, -⟩ := (((built_new false true false : Built ({} : CS F7)).createLC hl).enforce rfl hk hk hk)
  have e' : (({} : CS F7).createLC [⟨1, .one⟩]).2.enforce [⟨1, .lc 0⟩] [⟨1, .lc 0⟩] [⟨1, .lc 0⟩] = some
      { numLC := 4, numCons := 1, lcMap := [(0, [⟨1, .one⟩]), (1, [⟨1, .lc 0⟩]), (2, [⟨1, .lc 0⟩]), (3, [⟨1, .lc 0⟩])],
        aCons := [1], bCons := [2], cCons := [3] } := by decide +kernel
  rw [e] at e'
  obtain rfl := Option.some.inj e'
  refine ⟨_, { numLC := 4, numCons := 1, lcMap := [(1, [⟨1, .one⟩]), (2, [⟨1, .one⟩]), (3, [⟨1, .one⟩])],
               aCons := [1], bCons := [2], cCons := [3] }, hb, ?_, ?_⟩ <;> decide +kernel

/-- C82: naming the linear combination of a constraint, by `Variable::SymbolicLinearCombination`, makes
`InlineAllLCs` erase it: then `IsSatisfied` aborts and `ToMatrices` is undefined. -/
theorem C82_forged : ∃ cs cs' : CS F7, cs.isSatisfied.map (·.1) = some true ∧ cs.finalize exSorter = some cs' ∧
    cs'.isSatisfied = none ∧ cs'.toMatrices = none :=
  ⟨((({} : CS F7).enforce [⟨1, .one⟩] [⟨1, .one⟩] [⟨1, .one⟩]).bind fun cs => some (cs.createLC [⟨1, .lc 0⟩]).2).getD {},
    { numLC := 4, numCons := 1, lcMap := [(1, [⟨1, .one⟩]), (2, [⟨1, .one⟩]), (3, [⟨1, .one⟩])],
      aCons := [0], bCons := [1], cCons := [2] }, by decide +kernel, by decide +kernel, by decide +kernel,
    by decide +kernel⟩

omit [DecidableEq F] in
/-- C82: in setup mode no variable but the constants has a value to read. -/
theorem C82_value_setup (cs : CS F) (h : cs.wit = []) (i : ℕ) : cs.value (.wit i) = none := by
  rw [CS.value]
  cases cs.numLC <;> simp [CS.valueGo, h]

example : ((({ setup := true } : CS F7).createWitness 3).2.value (.wit 0)) = none ∧
    ((({} : CS F7).createWitness 3).2.value (.wit 0)).map (·.1) = some 3 := by
  decide +kernel

end Tachyon.Props
