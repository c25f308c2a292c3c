import Verif.Proofs.LookupIdent
import Mathlib.Data.List.Perm.Basic
import Mathlib.Tactic.Ring
import Mathlib.Tactic.Linarith
/-! The map of lookups and the chunks (C90). -/
universe u
namespace Tachyon.LookupChunk
open Plonk CircuitPoly

section
variable {F : Type u}

theorem containsSimple_iff (simple : ℕ → Bool) (e : Expr F) :
    containsSimple simple e = true ↔ Selector.simpleOf simple e ≠ [] := by
  unfold Selector.simpleOf
  induction e <;> simp_all [containsSimple, Selector.selectorsOf, imp_iff_not_or]

/-- What the map says: the identifier of the table, with each of the inputs. -/
def entries (m : LookupMap F) : List (List Char × List (Expr F)) := m.flatMap fun p => p.2.inputs.map fun i => (p.1, i)

theorem updateMap_perm (key : List Char) (input table : List (Expr F)) (m : LookupMap F) :
    (entries (updateMap key input table m)).Perm ((key, input) :: entries m) := by
  induction m with
  | nil => simp [updateMap, entries]
  | cons p m ih =>
    obtain ⟨k, t⟩ := p
    simp only [updateMap]
    split
    · next h =>
      subst h
      simp only [entries, List.flatMap_cons, List.map_append, List.map_cons, List.map_nil, List.append_assoc,
        List.cons_append, List.nil_append]
      exact List.perm_middle
    · split
      · simp [entries]
      · simp only [entries, List.flatMap_cons] at ih ⊢
        exact (List.Perm.append_left _ ih).trans List.perm_middle

theorem updateMap_tables {canon : F → ℕ} {input table : List (Expr F)} {m : LookupMap F} {P : List (Expr F) → Prop}
    (hm : ∀ p ∈ m, p.1 = tableIdentifier canon p.2.table ∧ p.2.inputs ≠ [] ∧ P p.2.table) (hp : P table) :
    ∀ p ∈ updateMap (tableIdentifier canon table) input table m,
      p.1 = tableIdentifier canon p.2.table ∧ p.2.inputs ≠ [] ∧ P p.2.table := by
  induction m with
  | nil => simpa [updateMap] using hp
  | cons q m ih =>
    obtain ⟨k, t⟩ := q
    have hq := hm (k, t) (by simp)
    have hr : ∀ p ∈ m, p.1 = tableIdentifier canon p.2.table ∧ p.2.inputs ≠ [] ∧ P p.2.table :=
      fun p h => hm p (by simp [h])
    simp only [updateMap]
    split
    · intro p h
      rcases List.mem_cons.1 h with rfl | h
      · exact ⟨hq.1, by simp, hq.2.2⟩
      · exact hr p h
    · split
      · intro p h
        rcases List.mem_cons.1 h with rfl | h
        · exact ⟨rfl, by simp, hp⟩
        · exact hm p h
      · intro p h
        rcases List.mem_cons.1 h with rfl | h
        · exact hq
        · exact ih hr p h

theorem updateMap_keys {key : List Char} {input table : List (Expr F)} {m : LookupMap F} {p : List Char × Tracker F}
    (h : p ∈ updateMap key input table m) : p.1 = key ∨ ∃ q ∈ m, q.1 = p.1 := by
  induction m with
  | nil =>
    simp only [updateMap, List.mem_singleton] at h
    exact Or.inl (by rw [h])
  | cons q m ih =>
    obtain ⟨k, t⟩ := q
    simp only [updateMap] at h
    split at h
    · rcases List.mem_cons.1 h with rfl | h
      · exact Or.inr ⟨(k, t), by simp, rfl⟩
      · exact Or.inr ⟨p, by simp [h], rfl⟩
    · split at h
      · rcases List.mem_cons.1 h with rfl | h
        · exact Or.inl rfl
        · exact Or.inr ⟨p, h, rfl⟩
      · rcases List.mem_cons.1 h with rfl | h
        · exact Or.inr ⟨(k, t), by simp, rfl⟩
        · rcases ih h with h | ⟨q, hq, e⟩
          · exact Or.inl h
          · exact Or.inr ⟨q, by simp [hq], e⟩

theorem updateMap_sorted {key : List Char} {input table : List (Expr F)} {m : LookupMap F}
    (hm : m.Pairwise fun p q => p.1 < q.1) : (updateMap key input table m).Pairwise fun p q => p.1 < q.1 := by
  induction m with
  | nil => simp [updateMap]
  | cons q m ih =>
    obtain ⟨k, t⟩ := q
    obtain ⟨h1, h2⟩ := List.pairwise_cons.1 hm
    simp only [updateMap]
    split
    · exact List.pairwise_cons.2 ⟨h1, h2⟩
    · next hk =>
      split
      · next hlt =>
        refine List.pairwise_cons.2 ⟨?_, hm⟩
        intro p hp
        rcases List.mem_cons.1 hp with rfl | hp
        · exact hlt
        · exact List.lt_trans hlt (h1 p hp)
      · next hnlt =>
        refine List.pairwise_cons.2 ⟨?_, ih h2⟩
        intro p hp
        rcases updateMap_keys hp with h | ⟨q, hq, e⟩
        · rw [h]
          rcases List.le_iff_lt_or_eq.1 (List.not_lt.1 hnlt) with h | h
          · exact h
          · exact absurd h hk
        · rw [← e]
          exact h1 q hq

theorem lookupAll_none (canon : F → ℕ) (simple : ℕ → Bool) (calls : List (List (Expr F × Expr F))) (m : LookupMap F) :
    lookupAll canon simple calls m = none ↔ ∃ c ∈ calls, ∃ p ∈ c, Selector.simpleOf simple p.1 ≠ [] := by
  induction calls generalizing m with
  | nil => simp [lookupAll]
  | cons c cs ih =>
    simp only [lookupAll, lookupAny]
    by_cases h : c.any (fun p => containsSimple simple p.1) = true
    · rw [if_pos h]
      obtain ⟨p, hp, hs⟩ := List.any_eq_true.1 h
      simp only [Option.bind_none, true_iff]
      exact ⟨c, by simp, p, hp, (containsSimple_iff simple p.1).1 hs⟩
    · rw [if_neg h]
      simp only [Option.bind_some, ih]
      constructor
      · rintro ⟨c', hc', r⟩
        exact ⟨c', by simp [hc'], r⟩
      · rintro ⟨c', hc', p, hp, hs⟩
        rcases List.mem_cons.1 hc' with rfl | hc'
        · exact absurd (List.any_eq_true.2 ⟨p, hp, (containsSimple_iff simple p.1).2 hs⟩) h
        · exact ⟨c', hc', p, hp, hs⟩

theorem lookupAll_spec {canon : F → ℕ} {simple : ℕ → Bool} {P : List (Expr F) → Prop} :
    ∀ {calls : List (List (Expr F × Expr F))} {m m' : LookupMap F}, lookupAll canon simple calls m = some m' →
    (∀ p ∈ m, p.1 = tableIdentifier canon p.2.table ∧ p.2.inputs ≠ [] ∧ P p.2.table) →
    (∀ c ∈ calls, P (c.map Prod.snd)) → (m.Pairwise fun p q => p.1 < q.1) →
    (entries m').Perm (entries m ++ calls.map fun c => (tableIdentifier canon (c.map Prod.snd), c.map Prod.fst)) ∧
      (∀ p ∈ m', p.1 = tableIdentifier canon p.2.table ∧ p.2.inputs ≠ [] ∧ P p.2.table) ∧
      (m'.Pairwise fun p q => p.1 < q.1) := by
  intro calls
  induction calls with
  | nil =>
    intro m m' h hm _ hs
    simp only [lookupAll, Option.some.injEq] at h
    subst h
    exact ⟨by simp, hm, hs⟩
  | cons c cs ih =>
    intro m m' h hm hc hs
    simp only [lookupAll, lookupAny] at h
    split at h
    · simp at h
    · simp only [Option.bind_some] at h
      obtain ⟨h1, h2, h3⟩ := ih h (updateMap_tables hm (hc c (by simp))) (fun c' h' => hc c' (by simp [h']))
        (updateMap_sorted hs)
      refine ⟨h1.trans ?_, h2, h3⟩
      simp only [List.map_cons]
      exact (List.Perm.append_right _ (updateMap_perm _ _ _ m)).trans List.perm_middle.symm

/-! The chunks. -/

/-- The degree of an argument whose columns all have the right length. -/
def cost (a : MultiArgument F) : ℕ := 2 + (a.inputs.map maxExprDegree).sum + maxExprDegree a.table

theorem foldl_max_eq (es : List (Expr F)) (d : ℕ) :
    es.foldl (fun d e => max d (degree e)) d = max d ((es.map degree).foldr max 0) := by
  induction es generalizing d with
  | nil => simp
  | cons e es ih => simp only [List.foldl_cons, ih, List.map_cons, List.foldr_cons]; omega

theorem one_le_maxExprDegree (es : List (Expr F)) : 1 ≤ maxExprDegree es := by
  unfold maxExprDegree
  rw [foldl_max_eq]
  omega

theorem length_le_sum (l : List (List (Expr F))) : l.length ≤ (l.map maxExprDegree).sum := by
  induction l with
  | nil => simp
  | cons i l ih =>
    have := one_le_maxExprDegree i
    simp only [List.length_cons, List.map_cons, List.sum_cons]
    omega

theorem requiredDegree_eq {a : MultiArgument F} (h : ∀ i ∈ a.inputs, i.length = a.table.length) :
    requiredDegree a = some (cost a) := by
  unfold requiredDegree
  rw [if_neg]
  · have h1 := length_le_sum a.inputs
    have h2 := one_le_maxExprDegree a.table
    unfold cost
    congr 1
    omega
  · intro hc
    obtain ⟨i, hi, hne⟩ := List.any_eq_true.1 hc
    simp only [ne_eq, decide_not, Bool.not_eq_eq_eq_not, Bool.not_true, decide_eq_false_iff_not] at hne
    exact hne (h i hi)

theorem requiredDegree_some {a : MultiArgument F} {c : ℕ} (h : requiredDegree a = some c) :
    (∀ i ∈ a.inputs, i.length = a.table.length) ∧ c = cost a := by
  have hw : ∀ i ∈ a.inputs, i.length = a.table.length := by
    intro i hi
    by_contra hne
    unfold requiredDegree at h
    rw [if_pos (List.any_eq_true.2 ⟨i, hi, by simpa using hne⟩)] at h
    simp at h
  rw [requiredDegree_eq hw] at h
  exact ⟨hw, (Option.some.inj h).symm⟩

theorem max?_eq_foldr (l : List ℕ) (h : l ≠ []) : l.max? = some (l.foldr max 0) := by
  rw [List.max?_eq_some_iff]
  have key : ∀ l : List ℕ, (∀ x ∈ l, x ≤ l.foldr max 0) ∧ (l ≠ [] → l.foldr max 0 ∈ l) := by
    intro l
    induction l with
    | nil => simp
    | cons a l ih =>
      refine ⟨?_, fun _ => ?_⟩
      · intro x hx
        rcases List.mem_cons.1 hx with rfl | hx
        · simp
        · exact (ih.1 x hx).trans (by simp)
      · simp only [List.foldr_cons]
        cases l with
        | nil => simp
        | cons b l =>
          rcases max_choice a (List.foldr max 0 (b :: l)) with e | e
          · rw [e]; simp
          · rw [e]; exact List.mem_cons_of_mem _ (ih.2 (by simp))
  exact ⟨(key l).2 h, (key l).1⟩

theorem columnDegree_eq {es : List (Expr F)} (h : es ≠ []) : columnDegree es = some ((es.map degree).foldr max 0) :=
  max?_eq_foldr _ (by simpa using h)

theorem maxExprDegree_eq (es : List (Expr F)) : maxExprDegree es = max 1 ((es.map degree).foldr max 0) := foldl_max_eq es 1

/-- An argument with one more input. -/
def push (a : MultiArgument F) (i : List (Expr F)) : MultiArgument F := { a with inputs := a.inputs ++ [i] }

theorem addInput_spec {M d : ℕ} {i : List (Expr F)} : ∀ {as : List (MultiArgument F)} {r : List (MultiArgument F) × Bool},
    addInput M d i as = some r →
    (r.2 = true ∧ ∃ l a r', as = l ++ a :: r' ∧ r.1 = l ++ push a i :: r' ∧
      (∀ x ∈ l, M < cost x + d) ∧ cost a + d ≤ M) ∨ (r.2 = false ∧ r.1 = as ∧ ∀ x ∈ as, M < cost x + d) := by
  intro as
  induction as with
  | nil =>
    intro r h
    simp only [addInput, Option.some.injEq] at h
    subst h
    exact Or.inr ⟨rfl, rfl, by simp⟩
  | cons a as ih =>
    intro r h
    simp only [addInput] at h
    obtain ⟨c, hc, h⟩ := Option.bind_eq_some_iff.1 h
    obtain ⟨_, hcost⟩ := requiredDegree_some hc
    split at h
    · next hle =>
      simp only [Option.some.injEq] at h
      subst h
      exact Or.inl ⟨rfl, [], a, as, rfl, rfl, by simp, by omega⟩
    · next hle =>
      obtain ⟨s, hs, h⟩ := Option.map_eq_some_iff.1 h
      subst h
      have hgt : M < cost a + d := by omega
      rcases ih hs with ⟨h1, l, x, r', e1, e2, h2, h3⟩ | ⟨h1, e1, h2⟩
      · refine Or.inl ⟨h1, a :: l, x, r', by simp [e1], by simp [e2], ?_, h3⟩
        intro y hy
        rcases List.mem_cons.1 hy with rfl | hy
        · exact hgt
        · exact h2 y hy
      · refine Or.inr ⟨h1, by simp [e1], ?_⟩
        intro y hy
        rcases List.mem_cons.1 hy with rfl | hy
        · exact hgt
        · exact h2 y hy

theorem addInput_isSome {M d : ℕ} {i : List (Expr F)} {as : List (MultiArgument F)}
    (h : ∀ a ∈ as, ∀ i ∈ a.inputs, i.length = a.table.length) : ∃ r, addInput M d i as = some r := by
  induction as with
  | nil => exact ⟨_, rfl⟩
  | cons a as ih =>
    obtain ⟨r, hr⟩ := ih fun x hx => h x (by simp [hx])
    simp only [addInput, requiredDegree_eq (h a (by simp)), Option.bind_some, hr, Option.map_some]
    split
    · exact ⟨_, rfl⟩
    · exact ⟨_, rfl⟩

/-- All inputs of the arguments. -/
def allInputs (as : List (MultiArgument F)) : List (List (Expr F)) := as.flatMap fun a => a.inputs

theorem step_perm {M d : ℕ} {i table : List (Expr F)} {as : List (MultiArgument F)} {r : List (MultiArgument F) × Bool}
    (h : addInput M d i as = some r) :
    (allInputs (if r.2 then r.1 else r.1 ++ [⟨[i], table⟩])).Perm (allInputs as ++ [i]) := by
  rcases addInput_spec h with ⟨h1, l, a, r', e1, e2, _⟩ | ⟨h1, e1, _⟩
  · rw [if_pos h1, e1, e2]
    simp only [allInputs, List.flatMap_append, List.flatMap_cons, push, List.append_assoc, List.cons_append,
      List.nil_append]
    refine List.Perm.append_left _ (List.Perm.append_left _ ?_)
    exact (List.perm_append_singleton i _).symm
  · rw [if_neg (by simp [h1]), e1]
    simp [allInputs]

theorem chunkInputs_perm {M : ℕ} {table : List (Expr F)} : ∀ {is : List (List (Expr F))} {as as' : List (MultiArgument F)},
    chunkInputs M table is as = some as' → (allInputs as').Perm (allInputs as ++ is) := by
  intro is
  induction is with
  | nil =>
    intro as as' h
    simp only [chunkInputs, Option.some.injEq] at h
    subst h
    simp
  | cons i is ih =>
    intro as as' h
    simp only [chunkInputs] at h
    obtain ⟨d, _, h⟩ := Option.bind_eq_some_iff.1 h
    obtain ⟨r, hr, h⟩ := Option.bind_eq_some_iff.1 h
    refine (ih h).trans ?_
    refine (List.Perm.append_right _ (step_perm hr)).trans ?_
    simp

theorem chunkTables_perm {M : ℕ} : ∀ {m : LookupMap F} {as as' : List (MultiArgument F)},
    chunkTables M m as = some as' → (allInputs as').Perm (allInputs as ++ m.flatMap fun p => p.2.inputs) := by
  intro m
  induction m with
  | nil =>
    intro as as' h
    simp only [chunkTables, Option.some.injEq] at h
    subst h
    simp
  | cons p m ih =>
    intro as as' h
    obtain ⟨k, t⟩ := p
    simp only [chunkTables] at h
    cases ht : t.inputs with
    | nil => rw [ht] at h; simp at h
    | cons i is =>
      rw [ht] at h
      simp only [] at h
      obtain ⟨s, hs, h⟩ := Option.bind_eq_some_iff.1 h
      refine (ih h).trans ?_
      simp only [List.flatMap_cons, ht]
      have := List.Perm.append_right (m.flatMap fun p => p.2.inputs) (chunkInputs_perm hs)
      refine this.trans ?_
      simp [allInputs]

/-- No input would have fitted an argument further to the left. -/
def FirstFit (M : ℕ) (as : List (MultiArgument F)) : Prop :=
  as.Pairwise fun a b => ∀ i ∈ b.inputs, M < cost a + (i.map degree).foldr max 0

/-- All arguments have this table and columns of the same length. -/
def OfTable (table : List (Expr F)) (as : List (MultiArgument F)) : Prop :=
  ∀ a ∈ as, a.table = table ∧ ∀ i ∈ a.inputs, i.length = table.length

theorem cost_push (a : MultiArgument F) (i : List (Expr F)) : cost (push a i) = cost a + maxExprDegree i := by
  simp only [cost, push, List.map_append, List.map_cons, List.map_nil, List.sum_append, List.sum_cons, List.sum_nil]
  omega

theorem firstFit_step {M : ℕ} {i table : List (Expr F)} {as : List (MultiArgument F)} {r : List (MultiArgument F) × Bool}
    (h : addInput M ((i.map degree).foldr max 0) i as = some r) (hf : FirstFit M as) :
    FirstFit M (if r.2 then r.1 else r.1 ++ [⟨[i], table⟩]) := by
  rcases addInput_spec h with ⟨h1, l, a, r', e1, e2, h2, _⟩ | ⟨h1, e1, h2⟩
  · rw [if_pos h1, e2]
    rw [e1] at hf
    unfold FirstFit at hf ⊢
    obtain ⟨p1, p2, p3⟩ := List.pairwise_append.1 hf
    obtain ⟨p4, p5⟩ := List.pairwise_cons.1 p2
    refine List.pairwise_append.2 ⟨p1, List.pairwise_cons.2 ⟨?_, p5⟩, ?_⟩
    · intro b hb j hj
      have := p4 b hb j hj
      rw [cost_push]
      omega
    · intro x hx b hb j hj
      rcases List.mem_cons.1 hb with rfl | hb
      · simp only [push, List.mem_append, List.mem_singleton] at hj
        rcases hj with hj | rfl
        · exact p3 x hx a (by simp) j hj
        · exact h2 x hx
      · exact p3 x hx b (by simp [hb]) j hj
  · rw [if_neg (by simp [h1]), e1]
    unfold FirstFit at hf ⊢
    refine List.pairwise_append.2 ⟨hf, by simp, ?_⟩
    intro x hx b hb j hj
    simp only [List.mem_singleton] at hb
    subst hb
    simp only [List.mem_singleton] at hj
    subst hj
    exact h2 x hx

theorem ofTable_step {M d : ℕ} {i table : List (Expr F)} {as : List (MultiArgument F)} {r : List (MultiArgument F) × Bool}
    (h : addInput M d i as = some r) (ho : OfTable table as) (hi : i.length = table.length) :
    OfTable table (if r.2 then r.1 else r.1 ++ [⟨[i], table⟩]) := by
  rcases addInput_spec h with ⟨h1, l, a, r', e1, e2, _⟩ | ⟨h1, e1, _⟩
  · rw [if_pos h1, e2]
    intro x hx
    rw [e1] at ho
    rcases List.mem_append.1 hx with hx | hx
    · exact ho x (by simp [hx])
    · rcases List.mem_cons.1 hx with rfl | hx
      · have := ho a (by simp)
        refine ⟨this.1, fun j hj => ?_⟩
        simp only [push, List.mem_append, List.mem_singleton] at hj
        rcases hj with hj | rfl
        · exact this.2 j hj
        · exact hi
      · exact ho x (by simp [hx])
  · rw [if_neg (by simp [h1]), e1]
    intro x hx
    rcases List.mem_append.1 hx with hx | hx
    · exact ho x hx
    · simp only [List.mem_singleton] at hx
      subst hx
      refine ⟨rfl, fun j hj => ?_⟩
      simp only [List.mem_singleton] at hj
      exact hj ▸ hi

theorem cost_step {M : ℕ} {i table : List (Expr F)} {as : List (MultiArgument F)} {r : List (MultiArgument F) × Bool}
    (h : addInput M ((i.map degree).foldr max 0) i as = some r) (hc : ∀ a ∈ as, cost a ≤ M)
    (hd : 1 ≤ (i.map degree).foldr max 0) (hs : cost (⟨[i], table⟩ : MultiArgument F) ≤ M) :
    ∀ a ∈ (if r.2 then r.1 else r.1 ++ [⟨[i], table⟩]), cost a ≤ M := by
  rcases addInput_spec h with ⟨h1, l, a, r', e1, e2, _, h3⟩ | ⟨h1, e1, _⟩
  · rw [if_pos h1, e2]
    intro x hx
    rw [e1] at hc
    rcases List.mem_append.1 hx with hx | hx
    · exact hc x (by simp [hx])
    · rcases List.mem_cons.1 hx with rfl | hx
      · rw [cost_push, maxExprDegree_eq, max_eq_right hd]
        exact h3
      · exact hc x (by simp [hx])
  · rw [if_neg (by simp [h1]), e1]
    intro x hx
    rcases List.mem_append.1 hx with hx | hx
    · exact hc x hx
    · simp only [List.mem_singleton] at hx
      exact hx ▸ hs

theorem chunkInputs_spec {M : ℕ} {table : List (Expr F)} (ht : table ≠ []) : ∀ (is : List (List (Expr F)))
    (as : List (MultiArgument F)), OfTable table as → (∀ i ∈ is, i.length = table.length) →
    ∃ as', chunkInputs M table is as = some as' ∧ OfTable table as' ∧ (FirstFit M as → FirstFit M as') ∧
      ((∀ a ∈ as, cost a ≤ M) → (∀ i ∈ is, 1 ≤ (i.map degree).foldr max 0 ∧ cost (⟨[i], table⟩ : MultiArgument F) ≤ M) →
        ∀ a ∈ as', cost a ≤ M) := by
  intro is
  induction is with
  | nil => intro as ho _; exact ⟨as, rfl, ho, id, fun h _ => h⟩
  | cons i is ih =>
    intro as ho hi
    have hlen := hi i (by simp)
    have hne : i ≠ [] := by
      rintro rfl
      exact ht (List.length_eq_zero_iff.1 hlen.symm)
    obtain ⟨r, hr⟩ := addInput_isSome (M := M) (d := (i.map degree).foldr max 0) (i := i) (as := as) (by
      intro a ha j hj
      rw [(ho a ha).1]
      exact (ho a ha).2 j hj)
    obtain ⟨as', h1, h2, h3, h4⟩ := ih _ (ofTable_step hr ho hlen) fun j hj => hi j (by simp [hj])
    refine ⟨as', ?_, h2, fun hf => h3 (firstFit_step hr hf), fun hc hs => h4 ?_ fun j hj => hs j (by simp [hj])⟩
    · simp only [chunkInputs, columnDegree_eq hne, Option.bind_some, hr]
      exact h1
    · exact cost_step hr hc (hs i (by simp)).1 (hs i (by simp)).2

theorem chunkTables_single {M : ℕ} : ∀ (m : LookupMap F) (as : List (MultiArgument F)),
    (∀ p ∈ m, ∃ i, p.2.inputs = [i]) →
    chunkTables M m as = some (as ++ m.map fun p => ⟨p.2.inputs, p.2.table⟩) := by
  intro m
  induction m with
  | nil => intro as _; simp [chunkTables]
  | cons p m ih =>
    intro as h
    obtain ⟨k, t⟩ := p
    obtain ⟨i, hi⟩ := h (k, t) (by simp)
    simp only at hi
    simp only [chunkTables, hi, chunkInputs, Option.bind_some]
    rw [ih _ fun p hp => h p (by simp [hp])]
    simp [hi]

theorem bitCeil_le_iff (n j : ℕ) : bitCeil n ≤ 2 ^ j ↔ n ≤ 2 ^ j := by
  unfold bitCeil
  split
  · next h =>
    have := Nat.one_le_two_pow (n := j)
    omega
  · next h =>
    rw [Nat.pow_le_pow_iff_right (by decide), Nat.add_one_le_iff, Nat.log2_lt (by omega)]
    omega

theorem bitCeil_pow (n : ℕ) : ∃ k, bitCeil n = 2 ^ k := by
  unfold bitCeil
  split
  · exact ⟨0, rfl⟩
  · exact ⟨_, rfl⟩

theorem foldl_max_le (l : List ℕ) (a b : ℕ) : l.foldl max a ≤ b ↔ a ≤ b ∧ ∀ x ∈ l, x ≤ b := by
  induction l generalizing a with
  | nil => simp
  | cons x l ih =>
    rw [List.foldl_cons, ih]
    simp only [max_le_iff, List.mem_cons, forall_eq_or_imp]
    tauto

theorem foldr_max_le' (l : List ℕ) (b : ℕ) : l.foldr max 0 ≤ b ↔ ∀ x ∈ l, x ≤ b := by
  induction l with
  | nil => simp
  | cons x l ih => simp only [List.foldr_cons, max_le_iff, List.mem_cons, forall_eq_or_imp, ih]

theorem maxOr_zero_eq (l : List ℕ) : maxOr 0 l = l.foldr max 0 := by
  unfold maxOr
  cases l with
  | nil => rfl
  | cons a l => rw [max?_eq_foldr _ (by simp)]; rfl

end
end Tachyon.LookupChunk
