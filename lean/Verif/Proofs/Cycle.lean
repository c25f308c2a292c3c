import Verif.Spec.Cycle
import Mathlib.Dynamics.PeriodicPts.Defs
import Mathlib.GroupTheory.OrderOfElement
import Mathlib.Algebra.Group.End
import Mathlib.Data.Fintype.Perm
import Mathlib.Data.Fintype.Prod
import Mathlib.Data.List.OfFn
import Mathlib.Data.Set.Card
import Mathlib.Tactic.Common
universe u
namespace Tachyon.Cycle
open Function

variable {α : Type u} {c r : Nat}

theorem lab_injective : Injective (lab (c := c) (r := r)) := by
  rintro ⟨a, b⟩ ⟨a', b'⟩ h
  have := Prod.ext_iff.1 h
  exact Prod.ext (Fin.ext this.1) (Fin.ext this.2)

/-- The table of a function. -/
def tab (f : Fin c × Fin r → α) : List (List α) :=
  List.ofFn fun i : Fin c => List.ofFn fun j : Fin r => f (i, j)

theorem get_tab (f : Fin c × Fin r → α) (x : Fin c × Fin r) : get (tab f) (lab x) = some (f x) := by
  simp [get, tab, lab]

theorem put_tab (f : Fin c × Fin r → α) (x : Fin c × Fin r) (y : α) :
    put (tab f) (lab x) y = some (tab (update f x y)) := by
  unfold put
  rw [get_tab, Option.isSome_some, if_pos rfl]
  congr 1
  apply List.ext_getElem
  · simp [tab]
  · intro i h1 h2
    have hi : i < c := by simpa [tab] using h2
    rw [List.getElem_modify]
    simp only [tab, List.getElem_ofFn, lab]
    split
    · rename_i h
      apply List.ext_getElem
      · simp
      · intro j h3 h4
        have hj : j < r := by simpa using h4
        rw [List.getElem_set]
        simp only [List.getElem_ofFn]
        split
        · rename_i h'
          have : ((⟨i, hi⟩, ⟨j, hj⟩) : Fin c × Fin r) = x := Prod.ext (Fin.ext h.symm) (Fin.ext h'.symm)
          rw [this, update_self]
        · rename_i h'
          rw [update_of_ne]
          intro e; exact h' (by rw [← e])
    · rename_i h
      congr 1
      funext j
      rw [update_of_ne]
      intro e; exact h (by rw [← e])

section perm
variable {T : Type u} [Fintype T]

theorem mem_periodic (σ : Equiv.Perm T) (x : T) : x ∈ periodicPts σ := by
  refine mk_mem_periodicPts (orderOf_pos σ) ?_
  show σ^[orderOf σ] x = x
  rw [← Equiv.Perm.coe_pow, pow_orderOf_eq_one]; rfl

theorem period_pos (σ : Equiv.Perm T) (x : T) : 0 < minimalPeriod σ x :=
  minimalPeriod_pos_of_mem_periodicPts (mem_periodic σ x)

/-- The points of the cycle of `x`. -/
noncomputable def orbit (σ : Equiv.Perm T) (x : T) : List T := (List.range (minimalPeriod σ x)).map fun i => σ^[i] x

omit [Fintype T] in
theorem orbit_nodup (σ : Equiv.Perm T) (x : T) : (orbit σ x).Nodup := by
  unfold orbit
  refine List.Nodup.map_on ?_ List.nodup_range
  intro i hi j hj h
  exact (iterate_eq_iterate_iff_of_lt_minimalPeriod (List.mem_range.1 hi) (List.mem_range.1 hj)).1 h

theorem mem_orbit (σ : Equiv.Perm T) (x y : T) : y ∈ orbit σ x ↔ ∃ n : ℕ, σ^[n] x = y := by
  unfold orbit
  rw [List.mem_map]
  constructor
  · rintro ⟨i, _, h⟩; exact ⟨i, h⟩
  · rintro ⟨n, h⟩
    exact ⟨n % minimalPeriod σ x, List.mem_range.2 (Nat.mod_lt _ (period_pos σ x)),
      by rw [iterate_mod_minimalPeriod_eq]; exact h⟩

theorem period_le_card (σ : Equiv.Perm T) (x : T) : minimalPeriod σ x ≤ Fintype.card T := by
  have := (orbit_nodup σ x).length_le_card
  simpa [orbit] using this

theorem leads_symm (σ : Equiv.Perm T) {x y : T} (h : ∃ n : ℕ, σ^[n] x = y) : ∃ n : ℕ, σ^[n] y = x := by
  obtain ⟨i, hi, rfl⟩ := List.mem_map.1 ((mem_orbit σ x y).2 h)
  refine ⟨minimalPeriod σ x - i, ?_⟩
  show σ^[minimalPeriod σ x - i] (σ^[i] x) = x
  have := List.mem_range.1 hi
  rw [← iterate_add_apply, Nat.sub_add_cancel this.le, iterate_minimalPeriod]

omit [Fintype T] in
theorem leads_trans (σ : Equiv.Perm T) {x y z : T} (h : ∃ n : ℕ, σ^[n] x = y) (h' : ∃ n : ℕ, σ^[n] y = z) :
    ∃ n : ℕ, σ^[n] x = z := by
  obtain ⟨n, rfl⟩ := h
  obtain ⟨m, rfl⟩ := h'
  exact ⟨m + n, iterate_add_apply σ m n x⟩

variable [DecidableEq T]

/-- After the exchange of the images of `a` and `b` in different cycles, `a` leads to the whole cycle of `b`. -/
theorem swap_iterate (σ : Equiv.Perm T) {a b : T} (h : ¬ ∃ n : ℕ, σ^[n] b = a) (i : ℕ)
    (hi : i < minimalPeriod σ b) : (σ * Equiv.swap a b)^[i + 1] a = σ^[i + 1] b := by
  induction i with
  | zero => simp
  | succ i ih =>
    rw [iterate_succ_apply', ih (by omega), iterate_succ_apply' σ (i + 1), Equiv.Perm.mul_apply,
      Equiv.swap_apply_of_ne_of_ne (fun e => h ⟨_, e⟩)]
    intro e
    have := (iterate_eq_iterate_iff_of_lt_minimalPeriod (f := σ) (x := b) (m := i + 1) (n := 0) hi
      (period_pos σ b)).1 e
    omega

theorem swap_reach (σ : Equiv.Perm T) {a b y : T} (h : ¬ ∃ n : ℕ, σ^[n] b = a) (hy : ∃ n : ℕ, σ^[n] b = y) :
    ∃ n : ℕ, (σ * Equiv.swap a b)^[n] a = y := by
  obtain ⟨i, hi, rfl⟩ := List.mem_map.1 ((mem_orbit σ b y).2 hy)
  have hi := List.mem_range.1 hi
  rcases Nat.eq_zero_or_pos i with h0 | h0
  · subst h0
    refine ⟨minimalPeriod σ b - 1 + 1, ?_⟩
    rw [swap_iterate σ h _ (by omega), Nat.sub_add_cancel (period_pos σ b), iterate_minimalPeriod]; rfl
  · exact ⟨i - 1 + 1, by rw [swap_iterate σ h _ (by omega), Nat.sub_add_cancel h0]⟩

/-- The exchange joins the two cycles and leaves the others. -/
theorem swap_leads (σ : Equiv.Perm T) {a b : T} (h : ¬ ∃ n : ℕ, σ^[n] a = b) (x y : T) :
    (∃ n : ℕ, (σ * Equiv.swap a b)^[n] x = y) ↔
      (∃ n : ℕ, σ^[n] x = y) ∨ (((∃ n : ℕ, σ^[n] a = x) ∨ ∃ n : ℕ, σ^[n] b = x) ∧
        ((∃ n : ℕ, σ^[n] a = y) ∨ ∃ n : ℕ, σ^[n] b = y)) := by
  have h' : ¬ ∃ n : ℕ, σ^[n] b = a := fun e => h (leads_symm σ e)
  constructor
  · rintro ⟨n, rfl⟩
    induction n with
    | zero => left; exact ⟨0, rfl⟩
    | succ n ih =>
      rw [iterate_succ_apply']
      generalize (σ * Equiv.swap a b)^[n] x = z at ih
      rw [Equiv.Perm.mul_apply]
      by_cases hza : z = a
      · subst hza
        rw [Equiv.swap_apply_left]
        right
        refine ⟨?_, .inr ⟨1, rfl⟩⟩
        rcases ih with ih | ih
        · exact .inl (leads_symm σ ih)
        · exact ih.1
      · by_cases hzb : z = b
        · subst hzb
          rw [Equiv.swap_apply_right]
          right
          refine ⟨?_, .inl ⟨1, rfl⟩⟩
          rcases ih with ih | ih
          · exact .inr (leads_symm σ ih)
          · exact ih.1
        · rw [Equiv.swap_apply_of_ne_of_ne hza hzb]
          rcases ih with ih | ⟨ih1, ih2⟩
          · left; exact leads_trans σ ih ⟨1, rfl⟩
          · right
            refine ⟨ih1, ?_⟩
            rcases ih2 with e | e
            · exact .inl (leads_trans σ e ⟨1, rfl⟩)
            · exact .inr (leads_trans σ e ⟨1, rfl⟩)
  · have A : ∀ z, ((∃ n : ℕ, σ^[n] a = z) ∨ ∃ n : ℕ, σ^[n] b = z) →
        ∃ n : ℕ, (σ * Equiv.swap a b)^[n] a = z := by
      intro z hz
      rcases hz with hz | hz
      · have e1 := swap_reach σ (a := b) (b := a) h hz
        rw [Equiv.swap_comm] at e1
        exact leads_trans _ (swap_reach σ h' ⟨0, rfl⟩) e1
      · exact swap_reach σ h' hz
    rintro (hxy | ⟨hx, hy⟩)
    · by_cases hx : (∃ n : ℕ, σ^[n] a = x) ∨ ∃ n : ℕ, σ^[n] b = x
      · have hy : (∃ n : ℕ, σ^[n] a = y) ∨ ∃ n : ℕ, σ^[n] b = y := by
          rcases hx with e | e
          · exact .inl (leads_trans σ e hxy)
          · exact .inr (leads_trans σ e hxy)
        exact leads_trans _ (leads_symm _ (A x hx)) (A y hy)
      · obtain ⟨n, rfl⟩ := hxy
        refine ⟨n, ?_⟩
        induction n with
        | zero => rfl
        | succ n ih =>
          rw [iterate_succ_apply', ih, iterate_succ_apply', Equiv.Perm.mul_apply,
            Equiv.swap_apply_of_ne_of_ne]
          · intro e; exact hx (.inl (leads_symm σ ⟨n, e⟩))
          · intro e; exact hx (.inr (leads_symm σ ⟨n, e⟩))
    · exact leads_trans _ (leads_symm _ (A x hx)) (A y hy)

end perm

/-- The loop of `MergeCycle` relabels the points from `σ^i R` to the end of the cycle. -/
theorem relabel_eq (σ : Equiv.Perm (Fin c × Fin r)) (left : Label) (R : Fin c × Fin r) :
    ∀ (k i fuel : ℕ) (f : Fin c × Fin r → Label), i + k + 1 = minimalPeriod σ R → k < fuel →
      ∃ g, relabel (tab fun x => lab (σ x)) left (lab R) fuel (lab (σ^[i] R)) (tab f) = some (tab g) ∧
        ∀ y, ((∃ j, i ≤ j ∧ j < minimalPeriod σ R ∧ σ^[j] R = y) → g y = left) ∧
          ((¬ ∃ j, i ≤ j ∧ j < minimalPeriod σ R ∧ σ^[j] R = y) → g y = f y) := by
  intro k
  induction k with
  | zero =>
    intro i fuel f hi hf
    obtain ⟨fuel, rfl⟩ : ∃ m, fuel = m + 1 := ⟨fuel - 1, by omega⟩
    refine ⟨update f (σ^[i] R) left, ?_, ?_⟩
    · unfold relabel
      rw [put_tab, Option.bind_some, get_tab, Option.bind_some, ← iterate_succ_apply' σ,
        show i.succ = minimalPeriod σ R by omega, iterate_minimalPeriod, if_pos rfl]
    · intro y
      constructor
      · rintro ⟨j, h1, h2, rfl⟩
        rw [show j = i by omega, update_self]
      · intro h
        rw [update_of_ne]
        rintro rfl
        exact h ⟨i, le_refl _, by omega, rfl⟩
  | succ k ih =>
    intro i fuel f hi hf
    obtain ⟨fuel, rfl⟩ : ∃ m, fuel = m + 1 := ⟨fuel - 1, by omega⟩
    obtain ⟨g, h1, h2⟩ := ih (i + 1) fuel (update f (σ^[i] R) left) (by omega) (by omega)
    refine ⟨g, ?_, ?_⟩
    · unfold relabel
      rw [put_tab, Option.bind_some, get_tab, Option.bind_some, ← iterate_succ_apply' σ, if_neg]
      · exact h1
      · intro e
        have e := lab_injective e
        have := (iterate_eq_iterate_iff_of_lt_minimalPeriod (f := σ) (x := R) (m := i + 1) (n := 0) (by omega)
          (by omega)).1 e
        omega
    · intro y
      constructor
      · rintro ⟨j, h3, h4, rfl⟩
        rcases Nat.lt_or_eq_of_le h3 with h5 | h5
        · exact (h2 _).1 ⟨j, h5, h4, rfl⟩
        · subst h5
          rw [(h2 _).2, update_self]
          rintro ⟨j, h6, h7, h8⟩
          have := (iterate_eq_iterate_iff_of_lt_minimalPeriod h7 h4).1 h8
          omega
      · intro h
        rw [(h2 y).2, update_of_ne]
        · rintro rfl
          exact h ⟨i, le_refl _, by omega, rfl⟩
        · rintro ⟨j, h6, h7, h8⟩
          exact h ⟨j, by omega, h7, h8⟩

theorem walk_eq (σ : Equiv.Perm (Fin c × Fin r)) (R : Fin c × Fin r) :
    ∀ (k i fuel : ℕ), i + k + 1 = minimalPeriod σ R → k < fuel →
      walk (tab fun x => lab (σ x)) (lab R) fuel (lab (σ^[i] R)) =
        some (((List.range' (i + 1) k).map fun j => lab (σ^[j] R)) ++ [lab R]) := by
  intro k
  induction k with
  | zero =>
    intro i fuel hi hf
    obtain ⟨fuel, rfl⟩ : ∃ m, fuel = m + 1 := ⟨fuel - 1, by omega⟩
    unfold walk
    rw [get_tab, Option.bind_some, ← iterate_succ_apply' σ,
      show i.succ = minimalPeriod σ R by omega, iterate_minimalPeriod, if_pos rfl]
    simp
  | succ k ih =>
    intro i fuel hi hf
    obtain ⟨fuel, rfl⟩ : ∃ m, fuel = m + 1 := ⟨fuel - 1, by omega⟩
    unfold walk
    rw [get_tab, Option.bind_some, ← iterate_succ_apply' σ, if_neg]
    · rw [ih (i + 1) fuel (by omega) (by omega), List.range'_succ]; simp
    · intro e
      have e := lab_injective e
      have := (iterate_eq_iterate_iff_of_lt_minimalPeriod (f := σ) (x := R) (m := i + 1) (n := 0) (by omega)
        (by omega)).1 e
      omega

/-- What a store of the equivalence relation `E` looks like. -/
structure Repr (s : Store) (E : Fin c × Fin r → Fin c × Fin r → Prop) (σ : Equiv.Perm (Fin c × Fin r))
    (ax : Fin c × Fin r → Fin c × Fin r) (sz : Fin c × Fin r → ℕ) : Prop where
  mapping : s.mapping = tab fun x => lab (σ x)
  aux : s.aux = tab fun x => lab (ax x)
  sizes : s.sizes = tab sz
  cycles : ∀ x y, (∃ n : ℕ, σ^[n] x = y) ↔ E x y
  base_eq : ∀ x y, ax x = ax y ↔ E x y
  base_mem : ∀ x, E x (ax x)
  size_eq : ∀ x, sz (ax x) = {y | E x y}.ncard

theorem labels_eq {s : Store} {f : Fin c × Fin r → Label} (h : s.mapping = tab f) : s.labels = c * r := by
  unfold Store.labels
  rw [h]
  simp [tab, List.map_ofFn, Function.comp_def, List.ofFn_const]

variable {s : Store} {E : Fin c × Fin r → Fin c × Fin r → Prop} {σ : Equiv.Perm (Fin c × Fin r)}
  {ax : Fin c × Fin r → Fin c × Fin r} {sz : Fin c × Fin r → ℕ}

theorem Repr.refl (h : Repr s E σ ax sz) (x) : E x x := (h.cycles x x).1 ⟨0, rfl⟩
theorem Repr.symm (h : Repr s E σ ax sz) {x y} (e : E x y) : E y x :=
  (h.cycles y x).1 (leads_symm σ ((h.cycles x y).2 e))
theorem Repr.trans (h : Repr s E σ ax sz) {x y z} (e : E x y) (e' : E y z) : E x z :=
  (h.cycles x z).1 (leads_trans σ ((h.cycles x y).2 e) ((h.cycles y z).2 e'))

/-- Two classes joined. -/
def join (E : Fin c × Fin r → Fin c × Fin r → Prop) (a b x y : Fin c × Fin r) : Prop :=
  E x y ∨ ((E a x ∨ E b x) ∧ (E a y ∨ E b y))

theorem join_comm (E : Fin c × Fin r → Fin c × Fin r → Prop) (a b) : join E a b = join E b a := by
  funext x y; unfold join; rw [or_comm (a := E a x), or_comm (a := E a y)]

/-- `mergeInto` where the class of `p` is the larger one. -/
theorem mergeInto_repr (h : Repr s E σ ax sz) {a b p q : Fin c × Fin r} (hab : ¬ E a b)
    (hpq : (p = a ∧ q = b) ∨ (p = b ∧ q = a)) :
    ∃ s' ax' sz', s.mergeInto (lab a) (lab b) (lab (ax p)) (lab (ax q)) (sz (ax p) + sz (ax q)) = some (s', true) ∧
      Repr s' (join E a b) (σ * Equiv.swap a b) ax' sz' := by
  classical
  have hba : ¬ E b a := fun e => hab (h.symm e)
  have hne : a ≠ b := fun e => hab (e ▸ h.refl a)
  have hpq' : ¬ E p q ∧ join E a b = join E p q := by
    rcases hpq with ⟨rfl, rfl⟩ | ⟨rfl, rfl⟩
    · exact ⟨hab, rfl⟩
    · exact ⟨hba, join_comm ..⟩
  obtain ⟨g, g1, g2⟩ := relabel_eq σ (lab (ax p)) (ax q) (minimalPeriod σ (ax q) - 1) 0 (c * r)
    (fun x => lab (ax x)) (by have := period_pos σ (ax q); omega)
    (by have h1 := period_le_card σ (ax q); have h2 := period_pos σ (ax q)
        rw [Fintype.card_prod, Fintype.card_fin, Fintype.card_fin] at h1; omega)
  have hg : g = fun y => lab (if E q y then ax p else ax y) := by
    funext y
    by_cases hy : E q y
    · have : ∃ n : ℕ, σ^[n] (ax q) = y := (h.cycles _ _).2 (h.trans (h.symm (h.base_mem q)) hy)
      obtain ⟨i, hi, e⟩ := List.mem_map.1 ((mem_orbit σ _ y).2 this)
      rw [(g2 y).1 ⟨i, Nat.zero_le _, List.mem_range.1 hi, e⟩, if_pos hy]
    · rw [(g2 y).2, if_neg hy]
      rintro ⟨j, _, _, e⟩
      exact hy (h.trans (h.base_mem q) ((h.cycles _ _).1 ⟨j, e⟩))
  have hE : ∀ x y, (∃ n : ℕ, (σ * Equiv.swap a b)^[n] x = y) ↔ join E a b x y := by
    intro x y
    rw [swap_leads σ (fun e => hab ((h.cycles a b).1 e))]
    simp only [h.cycles]; rfl
  refine ⟨⟨tab fun x => lab ((σ * Equiv.swap a b) x), tab g, tab (update sz (ax p) (sz (ax p) + sz (ax q)))⟩,
    fun y => if E q y then ax p else ax y, update sz (ax p) (sz (ax p) + sz (ax q)), ?_, ?_⟩
  · unfold Store.mergeInto
    rw [h.sizes, put_tab, Option.bind_some, labels_eq h.mapping, h.mapping, h.aux]
    have g1' : relabel (tab fun x => lab (σ x)) (lab (ax p)) (lab (ax q)) (c * r) (lab (ax q))
      (tab fun x => lab (ax x)) = some (tab g) := g1
    rw [g1', Option.bind_some, get_tab, Option.bind_some, get_tab, Option.bind_some, put_tab, Option.bind_some,
      put_tab, Option.map_some]
    congr 4
    funext x
    by_cases hxb : x = b
    · subst hxb; simp
    · rw [update_of_ne hxb]
      by_cases hxa : x = a
      · subst hxa; simp
      · rw [update_of_ne hxa, Equiv.Perm.mul_apply, Equiv.swap_apply_of_ne_of_ne hxa hxb]
  · refine ⟨rfl, by rw [hg], rfl, hE, ?_, ?_, ?_⟩
    · intro x y
      rw [hpq'.2]
      unfold join
      by_cases hx : E q x <;> by_cases hy : E q y
      · simp [hx, hy]
      · simp only [hx, hy, if_true, if_false, or_true, or_false, true_and]
        rw [h.base_eq]
        constructor
        · exact .inr
        · rintro (e | e)
          · exact absurd (h.trans hx e) hy
          · exact e
      · simp only [hx, hy, if_true, if_false, or_true, or_false, and_true]
        rw [eq_comm, h.base_eq]
        constructor
        · exact .inr
        · rintro (e | e)
          · exact absurd (h.trans hy (h.symm e)) hx
          · exact e
      · simp only [hx, hy, if_false, or_false]
        rw [h.base_eq]
        constructor
        · exact .inl
        · rintro (e | e)
          · exact e
          · exact h.trans (h.symm e.1) e.2
    · intro x
      rw [hpq'.2]
      unfold join
      by_cases hx : E q x
      · simp only [hx, if_true]
        exact .inr ⟨.inr trivial, .inl (h.base_mem p)⟩
      · simp only [hx, if_false]
        exact .inl (h.base_mem x)
    · intro x
      have hsum : {y | join E p q p y}.ncard = {y | E p y}.ncard + {y | E q y}.ncard := by
        rw [← Set.ncard_union_eq]
        · congr 1
          ext y
          simp only [Set.mem_ofPred_eq, Set.mem_union, join]
          constructor
          · rintro (e | e)
            · exact .inl e
            · exact e.2
          · intro e; exact .inr ⟨.inl (h.refl p), e⟩
        · rw [Set.disjoint_left]
          intro y h1 h2
          exact hpq'.1 (h.trans h1 (h.symm h2))
      have hcls : ∀ z, (E p z ∨ E q z) → {y | join E p q z y} = {y | join E p q p y} := by
        intro z hz
        ext y
        simp only [Set.mem_ofPred_eq, join]
        constructor
        · rintro (e | e)
          · right
            refine ⟨.inl (h.refl p), ?_⟩
            rcases hz with f | f
            · exact .inl (h.trans f e)
            · exact .inr (h.trans f e)
          · exact .inr ⟨.inl (h.refl p), e.2⟩
        · rintro (e | e)
          · exact .inr ⟨hz, .inl e⟩
          · exact .inr ⟨hz, e.2⟩
      rw [hpq'.2]
      by_cases hx : E q x
      · rw [if_pos hx, update_self, hcls x (.inr hx), hsum, h.size_eq, h.size_eq]
      · rw [if_neg hx]
        by_cases hx' : E p x
        · rw [(h.base_eq x p).2 (h.symm hx'), update_self, hcls x (.inl hx'), hsum, h.size_eq, h.size_eq]
        · rw [update_of_ne, h.size_eq]
          · congr 1
            ext y
            simp only [Set.mem_ofPred_eq, join]
            constructor
            · exact .inl
            · rintro (e | e)
              · exact e
              · exact absurd e.1 (by rintro (f | f) <;> contradiction)
          · intro e
            exact hx' (h.symm ((h.base_eq x p).1 e))

theorem merge_repr (h : Repr s E σ ax sz) (a b : Fin c × Fin r) :
    (E a b → s.merge (lab a) (lab b) = some (s, false)) ∧
    (¬ E a b → ∃ s' σ' ax' sz', s.merge (lab a) (lab b) = some (s', true) ∧ Repr s' (join E a b) σ' ax' sz') := by
  have ha : s.base (lab a) = some (lab (ax a)) := by unfold Store.base; rw [h.aux, get_tab]
  have hb : s.base (lab b) = some (lab (ax b)) := by unfold Store.base; rw [h.aux, get_tab]
  unfold Store.merge
  rw [ha, hb, Option.bind_some, Option.bind_some]
  constructor
  · intro e
    rw [if_pos (by rw [(h.base_eq a b).2 e])]
  · intro e
    rw [if_neg (fun he => e ((h.base_eq a b).1 (lab_injective he)))]
    have h1 : get s.sizes (lab (ax a)) = some (sz (ax a)) := by rw [h.sizes, get_tab]
    have h2 : get s.sizes (lab (ax b)) = some (sz (ax b)) := by rw [h.sizes, get_tab]
    rw [h1, h2, Option.bind_some, Option.bind_some]
    split
    · obtain ⟨s', ax', sz', h3, h4⟩ := mergeInto_repr h e (.inr ⟨rfl, rfl⟩)
      exact ⟨s', _, ax', sz', h3, h4⟩
    · obtain ⟨s', ax', sz', h3, h4⟩ := mergeInto_repr h e (.inl ⟨rfl, rfl⟩)
      exact ⟨s', _, ax', sz', h3, h4⟩

theorem new_repr : ∃ (σ : Equiv.Perm (Fin c × Fin r)) (ax : Fin c × Fin r → Fin c × Fin r)
    (sz : Fin c × Fin r → ℕ), Repr (Store.new c r) Eq σ ax sz := by
  have hm : (List.range c).map (fun col => (List.range r).map fun row => ((col, row) : Label)) =
      tab fun x : Fin c × Fin r => lab x := by
    apply List.ext_getElem
    · simp [tab]
    · intro i h1 h2
      apply List.ext_getElem
      · simp [tab]
      · intro j h3 h4; simp [tab, lab]
  refine ⟨1, id, fun _ => 1, ?_, ?_, ?_, ?_, ?_, ?_, ?_⟩
  · exact hm
  · exact hm
  · show List.replicate c (List.replicate r 1) = _
    simp [tab, List.ofFn_const]
  · intro x y
    constructor
    · rintro ⟨n, h⟩
      rw [← h, Equiv.Perm.coe_one, iterate_id]; rfl
    · rintro rfl; exact ⟨0, rfl⟩
  · intro x y; rfl
  · intro x; rfl
  · intro x; simp

theorem gen_nil {T : Type u} (x y : T) : Gen ([] : List (T × T)) x y ↔ x = y := by
  constructor
  · intro h
    induction h with
    | rel _ _ h => simp at h
    | refl => rfl
    | symm _ _ _ ih => exact ih.symm
    | trans _ _ _ _ _ h1 h2 => exact h1.trans h2
  · rintro rfl; exact .refl _

theorem gen_append {c r : ℕ} (ps : List ((Fin c × Fin r) × (Fin c × Fin r))) (a b x y) :
    Gen (ps ++ [(a, b)]) x y ↔ join (Gen ps) a b x y := by
  have mono : ∀ x y, Gen ps x y → Gen (ps ++ [(a, b)]) x y := by
    intro x y h
    induction h with
    | rel x y h => exact .rel _ _ (List.mem_append_left _ h)
    | refl x => exact .refl _
    | symm _ _ _ ih => exact .symm _ _ ih
    | trans _ _ _ _ _ h1 h2 => exact .trans _ _ _ h1 h2
  constructor
  · intro h
    induction h with
    | rel x y h =>
      rcases List.mem_append.1 h with h | h
      · exact .inl (.rel _ _ h)
      · have h := List.mem_singleton.1 h
        have h1 : x = a := congrArg Prod.fst h
        have h2 : y = b := congrArg Prod.snd h
        subst h1 h2
        exact .inr ⟨.inl (.refl _), .inr (.refl _)⟩
    | refl x => exact .inl (.refl _)
    | symm x y _ ih =>
      rcases ih with e | e
      · exact .inl (.symm _ _ e)
      · exact .inr ⟨e.2, e.1⟩
    | trans x y z _ _ ih1 ih2 =>
      rcases ih1 with e | e <;> rcases ih2 with f | f
      · exact .inl (.trans _ _ _ e f)
      · refine .inr ⟨?_, f.2⟩
        rcases f.1 with g | g
        · exact .inl (.trans _ _ _ g (.symm _ _ e))
        · exact .inr (.trans _ _ _ g (.symm _ _ e))
      · refine .inr ⟨e.1, ?_⟩
        rcases e.2 with g | g
        · exact .inl (.trans _ _ _ g f)
        · exact .inr (.trans _ _ _ g f)
      · exact .inr ⟨e.1, f.2⟩
  · have hab : Gen (ps ++ [(a, b)]) a b := .rel _ _ (by simp)
    have A : ∀ z, (Gen ps a z ∨ Gen ps b z) → Gen (ps ++ [(a, b)]) a z := by
      rintro z (h | h)
      · exact mono _ _ h
      · exact .trans _ _ _ hab (mono _ _ h)
    rintro (h | ⟨h1, h2⟩)
    · exact mono _ _ h
    · exact .trans _ _ _ (.symm _ _ (A x h1)) (A y h2)

/-- Every sequence of merges of labels of the table succeeds. -/
theorem run_repr (c r : ℕ) (ps : List ((Fin c × Fin r) × (Fin c × Fin r))) :
    ∃ s σ ax sz, run (Store.new c r) (ps.map fun p => (lab p.1, lab p.2)) = some s ∧ Repr s (Gen ps) σ ax sz := by
  have run_append : ∀ (l1 l2 : List (Label × Label)) (s : Store), run s (l1 ++ l2) = (run s l1).bind (run · l2) := by
    intro l1
    induction l1 with
    | nil => intro l2 s; rfl
    | cons p l1 ih =>
      intro l2 s
      obtain ⟨a, b⟩ := p
      show (s.merge a b).bind _ = ((s.merge a b).bind _).bind _
      cases s.merge a b with
      | none => rfl
      | some q => exact ih l2 q.1
  induction ps using List.reverseRecOn with
  | nil =>
    obtain ⟨σ, ax, sz, h⟩ := new_repr (c := c) (r := r)
    refine ⟨_, σ, ax, sz, rfl, ?_⟩
    have : (Gen ([] : List ((Fin c × Fin r) × (Fin c × Fin r)))) = Eq := by
      funext x y; exact propext (gen_nil x y)
    rw [this]; exact h
  | append_singleton ps p ih =>
    obtain ⟨a, b⟩ := p
    obtain ⟨s, σ, ax, sz, h1, h2⟩ := ih
    have hg : Gen (ps ++ [(a, b)]) = join (Gen ps) a b := by
      funext x y; exact propext (gen_append ps a b x y)
    rw [List.map_append, run_append, h1, hg]
    by_cases e : Gen ps a b
    · refine ⟨s, σ, ax, sz, ?_, ?_⟩
      · show (s.merge (lab a) (lab b)).bind _ = _
        rw [(merge_repr h2 a b).1 e]; rfl
      · have : join (Gen ps) a b = Gen ps := by
          funext x y
          apply propext
          constructor
          · rintro (f | ⟨f1, f2⟩)
            · exact f
            · have A : ∀ z, (Gen ps a z ∨ Gen ps b z) → Gen ps a z := by
                rintro z (g | g)
                · exact g
                · exact h2.trans e g
              exact h2.trans (h2.symm (A x f1)) (A y f2)
          · exact .inl
        rw [this]; exact h2
    · obtain ⟨s', σ', ax', sz', h3, h4⟩ := (merge_repr h2 a b).2 e
      refine ⟨s', σ', ax', sz', ?_, h4⟩
      show (s.merge (lab a) (lab b)).bind _ = _
      rw [h3]; rfl

end Tachyon.Cycle
