import Verif.Proofs.Cycle
import Verif.Props.Group
import Verif.Proofs.PolyEval
import Mathlib.Tactic.IntervalCases
import Mathlib.Tactic.NormNum.Prime
import Mathlib.Data.ZMod.Basic
/-! C47: copy constraints (`zk/plonk/permutation`). -/
universe u v
namespace Tachyon.Props
open Tachyon.Cycle Function

/-- After any sequence of merges the mapping is a permutation `σ` of the cells whose cycles are the classes of
the equivalence relation generated by the pairs; the representatives, `CheckSameCycle` and `GetCycleSize` agree
with it. -/
theorem C47_cycles (c r : ℕ) (ps : List ((Fin c × Fin r) × (Fin c × Fin r))) :
    ∃ s, run (Store.new c r) (ps.map fun p => (lab p.1, lab p.2)) = some s ∧
      ∃ σ : Equiv.Perm (Fin c × Fin r), (∀ x, s.next (lab x) = some (lab (σ x))) ∧
        (∀ x y, (∃ n : ℕ, σ^[n] x = y) ↔ Gen ps x y) ∧
        (∀ x y, ∃ b, s.sameCycle (lab x) (lab y) = some b ∧ (b = true ↔ Gen ps x y)) ∧
        (∀ x, s.size (lab x) = some {y | Gen ps x y}.ncard) ∧
        ∀ x, ∃ b, s.base (lab x) = some (lab b) ∧ Gen ps x b ∧ ∀ y, Gen ps x y → s.base (lab y) = some (lab b) := by
  obtain ⟨s, σ, ax, sz, h1, h2⟩ := run_repr c r ps
  have hb : ∀ x, s.base (lab x) = some (lab (ax x)) := fun x => by unfold Store.base; rw [h2.aux, get_tab]
  refine ⟨s, h1, σ, ?_, h2.cycles, ?_, ?_, ?_⟩
  · intro x; unfold Store.next; rw [h2.mapping, get_tab]
  · intro x y
    refine ⟨decide (lab (ax x) = lab (ax y)), ?_, ?_⟩
    · unfold Store.sameCycle; rw [hb, hb]; rfl
    · rw [decide_eq_true_iff, lab_injective.eq_iff]; exact h2.base_eq x y
  · intro x; unfold Store.size; rw [hb, Option.bind_some, h2.sizes, get_tab, h2.size_eq]
  · intro x; exact ⟨ax x, hb x, h2.base_mem x, fun y e => by rw [hb, (h2.base_eq x y).2 e]⟩

/-- `MergeCycle` returns whether the labels were in different classes. -/
theorem C47_merge (c r : ℕ) (ps : List ((Fin c × Fin r) × (Fin c × Fin r))) (a b : Fin c × Fin r) :
    ∃ s s' f, run (Store.new c r) (ps.map fun p => (lab p.1, lab p.2)) = some s ∧
      s.merge (lab a) (lab b) = some (s', f) ∧ (f = true ↔ ¬ Gen ps a b) := by
  obtain ⟨s, σ, ax, sz, h1, h2⟩ := run_repr c r ps
  by_cases e : Gen ps a b
  · exact ⟨s, s, false, h1, (merge_repr h2 a b).1 e, by simp [e]⟩
  · obtain ⟨s', _, _, _, h3, _⟩ := (merge_repr h2 a b).2 e
    exact ⟨s, s', true, h1, h3, by simp [e]⟩

/-- An assignment of values to the cells respects the mapping iff it satisfies all the copies. -/
theorem C47_values {V : Type u} (c r : ℕ) (ps : List ((Fin c × Fin r) × (Fin c × Fin r)))
    (v : Fin c × Fin r → V) :
    ∃ s, run (Store.new c r) (ps.map fun p => (lab p.1, lab p.2)) = some s ∧
      ((∀ x y, s.next (lab x) = some (lab y) → v x = v y) ↔ ∀ p ∈ ps, v p.1 = v p.2) := by
  obtain ⟨s, h1, σ, h2, h3, _⟩ := C47_cycles c r ps
  refine ⟨s, h1, ?_⟩
  constructor
  · intro h
    have hs : ∀ x, v (σ x) = v x := fun x => (h x (σ x) (h2 x)).symm
    have hn : ∀ (n : ℕ) x, v (σ^[n] x) = v x := by
      intro n
      induction n with
      | zero => intro x; rfl
      | succ n ih => intro x; rw [iterate_succ_apply', hs, ih]
    intro p hp
    obtain ⟨n, e⟩ := (h3 p.1 p.2).2 (.rel _ _ hp)
    rw [← e, hn]
  · intro h x y hxy
    rw [h2 x] at hxy
    have hy := lab_injective (Option.some.inj hxy)
    have hg : Gen ps x y := (h3 x y).1 ⟨1, hy⟩
    clear hxy hy
    induction hg with
    | rel x y e => exact h _ e
    | refl => rfl
    | symm _ _ _ ih => exact ih.symm
    | trans _ _ _ _ _ e1 e2 => exact e1.trans e2

/-- `GetAllLabels` returns every label of the cycle once, but the representative, which comes first, a second
time at the end. -/
theorem C47_all (c r : ℕ) (ps : List ((Fin c × Fin r) × (Fin c × Fin r))) (x : Fin c × Fin r) :
    ∃ s b, ∃ ls : List (Fin c × Fin r), run (Store.new c r) (ps.map fun p => (lab p.1, lab p.2)) = some s ∧
      s.base (lab x) = some (lab b) ∧ s.all (lab x) = some (ls.map lab ++ [lab b]) ∧ ls.Nodup ∧
      ls.head? = some b ∧ ∀ y, y ∈ ls ↔ Gen ps x y := by
  obtain ⟨s, σ, ax, sz, h1, h2⟩ := run_repr c r ps
  have hb : s.base (lab x) = some (lab (ax x)) := by unfold Store.base; rw [h2.aux, get_tab]
  have hp := period_pos σ (ax x)
  refine ⟨s, ax x, orbit σ (ax x), h1, hb, ?_, orbit_nodup _ _, ?_, ?_⟩
  · unfold Store.all
    rw [hb, Option.bind_some, labels_eq h2.mapping, h2.mapping]
    have hc : minimalPeriod σ (ax x) ≤ c * r := by
      have := period_le_card σ (ax x)
      rwa [Fintype.card_prod, Fintype.card_fin, Fintype.card_fin] at this
    have := walk_eq σ (ax x) (minimalPeriod σ (ax x) - 1) 0 (c * r) (by omega) (by omega)
    rw [iterate_zero_apply] at this
    rw [this, Option.map_some]
    unfold orbit
    obtain ⟨k, hk⟩ : ∃ k, minimalPeriod σ (ax x) = k + 1 := ⟨_, (Nat.sub_add_cancel hp).symm⟩
    rw [hk, List.range_eq_range', List.range'_succ]
    simp
  · unfold orbit
    obtain ⟨k, hk⟩ : ∃ k, minimalPeriod σ (ax x) = k + 1 := ⟨_, (Nat.sub_add_cancel hp).symm⟩
    rw [hk, List.range_eq_range', List.range'_succ]
    simp
  · intro y
    rw [mem_orbit, h2.cycles]
    exact ⟨fun e => h2.trans (h2.base_mem x) e, fun e => h2.trans (h2.symm (h2.base_mem x)) e⟩

section Copy
variable {K : Type v} [DecidableEq K]

/-- `Copy` of cells of known columns merges the corresponding labels. -/
theorem C47_copy (columns : List K) (hn : columns.Nodup) (rows : ℕ) (s : Store) (i j : ℕ) (hi : i < columns.length)
    (hj : j < columns.length) (lrow rrow : ℕ) (hl : lrow < rows) (hr : rrow < rows) :
    copy columns rows s columns[i] lrow columns[j] rrow = (s.merge (i, lrow) (j, rrow)).map Prod.fst := by
  have key : ∀ i, (h : i < columns.length) → columnIndex columns columns[i] = some i := by
    intro i h
    unfold columnIndex
    rw [if_pos (List.getElem_mem h)]
    congr 1
    rw [List.findIdx_eq h]
    refine ⟨by simp, fun k hk => ?_⟩
    simp only [decide_eq_false_iff_not]
    intro e
    have := (hn.getElem_inj_iff).1 e
    omega
  unfold copy copyCheck
  rw [if_pos (by simp [hl.le, hr.le]), key i hi, key j hj]
  rfl

/-- A column that takes no part in the argument is refused. -/
theorem C47_copy_unknown (columns : List K) (rows : ℕ) (s : Store) (k k' : K) (lrow rrow : ℕ)
    (h : k ∉ columns ∨ k' ∉ columns) : copy columns rows s k lrow k' rrow = none := by
  unfold copy columnIndex
  split
  · rcases h with h | h
    · rw [if_neg h]; rfl
    · rw [if_neg h]; cases (if k ∈ columns then some (columns.findIdx fun c => c = k) else none) <;> rfl
  · rfl

/-- The checks of `Copy` let the row `rows` pass, which is outside of the tables. -/
theorem C47_copy_row_bound (c r : ℕ) (ps : List ((Fin c × Fin r) × (Fin c × Fin r))) (i : ℕ) (l : Label) :
    copyCheck r r 0 = true ∧ ∃ s, run (Store.new c r) (ps.map fun p => (lab p.1, lab p.2)) = some s ∧
      s.merge (i, r) l = none := by
  refine ⟨by simp [copyCheck], ?_⟩
  obtain ⟨s, σ, ax, sz, h1, h2⟩ := run_repr c r ps
  refine ⟨s, h1, ?_⟩
  have : s.base (i, r) = none := by
    unfold Store.base
    rw [h2.aux]
    unfold Cycle.get tab
    by_cases hi : i < c
    · rw [List.getElem?_eq_getElem (by simpa using hi)]; simp
    · rw [List.getElem?_eq_none (by simpa using hi)]; rfl
  unfold Store.merge
  rw [this]; rfl
end Copy

section Tables
variable {F : Type u} [Field F] [DecidableEq F]

private theorem nextColumns_get (delta : F) (n i : ℕ) (col : List F) (hi : i < n) :
    (nextColumns delta n col)[i]? = some (col.map fun x => x * delta ^ (i + 1)) := by
  induction n generalizing i col with
  | zero => omega
  | succ n ih =>
    unfold nextColumns
    cases i with
    | zero => simp
    | succ i =>
      rw [List.getElem?_cons_succ, ih i _ (by omega), List.map_map]
      congr 1
      apply List.map_congr_left
      intro x _
      simp only [comp_apply]; ring

/-- The cell `(i, j)` of the table of labels is `δ^i ω^j`. -/
theorem C47_unpermuted (threads c r : ℕ) (ht : 0 < threads) (ht' : threads ≤ 2 ^ 63) (hr : r ≤ 2 ^ 63)
    (omega delta : F) (x : Fin c × Fin r) :
    Cycle.get (unpermuted threads c r omega delta) (lab x) = some (delta ^ x.1.val * omega ^ x.2.val) := by
  obtain ⟨⟨i, hi⟩, ⟨j, hj⟩⟩ := x
  unfold Cycle.get unpermuted lab
  rw [C23_powers threads r omega 1 ht hr ht']
  cases i with
  | zero => simp [hj]
  | succ i =>
    rw [List.getElem?_cons_succ, nextColumns_get _ _ _ _ (by omega), Option.bind_some]
    simp [hj, mul_comm]

/-- `GeneratePermutations` writes the label of the next cell of the cycle into every cell. -/
theorem C47_generate (threads c r : ℕ) (ht : 0 < threads) (ht' : threads ≤ 2 ^ 63) (hr : r ≤ 2 ^ 63)
    (omega delta : F) (ps : List ((Fin c × Fin r) × (Fin c × Fin r))) :
    ∃ s P, ∃ σ : Equiv.Perm (Fin c × Fin r),
      run (Store.new c r) (ps.map fun p => (lab p.1, lab p.2)) = some s ∧
      (∀ x, s.next (lab x) = some (lab (σ x))) ∧ (∀ x y, (∃ n : ℕ, σ^[n] x = y) ↔ Gen ps x y) ∧
      generate threads c r r omega delta s = some P ∧
      P.length = c ∧ (∀ col ∈ P, col.length = r) ∧
      ∀ x, Cycle.get P (lab x) = some (delta ^ (σ x).1.val * omega ^ (σ x).2.val) := by
  obtain ⟨s, h1, σ, h2, h3, _⟩ := C47_cycles c r ps
  let f : Fin c × Fin r → F := fun x => delta ^ (σ x).1.val * omega ^ (σ x).2.val
  refine ⟨s, tab f, σ, h1, h2, h3, ?_, by simp [tab], ?_, fun x => get_tab f x⟩
  · unfold generate
    rw [if_pos rfl]
    have inner : ∀ i : Fin c, ((List.range r).mapM fun j => (s.next (i.val, j)).bind fun l =>
        Cycle.get (unpermuted threads c r omega delta) l) = some (List.ofFn fun j : Fin r => f (i, j)) := by
      intro i
      rw [Poly.mapM_some (g := fun j => if h : j < r then f (i, ⟨j, h⟩) else 0)]
      · congr 1
        apply List.ext_getElem
        · simp
        · intro k hk1 hk2
          have : k < r := by simpa using hk2
          simp [this]
      · intro j hj
        have hj := List.mem_range.1 hj
        have := h2 (i, ⟨j, hj⟩)
        unfold lab at this
        rw [this, Option.bind_some, dif_pos hj]
        exact C47_unpermuted threads c r ht ht' hr omega delta (σ (i, ⟨j, hj⟩))
    rw [Poly.mapM_some (g := fun i => if h : i < c then List.ofFn fun j : Fin r => f (⟨i, h⟩, j) else [])]
    · congr 1
      apply List.ext_getElem
      · simp [tab]
      · intro k hk1 hk2
        have : k < c := by simpa [tab] using hk2
        simp [this, tab]
    · intro i hi
      have hi := List.mem_range.1 hi
      rw [dif_pos hi]
      exact inner ⟨i, hi⟩
  · intro col hcol
    obtain ⟨i, rfl⟩ := (List.mem_ofFn' _ _).1 hcol
    simp

omit [DecidableEq F] in
/-- The labels of different cells differ if the orders of `ω` and `δ` are coprime, `ω` has order at least the
number of rows and `δ` at least the number of columns. -/
theorem C47_labels_distinct (c r : ℕ) (omega delta : F) (hc : c ≤ orderOf delta) (hr : r ≤ orderOf omega)
    (hco : Nat.Coprime (orderOf delta) (orderOf omega)) :
    Injective fun x : Fin c × Fin r => delta ^ x.1.val * omega ^ x.2.val := by
  rintro ⟨⟨i, hi⟩, ⟨j, hj⟩⟩ ⟨⟨i', hi'⟩, ⟨j', hj'⟩⟩ h
  simp only at h
  have hd0 : delta ≠ 0 := by
    rintro rfl
    rw [orderOf_eq_zero (by
      rintro h0
      obtain ⟨n, hn, e⟩ := isOfFinOrder_iff_pow_eq_one.1 h0
      rw [zero_pow hn.ne'] at e; exact zero_ne_one e)] at hc
    omega
  have ho0 : omega ≠ 0 := by
    rintro rfl
    rw [orderOf_eq_zero (by
      rintro h0
      obtain ⟨n, hn, e⟩ := isOfFinOrder_iff_pow_eq_one.1 h0
      rw [zero_pow hn.ne'] at e; exact zero_ne_one e)] at hr
    omega
  -- the common value of `δ^(i-i')` and `ω^(j'-j)` is 1
  have key : (delta ^ i) ^ orderOf omega = (delta ^ i') ^ orderOf omega := by
    have := congrArg (· ^ orderOf omega) h
    simp only [mul_pow, ← pow_mul] at this
    rw [mul_comm j, mul_comm j', pow_mul omega, pow_mul omega, pow_orderOf_eq_one, one_pow, one_pow, mul_one,
      mul_one] at this
    simpa [← pow_mul] using this
  have hi2 : i = i' := by
    rw [← pow_mul, ← pow_mul] at key
    have hpos : 0 < orderOf delta := by omega
    have hfin : IsOfFinOrder delta := orderOf_pos_iff.1 hpos
    rw [hfin.pow_eq_pow_iff_modEq] at key
    have := (Nat.ModEq.cancel_right_of_coprime (c := orderOf omega) hco key)
    unfold Nat.ModEq at this
    rwa [Nat.mod_eq_of_lt (by omega), Nat.mod_eq_of_lt (by omega)] at this
  subst hi2
  have hj2 : j = j' := by
    have h' := mul_left_cancel₀ (pow_ne_zero i hd0) h
    have hfin : IsOfFinOrder omega := orderOf_pos_iff.1 (by omega)
    rw [hfin.pow_eq_pow_iff_modEq] at h'
    unfold Nat.ModEq at h'
    rwa [Nat.mod_eq_of_lt (by omega), Nat.mod_eq_of_lt (by omega)] at h'
  subst hj2
  rfl

omit [DecidableEq F] in
/-- `GetDelta` has order `T` if the generator has order `2^s T`. -/
theorem C47_delta (p : ℕ) [CharP F p] (canon : F → ℕ) (hcanon : ∀ x, ((canon x : ℕ) : F) = x)
    (hlt : ∀ x, canon x < p) (g : F) (s T : ℕ) (hg : orderOf g = 2 ^ s * T) (hs : 2 ^ s < p) :
    orderOf (getDelta canon g s) = T := by
  have hc : canon ((2 : F) ^ s) = 2 ^ s := by
    have h1 := hcanon ((2 : F) ^ s)
    have h2 : ((2 ^ s : ℕ) : F) = (2 : F) ^ s := by push_cast; rfl
    rw [← h2] at h1
    have := (CharP.natCast_eq_natCast F p).1 h1
    unfold Nat.ModEq at this
    rwa [h2, Nat.mod_eq_of_lt (hlt _), Nat.mod_eq_of_lt hs] at this
  unfold getDelta
  rw [hc]
  have h2 : (2 : ℕ) ^ s ≠ 0 := by positivity
  rw [orderOf_pow_of_dvd h2 (by rw [hg]; exact Dvd.intro _ rfl), hg, Nat.mul_div_cancel_left _ (by positivity)]

end Tables

/-! Three columns, two rows; the copies `(0,0) = (1,1)`, `(1,1) = (2,0)`, and one that is known already. -/
private def demo : List ((Fin 3 × Fin 2) × (Fin 3 × Fin 2)) :=
  [((0, 0), (1, 1)), ((1, 1), (2, 0)), ((2, 0), (0, 0))]

example : ((run (Store.new 3 2) (demo.map fun p => (lab p.1, lab p.2))).bind fun s =>
    (s.all (2, 0)).bind fun l => (s.size (1, 1)).map fun n => (s.mapping, l, n)) =
    some ([[(1, 1), (0, 1)], [(1, 0), (2, 0)], [(0, 0), (2, 1)]],
      [(0, 0), (1, 1), (2, 0), (0, 0)], 3) := by decide +kernel

section
local instance prime13Cycle : Fact (Nat.Prime 13) := ⟨by norm_num⟩
-- 12 = 2^2 * 3 and 2 generates the group
example : orderOf (getDelta (fun x : ZMod 13 => x.val) 2 2) = 3 :=
  C47_delta 13 _ (fun x => by simp) (fun x => ZMod.val_lt x) 2 2 3
    (orderOf_eq_of_pow_and_pow_div_prime (n := 12) (by norm_num) (by decide +kernel) (by
      intro q hq hd
      have hle := Nat.le_of_dvd (by norm_num) hd
      interval_cases q <;> first | decide +kernel | exact absurd hq (by decide)))
    (by norm_num)
end

end Tachyon.Props
