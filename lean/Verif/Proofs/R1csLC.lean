import Verif.Spec.R1cs
import Mathlib.Tactic.Ring
import Mathlib.Tactic.LinearCombination
import Mathlib.Data.List.Sort
/-! Linear combinations: the order of variables, `Deduplicate`, the searches and the arithmetic. -/
namespace Tachyon.R1cs

variable {F : Type} [Field F] [DecidableEq F]

/-! ### The order -/

theorem Var.lt_iff (a b : Var) : a.lt b = true ↔ a.type < b.type ∨ a.type = b.type ∧ a.index < b.index := by
  cases a <;> cases b <;> simp [Var.lt, Var.type, Var.index] <;> exact decide_eq_true_iff

theorem Var.le_iff (a b : Var) : a.le b = true ↔ a.type < b.type ∨ a.type = b.type ∧ a.index ≤ b.index := by
  cases a <;> cases b <;> simp [Var.le, Var.type, Var.index] <;> exact decide_eq_true_iff

theorem Var.ext_iff' (a b : Var) : a = b ↔ a.type = b.type ∧ a.index = b.index := by
  cases a <;> cases b <;> simp [Var.type, Var.index]

theorem Var.lt_irrefl (a : Var) : a.lt a = false := by
  rw [← Bool.not_eq_true, Var.lt_iff]; omega

theorem Var.lt_trans {a b c : Var} (h : a.lt b = true) (h' : b.lt c = true) : a.lt c = true := by
  rw [Var.lt_iff] at *; omega

theorem Var.lt_of_le_of_ne {a b : Var} (h : b.lt a = false) (hne : a ≠ b) : a.lt b = true := by
  rw [← Bool.not_eq_true, Var.lt_iff] at h
  rw [Ne, Var.ext_iff'] at hne
  rw [Var.lt_iff]; omega

theorem Var.not_lt_of_lt {a b : Var} (h : a.lt b = true) : b.lt a = false := by
  rw [← Bool.not_eq_true, Var.lt_iff]
  rw [Var.lt_iff] at h; omega

theorem Var.ne_of_lt {a b : Var} (h : a.lt b = true) : a ≠ b := by
  rintro rfl; rw [Var.lt_irrefl] at h; exact absurd h (by simp)

theorem Var.lt_of_lt_of_le {a b c : Var} (h : a.lt b = true) (h' : c.lt b = false) : a.lt c = true := by
  rw [← Bool.not_eq_true, Var.lt_iff] at h'
  rw [Var.lt_iff] at *; omega

theorem Var.le_trans {a b c : Var} (h : b.lt a = false) (h' : c.lt b = false) : c.lt a = false := by
  rw [← Bool.not_eq_true, Var.lt_iff] at *; omega

theorem Var.gt_eq (a b : Var) : a.gt b = b.lt a := by
  rw [Bool.eq_iff_iff, Var.gt, Bool.not_eq_true', ← Bool.not_eq_true, Var.le_iff, Var.lt_iff]; omega

theorem Var.le_eq (a b : Var) : a.le b = !(b.lt a) := by
  rw [Bool.eq_iff_iff, Bool.not_eq_true', ← Bool.not_eq_true, Var.le_iff, Var.lt_iff]; omega

/-! ### Values -/

omit [DecidableEq F] in
@[simp] theorem lin_nil (z : Var → F) : lin z [] = 0 := rfl

omit [DecidableEq F] in
@[simp] theorem lin_cons (z : Var → F) (t : Term F) (l : LC F) : lin z (t :: l) = t.coeff * z t.var + lin z l := by
  simp [lin]

omit [DecidableEq F] in
@[simp] theorem lin_append (z : Var → F) (l r : LC F) : lin z (l ++ r) = lin z l + lin z r := by
  simp [lin]

omit [DecidableEq F] in
theorem lin_perm (z : Var → F) {l r : LC F} (h : l.Perm r) : lin z l = lin z r :=
  (h.map _).sum_eq

omit [DecidableEq F] in
theorem lin_neg (z : Var → F) (l : LC F) : lin z (neg l) = -lin z l := by
  induction l with
  | nil => simp [neg]
  | cons t l ih =>
    rw [neg] at ih
    simp only [neg, List.map_cons, lin_cons, ih]
    simp only [Term.neg]
    ring

omit [DecidableEq F] in
theorem lin_mulScalar (z : Var → F) (l : LC F) (s : F) : lin z (mulScalar l s) = lin z l * s := by
  induction l with
  | nil => simp [mulScalar]
  | cons t l ih =>
    rw [mulScalar] at ih
    simp only [mulScalar, List.map_cons, lin_cons, ih]
    simp only [Term.mul]
    ring

omit [DecidableEq F] in
theorem coeffOf_eq_lin (l : LC F) (v : Var) : coeffOf l v = lin (fun u => if u = v then 1 else 0) l := by
  induction l with
  | nil => rfl
  | cons t l ih =>
    rw [lin_cons, ← ih, coeffOf, List.filter_cons]
    by_cases h : t.var = v <;> simp [h, coeffOf]

omit [DecidableEq F] in
theorem lin_congr {z z' : Var → F} {l : LC F} (h : ∀ t ∈ l, z t.var = z' t.var) : lin z l = lin z' l := by
  rw [lin, lin]
  congr 1
  exact List.map_congr_left fun t ht => by rw [h t ht]

/-! ### `Deduplicate` -/

/-- What `Deduplicate` makes of a sorted list. -/
def mergeSpec (first : Term F) : LC F → LC F
  | [] => [first]
  | t :: l => if first.var = t.var then mergeSpec ⟨first.coeff + t.coeff, first.var⟩ l else first :: mergeSpec t l

omit [Field F] [DecidableEq F] in
theorem uniqueGo_run (last : Term F) (run l : LC F) (h : ∀ t ∈ run, t.var = last.var) :
    uniqueGo last (run ++ l) = uniqueGo last l := by
  induction run with
  | nil => rfl
  | cons t run ih =>
    rw [List.cons_append, uniqueGo, if_pos (h t (by simp)).symm]
    exact ih fun u hu => h u (by simp [hu])

omit [DecidableEq F] in
theorem accumulate_spec (l : LC F) : ∀ (first : Term F) (run : LC F), (∀ t ∈ run, t.var = first.var) →
    ∃ t' l', accumulate first run l = t' :: l' ∧ t'.var = first.var ∧ uniqueGo t' l' = mergeSpec first l := by
  induction l with
  | nil =>
    intro first run h
    refine ⟨first, run, rfl, rfl, ?_⟩
    have := uniqueGo_run first run [] h
    rw [List.append_nil] at this
    rw [this]; rfl
  | cons t l ih =>
    intro first run h
    rw [accumulate, mergeSpec]
    by_cases hv : first.var = t.var
    · rw [if_pos hv, if_pos hv]
      exact ih ⟨first.coeff + t.coeff, first.var⟩ (run ++ [t]) fun u hu => by
        rcases List.mem_append.1 hu with hu | hu
        · exact h u hu
        · rw [List.mem_singleton.1 hu]; exact hv.symm
    · rw [if_neg hv, if_neg hv]
      obtain ⟨t', l', e, ev, eu⟩ := ih t [] (by simp)
      refine ⟨first, run ++ accumulate t [] l, rfl, rfl, ?_⟩
      rw [uniqueGo_run _ _ _ h, e, uniqueGo, if_neg (by rw [ev]; exact hv), eu]

omit [DecidableEq F] in
theorem merge_cons (t : Term F) (l : LC F) : merge (t :: l) = mergeSpec t l := by
  obtain ⟨t', l', e, -, eu⟩ := accumulate_spec l t [] (by simp)
  rw [merge, e]
  exact eu

omit [DecidableEq F] in
theorem lin_mergeSpec (z : Var → F) (l : LC F) : ∀ t, lin z (mergeSpec t l) = t.coeff * z t.var + lin z l := by
  induction l with
  | nil => intro t; simp [mergeSpec]
  | cons u l ih =>
    intro t
    rw [mergeSpec]
    split
    · next h => rw [ih, lin_cons, h]; ring
    · rw [lin_cons, ih, lin_cons]

omit [DecidableEq F] in
theorem mem_mergeSpec (l : LC F) : ∀ (t : Term F) (v : Var),
    (∃ u ∈ mergeSpec t l, u.var = v) ↔ t.var = v ∨ ∃ u ∈ l, u.var = v := by
  induction l with
  | nil => intro t v; simp [mergeSpec]
  | cons u l ih =>
    intro t v
    rw [mergeSpec]
    split
    · next h =>
      rw [ih]
      simp only [List.exists_mem_cons_iff, ← h]
      tauto
    · rw [List.exists_mem_cons_iff, ih, List.exists_mem_cons_iff]

omit [DecidableEq F] in
theorem strict_mergeSpec (l : LC F) : ∀ t : Term F, ((t :: l).Pairwise fun a b => b.var.lt a.var = false) →
    Strict (mergeSpec t l) := by
  induction l with
  | nil => intro t _; simp [mergeSpec, Strict]
  | cons u l ih =>
    intro t h
    rw [mergeSpec]
    obtain ⟨h1, h2⟩ := List.pairwise_cons.1 h
    split
    · next hv =>
      refine ih _ (List.pairwise_cons.2 ⟨fun x hx => h1 x (by simp [hx]), ?_⟩)
      exact (List.pairwise_cons.1 h2).2
    · next hv =>
      refine List.pairwise_cons.2 ⟨fun x hx => ?_, ih u h2⟩
      have hlt := Var.lt_of_le_of_ne (h1 u (by simp)) hv
      rcases (mem_mergeSpec l u x.var).1 ⟨x, hx, rfl⟩ with e | ⟨y, hy, e⟩
      · rw [← e]; exact hlt
      · rw [← e]
        exact Var.lt_of_lt_of_le hlt ((List.pairwise_cons.1 h2).1 y hy)

omit [DecidableEq F] in
theorem lin_dedup (s : Sorter F) (z : Var → F) (l : LC F) : lin z (dedup s l) = lin z l := by
  rw [dedup, ← lin_perm z (s.perm l)]
  cases h : s.run l with
  | nil => rfl
  | cons t l => rw [merge_cons, lin_mergeSpec, lin_cons]

omit [DecidableEq F] in
theorem strict_dedup (s : Sorter F) (l : LC F) : Strict (dedup s l) := by
  have := s.sorted l
  rw [dedup]
  cases h : s.run l with
  | nil => exact List.Pairwise.nil
  | cons t l => rw [merge_cons]; rw [h] at this; exact strict_mergeSpec _ _ this

omit [DecidableEq F] in
theorem mem_dedup (s : Sorter F) (l : LC F) (v : Var) :
    (∃ u ∈ dedup s l, u.var = v) ↔ ∃ u ∈ l, u.var = v := by
  have hp : (∃ u ∈ l, u.var = v) ↔ ∃ u ∈ s.run l, u.var = v := by
    simp only [(s.perm l).mem_iff]
  rw [hp, dedup]
  cases h : s.run l with
  | nil => simp [merge]
  | cons t l => rw [merge_cons, mem_mergeSpec, List.exists_mem_cons_iff]

omit [DecidableEq F] in
theorem Strict.coeff {l : LC F} (h : Strict l) {t : Term F} (ht : t ∈ l) : t.coeff = coeffOf l t.var := by
  induction l with
  | nil => simp at ht
  | cons u l ih =>
    obtain ⟨h1, h2⟩ := List.pairwise_cons.1 h
    rcases List.mem_cons.1 ht with rfl | ht'
    · rw [coeffOf, List.filter_cons, if_pos (by simp)]
      have : l.filter (fun u => u.var = t.var) = [] := by
        rw [List.filter_eq_nil_iff]
        intro x hx
        simpa using fun e => Var.ne_of_lt (h1 x hx) e.symm
      rw [this]; simp
    · have hne : u.var ≠ t.var := Var.ne_of_lt (h1 t ht')
      rw [ih h2 ht', coeffOf, coeffOf, List.filter_cons, if_neg (by simpa using hne)]

omit [DecidableEq F] in
/-- A strictly sorted list is determined by its variables and their coefficients. -/
theorem Strict.ext {l r : LC F} (hl : Strict l) (hr : Strict r)
    (hv : ∀ v, (∃ u ∈ l, u.var = v) ↔ ∃ u ∈ r, u.var = v) (hc : ∀ v, coeffOf l v = coeffOf r v) : l = r := by
  have hmem : ∀ t, t ∈ l ↔ t ∈ r := by
    intro t
    constructor
    · intro ht
      obtain ⟨u, hu, e⟩ := (hv t.var).1 ⟨t, ht, rfl⟩
      have : u = t := by
        have h1 := hl.coeff ht
        have h2 := hr.coeff hu
        cases u; cases t
        simp only at e; subst e
        simp only at h1 h2
        rw [h1, h2, hc]
      exact this ▸ hu
    · intro ht
      obtain ⟨u, hu, e⟩ := (hv t.var).2 ⟨t, ht, rfl⟩
      have : u = t := by
        have h1 := hr.coeff ht
        have h2 := hl.coeff hu
        cases u; cases t
        simp only at e; subst e
        simp only at h1 h2
        rw [h1, h2, hc]
      exact this ▸ hu
  have nd : ∀ {l : LC F}, Strict l → l.Nodup := fun h =>
    List.Pairwise.imp (fun {a b} hab (e : a = b) => Var.ne_of_lt hab (by rw [e])) h
  have hp : l.Perm r := (List.perm_ext_iff_of_nodup (nd hl) (nd hr)).2 hmem
  exact hp.eq_of_pairwise (fun a b _ _ h h' => by
    rw [Var.not_lt_of_lt h] at h'; exact absurd h' (by simp)) hl hr

omit [DecidableEq F] in
theorem dedup_sorter (s s' : Sorter F) (l : LC F) : dedup s l = dedup s' l := by
  refine (strict_dedup s l).ext (strict_dedup s' l) (fun v => ?_) fun v => ?_
  · rw [mem_dedup, mem_dedup]
  · rw [coeffOf_eq_lin, coeffOf_eq_lin, lin_dedup, lin_dedup]

/-! ### The searches -/

omit [Field F] [DecidableEq F] in
theorem linearSearch_spec (v : Var) (l : LC F) : ∀ i, ∃ k, linearSearch v l i = ((linearSearch v l i).1, i + k) ∧
    k ≤ l.length ∧ ((linearSearch v l i).1 = true → ∃ t, l[k]? = some t ∧ t.var = v) ∧
    ((linearSearch v l i).1 = false → Strict l → (∀ t ∈ l.take k, t.var.lt v = true) ∧
      ∀ t ∈ l.drop k, v.lt t.var = true) := by
  induction l with
  | nil => intro i; exact ⟨0, rfl, le_rfl, by simp [linearSearch], by simp⟩
  | cons t l ih =>
    intro i
    rw [linearSearch]
    by_cases h1 : t.var = v
    · rw [if_pos h1]; exact ⟨0, rfl, by simp, fun _ => ⟨t, rfl, h1⟩, by simp⟩
    · rw [if_neg h1]
      by_cases h2 : t.var.gt v = true
      · rw [if_pos h2]
        refine ⟨0, rfl, by simp, by simp, fun _ hs => ⟨by simp, ?_⟩⟩
        rw [Var.gt_eq] at h2
        intro u hu
        rcases List.mem_cons.1 hu with rfl | hu
        · exact h2
        · exact Var.lt_trans h2 ((List.pairwise_cons.1 hs).1 u hu)
      · rw [if_neg h2]
        obtain ⟨k, e, hk, hf, hn⟩ := ih (i + 1)
        refine ⟨k + 1, by rw [e]; congr 1; omega, by simpa using hk, fun h => ?_, fun h hs => ?_⟩
        · obtain ⟨u, e1, e2⟩ := hf h
          exact ⟨u, by simpa using e1, e2⟩
        · obtain ⟨q1, q2⟩ := hn h (List.pairwise_cons.1 hs).2
          refine ⟨fun u hu => ?_, fun u hu => q2 u (by simpa using hu)⟩
          rw [List.take_succ_cons] at hu
          rcases List.mem_cons.1 hu with rfl | hu
          · rw [Var.gt_eq, Bool.not_eq_true] at h2
            exact Var.lt_of_le_of_ne h2 h1
          · exact q1 u hu

omit [Field F] [DecidableEq F] in
theorem binarySearchGo_spec (l : LC F) (v : Var) : ∀ fuel left right, right ≤ l.length → left ≤ right →
    right - left ≤ fuel → ∃ b k, binarySearchGo l v fuel left right = some (b, k) ∧ k ≤ l.length ∧
      (b = true → ∃ t, l[k]? = some t ∧ t.var = v) ∧
      (b = false → Strict l → (∀ t ∈ l.take left, t.var.lt v = true) → (∀ t ∈ l.drop right, v.lt t.var = true) →
        (∀ t ∈ l.take k, t.var.lt v = true) ∧ ∀ t ∈ l.drop k, v.lt t.var = true) := by
  intro fuel
  induction fuel with
  | zero =>
    intro left right hr hl hf
    have : left = right := by omega
    subst this
    exact ⟨false, left, by rw [binarySearchGo, if_neg (by omega)], hr, by simp, fun _ _ h1 h2 => ⟨h1, h2⟩⟩
  | succ fuel ih =>
    intro left right hr hl hf
    rw [binarySearchGo]
    by_cases hlt : left < right
    · rw [if_pos hlt]
      dsimp only
      generalize hm : left + (right - left) / 2 = mid
      have hml : left ≤ mid := by omega
      have hmr : mid < right := by omega
      have hm' : mid < l.length := by omega
      rw [List.getElem?_eq_getElem hm', Option.bind_some]
      by_cases h1 : l[mid].var.lt v = true
      · rw [if_pos h1]
        obtain ⟨b, k, e, hk, hf', hn⟩ := ih (mid + 1) right hr (by omega) (by omega)
        refine ⟨b, k, e, hk, hf', fun hb hs q1 q2 => hn hb hs (fun t ht => ?_) q2⟩
        rw [List.take_add_one, List.getElem?_eq_getElem hm', Option.toList_some, List.mem_append] at ht
        rcases ht with ht | ht
        · obtain ⟨j, hj, rfl⟩ := List.mem_take_iff_getElem.1 ht
          exact Var.lt_trans (List.pairwise_iff_getElem.1 hs j mid (by omega) hm' (by omega)) h1
        · rw [List.mem_singleton.1 ht]; exact h1
      · rw [if_neg h1]
        by_cases h2 : l[mid].var.gt v = true
        · rw [if_pos h2]
          obtain ⟨b, k, e, hk, hf', hn⟩ := ih left mid (by omega) hml (by omega)
          refine ⟨b, k, e, hk, hf', fun hb hs q1 q2 => hn hb hs q1 fun t ht => ?_⟩
          rw [Var.gt_eq] at h2
          obtain ⟨j, hj, rfl⟩ := List.mem_drop_iff_getElem.1 ht
          rcases Nat.eq_zero_or_pos j with rfl | hj0
          · simpa using h2
          · exact Var.lt_trans h2 (List.pairwise_iff_getElem.1 hs mid (mid + j) hm' (by omega) (by omega))
        · rw [if_neg h2]
          refine ⟨true, mid, rfl, by omega, fun _ => ⟨l[mid], List.getElem?_eq_getElem hm', ?_⟩, by simp⟩
          rw [Var.gt_eq] at h2
          by_contra hne
          exact h1 (Var.lt_of_le_of_ne (by simpa using h2) hne)
    · rw [if_neg hlt]
      have : left = right := by omega
      subst this
      exact ⟨false, left, rfl, hr, by simp, fun _ _ h1 h2 => ⟨h1, h2⟩⟩

omit [Field F] [DecidableEq F] in
theorem binarySearch_spec (l : LC F) (v : Var) : ∃ b k, binarySearch l v = some (b, k) ∧ k ≤ l.length ∧
    (b = true → ∃ t, l[k]? = some t ∧ t.var = v) ∧
    (b = false → Strict l → (∀ t ∈ l.take k, t.var.lt v = true) ∧ ∀ t ∈ l.drop k, v.lt t.var = true) := by
  obtain ⟨b, k, e, h1, h2, h3⟩ := binarySearchGo_spec l v l.length 0 l.length le_rfl (by omega) (by omega)
  exact ⟨b, k, e, h1, h2, fun hb hs => h3 hb hs (by simp) (by simp)⟩

omit [Field F] [DecidableEq F] in
theorem getVarLocation_spec (l : LC F) (v : Var) : ∃ b k, getVarLocation l v = some (b, k) ∧ k ≤ l.length ∧
    (b = true → ∃ t, l[k]? = some t ∧ t.var = v) ∧
    (b = false → Strict l → (∀ t ∈ l.take k, t.var.lt v = true) ∧ ∀ t ∈ l.drop k, v.lt t.var = true) := by
  rw [getVarLocation]
  split
  · obtain ⟨k, e, h1, h2, h3⟩ := linearSearch_spec v l 0
    rw [zero_add] at e
    exact ⟨_, k, by rw [e], h1, h2, h3⟩
  · exact binarySearch_spec l v

/-! ### Adding a term -/

omit [DecidableEq F] in
theorem addTerm_spec (l : LC F) (t : Term F) : ∃ r, addTerm l t = some r ∧
    (∀ z, lin z r = lin z l + t.coeff * z t.var) ∧ (Strict l → Strict r) := by
  obtain ⟨b, k, e, hk, hf, hn⟩ := getVarLocation_spec l t.var
  rw [addTerm, e, Option.bind_some, placeTerm]
  cases b with
  | true =>
    obtain ⟨u, e1, e2⟩ := hf rfl
    rw [if_pos rfl]
    simp only [e1, Option.map_some]
    obtain ⟨hk', e1⟩ := List.getElem?_eq_some_iff.1 e1
    refine ⟨_, rfl, fun z => ?_, fun hs => ?_⟩
    · rw [List.set_eq_take_append_cons_drop, if_pos hk', lin_append, lin_cons]
      conv_rhs => rw [← List.take_append_drop k l, List.drop_eq_getElem_cons hk', lin_append, lin_cons, e1]
      rw [e2]; ring
    · rw [Strict, List.pairwise_iff_getElem] at hs ⊢
      intro i j hi hj hij
      rw [List.length_set] at hi hj
      have key : ∀ i (hi : i < l.length), ((l.set k ⟨u.coeff + t.coeff, u.var⟩)[i]'(by simpa using hi)).var = l[i].var := by
        intro i hi
        rw [List.getElem_set]
        split
        · next h => subst h; rw [e1]
        · rfl
      rw [key i hi, key j hj]
      exact hs i j hi hj hij
  | false =>
    rw [if_neg (by simp), if_neg (by simpa using hk)]
    refine ⟨_, rfl, fun z => ?_, fun hs => ?_⟩
    · rw [lin_append, lin_cons]
      conv_rhs => rw [← List.take_append_drop k l, lin_append]
      ring
    · obtain ⟨h1, h2⟩ := hn rfl hs
      have hs' : Strict (l.take k ++ l.drop k) := by rw [List.take_append_drop]; exact hs
      obtain ⟨p1, p2, p3⟩ := List.pairwise_append.1 hs'
      refine List.pairwise_append.2 ⟨p1, List.pairwise_cons.2 ⟨h2, p2⟩, fun a ha b hb => ?_⟩
      rcases List.mem_cons.1 hb with rfl | hb
      · exact h1 a ha
      · exact p3 a ha b hb

/-! ### Sums of linear combinations -/

theorem var_eq_of_not {a b : Var} (h : ¬ a.lt b = true) (h' : ¬ a.gt b = true) : a = b := by
  by_contra hne
  rw [Var.gt_eq] at h'
  exact h (Var.lt_of_le_of_ne (by simpa using h') hne)

omit [DecidableEq F] in
theorem lin_doAddition (z : Var → F) (n : Bool) (l : LC F) : ∀ r,
    lin z (doAddition n l r) = lin z l + (if n then -1 else 1) * lin z r := by
  induction l with
  | nil =>
    intro r
    rw [doAddition]
    cases n
    · simp
    · have := lin_neg z r
      rw [neg] at this
      simp [this]
  | cons a l ihl =>
    intro r
    rw [doAddition]
    induction r with
    | nil => rw [addGo, lin_cons, ihl]; simp
    | cons b r ih =>
      rw [addGo]
      split
      · rw [lin_cons, ihl, lin_cons z a l]; ring
      · split
        · rw [lin_cons, ih, lin_cons z b r]
          cases n <;> simp [Term.neg] <;> ring
        · next h h' =>
          rw [lin_cons, ihl, lin_cons, lin_cons, var_eq_of_not h h']
          cases n <;> simp <;> ring

omit [DecidableEq F] in
theorem mem_doAddition (n : Bool) (v : Var) (l : LC F) : ∀ r,
    (∃ u ∈ doAddition n l r, u.var = v) ↔ (∃ u ∈ l, u.var = v) ∨ ∃ u ∈ r, u.var = v := by
  induction l with
  | nil =>
    intro r
    rw [doAddition]
    cases n <;> simp [Term.neg]
  | cons a l ihl =>
    intro r
    rw [doAddition]
    induction r with
    | nil => rw [addGo, List.exists_mem_cons_iff, ihl, List.exists_mem_cons_iff]; simp
    | cons b r ih =>
      rw [addGo]
      split
      · rw [List.exists_mem_cons_iff, ihl, List.exists_mem_cons_iff (a := a)]; exact or_assoc.symm
      · split
        · rw [List.exists_mem_cons_iff, ih, List.exists_mem_cons_iff, List.exists_mem_cons_iff]
          cases n <;> exact or_left_comm
        · next h h' =>
          rw [List.exists_mem_cons_iff, ihl, List.exists_mem_cons_iff, List.exists_mem_cons_iff,
            var_eq_of_not h h']
          exact or_or_distrib_left

omit [DecidableEq F] in
theorem strict_map {f : Term F → Term F} (hf : ∀ t, (f t).var = t.var) {l : LC F} (h : Strict l) :
    Strict (l.map f) := by
  rw [Strict, List.pairwise_map]
  exact h.imp fun {a b} hab => by rw [hf, hf]; exact hab

omit [DecidableEq F] in
theorem strict_doAddition (n : Bool) (l : LC F) (hl : Strict l) : ∀ r, Strict r → Strict (doAddition n l r) := by
  induction l with
  | nil =>
    intro r hr
    rw [doAddition]
    exact strict_map (fun t => by split <;> rfl) hr
  | cons a l ihl =>
    intro r hr
    obtain ⟨l1, l2⟩ := List.pairwise_cons.1 hl
    rw [doAddition]
    induction r with
    | nil =>
      rw [addGo]
      refine List.pairwise_cons.2 ⟨fun x hx => ?_, ihl l2 [] hr⟩
      rcases (mem_doAddition n x.var l []).1 ⟨x, hx, rfl⟩ with ⟨u, hu, e⟩ | ⟨u, hu, e⟩
      · rw [← e]; exact l1 u hu
      · simp at hu
    | cons b r ih =>
      obtain ⟨r1, r2⟩ := List.pairwise_cons.1 hr
      rw [addGo]
      split
      · next h =>
        refine List.pairwise_cons.2 ⟨fun x hx => ?_, ihl l2 _ hr⟩
        rcases (mem_doAddition n x.var l (b :: r)).1 ⟨x, hx, rfl⟩ with ⟨u, hu, e⟩ | ⟨u, hu, e⟩
        · rw [← e]; exact l1 u hu
        · rw [← e]
          rcases List.mem_cons.1 hu with rfl | hu
          · exact h
          · exact Var.lt_trans h (r1 u hu)
      · split
        · next h h' =>
          rw [Var.gt_eq] at h'
          refine List.pairwise_cons.2 ⟨fun x hx => ?_, ih r2⟩
          have hb : (if n = true then b.neg else b).var = b.var := by split <;> rfl
          rw [hb]
          rcases (mem_doAddition n x.var (a :: l) r).1 ⟨x, hx, rfl⟩ with ⟨u, hu, e⟩ | ⟨u, hu, e⟩
          · rw [← e]
            rcases List.mem_cons.1 hu with rfl | hu
            · exact h'
            · exact Var.lt_trans h' (l1 u hu)
          · rw [← e]; exact r1 u hu
        · next h h' =>
          have hv := var_eq_of_not h h'
          refine List.pairwise_cons.2 ⟨fun x hx => ?_, ihl l2 _ r2⟩
          rcases (mem_doAddition n x.var l r).1 ⟨x, hx, rfl⟩ with ⟨u, hu, e⟩ | ⟨u, hu, e⟩
          · rw [← e]; exact l1 u hu
          · rw [← e]; show a.var.lt u.var = true; rw [hv]; exact r1 u hu

omit [Field F] [DecidableEq F] in
theorem isSorted_iff (l : LC F) : isSorted l = true ↔ l.Pairwise fun a b => b.var.lt a.var = false := by
  induction l with
  | nil => simp [isSorted]
  | cons a l ih =>
    cases l with
    | nil => simp [isSorted]
    | cons b l =>
      rw [isSorted, Bool.and_eq_true, ih, Bool.not_eq_true', List.pairwise_cons (a := a)]
      constructor
      · rintro ⟨h1, h2⟩
        refine ⟨fun x hx => ?_, h2⟩
        rcases List.mem_cons.1 hx with rfl | hx
        · exact h1
        · exact Var.le_trans h1 ((List.pairwise_cons.1 h2).1 x hx)
      · rintro ⟨h1, h2⟩
        exact ⟨h1 b (by simp), h2⟩

end Tachyon.R1cs
