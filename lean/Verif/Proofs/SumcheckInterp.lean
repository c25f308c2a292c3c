import Verif.Proofs.Sumcheck
/-! `InterpolateUniPoly` for C42. -/
namespace Tachyon.Sumcheck
open Tachyon.Parallel Tachyon.Multilinear

variable {F : Type*} [Field F]

/-- The result of the callback for a list of indices. -/
def partOf (x : F) (l : List ℕ) : Part F :=
  ⟨(l.map fun i : ℕ => x - (i : F)).prod, (l.map fun i : ℕ => if i > 1 then (i : F) else 1).prod,
    l.map fun i : ℕ => x - (i : F)⟩

theorem partStep_foldl (x : F) : ∀ (len a : ℕ) (p q : F) (e : List F),
    (List.range' a len).foldl (partStep x) (⟨p, q, e⟩, (a : F)) =
      (⟨p * (partOf x (List.range' a len)).product, q * (partOf x (List.range' a len)).denomUp,
        e ++ (partOf x (List.range' a len)).evals⟩, ((a + len : ℕ) : F))
  | 0, a, p, q, e => by simp [partOf]
  | len + 1, a, p, q, e => by
    rw [List.range'_succ, List.foldl_cons]
    have : partStep x (⟨p, q, e⟩, (a : F)) a =
        (⟨p * (x - a), q * (if a > 1 then (a : F) else 1), e ++ [x - (a : F)]⟩, ((a + 1 : ℕ) : F)) := by
      unfold partStep
      simp only [Nat.cast_add, Nat.cast_one]
      congr 2
      split <;> simp
    rw [this, partStep_foldl x len (a + 1)]
    simp only [partOf, List.map_cons, List.prod_cons]
    rw [show a + 1 + len = a + (len + 1) by omega, mul_assoc, mul_assoc, List.append_assoc]
    rfl

theorem part_eq (x : F) (len off cs : ℕ) : part x len off cs = partOf x (List.range' (off * cs) len) := by
  rw [part, partStep_foldl]
  simp [partOf]

theorem mergePart_foldl (x : F) : ∀ (l : List (List ℕ)) (a : List ℕ),
    (l.map (partOf x)).foldl mergePart (partOf x a) = partOf x (a ++ l.flatten)
  | [], a => by simp
  | c :: l, a => by
    rw [List.map_cons, List.foldl_cons]
    have : mergePart (partOf x a) (partOf x c) = partOf x (a ++ c) := by simp [mergePart, partOf]
    rw [this, mergePart_foldl x l, List.flatten_cons, List.append_assoc]

theorem upLoop_eq : ∀ (i : ℕ) (evals : List F) (du off : F), i ≤ evals.length →
    upLoop i evals du off = evals.mapIdx fun j e =>
      if j < i then e * (du * ∏ u ∈ Finset.range (i - 1 - j), -(off + u)) else e
  | 0, evals, du, off, _ => by
    refine List.ext_getElem? fun j => ?_
    rw [upLoop, List.getElem?_mapIdx]; simp
  | i + 1, evals, du, off, h => by
    rw [upLoop, upLoop_eq i _ _ _ (by rw [List.length_modify]; omega)]
    refine List.ext_getElem? fun j => ?_
    rw [List.getElem?_mapIdx, List.getElem?_mapIdx, List.getElem?_modify]
    cases hj : evals[j]? with
    | none => simp
    | some e =>
      simp only [Option.map_some, Option.map_eq_map]
      rcases Nat.lt_trichotomy j i with hlt | rfl | hgt
      · rw [if_neg (by omega : ¬ i = j), if_pos hlt, if_pos (by omega : j < i + 1), if_pos (by omega : i ≠ 0),
          if_pos (by omega : i ≠ 0), show i + 1 - 1 - j = (i - 1 - j) + 1 by omega, Finset.prod_range_succ']
        congr 1
        simp only [Nat.cast_zero, add_zero, Nat.cast_add, Nat.cast_one]
        have : ∀ u : ℕ, -(off + ((u : F) + 1)) = -(off + 1 + u) := fun u => by ring
        simp only [this]
        ring
      · simp
      · rw [if_neg (by omega), if_neg (by omega), if_neg (by omega)]

theorem downLoop_eq (poly evals : List F) (product : F) : ∀ (i : ℕ) (dd off res : F),
    downLoop poly evals product i dd off res = res + ∑ j ∈ Finset.range i,
      poly.getD j 0 * product * (dd * ∏ u ∈ Finset.range (i - 1 - j), (off - u)) * evals.getD j 0
  | 0, dd, off, res => by simp [downLoop]
  | i + 1, dd, off, res => by
    rw [downLoop, downLoop_eq poly evals product i, Finset.sum_range_succ, Nat.add_sub_cancel, Nat.sub_self,
      Finset.prod_range_zero, mul_one]
    have : ∀ j ∈ Finset.range i, poly.getD j 0 * product * ((if i ≠ 0 then dd * off else dd) *
        ∏ u ∈ Finset.range (i - 1 - j), ((if i ≠ 0 then off - 1 else off) - (u : F))) * evals.getD j 0 =
        poly.getD j 0 * product * (dd * ∏ u ∈ Finset.range (i - j), (off - u)) * evals.getD j 0 := by
      intro j hj
      have hj := Finset.mem_range.1 hj
      rw [if_pos (by omega), if_pos (by omega), show i - j = (i - 1 - j) + 1 by omega, Finset.prod_range_succ']
      simp only [Nat.cast_zero, sub_zero, Nat.cast_add, Nat.cast_one]
      have : ∀ u : ℕ, off - 1 - (u : F) = off - ((u : F) + 1) := fun u => by ring
      simp only [this]
      ring
    rw [Finset.sum_congr rfl this]
    ring

/-- The denominators. -/
theorem denom_eq {k j : ℕ} (hj : j < k) :
    (∏ i ∈ (Finset.range k).erase j, ((j : F) - i)) * ∏ u ∈ Finset.range (k - 1 - j), (((k - 1 : ℕ) : F) - u) =
      ((k - 1).factorial : F) * ∏ u ∈ Finset.range (k - 1 - j), -(1 + (u : F)) := by
  have h1 : ∏ i ∈ (Finset.range k).erase j, ((j : F) - i) =
      (∏ i ∈ Finset.range j, ((j : F) - i)) * ∏ u ∈ Finset.range (k - 1 - j), -(1 + (u : F)) := by
    have : (Finset.range k).erase j = Finset.range j ∪ (Finset.range (k - 1 - j)).map (addLeftEmbedding (j + 1)) := by
      ext i
      simp only [Finset.mem_erase, Finset.mem_range, Finset.mem_union, Finset.mem_map, addLeftEmbedding_apply]
      constructor
      · rintro ⟨h1, h2⟩
        rcases Nat.lt_or_ge i j with h | h
        · exact .inl h
        · exact .inr ⟨i - (j + 1), by omega, by omega⟩
      · rintro (h | ⟨a, h1, rfl⟩) <;> omega
    rw [this, Finset.prod_union, Finset.prod_map]
    · congr 1
      refine Finset.prod_congr rfl fun u _ => ?_
      rw [addLeftEmbedding_apply]
      push_cast
      ring
    · rw [Finset.disjoint_left]
      intro i h1 h2
      simp only [Finset.mem_range, Finset.mem_map, addLeftEmbedding_apply] at h1 h2
      obtain ⟨a, -, rfl⟩ := h2
      omega
  have h2 : ∏ i ∈ Finset.range j, ((j : F) - i) = (j.factorial : F) := by
    rw [← Nat.descFactorial_self, Nat.descFactorial_eq_prod_range]
    push_cast
    refine Finset.prod_congr rfl fun i hi => ?_
    rw [Nat.cast_sub (Finset.mem_range.1 hi).le]
  have h3 : ∏ u ∈ Finset.range (k - 1 - j), (((k - 1 : ℕ) : F) - u) = ((k - 1).descFactorial (k - 1 - j) : F) := by
    rw [Nat.descFactorial_eq_prod_range]
    push_cast
    refine Finset.prod_congr rfl fun i hi => ?_
    have := Finset.mem_range.1 hi
    rw [Nat.cast_sub (by omega : i ≤ k - 1)]
  have h4 := Nat.factorial_mul_descFactorial (n := k - 1) (k := k - 1 - j) (by omega)
  rw [show k - 1 - (k - 1 - j) = j by omega] at h4
  rw [h1, h2, h3, ← h4]
  push_cast
  ring

theorem denomUp_eq (k : ℕ) (hk : 0 < k) :
    ((List.range k).map fun i : ℕ => if i > 1 then (i : F) else 1).prod = ((k - 1).factorial : F) := by
  induction k with
  | zero => omega
  | succ k ih =>
    rw [List.range_succ, List.map_append, List.prod_append]
    rcases Nat.eq_zero_or_pos k with rfl | h0
    · simp
    · rw [ih h0, Nat.add_sub_cancel]
      simp only [List.map_cons, List.map_nil, List.prod_cons, List.prod_nil, mul_one]
      rcases Nat.lt_or_ge 1 k with h | h
      · rw [if_pos h]
        conv_rhs => rw [show k = k - 1 + 1 by omega, Nat.factorial_succ, show k - 1 + 1 = k by omega]
        push_cast; ring
      · obtain rfl : k = 1 := by omega
        simp

variable [DecidableEq F]

theorem interpolate_eq {p : ℕ} [CharP F p] {canon : F → ℕ} (hcan : ∀ x, ((canon x : ℕ) : F) = x)
    (hlt : ∀ x, canon x < p) {threads : ℕ} (ht : 0 < threads) (ht' : threads < 128) {poly : List F}
    (h0 : poly ≠ []) (hlen : poly.length ≤ 2 ^ 62) (Q : Polynomial F) (hdeg : Q.degree < poly.length)
    (hQ : ∀ i < poly.length, Q.eval (i : F) = poly.getD i 0) (x : F) :
    interpolate canon threads poly x = some (Q.eval x) := by
  have hpos : 0 < poly.length := List.length_pos_iff.2 h0
  unfold interpolate
  rw [if_neg (by omega)]
  by_cases hx : canon x < poly.length
  · rw [if_pos hx, List.getElem?_eq_getElem hx]
    have := hQ _ hx
    rw [hcan, List.getD_eq_getElem _ _ hx] at this
    rw [this]
  rw [if_neg hx]
  generalize hk : poly.length = k at *
  have hp : k < p := by have := hlt x; omega
  have hinj : Set.InjOn (fun i : ℕ => (i : F)) (Finset.range k) := by
    intro a ha b hb hab
    have ha := Finset.mem_range.1 ha
    have hb := Finset.mem_range.1 hb
    exact CharP.natCast_injOn_Iio F p (by simp; omega) (by simp; omega) hab
  have hne : ∀ j < k, x ≠ (j : F) := by
    intro j hj he
    have : (canon x : F) = (j : F) := by rw [hcan, he]
    have := CharP.natCast_injOn_Iio F p (by simpa using hlt x) (by simp; omega) this
    omega
  obtain ⟨l, h1, h2⟩ := mapSize_eq (threads := threads) (size := k) (th := 16 * threads)
    (f := fun len offset size => some (part x len offset size)) (fun c => some (partOf x c)) ht (by omega)
    (by omega) fun len off cs => by rw [part_eq]
  rw [mapM_some' fun _ _ => rfl] at h2
  rw [h2]
  obtain ⟨c, l, rfl⟩ : ∃ c l', l = c :: l' := by
    cases l with
    | nil =>
      have := congrArg List.length h1
      simp at this; omega
    | cons c l => exact ⟨c, l, rfl⟩
  rw [List.map_cons]
  simp only
  rw [mergePart_foldl, ← List.flatten_cons, h1]
  simp only [partOf]
  rw [denomUp_eq k hpos]
  have hup : upLoop k ((List.range k).map fun i : ℕ => x - (i : F)) ((k - 1).factorial : F) 1 =
      (List.range k).map fun j : ℕ => (x - (j : F)) * (((k - 1).factorial : F) *
        ∏ u ∈ Finset.range (k - 1 - j), -(1 + (u : F))) := by
    rw [upLoop_eq _ _ _ _ (by simp)]
    refine List.ext_getElem? fun j => ?_
    rw [List.getElem?_mapIdx, List.getElem?_map, List.getElem?_map]
    rcases Nat.lt_or_ge j k with hj | hj
    · rw [List.getElem?_range hj]
      simp [hj]
    · rw [List.getElem?_eq_none (by simpa using hj)]
      rfl
  rw [hup]
  have hbi := Props.C22_batchInverse threads ((List.range k).map fun j : ℕ => (x - (j : F)) *
    (((k - 1).factorial : F) * ∏ u ∈ Finset.range (k - 1 - j), -(1 + (u : F)))) 1 ht ht' (by simp; omega)
  rw [List.length_map, List.length_range] at hbi
  rw [hbi]
  simp only [Option.some.injEq]
  rw [downLoop_eq, zero_add, prod_range_list]
  -- Lagrange
  have hL : Q = Lagrange.interpolate (Finset.range k) (fun i : ℕ => (i : F)) fun i => poly.getD i 0 :=
    Lagrange.eq_interpolate_of_eval_eq _ hinj (by rw [Finset.card_range]; exact hdeg)
      fun i hi => hQ i (Finset.mem_range.1 hi)
  rw [hL, Lagrange.eval_interpolate_not_at_node _ fun i hi => hne i (Finset.mem_range.1 hi), Lagrange.eval_nodal,
    Finset.mul_sum]
  refine Finset.sum_congr rfl fun j hj => ?_
  have hj := Finset.mem_range.1 hj
  rw [List.map_map, List.getD_eq_getElem (List.map _ _) _ (by simpa using hj), List.getElem_map, List.getElem_range]
  simp only [Function.comp, one_mul]
  rw [Lagrange.nodalWeight, Finset.prod_inv_distrib, ← denom_eq hj]
  have hxj : x - (j : F) ≠ 0 := sub_ne_zero.2 (hne j hj)
  have hD : ∏ i ∈ (Finset.range k).erase j, ((j : F) - i) ≠ 0 := by
    refine Finset.prod_ne_zero_iff.2 fun i hi => ?_
    obtain ⟨h1, h2⟩ := Finset.mem_erase.1 hi
    exact sub_ne_zero.2 fun he => h1 (hinj (Finset.mem_coe.2 (Finset.mem_range.2 hj)) (Finset.mem_coe.2 h2) he).symm
  have hA : ∏ u ∈ Finset.range (k - 1 - j), (((k - 1 : ℕ) : F) - u) ≠ 0 := by
    refine Finset.prod_ne_zero_iff.2 fun u hu => ?_
    have hu := Finset.mem_range.1 hu
    refine sub_ne_zero.2 fun he => ?_
    have := hinj (Finset.mem_coe.2 (Finset.mem_range.2 (by omega : k - 1 < k)))
      (Finset.mem_coe.2 (Finset.mem_range.2 (by omega : u < k))) he
    omega
  rw [if_neg (mul_ne_zero hxj (mul_ne_zero hD hA))]
  generalize (∏ i ∈ (Finset.range k).erase j, ((j : F) - i)) = D at *
  generalize (∏ u ∈ Finset.range (k - 1 - j), (((k - 1 : ℕ) : F) - u)) = A at *
  generalize (∏ i ∈ Finset.range k, (x - (i : F))) = P
  field_simp

end Tachyon.Sumcheck
