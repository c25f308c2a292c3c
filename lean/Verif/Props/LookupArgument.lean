import Verif.Proofs.GrandProduct
import Verif.Proofs.GrandProductCount
import Verif.Props.Lookup
import Verif.Spec.F17
import Mathlib.Order.Fin.Basic
/-! C67, C68: the lookup argument of halo2 and the shuffle argument (`zk/lookup/halo2`, `zk/shuffle`). -/
universe u
namespace Tachyon.Props
open Tachyon.GrandProduct Tachyon.Lookup Finset

section
variable {F : Type u} [Field F]

private theorem get_getD {l : List F} {j : ℕ} (h : j < l.length) : l[j]? = some (l.getD j 0) := by
  rw [List.getD_eq_getElem _ _ h, List.getElem?_eq_getElem h]

private theorem take_eq_map {l : List F} {u : ℕ} (h : u ≤ l.length) :
    l.take u = (List.range u).map fun j => l.getD j 0 := by
  apply List.ext_getElem
  · simp; omega
  · intro i h1 h2
    simp only [List.length_map, List.length_range] at h2
    rw [List.getElem_take, List.getElem_map, List.getElem_range, List.getD_eq_getElem _ _ (by omega)]

private theorem take_prod {l : List F} {u : ℕ} (h : u ≤ l.length) (c : F) :
    ∏ j ∈ range u, (l.getD j 0 + c) = (((l.take u : List F) : Multiset F).map (· + c)).prod := by
  rw [Multiset.map_coe, Multiset.prod_coe, take_eq_map h, List.map_map, Finset.prod_eq_multiset_prod]
  rw [Finset.range_val, Multiset.range, Multiset.map_coe, Multiset.prod_coe]
  rfl

/-- What the constraints of a lookup say about the columns. -/
private theorem lookup_iff [DecidableEq F] {n u : ℕ} (hu : u < n) (beta gamma : F)
    {input table pInput pTable z : List F} (h1 : input.length = n) (h2 : table.length = n)
    (h3 : pInput.length = n) (h4 : pTable.length = n) (h5 : z.length = n) :
    LookupHolds n u beta gamma input table pInput pTable z ↔
      z.getD 0 0 = 1 ∧ z.getD u 0 ^ 2 = z.getD u 0 ∧
      (∀ j < u, z.getD (j + 1) 0 * ((pInput.getD j 0 + beta) * (pTable.getD j 0 + gamma)) =
        z.getD j 0 * ((input.getD j 0 + beta) * (table.getD j 0 + gamma))) ∧
      pInput.getD 0 0 = pTable.getD 0 0 ∧
      (∀ j, 0 < j → j < u → pInput.getD j 0 = pTable.getD j 0 ∨ pInput.getD j 0 = pInput.getD (j - 1) 0) := by
  have hn : 0 < n := by omega
  have key : ∀ j < n, (∃ a s a' s' ap zc zn, input[j]? = some a ∧ table[j]? = some s ∧ pInput[j]? = some a' ∧
      pTable[j]? = some s' ∧ pInput[(j + n - 1) % n]? = some ap ∧ z[j]? = some zc ∧ z[(j + 1) % n]? = some zn ∧
      ∀ e ∈ lookupEvaluate (rowL u j) beta gamma a s a' s' ap zc zn, e = 0) ↔
      ∀ e ∈ lookupEvaluate (rowL u j) beta gamma (input.getD j 0) (table.getD j 0) (pInput.getD j 0)
        (pTable.getD j 0) (pInput.getD ((j + n - 1) % n) 0) (z.getD j 0) (z.getD ((j + 1) % n) 0), e = 0 := by
    intro j hj
    rw [get_getD (j := j) (h1 ▸ hj), get_getD (j := j) (h2 ▸ hj), get_getD (l := pInput) (j := j) (by omega),
      get_getD (j := j) (h4 ▸ hj), get_getD (l := z) (j := j) (by omega),
      get_getD (l := pInput) (j := (j + n - 1) % n) (by rw [h3]; exact Nat.mod_lt _ hn),
      get_getD (l := z) (j := (j + 1) % n) (by rw [h5]; exact Nat.mod_lt _ hn)]
    constructor
    · rintro ⟨a, s, a', s', ap, zc, zn, e1, e2, e3, e4, e5, e6, e7, h⟩
      cases e1; cases e2; cases e3; cases e4; cases e5; cases e6; cases e7
      exact h
    · intro h
      exact ⟨_, _, _, _, _, _, _, rfl, rfl, rfl, rfl, rfl, rfl, rfl, h⟩
  have hact : ∀ j < u, (rowL (F := F) u j).active = 1 := by
    intro j hj
    simp [rowL, LValues.active, show ¬ j = u by omega, show ¬ u < j by omega]
  have hact0 : ∀ j, u ≤ j → (rowL (F := F) u j).active = 0 := by
    intro j hj
    rcases Nat.eq_or_lt_of_le hj with h | h
    · subst h; simp [rowL, LValues.active]
    · simp [rowL, LValues.active, h, show ¬ j = u by omega]
  constructor
  · intro h
    have h' := fun j hj => (key j hj).1 (h j hj)
    simp only [lookupEvaluate, List.mem_cons, List.not_mem_nil, or_false, forall_eq_or_imp, forall_eq] at h'
    refine ⟨?_, ?_, ?_, ?_, ?_⟩
    · have := (h' 0 hn).1
      simp only [rowL, if_true, one_mul] at this
      exact (sub_eq_zero.1 this).symm
    · have := (h' u hu).2.1
      simp only [rowL, if_true, one_mul] at this
      exact sub_eq_zero.1 this
    · intro j hj
      have := (h' j (by omega)).2.2.1
      rw [hact j hj, one_mul, Nat.mod_eq_of_lt (by omega)] at this
      linear_combination this
    · have := (h' 0 hn).2.2.2.1
      simp only [rowL, if_true, one_mul] at this
      exact sub_eq_zero.1 this
    · intro j h0 hj
      have := (h' j (by omega)).2.2.2.2
      rw [hact j hj, one_mul, show (j + n - 1) % n = j - 1 by
        rw [show j + n - 1 = j - 1 + n by omega, Nat.add_mod_right, Nat.mod_eq_of_lt (by omega)]] at this
      rcases mul_eq_zero.1 this with h | h
      · exact Or.inl (sub_eq_zero.1 h)
      · exact Or.inr (sub_eq_zero.1 h)
  · rintro ⟨g1, g2, g3, g4, g5⟩ j hj
    refine (key j hj).2 ?_
    simp only [lookupEvaluate, List.mem_cons, List.not_mem_nil, or_false, forall_eq_or_imp, forall_eq]
    refine ⟨?_, ?_, ?_, ?_, ?_⟩
    · by_cases h0 : j = 0
      · subst h0; rw [g1]; simp
      · simp [rowL, h0]
    · by_cases h0 : j = u
      · subst h0; rw [g2]; simp
      · simp [rowL, h0]
    · by_cases h0 : j < u
      · rw [Nat.mod_eq_of_lt (by omega)]
        have := g3 j h0
        rw [hact j h0, one_mul]
        linear_combination this
      · rw [hact0 j (by omega), zero_mul]
    · by_cases h0 : j = 0
      · subst h0; rw [g4]; simp
      · simp [rowL, h0]
    · by_cases h0 : j < u
      · rcases Nat.eq_zero_or_pos j with hz | hz
        · subst hz; rw [g4]; simp
        · rw [show (j + n - 1) % n = j - 1 by
            rw [show j + n - 1 = j - 1 + n by omega, Nat.add_mod_right, Nat.mod_eq_of_lt (by omega)]]
          rcases g5 j hz h0 with h | h
          · rw [h]; simp
          · rw [h]; simp
      · rw [hact0 j (by omega), zero_mul, zero_mul]

private theorem shuffle_iff [DecidableEq F] {n u : ℕ} (hu : u < n) (gamma : F)
    {input shuffle z : List F} (h1 : input.length = n) (h2 : shuffle.length = n) (h5 : z.length = n) :
    ShuffleHolds n u gamma input shuffle z ↔
      z.getD 0 0 = 1 ∧ z.getD u 0 ^ 2 = z.getD u 0 ∧
      (∀ j < u, z.getD (j + 1) 0 * (shuffle.getD j 0 + gamma) = z.getD j 0 * (input.getD j 0 + gamma)) := by
  have hn : 0 < n := by omega
  have key : ∀ j < n, (∃ a s zc zn, input[j]? = some a ∧ shuffle[j]? = some s ∧ z[j]? = some zc ∧
      z[(j + 1) % n]? = some zn ∧ ∀ e ∈ shuffleEvaluate (rowL u j) gamma a s zc zn, e = 0) ↔
      ∀ e ∈ shuffleEvaluate (rowL u j) gamma (input.getD j 0) (shuffle.getD j 0) (z.getD j 0)
        (z.getD ((j + 1) % n) 0), e = 0 := by
    intro j hj
    rw [get_getD (j := j) (h1 ▸ hj), get_getD (j := j) (h2 ▸ hj), get_getD (l := z) (j := j) (by omega),
      get_getD (l := z) (j := (j + 1) % n) (by rw [h5]; exact Nat.mod_lt _ hn)]
    constructor
    · rintro ⟨a, s, zc, zn, e1, e2, e6, e7, h⟩
      cases e1; cases e2; cases e6; cases e7
      exact h
    · intro h
      exact ⟨_, _, _, _, rfl, rfl, rfl, rfl, h⟩
  constructor
  · intro h
    have h' := fun j hj => (key j hj).1 (h j hj)
    simp only [shuffleEvaluate, List.mem_cons, List.not_mem_nil, or_false, forall_eq_or_imp, forall_eq] at h'
    refine ⟨?_, ?_, ?_⟩
    · have := (h' 0 hn).1
      simp only [rowL, if_true, one_mul] at this
      exact (sub_eq_zero.1 this).symm
    · have := (h' u hu).2.1
      simp only [rowL, if_true, one_mul] at this
      exact sub_eq_zero.1 this
    · intro j hj
      have := (h' j (by omega)).2.2
      rw [Nat.mod_eq_of_lt (by omega)] at this
      simp only [rowL, LValues.active, if_neg (show ¬ j = u by omega), if_neg (show ¬ u < j by omega), add_zero,
        sub_zero, one_mul] at this
      exact sub_eq_zero.1 this
  · rintro ⟨g1, g2, g3⟩ j hj
    refine (key j hj).2 ?_
    simp only [shuffleEvaluate, List.mem_cons, List.not_mem_nil, or_false, forall_eq_or_imp, forall_eq]
    refine ⟨?_, ?_, ?_⟩
    · by_cases h0 : j = 0
      · subst h0; rw [g1]; simp
      · simp [rowL, h0]
    · by_cases h0 : j = u
      · subst h0; rw [g2]; simp
      · simp [rowL, h0]
    · rcases Nat.lt_trichotomy j u with h0 | h0 | h0
      · rw [Nat.mod_eq_of_lt (by omega), g3 j h0]; simp
      · simp [rowL, LValues.active, h0]
      · simp [rowL, LValues.active, h0, show ¬ j = u by omega]

/-- The column of running quotients. -/
private theorem serial_column [DecidableEq F] {n b : ℕ} (hb : b + 1 ≤ n) (rnd : ℕ → F) (k : ℕ) (nw dw : ℕ → F)
    (hd : ∀ j < n - (b + 1), dw j ≠ 0)
    (htot : ∏ j ∈ range (n - (b + 1)), nw j = ∏ j ∈ range (n - (b + 1)), dw j) {z : List F}
    (hz : z = (List.range (n - b)).map (fun i => ∏ j ∈ range i, nw j * (dw j)⁻¹) ++
        (List.range b).map (fun i => rnd (k + i))) :
    z.length = n ∧ z.getD 0 0 = 1 ∧ z.getD (n - (b + 1)) 0 = 1 ∧
      (∀ j < n - (b + 1), z.getD (j + 1) 0 * dw j = z.getD j 0 * nw j) ∧
      ∏ j ∈ range (n - (b + 1)), nw j * (dw j)⁻¹ = 1 := by
  have hlen : z.length = n := by rw [hz]; simp; omega
  have hget : ∀ i < n - b, z.getD i 0 = ∏ j ∈ range i, nw j * (dw j)⁻¹ := by
    intro i hi
    rw [List.getD_eq_getElem?_getD, hz, List.getElem?_append_left (by simpa using hi), List.getElem?_map,
      List.getElem?_range hi]
    rfl
  have h1 : ∏ j ∈ range (n - (b + 1)), nw j * (dw j)⁻¹ = 1 := by
    rw [prod_mul_distrib, prod_inv_distrib, htot]
    exact mul_inv_cancel₀ (prod_ne_zero_iff.2 fun j hj => hd j (mem_range.1 hj))
  refine ⟨hlen, ?_, ?_, ?_, h1⟩
  · rw [hget 0 (by omega)]; simp
  · rw [hget _ (by omega), h1]
  · intro j hj
    rw [hget _ (by omega), hget _ (by omega), prod_range_succ, mul_assoc, mul_assoc, inv_mul_cancel₀ (hd j hj),
      mul_one]

end

section
variable {F : Type u} [Field F] [LinearOrder F]

/-- Completeness: if every usable input occurs in the usable rows of the table, the prover finds the permuted
columns and a grand product that satisfy the constraints of the verifier in all rows, for all challenges that
are not the opposite of a value. -/
theorem C67_complete (rnd : ℕ → F) (n b k : ℕ) (beta gamma : F) (input table : List F) (hb : b + 1 ≤ n)
    (hn : n < 2 ^ 32) (hi : input.length = n) (ht : table.length = n)
    (h : ∀ x ∈ input.take (n - (b + 1)), x ∈ table.take (n - (b + 1)))
    (hu : 0 < n - (b + 1)) (hβ : ∀ x ∈ input.take (n - (b + 1)), x + beta ≠ 0)
    (hγ : ∀ x ∈ table.take (n - (b + 1)), x + gamma ≠ 0) :
    ∃ A S z, permutePair rnd n b input table = some (some (A, S)) ∧
      lookupCreate n b rnd k input table A S beta gamma = some (z, 1, k + b) ∧
      LookupHolds n (n - (b + 1)) beta gamma input table A S z := by
  obtain ⟨A, S, h1, h2, h3, h4, h5, -, h6, h7, -, -⟩ := C46_permute rnd n b input table hb hn hi ht h
  set u := n - (b + 1) with hudef
  have hcb : ∀ (l m : List F), l.length = n → m.length = n → ∀ j < n,
      pairCallback l m beta gamma j = some ((l.getD j 0 + beta) * (m.getD j 0 + gamma)) := by
    intro l m hl hm j hj
    unfold pairCallback
    rw [get_getD (hl ▸ hj), get_getD (hm ▸ hj)]
  have hmem : ∀ (l : List F), l.length = n → ∀ j < u, l.getD j 0 ∈ l.take u := by
    intro l hl j hj
    rw [List.getD_eq_getElem _ _ (by omega)]
    exact List.mem_take_iff_getElem.2 ⟨j, by omega, rfl⟩
  have hp : ∏ j ∈ range u, ((input.getD j 0 + beta) * (table.getD j 0 + gamma)) =
      ∏ j ∈ range u, ((A.getD j 0 + beta) * (S.getD j 0 + gamma)) := by
    rw [prod_mul_distrib, prod_mul_distrib, take_prod (by omega), take_prod (by omega), take_prod (by omega),
      take_prod (by omega), Multiset.coe_eq_coe.2 h4, Multiset.coe_eq_coe.2 h5]
  obtain ⟨g1, g2, g3, g4, g5⟩ := serial_column hb rnd k
    (fun j => (input.getD j 0 + beta) * (table.getD j 0 + gamma))
    (fun j => (A.getD j 0 + beta) * (S.getD j 0 + gamma))
    (fun j hj => mul_ne_zero (hβ _ (h4.mem_iff.1 (hmem A h2 j hj))) (hγ _ (h5.mem_iff.1 (hmem S h3 j hj)))) hp rfl
  have e := createSerial_eq hb hn rnd k _ _ _ _ (hcb input table hi ht) (hcb A S h2 h3)
  rw [g5] at e
  refine ⟨A, S, _, h1, e, (lookup_iff (by omega) beta gamma hi ht h2 h3 g1).2 ⟨g2, by rw [g3, one_pow], g4, ?_, ?_⟩⟩
  · have := h6 hu
    rw [get_getD (by omega), get_getD (by omega)] at this
    exact Option.some.inj this
  · intro j h0 hj
    have := h7 j h0 hj
    rw [get_getD (by omega), get_getD (by omega), get_getD (by omega)] at this
    exact this.imp Option.some.inj Option.some.inj

end

section
variable {F : Type u} [Field F] [DecidableEq F] [Fintype F]

/-- Soundness: if a usable input does not occur in the usable rows of the table, then whatever permuted columns
the prover commits to, for all but at most `4 u |F|` pairs of challenges no grand product satisfies the constraints
of the verifier in all rows. -/
theorem C67_sound (n u : ℕ) (hu : u < n) (input table A S : List F) (hi : input.length = n) (ht : table.length = n)
    (hA : A.length = n) (hS : S.length = n) (h : ∃ x ∈ input.take u, x ∉ table.take u) :
    {r : F × F | ∃ z : List F, z.length = n ∧ LookupHolds n u r.1 r.2 input table A S z}.ncard ≤
      4 * u * Fintype.card F := by
  by_cases hrow : A.getD 0 0 = S.getD 0 0 ∧
      ∀ j, 0 < j → j < u → A.getD j 0 = S.getD j 0 ∨ A.getD j 0 = A.getD (j - 1) 0
  · have hsub : ∀ x ∈ A.take u, x ∈ S.take u := by
      intro x hx
      obtain ⟨i, hi', rfl⟩ := List.mem_take_iff_getElem.1 hx
      obtain ⟨j, hj, e⟩ := C46_sound u A S
        (fun h0 => by rw [get_getD (by omega), get_getD (by omega), hrow.1])
        (fun i h0 hi => by
          rw [get_getD (by omega), get_getD (by omega), get_getD (by omega)]
          exact (hrow.2 i h0 hi).imp (congrArg some) (congrArg some)) i (by omega)
      rw [List.getElem?_eq_getElem (by omega), List.getElem?_eq_getElem (by omega)] at e
      rw [Option.some.inj e]
      exact List.mem_take_iff_getElem.2 ⟨j, by omega, rfl⟩
    have hne : lookProd ((input.take u : List F) : Multiset F) (table.take u : List F) ≠
        lookProd (A.take u : List F) (S.take u : List F) := by
      intro e
      obtain ⟨e1, e2⟩ := lookProd_injective e
      obtain ⟨x, hx, hx'⟩ := h
      have p1 := Multiset.coe_eq_coe.1 e1
      have p2 := Multiset.coe_eq_coe.1 e2
      exact hx' (p2.mem_iff.2 (hsub x (p1.mem_iff.1 hx)))
    have hdeg : ∀ l m : List F, (lookProd ((l.take u : List F) : Multiset F) (m.take u : List F)).totalDegree ≤
        2 * u := by
      intro l m
      refine (lookProd_degree _ _).trans ?_
      rw [Multiset.coe_card, Multiset.coe_card, List.length_take, List.length_take]
      omega
    refine (Set.ncard_le_ncard ?_ (Set.toFinite _)).trans
      ((bad_poly_le hne (lookProd_ne_zero _ _) (hdeg _ _) (hdeg _ _)).trans (by rw [← Nat.mul_assoc]))
    rintro ⟨β, γ⟩ ⟨z, hz, hh⟩
    obtain ⟨g1, g2, g3, -, -⟩ := (lookup_iff hu β γ hi ht hA hS hz).1 hh
    have tel := telescope u (fun j => z.getD j 0) _ _ g3
    simp only [g1, one_mul] at tel
    rw [prod_mul_distrib, prod_mul_distrib, take_prod (by omega), take_prod (by omega), take_prod (by omega),
      take_prod (by omega)] at tel
    show MvPolynomial.eval ![β, γ] _ = MvPolynomial.eval ![β, γ] _ ∨ MvPolynomial.eval ![β, γ] _ = 0
    rw [lookProd_eval, lookProd_eval, ← tel]
    generalize z.getD u 0 = w at *
    have h3 : w * (w - 1) = 0 := by linear_combination g2
    rcases mul_eq_zero.1 h3 with h3 | h3
    · right; rw [h3, zero_mul]
    · left; rw [sub_eq_zero.1 h3, one_mul]
  · have : {r : F × F | ∃ z : List F, z.length = n ∧ LookupHolds n u r.1 r.2 input table A S z} = ∅ := by
      ext r
      constructor
      · rintro ⟨z, hz, hh⟩
        exact hrow ((lookup_iff hu _ _ hi ht hA hS hz).1 hh).2.2.2
      · intro h; exact h.elim
    rw [this, Set.ncard_empty]
    exact Nat.zero_le _

omit [Fintype F] in
/-- The column of the shuffle prover: the products of `(a + γ) / (s + γ)`, the last `b` rows are random. -/
theorem C68_create (rnd : ℕ → F) (n b k : ℕ) (gamma : F) (input shuffle : List F) (hb : b + 1 ≤ n)
    (hn : n < 2 ^ 32) (hi : input.length = n) (hs : shuffle.length = n) :
    shuffleCreate n b rnd k input shuffle gamma =
      some ((List.range (n - b)).map (fun i => ∏ j ∈ range i, (input.getD j 0 + gamma) / (shuffle.getD j 0 + gamma)) ++
        (List.range b).map (fun i => rnd (k + i)),
        ∏ j ∈ range (n - (b + 1)), (input.getD j 0 + gamma) / (shuffle.getD j 0 + gamma), k + b) := by
  simp only [div_eq_mul_inv]
  exact createSerial_eq hb hn rnd k _ _ _ _ (fun j hj => by rw [get_getD (hi ▸ hj)]; rfl)
    (fun j hj => by rw [get_getD (hs ▸ hj)]; rfl)

omit [Fintype F] in
/-- Completeness of the shuffle argument. -/
theorem C68_complete (rnd : ℕ → F) (n b k : ℕ) (gamma : F) (input shuffle : List F) (hb : b + 1 ≤ n)
    (hn : n < 2 ^ 32) (hi : input.length = n) (hs : shuffle.length = n)
    (h : (input.take (n - (b + 1))).Perm (shuffle.take (n - (b + 1))))
    (hγ : ∀ x ∈ input.take (n - (b + 1)), x + gamma ≠ 0) :
    ∃ z, shuffleCreate n b rnd k input shuffle gamma = some (z, 1, k + b) ∧
      ShuffleHolds n (n - (b + 1)) gamma input shuffle z := by
  have hmem : ∀ j < n - (b + 1), shuffle.getD j 0 ∈ shuffle.take (n - (b + 1)) := by
    intro j hj
    rw [List.getD_eq_getElem _ _ (by omega)]
    exact List.mem_take_iff_getElem.2 ⟨j, by omega, rfl⟩
  obtain ⟨g1, g2, g3, g4, g5⟩ := serial_column hb rnd k (fun j => input.getD j 0 + gamma)
    (fun j => shuffle.getD j 0 + gamma) (fun j hj => hγ _ (h.mem_iff.2 (hmem j hj)))
    (by rw [take_prod (by omega), take_prod (by omega), Multiset.coe_eq_coe.2 h]) rfl
  have e := createSerial_eq hb hn rnd k (fun j => (input[j]?).map (· + gamma)) (fun j => (shuffle[j]?).map (· + gamma))
    _ _ (fun j hj => by rw [get_getD (hi ▸ hj)]; rfl) (fun j hj => by rw [get_getD (hs ▸ hj)]; rfl)
  rw [g5] at e
  exact ⟨_, e, (shuffle_iff (by omega) gamma hi hs g1).2 ⟨g2, by rw [g3, one_pow], g4⟩⟩

/-- Soundness of the shuffle argument: if the usable rows are not a permutation of each other, there are at most
`2 u` challenges for which some grand product satisfies the constraints of the verifier in all rows. -/
theorem C68_sound (n u : ℕ) (hu : u < n) (input shuffle : List F) (hi : input.length = n) (hs : shuffle.length = n)
    (h : ¬ (input.take u).Perm (shuffle.take u)) :
    {γ : F | ∃ z : List F, z.length = n ∧ ShuffleHolds n u γ input shuffle z}.ncard ≤ 2 * u := by
  have hne : ((input.take u : List F) : Multiset F) ≠ (shuffle.take u : List F) := fun e => h (Multiset.coe_eq_coe.1 e)
  refine (Set.ncard_le_ncard ?_ (Set.toFinite _)).trans (bad_one_le hne (d := u)
    (by rw [Multiset.coe_card, List.length_take]; omega) (by rw [Multiset.coe_card, List.length_take]; omega))
  rintro γ ⟨z, hz, hh⟩
  obtain ⟨g1, g2, g3⟩ := (shuffle_iff hu γ hi hs hz).1 hh
  have tel := telescope u (fun j => z.getD j 0) _ _ g3
  simp only [g1, one_mul] at tel
  rw [take_prod (by omega), take_prod (by omega)] at tel
  show _ = _ ∨ _ = _
  rw [← tel]
  generalize z.getD u 0 = w at *
  have h3 : w * (w - 1) = 0 := by linear_combination g2
  rcases mul_eq_zero.1 h3 with h3 | h3
  · right; rw [h3, zero_mul]
  · left; rw [sub_eq_zero.1 h3, one_mul]

/-! ### Tuples -/

/-- The polynomial of which `CompressExpressions` takes the value. -/
private noncomputable def tuplePoly (v : List F) : Polynomial F :=
  v.foldl (fun c x => c * Polynomial.X + Polynomial.C x) 0

omit [DecidableEq F] [Fintype F] in
private theorem tuplePoly_append (v : List F) (a : F) :
    tuplePoly (v ++ [a]) = tuplePoly v * Polynomial.X + Polynomial.C a := by
  simp [tuplePoly, List.foldl_append]

omit [DecidableEq F] [Fintype F] in
private theorem tuplePoly_eval (θ : F) (v : List F) : (tuplePoly v).eval θ = compress θ v := by
  induction v using List.reverseRecOn with
  | nil => simp [tuplePoly, compress]
  | append_singleton v a ih =>
    rw [tuplePoly_append]
    simp [compress, List.foldl_append, ih]

omit [DecidableEq F] [Fintype F] in
private theorem tuplePoly_degree (v : List F) : (tuplePoly v).natDegree ≤ v.length - 1 := by
  induction v using List.reverseRecOn with
  | nil => simp [tuplePoly]
  | append_singleton v a ih =>
    rw [tuplePoly_append, Polynomial.natDegree_add_C]
    rcases List.eq_nil_or_concat v with rfl | ⟨w, x, rfl⟩
    · simp [tuplePoly]
    · refine (Polynomial.natDegree_mul_le).trans ?_
      simp only [Polynomial.natDegree_X, List.concat_eq_append, List.length_append, List.length_singleton] at *
      omega

omit [DecidableEq F] [Fintype F] in
private theorem tuplePoly_injective : ∀ (m : ℕ) (v w : List F), v.length = m → w.length = m →
    tuplePoly v = tuplePoly w → v = w := by
  intro m
  induction m with
  | zero =>
    intro v w hv hw _
    rw [List.eq_nil_of_length_eq_zero hv, List.eq_nil_of_length_eq_zero hw]
  | succ m ih =>
    intro v w hv hw e
    rcases List.eq_nil_or_concat v with rfl | ⟨v, a, rfl⟩
    · simp at hv
    rcases List.eq_nil_or_concat w with rfl | ⟨w, b, rfl⟩
    · simp at hw
    simp only [List.concat_eq_append, List.length_append, List.length_singleton] at *
    rw [tuplePoly_append, tuplePoly_append] at e
    have h0 := congrArg (fun P => Polynomial.coeff P 0) e
    simp at h0
    subst h0
    have h1 := mul_right_cancel₀ Polynomial.X_ne_zero (add_right_cancel e)
    rw [ih v w (by omega) (by omega) h1]

/-- A tuple that is not among those of a table is compressed to a value of the compressed table for at most
`(m - 1)` challenges per row. -/
theorem C67_compress (m : ℕ) (x : List F) (T : List (List F)) (hx : x.length = m) (hT : ∀ t ∈ T, t.length = m)
    (h : x ∉ T) : {θ : F | compress θ x ∈ T.map (compress θ)}.ncard ≤ T.length * (m - 1) := by
  induction T with
  | nil => simp
  | cons t T ih =>
    have hne : tuplePoly x - tuplePoly t ≠ 0 := by
      intro e
      have := tuplePoly_injective m x t hx (hT t (by simp)) (sub_eq_zero.1 e)
      exact h (by rw [this]; simp)
    have h1 : {θ : F | compress θ x = compress θ t}.ncard ≤ m - 1 := by
      have : {θ : F | compress θ x = compress θ t} ⊆ ((tuplePoly x - tuplePoly t).roots.toFinset : Set F) := by
        intro θ hθ
        simp only [Finset.mem_coe, Multiset.mem_toFinset, Polynomial.mem_roots hne, Polynomial.IsRoot,
          Polynomial.eval_sub, tuplePoly_eval]
        exact sub_eq_zero.2 hθ
      refine (Set.ncard_le_ncard this (Set.toFinite _)).trans ?_
      rw [Set.ncard_coe_finset]
      refine (Multiset.toFinset_card_le _).trans ((Polynomial.card_roots' _).trans
        ((Polynomial.natDegree_sub_le _ _).trans (max_le ?_ ?_)))
      · exact hx ▸ tuplePoly_degree x
      · exact (hT t (by simp)) ▸ tuplePoly_degree t
    have h2 := ih (fun t ht => hT t (by simp [ht])) (fun hm => h (by simp [hm]))
    have : {θ : F | compress θ x ∈ (t :: T).map (compress θ)} =
        {θ : F | compress θ x = compress θ t} ∪ {θ : F | compress θ x ∈ T.map (compress θ)} := by
      ext θ
      simp only [List.map_cons, List.mem_cons, Set.mem_ofPred_eq, Set.mem_union]
    rw [this, List.length_cons, Nat.add_mul, one_mul]
    refine (Set.ncard_union_le _ _).trans ?_
    omega

end

/-! ### Examples -/

private instance f17Order : LinearOrder F17 := inferInstanceAs (LinearOrder (Fin 17))

private def rnd17 (i : ℕ) : F17 := 7 * i + 3

/-- Three usable rows; the inputs 5, 2, 5 are in the table 2, 5, 9. -/
example : ∃ A S z, permutePair rnd17 5 1 [5, 2, 5, 0, 0] [2, 5, 9, 0, 0] = some (some (A, S)) ∧
    lookupCreate 5 1 rnd17 4 [5, 2, 5, 0, 0] [2, 5, 9, 0, 0] A S 1 1 = some (z, 1, 5) ∧
    LookupHolds 5 3 1 1 [5, 2, 5, 0, 0] [2, 5, 9, 0, 0] A S z :=
  C67_complete rnd17 5 1 4 1 1 _ _ (by omega) (by omega) rfl rfl (by decide) (by omega) (by decide) (by decide)

example : lookupCreate 5 1 rnd17 4 [5, 2, 5, 0, 0] [2, 5, 9, 0, 0] [2, 5, 5, 3, 10] [2, 5, 9, 0, 7] 1 1 =
    some ([1, 2, 1, 1, 14], 1, 5) := by decide +kernel

/-- The input 4 is not in the table: few challenges let the columns `A`, `S` pass. -/
example (A S : List F17) (hA : A.length = 5) (hS : S.length = 5) :
    {r : F17 × F17 | ∃ z : List F17, z.length = 5 ∧
      LookupHolds 5 3 r.1 r.2 [5, 4, 5, 0, 0] [2, 5, 9, 0, 0] A S z}.ncard ≤ 4 * 3 * 17 :=
  C67_sound 5 3 (by omega) _ _ A S rfl rfl hA hS ⟨4, by decide, by decide⟩

example : ∃ z, shuffleCreate 5 1 rnd17 0 [5, 2, 9, 1, 1] [9, 5, 2, 0, 0] 3 = some (z, 1, 1) ∧
    ShuffleHolds 5 3 3 [5, 2, 9, 1, 1] [9, 5, 2, 0, 0] z :=
  C68_complete rnd17 5 1 0 3 _ _ (by omega) (by omega) rfl rfl (by decide) (by decide)

example : shuffleCreate 5 1 rnd17 0 [5, 2, 9, 1, 1] [9, 5, 2, 0, 0] 3 = some ([1, 12, 16, 1, 3], 1, 1) := by
  decide +kernel

example : {γ : F17 | ∃ z : List F17, z.length = 5 ∧
    ShuffleHolds 5 3 γ [5, 2, 9, 1, 1] [9, 5, 5, 0, 0] z}.ncard ≤ 2 * 3 :=
  C68_sound 5 3 (by omega) _ _ rfl rfl (by decide)

example : {θ : F17 | compress θ [1, 2] ∈ [[1, 3], [2, 2], [2, 3]].map (compress θ)}.ncard ≤ 3 * 1 :=
  C67_compress 2 [1, 2] _ rfl (by decide) (by decide)

example : compress (3 : F17) [1, 2, 4] = 2 := by decide +kernel

end Tachyon.Props
