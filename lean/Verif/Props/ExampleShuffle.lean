import Verif.Model.ExampleShuffle
import Verif.Proofs.ExampleCircuits
import Verif.Props.LookupArgument
import Verif.Spec.F7
import Verif.Spec.F97
import Mathlib.Data.Set.Card.Arithmetic
/-! C107: what the shuffle circuit proves. -/
namespace Tachyon.Props
open Tachyon.Examples Tachyon.GrandProduct

variable {F : Type} [Field F] [DecidableEq F]

/-- The rows of a table. -/
def tableRows (w h : ℕ) (t : ℕ → ℕ → F) : List (List F) := (List.range h).map fun j => (List.range w).map fun i => t i j

theorem proverCompress_eq (theta : F) (w : ℕ) (e : ℕ → F) : proverCompress theta w e = compress theta ((List.range w).map e) := by
  rw [proverCompress, compress, List.foldl_map]

theorem gateCompress_eq (theta : F) (w : ℕ) (hw : 1 ≤ w) (e : ℕ → F) : gateCompress theta w e = compress theta ((List.range w).map e) := by
  obtain ⟨v, rfl⟩ : ∃ v, w = v + 1 := ⟨w - 1, by omega⟩
  rw [gateCompress, compress, List.range_succ_eq_map, List.map_cons, List.map_map, List.foldl_cons, zero_mul, zero_add, List.foldl_map, Nat.add_sub_cancel]
  rfl

/-- The value the column `z` is to have at a row. -/
def shuffleZVal (w : ℕ) (theta gamma : F) (orig shuf : ℕ → ℕ → F) : ℕ → F
  | 0 => 1
  | i + 1 => shuffleZVal w theta gamma orig shuf i * shuffleProduct w theta gamma orig shuf i

theorem shuffleZ_unchecked (w h : ℕ) (theta gamma : F) (orig shuf : ℕ → ℕ → F) :
    ∃ z, shuffleZ false w h theta gamma orig shuf = some z ∧ ∀ j ≤ h, z.mem[j]? = some (shuffleZVal w theta gamma orig shuf j) := by
  have key : ∀ k ≤ h, ∃ z : ZVec F, ((ZVec.reserve (h + 1)).set false 0 1).bind (fun z => (List.range k).foldlM (fun z i =>
      (z.get false i).bind fun x => z.set false (i + 1) (x * shuffleProduct w theta gamma orig shuf i)) z) = some z ∧
      z.mem.length = h + 1 ∧ ∀ j ≤ k, z.mem[j]? = some (shuffleZVal w theta gamma orig shuf j) := by
    intro k
    induction k with
    | zero =>
      intro _
      refine ⟨⟨0, (List.replicate (h + 1) 0).set 0 1⟩, ?_, by simp, fun j hj => ?_⟩
      · simp [ZVec.set, ZVec.limit, ZVec.reserve]
      · obtain rfl : j = 0 := by omega
        simp [shuffleZVal]
    | succ k ih =>
      intro hk
      obtain ⟨z, hz, hl, hv⟩ := ih (by omega)
      refine ⟨⟨z.size, z.mem.set (k + 1) (shuffleZVal w theta gamma orig shuf (k + 1))⟩, ?_, by simp [hl], fun j hj => ?_⟩
      · cases h0 : (ZVec.reserve (h + 1) : ZVec F).set false 0 1 with
        | none => rw [h0] at hz; exact absurd hz (by simp)
        | some z0 =>
          rw [h0, Option.bind_some] at hz
          rw [Option.bind_some, List.range_succ, List.foldlM_append, hz]
          have hv := hv k le_rfl
          simp [ZVec.get, ZVec.set, ZVec.limit, hl, show k < h + 1 by omega, show k < h by omega, shuffleZVal, List.getElem?_eq_some_iff] at hv ⊢
          rw [hv]
      · rcases Nat.lt_or_ge j (k + 1) with h1 | h1
        · rw [List.getElem?_set_ne (by omega)]
          exact hv j (by omega)
        · obtain rfl : j = k + 1 := by omega
          rw [List.getElem?_set_self (by omega)]
  obtain ⟨z, h1, -, h3⟩ := key h le_rfl
  exact ⟨z, h1, h3⟩

/-- What the constraints say of `z` and the two tables. -/
theorem shuffle_satisfied {w h : ℕ} (hw : 1 ≤ w) {theta gamma : F} {orig shuf : ℕ → ℕ → F} {l : Layout F}
    (hl : shuffle false w h theta gamma orig shuf = some l) (val : ℕ → ℕ → ℕ → F) (inst : ℕ → ℕ → F) :
    Satisfied (shuffleGates w theta gamma) l val inst ↔ val 0 (2 * w) 0 = 1 ∧ val 0 (2 * w) h = 1 ∧ ∀ j < h,
      val 0 (2 * w) (j + 1) * (compress theta ((List.range w).map fun i => val 0 (w + i) j) + gamma) =
        val 0 (2 * w) j * (compress theta ((List.range w).map fun i => val 0 i j) + gamma) := by
  obtain ⟨z, hz, -⟩ := shuffleZ_unchecked w h theta gamma orig shuf
  rw [shuffle, hz, Option.bind_some, Option.some.injEq] at hl
  have he : l.enabled = [(1, 0, 0), (2, 0, h)] ++ (List.range h).map fun i => (0, 0, i) := by rw [← hl]
  have hc : l.copies = [] := by rw [← hl]
  have m0 : ∀ r o, (0, r, o) ∈ l.enabled ↔ r = 0 ∧ o < h := fun r o => by
    rw [he]; simp [eq_comm]
    constructor
    · rintro ⟨h1, h2⟩; exact ⟨h2, h1⟩
    · rintro ⟨h1, h2⟩; exact ⟨h2, h1⟩
  have m1 : ∀ r o, (1, r, o) ∈ l.enabled ↔ r = 0 ∧ o = 0 := fun r o => by rw [he]; simp
  have m2 : ∀ r o, (2, r, o) ∈ l.enabled ↔ r = 0 ∧ o = h := fun r o => by rw [he]; simp
  rw [Satisfied, hc]
  simp only [List.not_mem_nil, false_imp_iff, implies_true, and_true, shuffleGates, gateCompress_eq _ _ hw, m0, m1, m2, List.mem_cons, or_false,
    forall_eq_or_imp, forall_eq, Nat.add_zero]
  constructor
  · intro hg
    refine ⟨?_, ?_, fun j hj => ?_⟩
    · have := (hg 0 0).1
      rw [if_pos ⟨rfl, rfl⟩, one_mul, sub_eq_zero] at this
      exact this.symm
    · have := (hg 0 h).2.1
      rw [if_pos ⟨rfl, rfl⟩, one_mul, sub_eq_zero] at this
      exact this.symm
    · have := (hg 0 j).2.2
      rw [if_pos ⟨rfl, hj⟩, one_mul, sub_eq_zero] at this
      exact this.symm
  · rintro ⟨h1, h2, h3⟩ r o
    refine ⟨?_, ?_, ?_⟩
    · split
      · rename_i e
        rw [e.1, e.2, h1, sub_self, mul_zero]
      · rw [zero_mul]
    · split
      · rename_i e
        rw [e.1, e.2, h2, sub_self, mul_zero]
      · rw [zero_mul]
    · split
      · rename_i e
        rw [e.1, h3 o e.2, sub_self, mul_zero]
      · rw [zero_mul]

/-- The product of the compressed rows. -/
theorem rows_prod (w h : ℕ) (theta gamma : F) (t : ℕ → ℕ → F) :
    ∏ j ∈ Finset.range h, (compress theta ((List.range w).map fun i => t i j) + gamma) =
      ((((tableRows w h t).map (compress theta) : List F) : Multiset F).map (· + gamma)).prod := by
  rw [Multiset.map_coe, Multiset.prod_coe, tableRows, List.map_map, List.map_map, Finset.prod_eq_multiset_prod, Finset.range_val,
    ← Multiset.coe_range, Multiset.map_coe, Multiset.prod_coe]
  rfl

/-- C107: if the rows of the shuffled table are those of the original one in some order, the prover's advice satisfies the circuit, unless the
challenges make a row of the shuffled table vanish. -/
theorem C107_complete (w h : ℕ) (hw : 1 ≤ w) (theta gamma : F) (orig shuf : ℕ → ℕ → F) (hp : (tableRows w h orig).Perm (tableRows w h shuf))
    (hn : ∀ r ∈ tableRows w h shuf, compress theta r + gamma ≠ 0) (inst : ℕ → ℕ → F) :
    ∃ l, shuffle false w h theta gamma orig shuf = some l ∧ Satisfied (shuffleGates w theta gamma) l l.advice inst ∧
      ∀ i < w, ∀ j < h, l.advice 0 i j = orig i j ∧ l.advice 0 (w + i) j = shuf i j := by
  obtain ⟨z, hzv, hzm⟩ := shuffleZ_unchecked w h theta gamma orig shuf
  obtain ⟨l, hl⟩ : ∃ l, shuffle false w h theta gamma orig shuf = some l := ⟨_, by rw [shuffle, hzv, Option.bind_some]⟩
  have ha := hl
  rw [shuffle, hzv, Option.bind_some, Option.some.injEq] at ha
  have ho : ∀ i < w, ∀ j < h, l.advice 0 i j = orig i j := fun i hi j hj => by rw [← ha]; simp [hi, hj]
  have hs : ∀ i < w, ∀ j < h, l.advice 0 (w + i) j = shuf i j := fun i hi j hj => by
    rw [← ha]; simp [hj, show w + i < 2 * w by omega]
  have hz : ∀ j ≤ h, l.advice 0 (2 * w) j = shuffleZVal w theta gamma orig shuf j := fun j hj => by
    rw [← ha]; simp [show ¬ 2 * w < w by omega, show j < h + 1 by omega, hzm j hj]
  have hrow : ∀ (t : ℕ → ℕ → F) j, j < h → ((List.range w).map fun i => t i j) ∈ tableRows w h t := fun t j hj =>
    List.mem_map.2 ⟨j, List.mem_range.2 hj, rfl⟩
  have hstep : ∀ j < h, shuffleZVal w theta gamma orig shuf (j + 1) * (compress theta ((List.range w).map fun i => shuf i j) + gamma) =
      shuffleZVal w theta gamma orig shuf j * (compress theta ((List.range w).map fun i => orig i j) + gamma) := fun j hj => by
    have := hn _ (hrow shuf j hj)
    rw [shuffleZVal, shuffleProduct, proverCompress_eq, proverCompress_eq]
    field_simp
  refine ⟨l, hl, (shuffle_satisfied hw hl _ inst).2 ⟨hz 0 (Nat.zero_le _), ?_, fun j hj => ?_⟩, fun i hi j hj => ⟨ho i hi j hj, hs i hi j hj⟩⟩
  · rw [hz h le_rfl]
    have tel := telescope h (shuffleZVal w theta gamma orig shuf) _ _ hstep
    rw [rows_prod, rows_prod, Multiset.coe_eq_coe.2 (hp.map (compress theta))] at tel
    have h0 : ((((tableRows w h shuf).map (compress theta) : List F) : Multiset F).map (· + gamma)).prod ≠ 0 := by
      rw [Ne, Multiset.prod_eq_zero_iff]
      intro hm
      obtain ⟨x, hx, e⟩ := Multiset.mem_map.1 hm
      obtain ⟨r, hr, rfl⟩ := List.mem_map.1 (Multiset.mem_coe.1 hx)
      exact hn r hr e
    exact mul_right_cancel₀ h0 (tel.trans (by rfl))
  · rw [hz j (by omega), hz (j + 1) (by omega)]
    have e1 : ((List.range w).map fun i => l.advice 0 (w + i) j) = (List.range w).map fun i => shuf i j :=
      List.map_congr_left fun i hi => hs i (List.mem_range.1 hi) j hj
    have e2 : ((List.range w).map fun i => l.advice 0 i j) = (List.range w).map fun i => orig i j :=
      List.map_congr_left fun i hi => ho i (List.mem_range.1 hi) j hj
    rw [e1, e2]
    exact hstep j hj

/-- Sets of pairs whose fibres are small but for few of the first parts. -/
theorem ncard_pairs_le [Fintype F] (S : Set (F × F)) (B : Set F) (k : ℕ) (h : ∀ x ∉ B, {y | (x, y) ∈ S}.ncard ≤ k) :
    S.ncard ≤ B.ncard * Fintype.card F + Fintype.card F * k := by
  classical
  have hsub : S ⊆ (B ×ˢ Set.univ) ∪ ⋃ x ∈ (Finset.univ : Finset F), (fun y => (x, y)) '' {y | x ∉ B ∧ (x, y) ∈ S} := by
    rintro ⟨x, y⟩ hm
    by_cases hx : x ∈ B
    · exact .inl ⟨hx, trivial⟩
    · exact .inr (Set.mem_iUnion₂.2 ⟨x, Finset.mem_univ _, y, ⟨hx, hm⟩, rfl⟩)
  refine (Set.ncard_le_ncard hsub (Set.toFinite _)).trans ((Set.ncard_union_le _ _).trans (Nat.add_le_add ?_ ?_))
  · rw [Set.ncard_prod, Set.ncard_univ, Nat.card_eq_fintype_card]
  · refine (Finset.set_ncard_biUnion_le _ _).trans ((Finset.sum_le_card_nsmul _ _ k fun x _ => ?_).trans (by rw [Finset.card_univ, smul_eq_mul]))
    refine (Set.ncard_image_le (Set.toFinite _)).trans ?_
    by_cases hx : x ∈ B
    · simp [hx]
    · simpa [hx] using h x hx

/-- C107: if the rows of the shuffled table are not those of the original one in some order, then for all but few challenges no column `z` whatever
satisfies the circuit with the two tables. -/
theorem C107_sound [Fintype F] (w h : ℕ) (hw : 1 ≤ w) (orig shuf : ℕ → ℕ → F) (hp : ¬ (tableRows w h orig).Perm (tableRows w h shuf)) :
    {p : F × F | ∃ l val inst, shuffle false w h p.1 p.2 orig shuf = some l ∧ Satisfied (shuffleGates w p.1 p.2) l val inst ∧
      ∀ i < w, ∀ j < h, val 0 i j = orig i j ∧ val 0 (w + i) j = shuf i j}.ncard ≤
      2 * h * (w - 1) * Fintype.card F + Fintype.card F * (2 * h) := by
  classical
  have hlen : ∀ t : ℕ → ℕ → F, (tableRows w h t).length = h := fun t => by simp [tableRows]
  have hwid : ∀ (t : ℕ → ℕ → F), ∀ r ∈ tableRows w h t, r.length = w := fun t r hr => by
    obtain ⟨j, -, rfl⟩ := List.mem_map.1 hr
    simp
  obtain ⟨x, hx⟩ : ∃ x, (tableRows w h orig).count x ≠ (tableRows w h shuf).count x := by
    by_contra hc
    push Not at hc
    exact hp (List.perm_iff_count.2 hc)
  have hxw : x.length = w := by
    by_cases h1 : x ∈ tableRows w h orig
    · exact hwid _ _ h1
    · by_cases h2 : x ∈ tableRows w h shuf
      · exact hwid _ _ h2
      · rw [List.count_eq_zero_of_not_mem h1, List.count_eq_zero_of_not_mem h2] at hx
        exact absurd rfl hx
  let T := (tableRows w h orig ++ tableRows w h shuf).filter (· ≠ x)
  let B : Set F := {θ | compress θ x ∈ T.map (compress θ)}
  have hB : B.ncard ≤ 2 * h * (w - 1) := by
    refine (C67_compress w x T hxw (fun t ht => ?_) (fun hm => ?_)).trans (Nat.mul_le_mul_right _ ?_)
    · rcases List.mem_append.1 (List.mem_of_mem_filter ht) with h1 | h1 <;> exact hwid _ _ h1
    · simpa using (List.mem_filter.1 hm).2
    · refine (List.length_filter_le _ _).trans ?_
      rw [List.length_append, hlen, hlen]
      omega
  refine (ncard_pairs_le _ B (2 * h) fun θ hθ => ?_).trans (Nat.add_le_add_right (Nat.mul_le_mul_right _ hB) _)
  have hcount : ∀ t : ℕ → ℕ → F, (∀ r ∈ tableRows w h t, r ∈ tableRows w h orig ++ tableRows w h shuf) →
      ((tableRows w h t).map (compress θ)).count (compress θ x) = (tableRows w h t).count x := by
    intro t ht
    rw [List.count, List.countP_map, List.count]
    refine List.countP_congr fun r hr => ?_
    simp only [Function.comp, beq_iff_eq]
    constructor
    · intro e
      by_contra hne
      exact hθ (List.mem_map.2 ⟨r, List.mem_filter.2 ⟨ht r hr, by simpa using hne⟩, e⟩)
    · rintro rfl; rfl
  have hne : (((tableRows w h orig).map (compress θ) : List F) : Multiset F) ≠ ((tableRows w h shuf).map (compress θ) : List F) := by
    intro e
    have := (List.perm_iff_count.1 (Multiset.coe_eq_coe.1 e)) (compress θ x)
    rw [hcount orig (fun r hr => List.mem_append_left _ hr), hcount shuf (fun r hr => List.mem_append_right _ hr)] at this
    exact hx this
  refine (Set.ncard_le_ncard ?_ (Set.toFinite _)).trans (bad_one_le hne (d := h) (by simp [hlen]) (by simp [hlen]))
  rintro γ ⟨l, val, inst, hl, hsat, hval⟩
  obtain ⟨g1, g2, g3⟩ := (shuffle_satisfied hw hl val inst).1 hsat
  have tel := telescope h (fun j => val 0 (2 * w) j) _ _ g3
  simp only [g1, g2, one_mul] at tel
  left
  rw [← rows_prod, ← rows_prod]
  refine Eq.trans (Finset.prod_congr rfl fun j hj => ?_) (tel.symm.trans (Finset.prod_congr rfl fun j hj => ?_))
  · rw [List.map_congr_left fun i hi => (hval i (List.mem_range.1 hi) j (Finset.mem_range.1 hj)).1.symm]
  · rw [List.map_congr_left fun i hi => (hval i (List.mem_range.1 hi) j (Finset.mem_range.1 hj)).2]

/-- C107: finding: `z` is assigned by index while the vector is still empty: where indices are checked the prover fails for every circuit. -/
theorem C107_reserved (w h : ℕ) (theta gamma : F) (orig shuf : ℕ → ℕ → F) : shuffle true w h theta gamma orig shuf = none := by
  simp [shuffle, shuffleZ, ZVec.set, ZVec.limit, ZVec.reserve]

/-- C107: the exceptions are there: if the challenges make a row of the original table vanish and, not before it, a row of the shuffled one, then the
circuit is satisfied whatever the two tables are (but for rows outside that vanish too). -/
theorem C107_vanishing (w h : ℕ) (hw : 1 ≤ w) (theta gamma : F) (orig shuf : ℕ → ℕ → F) (a b : ℕ) (hab : a ≤ b) (hb : b < h)
    (h1 : compress theta ((List.range w).map fun i => orig i a) + gamma = 0) (h2 : compress theta ((List.range w).map fun i => shuf i b) + gamma = 0)
    (hn : ∀ j < a, compress theta ((List.range w).map fun i => shuf i j) + gamma ≠ 0)
    (ho : ∀ j < h, b < j → compress theta ((List.range w).map fun i => orig i j) + gamma ≠ 0) (inst : ℕ → ℕ → F) :
    ∃ l val, shuffle false w h theta gamma orig shuf = some l ∧ Satisfied (shuffleGates w theta gamma) l val inst ∧
      ∀ i < w, ∀ j < h, val 0 i j = orig i j ∧ val 0 (w + i) j = shuf i j := by
  obtain ⟨z, hzv, -⟩ := shuffleZ_unchecked w h theta gamma orig shuf
  obtain ⟨l, hl⟩ : ∃ l, shuffle false w h theta gamma orig shuf = some l := ⟨_, by rw [shuffle, hzv, Option.bind_some]⟩
  let O : ℕ → F := fun j => compress theta ((List.range w).map fun i => orig i j) + gamma
  let S : ℕ → F := fun j => compress theta ((List.range w).map fun i => shuf i j) + gamma
  let zz : ℕ → F := fun j => if j ≤ a then ∏ i ∈ Finset.range j, (O i / S i) else if j ≤ b then 0 else ∏ i ∈ Finset.Ico j h, (S i / O i)
  let val : ℕ → ℕ → ℕ → F := fun _ c o => if c < w then orig c o else if c < 2 * w then shuf (c - w) o else zz o
  have vo : ∀ i < w, ∀ j, val 0 i j = orig i j := fun i hi j => by simp [val, hi]
  have vs : ∀ i < w, ∀ j, val 0 (w + i) j = shuf i j := fun i hi j => by simp [val, show w + i < 2 * w by omega]
  have vz : ∀ j, val 0 (2 * w) j = zz j := fun j => by simp [val, show ¬ 2 * w < w by omega]
  refine ⟨l, val, hl, (shuffle_satisfied hw hl val inst).2 ⟨?_, ?_, fun j hj => ?_⟩, fun i hi j _ => ⟨vo i hi j, vs i hi j⟩⟩
  · rw [vz]; simp [zz]
  · rw [vz]; simp [zz, show ¬ h ≤ a by omega, show ¬ h ≤ b by omega]
  · rw [List.map_congr_left fun i hi => vo i (List.mem_range.1 hi) j, List.map_congr_left fun i hi => vs i (List.mem_range.1 hi) j, vz, vz]
    show zz (j + 1) * S j = zz j * O j
    have hOa : O a = 0 := h1
    have hSb : S b = 0 := h2
    simp only [zz]
    rcases Nat.lt_trichotomy j a with c | c | c
    · have : S j ≠ 0 := hn j c
      rw [if_pos (show j + 1 ≤ a from c), if_pos (show j ≤ a by omega), Finset.prod_range_succ, mul_assoc, div_mul_cancel₀ _ this]
    · rw [c, hOa, mul_zero, if_neg (by omega)]
      rcases Nat.lt_or_ge a b with d | d
      · rw [if_pos (show a + 1 ≤ b from d), zero_mul]
      · rw [show a = b by omega, hSb, mul_zero]
    · rw [if_neg (show ¬ j + 1 ≤ a by omega), if_neg (show ¬ j ≤ a by omega)]
      rcases Nat.lt_trichotomy j b with d | d | d
      · rw [if_pos (show j + 1 ≤ b from d), if_pos (show j ≤ b by omega), zero_mul, zero_mul]
      · rw [d, hSb, mul_zero, if_pos le_rfl, zero_mul]
      · have : O j ≠ 0 := ho j hj d
        rw [if_neg (show ¬ j + 1 ≤ b by omega), if_neg (show ¬ j ≤ b by omega), Finset.prod_eq_prod_Ico_succ_bot hj]
        field_simp

/-- The table of the test with two columns and three rows, and its rows in another order. -/
example : ∃ l, shuffle false 2 3 (5 : F97) 11 (fun i j => (10 * i + j : ℕ)) (fun i j => (10 * i + (j + 1) % 3 : ℕ)) = some l ∧
    Satisfied (shuffleGates 2 5 11) l l.advice (fun _ _ => 0) := by
  obtain ⟨l, h1, h2, -⟩ := C107_complete 2 3 (by decide) (5 : F97) 11 (fun i j => (10 * i + j : ℕ)) (fun i j => (10 * i + (j + 1) % 3 : ℕ))
    (by decide +kernel) (by decide +kernel) (fun _ _ => 0)
  exact ⟨l, h1, h2⟩

/-- Rows 5, 1 and 2, 5 pass for the challenge -5. -/
example : ∃ l val, shuffle false 1 2 (0 : F97) 92 (fun _ j => if j = 0 then 5 else 1) (fun _ j => if j = 0 then 2 else 5) = some l ∧
    Satisfied (shuffleGates 1 0 92) l val fun _ _ => 0 := by
  obtain ⟨l, v, h1, h2, -⟩ := C107_vanishing 1 2 (by decide) (0 : F97) 92 (fun _ j => if j = 0 then 5 else 1) (fun _ j => if j = 0 then 2 else 5) 0 1
    (by decide) (by decide) (by decide +kernel) (by decide +kernel) (fun j hj => absurd hj (Nat.not_lt_zero _)) (fun j h1 h2 => by omega) (fun _ _ => 0)
  exact ⟨l, v, h1, h2⟩

/-- Rows are shuffled as wholes: the columns for themselves are no matter. -/
example : ¬ (tableRows 2 2 (fun i j => if i = j then (1 : F97) else 0)).Perm (tableRows 2 2 fun _ j => if j = 0 then 1 else 0) := by decide +kernel

end Tachyon.Props
