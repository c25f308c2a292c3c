import Verif.Proofs.KzgGwc
/-! SHPlonk. -/
namespace Tachyon.Kzg
open Polynomial Tachyon.Poly

variable {F : Type} [Field F] [DecidableEq F]

/-! ### Lists and sets of points -/

omit [Field F] in
theorem Sorted.ext {canon : F → ℕ} {a b : List F} (ha : Sorted canon a) (hb : Sorted canon b)
    (h : a.toFinset = b.toFinset) : a = b := by
  refine List.Perm.eq_of_pairwise (le := fun a b => canon a < canon b) (fun x y _ _ h1 h2 => ?_) ha hb ?_
  · omega
  · rw [List.perm_ext_iff_of_nodup ha.nodup hb.nodup]
    intro x
    rw [← List.mem_toFinset, h, List.mem_toFinset]

theorem eraseDups_map {α β : Type} [BEq α] [LawfulBEq α] [BEq β] [LawfulBEq β] [DecidableEq α] [DecidableEq β] (f : α → β)
    (l : List α) (h : ∀ a ∈ l, ∀ b ∈ l, f a = f b → a = b) : (l.map f).eraseDups = l.eraseDups.map f := by
  induction l using List.reverseRecOn with
  | nil => rfl
  | append_singleton l a ih =>
    have ih := ih fun x hx y hy => h x (by simp [hx]) y (by simp [hy])
    rw [List.map_append, List.map_cons, List.map_nil, eraseDups_snoc, eraseDups_snoc, ih]
    by_cases ha : a ∈ l
    · rw [if_pos ha, if_pos (List.mem_map_of_mem ha)]
    · rw [if_neg ha, if_neg, List.map_append]
      · rfl
      · intro hm
        obtain ⟨b, hb, e⟩ := List.mem_map.1 hm
        exact ha (h b (by simp [hb]) a (by simp) e ▸ hb)

variable {canon : F → ℕ} (hc : Function.Injective canon)
include hc

omit [Field F] in
theorem superPoints_toFinset (claims : List (Claim F)) : (superPoints canon claims).toFinset = allPoints claims := by
  ext x
  rw [List.mem_toFinset, (superPoints_spec hc claims).2, allPoints, List.mem_toFinset, List.mem_map]

omit [Field F] in
theorem pointsOf_toFinset (claims : List (Claim F)) (o : ℕ) : (pointsOf canon claims o).toFinset = pointsFor claims o := by
  ext x
  rw [List.mem_toFinset, pointsOf, (superPoints_spec hc _).2, pointsFor, List.mem_toFinset, List.mem_map]

omit [Field F] in
theorem pointsOf_inj (claims : List (Claim F)) (o o' : ℕ) :
    pointsOf canon claims o = pointsOf canon claims o' ↔ pointsFor claims o = pointsFor claims o' := by
  rw [← pointsOf_toFinset hc, ← pointsOf_toFinset hc]
  exact ⟨fun h => by rw [h], (superPoints_spec hc _).1.ext (superPoints_spec hc _).1⟩

omit [Field F] in
theorem pointSets_map (claims : List (Claim F)) :
    (pointSets canon claims).map List.toFinset = finSets claims := by
  rw [pointSets, finSets, ← eraseDups_map, List.map_map]
  · congr 1
    exact List.map_congr_left fun o _ => pointsOf_toFinset hc claims o
  · intro a ha b hb h
    obtain ⟨o, -, rfl⟩ := List.mem_map.1 ha
    obtain ⟨o', -, rfl⟩ := List.mem_map.1 hb
    exact (superPoints_spec hc _).1.ext (superPoints_spec hc _).1 h

/-- A point set of a claimed oracle. -/
def IsSet (canon : F → ℕ) (claims : List (Claim F)) (S : List F) : Prop :=
  ∃ o ∈ claims.map (·.oracle), pointsOf canon claims o = S

omit [Field F] hc in
theorem isSet_of_mem {claims : List (Claim F)} {S : List F} (h : S ∈ pointSets canon claims) : IsSet canon claims S := by
  obtain ⟨o, ho, rfl⟩ := List.mem_map.1 (List.mem_eraseDups.1 h)
  exact ⟨o, List.mem_eraseDups.1 ho, rfl⟩

omit [Field F] in
theorem oraclesAt_eq {claims : List (Claim F)} {S : List F} (h : IsSet canon claims S) :
    oraclesAt canon claims S = oraclesFor claims S.toFinset := by
  obtain ⟨o, -, rfl⟩ := h
  rw [oraclesAt, oraclesFor]
  refine List.filter_congr fun o' _ => ?_
  rw [pointsOf_toFinset hc, decide_eq_decide]
  exact pointsOf_inj hc claims o' o

omit [Field F] [DecidableEq F] in
theorem IsSet.sorted {claims : List (Claim F)} {S : List F} (h : IsSet canon claims S) : Sorted canon S := by
  obtain ⟨o, -, rfl⟩ := h
  exact (superPoints_spec hc _).1

omit [Field F] [DecidableEq F] in
theorem IsSet.ne_nil {claims : List (Claim F)} {S : List F} (h : IsSet canon claims S) : S ≠ [] := by
  obtain ⟨o, ho, rfl⟩ := h
  obtain ⟨c, hcm, rfl⟩ := List.mem_map.1 ho
  refine List.ne_nil_of_mem ((superPoints_spec hc _).2 c.point |>.2 ⟨c, List.mem_filter.2 ⟨hcm, by simp⟩, rfl⟩)

omit [Field F] in
theorem IsSet.subset {claims : List (Claim F)} {S : List F} (h : IsSet canon claims S) :
    S.toFinset ⊆ allPoints claims := by
  obtain ⟨o, -, rfl⟩ := h
  rw [pointsOf_toFinset hc]
  intro x hx
  rw [pointsFor, List.mem_toFinset, List.mem_map] at hx
  obtain ⟨c, h1, rfl⟩ := hx
  rw [allPoints, List.mem_toFinset]
  exact List.mem_map_of_mem (List.mem_filter.1 h1).1

omit [Field F] hc in
theorem allPoints_card (claims : List (Claim F)) : (allPoints claims).card ≤ claims.length :=
  (List.toFinset_card_le _).trans (by simp)

omit [Field F] in
theorem IsSet.length_le {claims : List (Claim F)} {S : List F} (h : IsSet canon claims S) : S.length ≤ claims.length := by
  rw [← List.toFinset_card_of_nodup (h.sorted hc).nodup]
  exact (Finset.card_le_card (h.subset hc)).trans (allPoints_card claims)

omit [Field F] in
theorem superPoints_length (claims : List (Claim F)) : (superPoints canon claims).length ≤ claims.length := by
  rw [← List.toFinset_card_of_nodup (superPoints_spec hc claims).1.nodup, superPoints_toFinset hc]
  exact allPoints_card claims

omit hc in
theorem list_vanish {S : List F} (hn : S.Nodup) (u : F) : (S.map fun x => u - x).prod = vanish S.toFinset u := by
  rw [vanish, List.prod_toFinset _ hn]

omit [Field F] in
theorem diffs_spec (claims : List (Claim F)) (S : List F) : (diffs (superPoints canon claims) S).Nodup ∧
    (diffs (superPoints canon claims) S).toFinset = allPoints claims \ S.toFinset ∧
    (diffs (superPoints canon claims) S).length ≤ claims.length := by
  refine ⟨(superPoints_spec hc claims).1.nodup.filter _, ?_, (List.length_filter_le _ _).trans (superPoints_length hc claims)⟩
  ext x
  rw [List.mem_toFinset, diffs, List.mem_filter, Finset.mem_sdiff, ← superPoints_toFinset hc, List.mem_toFinset,
    List.mem_toFinset]
  simp

omit hc in
theorem vanish_mul {S T : Finset F} (h : S ⊆ T) (u : F) : vanish (T \ S) u * vanish S u = vanish T u :=
  Finset.prod_sdiff h

variable {threads : ℕ} (ht : 0 < threads)
include ht

theorem vanish_diffs {claims : List (Claim F)} (hT : 2 * (claims.length + threads) ≤ 2 ^ 64) (S : List F) (u : F) :
    Dense.vanishingByRoots threads (diffs (superPoints canon claims) S) u = vanish (allPoints claims \ S.toFinset) u := by
  obtain ⟨h1, h2, h3⟩ := diffs_spec hc claims S
  rw [(Props.C57_vanishing _ u ht (by omega) (by omega)).1, list_vanish h1, h2]

theorem vanish_super {claims : List (Claim F)} (hT : 2 * (claims.length + threads) ≤ 2 ^ 64) (u : F) :
    Dense.vanishingByRoots threads (superPoints canon claims) u = vanish (allPoints claims) u := by
  have h3 := superPoints_length hc claims
  rw [(Props.C57_vanishing _ u ht (by omega) (by omega)).1, list_vanish (superPoints_spec hc claims).1.nodup,
    superPoints_toFinset hc]

theorem vanish_set {claims : List (Claim F)} (hT : 2 * (claims.length + threads) ≤ 2 ^ 64) {S : List F}
    (hS : IsSet canon claims S) (u : F) : Dense.vanishingByRoots threads S u = vanish S.toFinset u := by
  have h3 := hS.length_le hc
  rw [(Props.C57_vanishing _ u ht (by omega) (by omega)).1, list_vanish (hS.sorted hc).nodup]

/-- The extension of a group is the remainder. -/
theorem extension_remainder {claims : List (Claim F)} (hT : 2 * (claims.length + threads) ≤ 2 ^ 64) {S : List F}
    (hS : IsSet canon claims S) (o : ℕ) :
    lagrangeInterpolate threads S (S.map (opened claims o)) = some (extension threads S (S.map (opened claims o))) ∧
      dpoly (extension threads S (S.map (opened claims o))) = remainder claims S.toFinset o ∧
      (∀ u, Dense.evaluate threads (extension threads S (S.map (opened claims o))) u =
        (remainder claims S.toFinset o).eval u) := by
  have hl := hS.length_le hc
  have hn := (hS.sorted hc).nodup
  obtain ⟨h1, h2, h3, h4⟩ := extension_spec (vals := S.map (opened claims o)) ht (by omega) (hS.ne_nil hc) hn (by simp)
  have h5 : dpoly (extension threads S (S.map (opened claims o))) = remainder claims S.toFinset o := by
    refine Lagrange.eq_interpolate_of_eval_eq _ (fun a _ b _ h => h) ?_ fun x hx => ?_
    · rw [List.toFinset_card_of_nodup hn]; exact h3
    · obtain ⟨k, hk, rfl⟩ := List.getElem_of_mem (List.mem_toFinset.1 hx)
      rw [id, h4 k hk, List.getElem_map]
  refine ⟨h1, h5, fun u => ?_⟩
  have h6 := length_le_of_degree h2 h3
  rw [Dense.evaluate_spec _ _ ht (by omega) (by omega), h5]

/-! ### The verifier -/

variable {G : Type} [AddCommGroup G] [Module F G]

omit [DecidableEq F] hc ht in
theorem hornerSum_eq (y : F) (terms : List G) : hornerSum y terms = powSum y terms := by
  have key : ∀ (l : List G) (a : G), l.foldl (fun acc t => y • acc + t) a = powSum y (l.reverse ++ [a]) := by
    intro l
    induction l with
    | nil => intro a; simp [powSum]
    | cons b l ih =>
      intro a
      rw [List.foldl_cons, ih, List.reverse_cons, List.append_assoc, powSum_append, powSum_append]
      simp [powSum, add_comm]
  rw [hornerSum, key, List.reverse_reverse, powSum_append]; simp [powSum]

omit [DecidableEq F] hc ht in
theorem pointCombine_eq (r : F) (values : List G) (h : values ≠ []) : pointCombine r values = some (powSum r values) := by
  have key : ∀ (l : List G) (a : G), l.foldl (fun acc t => r • acc + t) a = powSum r (l.reverse ++ [a]) := by
    intro l
    induction l with
    | nil => intro a; simp [powSum]
    | cons b l ih =>
      intro a
      rw [List.foldl_cons, ih, List.reverse_cons, List.append_assoc, powSum_append, powSum_append]
      simp [powSum, add_comm]
  rw [pointCombine]
  split
  · next h' => exact absurd (List.reverse_eq_nil_iff.1 h') h
  · next v vs h' =>
    rw [key]
    have : values = vs.reverse ++ [v] := by rw [← List.reverse_reverse values, h', List.reverse_cons]
    rw [this]

/-- What a group of oracles adds up to. -/
noncomputable def groupTerm (g : G) (com : ℕ → G) (y u : F) (claims : List (Claim F)) (S : Finset F) : G :=
  powSum y ((oraclesFor claims S).map fun o => com o - (remainder claims S o).eval u • g)

theorem shplonkTerms_eq {claims : List (Claim F)} (hT : 2 * (claims.length + threads) ≤ 2 ^ 64) {S : List F}
    (hS : IsSet canon claims S) (g : G) (com : ℕ → G) (y u : F) : ∃ terms,
    shplonkTerms threads g com u S (multiGroup canon claims S).polys = some terms ∧
      hornerSum y terms = groupTerm g com y u claims S.toFinset := by
  refine ⟨_, mapM_some (g := fun p : Openings F => com p.oracle - (remainder claims S.toFinset p.oracle).eval u • g) fun p hp => ?_, ?_⟩
  · obtain ⟨o, -, rfl⟩ := List.mem_map.1 hp
    obtain ⟨h1, h2, h3⟩ := extension_remainder hc ht hT hS o
    simp only [h1, Option.map_some, h3]
  · rw [hornerSum_eq, groupTerm, multiGroup, List.map_map, oraclesAt_eq hc hS]; rfl

theorem shplonkRest_eq {claims : List (Claim F)} (hT : 2 * (claims.length + threads) ≤ 2 ^ 64) (g : G) (com : ℕ → G)
    (y u firstInv : F) : ∀ (L : List (List F)), (∀ S ∈ L, IsSet canon claims S) →
    shplonkRest threads g com (superPoints canon claims) y u firstInv (L.map (multiGroup canon claims)) =
      some (L.map fun S => (vanish (allPoints claims \ S.toFinset) u * firstInv) • groupTerm g com y u claims S.toFinset) := by
  intro L
  induction L with
  | nil => intro _; rfl
  | cons S L ih =>
    intro h
    obtain ⟨terms, t1, t2⟩ := shplonkTerms_eq hc ht hT (h S (by simp)) g com y u
    rw [List.map_cons, shplonkRest]
    simp only [show (multiGroup canon claims S).points = S from rfl, t1, ih fun S' h' => h S' (by simp [h']),
      vanish_diffs hc ht hT, t2, Option.map_some, List.map_cons]

theorem shplonkP_eq {claims : List (Claim F)} (hT : 2 * (claims.length + threads) ≤ 2 ^ 64) (g : G) (com : ℕ → G)
    (y v u : F) (h q : G) :
    (finSets claims = [] → shplonkP threads g com (superPoints canon claims) y v u h q
      ((pointSets canon claims).map (multiGroup canon claims)) = none) ∧
    ∀ S₀ rest, finSets claims = S₀ :: rest →
      (vanish (allPoints claims \ S₀) u = 0 → shplonkP threads g com (superPoints canon claims) y v u h q
        ((pointSets canon claims).map (multiGroup canon claims)) = none) ∧
      (vanish (allPoints claims \ S₀) u ≠ 0 → ∃ p, shplonkP threads g com (superPoints canon claims) y v u h q
        ((pointSets canon claims).map (multiGroup canon claims)) = some p ∧
        vanish (allPoints claims \ S₀) u • (p - u • q) = shplonkRight g com y v u claims h) := by
  have hsets : ∀ S ∈ pointSets canon claims, IsSet canon claims S := fun S => isSet_of_mem
  have hm := pointSets_map hc claims
  cases hp : pointSets canon claims with
  | nil =>
    rw [hp] at hm
    exact ⟨fun _ => rfl, fun S₀ rest h' => by rw [← hm] at h'; cases h'⟩
  | cons L₀ L =>
    rw [hp] at hm hsets
    refine ⟨fun h' => (by rw [← hm] at h'; cases h'), fun S₀ rest h' => ?_⟩
    rw [h', List.map_cons] at hm
    obtain ⟨rfl, hrest⟩ := List.cons.inj hm
    have h0 := hsets L₀ (by simp)
    obtain ⟨terms, t1, t2⟩ := shplonkTerms_eq hc ht hT h0 g com y u
    rw [List.map_cons, shplonkP]
    simp only [show (multiGroup canon claims L₀).points = L₀ from rfl, vanish_diffs hc ht hT, vanish_set hc ht hT h0]
    constructor
    · intro hz; rw [Group.inv?, if_pos hz]
    · intro hz
      rw [Group.inv?, if_neg hz]
      simp only [t1, shplonkRest_eq hc ht hT g com y u _ L fun S hS => hsets S (by simp [hS]), t2]
      rw [pointCombine_eq _ _ (by simp), Option.map_some]
      refine ⟨_, rfl, ?_⟩
      rw [shplonkRight, h', ← hrest, add_sub_cancel_right, smul_sub, smul_smul, vanish_mul (h0.subset hc)]
      congr 1
      rw [List.map_cons, powSum, powSum, smul_add, smul_smul, mul_one]
      congr 1
      rw [smul_comm, ← powSum_map_const_smul, List.map_map]
      congr 2
      refine List.map_congr_left fun S _ => ?_
      simp only [Function.comp, smul_smul, groupTerm]
      congr 1
      field_simp

end Tachyon.Kzg
