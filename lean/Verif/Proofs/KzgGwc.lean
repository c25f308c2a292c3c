import Verif.Proofs.Kzg
import Verif.Proofs.KzgGroup
/-! The openings and GWC. -/
namespace Tachyon.Kzg
open Polynomial Tachyon.Poly

section
variable {F : Type} [Field F]

theorem powSum_degree_lt (r : F) (n : ℕ) (l : List F[X]) (h : ∀ p ∈ l, p.degree < (n : WithBot ℕ)) :
    (powSum r l).degree < (n : WithBot ℕ) := by
  induction l with
  | nil => rw [powSum, degree_zero]; exact WithBot.bot_lt_coe _
  | cons p l ih =>
    rw [powSum]
    refine (degree_add_le _ _).trans_lt (max_lt (h p (by simp)) ?_)
    exact (degree_smul_le _ _).trans_lt (ih fun q hq => h q (by simp [hq]))

theorem prod_dvd_of_roots {S : List F} (hn : S.Nodup) {p : F[X]} (h : ∀ x ∈ S, p.eval x = 0) :
    (S.map fun x => X - C x).prod ∣ p := by
  by_cases hp : p = 0
  · rw [hp]; exact dvd_zero _
  have hm : (S.map fun r => (X - C r : F[X])).prod = ((S : Multiset F).map fun r => X - C r).prod := by simp
  rw [hm, Multiset.prod_X_sub_C_dvd_iff_le_roots hp, Multiset.le_iff_subset (Multiset.coe_nodup.2 hn)]
  intro x hx
  rw [mem_roots hp]
  exact h x (by simpa using hx)

theorem prod_ne_zero (S : List F) : (S.map fun x => (X - C x : F[X])).prod ≠ 0 := by
  rw [Ne, List.prod_eq_zero_iff, List.mem_map]
  rintro ⟨x, -, h⟩
  exact X_sub_C_ne_zero x h

theorem natDegree_prod (S : List F) : (S.map fun x => (X - C x : F[X])).prod.natDegree = S.length := by
  have hm : (S.map fun r => (X - C r : F[X])).prod = ((S : Multiset F).map fun r => X - C r).prod := by simp
  rw [hm, natDegree_multiset_prod_X_sub_C_eq_card]; rfl

theorem eval_prod (S : List F) (u : F) : (S.map fun x => (X - C x : F[X])).prod.eval u = (S.map fun x => u - x).prod := by
  rw [eval_list_prod, List.map_map]
  congr 1
  exact List.map_congr_left fun r _ => by simp

end

variable {F : Type} [Field F] [DecidableEq F]

/-! ### Extensions -/

/-- The polynomial through the openings. -/
def extension (threads : ℕ) (S vals : List F) : List F := (lagrangeInterpolate threads S vals).getD []

theorem extension_spec {threads : ℕ} {S vals : List F} (ht : 0 < threads) (hT : 2 * (S.length + threads) ≤ 2 ^ 64)
    (h0 : S ≠ []) (hn : S.Nodup) (hlen : vals.length = S.length) :
    lagrangeInterpolate threads S vals = some (extension threads S vals) ∧ DClean (extension threads S vals) ∧
      (dpoly (extension threads S vals)).degree < (S.length : WithBot ℕ) ∧
      (∀ (k : ℕ) (hk : k < S.length), (dpoly (extension threads S vals)).eval S[k] = vals[k]'(hlen ▸ hk)) := by
  obtain ⟨w, h1, h2, h3, h4, -⟩ := Props.C40_interpolate ht hlen.symm h0 hn (by omega) (by omega)
  have h5 : extension threads S vals = w := by rw [extension, h1]; rfl
  rw [h5]
  exact ⟨h1, h2, h3, h4⟩

/-- A group whose points are distinct and whose lists of openings have the right lengths. -/
structure Grouped.Valid (gr : Grouped F) : Prop where
  points : gr.points ≠ []
  nodup : gr.points.Nodup
  polys : gr.polys ≠ []
  len : ∀ p ∈ gr.polys, p.openings.length = gr.points.length

/-- The openings of the group are right. -/
def Grouped.Holds (gr : Grouped F) (poly : ℕ → F[X]) : Prop :=
  ∀ p ∈ gr.polys, ∀ (k : ℕ) (hk : k < gr.points.length) (hk' : k < p.openings.length),
    (poly p.oracle).eval gr.points[k] = p.openings[k]

/-- `P - R`. -/
noncomputable def numer (threads : ℕ) (poly : ℕ → F[X]) (S : List F) (p : Openings F) : F[X] :=
  poly p.oracle - dpoly (extension threads S p.openings)

variable {threads : ℕ} {poly : ℕ → List F}

theorem lowDegreeExtensions_eq (ht : 0 < threads) {gr : Grouped F} (hg : gr.Valid)
    (hT : 2 * (gr.points.length + threads) ≤ 2 ^ 64) :
    lowDegreeExtensions threads gr = some (gr.polys.map fun p => extension threads gr.points p.openings) :=
  mapM_some fun p hp => (extension_spec ht hT hg.points hg.nodup (hg.len p hp)).1

theorem numer_root (ht : 0 < threads) {gr : Grouped F} (hg : gr.Valid)
    (hT : 2 * (gr.points.length + threads) ≤ 2 ^ 64) {P : ℕ → F[X]} (hh : gr.Holds P)
    (p : Openings F) (hp : p ∈ gr.polys) (x : F) (hx : x ∈ gr.points) : (numer threads P gr.points p).eval x = 0 := by
  obtain ⟨k, hk, rfl⟩ := List.getElem_of_mem hx
  obtain ⟨-, -, -, h4⟩ := extension_spec ht hT hg.points hg.nodup (hg.len p hp)
  rw [numer, eval_sub, h4 k hk, hh p hp k hk (by rw [hg.len p hp]; exact hk), sub_self]

theorem combine_spec (ht : 0 < threads) {gr : Grouped F} (hg : gr.Valid)
    (hT : 2 * (gr.points.length + threads) ≤ 2 ^ 64) (hh : gr.Holds fun o => dpoly (poly o))
    (hc : ∀ p ∈ gr.polys, DClean (poly p.oracle)) {n : ℕ} (hl : ∀ p ∈ gr.polys, (poly p.oracle).length ≤ n) (r : F) :
    ∃ w, combineExtensions poly r gr (gr.polys.map fun p => extension threads gr.points p.openings) = some w ∧
      DClean w ∧ w.length ≤ n - gr.points.length ∧
      dpoly w * (gr.points.map fun x => X - C x).prod =
        powSum r (gr.polys.map (numer threads (fun o => dpoly (poly o)) gr.points)) := by
  have hs : ∀ p ∈ gr.polys, dpoly (Dense.sub (poly p.oracle) (extension threads gr.points p.openings)) =
      numer threads (fun o => dpoly (poly o)) gr.points p ∧
      DClean (Dense.sub (poly p.oracle) (extension threads gr.points p.openings)) := by
    intro p hp
    obtain ⟨-, h2, -, -⟩ := extension_spec ht hT hg.points hg.nodup (hg.len p hp)
    exact Dense.sub_spec (hc p hp) h2
  rw [combineExtensions, List.zipWith_map_right, List.zipWith_self]
  obtain ⟨N, n1, n2, -, n4⟩ := polyCombine_eq r
    (gr.polys.map fun p => Dense.sub (poly p.oracle) (extension threads gr.points p.openings)) (by simpa using hg.polys)
  obtain ⟨z, z1, z2, z3, z4, -⟩ := Props.C57_fromRoots gr.points
  rw [n1, z1]
  have hN : dpoly N = powSum r (gr.polys.map (numer threads (fun o => dpoly (poly o)) gr.points)) := by
    rw [n2, List.map_map]
    congr 1
    exact List.map_congr_left fun p hp => (hs p hp).1
  have hNc : DClean N := n4 fun x hx => by
    obtain ⟨p, hp, rfl⟩ := List.mem_map.1 hx
    exact (hs p hp).2
  obtain ⟨q, hq⟩ : (gr.points.map fun x => (X - C x : F[X])).prod ∣ dpoly N := by
    refine prod_dvd_of_roots hg.nodup fun x hx => ?_
    rw [hN, powSum_eval]
    exact powSum_zero _ _ _ fun p hp => numer_root ht hg hT hh p hp x hx
  have hz0 : dpoly z ≠ 0 := by rw [z4]; exact prod_ne_zero _
  have hzd : (dpoly z).natDegree = gr.points.length := by rw [z4, natDegree_prod]
  obtain ⟨w, w1, w2, w3⟩ := div_exact (p := q) (.inl hNc) z2 hz0
    (by rw [hzd]; exact List.length_pos_of_ne_nil hg.points) (by rw [hq, z4, mul_comm])
  refine ⟨w, w1, w3, ?_, by rw [w2, mul_comm, ← hq, hN]⟩
  by_cases hw : w = []
  · simp [hw]
  have hw0 : dpoly w ≠ 0 := fun e => hw ((dpoly_eq_zero w3).1 e)
  have hdeg : (dpoly N).degree < ((max n gr.points.length : ℕ) : WithBot ℕ) := by
    rw [hN]
    refine powSum_degree_lt _ _ _ fun p' hp' => ?_
    obtain ⟨p, hp, rfl⟩ := List.mem_map.1 hp'
    refine (degree_sub_le _ _).trans_lt (max_lt ?_ ?_)
    · exact degree_dpoly_lt ((hl p hp).trans (le_max_left _ _))
    · refine (extension_spec ht hT hg.points hg.nodup (hg.len p hp)).2.2.1.trans_le ?_
      exact_mod_cast le_max_right _ _
  rw [hq, ← z4, ← w2, mul_comm] at hdeg
  have := (natDegree_lt_iff_degree_lt (mul_ne_zero hw0 hz0)).2 hdeg
  rw [natDegree_mul hw0 hz0, hzd, natDegree_dpoly w3, Dense.degree_eq_length] at this
  have := List.length_pos_of_ne_nil hw
  omega

/-! ### Single points -/

omit [Field F] in
theorem singleGroup_valid {claims : List (Claim F)} {x : F} (hx : x ∈ (claims.map (·.point)).eraseDups) :
    (singleGroup claims x).Valid := by
  refine ⟨by simp [singleGroup], by simp [singleGroup], ?_, ?_⟩
  · obtain ⟨c, hc, rfl⟩ := List.mem_map.1 (List.mem_eraseDups.1 hx)
    simp only [singleGroup, ne_eq, List.map_eq_nil_iff, List.filter_eq_nil_iff, not_forall]
    exact ⟨c, hc, by simp⟩
  · intro p hp
    obtain ⟨c, -, rfl⟩ := List.mem_map.1 hp
    rfl

theorem singleGroup_holds {claims : List (Claim F)} {x : F} {P : ℕ → F[X]} (h : ∀ c ∈ claims, c.Holds P) :
    (singleGroup claims x).Holds P := by
  intro p hp k hk hk'
  obtain ⟨c, hc, rfl⟩ := List.mem_map.1 hp
  obtain ⟨h1, h2⟩ := List.mem_filter.1 hc
  have hk0 : k = 0 := by simp [singleGroup] at hk; exact hk
  subst hk0
  have h3 : c.point = x := by simpa using h2
  show (P c.oracle).eval x = c.opening
  rw [← h3]; exact h c h1

theorem numer_single (ht : 0 < threads) (hT : 2 * (1 + threads) ≤ 2 ^ 64) (P : ℕ → F[X]) (x : F) (c : Claim F) :
    numer threads P [x] ⟨c.oracle, [c.opening]⟩ = P c.oracle - C c.opening := by
  obtain ⟨-, -, h3, h4⟩ := extension_spec (S := [x]) (vals := [c.opening]) ht hT (by simp) (by simp) rfl
  rw [numer]
  congr 1
  have h5 := eq_C_of_degree_le_zero (Nat.WithBot.lt_one_iff_le_zero.1 (by simpa using h3))
  have h6 := h4 0 (by simp)
  rw [h5] at h6 ⊢
  simpa using h6

variable {G G2 GT σ : Type} [AddCommGroup G] [Module F G] [AddCommGroup G2] [Module F G2] [AddCommGroup GT]
  [Module F GT] [DecidableEq GT]

omit [DecidableEq F] [DecidableEq GT] in
theorem pairing_setup {e : G →ₗ[F] G2 →ₗ[F] GT} [DecidableEq GT] {g2 : G2} (he : Nondegenerate e g2) (tau : F) (a b : G) :
    pairingCheck (fun a b => e a b) a b (tau • g2, -g2) = true ↔ tau • a = b := by
  rw [pairingCheck, decide_eq_true_iff]
  have h1 : e a (tau • g2) + e b (-g2) = e (tau • a - b) g2 := by
    simp [sub_eq_add_neg]
  rw [h1]
  constructor
  · intro h; exact sub_eq_zero.1 (he _ h)
  · rintro rfl; simp

omit [DecidableEq F] [DecidableEq GT] in
theorem pairing_new {e : G →ₗ[F] G2 →ₗ[F] GT} [DecidableEq GT] {g2 : G2} (he : Nondegenerate e g2) (tau : F) (a b : G) :
    pairingCheck (fun a b => e a b) a b (g2, -(tau • g2)) = true ↔ a = tau • b := by
  rw [pairingCheck, decide_eq_true_iff]
  have h1 : e a g2 + e b (-(tau • g2)) = e (a - tau • b) g2 := by
    simp [sub_eq_add_neg]
  rw [h1]
  constructor
  · intro h; exact sub_eq_zero.1 (he _ h)
  · rintro rfl; simp

omit [AddCommGroup G] [Field F] [DecidableEq F] [Module F G] in
theorem readProof_eq (tr : Transcript σ F G) : ∀ (n : ℕ) (st : σ) (proof : List G),
    readProof tr n st proof = if n ≤ proof.length then
      ((proof.take n).foldlM tr.absorb st).map fun st' => (proof.take n, st', proof.drop n) else none := by
  intro n
  induction n with
  | zero => intro st proof; simp [readProof]
  | succ n ih =>
    intro st proof
    cases proof with
    | nil => simp [readProof]
    | cons c proof =>
      rw [readProof]
      simp only [List.length_cons, Nat.succ_le_succ_iff, List.take_succ_cons, List.foldlM_cons, List.drop_succ_cons]
      cases h : tr.absorb st c with
      | none => simp
      | some st' =>
        simp only [ih]
        by_cases h' : n ≤ proof.length
        · rw [if_pos h', if_pos (by omega)]
          simp only [Option.bind_eq_bind, Option.bind_some]
          cases List.foldlM tr.absorb st' (proof.take n) <;> simp
        · rw [if_neg h', if_neg (by omega)]; rfl

omit [DecidableEq F] in
theorem gwcBatch_eq (com : ℕ → G) (v : F) : ∀ (cs : List (Claim F)) (b : F × G),
    gwcBatch com v (cs.map fun c => ⟨c.oracle, [c.opening]⟩) b =
      some (powSum v (cs.reverse.map (·.opening) ++ [b.1]), powSum v (cs.reverse.map (fun c => com c.oracle) ++ [b.2])) := by
  intro cs
  induction cs with
  | nil => intro b; simp [gwcBatch, powSum]
  | cons c cs ih =>
    intro b
    rw [List.map_cons, gwcBatch]
    simp only [ih]
    simp only [List.reverse_cons, List.map_append, List.append_assoc, powSum_append, List.map_cons, List.map_nil]
    simp only [powSum, smul_zero, add_zero, smul_eq_mul]
    rw [mul_comm b.1 v, add_comm (v * b.1), add_comm (v • b.2)]
    simp [add_comm]

theorem gwcLoop_eq (g : G) (com : ℕ → G) (v u : F) (claims : List (Claim F)) : ∀ (xs : List F) (ws : List G) (a : Acc F G),
    xs.length ≤ ws.length → ∃ a', gwcLoop com v u (xs.map (singleGroup claims)) ws a = some a' ∧
      a'.witness = a.witness + a.powerOfU • powSum u (ws.take xs.length) ∧
      a'.witnessWithAux + a'.commitmentMulti - a'.openingMulti • g =
        a.witnessWithAux + a.commitmentMulti - a.openingMulti • g +
          a.powerOfU • powSum u (List.zipWith (gwcTerm g com v claims) xs ws) := by
  intro xs
  induction xs with
  | nil => intro ws a _; exact ⟨a, rfl, by simp [powSum], by simp [powSum]⟩
  | cons x xs ih =>
    intro ws a h
    cases ws with
    | nil => simp at h
    | cons w ws =>
      have hb : gwcBatch com v (singleGroup claims x).polys.reverse (0, 0) =
          some (powSum v ((claims.filter (·.point = x)).map (·.opening)),
            powSum v ((claims.filter (·.point = x)).map fun c => com c.oracle)) := by
        have := gwcBatch_eq com v (claims.filter (·.point = x)).reverse (0, 0)
        rw [List.map_reverse] at this
        rw [singleGroup, this]
        simp [powSum_append, powSum]
      rw [List.map_cons, gwcLoop, hb]
      simp only [show (singleGroup claims x).points = [x] from rfl]
      obtain ⟨a', h1, h2, h3⟩ := ih ws _ (by simpa using h)
      refine ⟨a', h1, ?_, ?_⟩
      · rw [h2, List.length_cons, List.take_succ_cons, powSum]
        simp only [mul_smul, smul_add]; abel
      · rw [h3, List.zipWith_cons_cons, powSum, gwcTerm, powSum_map_sub, powSum_map_smul]
        simp only [smul_add, add_smul, smul_sub, smul_smul]
        rw [mul_comm a.powerOfU (powSum v _)]
        abel

theorem gwcVerify_eq (e : G →ₗ[F] G2 →ₗ[F] GT) (g : G) (com : ℕ → G) (tr : Transcript σ F G)
    (s : Scheme G G2) (claims : List (Claim F)) (st : σ) (proof : List G) :
    gwcVerify (fun a b => e a b) g com tr s claims st proof =
      if (pointsIn claims).length ≤ proof.length then
        match (proof.take (pointsIn claims).length).foldlM tr.absorb (tr.squeeze st).2 with
        | none => some false
        | some st' => some (pairingCheck (fun a b => e a b) (powSum (tr.squeeze st').1 (proof.take (pointsIn claims).length))
            (powSum (tr.squeeze st').1
              (List.zipWith (gwcTerm g com (tr.squeeze st).1 claims) (pointsIn claims) proof)) s.g2Arr)
      else some false := by
  rw [gwcVerify]
  simp only [groupBySinglePoint_eq, List.length_map, readProof_eq]
  by_cases h : (pointsIn claims).length ≤ proof.length
  · rw [if_pos h]
    rw [pointsIn] at h
    simp only [if_pos h, pointsIn]
    cases hf : List.foldlM tr.absorb (tr.squeeze st).2 (proof.take ((claims.map (·.point)).eraseDups).length) with
    | none => rfl
    | some st' =>
      simp only [Option.map_some]
      obtain ⟨a', h1, h2, h3⟩ := gwcLoop_eq g com (tr.squeeze st).1 (tr.squeeze st').1 claims
        (claims.map (·.point)).eraseDups (proof.take ((claims.map (·.point)).eraseDups).length) ⟨0, 0, 0, 0, 1⟩
        (by rw [List.length_take]; omega)
      simp only [h1, h2, h3]
      simp only [zero_add, one_smul, zero_smul, add_zero, sub_zero, List.take_take, min_self]
      congr 3
      rw [List.zipWith_eq_zipWith_take_min (l₁ := (claims.map (·.point)).eraseDups) (l₂ := proof), min_eq_left h,
        List.take_length]
  · rw [if_neg h]
    rw [pointsIn] at h
    simp only [if_neg h]

/-! ### The prover -/

/-- The witness polynomial of a group. -/
def gwcWitness (threads : ℕ) (poly : ℕ → List F) (v : F) (gr : Grouped F) : List F :=
  (combineExtensions poly v gr (gr.polys.map fun p => extension threads gr.points p.openings)).getD []

omit [AddCommGroup G2] [Module F G2] in
theorem gwcCommit_eq (v : F) (s : Scheme G G2) (hb : s.batchMode = true) (c : Grouped F → G) :
    ∀ (gs : List (Grouped F)),
    (∀ gr ∈ gs, lowDegreeExtensions threads gr = some (gr.polys.map fun p => extension threads gr.points p.openings) ∧
      combineExtensions poly v gr (gr.polys.map fun p => extension threads gr.points p.openings) =
        some (gwcWitness threads poly v gr) ∧ doMSM s.kzg.powers (gwcWitness threads poly v gr) = some (c gr)) →
    ∀ (pre rest : List G), rest.length = gs.length →
      gwcCommit threads poly v gs pre.length { s with kzg := { s.kzg with batch := pre ++ rest } } =
        some { s with kzg := { s.kzg with batch := pre ++ gs.map c } } := by
  intro gs
  induction gs with
  | nil =>
    intro _ pre rest h
    obtain rfl : rest = [] := List.length_eq_zero_iff.1 (by simpa using h)
    rfl
  | cons gr gs ih =>
    intro hg pre rest hl
    obtain ⟨h1, h2, h3⟩ := hg gr (by simp)
    cases rest with
    | nil => simp at hl
    | cons y rest =>
      have hi := ih (fun x hx => hg x (by simp [hx])) (pre ++ [c gr]) rest (by simpa using hl)
      rw [gwcCommit, h1]
      simp only [h2]
      have h4 : Scheme.commitAt { s with kzg := { s.kzg with batch := pre ++ y :: rest } } (gwcWitness threads poly v gr)
          pre.length = some { s with kzg := { s.kzg with batch := (pre ++ [c gr]) ++ rest } } := by
        rw [Scheme.commitAt, Scheme.store, Setup.commit, h3]
        simp [hb]
      rw [h4]
      simp only [List.length_append, List.length_singleton, List.append_assoc, List.singleton_append] at hi ⊢
      rw [hi]
      simp

omit [AddCommGroup G2] [Module F G2] in
theorem gwcCreate_eq (ht : 0 < threads) {claims : List (Claim F)} (hT : 2 * (claims.length + threads) ≤ 2 ^ 64)
    (hh : ∀ c ∈ claims, c.Holds fun o => dpoly (poly o)) {n : ℕ}
    (hp : ∀ c ∈ claims, DClean (poly c.oracle) ∧ (poly c.oracle).length ≤ n)
    {s : Scheme G G2} (hs : s.Ready) {g : G} {tau : F} (hk : s.kzg.For g tau n) (tr : Transcript σ F G) (st : σ) :
    ∃ W : F → F[X], (∀ x ∈ pointsIn claims, W x * (X - C x) = powSum (tr.squeeze st).1
        ((claims.filter (·.point = x)).map fun c => dpoly (poly c.oracle) - C c.opening)) ∧
      gwcCreate threads poly tr s claims st =
        (((pointsIn claims).map fun x => commitment g tau (W x)).foldlM tr.absorb (tr.squeeze st).2).map fun st' =>
          ((pointsIn claims).map fun x => commitment g tau (W x), st', s) := by
  classical
  have hlen : ∀ x ∈ pointsIn claims, 2 * (1 + threads) ≤ 2 ^ 64 := by
    intro x hx
    obtain ⟨c, hc, -⟩ := List.mem_map.1 (List.mem_eraseDups.1 hx)
    have := List.length_pos_of_mem hc
    omega
  have key : ∀ x ∈ pointsIn claims, ∃ w, combineExtensions poly (tr.squeeze st).1 (singleGroup claims x)
      ((singleGroup claims x).polys.map fun p => extension threads (singleGroup claims x).points p.openings) = some w ∧
      DClean w ∧ w.length ≤ n ∧ dpoly w * (X - C x) = powSum (tr.squeeze st).1
        ((claims.filter (·.point = x)).map fun c => dpoly (poly c.oracle) - C c.opening) := by
    intro x hx
    have hmem : ∀ p ∈ (singleGroup claims x).polys, DClean (poly p.oracle) ∧ (poly p.oracle).length ≤ n := by
      intro p hp'
      obtain ⟨c, hc, rfl⟩ := List.mem_map.1 hp'
      exact hp c (List.mem_filter.1 hc).1
    obtain ⟨w, w1, w2, w3, w4⟩ := combine_spec ht (singleGroup_valid hx) (hlen x hx) (singleGroup_holds hh)
      (fun p h => (hmem p h).1) (fun p h => (hmem p h).2) (tr.squeeze st).1
    refine ⟨w, w1, w2, w3.trans (Nat.sub_le _ _), ?_⟩
    simp only [singleGroup, List.map_cons, List.map_nil, List.prod_cons, List.prod_nil, mul_one, List.map_map] at w4
    rw [w4]
    congr 1
    refine List.map_congr_left fun c _ => ?_
    exact numer_single ht (hlen x hx) _ x c
  refine ⟨fun x => dpoly (gwcWitness threads poly (tr.squeeze st).1 (singleGroup claims x)), fun x hx => ?_, ?_⟩
  · obtain ⟨w, w1, -, -, w4⟩ := key x hx
    simp only [gwcWitness, w1]; exact w4
  rw [gwcCreate]
  simp only [groupBySinglePoint_eq, List.length_map]
  show (match s.setBatchMode (pointsIn claims).length with | none => none | some s => _) = _
  by_cases h0 : pointsIn claims = []
  · simp only [h0, List.length_nil, Scheme.setBatchMode, if_pos]
    rw [show (claims.map (·.point)).eraseDups = [] from h0]
    simp only [List.map_nil, gwcCommit, Scheme.getBatchCommitments, hs.batch]
    obtain ⟨kzg, m, c, a, b⟩ := s
    obtain ⟨p, l, b⟩ := kzg
    obtain ⟨h1, h2, h3⟩ := hs
    simp only at h1 h2 h3
    subst h1 h2 h3
    rfl
  · have hlp := List.length_pos_of_ne_nil h0
    rw [Scheme.setBatchMode, if_neg (by omega), if_neg (by simp [hs.count])]
    simp only [hs.batch, List.take_nil, List.nil_append, List.length_nil, Nat.sub_zero]
    have hc := gwcCommit_eq (threads := threads) (poly := poly) (tr.squeeze st).1
      { s with batchMode := true, batchCount := (pointsIn claims).length } rfl
      (fun gr => commitment g tau (dpoly (gwcWitness threads poly (tr.squeeze st).1 gr)))
      ((pointsIn claims).map (singleGroup claims)) (by
        intro gr hgr
        obtain ⟨x, hx, rfl⟩ := List.mem_map.1 hgr
        obtain ⟨w, w1, w2, w3, w4⟩ := key x hx
        have hw : gwcWitness threads poly (tr.squeeze st).1 (singleGroup claims x) = w := by
          rw [gwcWitness, w1]; rfl
        refine ⟨lowDegreeExtensions_eq ht (singleGroup_valid hx) (hlen x hx), by rw [hw, w1], ?_⟩
        have := commit_eq hk w
        rw [Setup.commit, if_pos w3] at this
        rw [hw]; exact this)
      [] (List.replicate (pointsIn claims).length 0) (by simp)
    simp only [List.nil_append, List.length_nil] at hc
    rw [show (claims.map (·.point)).eraseDups = pointsIn claims from rfl, hc]
    simp only [Scheme.getBatchCommitments, List.map_map]
    obtain ⟨kzg, m, c, a, b⟩ := s
    obtain ⟨p, l, b⟩ := kzg
    obtain ⟨h1, h2, h3⟩ := hs
    simp only at h1 h2 h3
    subst h1 h2 h3
    rfl

end Tachyon.Kzg
