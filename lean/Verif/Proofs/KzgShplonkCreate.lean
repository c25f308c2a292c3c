import Verif.Proofs.KzgShplonk
import Mathlib.Algebra.Polynomial.Eval.SMul
/-! The prover of SHPlonk. -/
namespace Tachyon.Kzg
open Polynomial Tachyon.Poly

section
variable {F : Type} [Field F]

theorem powSum_hom {M N : Type} [AddCommGroup M] [Module F M] [AddCommGroup N] [Module F N] (r : F) (φ : M →ₗ[F] N)
    (l : List M) : φ (powSum r l) = powSum r (l.map φ) := by
  have := powSum_map_hom r φ (fun x => x) l
  rw [List.map_id'] at this
  exact this.symm

variable [DecidableEq F]

theorem shplonkRight_hom {M N : Type} [AddCommGroup M] [Module F M] [AddCommGroup N] [Module F N] (φ : M →ₗ[F] N)
    (g : M) (com : ℕ → M) (y v u : F) (claims : List (Claim F)) (h : M) :
    φ (shplonkRight g com y v u claims h) = shplonkRight (φ g) (fun o => φ (com o)) y v u claims (φ h) := by
  rw [shplonkRight, shplonkRight, map_sub, map_smul, powSum_hom, List.map_map]
  congr 2
  refine List.map_congr_left fun S _ => ?_
  simp only [Function.comp, map_smul, powSum_hom, List.map_map]
  congr 2
  refine List.map_congr_left fun o _ => ?_
  simp only [Function.comp, map_sub, map_smul]

variable {G : Type} [AddCommGroup G] [Module F G]

/-- `commitment` as a linear map. -/
noncomputable def commitLin (g : G) (tau : F) : F[X] →ₗ[F] G := (LinearMap.toSpanSingleton F G g).comp (leval tau)

omit [DecidableEq F] in
theorem commitLin_apply (g : G) (tau : F) (p : F[X]) : commitLin g tau p = commitment g tau p := rfl

theorem commitment_right (g : G) (tau y v u : F) (P : ℕ → F[X]) (claims : List (Claim F)) (H : F[X]) :
    commitment g tau (shplonkRight 1 P y v u claims H) =
      shplonkRight g (fun o => commitment g tau (P o)) y v u claims (commitment g tau H) := by
  rw [← commitLin_apply, shplonkRight_hom]
  simp only [commitLin_apply]
  congr 1
  simp [commitment]

/-- `Σ yʲ (Pⱼ - Rⱼ)`. -/
noncomputable def combined (P : ℕ → F[X]) (y : F) (claims : List (Claim F)) (S : Finset F) : F[X] :=
  powSum y ((oraclesFor claims S).map fun o => P o - remainder claims S o)

theorem eval_right (P : ℕ → F[X]) (y v u : F) (claims : List (Claim F)) (H : F[X]) :
    (shplonkRight 1 P y v u claims H).eval u = powSum v ((finSets claims).map fun S =>
      vanish (allPoints claims \ S) u * (combined P y claims S).eval u) - vanish (allPoints claims) u * H.eval u := by
  have := shplonkRight_hom (leval u) 1 P y v u claims H
  simp only [leval_apply] at this
  rw [this, shplonkRight]
  congr 2
  refine List.map_congr_left fun S _ => ?_
  rw [smul_eq_mul, combined, powSum_eval]
  congr 2
  refine List.map_congr_left fun o _ => ?_
  simp

theorem degree_right {P : ℕ → F[X]} {n : ℕ} {claims : List (Claim F)}
    (hP : ∀ o, o ∈ claims.map (·.oracle) → (P o).degree < (n : WithBot ℕ)) (hn : 0 < n)
    (y v u : F) {H : F[X]} (hH : H.degree < (n : WithBot ℕ)) :
    (shplonkRight 1 P y v u claims H).degree < (n : WithBot ℕ) := by
  rw [shplonkRight]
  refine (degree_sub_le _ _).trans_lt (max_lt ?_ ((degree_smul_le _ _).trans_lt hH))
  refine powSum_degree_lt _ _ _ fun p hp => ?_
  obtain ⟨S, -, rfl⟩ := List.mem_map.1 hp
  refine (degree_smul_le _ _).trans_lt (powSum_degree_lt _ _ _ fun q hq => ?_)
  obtain ⟨o, ho, rfl⟩ := List.mem_map.1 hq
  refine (degree_sub_le _ _).trans_lt (max_lt (hP o (List.mem_eraseDups.1 (List.mem_filter.1 ho).1)) ?_)
  refine (degree_smul_le _ _).trans_lt (degree_one_le.trans_lt ?_)
  exact_mod_cast hn

end

variable {F : Type} [Field F] [DecidableEq F] {canon : F → ℕ} (hc : Function.Injective canon)
  {threads : ℕ} (ht : 0 < threads) {poly : ℕ → List F}

theorem zipM_map {α β γ : Type} {f : α → β → Option γ} {g : α → β} {k : α → γ} : ∀ (l : List α),
    (∀ a ∈ l, f a (g a) = some (k a)) → zipM f l (l.map g) = some (l.map k) := by
  intro l
  induction l with
  | nil => intro _; rfl
  | cons a l ih =>
    intro h
    rw [List.map_cons, zipM, h a (by simp)]
    simp only [ih fun b hb => h b (by simp [hb]), Option.map_some, List.map_cons]

section
include hc

theorem multiGroup_valid {claims : List (Claim F)} {S : List F} (hS : IsSet canon claims S) :
    (multiGroup canon claims S).Valid := by
  refine ⟨hS.ne_nil hc, (hS.sorted hc).nodup, ?_, fun p hp => ?_⟩
  · obtain ⟨o, ho, hoS⟩ := hS
    rw [multiGroup, Ne, List.map_eq_nil_iff]
    exact List.ne_nil_of_mem (a := o) (List.mem_filter.2 ⟨List.mem_eraseDups.2 ho, by simpa using hoS⟩)
  · obtain ⟨o, -, rfl⟩ := List.mem_map.1 hp
    exact List.length_map _

theorem multiGroup_holds {claims : List (Claim F)} {S : List F} {P : ℕ → F[X]} (h : ∀ c ∈ claims, c.Holds P) :
    (multiGroup canon claims S).Holds P := by
  intro p hp k hk hk'
  obtain ⟨o, ho, rfl⟩ := List.mem_map.1 hp
  have hoS : pointsOf canon claims o = S := by simpa using (List.mem_filter.1 ho).2
  simp only [multiGroup, List.getElem_map]
  have hx : S[k] ∈ pointsOf canon claims o := by rw [hoS]; exact List.getElem_mem _
  rw [pointsOf, (superPoints_spec hc _).2] at hx
  obtain ⟨c, h1, h2⟩ := hx
  obtain ⟨h3, h4⟩ := List.mem_filter.1 h1
  have hsome := getOpening_some (claims := claims) (o := o) (x := S[k]) ⟨c, h3, by simpa using h4, h2⟩
  rw [getOpening] at hsome
  obtain ⟨d, hd, he⟩ := Option.map_eq_some_iff.1 hsome
  have hd1 := List.find?_some hd
  have hd2 := List.mem_of_find?_eq_some hd
  simp only [Bool.and_eq_true, decide_eq_true_eq] at hd1
  have hd3 := h d hd2
  rw [Claim.Holds, hd1.1, hd1.2, he] at hd3
  exact hd3

include ht

theorem numer_multi {claims : List (Claim F)} (hT : 2 * (claims.length + threads) ≤ 2 ^ 64) {S : List F}
    (hS : IsSet canon claims S) (P : ℕ → F[X]) (y : F) :
    powSum y ((multiGroup canon claims S).polys.map (numer threads P (multiGroup canon claims S).points)) =
      combined P y claims S.toFinset := by
  rw [multiGroup, List.map_map, combined, oraclesAt_eq hc hS]
  congr 1
  refine List.map_congr_left fun o _ => ?_
  simp only [Function.comp, numer, (extension_remainder hc ht hT hS o).2.1]

end

/-- The extensions of a group. -/
def exts (threads : ℕ) (gr : Grouped F) : List (List F) := gr.polys.map fun p => extension threads gr.points p.openings

omit [DecidableEq F] in
theorem subConst_spec [DecidableEq F] {l ext : List F} (hl : DClean l) (u : F) :
    dpoly (subConst threads u l ext) = dpoly l - C (Dense.evaluate threads ext u) ∧
      Short (subConst threads u l ext) := by
  cases l with
  | cons c l =>
    simp only [subConst]
    refine ⟨by simp only [dpoly, C_sub]; ring, ?_⟩
    cases l with
    | nil => exact .inr (by simp)
    | cons d l =>
      left
      intro h
      apply hl
      simpa using h
  | nil => exact ⟨by simp [subConst, dpoly], .inr (by simp [subConst])⟩

section
include hc ht

theorem lPoly_spec {claims : List (Claim F)} (hT : 2 * (claims.length + threads) ≤ 2 ^ 64) {S : List F}
    (hS : IsSet canon claims S) (hp : ∀ c ∈ claims, DClean (poly c.oracle)) (y u : F) :
    ∃ l, lPoly threads poly (superPoints canon claims) y u (multiGroup canon claims S)
        (exts threads (multiGroup canon claims S)) = some l ∧ Short l ∧
      dpoly l = vanish (allPoints claims \ S.toFinset) u • powSum y ((oraclesFor claims S.toFinset).map fun o =>
        dpoly (poly o) - (remainder claims S.toFinset o).eval u • (1 : F[X])) := by
  have hcl : ∀ o ∈ oraclesFor claims S.toFinset, DClean (poly o) := by
    intro o ho
    obtain ⟨c, h1, rfl⟩ := List.mem_map.1 (List.mem_eraseDups.1 (List.mem_filter.1 ho).1)
    exact hp c h1
  rw [lPoly, exts, List.zipWith_map_right, List.zipWith_self]
  obtain ⟨w, w1, w2, w3, -⟩ := polyCombine_eq y ((multiGroup canon claims S).polys.map fun p =>
    subConst threads u (poly p.oracle) (extension threads (multiGroup canon claims S).points p.openings))
    (by rw [Ne, List.map_eq_nil_iff]; exact (multiGroup_valid hc hS).polys)
  rw [w1, Option.map_some]
  obtain ⟨m1, m2⟩ := mulScalar_any w (Dense.vanishingByRoots threads
    (diffs (superPoints canon claims) (multiGroup canon claims S).points) u)
  refine ⟨_, rfl, m2 (w3 fun x hx => ?_), ?_⟩
  · obtain ⟨p, hp, rfl⟩ := List.mem_map.1 hx
    obtain ⟨o, ho, rfl⟩ := List.mem_map.1 hp
    rw [oraclesAt_eq hc hS] at ho
    exact (subConst_spec (hcl o ho) u).2
  · rw [m1, w2, show (multiGroup canon claims S).points = S from rfl, vanish_diffs hc ht hT]
    congr 1
    rw [multiGroup, List.map_map, List.map_map, oraclesAt_eq hc hS]
    congr 1
    refine List.map_congr_left fun o ho => ?_
    simp only [Function.comp]
    rw [(subConst_spec (hcl o ho) u).1, (extension_remainder hc ht hT hS o).2.2, smul_eq_C_mul, mul_one]

/-- The polynomials that the prover commits to. -/
theorem shplonkCreate_eq {σ G G2 : Type} [AddCommGroup G] [Module F G] {claims : List (Claim F)} {n : ℕ}
    (hT : 2 * (max n 1 + claims.length + threads) ≤ 2 ^ 64)
    (hh : ∀ c ∈ claims, c.Holds fun o => dpoly (poly o))
    (hp : ∀ c ∈ claims, DClean (poly c.oracle) ∧ (poly c.oracle).length ≤ n)
    {s : Scheme G G2} {g : G} {tau : F} (hk : s.kzg.For g tau n) (debug : Bool) (tr : Transcript σ F G) (st : σ)
    {S₀ : Finset F} {rest : List (Finset F)} (hS₀ : finSets claims = S₀ :: rest) :
    let y := (tr.squeeze st).1
    let v := (tr.squeeze (tr.squeeze st).2).1
    let st1 := (tr.squeeze (tr.squeeze st).2).2
    ∃ H : F[X],
      (tr.absorb st1 (commitment g tau H) = none → shplonkCreate threads debug canon poly tr s claims st = none) ∧
      ∀ st2, tr.absorb st1 (commitment g tau H) = some st2 →
        (vanish (allPoints claims \ S₀) (tr.squeeze st2).1 = 0 →
          shplonkCreate threads debug canon poly tr s claims st = none) ∧
        (vanish (allPoints claims \ S₀) (tr.squeeze st2).1 ≠ 0 →
          ∃ Q : F[X], vanish (allPoints claims \ S₀) (tr.squeeze st2).1 • (Q * (X - C (tr.squeeze st2).1)) =
              shplonkRight 1 (fun o => dpoly (poly o)) y v (tr.squeeze st2).1 claims H ∧
            shplonkCreate threads debug canon poly tr s claims st =
              (tr.absorb (tr.squeeze st2).2 (commitment g tau Q)).map fun st =>
                ([commitment g tau H, commitment g tau Q], st)) := by
  intro y v st1
  have hT' : 2 * (claims.length + threads) ≤ 2 ^ 64 := by omega
  have hsets : ∀ S ∈ pointSets canon claims, IsSet canon claims S := fun S => isSet_of_mem
  have hm := pointSets_map hc claims
  have hlenS : ∀ S ∈ pointSets canon claims, 2 * ((multiGroup canon claims S).points.length + threads) ≤ 2 ^ 64 := by
    intro S hS
    have := (hsets S hS).length_le hc
    show 2 * (S.length + threads) ≤ 2 ^ 64
    omega
  have hcl : ∀ o ∈ claims.map (·.oracle), DClean (poly o) ∧ (poly o).length ≤ n := by
    intro o ho
    obtain ⟨c, h1, rfl⟩ := List.mem_map.1 ho
    exact hp c h1
  -- the quotients of the groups
  have hW : ∀ S ∈ pointSets canon claims, combineExtensions poly y (multiGroup canon claims S)
      (exts threads (multiGroup canon claims S)) = some (gwcWitness threads poly y (multiGroup canon claims S)) ∧
      DClean (gwcWitness threads poly y (multiGroup canon claims S)) ∧
      (gwcWitness threads poly y (multiGroup canon claims S)).length ≤ n ∧
      dpoly (gwcWitness threads poly y (multiGroup canon claims S)) * (S.map fun x => X - C x).prod =
        combined (fun o => dpoly (poly o)) y claims S.toFinset := by
    intro S hS
    have hmem : ∀ p ∈ (multiGroup canon claims S).polys, DClean (poly p.oracle) ∧ (poly p.oracle).length ≤ n := by
      intro p hp'
      obtain ⟨o, ho, rfl⟩ := List.mem_map.1 hp'
      exact hcl o (List.mem_eraseDups.1 (List.mem_filter.1 ho).1)
    obtain ⟨w, w1, w2, w3, w4⟩ := combine_spec ht (multiGroup_valid hc (hsets S hS)) (hlenS S hS) (multiGroup_holds hc hh)
      (fun p h => (hmem p h).1) (fun p h => (hmem p h).2) y
    have hw : gwcWitness threads poly y (multiGroup canon claims S) = w := by rw [gwcWitness, w1]; rfl
    rw [numer_multi hc ht hT' (hsets S hS)] at w4
    rw [hw]
    exact ⟨w1, w2, w3.trans (Nat.sub_le _ _), w4⟩
  have hne : pointSets canon claims ≠ [] := by
    intro e; rw [e, hS₀] at hm; cases hm
  obtain ⟨h, h1, h2, -, h4⟩ := polyCombine_eq v (((pointSets canon claims).map (multiGroup canon claims)).map
    (gwcWitness threads poly y)) (by simpa using hne)
  have hhc : DClean h := h4 fun x hx => by
    rw [List.map_map] at hx
    obtain ⟨S, hS, rfl⟩ := List.mem_map.1 hx
    exact (hW S hS).2.1
  have hhd : (dpoly h).degree < (n : WithBot ℕ) := by
    rw [h2]
    refine powSum_degree_lt _ _ _ fun p hp => ?_
    rw [List.map_map, List.map_map] at hp
    obtain ⟨S, hS, rfl⟩ := List.mem_map.1 hp
    exact degree_dpoly_lt (hW S hS).2.2.1
  have hhl := length_le_of_degree hhc hhd
  have hcommit : s.kzg.commit h = some (commitment g tau (dpoly h)) := by rw [commit_eq hk, if_pos hhl]
  have hext : ((pointSets canon claims).map (multiGroup canon claims)).mapM (lowDegreeExtensions threads) =
      some (((pointSets canon claims).map (multiGroup canon claims)).map (exts threads)) := by
    refine mapM_some fun gr hgr => ?_
    obtain ⟨S, hS, rfl⟩ := List.mem_map.1 hgr
    exact lowDegreeExtensions_eq ht (multiGroup_valid hc (hsets S hS)) (hlenS S hS)
  have hzip : zipM (combineExtensions poly y) ((pointSets canon claims).map (multiGroup canon claims))
      (((pointSets canon claims).map (multiGroup canon claims)).map (exts threads)) =
      some (((pointSets canon claims).map (multiGroup canon claims)).map (gwcWitness threads poly y)) := by
    refine zipM_map _ fun gr hgr => ?_
    obtain ⟨S, hS, rfl⟩ := List.mem_map.1 hgr
    exact (hW S hS).1
  -- the polynomial L
  have hL : ∀ u, ∃ ls, zipM (lPoly threads poly (superPoints canon claims) y u)
      ((pointSets canon claims).map (multiGroup canon claims))
      (((pointSets canon claims).map (multiGroup canon claims)).map (exts threads)) = some ls ∧ ls ≠ [] ∧
      (∀ l ∈ ls, Short l) ∧ ls.map dpoly = (finSets claims).map fun S => vanish (allPoints claims \ S) u •
        powSum y ((oraclesFor claims S).map fun o => dpoly (poly o) - (remainder claims S o).eval u • (1 : F[X])) := by
    intro u
    let f : Grouped F → List F := fun gr => (lPoly threads poly (superPoints canon claims) y u gr (exts threads gr)).getD []
    have hf : ∀ S ∈ pointSets canon claims, lPoly threads poly (superPoints canon claims) y u (multiGroup canon claims S)
        (exts threads (multiGroup canon claims S)) = some (f (multiGroup canon claims S)) ∧
        Short (f (multiGroup canon claims S)) ∧
        dpoly (f (multiGroup canon claims S)) = vanish (allPoints claims \ S.toFinset) u •
          powSum y ((oraclesFor claims S.toFinset).map fun o =>
            dpoly (poly o) - (remainder claims S.toFinset o).eval u • (1 : F[X])) := by
      intro S hS
      obtain ⟨l, l1, l2, l3⟩ := lPoly_spec hc ht hT' (hsets S hS) (fun c hc' => (hp c hc').1) y u
      have : f (multiGroup canon claims S) = l := by simp only [f, l1, Option.getD_some]
      rw [this]
      exact ⟨l1, l2, l3⟩
    refine ⟨_, zipM_map (k := f) _ fun gr hgr => ?_, by simpa using hne, fun l hl => ?_, ?_⟩
    · obtain ⟨S, hS, rfl⟩ := List.mem_map.1 hgr
      exact (hf S hS).1
    · rw [List.map_map] at hl
      obtain ⟨S, hS, rfl⟩ := List.mem_map.1 hl
      exact (hf S hS).2.1
    · rw [List.map_map, List.map_map, ← hm, List.map_map]
      refine List.map_congr_left fun S hS => ?_
      exact (hf S hS).2.2
  refine ⟨dpoly h, ?_⟩
  rw [shplonkCreate, groups_eq hc]
  simp only [hext, show (tr.squeeze st).1 = y from rfl, hzip, show (tr.squeeze (tr.squeeze st).2).1 = v from rfl, h1,
    hcommit, show (tr.squeeze (tr.squeeze st).2).2 = st1 from rfl]
  refine ⟨fun ha => by rw [ha], fun st2 ha => ?_⟩
  simp only [ha]
  obtain ⟨ls, l1, l2, l3, l4⟩ := hL (tr.squeeze st2).1
  generalize hu : (tr.squeeze st2).1 = u at *
  -- the first group
  obtain ⟨L₀, Ls, hp0⟩ : ∃ L₀ Ls, pointSets canon claims = L₀ :: Ls := List.exists_cons_of_ne_nil hne
  have hL₀ : L₀.toFinset = S₀ := by
    rw [hp0, hS₀, List.map_cons] at hm
    exact (List.cons.inj hm).1
  have hgr : ∃ gs, (pointSets canon claims).map (multiGroup canon claims) = multiGroup canon claims L₀ :: gs :=
    ⟨_, by rw [hp0, List.map_cons]⟩
  obtain ⟨gs, hgs⟩ := hgr
  rw [l1]
  simp only [hgs, show (multiGroup canon claims L₀).points = L₀ from rfl, vanish_diffs hc ht hT', hL₀]
  -- the quotient
  obtain ⟨l, q1, q2, q3, -⟩ := polyCombine_eq v ls l2
  obtain ⟨m1, -, m3⟩ := mulInPlaceScalar_any h (Dense.vanishingByRoots threads (superPoints canon claims) u)
  obtain ⟨w, w1, w2, w3⟩ := subInPlace_any l _ (m3 hhc)
  have hwS : Short w := w3 (q3 l3)
  have hwr : dpoly w = shplonkRight 1 (fun o => dpoly (poly o)) y v u claims (dpoly h) := by
    rw [w2, q2, l4, m1, vanish_super hc ht hT', shplonkRight]
  have hw0 : (dpoly w).eval u = 0 := by
    rw [hwr, eval_right, h2, powSum_eval, ← smul_eq_mul, ← powSum_map_const_smul, List.map_map, List.map_map, ← hm,
      List.map_map, ← powSum_map_sub]
    refine powSum_zero _ _ _ fun S hS => ?_
    have h5 := congrArg (eval u) (hW S hS).2.2.2
    rw [eval_mul, eval_prod, list_vanish ((hsets S hS).sorted hc).nodup] at h5
    simp only [Function.comp, smul_eq_mul]
    rw [← h5, ← vanish_mul ((hsets S hS).subset hc)]
    ring
  have hwd : (dpoly w).degree < ((max n 1 : ℕ) : WithBot ℕ) := by
    rw [hwr]
    refine degree_right (fun o ho => ?_) (by omega) _ _ _ (hhd.trans_le (by exact_mod_cast le_max_left _ _))
    exact degree_dpoly_lt ((hcl o ho).2.trans (le_max_left _ _))
  have hwl : w.length ≤ max n 1 := by
    rcases hwS with h' | h'
    · exact length_le_of_degree h' hwd
    · exact h'.trans (le_max_right _ _)
  have hwe : Dense.evaluate threads w u = 0 := by
    rw [Dense.evaluate_spec _ _ ht (by omega) (by omega), hw0]
  obtain ⟨z, z1, z2, z3, z4, -⟩ := Props.C57_fromRoots [u]
  have hzx : dpoly z = X - C u := by simpa using z4
  obtain ⟨p, hpq⟩ : (X - C u) ∣ dpoly w := dvd_iff_isRoot.2 hw0
  obtain ⟨q, d1, d2, d3⟩ := div_exact (p := p) hwS z2 (by rw [hzx]; exact X_sub_C_ne_zero u)
    (by rw [hzx, natDegree_X_sub_C]; exact Nat.one_pos) (by rw [hpq, hzx, mul_comm])
  have hquot : ∀ zd, quotient threads debug (superPoints canon claims) v u ls h zd =
      (Dense.divScalar q zd).map (·.2) := by
    intro zd
    rw [quotient, q1]
    simp only [w1, hwe, ne_eq, not_true_eq_false, and_false, if_false, z1, d1]
  simp only [hquot, Dense.divScalar]
  constructor
  · intro hz
    rw [if_pos hz]; rfl
  · intro hz
    rw [if_neg hz]
    simp only [Option.map_some]
    obtain ⟨s1, -, s3⟩ := mulInPlaceScalar_any q (vanish (allPoints claims \ S₀) u)⁻¹
    have hql : (Dense.mulInPlaceScalar q (vanish (allPoints claims \ S₀) u)⁻¹).length ≤ n := by
      refine length_le_of_degree (s3 d3) ?_
      rw [s1]
      refine (degree_smul_le _ _).trans_lt ?_
      rw [d2]
      by_cases hp0 : p = 0
      · rw [hp0, degree_zero]; exact WithBot.bot_lt_coe _
      have h6 : dpoly w ≠ 0 := by rw [hpq]; exact mul_ne_zero (X_sub_C_ne_zero u) hp0
      have h7 := (natDegree_lt_iff_degree_lt h6).2 hwd
      rw [hpq, natDegree_mul (X_sub_C_ne_zero u) hp0, natDegree_X_sub_C] at h7
      refine (natDegree_lt_iff_degree_lt hp0).1 ?_
      omega
    rw [commit_eq hk, if_pos hql]
    refine ⟨_, ?_, rfl⟩
    rw [s1, d2, smul_mul_assoc, smul_smul, mul_inv_cancel₀ hz, one_smul, mul_comm, ← hpq, hwr]

end

end Tachyon.Kzg
