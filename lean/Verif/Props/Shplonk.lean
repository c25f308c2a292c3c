import Verif.Proofs.KzgShplonkCreate
import Verif.Props.Kzg
/-!
# C79: SHPlonk

The grouping of claims by sets of points and the proofs of `SHPlonk`:
`tachyon/crypto/commitments/kzg/shplonk.h`, `tachyon/crypto/commitments/polynomial_openings.h`.
-/
namespace Tachyon.Props
open Tachyon.Kzg Tachyon.Poly Tachyon.FFT Tachyon.Group Polynomial

variable {F G G2 GT σ : Type} [Field F] [DecidableEq F] [AddCommGroup G] [Module F G] [AddCommGroup G2]
  [Module F G2] [AddCommGroup GT] [Module F GT] [DecidableEq GT]

/-! ### The groups -/

/-- C79: `GroupByPolyOracleAndPoints` makes a group for each set of points that some oracle is claimed at;
an oracle is in the group of exactly its points, with the opening of the first claim at each of them; the
points are in the order of their canonical representatives. -/
theorem C79_groups {canon : F → ℕ} (hc : Function.Injective canon) (claims : List (Claim F)) :
    ∃ gs, groupByPolyOracleAndPoints canon claims = some gs ∧
      (gs.map fun gr => gr.points.toFinset).Nodup ∧
      (∀ S : Finset F, S ∈ gs.map (fun gr => gr.points.toFinset) ↔
        ∃ c ∈ claims, ∀ x, x ∈ S ↔ ∃ d ∈ claims, d.oracle = c.oracle ∧ d.point = x) ∧
      ∀ gr ∈ gs, gr.points.Pairwise (fun a b => canon a < canon b) ∧
        (gr.polys.map (·.oracle)).Nodup ∧
        (∀ o, o ∈ gr.polys.map (·.oracle) ↔ (∃ c ∈ claims, c.oracle = o) ∧
          ∀ x, x ∈ gr.points ↔ ∃ d ∈ claims, d.oracle = o ∧ d.point = x) ∧
        ∀ p ∈ gr.polys, p.openings.length = gr.points.length ∧
          ∀ k (hk : k < gr.points.length) (hk' : k < p.openings.length),
            ∃ pre c post, claims = pre ++ c :: post ∧ c.oracle = p.oracle ∧ c.point = gr.points[k] ∧
              c.opening = p.openings[k] ∧ ∀ d ∈ pre, ¬ (d.oracle = p.oracle ∧ d.point = gr.points[k]) := by
  have hmemO : ∀ o x, x ∈ pointsOf canon claims o ↔ ∃ d ∈ claims, d.oracle = o ∧ d.point = x := by
    intro o x
    rw [pointsOf, (superPoints_spec hc _).2]
    simp only [List.mem_filter, decide_eq_true_eq, and_assoc]
  refine ⟨_, groups_eq hc claims, ?_, fun S => ?_, fun gr hgr => ?_⟩
  · rw [List.map_map]
    have := pointSets_map hc claims
    have h2 : ((pointSets canon claims).map List.toFinset).Nodup := by
      rw [this]; exact eraseDups_nodup _
    exact h2
  · rw [List.map_map]
    have h2 : (pointSets canon claims).map ((fun gr => gr.points.toFinset) ∘ multiGroup canon claims) =
        finSets claims := pointSets_map hc claims
    rw [h2, finSets, List.mem_eraseDups, List.mem_map]
    constructor
    · rintro ⟨o, ho, rfl⟩
      obtain ⟨c, h1, rfl⟩ := List.mem_map.1 (List.mem_eraseDups.1 ho)
      refine ⟨c, h1, fun x => ?_⟩
      rw [← hmemO, ← pointsOf_toFinset hc, List.mem_toFinset]
    · rintro ⟨c, h1, h2⟩
      refine ⟨c.oracle, List.mem_eraseDups.2 (List.mem_map_of_mem h1), ?_⟩
      ext x
      rw [h2, ← hmemO, ← pointsOf_toFinset hc, List.mem_toFinset]
  · obtain ⟨S, hS, rfl⟩ := List.mem_map.1 hgr
    have hset := isSet_of_mem hS
    have hor : (multiGroup canon claims S).polys.map (·.oracle) = oraclesAt canon claims S := by
      rw [multiGroup, List.map_map]; exact List.map_id' _
    have hmem : ∀ o, o ∈ oraclesAt canon claims S ↔ (∃ c ∈ claims, c.oracle = o) ∧ pointsOf canon claims o = S := by
      intro o
      rw [oraclesAt, List.mem_filter, List.mem_eraseDups, List.mem_map, decide_eq_true_iff]
    refine ⟨hset.sorted hc, ?_, fun o => ?_, fun p hp => ?_⟩
    · rw [hor]; exact (eraseDups_nodup _).filter _
    · rw [hor, hmem]
      refine and_congr_right fun _ => ?_
      simp only [← hmemO]
      constructor
      · rintro rfl x; rfl
      · intro h
        refine Sorted.ext (canon := canon) (superPoints_spec hc _).1 (hset.sorted hc) ?_
        ext x
        rw [List.mem_toFinset, List.mem_toFinset]
        exact (h x).symm
    · obtain ⟨o, ho, rfl⟩ := List.mem_map.1 hp
      refine ⟨List.length_map _, fun k hk hk' => ?_⟩
      simp only [multiGroup, List.getElem_map]
      have hx : S[k] ∈ pointsOf canon claims o := by rw [((hmem o).1 ho).2]; exact List.getElem_mem _
      have hsome := getOpening_some ((hmemO o _).1 hx)
      rw [getOpening] at hsome
      obtain ⟨d, hd, he⟩ := Option.map_eq_some_iff.1 hsome
      obtain ⟨h1, pre, post, h2, h3⟩ := List.find?_eq_some_iff_append.1 hd
      simp only [Bool.and_eq_true, decide_eq_true_eq] at h1
      refine ⟨pre, d, post, h2, h1.1, h1.2, he, fun d' hd' h' => ?_⟩
      have h4 := h3 d' hd'
      have h5 : (decide (d'.oracle = o) && decide (d'.point = S[k]'hk)) = true := by
        rw [Bool.and_eq_true]; exact ⟨decide_eq_true h'.1, decide_eq_true h'.2⟩
      rw [h5] at h4
      cases h4

/-- The canonical representatives, for the examples. -/
def exCanon : F17 → ℕ := ZMod.val (n := 17)

example : groupByPolyOracleAndPoints exCanon [⟨0, (5 : F17), 1⟩, ⟨1, 3, 2⟩, ⟨0, 3, 4⟩, ⟨1, 5, 6⟩, ⟨2, 3, 7⟩] =
    some [⟨[⟨0, [4, 1]⟩, ⟨1, [2, 6]⟩], [3, 5]⟩, ⟨[⟨2, [7]⟩], [3]⟩] := by decide +kernel

/-! ### The verifier -/

omit [Field F] in
/-- The points of the first oracle come first. -/
theorem finSets_cons (c : Claim F) (cs : List (Claim F)) :
    ∃ rest, finSets (c :: cs) = pointsFor (c :: cs) c.oracle :: rest := by
  rw [finSets, List.map_cons, List.eraseDups_cons, List.map_cons, List.eraseDups_cons]
  exact ⟨_, rfl⟩

/-- C79: what `DoVerifyOpeningProof` of `SHPlonk` accepts. With `S₀` the points of the oracle of the first
claim: the verifier fails if the third challenge is a point outside `S₀`; otherwise it accepts if the proof
has two commitments that the transcript takes and satisfies the equation of SHPlonk. -/
theorem C79_equation {canon : F → ℕ} (hc : Function.Injective canon) {threads : ℕ} (ht : 0 < threads)
    {e : G →ₗ[F] G2 →ₗ[F] GT} {g2 : G2} (he : Nondegenerate e g2) {tau : F}
    {s : Scheme G G2} (hs : s.For g2 tau) (g : G) (com : ℕ → G) (tr : Transcript σ F G) (c : Claim F)
    (cs : List (Claim F)) (hT : 2 * ((c :: cs).length + threads) ≤ 2 ^ 64) (st : σ) :
    let y := (tr.squeeze st).1
    let v := (tr.squeeze (tr.squeeze st).2).1
    let st1 := (tr.squeeze (tr.squeeze st).2).2
    let z := vanish (allPoints (c :: cs) \ pointsFor (c :: cs) c.oracle)
    let run := shplonkVerify threads canon (fun a b => e a b) g com tr s (c :: cs) st
    (∀ proof, proof.length < 2 → run proof = some false) ∧
    ∀ h q rest,
      (tr.absorb st1 h = none → run (h :: q :: rest) = some false) ∧
      ∀ st2, tr.absorb st1 h = some st2 →
        (tr.absorb (tr.squeeze st2).2 q = none → run (h :: q :: rest) = some false) ∧
        ∀ st3, tr.absorb (tr.squeeze st2).2 q = some st3 →
          (z (tr.squeeze st2).1 = 0 → run (h :: q :: rest) = none) ∧
          (z (tr.squeeze st2).1 ≠ 0 → ∃ b, run (h :: q :: rest) = some b ∧ (b = true ↔
            ((tau - (tr.squeeze st2).1) * z (tr.squeeze st2).1) • q =
              shplonkRight g com y v (tr.squeeze st2).1 (c :: cs) h)) := by
  intro y v st1 z run
  constructor
  · intro proof hp
    simp only [run, shplonkVerify]
    match proof, hp with
    | [], _ => rfl
    | [h], _ =>
      cases ha : tr.absorb (tr.squeeze (tr.squeeze st).2).2 h with
      | none => simp only [readProof, ha]
      | some st2 => simp only [readProof, ha, Option.map_some]
  intro h q rest
  simp only [run, shplonkVerify]
  refine ⟨fun ha => ?_, fun st2 ha => ?_⟩
  · simp only [readProof, show tr.absorb (tr.squeeze (tr.squeeze st).2).2 h = none from ha]
  simp only [readProof, show tr.absorb (tr.squeeze (tr.squeeze st).2).2 h = some st2 from ha, Option.map_some]
  refine ⟨fun hq => ?_, fun st3 hq => ?_⟩
  · simp only [hq]
  simp only [hq, groups_eq hc]
  obtain ⟨rs, hrs⟩ := finSets_cons c cs
  obtain ⟨p1, p2⟩ := (shplonkP_eq hc ht hT g com y v (tr.squeeze st2).1 h q).2 _ rs hrs
  refine ⟨fun hz => ?_, fun hz => ?_⟩
  · rw [show (tr.squeeze st).1 = y from rfl, show (tr.squeeze (tr.squeeze st).2).1 = v from rfl, p1 hz, Option.map_none]
  · obtain ⟨p, hp, heq⟩ := p2 hz
    rw [show (tr.squeeze st).1 = y from rfl, show (tr.squeeze (tr.squeeze st).2).1 = v from rfl, hp, Option.map_some, hs]
    refine ⟨_, rfl, ?_⟩
    rw [pairing_setup he, ← heq, mul_comm, mul_smul, sub_smul]
    rw [smul_right_inj hz]
    constructor
    · rintro rfl; rfl
    · intro h'
      exact sub_left_injective h'

omit [AddCommGroup G2] [Module F G2] [Module F GT] in
/-- C79: without claims there is no proof, and the verifier fails on every proof that the transcript
takes. -/
theorem C79_empty (canon : F → ℕ) (threads : ℕ) (debug : Bool) (poly : ℕ → List F)
    (e : G → G2 → GT) (g : G) (com : ℕ → G) (tr : Transcript σ F G) (s : Scheme G G2) (st : σ) :
    shplonkCreate threads debug canon poly tr s [] st = none ∧
    ∀ h q rest st2 st3, tr.absorb (tr.squeeze (tr.squeeze st).2).2 h = some st2 →
      tr.absorb (tr.squeeze st2).2 q = some st3 →
      shplonkVerify threads canon e g com tr s [] st (h :: q :: rest) = none := by
  refine ⟨rfl, fun h q rest st2 st3 h1 h2 => ?_⟩
  simp only [shplonkVerify, readProof, h1, h2, Option.map_some]
  rfl

/-! ### Completeness -/

/-- C79: the proofs that `SHPlonk` makes for claims that hold are accepted. A proof is made if the
transcript takes the two commitments and the third challenge is not a point outside those of the oracle of
the first claim. The result does not depend on whether `DCHECK` is compiled. -/
theorem C79_complete {canon : F → ℕ} (hc : Function.Injective canon) {threads : ℕ} (ht : 0 < threads)
    {e : G →ₗ[F] G2 →ₗ[F] GT} {g2 : G2} (he : Nondegenerate e g2) {g : G} {tau : F} {n : ℕ} {s : Scheme G G2}
    (hk : s.kzg.For g tau n) (hs : s.For g2 tau) (c : Claim F) (cs : List (Claim F))
    (hT : 2 * (max n 1 + (c :: cs).length + threads) ≤ 2 ^ 64)
    (poly : ℕ → List F) (hp : ∀ d ∈ c :: cs, DClean (poly d.oracle)) (com : ℕ → G)
    (hcom : ∀ d ∈ c :: cs, s.kzg.commit (poly d.oracle) = some (com d.oracle))
    (hh : ∀ d ∈ c :: cs, d.Holds fun o => dpoly (poly o)) (debug : Bool) (tr : Transcript σ F G) (st : σ) :
    let st1 := (tr.squeeze (tr.squeeze st).2).2
    let z := vanish (allPoints (c :: cs) \ pointsFor (c :: cs) c.oracle)
    ∃ h, (tr.absorb st1 h = none → shplonkCreate threads debug canon poly tr s (c :: cs) st = none) ∧
      ∀ st2, tr.absorb st1 h = some st2 →
        (z (tr.squeeze st2).1 = 0 → shplonkCreate threads debug canon poly tr s (c :: cs) st = none) ∧
        (z (tr.squeeze st2).1 ≠ 0 → ∃ q,
          shplonkCreate threads debug canon poly tr s (c :: cs) st =
            (tr.absorb (tr.squeeze st2).2 q).map (fun st3 => ([h, q], st3)) ∧
          ∀ st3 rest, tr.absorb (tr.squeeze st2).2 q = some st3 →
            shplonkVerify threads canon (fun a b => e a b) g com tr s (c :: cs) st (h :: q :: rest) = some true) := by
  intro st1 z
  have hcom' : ∀ d ∈ c :: cs, (poly d.oracle).length ≤ n ∧ com d.oracle = commitment g tau (dpoly (poly d.oracle)) := by
    intro d hd
    have h1 := hcom d hd
    rw [commit_eq hk] at h1
    split at h1
    · next h => exact ⟨h, (Option.some.inj h1).symm⟩
    · cases h1
  obtain ⟨rs, hrs⟩ := finSets_cons c cs
  obtain ⟨H, h1, h2⟩ := shplonkCreate_eq hc ht hT hh (fun d hd => ⟨hp d hd, (hcom' d hd).1⟩) hk debug tr st hrs
  refine ⟨commitment g tau H, h1, fun st2 ha => ⟨(h2 st2 ha).1, fun hz => ?_⟩⟩
  obtain ⟨Q, q1, q2⟩ := (h2 st2 ha).2 hz
  refine ⟨_, q2, fun st3 rest hst => ?_⟩
  obtain ⟨b, b1, b2⟩ := ((((C79_equation hc ht he hs g com tr c cs (by omega) st).2 (commitment g tau H)
    (commitment g tau Q) rest).2 st2 ha).2 st3 hst).2 hz
  rw [b1]
  congr 1
  rw [b2]
  have h3 := congrArg (commitment g tau) q1
  rw [commitment_right] at h3
  have h4 : shplonkRight g com (tr.squeeze st).1 (tr.squeeze (tr.squeeze st).2).1 (tr.squeeze st2).1 (c :: cs)
      (commitment g tau H) = shplonkRight g (fun o => commitment g tau (dpoly (poly o))) (tr.squeeze st).1
        (tr.squeeze (tr.squeeze st).2).1 (tr.squeeze st2).1 (c :: cs) (commitment g tau H) := by
    rw [shplonkRight, shplonkRight]
    congr 2
    refine List.map_congr_left fun S _ => ?_
    congr 2
    refine List.map_congr_left fun o ho => ?_
    obtain ⟨d, hd, rfl⟩ := List.mem_map.1 (List.mem_eraseDups.1 (List.mem_filter.1 ho).1)
    rw [(hcom' d hd).2]
  rw [h4, ← h3]
  simp only [commitment, smul_smul, eval_smul, eval_mul, eval_sub, eval_X, eval_C, smul_eq_mul]
  congr 1
  ring

/-! ### Soundness -/

theorem natDegree_remainder (claims : List (Claim F)) (o : ℕ) :
    (remainder claims (pointsFor claims o) o).natDegree ≤ claims.length := by
  have hcard : (pointsFor claims o).card ≤ claims.length :=
    (List.toFinset_card_le _).trans ((List.length_map _).le.trans (List.length_filter_le _ _))
  refine natDegree_le_of_degree_le ?_
  refine (Lagrange.degree_interpolate_lt (s := pointsFor claims o) (v := id) _ (fun _ _ _ _ h => h)).le.trans ?_
  exact_mod_cast hcard

/-- C79: claims about an oracle at a point agree. -/
def Consistent (claims : List (Claim F)) : Prop :=
  ∀ c ∈ claims, ∀ d ∈ claims, c.oracle = d.oracle → c.point = d.point → c.opening = d.opening

/-- C79: a false claim is rejected but for few challenges and secrets: fewer values of `y` and then of `v`
than there are claims, then, for every choice of the first polynomial in the proof, at most as many values of
`u` as twice the claims and the degrees, then at most `D + 1` secrets. -/
theorem C79_sound {canon : F → ℕ} (hc : Function.Injective canon) {threads : ℕ} (ht : 0 < threads)
    {e : G →ₗ[F] G2 →ₗ[F] GT} {g2 : G2} (he : Nondegenerate e g2) {g : G} (hg : g ≠ 0)
    {claims : List (Claim F)} (hT : 2 * (claims.length + threads) ≤ 2 ^ 64) (hcons : Consistent claims)
    (P : ℕ → F[X]) {D : ℕ} (hD : ∀ c ∈ claims, (P c.oracle).natDegree ≤ D) (hfalse : ∃ c ∈ claims, ¬ c.Holds P) :
    ∃ badY : Finset F, badY.card < claims.length ∧ ∀ y ∉ badY,
    ∃ badV : Finset F, badV.card < claims.length ∧ ∀ v ∉ badV,
    ∀ H : F[X], H.natDegree ≤ D →
    ∃ badU : Finset F, badU.card ≤ D + 2 * claims.length ∧ ∀ u ∉ badU,
    ∀ Q : F[X], Q.natDegree ≤ D →
    ∃ badT : Finset F, badT.card ≤ D + 1 ∧ ∀ tau ∉ badT,
    ∀ (σ : Type) (tr : Transcript σ F G) (s : Scheme G G2) (st st2 : σ) (rest : List G), s.For g2 tau →
      (tr.squeeze st).1 = y → (tr.squeeze (tr.squeeze st).2).1 = v →
      tr.absorb (tr.squeeze (tr.squeeze st).2).2 (commitment g tau H) = some st2 → (tr.squeeze st2).1 = u →
      shplonkVerify threads canon (fun a b => e a b) g (fun o => commitment g tau (P o)) tr s claims st
        (commitment g tau H :: commitment g tau Q :: rest) ≠ some true := by
  obtain ⟨c, hcm, hcf⟩ := hfalse
  -- the group of the false claim
  let S := pointsFor claims c.oracle
  have hxS : c.point ∈ S := by
    rw [show S = pointsFor claims c.oracle from rfl, pointsFor, List.mem_toFinset]
    exact List.mem_map_of_mem (List.mem_filter.2 ⟨hcm, by simp⟩)
  have hoS : c.oracle ∈ oraclesFor claims S :=
    List.mem_filter.2 ⟨List.mem_eraseDups.2 (List.mem_map_of_mem hcm), by simp [S]⟩
  have hopen : opened claims c.oracle c.point = c.opening := by
    have hsome := getOpening_some (claims := claims) ⟨c, hcm, rfl, rfl⟩
    rw [getOpening] at hsome
    obtain ⟨d, hd, hde⟩ := Option.map_eq_some_iff.1 hsome
    have hd1 := List.find?_some hd
    simp only [Bool.and_eq_true, decide_eq_true_eq] at hd1
    rw [← hde]
    exact hcons d (List.mem_of_find?_eq_some hd) c hcm hd1.1 hd1.2
  have hrem : (remainder claims S c.oracle).eval c.point = c.opening := by
    rw [remainder, ← hopen]
    exact Lagrange.eval_interpolate_at_node (v := id) _ (fun _ _ _ _ h => h) hxS
  have hlenO : ∀ S', (oraclesFor claims S').length ≤ claims.length := fun S' =>
    (List.length_filter_le _ _).trans ((length_eraseDups_le _).trans (by simp))
  obtain ⟨badY, y1, y2⟩ := exists_bad ((oraclesFor claims S).map fun o =>
      (P o - remainder claims S o).eval c.point)
    ⟨_, List.mem_map_of_mem hoS, by rw [eval_sub, hrem]; exact fun h => hcf (sub_eq_zero.1 h)⟩
  refine ⟨badY, y1.trans_le (by rw [List.length_map]; exact hlenO S), fun y hy => ?_⟩
  have hcomb : (combined P y claims S).eval c.point ≠ 0 := by
    rw [combined, powSum_eval]
    exact y2 y hy
  have hSm : S ∈ finSets claims :=
    List.mem_eraseDups.2 (List.mem_map_of_mem (List.mem_eraseDups.2 (List.mem_map_of_mem hcm)))
  have hvan : vanish (allPoints claims \ S) c.point ≠ 0 := by
    rw [vanish, Finset.prod_ne_zero_iff]
    intro x hx h0
    rw [sub_eq_zero] at h0
    exact (Finset.mem_sdiff.1 hx).2 (h0 ▸ hxS)
  obtain ⟨badV, v1, v2⟩ := exists_bad ((finSets claims).map fun S =>
      vanish (allPoints claims \ S) c.point * (combined P y claims S).eval c.point)
    ⟨_, List.mem_map_of_mem hSm, mul_ne_zero hvan hcomb⟩
  have hlenF : (finSets claims).length ≤ claims.length :=
    (length_eraseDups_le _).trans ((List.length_map _).le.trans ((length_eraseDups_le _).trans (by simp)))
  refine ⟨badV, v1.trans_le (by rw [List.length_map]; exact hlenF), fun v hv H hH => ?_⟩
  -- the polynomial in the third challenge
  let Z : Finset F → F[X] := fun S => ∏ x ∈ S, (X - C x)
  have hZe : ∀ S u, (Z S).eval u = vanish S u := by
    intro S u
    simp [Z, Polynomial.eval_prod, vanish]
  have hZd : ∀ S, (Z S).natDegree = S.card := by
    intro S
    exact natDegree_finsetProd_X_sub_C_eq_card S id
  let B : F[X] := powSum v ((finSets claims).map fun S => Z (allPoints claims \ S) * combined P y claims S) -
    Z (allPoints claims) * H
  have hBe : ∀ u, B.eval u = (shplonkRight 1 P y v u claims H).eval u := by
    intro u
    rw [eval_right, eval_sub, eval_mul, hZe, powSum_eval]
    congr 2
    refine List.map_congr_left fun S _ => ?_
    rw [eval_mul, hZe]
  have hxT : c.point ∈ allPoints claims := by
    rw [allPoints, List.mem_toFinset]; exact List.mem_map_of_mem hcm
  have hB0 : B ≠ 0 := by
    intro h
    have h' := hBe c.point
    rw [h, eval_zero, eval_right, show vanish (allPoints claims) c.point = 0 from
      Finset.prod_eq_zero hxT (sub_self _), zero_mul, sub_zero] at h'
    exact v2 v hv h'.symm
  have hBd : B.natDegree ≤ D + 2 * claims.length := by
    refine (natDegree_sub_le _ _).trans (max_le (powSum_natDegree _ _ _ fun p hp => ?_) ?_)
    · obtain ⟨S', hS', rfl⟩ := List.mem_map.1 hp
      have h1 : (Z (allPoints claims \ S')).natDegree ≤ claims.length := by
        rw [hZd]; exact (Finset.card_le_card Finset.sdiff_subset).trans (allPoints_card claims)
      have h2 : (combined P y claims S').natDegree ≤ D + claims.length := by
        refine powSum_natDegree _ _ _ fun p hp => ?_
        obtain ⟨o, ho, rfl⟩ := List.mem_map.1 hp
        obtain ⟨ho1, ho2⟩ := List.mem_filter.1 ho
        obtain ⟨d, hd, rfl⟩ := List.mem_map.1 (List.mem_eraseDups.1 ho1)
        have ho3 : pointsFor claims d.oracle = S' := by simpa using ho2
        refine (natDegree_sub_le _ _).trans (max_le ((hD d hd).trans (Nat.le_add_right _ _)) ?_)
        rw [← ho3]
        exact (natDegree_remainder claims d.oracle).trans (Nat.le_add_left _ _)
      refine natDegree_mul_le.trans ?_
      omega
    · refine natDegree_mul_le.trans ?_
      rw [hZd]
      have := allPoints_card claims
      omega
  obtain ⟨badU, u1, u2⟩ := exists_roots B hB0 hBd
  refine ⟨badU, u1, fun u hu Q hQ => ?_⟩
  obtain ⟨c₀, cs, rfl⟩ : ∃ c₀ cs, claims = c₀ :: cs := List.exists_cons_of_ne_nil (List.ne_nil_of_mem hcm)
  -- the polynomial in the secret
  let E : F[X] := vanish (allPoints (c₀ :: cs) \ pointsFor (c₀ :: cs) c₀.oracle) u • ((X - C u) * Q) -
    shplonkRight 1 P y v u (c₀ :: cs) H
  have hE0 : E ≠ 0 := by
    intro h
    have h' := congrArg (eval u) h
    rw [eval_sub, ← hBe, eval_smul, eval_mul, eval_sub, eval_X, eval_C, sub_self, zero_mul, smul_zero, zero_sub,
      eval_zero, neg_eq_zero] at h'
    exact u2 u hu h'
  have hEd : E.natDegree ≤ D + 1 := by
    refine (natDegree_sub_le _ _).trans (max_le ((natDegree_smul_le _ _).trans (natDegree_mul_le.trans ?_)) ?_)
    · rw [natDegree_X_sub_C]; omega
    · refine natDegree_le_of_degree_le (le_of_lt ?_ : _)
      have hlt : ∀ {p : F[X]}, p.natDegree ≤ D → p.degree < ((D + 1 : ℕ) : WithBot ℕ) := by
        intro p hp
        refine (degree_le_of_natDegree_le hp).trans_lt ?_
        exact_mod_cast Nat.lt_succ_self D
      refine degree_right (fun o ho => ?_) (Nat.succ_pos D) _ _ _ (hlt hH)
      obtain ⟨d, hd, rfl⟩ := List.mem_map.1 ho
      exact hlt (hD d hd)
  obtain ⟨badT, t1, t2⟩ := exists_roots E hE0 hEd
  refine ⟨badT, t1, fun tau htau σ tr s st st2 rest hs hy' hv' hst hu' hrun => ?_⟩
  obtain ⟨-, h1⟩ := C79_equation hc ht he hs g (fun o => commitment g tau (P o)) tr c₀ cs hT st
  obtain ⟨h2, h3⟩ := (h1 (commitment g tau H) (commitment g tau Q) rest).2 st2 hst
  cases hq : tr.absorb (tr.squeeze st2).2 (commitment g tau Q) with
  | none => rw [h2 hq] at hrun; cases hrun
  | some st3 =>
    obtain ⟨h4, h5⟩ := h3 st3 hq
    by_cases hz : vanish (allPoints (c₀ :: cs) \ pointsFor (c₀ :: cs) c₀.oracle) (tr.squeeze st2).1 = 0
    · rw [h4 hz] at hrun; cases hrun
    · obtain ⟨b, b1, b2⟩ := h5 hz
      rw [b1] at hrun
      obtain rfl := Option.some.inj hrun
      have h6 := b2.1 rfl
      rw [hy', hv', hu', ← commitment_right, commitment, commitment, smul_smul, ← sub_eq_zero, ← sub_smul] at h6
      rcases smul_eq_zero.1 h6 with h | h
      · refine t2 tau htau ?_
        rw [eval_sub, eval_smul, eval_mul, eval_sub, eval_X, eval_C, ← h, smul_eq_mul]
        ring
      · exact hg h

/-! ### What the verifier does not check -/

omit [AddCommGroup G2] [Module F G2] [Module F GT] in
/-- C79: the opening of a second claim about an oracle at a point is not used. -/
theorem C79_first_only {canon : F → ℕ} (hc : Function.Injective canon) {threads : ℕ} (e : G → G2 → GT) (g : G)
    (com : ℕ → G) (tr : Transcript σ F G) (s : Scheme G G2) (claims : List (Claim F)) (st : σ) (proof : List G)
    (c : Claim F) (h : ∃ d ∈ claims, d.oracle = c.oracle ∧ d.point = c.point) :
    shplonkVerify threads canon e g com tr s (claims ++ [c]) st proof =
      shplonkVerify threads canon e g com tr s claims st proof := by
  have hsuper : superPoints canon (claims ++ [c]) = superPoints canon claims := by
    refine (superPoints_spec hc _).1.ext (superPoints_spec hc _).1 ?_
    ext x
    rw [List.mem_toFinset, List.mem_toFinset, (superPoints_spec hc _).2, (superPoints_spec hc _).2]
    constructor
    · rintro ⟨d, hd, rfl⟩
      rcases List.mem_append.1 hd with hd | hd
      · exact ⟨d, hd, rfl⟩
      · obtain rfl := List.mem_singleton.1 hd
        obtain ⟨d', h1, -, h3⟩ := h
        exact ⟨d', h1, h3⟩
    · rintro ⟨d, hd, rfl⟩; exact ⟨d, by simp [hd], rfl⟩
  have hpts : ∀ o, pointsOf canon (claims ++ [c]) o = pointsOf canon claims o := by
    intro o
    refine Sorted.ext (canon := canon) (superPoints_spec hc _).1 (superPoints_spec hc _).1 ?_
    ext x
    rw [List.mem_toFinset, List.mem_toFinset, pointsOf, pointsOf, (superPoints_spec hc _).2, (superPoints_spec hc _).2]
    constructor
    · rintro ⟨d, hd, rfl⟩
      obtain ⟨hd, hdo⟩ := List.mem_filter.1 hd
      rcases List.mem_append.1 hd with hd | hd
      · exact ⟨d, List.mem_filter.2 ⟨hd, hdo⟩, rfl⟩
      · obtain rfl := List.mem_singleton.1 hd
        obtain ⟨d', h1, h2, h3⟩ := h
        exact ⟨d', List.mem_filter.2 ⟨h1, by simpa [h2] using hdo⟩, h3⟩
    · rintro ⟨d, hd, rfl⟩
      obtain ⟨hd, hdo⟩ := List.mem_filter.1 hd
      exact ⟨d, List.mem_filter.2 ⟨by simp [hd], hdo⟩, rfl⟩
  have hor : ((claims ++ [c]).map (·.oracle)).eraseDups = (claims.map (·.oracle)).eraseDups := by
    rw [List.map_append, List.map_cons, List.map_nil, eraseDups_snoc, if_pos]
    obtain ⟨d, h1, h2, -⟩ := h
    exact h2 ▸ List.mem_map_of_mem h1
  have hset : pointSets canon (claims ++ [c]) = pointSets canon claims := by
    rw [pointSets, pointSets, hor]
    congr 1
    exact List.map_congr_left fun o _ => hpts o
  have hopen : ∀ o x, opened (claims ++ [c]) o x = opened claims o x := by
    intro o x
    rw [opened, opened, List.find?_append]
    by_cases hox : c.oracle = o ∧ c.point = x
    · obtain ⟨rfl, rfl⟩ := hox
      cases hf : claims.find? (fun d => d.oracle = c.oracle && decide (d.point = c.point)) with
      | none =>
        obtain ⟨d, h1, h2, h3⟩ := h
        have := List.find?_eq_none.1 hf d h1
        simp [h2, h3] at this
      | some d => rfl
    · have : [c].find? (fun d => d.oracle = o && decide (d.point = x)) = none := by
        rw [List.find?_eq_none]
        intro d hd
        obtain rfl := List.mem_singleton.1 hd
        simpa using hox
      rw [this, Option.or_none]
  have hgr : groupByPolyOracleAndPoints canon (claims ++ [c]) = groupByPolyOracleAndPoints canon claims := by
    rw [groups_eq hc, groups_eq hc, hset]
    congr 1
    refine List.map_congr_left fun S _ => ?_
    rw [multiGroup, multiGroup, oraclesAt, oraclesAt, hor]
    congr 1
    rw [show (fun o => decide (pointsOf canon (claims ++ [c]) o = S)) = fun o => decide (pointsOf canon claims o = S)
      from funext fun o => by rw [hpts o]]
    refine List.map_congr_left fun o _ => ?_
    congr 1
    exact List.map_congr_left fun x _ => hopen o x
  simp only [shplonkVerify, hgr, hsuper]

/-- The answer of the verifier, with the commitments `com`, about the honest proof for `exClaims`, for other
claims, by a scheme `s'`. -/
def exShplonk (s' : Scheme F17 F17 → Scheme F17 F17) (ptr : ℕ → ℕ) (claims : List (Claim F17)) (st : F17) : Option Bool :=
  match exScheme with
  | none => none
  | some s =>
    match shplonkCreate 2 true exCanon exPolys exTranscript s exClaims st with
    | none => none
    | some (proof, _) => shplonkVerify 2 exCanon (fun a b : F17 => a * b) 1 (fun o => exComs s (ptr o)) exTranscript (s' s)
        claims st proof

example : exShplonk id id exClaims 7 = some true := by decide +kernel
example : exShplonk id id [⟨0, 2, 0⟩, ⟨1, 2, 13⟩, ⟨1, 5, 10⟩] 7 = some false := by decide +kernel
-- the challenge is a point outside the first group
example : exShplonk id id exClaims 1 = none := by decide +kernel

/-- C79: so a false claim after a true one about the same oracle and point is accepted. -/
theorem C79_conflict : exShplonk id id (exClaims ++ [⟨1, 5, 11⟩]) 7 = some true := by decide +kernel

/-- C79: the oracles are compared as pointers: an honest proof is rejected if the verifier keeps one
commitment twice where the prover keeps one polynomial. -/
theorem C79_pointers : exShplonk id (fun o => if o = 2 then 1 else o) [⟨0, 2, 0⟩, ⟨1, 2, 12⟩, ⟨2, 5, 10⟩] 7 = some false := by
  decide +kernel

/-- C79: and a reloaded scheme (C78) rejects an honest proof. -/
theorem C79_reloaded_rejects : exShplonk (fun s => Scheme.new 1 s.kzg s.sG2) id exClaims 8 = some false := by
  decide +kernel

end Tachyon.Props
