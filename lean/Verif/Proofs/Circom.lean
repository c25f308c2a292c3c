import Verif.Spec.Circom
import Verif.Props.Groth16
/-! Proofs for the Groth16 prover of circom. -/
namespace Tachyon.Circom
open Polynomial Tachyon.R1cs Tachyon.FFT Tachyon.Groth16 Tachyon.Props Tachyon.Poly

variable {F G1 G2 GT : Type} [Field F] [DecidableEq F] [AddCommGroup G1] [Module F G1] [AddCommGroup G2] [Module F G2]
  [AddCommGroup GT] [Module F GT] [DecidableEq GT]

/-! ### The loop over the coefficients -/

theorem foldlM_get {α β : Type} (f : β → α → Option β) (cs : List α) : ∀ (l : List ℕ) (b : β), (∀ i ∈ l, i < cs.length) →
    l.foldlM (fun b i => (cs[i]?).bind (f b)) b = (l.filterMap (cs[·]?)).foldlM f b
  | [], b, _ => rfl
  | i :: l, b, h => by
    have hi := h i List.mem_cons_self
    rw [List.foldlM_cons, List.filterMap_cons_some (List.getElem?_eq_getElem hi), List.foldlM_cons,
      List.getElem?_eq_getElem hi, Option.bind_some]
    exact congrArg (f b cs[i]).bind (funext fun b' => foldlM_get f cs l b' fun j hj => h j (List.mem_cons_of_mem _ hj))

theorem filterMap_range {α : Type} : ∀ cs : List α, (List.range cs.length).filterMap (cs[·]?) = cs
  | [] => rfl
  | c :: cs => by
    rw [List.length_cons, List.range_succ_eq_map, List.filterMap_cons_some (by rfl), List.filterMap_map]
    exact congrArg (c :: ·) (filterMap_range cs)

theorem abValues_perm (o : Sched) (size : ℕ) (cs : List (Coeff F)) (full : List F) :
    ∃ cs' : List (Coeff F), cs'.Perm cs ∧
      abValues o size cs full = cs'.foldlM (addCoeff full) (List.replicate size 0, List.replicate size 0) := by
  refine ⟨(o.one (List.range cs.length)).filterMap (cs[·]?), ?_, ?_⟩
  · have := (o.one_perm (List.range cs.length)).filterMap (cs[·]?)
    rwa [filterMap_range] at this
  · exact foldlM_get _ _ _ _ fun i hi => List.mem_range.1 ((o.one_perm _).mem_iff.1 hi)

/-- What a coefficient adds to row `i`. -/
def part (full : List F) (first : Bool) (i : ℕ) (c : Coeff F) : F :=
  if decide (c.matrix = 0) = first ∧ c.constraint = i then c.value * full.getD c.signal 0 else 0

omit [DecidableEq F] in
theorem rowSum_cons (c : Coeff F) (cs : List (Coeff F)) (full : List F) (first : Bool) (i : ℕ) :
    rowSum (c :: cs) full first i = part full first i c + rowSum cs full first i := by
  rw [rowSum, rowOf, List.filter_cons]
  by_cases h : decide (c.matrix = 0) = first ∧ c.constraint = i
  · rw [if_pos (by simpa using h), part, if_pos h]; rfl
  · rw [if_neg (by simpa using h), part, if_neg h, zero_add]; rfl

theorem addCoeff_spec {full : List F} {size : ℕ} (A B : ℕ → F) {c : Coeff F} (h1 : c.constraint < size)
    (h2 : c.signal < full.length) :
    addCoeff full (vec size A, vec size B) c =
      some (vec size fun i => A i + part full true i c, vec size fun i => B i + part full false i c) := by
  have hv : (if c.value = 1 then full[c.signal] else c.value * full[c.signal]) = c.value * full.getD c.signal 0 := by
    rw [List.getD_eq_getElem?_getD, List.getElem?_eq_getElem h2, Option.getD_some]
    split
    · next h => rw [h, one_mul]
    · rfl
  by_cases hm : c.matrix = 0
  · simp only [addCoeff, hm, if_true, vec_get A h1, Option.bind_some, List.getElem?_eq_getElem h2, Option.map_some, hv, vec_set]
    refine congrArg some (Prod.ext (vec_ext fun i _ => ?_) (vec_ext fun i _ => ?_))
    · simp only [part, hm, decide_true, true_and]
      by_cases e : i = c.constraint
      · rw [if_pos e, if_pos e.symm, e]
      · rw [if_neg e, if_neg (Ne.symm e), add_zero]
    · simp [part, hm]
  · simp only [addCoeff, hm, if_false, vec_get B h1, Option.bind_some, List.getElem?_eq_getElem h2, Option.map_some, hv, vec_set]
    refine congrArg some (Prod.ext (vec_ext fun i _ => ?_) (vec_ext fun i _ => ?_))
    · simp [part, hm]
    · simp only [part, hm, decide_false, true_and]
      by_cases e : i = c.constraint
      · rw [if_pos e, if_pos e.symm, e]
      · rw [if_neg e, if_neg (Ne.symm e), add_zero]

theorem addCoeffs_spec {full : List F} {size : ℕ} : ∀ (cs : List (Coeff F)) (A B : ℕ → F),
    (∀ c ∈ cs, c.constraint < size ∧ c.signal < full.length) →
    cs.foldlM (addCoeff full) (vec size A, vec size B) =
      some (vec size fun i => A i + rowSum cs full true i, vec size fun i => B i + rowSum cs full false i)
  | [], A, B, _ => by simp [rowSum, rowOf]
  | c :: cs, A, B, h => by
    obtain ⟨h1, h2⟩ := h c List.mem_cons_self
    rw [List.foldlM_cons, addCoeff_spec A B h1 h2]
    refine (addCoeffs_spec cs _ _ fun c hc => h c (List.mem_cons_of_mem _ hc)).trans ?_
    simp only [rowSum_cons, add_assoc]

theorem addCoeffs_none {full : List F} {size : ℕ} : ∀ (cs : List (Coeff F)) (A B : ℕ → F),
    (∃ c ∈ cs, ¬ (c.constraint < size ∧ c.signal < full.length)) →
    cs.foldlM (addCoeff full) (vec size A, vec size B) = none
  | [], A, B, ⟨c, hc, _⟩ => by simp at hc
  | c :: cs, A, B, h => by
    by_cases hc : c.constraint < size ∧ c.signal < full.length
    · rw [List.foldlM_cons, addCoeff_spec A B hc.1 hc.2]
      refine addCoeffs_none cs _ _ ?_
      obtain ⟨c', h1, h2⟩ := h
      rcases List.mem_cons.1 h1 with rfl | h1
      · exact absurd hc h2
      · exact ⟨c', h1, h2⟩
    · have e : addCoeff full (vec size A, vec size B) c = none := by
        have hv : (if c.matrix = 0 then vec size A else vec size B).length = size := by split <;> exact vec_length _ _
        rw [addCoeff]
        simp only
        by_cases h1 : c.constraint < size
        · have h2 : full[c.signal]? = none := List.getElem?_eq_none (by omega)
          rw [h2]
          simp
        · rw [List.getElem?_eq_none (by omega), Option.bind_none]
      rw [List.foldlM_cons, e]
      rfl

omit [DecidableEq F] in
theorem rowSum_perm {cs cs' : List (Coeff F)} (h : cs.Perm cs') (full : List F) (first : Bool) (i : ℕ) :
    rowSum cs full first i = rowSum cs' full first i := ((h.filter _).map _).sum_eq

omit [DecidableEq F] in
theorem replicate_vec (n : ℕ) : List.replicate n (0 : F) = vec n fun _ => 0 := by
  rw [vec]; simp

/-- The vectors of the products of the rows. -/
theorem abValues_spec (o : Sched) {size : ℕ} {cs : List (Coeff F)} {full : List F}
    (h : ∀ c ∈ cs, c.constraint < size ∧ c.signal < full.length) :
    abValues o size cs full = some (vec size (rowSum cs full true), vec size (rowSum cs full false)) := by
  obtain ⟨cs', hp, e⟩ := abValues_perm o size cs full
  rw [e, replicate_vec, addCoeffs_spec _ _ _ fun c hc => h c (hp.mem_iff.1 hc)]
  simp only [zero_add, rowSum_perm hp]

theorem abValues_none (o : Sched) {size : ℕ} {cs : List (Coeff F)} {full : List F}
    (h : ∃ c ∈ cs, ¬ (c.constraint < size ∧ c.signal < full.length)) : abValues o size cs full = none := by
  obtain ⟨cs', hp, e⟩ := abValues_perm o size cs full
  obtain ⟨c, hc, hn⟩ := h
  rw [e, replicate_vec, addCoeffs_none _ _ _ ⟨c, hp.mem_iff.2 hc, hn⟩]

omit [DecidableEq F] in
theorem sum_cells {n : ℕ} (z : List F) : ∀ L : List (Coeff F), (∀ c ∈ L, c.signal < n) →
    (L.map fun c => c.value * z.getD c.signal 0).sum =
      ∑ j ∈ Finset.range n, z.getD j 0 * ((L.filter fun c => c.signal = j).map (·.value)).sum
  | [], _ => by simp
  | c :: L, h => by
    have hc := h c List.mem_cons_self
    have e : ∀ j, z.getD j 0 * (((c :: L).filter fun c => c.signal = j).map (·.value)).sum =
        (if c.signal = j then c.value * z.getD c.signal 0 else 0) +
          z.getD j 0 * ((L.filter fun c => c.signal = j).map (·.value)).sum := fun j => by
      rw [List.filter_cons]
      by_cases hj : c.signal = j
      · simp only [hj, decide_true, if_true, List.map_cons, List.sum_cons]; ring
      · simp only [hj, decide_false, if_false, zero_add]; rfl
    rw [List.map_cons, List.sum_cons, sum_cells z L fun c hc => h c (List.mem_cons_of_mem _ hc),
      Finset.sum_congr rfl fun j _ => e j, Finset.sum_add_distrib, Finset.sum_ite_eq, if_pos (Finset.mem_range.2 hc)]

omit [DecidableEq F] in
theorem Represents.sums {size : ℕ} {m : Matrices F} {cs : List (Coeff F)} (h : Represents size m cs) (hok : MatOk m)
    (z : List F) {i : ℕ} (hi : i < size) :
    rowSum cs z true i = valA m z i ∧ rowSum cs z false i = val m.b m.numCons z i := by
  have hs : ∀ first, rowSum cs z first i = ∑ j ∈ Finset.range (m.numInst + m.numWit), z.getD j 0 * cellOf cs first i j :=
    fun first => sum_cells z _ fun c hc => h.col c (List.mem_filter.1 hc).1
  rw [hs, hs, valA_eq_sum (n := m.numInst + m.numWit) (Nat.le_add_right _ _) z (fun r hr c hc => (hok.ca r hr c hc).2),
    val_eq_sum (n := m.numInst + m.numWit) z (fun r hr c hc => (hok.cb r hr c hc).2)]
  exact ⟨Finset.sum_congr rfl fun j hj => by rw [h.a i hi j (Finset.mem_range.1 hj)],
    Finset.sum_congr rfl fun j hj => by rw [h.b i hi j (Finset.mem_range.1 hj)]⟩

omit [DecidableEq F] in
theorem Interp.congr {d : Domain F} {v v' : ℕ → F} {p : F[X]} (h : Interp d v p) (e : ∀ i < d.size, v i = v' i) :
    Interp d v' p := ⟨h.degree, fun i hi => (h.eval i hi).trans (e i hi)⟩

/-! ### The transforms -/

omit [DecidableEq F] in
theorem dpoly_mapIdx (w : F) : ∀ (p : List F) (s x : F),
    (dpoly (p.mapIdx fun i v => v * (s * w ^ i))).eval x = s * (dpoly p).eval (w * x)
  | [], s, x => by simp [dpoly]
  | v :: p, s, x => by
    rw [List.mapIdx_cons, dpoly, dpoly]
    have : (fun (i : ℕ) (v : F) => v * (s * w ^ (i + 1))) = fun i v => v * (s * w * w ^ i) := by
      funext i v; ring
    rw [this]
    simp only [eval_add, eval_C, eval_mul, eval_X, dpoly_mapIdx w p, pow_zero]
    ring

/-- The values of the interpolant on the domain shifted by `w`. -/
theorem shiftEvals_spec {threads : ℕ} (o : Sched) {d : Domain F} (hd : d.Radix2) {item : Item F} (hi : item.For d)
    (ht : 0 < threads) (ht' : threads ≤ 2 ^ 63) (w : F) {v : ℕ → F} {P : F[X]} (hP : Interp d v P) :
    shiftEvals threads o d item w (vec d.size v) =
      some (if P = 0 then [] else vec d.size fun i => P.eval (w * (d.offset * d.gen ^ i))) := by
  obtain ⟨p, ip, cp, lp, vp⟩ := C38_ifft o hd hi (vec d.size v) ht ht'
  have hI : Interp d v (dpoly p) := ⟨degree_dpoly_lt lp, fun i hi => by
    rw [vp i hi, List.getD_eq_getElem?_getD, vec_get _ hi, Option.getD_some]⟩
  obtain rfl := hP.unique hd.1 hI
  rw [shiftEvals, ip, Option.bind_some, distribute_eq p w 1 ht ht' (lp.trans hd.1.le),
    C38_fft o hd hi _ (by rw [List.length_mapIdx]; exact lp) ht ht']
  refine congrArg some ?_
  by_cases h : p = []
  · subst h; simp [dpoly]
  · rw [if_neg (by simpa using h), if_neg fun e => h ((dpoly_eq_zero cp).1 e)]
    exact List.map_congr_left fun i _ => by rw [dpoly_mapIdx, one_mul]

theorem hEvals_spec {n : ℕ} {P Q R : F[X]} (hP : P ≠ 0) (x : ℕ → F) :
    hEvals n (if P = 0 then [] else vec n fun i => P.eval (x i)) (if Q = 0 then [] else vec n fun i => Q.eval (x i))
      (if R = 0 then [] else vec n fun i => R.eval (x i)) = some (vec n fun i => (P * Q - R).eval (x i)) := by
  rw [hEvals]
  refine mapM_some fun i hi => ?_
  have hi := List.mem_range.1 hi
  have hz : ∀ Q : F[X], (if Q = 0 then ([] : List F) else vec n fun i => Q.eval (x i)).getD i 0 = Q.eval (x i) := fun Q => by
    split
    · next h => simp [h]
    · rw [List.getD_eq_getElem?_getD, vec_get _ hi, Option.getD_some]
  rw [hz, hz, if_neg hP, vec_get _ hi, Option.map_some, eval_sub, eval_mul]

theorem hEvals_none {n : ℕ} (hn : 0 < n) (b c : List F) : hEvals n [] b c = none := by
  obtain ⟨n, rfl⟩ : ∃ k, n = k + 1 := ⟨n - 1, by omega⟩
  rw [hEvals, List.range_succ_eq_map, List.mapM_cons]
  rfl

/-! ### Roots of unity -/

omit [DecidableEq F] in
/-- The roots of unity whose orders are powers of two are powers of one of them. -/
theorem getRoot_pow {cfg : RootConfig F} (hc : cfg.Valid) : ∃ r : F, ∀ k ≤ 63, k ≤ cfg.twoAdicity →
    getRootOfUnity cfg (2 ^ k) = some (some (r ^ 2 ^ (cfg.twoAdicity - k))) := by
  cases hl : cfg.large with
  | none =>
    refine ⟨cfg.twoAdicRoot, fun k hk h => ?_⟩
    obtain ⟨i, h1, -, h2, h3, h4⟩ := log2Ceiling_ofNat (Nat.two_pow_pos k) (Nat.pow_le_pow_right (by norm_num) hk)
    obtain rfl : i = k := le_antisymm (h4 k le_rfl) ((Nat.pow_le_pow_iff_right (by norm_num)).1 h3)
    rw [getRootOfUnity, hl]
    simp only [h1]
    rw [if_neg (by omega), if_neg (by simp only [Int.toNat_natCast]; omega), Group.squareTimes_eq, Int.toNat_natCast]
  | some x =>
    obtain ⟨q, qa, root⟩ := x
    rw [RootConfig.Valid, hl] at hc
    obtain ⟨hq, hq1, hq64, -⟩ := hc
    refine ⟨powTimes q qa root, fun k _ h => ?_⟩
    rw [getRootOfUnity, hl]
    simp only [(decompose_spec hq hq1 (2 ^ k)).1 0 k (by simp)]
    rw [if_neg (by omega), Group.squareTimes_eq, Nat.sub_zero]

theorem create_pow {cfg : RootConfig F} (hc : cfg.Valid) {k : ℕ} (h62 : k ≤ 62) (hk : k + 1 ≤ cfg.twoAdicity) :
    ∃ d w, Domain.create cfg (2 ^ k) = some d ∧ d.Radix2 ∧ d.size = 2 ^ k ∧ d.offset = 1 ∧
      getRootOfUnity cfg (2 * 2 ^ k) = some (some w) ∧ IsPrimitiveRoot w (2 * 2 ^ k) ∧ d.gen = w ^ 2 := by
  obtain ⟨r, hr⟩ := getRoot_pow hc
  have h1 := hr k (by omega) (by omega)
  have h2 := hr (k + 1) (by omega) hk
  obtain ⟨w1, e1, p1⟩ := (getRootOfUnity_pow hc (show k ≤ 63 by omega)).1 (by omega)
  obtain ⟨w2, e2, p2⟩ := (getRootOfUnity_pow hc (show k + 1 ≤ 63 by omega)).1 hk
  obtain rfl := Option.some.inj (Option.some.inj (h1.symm.trans e1))
  obtain rfl := Option.some.inj (Option.some.inj (h2.symm.trans e2))
  obtain ⟨j, hj, b1, b2, b3, b4⟩ := bitCeil_spec (n := 2 ^ k) (Nat.pow_le_pow_right (by norm_num) (by omega))
  obtain rfl : j = k := le_antisymm (b4 k le_rfl) ((Nat.pow_le_pow_iff_right (by norm_num)).1 b3)
  obtain ⟨d, e, hv, hs, hl, hg, ho⟩ := Domain.new_spec (logSize := j) (Nat.two_pow_pos j)
    (Nat.pow_le_pow_right (by norm_num) hj) p1 h1
  rw [show 2 ^ (j + 1) = 2 * 2 ^ j by ring] at h2 p2
  refine ⟨d, _, by rw [Domain.create, b1]; simp only [b2, e], ⟨hv, by rw [hs, hl]⟩, hs, ho, h2, p2, ?_⟩
  rw [hg, ← pow_mul, ← pow_succ]
  congr 2
  omega

/-! ### The quotient in the Lagrange basis -/

omit [DecidableEq F] in
/-- A polynomial of degree below `2 * n` that vanishes at the even powers, from its values at the odd ones. -/
theorem eval_odd {w : F} {n : ℕ} (hw : IsPrimitiveRoot w (2 * n)) {P : F[X]} (hdeg : P.degree < (2 * n : ℕ))
    (h0 : ∀ i < n, P.eval (w ^ (2 * i)) = 0) (x : F) :
    ∑ i ∈ Finset.range n, P.eval (w ^ (2 * i + 1)) * (oddBasis w n i).eval x = P.eval x := by
  have hinj : Set.InjOn (fun j => w ^ j) (Finset.range (2 * n) : Finset ℕ) := fun a ha b hb e =>
    hw.pow_inj (by simpa using ha) (by simpa using hb) e
  have h := congrArg (eval x) (Lagrange.eq_interpolate hinj (by rwa [Finset.card_range]))
  rw [Lagrange.interpolate_apply, eval_finsetSum] at h
  simp only [eval_mul, eval_C] at h
  rw [h]
  have : ∀ (m : ℕ) (f : ℕ → F), ∑ j ∈ Finset.range (2 * m), f j =
      ∑ i ∈ Finset.range m, (f (2 * i) + f (2 * i + 1)) := fun m f => by
    induction m with
    | zero => simp
    | succ m ih => rw [show 2 * (m + 1) = 2 * m + 1 + 1 by ring, Finset.sum_range_succ, Finset.sum_range_succ, ih,
        Finset.sum_range_succ, add_assoc]
  rw [this]
  refine Finset.sum_congr rfl fun i hi => ?_
  rw [h0 i (Finset.mem_range.1 hi), zero_mul, zero_add]
  rfl

/-! ### The proof -/

theorem createProof_z (tw : Toxic F G1 G2) (ni nw : ℕ) (a b c q : ℕ → F) (r s : F) (h z : List F) :
    createProof (theZKey tw ni nw h.length a b c q).toNative r s h (z.drop ni) (z.drop 1) =
      createProof (theKey tw ni nw 2 a b c 0 1) r s [∑ i ∈ Finset.range h.length, h.getD i 0 * q i] (z.drop ni) (z.drop 1) := by
  have h1 : hAcc ((List.range h.length).map fun i => (q i / tw.delta) • tw.g1) h =
      some ((∑ i ∈ Finset.range h.length, h.getD i 0 * (q i / tw.delta)) • tw.g1) := by
    rw [hAcc, if_neg (by simp), List.take_of_length_le (by simp), msm_smul]
  have h2 : hAcc ((List.range (2 - 1)).map fun i => ((0 : F) ^ i * 1 / tw.delta) • tw.g1)
      [∑ i ∈ Finset.range h.length, h.getD i 0 * q i] =
      some ((∑ i ∈ Finset.range h.length, h.getD i 0 * (q i / tw.delta)) • tw.g1) := by
    rw [hAcc, if_neg (by simp), List.take_of_length_le (by simp), msm_smul' tw.g1 (by simp)]
    simp [Finset.sum_mul, div_eq_mul_inv, mul_assoc]
  rw [createProof, createProof]
  simp only [theZKey, ZProvingKey.toNative, theKey]
  rw [h1, h2]

/-- What the check of a proof says about the values and the vector `h`. -/
theorem check_z (e : G1 →ₗ[F] G2 →ₗ[F] GT) (tw : Toxic F G1 G2) (hg : tw.gamma ≠ 0) (hdl : tw.delta ≠ 0) {ni nw : ℕ}
    (hpos : 0 < ni) (a b c : ℕ → F[X]) (x : F) (q : ℕ → F) (r s : F) {h z : List F} (hz : z.length = ni + nw)
    (h1 : z[0]? = some 1) :
    ∃ proof v, createProof (theZKey tw ni nw h.length (fun j => (a j).eval x) (fun j => (b j).eval x)
        (fun j => (c j).eval x) q).toNative r s h (z.drop ni) (z.drop 1) = some proof ∧
      verify (fun u v => e u v) ((theZKey tw ni nw h.length (fun j => (a j).eval x) (fun j => (b j).eval x)
        (fun j => (c j).eval x) q).toNative.vk.prepare fun u v => e u v) proof ((z.take ni).drop 1) = some v ∧
      (v = true ↔ ((∑ j ∈ Finset.range (ni + nw), z.getD j 0 * (a j).eval x) *
        (∑ j ∈ Finset.range (ni + nw), z.getD j 0 * (b j).eval x) -
        (∑ j ∈ Finset.range (ni + nw), z.getD j 0 * (c j).eval x) -
        ∑ i ∈ Finset.range h.length, h.getD i 0 * q i) • e tw.g1 tw.g2 = 0) := by
  rw [createProof_z, createProof_eq tw (by norm_num) _ _ _ _ _ _ _ (by simp) hz h1]
  obtain ⟨v, v1, v2⟩ := C84_verify (cs := { ({} : CS F) with numInst := ni, numWit := nw }) (k := 0) (a := a) (b := b) (c := c)
    e tw (x := x) (z := z) (by rw [hz]; exact Nat.le_add_right _ _) h1 hpos
    (scalars tw ni nw 2 (fun j => (a j).eval x) (fun j => (b j).eval x) (fun j => (c j).eval x) 0 1 r s
      [∑ i ∈ Finset.range h.length, h.getD i 0 * q i] z).1
    (scalars tw ni nw 2 (fun j => (a j).eval x) (fun j => (b j).eval x) (fun j => (c j).eval x) 0 1 r s
      [∑ i ∈ Finset.range h.length, h.getD i 0 * q i] z).2.1
    (scalars tw ni nw 2 (fun j => (a j).eval x) (fun j => (b j).eval x) (fun j => (c j).eval x) 0 1 r s
      [∑ i ∈ Finset.range h.length, h.getD i 0 * q i] z).2.2
  refine ⟨_, v, rfl, v1, v2.trans ?_⟩
  show (_ - tw.gamma * (∑ j ∈ Finset.range ni, _) - _) • _ = 0 ↔ _
  rw [scalars_eq tw hg hdl]
  generalize ∑ i ∈ Finset.range h.length, h.getD i 0 * q i = S
  simp [dpoly]

end Tachyon.Circom
