import Verif.Proofs.TwoAdicFri
/-! The reduced openings of the prover and of the verifier of `TwoAdicFRI`. -/
namespace Tachyon.TwoAdicFri
open Polynomial Tachyon.Fri Tachyon.Parallel _root_.Tachyon.TwoAdicFri.Spec

variable {K Com Data Prf W S : Type} [Field K] [DecidableEq K]

/-- The number of quotients of a list of claims. -/
def width (l : List (K × List K × List K)) : ℕ := (l.map fun c => c.2.1.length).sum

omit [DecidableEq K] in
theorem combine_append (a x : K) (l l' : List (K × List K × List K)) :
    combine a x (l ++ l') = combine a x l + a ^ width l * combine a x l' := by
  induction l with
  | nil => simp [combine, width]
  | cons c l ih =>
    obtain ⟨z, row, ys⟩ := c
    rw [List.cons_append, combine, combine, ih]
    simp only [width, List.map_cons, List.sum_cons]
    ring

/-! ### The prover -/

omit [DecidableEq K] in
theorem addReduced_eq (o y : K) (as rs ds : List K) (h1 : as.length ≤ rs.length) (h2 : as.length ≤ ds.length) :
    addReduced o y as rs ds = some ((List.range as.length).map fun i =>
      as.getD i 0 + o * (rs.getD i 0 - y) * ds.getD i 0) := by
  induction as generalizing rs ds with
  | nil => rfl
  | cons a as ih =>
    cases rs with
    | nil => simp at h1
    | cons r rs =>
      cases ds with
      | nil => simp at h2
      | cons d ds =>
        rw [addReduced, ih rs ds (by simpa using h1) (by simpa using h2), Option.map_some, Option.some.injEq,
          List.length_cons, List.range_succ_eq_map, List.map_cons, List.map_map]
        simp

/-- The claims about one matrix, at the point `x`. -/
def matClaims (m : Mat K) (x : K) : List (K × List K × List K) :=
  m.points.map fun z => (z, evalAll m.polys x, evalAll m.polys z)

omit [DecidableEq K] in
theorem width_matClaims (m : Mat K) (x : K) : width (matClaims m x) = m.points.length * m.polys.length := by
  simp [width, matClaims, evalAll, Function.comp_def]

/-- The loop over the points of a matrix. -/
theorem openPoints_eq {env : Env K} {g a : K} {inv : List (K × List K)} {blk : List (List K)} {ps : List K[X]}
    (hps : ps ≠ []) {k : ℕ} (x : ℕ → K) (zs : List K)
    (hint : ∀ z ∈ zs, interpolateCoset env blk g z = some (evalAll ps z))
    (hinv : ∀ z ∈ zs, 2 ^ k ≤ (denomOf z inv).length ∧ ∀ i < 2 ^ k, (denomOf z inv).getD i 0 = (x i - z)⁻¹)
    (f : ℕ → K) (num : ℕ) (hnum : num + zs.length * ps.length < 2 ^ 64) :
    openPoints env g a inv blk ((List.range (2 ^ k)).map fun i => dot a (evalAll ps (x i))) zs
        ((List.range (2 ^ k)).map f) num =
      some (((List.range (2 ^ k)).map fun i => f i + a ^ num *
        combine a (x i) (zs.map fun z => (z, evalAll ps (x i), evalAll ps z)), num + zs.length * ps.length),
        zs.map (evalAll ps)) := by
  induction zs generalizing f num with
  | nil => simp [openPoints, combine]
  | cons z zs ih =>
    obtain ⟨d1, d2⟩ := hinv z (by simp)
    have hlen : (evalAll ps z).length = ps.length := by simp [evalAll]
    have hne : evalAll ps z ≠ [] := by
      intro h0; rw [h0] at hlen; exact hps (List.length_eq_zero_iff.1 hlen.symm)
    have hnum' : num + ps.length + zs.length * ps.length < 2 ^ 64 := by
      rw [List.length_cons, Nat.succ_mul] at hnum; omega
    rw [openPoints, hint z (by simp), Option.bind_some, if_neg hne,
      addReduced_eq _ _ _ _ _ (by simp) (by simpa using d1), Option.bind_some, hlen,
      Group.powSize_eq _ (by omega), dotPowers_eq, List.length_map, List.length_range]
    have hred : ((List.range (2 ^ k)).map fun i => ((List.range (2 ^ k)).map f).getD i 0 + a ^ num *
        (((List.range (2 ^ k)).map fun i => dot a (evalAll ps (x i))).getD i 0 -
          (0 + 1 * dot a (evalAll ps z))) * (denomOf z inv).getD i 0) =
        (List.range (2 ^ k)).map fun i => f i + a ^ num *
          ((dot a (evalAll ps (x i)) - dot a (evalAll ps z)) / (x i - z)) := by
      refine List.map_congr_left fun i hi => ?_
      rw [List.mem_range] at hi
      rw [d2 i hi, List.getD_eq_getElem _ _ (by simpa using hi), List.getD_eq_getElem _ _ (by simpa using hi)]
      simp only [List.getElem_map, List.getElem_range]
      ring
    rw [hred, ih (fun z hz => hint z (by simp [hz])) (fun z hz => hinv z (by simp [hz])) _ _ hnum',
      Option.map_some, Option.some.injEq]
    simp only [Prod.mk.injEq, List.map_cons, and_true]
    refine ⟨List.map_congr_left fun i _ => ?_, by rw [List.length_cons, Nat.succ_mul]; omega⟩
    rw [combine]
    simp only [evalAll, List.length_map]
    ring

omit [DecidableEq K] in
theorem numCols_append (h : ℕ) (ms ms' : List (Mat K)) :
    numCols h (ms ++ ms') = numCols h ms + numCols h ms' := by
  simp [numCols]

omit [DecidableEq K] in
theorem width_claimsAt (h : ℕ) (ms : List (Mat K)) (x : K) : width (claimsAt h ms x) = numCols h ms := by
  rw [claimsAt, numCols]
  induction ms.filter fun m => m.log = h with
  | nil => rfl
  | cons m ms ih =>
    rw [List.flatMap_cons, List.map_cons, List.sum_cons, ← ih, ← width_matClaims m x]
    simp [width, matClaims]

/-- The value at place `i` of the reduced openings of height `h`. -/
def redAt (A : ℕ) (W' g a : K) (ms : List (Mat K)) (h i : ℕ) : K :=
  combine a (place A W' g h i) (claimsAt h ms (place A W' g h i))

/-- There is a matrix of this height. -/
def HasHeight (ms : List (Mat K)) (h : ℕ) : Bool := ms.any fun m => m.log = h

/-- The state of the prover after the matrices `ms`. -/
def stateOf (A : ℕ) (W' g a : K) (ms : List (Mat K)) : Reduced K :=
  ⟨(List.range 32).map fun h => if HasHeight ms h then Fri.Spec.vec h (redAt A W' g a ms h) else [],
    (List.range 32).map fun h => numCols h ms⟩

omit [DecidableEq K] in
theorem stateOf_nil (A : ℕ) (W' g a : K) : stateOf A W' g a [] = Reduced.init := by
  simp [stateOf, Reduced.init, HasHeight, numCols]

theorem set_map_range {α : Type} (n : ℕ) (f : ℕ → α) (k : ℕ) (v : α) :
    ((List.range n).map f).set k v = (List.range n).map fun i => if i = k then v else f i := by
  apply List.ext_getElem
  · simp
  · intro i h1 h2
    rw [List.getElem_set]
    simp only [List.getElem_map, List.getElem_range]
    by_cases h : k = i
    · rw [if_pos h, if_pos h.symm]
    · rw [if_neg h, if_neg fun e => h e.symm]

omit [DecidableEq K] in
theorem Spec.Mat.Ok.out_le {A b : ℕ} {g : K} {m : Mat K} (h : m.Ok A b g) {z : K} (hz : z ∈ m.points) {k : ℕ}
    (hk : k ≤ A) : z ^ 2 ^ k ≠ g ^ 2 ^ k := by
  intro e
  apply h.out z hz
  rw [show A = k + (A - k) by omega, pow_add, pow_mul, pow_mul, e]

omit [DecidableEq K] in
/-- The block that is interpolated consists of the values on the smaller coset, in natural order. -/
theorem block_eq {A : ℕ} {W' g : K} {cfg : Config} {m : Mat K} (hm : m.Ok A cfg.logBlowup g) :
    block cfg (m.rows A W' g) m.log = some ((List.range (2 ^ (m.log - cfg.logBlowup))).map fun r =>
      evalAll m.polys (g * (W' ^ 2 ^ (A - (m.log - cfg.logBlowup))) ^ r)) := by
  have hb := hm.blowup
  have hA := hm.le
  have h31 := hm.le31
  have hlen : (m.rows A W' g).length = 2 ^ m.log := by simp [Mat.rows]
  obtain ⟨k, hk⟩ : ∃ k, m.log = k + cfg.logBlowup := ⟨m.log - cfg.logBlowup, by omega⟩
  rw [block, hlen, hk, pow_add, Nat.mul_div_cancel _ (Nat.two_pow_pos _), Nat.add_sub_cancel]
  refine mapM_map_some _ _ _ fun r hr => ?_
  rw [List.mem_range] at hr
  obtain ⟨v, e1, e2⟩ := FFT.reverseBitsLen_rv (k := k) (by omega) (by omega) hr
  have hlt : FFT.rv k r < 2 ^ m.log := (FFT.rv_lt k r).trans_le (Nat.pow_le_pow_right (by omega) (by omega))
  rw [e1, Option.bind_some, e2, Mat.rows, List.getElem?_map, List.getElem?_range hlt, Option.map_some]
  rw [place, place_prefix W' g (by omega) hA (FFT.rv_lt k r), place, FFT.rv_rv hr]

/-- One matrix. -/
theorem openMatrix_eq {p : Pcs K Com Data Prf} {A : ℕ} {W' : K} (h : p.env.Good A W') (hl : 0 < p.lanes)
    (hg : p.gen ≠ 0) (a : K) {inv : List (K × List K)} {m : Mat K} (hm : m.Ok A p.cfg.logBlowup p.gen)
    (hinv : ∀ z ∈ m.points, 2 ^ m.log ≤ (denomOf z inv).length ∧
        ∀ i < 2 ^ m.log, (denomOf z inv).getD i 0 = (place A W' p.gen m.log i - z)⁻¹)
    (ms : List (Mat K)) (hn : numCols m.log (ms ++ [m]) < 2 ^ 64) :
    openMatrix p a inv (m.rows A W' p.gen) m.points (stateOf A W' p.gen a ms) =
      some (stateOf A W' p.gen a (ms ++ [m]), m.values) := by
  have h31 := hm.le31
  have hle := h.le
  have hA := hm.le
  have hpos := Nat.two_pow_pos m.log
  have hlen : (m.rows A W' p.gen).length = 2 ^ m.log := by simp [Mat.rows]
  have hn1 : numCols m.log [m] = m.points.length * m.polys.length := by simp [numCols]
  have hcl : ∀ h x, claimsAt h (ms ++ [m]) x = claimsAt h ms x ++ if m.log = h then matClaims m x else [] := by
    intro h x
    rw [claimsAt, List.filter_append, List.flatMap_append, ← claimsAt]
    congr 1
    by_cases e : m.log = h <;> simp [e, matClaims]
  have hred : (if (if HasHeight ms m.log then Fri.Spec.vec m.log (redAt A W' p.gen a ms m.log) else []) = []
      then List.replicate (2 ^ m.log) 0
      else if HasHeight ms m.log then Fri.Spec.vec m.log (redAt A W' p.gen a ms m.log) else []) =
      (List.range (2 ^ m.log)).map (redAt A W' p.gen a ms m.log) := by
    by_cases hh : HasHeight ms m.log
    · have : Fri.Spec.vec m.log (redAt A W' p.gen a ms m.log) ≠ [] := by
        intro e
        have := congrArg List.length e
        simp [Fri.Spec.vec] at this
      rw [if_pos hh, if_neg this]; rfl
    · rw [if_neg hh, if_pos rfl]
      have : ms.filter (fun m' => m'.log = m.log) = [] := by
        rw [List.filter_eq_nil_iff]
        intro m' hm'
        rw [HasHeight, List.any_eq_true] at hh
        exact fun e => hh ⟨m', hm', e⟩
      have hz : redAt A W' p.gen a ms m.log = fun _ => 0 := by
        funext i; rw [redAt, claimsAt, this]; rfl
      rw [hz]; simp
  rw [openMatrix, hlen, checkedLog2_pow (by omega), Option.bind_some]
  have e1 : (stateOf A W' p.gen a ms).openings[m.log]? = some (if HasHeight ms m.log then
      Fri.Spec.vec m.log (redAt A W' p.gen a ms m.log) else []) := by
    rw [stateOf, List.getElem?_map, List.getElem?_range (by omega), Option.map_some]
  have e2 : (stateOf A W' p.gen a ms).nums[m.log]? = some (numCols m.log ms) := by
    rw [stateOf, List.getElem?_map, List.getElem?_range (by omega), Option.map_some]
  rw [e1, e2, Option.bind_some, Option.bind_some]
  dsimp only
  rw [hred, List.length_map, List.length_range, if_neg (by simp), block_eq hm, Option.bind_some,
    dotExtPowers_eq (c := m.polys.length) hl a (List.length_pos_iff.2 hm.polys)
      (by intro e; rw [e] at hlen; simp at hlen; omega)
      (by intro r hr; simp only [Mat.rows, List.mem_map] at hr; obtain ⟨i, -, rfl⟩ := hr; simp [evalAll]),
    Option.bind_some, Mat.rows, List.map_map]
  have hop := openPoints_eq (env := p.env) (g := p.gen) (a := a) (inv := inv) hm.polys (k := m.log)
    (fun i => place A W' p.gen m.log i) m.points
    (fun z hz => interpolateCoset_eq h (by omega) hg (hm.out_le hz (by omega)) hm.deg) hinv
    (redAt A W' p.gen a ms m.log) (numCols m.log ms) (by rw [numCols_append, hn1] at hn; exact hn)
  refine (congrArg _ hop).trans ?_
  rw [Option.map_some, Option.some.injEq, Prod.mk.injEq]
  refine ⟨?_, rfl⟩
  have hh : ∀ h, HasHeight (ms ++ [m]) h = (HasHeight ms h || decide (m.log = h)) := by
    intro h; simp [HasHeight]
  unfold stateOf
  dsimp only
  rw [set_map_range, set_map_range]
  congr 1
  · refine List.map_congr_left fun h' _ => ?_
    by_cases e : h' = m.log
    · subst e
      rw [if_pos rfl, hh, decide_eq_true rfl, Bool.or_true, if_pos rfl, Fri.Spec.vec]
      refine List.map_congr_left fun i _ => ?_
      rw [redAt, redAt, hcl, if_pos rfl, combine_append, width_claimsAt]
      rfl
    · have e' : ¬ m.log = h' := fun h => e h.symm
      rw [if_neg e, hh, decide_eq_false e', Bool.or_false]
      have : redAt A W' p.gen a (ms ++ [m]) h' = redAt A W' p.gen a ms h' := by
        funext i; rw [redAt, redAt, hcl, if_neg e', List.append_nil]
      rw [this]
  · refine List.map_congr_left fun h' _ => ?_
    rw [numCols_append]
    by_cases e : h' = m.log
    · subst e; rw [if_pos rfl, hn1]
    · have e' : ¬ m.log = h' := fun h => e h.symm
      rw [if_neg e]; simp [numCols, e']

/-- What the loops need to know about the inverses. -/
def GoodInv (A : ℕ) (W' g : K) (inv : List (K × List K)) (ms : List (Mat K)) : Prop :=
  ∀ m ∈ ms, ∀ z ∈ m.points, 2 ^ m.log ≤ (denomOf z inv).length ∧
    ∀ i < 2 ^ m.log, (denomOf z inv).getD i 0 = (place A W' g m.log i - z)⁻¹

/-- The matrices of a round. -/
theorem openRound_eq {p : Pcs K Com Data Prf} {A : ℕ} {W' : K} (h : p.env.Good A W') (hl : 0 < p.lanes)
    (hg : p.gen ≠ 0) (a : K) {inv : List (K × List K)} (ms : List (Mat K))
    (hm : ∀ m ∈ ms, m.Ok A p.cfg.logBlowup p.gen) (hinv : GoodInv A W' p.gen inv ms) (pre : List (Mat K))
    (hn : ∀ h, numCols h (pre ++ ms) < 2 ^ 64) :
    openRound p a inv (ms.map fun m => (m.rows A W' p.gen, m.points)) (stateOf A W' p.gen a pre) =
      some (stateOf A W' p.gen a (pre ++ ms), ms.map Mat.values) := by
  induction ms generalizing pre with
  | nil => rw [List.append_nil]; rfl
  | cons m ms ih =>
    have e : pre ++ m :: ms = (pre ++ [m]) ++ ms := by simp
    rw [e] at hn ⊢
    rw [List.map_cons, openRound, openMatrix_eq h hl hg a (hm m (by simp)) (hinv m (by simp)) pre
      (by have := hn m.log; rw [numCols_append] at this; omega), Option.bind_some,
      ih (fun m hm' => hm m (by simp [hm'])) (fun m hm' => hinv m (by simp [hm'])) _ hn]
    rfl

/-- The rounds. -/
theorem openRounds_eq {p : Pcs K Com Data Prf} {A : ℕ} {W' : K} (h : p.env.Good A W') (hl : 0 < p.lanes)
    (hg : p.gen ≠ 0) (a : K) {inv : List (K × List K)} (rs : List (List (Mat K)))
    (hm : ∀ m ∈ rs.flatten, m.Ok A p.cfg.logBlowup p.gen) (hinv : GoodInv A W' p.gen inv rs.flatten)
    (pre : List (Mat K)) (hn : ∀ h, numCols h (pre ++ rs.flatten) < 2 ^ 64) :
    openRounds p a inv (rs.map fun ms => ms.map fun m => (m.rows A W' p.gen, m.points))
        (stateOf A W' p.gen a pre) =
      some (stateOf A W' p.gen a (pre ++ rs.flatten), rs.map fun ms => ms.map Mat.values) := by
  induction rs generalizing pre with
  | nil => rw [List.flatten_nil, List.append_nil]; rfl
  | cons ms rs ih =>
    rw [List.flatten_cons] at hm hinv hn ⊢
    rw [← List.append_assoc] at hn ⊢
    rw [List.map_cons, openRounds, openRound_eq h hl hg a ms (fun m hm' => hm m (by simp [hm']))
      (fun m hm' => hinv m (by simp [hm'])) pre
      (fun h => by have := hn h; rw [numCols_append] at this; omega), Option.bind_some,
      ih (fun m hm' => hm m (List.mem_append_right _ hm')) (fun m hm' => hinv m (List.mem_append_right _ hm'))
        _ hn]
    rfl

end Tachyon.TwoAdicFri
