import Verif.Proofs.Groth16Circuit
import Verif.Props.Kzg
/-! Proofs for Groth16: keys and proofs as multiples of the generators. -/
namespace Tachyon.Groth16
open Polynomial Tachyon.R1cs Tachyon.FFT Tachyon.Props Tachyon.Kzg Tachyon.Poly Tachyon.Group

variable {F G1 G2 GT : Type} [Field F] [DecidableEq F] [AddCommGroup G1] [Module F G1] [AddCommGroup G2] [Module F G2]
  [AddCommGroup GT] [Module F GT] [DecidableEq GT]

/-! ### Multi-scalar multiplications of multiples of one point -/

omit [DecidableEq F] [AddCommGroup G2] [Module F G2] in
theorem msm_smul (g : G1) : ∀ (z : List F) (f : ℕ → F),
    msm ((List.range z.length).map fun j => f j • g) z =
      some ((∑ j ∈ Finset.range z.length, z.getD j 0 * f j) • g) := by
  intro z
  induction z with
  | nil => intro f; simp [msm]
  | cons a z ih =>
    intro f
    have h := ih fun j => f (j + 1)
    rw [msm, if_neg (by simp)] at h ⊢
    rw [List.length_cons, List.range_succ_eq_map, List.map_cons, List.map_map, List.zipWith_cons_cons, List.sum_cons,
      Finset.sum_range_succ']
    have h := Option.some.inj h
    rw [show ((fun j => f j • g) ∘ Nat.succ) = fun j => f (j + 1) • g from rfl, h, ← mul_smul, ← add_smul, add_comm]
    simp

omit [DecidableEq F] in
theorem msm_smul' (g : G1) {n : ℕ} {z : List F} (hz : z.length = n) (f : ℕ → F) :
    msm ((List.range n).map fun j => f j • g) z = some ((∑ j ∈ Finset.range n, z.getD j 0 * f j) • g) := by
  subst hz; exact msm_smul g z f

omit [DecidableEq F] in
theorem calculateCoeff_smul (g : G1) {n : ℕ} {z : List F} (hz : z.length = n) (h1 : z[0]? = some 1) (f : ℕ → F) (i v : F) :
    calculateCoeff (i • g) ((List.range n).map fun j => f j • g) (v • g) (z.drop 1) =
      some ((v + ∑ j ∈ Finset.range n, z.getD j 0 * f j + i) • g) := by
  cases z with
  | nil => simp at h1
  | cons a z =>
    obtain rfl : a = 1 := by simpa using h1
    rw [List.length_cons] at hz
    subst hz
    rw [List.range_succ_eq_map, List.map_cons, List.map_map, calculateCoeff, List.drop_one, List.tail_cons,
      show ((fun j => f j • g) ∘ Nat.succ) = fun j => f (j + 1) • g from rfl, msm_smul, Option.map_some,
      Finset.sum_range_succ', ← add_smul, ← add_smul, ← add_smul]
    congr 2
    simp only [List.getD_cons_succ, List.getD_cons_zero]
    ring

omit [DecidableEq F] in
theorem eval_take (h : List F) (n : ℕ) (x : F) :
    ∑ i ∈ Finset.range (min n h.length), h.getD i 0 * x ^ i = (dpoly (h.take n)).eval x := by
  induction h generalizing n with
  | nil => simp [dpoly]
  | cons a h ih =>
    cases n with
    | zero => simp [dpoly]
    | succ n =>
      rw [List.take_succ_cons, dpoly, eval_add, eval_C, eval_mul, eval_X, ← ih, List.length_cons,
        Nat.add_min_add_right, Finset.sum_range_succ', Finset.mul_sum, add_comm]
      simp only [List.getD_cons_succ, List.getD_cons_zero, pow_zero, mul_one, pow_succ]
      congr 1
      exact Finset.sum_congr rfl fun i _ => by ring

omit [DecidableEq F] in
theorem hAcc_smul (g : G1) {size : ℕ} (hs : 0 < size) {h : List F} (hh : h.length ≤ size) (x t dl : F) :
    hAcc ((List.range (size - 1)).map fun i => (x ^ i * t / dl) • g) h =
      some (((dpoly (h.take (size - 1))).eval x * t / dl) • g) := by
  have hsum : ∀ n, ∑ i ∈ Finset.range n, h.getD i 0 * (x ^ i * t / dl) =
      (∑ i ∈ Finset.range n, h.getD i 0 * x ^ i) * t / dl := fun n => by
    rw [Finset.sum_mul, Finset.sum_div]
    exact Finset.sum_congr rfl fun i _ => by ring
  rw [hAcc, List.length_map, List.length_range]
  split
  · next hlt =>
    have e : h.length - 1 = size - 1 := by omega
    rw [msm_smul' g (by rw [List.length_take]; omega), ← eval_take, Nat.min_eq_left (by omega), ← hsum]
    congr 2
    refine Finset.sum_congr rfl fun i hi => ?_
    rw [Finset.mem_range] at hi
    rw [List.getD_eq_getElem?_getD, List.getD_eq_getElem?_getD, List.getElem?_take_of_lt (by omega)]
  · next hlt =>
    rw [← List.map_take, List.take_range, Nat.min_eq_left (by omega), msm_smul g h, ← eval_take,
      Nat.min_eq_right (by omega), ← hsum]

/-! ### Keys -/

omit [DecidableEq F] [AddCommGroup G1] [Module F G1] [AddCommGroup G2] [Module F G2] in
theorem abcRange_eq {tw : Toxic F G1 G2} {inv : F} {q : QapInstance F} {start n : ℕ} {a b c : ℕ → F}
    (ha : ∀ i < n, q.a[start + i]? = some (a (start + i))) (hb : ∀ i < n, q.b[start + i]? = some (b (start + i)))
    (hc : ∀ i < n, q.c[start + i]? = some (c (start + i))) :
    abcRange tw inv q start n = some ((List.range n).map fun i =>
      (tw.beta * a (start + i) + tw.alpha * b (start + i) + c (start + i)) * inv) := by
  rw [abcRange]
  refine Poly.mapM_some fun i hi => ?_
  have hi := List.mem_range.1 hi
  rw [ha i hi, hb i hi, hc i hi]
  rfl

omit [DecidableEq F] in
theorem loadProvingWith_eq {threads : ℕ} (ht : 0 < threads) (ht' : threads ≤ 2 ^ 63) {tw : Toxic F G1 G2} {r : PreLoad F}
    (hd : r.domain.size ≤ 2 ^ 63) {ni nw : ℕ} {a b c : ℕ → F} (hni : r.qap.numInst = ni) (hnw : r.qap.numWit = nw)
    (ha : r.qap.a = vec (ni + nw) a) (hb : r.qap.b = vec (ni + nw) b) (hc : r.qap.c = vec (ni + nw) c) :
    loadVerifyingWith tw r tw.gamma⁻¹ = some (theKey tw ni nw r.domain.size a b c r.x r.qap.tx).vk ∧
    loadProvingWith threads tw r tw.gamma⁻¹ tw.delta⁻¹ = some (theKey tw ni nw r.domain.size a b c r.x r.qap.tx) := by
  have e1 := abcRange_eq (tw := tw) (inv := tw.gamma⁻¹) (q := r.qap) (start := 0) (n := ni) (a := a) (b := b) (c := c)
    (fun i hi => by rw [ha, vec_get _ (by omega)]) (fun i hi => by rw [hb, vec_get _ (by omega)])
    (fun i hi => by rw [hc, vec_get _ (by omega)])
  have e2 := abcRange_eq (tw := tw) (inv := tw.delta⁻¹) (q := r.qap) (start := ni) (n := nw) (a := a) (b := b) (c := c)
    (fun i hi => by rw [ha, vec_get _ (by omega)]) (fun i hi => by rw [hb, vec_get _ (by omega)])
    (fun i hi => by rw [hc, vec_get _ (by omega)])
  have hv : loadVerifyingWith tw r tw.gamma⁻¹ = some (theKey tw ni nw r.domain.size a b c r.x r.qap.tx).vk := by
    rw [loadVerifyingWith, hni, e1, Option.bind_some, mapScalars, if_neg (by simp), Option.map_some, List.map_map]
    simp only [theKey, zero_add, div_eq_mul_inv]
    rfl
  refine ⟨hv, ?_⟩
  rw [loadProvingWith, hv, Option.bind_some, hni, hnw, e2, Option.bind_some]
  simp only [mapScalars, ne_eq, not_true_eq_false, if_false, Option.bind_some, Option.map_some]
  rw [computeHQuery_spec r.domain hd _ _ _ ht ht', ha, hb, vec, vec, vec, List.map_map, List.map_map, List.map_map, List.map_map,
    List.map_map]
  simp only [theKey, div_eq_mul_inv]
  rfl

/-! ### Proofs -/

/-- The scalars of an honest proof. -/
def scalars (tw : Toxic F G1 G2) (ni nw size : ℕ) (a b c : ℕ → F) (x t : F) (r s : F) (h z : List F) : F × F × F :=
  let az := ∑ j ∈ Finset.range (ni + nw), z.getD j 0 * a j
  let bz := ∑ j ∈ Finset.range (ni + nw), z.getD j 0 * b j
  let wz := ∑ j ∈ Finset.range nw, (z.drop ni).getD j 0 *
    ((tw.beta * a (ni + j) + tw.alpha * b (ni + j) + c (ni + j)) / tw.delta)
  let hx := ∑ i ∈ Finset.range (min (size - 1) h.length), h.getD i 0 * x ^ i
  let A := tw.alpha + az + r * tw.delta
  let B := tw.beta + bz + s * tw.delta
  (A, B, s * A + r * B - s * r * tw.delta + wz + hx * t / tw.delta)

theorem createProof_eq (tw : Toxic F G1 G2) {ni nw size : ℕ} (hs : 0 < size) (a b c : ℕ → F) (x t r s : F) {h z : List F}
    (hh : h.length ≤ size) (hz : z.length = ni + nw) (h1 : z[0]? = some 1) :
    createProof (theKey tw ni nw size a b c x t) r s h (z.drop ni) (z.drop 1) =
      some ⟨(scalars tw ni nw size a b c x t r s h z).1 • tw.g1, (scalars tw ni nw size a b c x t r s h z).2.1 • tw.g2,
        (scalars tw ni nw size a b c x t r s h z).2.2 • tw.g1⟩ := by
  rw [createProof]
  simp only [theKey]
  rw [msm_smul' tw.g1 (by rw [List.length_drop]; omega), Option.bind_some, hAcc_smul tw.g1 hs hh, Option.bind_some,
    smul_smul, smul_smul, calculateCoeff_smul tw.g1 hz h1, Option.bind_some, calculateCoeff_smul tw.g2 hz h1,
    Option.bind_some]
  simp only [scalars, eval_take]
  split
  · rw [smul_smul s tw.delta tw.g1, calculateCoeff_smul tw.g1 hz h1, Option.map_some, Option.map_some]
    congr 2
    module
  · next hr =>
    have hr : r = 0 := by simpa using hr
    subst hr
    rw [Option.map_some]
    congr 2
    module

omit [DecidableEq F] [AddCommGroup G1] [Module F G1] [AddCommGroup G2] [Module F G2] in
/-- The equation that an honest proof satisfies, in terms of the scalars. -/
theorem scalars_eq (tw : Toxic F G1 G2) (hg : tw.gamma ≠ 0) (hdl : tw.delta ≠ 0) {ni nw size : ℕ} (a b c : ℕ → F)
    (x t r s : F) (h z : List F) :
    (scalars tw ni nw size a b c x t r s h z).1 * (scalars tw ni nw size a b c x t r s h z).2.1 - tw.alpha * tw.beta -
      tw.gamma * (∑ j ∈ Finset.range ni, z.getD j 0 * ((tw.beta * a j + tw.alpha * b j + c j) / tw.gamma)) -
      tw.delta * (scalars tw ni nw size a b c x t r s h z).2.2 =
    (∑ j ∈ Finset.range (ni + nw), z.getD j 0 * a j) * (∑ j ∈ Finset.range (ni + nw), z.getD j 0 * b j) -
      (∑ j ∈ Finset.range (ni + nw), z.getD j 0 * c j) - (dpoly (h.take (size - 1))).eval x * t := by
  have e1 : tw.gamma * (∑ j ∈ Finset.range ni, z.getD j 0 * ((tw.beta * a j + tw.alpha * b j + c j) / tw.gamma)) =
      tw.beta * (∑ j ∈ Finset.range ni, z.getD j 0 * a j) + tw.alpha * (∑ j ∈ Finset.range ni, z.getD j 0 * b j) +
        ∑ j ∈ Finset.range ni, z.getD j 0 * c j := by
    rw [Finset.mul_sum, Finset.mul_sum, Finset.mul_sum, ← Finset.sum_add_distrib, ← Finset.sum_add_distrib]
    refine Finset.sum_congr rfl fun j _ => ?_
    field_simp
  have e2 : tw.delta * (∑ j ∈ Finset.range nw, (z.drop ni).getD j 0 *
        ((tw.beta * a (ni + j) + tw.alpha * b (ni + j) + c (ni + j)) / tw.delta)) =
      tw.beta * (∑ j ∈ Finset.range nw, z.getD (ni + j) 0 * a (ni + j)) +
        tw.alpha * (∑ j ∈ Finset.range nw, z.getD (ni + j) 0 * b (ni + j)) +
        ∑ j ∈ Finset.range nw, z.getD (ni + j) 0 * c (ni + j) := by
    rw [Finset.mul_sum, Finset.mul_sum, Finset.mul_sum, ← Finset.sum_add_distrib, ← Finset.sum_add_distrib]
    refine Finset.sum_congr rfl fun j _ => ?_
    rw [List.getD_eq_getElem?_getD, List.getElem?_drop, ← List.getD_eq_getElem?_getD]
    field_simp
  have e3 : ∀ y : F, tw.delta * (y * t / tw.delta) = y * t := fun y => by field_simp
  simp only [scalars, eval_take, Finset.sum_range_add]
  linear_combination -e1 - e2 - e3 (eval x (dpoly (h.take (size - 1))))

end Tachyon.Groth16
