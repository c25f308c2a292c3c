import Verif.Proofs.Vanishing
import Verif.Spec.F97
/-! C87: the quotient polynomial of the plonk prover, its pieces, and the value that the verifier expects. -/
namespace Tachyon.Props
open Tachyon.FFT Tachyon.Group Tachyon.Parallel Tachyon.Poly Tachyon.Vanishing Polynomial

variable {F : Type*} [Field F] [DecidableEq F]

omit [DecidableEq F] in
/-- C87: `GetHalo2Zeta` gives a primitive cube root of unity when three divides the trace, and fails otherwise; the roots
of the two vendors are inverse to each other. -/
theorem C87_zeta (cfg : ZetaConfig F) (h0 : 0 < cfg.trace)
    (hg : IsPrimitiveRoot cfg.generator (cfg.trace * 2 ^ cfg.twoAdicity)) :
    (3 ∣ cfg.trace → ∃ z z', halo2Zeta cfg true = some z ∧ halo2Zeta cfg false = some z' ∧ IsPrimitiveRoot z 3 ∧
      IsPrimitiveRoot z' 3 ∧ z * z' = 1) ∧
    (¬ 3 ∣ cfg.trace → ∀ scroll, halo2Zeta cfg scroll = none) := by
  constructor
  · rintro ⟨t, ht⟩
    have hz : IsPrimitiveRoot (cfg.generator ^ (cfg.trace * 2 ^ cfg.twoAdicity / 3)) 3 := by
      have e : cfg.trace * 2 ^ cfg.twoAdicity = (t * 2 ^ cfg.twoAdicity) * 3 := by rw [ht]; ring
      rw [e, Nat.mul_div_cancel _ (by norm_num)]
      rw [e] at hg
      exact hg.pow (by have : 0 < t := by omega
                       positivity) rfl
    have e : zeta cfg = some (cfg.generator ^ (cfg.trace * 2 ^ cfg.twoAdicity / 3)) := by
      rw [zeta, if_neg (by omega)]
    refine ⟨_, _, by rw [halo2Zeta, e]; rfl, by rw [halo2Zeta, e]; rfl, hz, cube_sq hz, ?_⟩
    rw [← hz.pow_eq_one]; ring
  · intro h scroll
    rw [halo2Zeta, zeta, if_pos (by omega)]; rfl

omit [DecidableEq F] in
/-- C87: the vanishing polynomial has no root on the coset, so that nothing is divided by zero. -/
theorem C87_denominators {z : F} (hz : IsPrimitiveRoot z 3) {ext : Domain F} (hext : ext.Radix2) (k i : ℕ) :
    (z * ext.gen ^ i) ^ 2 ^ k - 1 ≠ 0 :=
  sub_ne_zero.2 (coset_ne hz (by rw [← hext.2]; exact hext.1.prim.pow_eq_one))

/-- C87: `CoeffToExtended` gives the values at `ζ·w^i`; like `FFT` it gives no values for the zero polynomial. -/
theorem C87_extended {threads : ℕ} (o : Sched) {ext : Domain F} (hext : ext.Radix2) (h1 : ext.offset = 1)
    {item : Item F} (hi : item.For ext) {z : F} (hz : IsPrimitiveRoot z 3) (p : List F) (hp : p.length ≤ ext.size)
    (ht : 0 < threads) (ht' : threads ≤ 2 ^ 63) :
    coeffToExtended threads o ext item z p = some (if p = [] then []
      else (List.range ext.size).map fun i => (dpoly p).eval (z * ext.gen ^ i)) := by
  have hl : (distributeZeta z true p).length = p.length := by simp [distributeZeta]
  rw [coeffToExtended, C38_fft o hext hi _ (by omega) ht ht']
  congr 1
  refine if_congr (by rw [← List.length_eq_zero_iff, hl, List.length_eq_zero_iff]) rfl ?_
  refine List.map_congr_left fun i _ => ?_
  rw [dpoly_distribute hz, h1, one_mul]; simp

/-- C87: `ExtendedToCoeff` gives the polynomial of degree below the size with the given values at `ζ·w^i`. -/
theorem C87_coeff {threads : ℕ} (o : Sched) {ext : Domain F} (hext : ext.Radix2) (h1 : ext.offset = 1)
    {item : Item F} (hi : item.For ext) {z : F} (hz : IsPrimitiveRoot z 3) (e : List F) (he : e.length = ext.size)
    (ht : 0 < threads) (ht' : threads ≤ 2 ^ 63) :
    ∃ p, extendedToCoeff threads o ext item z e = some p ∧ DClean p ∧ p.length ≤ ext.size ∧
      ∀ i < ext.size, (dpoly p).eval (z * ext.gen ^ i) = e.getD i 0 := by
  obtain ⟨p, e1, hc, hl, hv⟩ := C38_ifft o hext hi e ht ht'
  refine ⟨distributeZeta z false p, by rw [extendedToCoeff, if_neg (by simp [he]), e1]; rfl, clean_distribute hz _ hc,
    by simpa [distributeZeta] using hl, fun i hi' => ?_⟩
  rw [dpoly_distribute hz, ← hv i hi', h1, one_mul]
  have h3 : z * z * z = 1 := by rw [← hz.pow_eq_one]; ring
  simp only [Bool.false_eq_true, if_false]
  rw [← mul_assoc, h3, one_mul]

omit [DecidableEq F] in
/-- The points of the coset are different. -/
private theorem coset_inj {z : F} (hz : IsPrimitiveRoot z 3) {ext : Domain F} (hext : ext.Radix2) :
    Set.InjOn (fun i => z * ext.gen ^ i) (Finset.range ext.size : Finset ℕ) := by
  intro i hi j hj h
  have hz0 : z ≠ 0 := hz.ne_zero (by norm_num)
  simp only [Finset.coe_range, Set.mem_Iio] at hi hj
  exact hext.1.prim.pow_inj hi hj (mul_left_cancel₀ hz0 h)

omit [DecidableEq F] in
/-- Polynomials of small degree that agree on the coset are equal. -/
private theorem coset_ext {z : F} (hz : IsPrimitiveRoot z 3) {ext : Domain F} (hext : ext.Radix2) {p q : F[X]}
    (hp : p.degree < ext.size) (hq : q.degree < ext.size)
    (h : ∀ i < ext.size, p.eval (z * ext.gen ^ i) = q.eval (z * ext.gen ^ i)) : p = q := by
  classical
  refine eq_of_degrees_lt_of_eval_index_eq (s := Finset.range ext.size) (v := fun i => z * ext.gen ^ i) ?_ ?_ ?_ ?_
  · exact coset_inj hz hext
  · simpa using hp
  · simpa using hq
  · intro i hi; exact h i (Finset.mem_range.1 hi)

omit [DecidableEq F] in
private theorem degree_dpoly_lt {p : List F} {n : ℕ} (hn : p.length ≤ n) : (dpoly p).degree < n := by
  rw [degree_lt_iff_coeff_zero]
  exact fun m hm => coeff_dpoly_of_le (by omega)

/-- C87: into the coset and back, and back and into the coset. -/
theorem C87_round_trip {threads : ℕ} (o o' : Sched) {ext : Domain F} (hext : ext.Radix2) (h1 : ext.offset = 1)
    {item : Item F} (hi : item.For ext) {z : F} (hz : IsPrimitiveRoot z 3) (ht : 0 < threads) (ht' : threads ≤ 2 ^ 63) :
    (∀ p : List F, DClean p → p ≠ [] → p.length ≤ ext.size →
      (coeffToExtended threads o ext item z p).bind (extendedToCoeff threads o' ext item z) = some p) ∧
    (coeffToExtended threads o ext item z []).bind (extendedToCoeff threads o' ext item z) = none ∧
    ∀ e : List F, e.length = ext.size → (∃ v ∈ e, v ≠ 0) →
      (extendedToCoeff threads o ext item z e).bind (coeffToExtended threads o' ext item z) = some e := by
  refine ⟨fun p hc h0 hl => ?_, ?_, fun e he hne => ?_⟩
  · rw [C87_extended o hext h1 hi hz p hl ht ht', if_neg h0, Option.bind_some]
    obtain ⟨q, e1, hq, hql, hv⟩ := C87_coeff o' hext h1 hi hz
      ((List.range ext.size).map fun i => (dpoly p).eval (z * ext.gen ^ i)) (by simp) ht ht'
    rw [e1]
    congr 1
    refine dpoly_injective hq hc (coset_ext hz hext (degree_dpoly_lt hql) (degree_dpoly_lt hl) fun i hi' => ?_)
    rw [hv i hi', List.getD_eq_getElem _ _ (by simpa using hi')]; simp
  · rw [C87_extended o hext h1 hi hz [] (by simp) ht ht', if_pos rfl, Option.bind_some, extendedToCoeff,
      if_pos (by have := hext.1.pos; simp; omega)]
  · obtain ⟨q, e1, hq, hql, hv⟩ := C87_coeff o hext h1 hi hz e he ht ht'
    rw [e1, Option.bind_some, C87_extended o' hext h1 hi hz q hql ht ht', if_neg]
    · congr 1
      refine (list_eq_map he fun j hj => ?_).symm
      rw [hv j hj]
    · rintro rfl
      obtain ⟨v, hv1, hv2⟩ := hne
      obtain ⟨i, hi', rfl⟩ := List.mem_iff_getElem.1 hv1
      have := hv i (by omega)
      rw [List.getD_eq_getElem _ _ hi'] at this
      exact hv2 (by rw [← this]; simp [dpoly])

/-- C87: `CreateFinalHPoly` divides the values on the coset by those of `X^n - 1`: it gives the only polynomial of degree
below the size of the extended domain with `h·(X^n - 1)` equal to the given values there. -/
theorem C87_quotient {threads : ℕ} (o : Sched) {d ext : Domain F} (hd : d.Radix2) (hext : ext.Radix2)
    (h1 : ext.offset = 1) (hle : d.logSize ≤ ext.logSize) {item : Item F} (hi : item.For ext) {z : F}
    (hz : IsPrimitiveRoot z 3) (e : List F) (he : e.length = ext.size) (ht : 0 < threads) (ht' : threads ≤ 2 ^ 63) :
    ∃ h, finalH threads o d ext item z e = some h ∧ DClean h ∧ h.length ≤ ext.size ∧
      ∀ i < ext.size, (dpoly h * (X ^ d.size - 1)).eval (z * ext.gen ^ i) = e.getD i 0 := by
  rw [finalH, divide_eq ht ht' hext hz hle e he, Option.bind_some]
  obtain ⟨p, e1, hc, hl, hv⟩ := C87_coeff o hext h1 hi hz ((List.range ext.size).map fun i =>
    e.getD i 0 * ((z * ext.gen ^ i) ^ 2 ^ d.logSize - 1)⁻¹) (by simp) ht ht'
  refine ⟨p, e1, hc, hl, fun i hi' => ?_⟩
  have hne := C87_denominators hz hext d.logSize i
  rw [eval_mul, hv i hi', List.getD_eq_getElem _ _ (by simpa using hi'), hd.2]
  simp only [List.getElem_map, List.getElem_range, eval_sub, eval_pow, eval_X, eval_one]
  rw [mul_assoc, inv_mul_cancel₀ hne, mul_one]

omit [DecidableEq F] in
/-- `X^n - 1` divides a polynomial exactly if it vanishes on the domain. -/
private theorem dvd_iff {d : Domain F} (hd : d.Valid) (h1 : d.offset = 1) (N : F[X]) :
    (X ^ d.size - 1 : F[X]) ∣ N ↔ ∀ i < d.size, N.eval (d.gen ^ i) = 0 := by
  classical
  have hs : (X ^ d.size - 1 : F[X]) = ∏ i ∈ Finset.range d.size, (X - C (d.gen ^ i)) := by
    have := hd.nodal
    rw [h1, one_pow, C_1] at this
    rw [← this, Lagrange.nodal]
    exact Finset.prod_congr rfl fun i _ => by simp [Domain.elem, h1]
  rw [hs]
  constructor
  · rintro ⟨q, rfl⟩ i hi
    rw [eval_mul, eval_prod, Finset.prod_eq_zero (Finset.mem_range.2 hi) (by simp), zero_mul]
  · intro h
    refine Finset.prod_dvd_of_coprime ?_ fun i hi => dvd_iff_isRoot.2 (h i (Finset.mem_range.1 hi))
    intro i hi j hj hij
    refine isCoprime_X_sub_C_of_isUnit_sub (sub_ne_zero.2 fun h => hij ?_).isUnit
    exact hd.prim.pow_inj (by simpa using hi) (by simpa using hj) h

/-- C87: when the values are those of a polynomial `N` of degree below `n` plus the size of the extended domain, the
result `h` satisfies `h·(X^n - 1) = N` exactly if `N` vanishes on the domain. -/
theorem C87_exact {threads : ℕ} (o : Sched) {d ext : Domain F} (hd : d.Radix2) (hd1 : d.offset = 1) (hext : ext.Radix2)
    (h1 : ext.offset = 1) (hle : d.logSize ≤ ext.logSize) {item : Item F} (hi : item.For ext) {z : F}
    (hz : IsPrimitiveRoot z 3) (N : F[X]) (hN : N.natDegree < ext.size + d.size) (ht : 0 < threads)
    (ht' : threads ≤ 2 ^ 63) :
    ∃ h, finalH threads o d ext item z ((List.range ext.size).map fun i => N.eval (z * ext.gen ^ i)) = some h ∧
      DClean h ∧ h.length ≤ ext.size ∧
      (dpoly h * (X ^ d.size - 1) = N ↔ ∀ i < d.size, N.eval (d.gen ^ i) = 0) := by
  obtain ⟨h, e1, hc, hl, hv⟩ := C87_quotient o hd hext h1 hle hi hz
    ((List.range ext.size).map fun i => N.eval (z * ext.gen ^ i)) (by simp) ht ht'
  refine ⟨h, e1, hc, hl, ?_⟩
  rw [← dvd_iff hd.1 hd1]
  refine ⟨fun e => ⟨dpoly h, by rw [← e, mul_comm]⟩, ?_⟩
  rintro ⟨q, rfl⟩
  have hn : (X ^ d.size - 1 : F[X]).natDegree = d.size := by
    rw [← C_1]; exact natDegree_X_pow_sub_C
  have hne : (X ^ d.size - 1 : F[X]) ≠ 0 := by
    intro h0; rw [h0, natDegree_zero] at hn; have := hd.1.pos; omega
  have hq : q.degree < ext.size := by
    by_cases hq0 : q = 0
    · rw [hq0, degree_zero]; exact WithBot.bot_lt_coe _
    · rw [natDegree_mul hne hq0, hn] at hN
      rw [degree_eq_natDegree hq0]
      exact_mod_cast (by omega : q.natDegree < ext.size)
  have : dpoly h = q := by
    refine coset_ext hz hext (degree_dpoly_lt hl) hq fun i hi' => ?_
    have h2 := hv i hi'
    rw [List.getD_eq_getElem _ _ (by simpa using hi')] at h2
    simp only [List.getElem_map, List.getElem_range, eval_mul] at h2
    have hne' := C87_denominators hz hext d.logSize i
    rw [← hd.2] at hne'
    have e3 : (X ^ d.size - 1 : F[X]).eval (z * ext.gen ^ i) = (z * ext.gen ^ i) ^ d.size - 1 := by simp
    rw [e3] at h2
    exact mul_right_cancel₀ hne' (by rw [h2]; ring)
  rw [this]; ring

omit [DecidableEq F] in
/-- C87: the parts of the column are the values on the cosets `ζ·w'^i·⟨w⟩`; put together they are the values on
`ζ·⟨w'⟩` in the order of the extended domain. -/
theorem C87_parts (f : F → F) (z w : F) {m n : ℕ} (hm : 0 < m) :
    buildExtended ((List.range m).map fun i => (List.range n).map fun j => f (z * w ^ i * (w ^ m) ^ j)) =
      some ((List.range (m * n)).map fun k => f (z * w ^ k)) := by
  rw [buildExtended_eq (rows := n) (by simpa using hm.ne') (by simp)]
  congr 1
  simp only [List.length_map, List.length_range]
  refine List.map_congr_left fun k hk => ?_
  rw [List.mem_range] at hk
  have h1 : k % m < m := Nat.mod_lt _ hm
  have h2 : k / m < n := Nat.div_lt_of_lt_mul hk
  have e1 : ((List.range m).map fun i => (List.range n).map fun j => f (z * w ^ i * (w ^ m) ^ j)).getD (k % m) [] =
      (List.range n).map fun j => f (z * w ^ (k % m) * (w ^ m) ^ j) := by
    rw [List.getD_eq_getElem _ _ (by simpa using h1)]; simp
  rw [e1, List.getD_eq_getElem _ _ (by simpa using h2)]
  simp only [List.getElem_map, List.getElem_range]
  rw [mul_assoc, ← pow_mul, ← pow_add, Nat.mod_add_div]

/-- C87: no columns, or columns of different lengths (a shorter one than the first), are not put together. -/
theorem C87_parts_fail : buildExtended ([] : List (List F97)) = none ∧ buildExtended [[1, 2], [3]] = (none : Option (List F97)) := by
  decide +kernel

/-- C87: the pieces that the prover commits to, the combination of the pieces at `x^n` and the combination of the
commitments of the verifier: the verifier holds a commitment to a polynomial whose value at `x` is `h(x)`. -/
theorem C87_pieces {G : Type*} [AddCommGroup G] [Module F G] (commit : List F → G) (φ : F[X] →ₗ[F] G) {n : ℕ}
    (hφ : ∀ l : List F, l.length ≤ n → commit l = φ (dpoly l)) (hn : 0 < n) {degree : ℕ} (hdeg : 0 < degree)
    (hb : n * degree ≤ 2 ^ 64) (h : List F) (hl : h.length ≤ n * (degree - 1)) (x : F) :
    ∃ coeffs comb, truncateH n degree h = some coeffs ∧ combinedH n (x ^ n) coeffs = some comb ∧
      DClean comb ∧ comb.length ≤ n ∧ (commitH commit n coeffs).length = degree - 1 ∧
      (∀ i < degree - 1, ∀ j < n, ((pieces n coeffs).getD i []).getD j 0 = (dpoly h).coeff (i * n + j)) ∧
      verifierH (x ^ n) (commitH commit n coeffs) = commit comb ∧ (dpoly comb).eval x = (dpoly h).eval x := by
  obtain ⟨q, rfl⟩ : ∃ q, degree = q + 1 := ⟨degree - 1, by omega⟩
  simp only [Nat.add_sub_cancel] at hl ⊢
  obtain ⟨hlen, hpoly⟩ := resizeZero_eq (n * q) hl
  have hpe := pieces_eq hn hlen (by rw [Nat.mul_succ] at hb; exact hb)
  have hpl : ∀ p ∈ pieces n (resizeZero (n * q) h), p.length = n := by
    rw [hpe]
    intro p hp
    obtain ⟨i, hi, rfl⟩ := List.mem_map.1 hp
    rw [List.mem_range] at hi
    rw [List.length_take, List.length_drop, hlen]
    have : i * n + n ≤ n * q := by
      calc i * n + n = n * (i + 1) := by ring
        _ ≤ n * q := Nat.mul_le_mul_left _ hi
    omega
  obtain ⟨out, e1, e2, e3⟩ := pieces_horner n hn (x ^ n) _ hpl
  obtain ⟨r1, r2, r3⟩ := Dense.removeZeros_spec out
  refine ⟨resizeZero (n * q) h, Poly.Dense.removeZeros out, rfl, by rw [combinedH, e1]; rfl, r2, by omega,
    by simp [commitH, hpe], fun i hi j hj => ?_, ?_, ?_⟩
  · have hin : i * n + j < n * q := by
      calc i * n + j < i * n + n := by omega
        _ = n * (i + 1) := by ring
        _ ≤ n * q := Nat.mul_le_mul_left _ hi
    rw [← hpoly, coeff_dpoly, hpe]
    have hg : ((List.range q).map fun i => ((resizeZero (n * q) h).drop (i * n)).take n).getD i [] =
        ((resizeZero (n * q) h).drop (i * n)).take n := by
      rw [List.getD_eq_getElem _ _ (by simpa using hi)]; simp
    rw [hg, List.getD_eq_getElem?_getD, List.getD_eq_getElem?_getD, List.getElem?_take_of_lt hj, List.getElem?_drop]
  · have key : ∀ ps : List (List F), (∀ p ∈ ps, p.length = n) →
        verifierH (x ^ n) (ps.map commit) = φ ((ps.zipIdx.map fun p => C ((x ^ n) ^ p.2) * dpoly p.1).sum) := by
      intro ps
      induction ps with
      | nil => intro _; simp [verifierH, linearCombination]
      | cons p ps ih =>
        intro hps
        have ih' := ih fun q hq => hps q (List.mem_cons_of_mem _ hq)
        have hp := hφ p (le_of_eq (hps p (by simp)))
        simp only [verifierH, linearCombination, List.map_cons, List.reverse_cons, List.foldl_append, List.foldl_cons,
          List.foldl_nil, Bool.false_eq_true, if_false] at ih' ⊢
        rw [ih', hp, List.zipIdx_cons, List.map_cons, List.sum_cons, pow_zero, C_1, one_mul, map_add, add_comm]
        congr 1
        rw [← map_smul]
        congr 1
        rw [smul_eq_C_mul, ← List.sum_map_mul_left, List.zipIdx_succ, List.map_map]
        congr 1
        refine List.map_congr_left fun a _ => ?_
        simp only [Function.comp, pow_succ, C_mul]; ring
    rw [commitH, key _ hpl, hφ _ (by omega), r1, e3]
  · rw [r1, e3, ← hpoly, dpoly_pieces n q _ hlen, hpe,
      sum_zipIdx q (fun i => ((resizeZero (n * q) h).drop (i * n)).take n) (fun l i => C ((x ^ n) ^ i) * dpoly l),
      eval_finsetSum, eval_finsetSum]
    refine Finset.sum_congr rfl fun i _ => ?_
    rw [eval_mul, eval_mul, eval_C, eval_pow, eval_X, pow_mul]

/-- C87: the value that the verifier expects is the combination of the constraints by powers of `y`, the first with the
highest, over `x^n - 1`; for a point of the domain the check fails. -/
theorem C87_expected (y xN : F) (evals : List F) :
    (xN ≠ 1 → expectedH y xN evals =
      some ((∑ i ∈ Finset.range evals.length, evals.getD i 0 * y ^ (evals.length - 1 - i)) / (xN - 1))) ∧
    (xN = 1 → expectedH y xN evals = none) := by
  have key : evals.foldl (fun ret v => ret * y + v) 0 =
      ∑ i ∈ Finset.range evals.length, evals.getD i 0 * y ^ (evals.length - 1 - i) := by
    induction evals using List.reverseRecOn with
    | nil => simp
    | append_singleton l v ih =>
      rw [List.foldl_append, List.foldl_cons, List.foldl_nil, ih, List.length_append, List.length_singleton,
        Finset.sum_range_succ, Finset.sum_mul]
      congr 1
      · refine Finset.sum_congr rfl fun i hi => ?_
        rw [Finset.mem_range] at hi
        rw [List.getD_append _ _ _ _ hi, mul_assoc, ← pow_succ]
        congr 2; omega
      · simp
  constructor
  · intro h
    rw [expectedH, inv?, if_neg (sub_ne_zero.2 h), Option.map_some, linearCombination, if_pos rfl]
    simp only
    rw [key, div_eq_mul_inv]
  · intro h
    rw [expectedH, inv?, if_pos (by rw [h, sub_self])]; rfl

/-- C87: completeness. The prover that combines constraints to a polynomial `N` of degree at most `degree·(n-1)` that
vanishes on the domain gets through: with the extended domain of `ComputeExtendedK` its quotient fits into `degree - 1`
pieces, and at every `x` outside the domain the verifier expects exactly the value at `x` of the polynomial to which its
combination of the commitments is a commitment. -/
theorem C87_complete {threads : ℕ} (o : Sched) {d ext : Domain F} (hd : d.Radix2) (hd1 : d.offset = 1) (hext : ext.Radix2)
    (h1 : ext.offset = 1) {degree : ℕ} (hk : extendedK degree d.logSize = some ext.logSize)
    (hb : d.size * degree ≤ 2 ^ 63) {item : Item F} (hi : item.For ext) {z : F} (hz : IsPrimitiveRoot z 3)
    {G : Type*} [AddCommGroup G] [Module F G] (commit : List F → G) (φ : F[X] →ₗ[F] G)
    (hφ : ∀ l : List F, l.length ≤ d.size → commit l = φ (dpoly l)) (N : F[X])
    (hN : N.natDegree ≤ degree * (d.size - 1)) (hv : ∀ i < d.size, N.eval (d.gen ^ i) = 0)
    (ht : 0 < threads) (ht' : threads ≤ 2 ^ 63) :
    ∃ h coeffs, finalH threads o d ext item z ((List.range ext.size).map fun i => N.eval (z * ext.gen ^ i)) = some h ∧
      truncateH d.size degree h = some coeffs ∧ ∀ x, x ^ d.size ≠ 1 → ∃ comb,
        combinedH d.size (x ^ d.size) coeffs = some comb ∧
        verifierH (x ^ d.size) (commitH commit d.size coeffs) = commit comb ∧
        ∀ (y : F) (evals : List F),
          (∑ i ∈ Finset.range evals.length, evals.getD i 0 * y ^ (evals.length - 1 - i)) = N.eval x →
          expectedH y (x ^ d.size) evals = some ((dpoly comb).eval x) := by
  have hn := hd.1.pos
  have hdeg : 0 < degree := by
    rcases Nat.eq_zero_or_pos degree with h | h
    · rw [extendedK, if_pos (Or.inl h)] at hk; exact absurd hk (by simp)
    · exact h
  obtain ⟨q, rfl⟩ : ∃ q, degree = q + 1 := ⟨degree - 1, by omega⟩
  have hb' : d.size * q + d.size ≤ 2 ^ 63 := by rw [Nat.mul_succ] at hb; exact hb
  have hk63 := radix2_le63 hd
  rw [extendedK, if_neg (by omega), Nat.add_sub_cancel, ← hd.2, Option.some_inj] at hk
  have hle : d.logSize ≤ ext.logSize := by omega
  have hsize : d.size * q ≤ ext.size := by
    rw [hext.2, ← hk]
    obtain ⟨k, -, -, e, hle', -⟩ := bitCeil_spec (n := d.size * q) (by omega)
    refine hle'.trans (Nat.pow_le_pow_right (by norm_num) ?_)
    rw [← e]; exact le_max_left _ _
  have hNq : N.natDegree < d.size * q + d.size := by
    refine lt_of_le_of_lt hN ?_
    have : (q + 1) * d.size = d.size * q + d.size := by ring
    rw [← this]
    exact Nat.mul_lt_mul_of_pos_left (by omega) (by omega)
  obtain ⟨h, e1, hc, hl, hiff⟩ := C87_exact o hd hd1 hext h1 hle hi hz N (by omega) ht ht'
  have hh := hiff.2 hv
  have hlen : h.length ≤ d.size * q := by
    by_cases h0 : h = []
    · rw [h0]; exact Nat.zero_le _
    have hp0 : dpoly h ≠ 0 := fun e => h0 ((dpoly_eq_zero hc).1 e)
    have hnd : (X ^ d.size - 1 : F[X]).natDegree = d.size := by rw [← C_1]; exact natDegree_X_pow_sub_C
    have hne : (X ^ d.size - 1 : F[X]) ≠ 0 := by
      intro e; rw [e, natDegree_zero] at hnd; omega
    rw [← hh, natDegree_mul hp0 hne, hnd, natDegree_dpoly hc, Dense.degree, if_neg (by simpa using h0)] at hNq
    have : 0 < h.length := List.length_pos_iff.2 h0
    omega
  obtain ⟨coeffs, -, e2, -⟩ := C87_pieces commit φ hφ hn (Nat.succ_pos q)
    (by rw [Nat.mul_succ]; omega) h (by simpa using hlen) 0
  refine ⟨h, coeffs, e1, e2, fun x hx => ?_⟩
  obtain ⟨coeffs', comb, e2', e3, -, -, -, -, e4, e5⟩ := C87_pieces commit φ hφ hn (Nat.succ_pos q)
    (by rw [Nat.mul_succ]; omega) h (by simpa using hlen) x
  have : coeffs' = coeffs := by rw [e2] at e2'; exact (Option.some_inj.1 e2').symm
  subst this
  refine ⟨comb, e3, e4, fun y evals hy => ?_⟩
  rw [(C87_expected y _ evals).1 hx, hy, e5, ← hh, eval_mul]
  have e6 : (X ^ d.size - 1 : F[X]).eval x = x ^ d.size - 1 := by simp
  rw [e6, mul_div_cancel_right₀ _ (sub_ne_zero.2 hx)]

/-- C87: soundness. If `N` does not vanish on the domain, then for every polynomial `h` the value that the verifier
expects is the value of `h` for at most `max (deg N) (deg h + n)` points. -/
theorem C87_sound {d : Domain F} (hd : d.Radix2) (hd1 : d.offset = 1) (N h : F[X])
    (hv : ¬ ∀ i < d.size, N.eval (d.gen ^ i) = 0) :
    {x : F | ∃ (y : F) (evals : List F),
      (∑ i ∈ Finset.range evals.length, evals.getD i 0 * y ^ (evals.length - 1 - i)) = N.eval x ∧
      expectedH y (x ^ d.size) evals = some (h.eval x)}.Finite ∧
    {x : F | ∃ (y : F) (evals : List F),
      (∑ i ∈ Finset.range evals.length, evals.getD i 0 * y ^ (evals.length - 1 - i)) = N.eval x ∧
      expectedH y (x ^ d.size) evals = some (h.eval x)}.ncard ≤ max N.natDegree (h.natDegree + d.size) := by
  have hne : N - h * (X ^ d.size - 1) ≠ 0 := by
    intro e
    exact hv ((dvd_iff hd.1 hd1 N).1 ⟨h, by rw [mul_comm, ← sub_eq_zero]; exact e⟩)
  have hsub : {x : F | ∃ (y : F) (evals : List F),
      (∑ i ∈ Finset.range evals.length, evals.getD i 0 * y ^ (evals.length - 1 - i)) = N.eval x ∧
      expectedH y (x ^ d.size) evals = some (h.eval x)} ⊆ ((N - h * (X ^ d.size - 1)).roots.toFinset : Set F) := by
    rintro x ⟨y, evals, e1, e2⟩
    rw [Finset.mem_coe, Multiset.mem_toFinset, mem_roots hne, IsRoot, eval_sub, eval_mul]
    have hx : x ^ d.size ≠ 1 := by
      intro h1
      rw [(C87_expected y _ evals).2 h1] at e2
      exact absurd e2 (by simp)
    rw [(C87_expected y _ evals).1 hx, e1, Option.some_inj] at e2
    have e6 : (X ^ d.size - 1 : F[X]).eval x = x ^ d.size - 1 := by simp
    rw [← e2, e6, div_mul_cancel₀ _ (sub_ne_zero.2 hx), sub_self]
  refine ⟨(Finset.finite_toSet _).subset hsub, ?_⟩
  refine (Set.ncard_le_ncard hsub (Finset.finite_toSet _)).trans ?_
  rw [Set.ncard_coe_finset]
  refine (Multiset.toFinset_card_le _).trans ((card_roots' _).trans ?_)
  refine (natDegree_sub_le _ _).trans (max_le_max le_rfl ?_)
  refine natDegree_mul_le.trans (Nat.add_le_add_left ?_ _)
  rw [← C_1]; exact (natDegree_X_pow_sub_C).le

omit [DecidableEq F] in
/-- Turning the point turns the basis. -/
private theorem basis_shift {d : Domain F} (hd : d.Valid) (x : F) (r : ℤ) {i : ℕ} (hi : i < d.size) :
    (Lagrange.basis (Finset.range d.size) (fun j => d.offset * d.gen ^ j) (((i : ℤ) - r) % d.size).toNat).eval x =
      (Lagrange.basis (Finset.range d.size) (fun j => d.offset * d.gen ^ j) i).eval (x * d.gen ^ r) := by
  classical
  have hpos := hd.pos
  have hinj : Set.InjOn (fun j => d.offset * d.gen ^ j) (Finset.range d.size : Finset ℕ) :=
    fun a ha b hb => hd.elem_inj (by simpa using ha) (by simpa using hb)
  have hg : d.gen ≠ 0 := hd.prim.ne_zero hpos.ne'
  have hmod : ∀ m : ℤ, ((m % d.size).toNat : ℤ) = m % d.size := fun m =>
    Int.toNat_of_nonneg (Int.emod_nonneg _ (by omega))
  have hlt : ∀ m : ℤ, (m % d.size).toNat < d.size := fun m => by
    have := Int.emod_lt_of_pos m (by omega : (0 : ℤ) < d.size)
    have := hmod m
    omega
  have hzp : ∀ m : ℤ, d.gen ^ (m % d.size).toNat = d.gen ^ m := fun m => by
    rw [← zpow_natCast, hmod]
    conv_rhs => rw [← Int.emod_add_mul_ediv m d.size, zpow_add₀ hg, zpow_mul, zpow_natCast, hd.prim.pow_eq_one, one_zpow,
      mul_one]
  set j := (((i : ℤ) - r) % d.size).toNat with hj
  have hjlt : j < d.size := hlt _
  have hcomp : (Lagrange.basis (Finset.range d.size) (fun j => d.offset * d.gen ^ j) i).eval (x * d.gen ^ r) =
      ((Lagrange.basis (Finset.range d.size) (fun j => d.offset * d.gen ^ j) i).comp (C (d.gen ^ r) * X)).eval x := by
    rw [eval_comp, eval_mul, eval_C, eval_X, mul_comm]
  rw [hcomp]
  congr 1
  refine eq_of_degrees_lt_of_eval_index_eq (s := Finset.range d.size) (v := fun j => d.offset * d.gen ^ j) hinj ?_ ?_ ?_
  · rw [Lagrange.degree_basis hinj (Finset.mem_range.2 hjlt), Finset.card_range]
    exact_mod_cast Nat.sub_lt hpos one_pos
  · refine lt_of_le_of_lt degree_le_natDegree ?_
    have h1 : (Lagrange.basis (Finset.range d.size) (fun j => d.offset * d.gen ^ j) i).natDegree = d.size - 1 := by
      rw [natDegree, Lagrange.degree_basis hinj (Finset.mem_range.2 hi), Finset.card_range]; rfl
    have h2 : ((Lagrange.basis (Finset.range d.size) (fun j => d.offset * d.gen ^ j) i).comp
        (C (d.gen ^ r) * X)).natDegree ≤ d.size - 1 := by
      refine natDegree_comp_le.trans ?_
      rw [h1]
      exact (Nat.mul_le_mul_left _ (natDegree_C_mul_le _ _ |>.trans natDegree_X_le)).trans (by rw [mul_one])
    rw [Finset.card_range]
    exact_mod_cast (by omega : _ < d.size)
  · intro k hk
    have hklt := Finset.mem_range.1 hk
    set k' := (((k : ℤ) + r) % d.size).toNat with hk'
    have hk'lt : k' < d.size := hlt _
    have e1 : (C (d.gen ^ r) * X : F[X]).eval (d.offset * d.gen ^ k) = d.offset * d.gen ^ k' := by
      rw [eval_mul, eval_C, eval_X, hk', hzp, zpow_add₀ hg, zpow_natCast]; ring
    rw [eval_comp, e1]
    by_cases h : k' = i
    · have hkj : k = j := by
        have a1 := hmod ((k : ℤ) + r)
        have a2 := hmod ((i : ℤ) - r)
        rw [← hk', h] at a1
        rw [← hj, a1, Int.emod_sub_emod, add_sub_cancel_right, Int.emod_eq_of_lt (by omega) (by omega)] at a2
        omega
      rw [h, Lagrange.eval_basis_self hinj (Finset.mem_range.2 hi), hkj,
        Lagrange.eval_basis_self hinj (Finset.mem_range.2 hjlt)]
    · have hkj : j ≠ k := ?_
      · have b1 := Lagrange.eval_basis_of_ne (v := fun j => d.offset * d.gen ^ j) (Ne.symm h) (Finset.mem_range.2 hk'lt)
        have b2 := Lagrange.eval_basis_of_ne (v := fun j => d.offset * d.gen ^ j) hkj hk
        exact b2.trans b1.symm
      rintro rfl
      apply h
      have a1 := hmod ((j : ℤ) + r)
      have a2 := hmod ((i : ℤ) - r)
      rw [← hj] at a2
      rw [← hk', a2, Int.emod_add_emod, sub_add_cancel, Int.emod_eq_of_lt (by omega) (by omega)] at a1
      omega

/-- The accumulated range contains every rotation and stays inside every range that does. -/
private theorem rotationRange_spec (rs : List ℤ) {mn mx : ℕ} (h : ∀ r ∈ rs, -(mn : ℤ) ≤ r ∧ r ≤ mx) :
    (∀ r ∈ rs, (rotationRange rs).1 ≤ r ∧ r ≤ (rotationRange rs).2) ∧ -(mn : ℤ) ≤ (rotationRange rs).1 ∧
      (rotationRange rs).1 ≤ 0 ∧ 0 ≤ (rotationRange rs).2 ∧ (rotationRange rs).2 ≤ mx := by
  have key : ∀ (rs : List ℤ) (a : ℤ × ℤ), (∀ r ∈ rs, -(mn : ℤ) ≤ r ∧ r ≤ mx) → -(mn : ℤ) ≤ a.1 → a.1 ≤ 0 → 0 ≤ a.2 →
      a.2 ≤ mx →
      let b := rs.foldl (fun r x => if x < r.1 then (x, r.2) else if r.2 < x then (r.1, x) else r) a
      (∀ r ∈ rs, b.1 ≤ r ∧ r ≤ b.2) ∧ -(mn : ℤ) ≤ b.1 ∧ b.1 ≤ a.1 ∧ a.2 ≤ b.2 ∧ b.2 ≤ mx := by
    intro rs
    induction rs with
    | nil => intro a _ h1 h2 h3 h4; simpa using ⟨h1, h4⟩
    | cons x rs ih =>
      intro a hr h1 h2 h3 h4
      have hx := hr x (by simp)
      simp only [List.foldl_cons]
      have hr' := fun r hr' => hr r (List.mem_cons_of_mem _ hr')
      split
      · obtain ⟨i1, i2, i3, i4, i5⟩ := ih (x, a.2) hr' hx.1 (by simp only; omega) h3 h4
        simp only at i1 i2 i3 i4 i5 ⊢
        refine ⟨fun r hr => ?_, i2, by omega, i4, i5⟩
        rcases List.mem_cons.1 hr with rfl | hr
        · exact ⟨i3, by omega⟩
        · exact i1 r hr
      · split
        · obtain ⟨i1, i2, i3, i4, i5⟩ := ih (a.1, x) hr' h1 h2 (by simp only; omega) hx.2
          refine ⟨fun r hr => ?_, i2, i3, by omega, i5⟩
          rcases List.mem_cons.1 hr with rfl | hr
          · exact ⟨by omega, i4⟩
          · exact i1 r hr
        · obtain ⟨i1, i2, i3, i4, i5⟩ := ih a hr' h1 h2 h3 h4
          refine ⟨fun r hr => ?_, i2, i3, i4, i5⟩
          rcases List.mem_cons.1 hr with rfl | hr
          · exact ⟨by omega, by omega⟩
          · exact i1 r hr
  obtain ⟨a, b, c, e, f⟩ := key rs (0, 0) h (by simp) le_rfl le_rfl (by simp)
  exact ⟨a, b, c, e, f⟩

private theorem foldl_max_le {l : List ℕ} {m : ℕ} (h : ∀ x ∈ l, x ≤ m) : ∀ a ≤ m, l.foldl max a ≤ m := by
  induction l with
  | nil => exact fun a ha => ha
  | cons x l ih =>
    exact fun a ha => ih (fun y hy => h y (List.mem_cons_of_mem _ hy)) _ (max_le ha (h x (by simp)))

private theorem le_foldl_max (l : List ℕ) : ∀ a : ℕ, a ≤ l.foldl max a ∧ ∀ x ∈ l, x ≤ l.foldl max a := by
  induction l with
  | nil => simp
  | cons x l ih =>
    intro a
    obtain ⟨h1, h2⟩ := ih (max a x)
    refine ⟨(le_max_left _ _).trans h1, fun y hy => ?_⟩
    rcases List.mem_cons.1 hy with rfl | hy
    · exact (le_max_right _ _).trans h1
    · exact h2 y hy

/-- C87: the verifier finds the values of the instance columns at the rotated points from the instances alone: these are
the values of the polynomial through the instances (and zeros in the remaining rows) at `x·ω^r`. -/
theorem C87_instance {threads : ℕ} {d : Domain F} (hd : d.Valid) (x : F) (columns : List (List (List F)))
    (queries : List (ℕ × ℤ)) {mn mx rows : ℕ} (hr : ∀ q ∈ queries, -(mn : ℤ) ≤ q.2 ∧ q.2 ≤ mx)
    (hrows : ∀ cols ∈ columns, ∀ col ∈ cols, col.length ≤ rows) (hmx : mx < 2 ^ 31) (hfit : mx + rows + mn ≤ d.size)
    (hcol : ∀ cols ∈ columns, ∀ q ∈ queries, q.1 < cols.length) (ht : 0 < threads) (ht' : threads < 128) :
    instanceEvals threads d x columns queries = some (columns.map fun cols => queries.map fun q =>
      (Lagrange.interpolate (Finset.range d.size) (fun j => d.offset * d.gen ^ j)
        fun i => (cols.getD q.1 []).getD i 0).eval (x * d.gen ^ q.2)) := by
  classical
  obtain ⟨s1, s2, s3, s4, s5⟩ := rotationRange_spec (queries.map Prod.snd) (mn := mn) (mx := mx) (by
    intro r hr'; obtain ⟨q, hq, rfl⟩ := List.mem_map.1 hr'; exact hr q hq)
  have hsz := hd.le
  have hpos := hd.pos
  set range := rotationRange (queries.map Prod.snd) with hrange
  set top := (columns.map maxRow).foldl max 0 with htop
  have htop' : top ≤ rows := by
    refine foldl_max_le (fun y hy => ?_) 0 (Nat.zero_le _)
    obtain ⟨cols, hc, rfl⟩ := List.mem_map.1 hy
    refine foldl_max_le (fun y hy => ?_) 0 (Nat.zero_le _)
    obtain ⟨col, hcl, rfl⟩ := List.mem_map.1 hy
    exact hrows cols hc col hcl
  have htop2 : ∀ cols ∈ columns, ∀ col ∈ cols, col.length ≤ top := fun cols hc col hcl =>
    ((le_foldl_max (cols.map List.length) 0).2 _ (List.mem_map_of_mem hcl)).trans
      ((le_foldl_max (columns.map maxRow) 0).2 _ (List.mem_map_of_mem hc))
  have hn : (range.2 + ((top : ℕ) + range.1.natAbs : ℕ)).toNat ≤ d.size := by omega
  have hp := C39_partial (threads := threads) hd x (start := -range.2) (by omega) (by omega) hn ht ht'
  rw [instanceEvals]
  simp only [← hrange, ← htop]
  rw [hp, Option.bind_some]
  refine Poly.mapM_some fun cols hc => ?_
  refine Poly.mapM_some fun q hq => ?_
  have hq1 := hcol cols hc q hq
  have hq2 := s1 q.2 (List.mem_map_of_mem hq)
  rw [instanceEval, List.getElem?_eq_getElem hq1, Option.bind_some]
  have hcl := htop2 cols hc cols[q.1] (List.getElem_mem hq1)
  rw [List.getD_eq_getElem _ _ hq1]
  set col := cols[q.1] with hcoldef
  simp only
  rw [if_neg (by simp only [List.length_map, List.length_range]; omega)]
  have hlen : ((((List.range (range.2 + ((top : ℕ) + range.1.natAbs : ℕ)).toNat).map fun (i : ℕ) =>
      (Lagrange.basis (Finset.range d.size) (fun j => d.offset * d.gen ^ j)
        ((-range.2 + i) % d.size).toNat).eval x).drop (range.2 - q.2).toNat).take col.length).length = col.length := by
    simp only [List.length_take, List.length_drop, List.length_map, List.length_range]; omega
  rw [(C54_sumOfProducts 1 _ _ one_pos (by norm_num) (by omega)).2, if_pos hlen.symm]
  congr 1
  rw [Lagrange.interpolate_apply, eval_finsetSum]
  have hcs : col.length ≤ d.size := by omega
  rw [← Finset.sum_subset (Finset.range_subset_range.2 hcs) (fun i _ hi => by
    rw [Finset.mem_range, not_lt] at hi
    rw [List.getD_eq_default _ _ hi, C_0, zero_mul, eval_zero])]
  rw [Finset.sum_range, ← List.sum_ofFn]
  congr 1
  refine List.ext_getElem (by simp only [List.length_zipWith, List.length_ofFn, hlen, min_self]) fun i h1 h2 => ?_
  have hi : i < col.length := by simpa using h2
  simp only [List.getElem_zipWith, List.getElem_take, List.getElem_drop, List.getElem_map, List.getElem_range,
    List.getElem_ofFn, eval_mul, eval_C]
  rw [List.getD_eq_getElem _ _ hi, ← basis_shift hd x q.2 (by omega : i < d.size)]
  congr 5
  omega

/-! ### Examples over the field with 97 elements -/

/-- The rows: four powers of 22. -/
def exRows : Domain F97 := ⟨4, 2, 4, 73, 22, 75, 1, 1, 1⟩

/-- The extended domain: eight powers of 64. -/
def exExtended : Domain F97 := ⟨8, 3, 8, 85, 64, 47, 1, 1, 1⟩

/-- The roots of the extended domain. -/
def exExtendedItem : Item F97 :=
  ⟨[[1], [1, 22], [1, 64, 22, 50]], [[1, 47, 75, 33], [1, 75], [1]], [], [], [], [], some false⟩

theorem exPrim97 {w : F97} {k : ℕ} (h : w ^ 2 ^ k = -1) : IsPrimitiveRoot w (2 ^ (k + 1)) := by
  have := orderOf_eq_prime_pow (p := 2) (x := w) (n := k) (by rw [h]; decide +kernel)
    (by rw [pow_succ, pow_mul, h]; decide +kernel)
  rw [← this]; exact IsPrimitiveRoot.orderOf w

theorem exRows_radix2 : exRows.Radix2 :=
  ⟨⟨by decide, by decide, by decide +kernel, by decide +kernel, exPrim97 (w := 22) (k := 1) (by decide +kernel),
    by decide +kernel, by decide +kernel, by decide +kernel, by decide +kernel⟩, rfl⟩

theorem exExtended_radix2 : exExtended.Radix2 :=
  ⟨⟨by decide, by decide, by decide +kernel, by decide +kernel, exPrim97 (w := 64) (k := 2) (by decide +kernel),
    by decide +kernel, by decide +kernel, by decide +kernel, by decide +kernel⟩, rfl⟩

theorem exZeta : IsPrimitiveRoot (35 : F97) 3 := by
  have := orderOf_eq_prime (p := 3) (x := (35 : F97)) (by decide +kernel) (by decide +kernel)
  rw [← this]; exact IsPrimitiveRoot.orderOf _

example : halo2Zeta (⟨3, 5, 5⟩ : ZetaConfig F97) true = some 35 ∧ halo2Zeta (⟨3, 5, 5⟩ : ZetaConfig F97) false = some 61 ∧
    halo2Zeta (⟨1, 4, 3⟩ : ZetaConfig F17) true = none := by decide +kernel

-- 1 + 2x + 3x^2 + 4x^3 + 5x^4 on the coset, there and back
example : coeffToExtended 2 Sched.seq exExtended exExtendedItem 35 [1, 2, 3, 4, 5] =
      some [45, 93, 87, 41, 91, 45, 93, 95] ∧
    extendedToCoeff 2 Sched.rev exExtended exExtendedItem 35 [45, 93, 87, 41, 91, 45, 93, 95] = some [1, 2, 3, 4, 5] ∧
    extendedToCoeff 2 Sched.rev exExtended exExtendedItem 35 [45, 93] = none := by decide +kernel

-- its product with x^4 - 1 on the coset, and the quotient
example : finalH 3 Sched.seq exRows exExtended exExtendedItem 35 [75, 47, 48, 76, 87, 29, 58, 72] =
      some [1, 2, 3, 4, 5] ∧
    finalH 3 Sched.seq exRows exExtended exExtendedItem 35 [75, 47, 48, 76, 87, 29, 58] = none ∧
    finalH 3 Sched.seq exExtended exRows exExtendedItem 35 [1, 2, 3, 4] = none := by decide +kernel

-- degree three: the extended domain has eight elements, the quotient two pieces; at x = 3 with x^4 = 81
example : extendedK 3 2 = some 3 ∧ extendedK 1 2 = some 2 ∧ extendedK 0 2 = none ∧
    truncateH 4 3 [1, 2, 3, 4, 5] = some ([1, 2, 3, 4, 5, 0, 0, 0] : List F97) ∧
    pieces 4 ([1, 2, 3, 4, 5, 0, 0, 0] : List F97) = [[1, 2, 3, 4], [5, 0, 0, 0]] ∧
    combinedH 4 81 ([1, 2, 3, 4, 5, 0, 0, 0] : List F97) = some [18, 2, 3, 4] := by decide +kernel

-- the numerator 13 at x = 3 from two constraints and y = 7: the verifier expects the value 62 of the quotient
example : expectedH 7 81 ([1, 6] : List F97) = some 62 ∧ expectedH 7 1 ([1, 6] : List F97) = none := by decide +kernel

/-- The commitment to the value at the point 2. -/
def exCommitAt : F97[X] →ₗ[F97] F97 := leval 2

-- an instance of the completeness theorem
example : ∃ h coeffs, finalH 3 Sched.seq exRows exExtended exExtendedItem 35 ((List.range 8).map fun i =>
      (dpoly [1, 2, 3, 4, 5] * (X ^ 4 - 1) : F97[X]).eval (35 * 64 ^ i)) = some h ∧
    truncateH 4 3 h = some coeffs ∧ ∀ x : F97, x ^ 4 ≠ 1 → ∃ comb, combinedH 4 (x ^ 4) coeffs = some comb ∧
      verifierH (x ^ 4) (commitH (fun l => (dpoly l).eval 2) 4 coeffs) = (dpoly comb).eval 2 ∧
      ∀ (y : F97) (evals : List F97),
        (∑ i ∈ Finset.range evals.length, evals.getD i 0 * y ^ (evals.length - 1 - i)) =
          (dpoly [1, 2, 3, 4, 5] * (X ^ 4 - 1) : F97[X]).eval x →
        expectedH y (x ^ 4) evals = some ((dpoly comb).eval x) := by
  refine C87_complete (threads := 3) Sched.seq exRows_radix2 rfl exExtended_radix2 rfl (degree := 3) (by decide +kernel)
    (by decide) ?_ exZeta (fun l => (dpoly l).eval 2) exCommitAt (fun _ _ => rfl) _ ?_ ?_ (by norm_num) (by norm_num)
  · constructor
    · intro s hs
      have : s < 3 := hs
      interval_cases s
      · exact ⟨[1], rfl, by decide, by decide +kernel⟩
      · exact ⟨[1, 22], rfl, by decide, by decide +kernel⟩
      · exact ⟨[1, 64, 22, 50], rfl, by decide, by decide +kernel⟩
    · intro s hs
      have : s < 3 := hs
      interval_cases s
      · exact ⟨[1, 47, 75, 33], rfl, by decide, by decide +kernel⟩
      · exact ⟨[1, 75], rfl, by decide, by decide +kernel⟩
      · exact ⟨[1], rfl, by decide, by decide +kernel⟩
  · have h1 : (dpoly ([1, 2, 3, 4, 5] : List F97)).natDegree ≤ 4 := by
      rw [natDegree_dpoly (by simp only [DClean]; decide +kernel)]; decide
    have h2 : (X ^ 4 - 1 : F97[X]).natDegree ≤ 4 := by rw [← C_1]; exact natDegree_X_pow_sub_C.le
    refine natDegree_mul_le.trans ?_
    have : (3 : ℕ) * (exRows.size - 1) = 9 := rfl
    omega
  · intro i hi
    have h : (exRows.gen ^ i) ^ 4 - 1 = 0 := by
      have : i < 4 := hi
      interval_cases i <;> decide +kernel
    rw [eval_mul, eval_sub, eval_pow, eval_X, eval_one]
    exact mul_eq_zero_of_right _ h

-- the instances 5, 6 of the column 0 and 7 of the column 1, queried at the rotations 0, 1 and -1; three rotations of
-- this size with three instances do not fit
example : instanceEvals 2 exRows 3 [[[5, 6], [7]]] [(0, 0), (0, 1), (1, -1)] = some [[54, 69, 37]] ∧
    instanceEvals 2 exRows 3 [[[5, 6, 8], [7]]] [(0, 0), (0, 1), (1, -1)] = none := by decide +kernel

end Tachyon.Props
