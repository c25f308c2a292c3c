import Verif.Proofs.PolyEval
import Verif.Spec.F7
/-!
# Properties C35-C37, C40, C57, C58: univariate polynomials in coefficient form

`dpoly` and `spoly` (Verif/Spec/Poly.lean) are the polynomials of Mathlib that coefficient lists and
term lists denote. A dense polynomial is clean if its highest coefficient is not zero, a sparse one if
its degrees increase and no coefficient is zero; clean representations are unique.
-/
namespace Tachyon.Props
open Polynomial Tachyon.Poly

variable {F : Type*} [Field F] [DecidableEq F]

/-! ## C35 -/

omit [DecidableEq F] in
/-- C35: clean representations are unique. -/
theorem C35_unique : (∀ l r : List F, DClean l → DClean r → dpoly l = dpoly r → l = r) ∧
    (∀ a b : List (ℕ × F), SClean a → SClean b → spoly a = spoly b → a = b) :=
  ⟨fun _ _ => dpoly_injective, fun _ _ => spoly_injective⟩

omit [DecidableEq F] in
/-- C35: `operator[]`, `Degree` and `GetLeadingCoefficient`. -/
theorem C35_access {l : List F} {a : List (ℕ × F)} (hl : DClean l) (ha : SClean a) :
    (∀ i, Dense.coeff l i = (dpoly l).coeff i) ∧ Dense.degree l = (dpoly l).natDegree ∧
    Dense.leading l = (dpoly l).leadingCoeff ∧
    (∀ i, Sparse.coeff a i = (spoly a).coeff i) ∧ Sparse.degree a = (spoly a).natDegree ∧
    Sparse.leading a = (spoly a).leadingCoeff := by
  refine ⟨Dense.coeff_eq l, (natDegree_dpoly hl).symm, ?_, Sparse.coeff_eq ha.1, ?_, ?_⟩
  · by_cases h : dpoly l = 0
    · rw [h, (dpoly_eq_zero hl).1 h]; simp [Dense.leading]
    · obtain ⟨h1, h2, -⟩ := Dense.Divisor.facts (d := .dense l) hl h
      rw [leadingCoeff]
      show Dense.Divisor.leading (.dense l) = (Dense.Divisor.poly (.dense l)).coeff
        (Dense.Divisor.poly (.dense l)).natDegree
      rw [h1, h2]
  · by_cases h : spoly a = 0
    · rw [h, (spoly_eq_zero ha).1 h]; simp [Sparse.degree]
    · exact (Dense.Divisor.facts (d := .sparse a) ha h).1.symm
  · by_cases h : spoly a = 0
    · rw [h, (spoly_eq_zero ha).1 h]; simp [Sparse.leading]
    · obtain ⟨h1, h2, -⟩ := Dense.Divisor.facts (d := .sparse a) ha h
      rw [leadingCoeff]
      show Dense.Divisor.leading (.sparse a) = (Dense.Divisor.poly (.sparse a)).coeff
        (Dense.Divisor.poly (.sparse a)).natDegree
      rw [h1, h2]

/-- C35: the operations on dense polynomials. -/
theorem C35_dense {l r : List F} (hl : DClean l) (hr : DClean r) :
    (dpoly (Dense.add l r) = dpoly l + dpoly r ∧ DClean (Dense.add l r)) ∧
    (dpoly (Dense.sub l r) = dpoly l - dpoly r ∧ DClean (Dense.sub l r)) ∧
    (dpoly (Dense.neg l) = -dpoly l ∧ DClean (Dense.neg l)) ∧
    (∃ w, Dense.mul l r = some w ∧ dpoly w = dpoly l * dpoly r ∧ DClean w) :=
  ⟨Dense.add_spec hl hr, Dense.sub_spec hl hr, Dense.neg_spec hl, (Dense.mul_spec hl hr).1⟩

/-- C35: the operations in place give the same lists. -/
theorem C35_dense_inPlace {l r : List F} (hl : DClean l) (hr : DClean r) :
    Dense.addInPlace l r = some (Dense.add l r) ∧ Dense.subInPlace l r = some (Dense.sub l r) ∧
    Dense.negInPlace l = Dense.neg l ∧ Dense.mulInPlace l r = Dense.mul l r := by
  obtain ⟨⟨a1, a2⟩, ⟨s1, s2⟩, ⟨n1, n2⟩, w, m1, m2, m3⟩ := C35_dense hl hr
  obtain ⟨x, x1, x2, x3⟩ := Dense.addInPlace_spec hl hr
  obtain ⟨y, y1, y2, y3⟩ := Dense.subInPlace_spec hl hr
  obtain ⟨z, z1, z2, z3⟩ := (Dense.mul_spec hl hr).2
  refine ⟨?_, ?_, ?_, ?_⟩
  · rw [x1, dpoly_injective x3 a2 (x2.trans a1.symm)]
  · rw [y1, dpoly_injective y3 s2 (y2.trans s1.symm)]
  · rw [Dense.negInPlace, Dense.neg]
    rw [Dense.neg] at n2
    split
    · rfl
    · next h => rw [if_neg h] at n2; exact Dense.removeZeros_of_clean n2
  · rw [z1, m1, dpoly_injective z3 m3 (z2.trans m2.symm)]

/-- C35: multiplication and division by a scalar. -/
theorem C35_scalar {l : List F} {a : List (ℕ × F)} (hl : DClean l) (ha : SClean a) (s : F) :
    (dpoly (Dense.mulScalar l s) = dpoly l * C s ∧ DClean (Dense.mulScalar l s)) ∧
    Dense.mulInPlaceScalar l s = Dense.mulScalar l s ∧
    (spoly (Sparse.mulScalar a s) = spoly a * C s ∧ SClean (Sparse.mulScalar a s)) ∧
    Sparse.mulInPlaceScalar a s = Sparse.mulScalar a s := by
  obtain ⟨⟨h1, h2⟩, h3, h4⟩ := Dense.mulScalar_spec hl s
  obtain ⟨⟨g1, g2⟩, g3, g4⟩ := Sparse.mulScalar_spec ha s
  exact ⟨⟨h1, h2⟩, dpoly_injective h4 h2 (h3.trans h1.symm), ⟨g1, g2⟩,
    spoly_injective g4 g2 (g3.trans g1.symm)⟩

/-- C35: division by a scalar; zero is rejected. -/
theorem C35_divScalar {l : List F} {a : List (ℕ × F)} (hl : DClean l) (ha : SClean a) (s : F) :
    (s = 0 → Dense.divScalar l s = none ∧ Sparse.divScalar a s = none) ∧
    (s ≠ 0 → ∃ w v, Dense.divScalar l s = some (w, w) ∧ dpoly w * C s = dpoly l ∧ DClean w ∧
      Sparse.divScalar a s = some (v, v) ∧ spoly v * C s = spoly a ∧ SClean v) := by
  refine ⟨fun h => ⟨if_pos h, if_pos h⟩, fun h => ?_⟩
  obtain ⟨⟨h1, h2⟩, h3, ⟨g1, g2⟩, g3⟩ := C35_scalar hl ha s⁻¹
  refine ⟨_, _, (if_neg h).trans (by rw [h3]), ?_, h2, (if_neg h).trans (by rw [g3]), ?_, g2⟩
  · rw [h1, mul_assoc, ← C_mul, inv_mul_cancel₀ h, C_1, mul_one]
  · rw [g1, mul_assoc, ← C_mul, inv_mul_cancel₀ h, C_1, mul_one]

/-- C35: the operations on sparse polynomials; those in place use the same code or give the same
list. -/
theorem C35_sparse {a b : List (ℕ × F)} (ha : SClean a) (hb : SClean b) :
    (∃ c, Sparse.add a b = some c ∧ spoly c = spoly a + spoly b ∧ SClean c) ∧
    (∃ c, Sparse.sub a b = some c ∧ spoly c = spoly a - spoly b ∧ SClean c) ∧
    (spoly (Sparse.neg a) = -spoly a ∧ SClean (Sparse.neg a)) ∧
    (spoly (Sparse.mul a b) = spoly a * spoly b ∧ SClean (Sparse.mul a b)) ∧
    Sparse.mulInPlace a b = Sparse.mul a b := by
  obtain ⟨⟨h1, h2⟩, h3, h4⟩ := Sparse.mul_spec ha hb
  exact ⟨Sparse.add_spec ha hb, Sparse.sub_spec ha hb, Sparse.neg_spec ha, ⟨h1, h2⟩,
    spoly_injective h4 h2 (h3.trans h1.symm)⟩

/-- C35: dense with sparse polynomials. -/
theorem C35_mixed {l : List F} {r : List (ℕ × F)} (hl : DClean l) (hr : SClean r) :
    (dpoly (Dense.addSparse l r) = dpoly l + spoly r ∧ DClean (Dense.addSparse l r)) ∧
    (dpoly (Dense.subSparse l r) = dpoly l - spoly r ∧ DClean (Dense.subSparse l r)) ∧
    (dpoly (Sparse.addDense r l) = spoly r + dpoly l ∧ DClean (Sparse.addDense r l)) ∧
    (dpoly (Sparse.subDense r l) = spoly r - dpoly l ∧ DClean (Sparse.subDense r l)) ∧
    (∃ w, Dense.mulSparse l r = some w ∧ dpoly w = dpoly l * spoly r ∧ DClean w) ∧
    (∃ w, Sparse.mulDense r l = some w ∧ dpoly w = spoly r * dpoly l ∧ DClean w) := by
  obtain ⟨n1, n2⟩ := Dense.neg_spec hl
  obtain ⟨a1, a2⟩ := Dense.addSparse_spec hl hr
  obtain ⟨b1, b2⟩ := Dense.addSparse_spec n2 hr
  obtain ⟨w, w1, w2, w3⟩ := (Dense.mulSparse_spec hl hr (List.Perm.refl _)).1
  refine ⟨⟨a1, a2⟩, Dense.subSparse_spec hl hr, ⟨a1.trans (add_comm _ _), a2⟩, ⟨?_, b2⟩,
    ⟨w, w1, w2, w3⟩, ⟨w, w1, w2.trans (mul_comm _ _), w3⟩⟩
  rw [Sparse.subDense, b1, n1]; ring

/-- C35: the operations in place with a sparse argument, whatever the order in which the parallel loop
takes the terms. -/
theorem C35_mixed_inPlace {l : List F} {r sched : List (ℕ × F)} (hl : DClean l) (hr : SClean r)
    (hs : sched.Perm r) :
    Dense.addInPlaceSparse l r sched = some (Dense.addSparse l r) ∧
    Dense.subInPlaceSparse l r sched = some (Dense.subSparse l r) ∧
    Dense.mulInPlaceSparse l r sched = Dense.mulSparse l r := by
  obtain ⟨⟨a1, a2⟩, ⟨s1, s2⟩, -, -, ⟨w, w1, w2, w3⟩, -⟩ := C35_mixed hl hr
  obtain ⟨x, x1, x2, x3⟩ := Dense.addInPlaceSparse_spec hl hr hs
  obtain ⟨y, y1, y2, y3⟩ := Dense.subInPlaceSparse_spec hl hr hs
  obtain ⟨z, z1, z2, z3⟩ := (Dense.mulSparse_spec hl hr hs).2
  exact ⟨by rw [x1, dpoly_injective x3 a2 (x2.trans a1.symm)],
    by rw [y1, dpoly_injective y3 s2 (y2.trans s1.symm)],
    by rw [z1, w1, dpoly_injective z3 w3 (z2.trans w2.symm)]⟩

/-- C35: conversions. -/
theorem C35_convert {a : List (ℕ × F)} (ha : SClean a) (l : List F) :
    (dpoly (Sparse.toDense a) = spoly a ∧ DClean (Sparse.toDense a)) ∧
    (spoly (Dense.toSparse l) = dpoly l ∧ SClean (Dense.toSparse l)) ∧
    Dense.toSparse (Sparse.toDense a) = a := by
  obtain ⟨h1, h2⟩ := Sparse.toDense_spec ha
  refine ⟨⟨h1, h2⟩, Dense.toSparse_spec l, ?_⟩
  obtain ⟨h3, h4⟩ := Dense.toSparse_spec (Sparse.toDense a)
  exact spoly_injective h4 ha (h3.trans h1)

-- cancellation of the leading coefficients, and all of them
example : Dense.add [(1 : F7), 2, 3] [1, 5, 4] = [2] ∧ Dense.sub [(1 : F7), 2] [1, 2] = [] ∧
    Dense.mul [(1 : F7), 2] [3, 0, 4] = some [3, 6, 4, 1] ∧
    Sparse.add [(0, (1 : F7)), (5, 3)] [(2, 1), (5, 4)] = some [(0, 1), (2, 1)] ∧
    Sparse.mul [(0, (1 : F7)), (1, 1)] [(0, 1), (1, 6)] = [(0, 1), (2, 6)] ∧
    Dense.addInPlaceSparse [(1 : F7), 2] [(1, 5), (4, 3)] [(4, 3), (1, 5)] = some [1, 0, 0, 0, 3] ∧
    Dense.subSparse [(1 : F7), 2] [(1, 2)] = [1] := by
  decide +kernel
example : DClean [(1 : F7), 2, 3] ∧ SClean [(0, (1 : F7)), (5, 3)] :=
  ⟨by unfold DClean; decide, by unfold SClean; decide⟩

/-! ## C36 -/

/-- C36: `Div`, `Mod` and `DivMod` of a dense polynomial by a dense or sparse one: quotient and
remainder. -/
theorem C36_divide {l : List F} {d : Dense.Divisor F} (hl : DClean l) (hd : d.Clean)
    (hne : dpoly l ≠ 0) (h0 : d.poly ≠ 0) :
    ∃ q r, Dense.divMod l d = some (q, r) ∧ Dense.div l d = some q ∧ Dense.mod l d = some r ∧
      dpoly l = dpoly q * d.poly + dpoly r ∧ (dpoly r).degree < d.poly.degree ∧
      dpoly q = dpoly l / d.poly ∧ dpoly r = dpoly l % d.poly ∧ DClean q ∧ DClean r := by
  obtain ⟨q, r, h1, h2, h3, h4, h5⟩ := Dense.divide_spec hl hd h0 (by rintro rfl; exact hne rfl)
  obtain ⟨h6, h7⟩ := Dense.div_mod_unique h2 h3
  exact ⟨q, r, h1, by rw [Dense.div, h1, Option.map_some, Dense.removeZeros_of_clean h4],
    by rw [Dense.mod, h1, Option.map_some, Dense.removeZeros_of_clean h5], h2, h3, h6, h7, h4, h5⟩

/-- C36: the same for a sparse dividend. -/
theorem C36_sparse {a : List (ℕ × F)} {d : Dense.Divisor F} (ha : SClean a) (hd : d.Clean)
    (hne : spoly a ≠ 0) (h0 : d.poly ≠ 0) :
    ∃ q r, Sparse.divMod a d = some (q, r) ∧ Sparse.div a d = some q ∧ Sparse.mod a d = some r ∧
      spoly a = dpoly q * d.poly + dpoly r ∧ (dpoly r).degree < d.poly.degree ∧
      dpoly q = spoly a / d.poly ∧ dpoly r = spoly a % d.poly ∧ DClean q ∧ DClean r := by
  obtain ⟨h1, h2⟩ := Sparse.toDense_spec ha
  have he : ¬a.isEmpty = true := by
    rw [List.isEmpty_iff]; rintro rfl; exact hne rfl
  have := C36_divide h2 hd (h1 ▸ hne) h0
  rw [h1] at this
  rw [Sparse.divMod, Sparse.div, Sparse.mod, if_neg he, if_neg he, if_neg he]
  exact this

/-- C36: dividing by zero is reported, except for a sparse zero dividend. -/
theorem C36_zero_divisor {l : List F} {a : List (ℕ × F)} {d : Dense.Divisor F} (hd : d.Clean)
    (h0 : d.poly = 0) :
    (Dense.divMod l d = none ∧ Dense.div l d = none ∧ Dense.mod l d = none) ∧
    (a ≠ [] → Sparse.divMod a d = none ∧ Sparse.div a d = none ∧ Sparse.mod a d = none) ∧
    Sparse.divMod ([] : List (ℕ × F)) d = some ([], []) := by
  have hz := (Dense.Divisor.isZero_iff hd).2 h0
  have key : ∀ l : List F, Dense.divide l d = none := fun l => by rw [Dense.divide, if_pos hz]
  refine ⟨⟨key l, by rw [Dense.div, key]; rfl, by rw [Dense.mod, key]; rfl⟩, fun ha => ?_, ?_⟩
  · have he : ¬a.isEmpty = true := by rwa [List.isEmpty_iff]
    rw [Sparse.divMod, Sparse.div, Sparse.mod, if_neg he, if_neg he, if_neg he, Dense.divMod, Dense.div,
      Dense.mod, key]
    exact ⟨rfl, rfl, rfl⟩
  · rw [Sparse.divMod, if_pos (by rfl)]
    cases d with
    | dense l => rw [(dpoly_eq_zero hd).1 h0]; rfl
    | sparse t => rw [(spoly_eq_zero hd).1 h0]; rfl

/-- C36: the zero polynomial divided by `d` gives quotient zero and remainder `d` instead of zero, so the
remainder is not smaller than the divisor. -/
theorem C36_zero_dividend_wrong {d : Dense.Divisor F} (hd : d.Clean) (h0 : d.poly ≠ 0) :
    (∃ r, Dense.divMod [] d = some ([], r) ∧ Dense.mod [] d = some r ∧ dpoly r = d.poly) ∧
    (∃ r, Sparse.divMod [] d = some ([], r) ∧ Sparse.mod [] d = some r ∧ dpoly r = d.poly) := by
  have hz : ¬d.isZero = true := by rw [Dense.Divisor.isZero_iff hd]; exact h0
  have ht : dpoly d.toDense = d.poly ∧ DClean d.toDense := by
    cases d with
    | dense l => exact ⟨rfl, hd⟩
    | sparse t => exact Sparse.toDense_spec hd
  have key : Dense.divide [] d = some ([], d.toDense) := by
    rw [Dense.divide, if_neg hz]; rfl
  refine ⟨⟨_, key, ?_, ht.1⟩, ⟨_, rfl, rfl, ht.1⟩⟩
  rw [Dense.mod, key, Option.map_some, Dense.removeZeros_of_clean ht.2]

-- (2x^3 + 4x^2 + 6x + 1) / (3x + 1)
example : Dense.divMod [(1 : F7), 6, 4, 2] (.dense [1, 3]) = some ([5, 5, 3], [3]) ∧
    Dense.divMod [(1 : F7), 6, 4, 2] (.sparse [(0, 1), (1, 3)]) = some ([5, 5, 3], [3]) := by
  decide +kernel
example : Dense.mod [] (.dense [(1 : F7), 3]) = some [1, 3] := by decide +kernel

/-! ## C37 -/

/-- C37: `Evaluate` of a dense polynomial, for every number of threads. -/
theorem C37_dense {threads : ℕ} (l : List F) (x : F) (ht : 0 < threads)
    (h : l.length + threads ≤ 2 ^ 64) (h2 : 2 * l.length ≤ 2 ^ 64) :
    Dense.evaluate threads l x = (dpoly l).eval x :=
  Dense.evaluate_spec l x ht h h2

omit [DecidableEq F] in
/-- C37: `Evaluate` of a sparse polynomial whose degrees are below the characteristic. -/
theorem C37_sparse (p limbs : ℕ) {a : List (ℕ × F)} (ha : SClean a) (x : F)
    (hp : ∀ t ∈ a, t.1 < p) (h64 : ∀ t ∈ a, t.1 < 2 ^ 64) :
    Sparse.evaluate p limbs a x = some ((spoly a).eval x) :=
  Sparse.evaluate_spec p limbs ha.1 x hp h64

omit [DecidableEq F] in
/-- C37: a degree that is not below the characteristic is not a value of the field: the code has no
defined result. -/
theorem C37_sparse_undefined (p limbs : ℕ) {a : List (ℕ × F)} (x : F) (h : ∃ t ∈ a, p ≤ t.1) :
    Sparse.evaluate p limbs a x = none :=
  Sparse.evaluate_undefined p limbs x h

example : Dense.evaluate 3 [(1 : F7), 2, 3, 4, 5] 3 = 1 + 2 * 3 + 3 * 3 ^ 2 + 4 * 3 ^ 3 + 5 * 3 ^ 4 ∧
    Sparse.evaluate 7 1 [(0, (1 : F7)), (4, 5)] 3 = some (1 + 5 * 3 ^ 4) := by decide +kernel
-- x^7 = x, but there is no field element 7
example : Sparse.evaluate 7 1 [(7, (1 : F7))] 3 = none := by decide +kernel

/-! ## C40 -/

/-- C40: for distinct points `LagrangeInterpolate` returns a clean polynomial with fewer coefficients
than points (or as many) that takes the given values; it is the only polynomial of degree below the
number of points that does. -/
theorem C40_interpolate {threads : ℕ} {points evals : List F} (ht : 0 < threads)
    (hlen : points.length = evals.length) (h0 : points ≠ []) (hn : points.Nodup)
    (h : points.length + threads ≤ 2 ^ 64) (h2 : 2 * points.length ≤ 2 ^ 64) :
    ∃ w, lagrangeInterpolate threads points evals = some w ∧ DClean w ∧
      (dpoly w).degree < points.length ∧
      (∀ (k : ℕ) (hk : k < points.length), (dpoly w).eval points[k] = evals[k]'(hlen ▸ hk)) ∧
      ∀ g : F[X], g.degree < points.length →
        (∀ (k : ℕ) (hk : k < points.length), g.eval points[k] = evals[k]'(hlen ▸ hk)) → g = dpoly w := by
  obtain ⟨w, h3, h4, h5, h6⟩ := interpolate_spec ht hlen h0 hn h h2
  refine ⟨w, h3, h4, degree_dpoly_lt h5, h6, fun g hg hv => ?_⟩
  refine eq_of_values hn hg (degree_dpoly_lt h5) fun x hx => ?_
  obtain ⟨k, hk, rfl⟩ := List.getElem_of_mem hx
  rw [hv k hk, h6 k hk]

/-- C40: different numbers of points and values are rejected. -/
theorem C40_mismatch (threads : ℕ) (points evals : List F) (h : points.length ≠ evals.length) :
    lagrangeInterpolate threads points evals = none := by
  unfold lagrangeInterpolate; rw [if_pos h]

example : lagrangeInterpolate 2 [(1 : F7), 2, 4] [3, 6, 5] = some [0, 3] ∧
    lagrangeInterpolate 3 [(1 : F7), 2, 4] [3, 0, 0] = some [1, 1, 1] := by decide +kernel

/-- C40: the points must be distinct: with a repeated point the function reports success, and the
polynomial does not take the values. -/
theorem C40_duplicate_wrong : lagrangeInterpolate 1 [(1 : F7), 1, 2] [3, 3, 5] = some [5, 4, 5] ∧
    (dpoly [(5 : F7), 4, 5]).eval 1 ≠ 3 := by
  refine ⟨by decide +kernel, ?_⟩
  rw [← Dense.horner_eq]; decide +kernel

/-- C40: without points `coeffs_sums[0]` does not exist. -/
theorem C40_empty_undefined : lagrangeInterpolate 1 ([] : List (F7)) [] = none := by decide +kernel

/-! ## C57 -/

omit [DecidableEq F] in
/-- C57: `FromRoots` returns the monic polynomial with the given roots, with multiplicity. -/
theorem C57_fromRoots (roots : List F) : ∃ c, Dense.fromRoots roots = some c ∧ DClean c ∧
    c.length = roots.length + 1 ∧ dpoly c = (roots.map fun r => X - C r).prod ∧
    (dpoly c).roots = (roots : Multiset F) := by
  obtain ⟨c, h1, h2, h3⟩ := Dense.fromRoots_spec roots
  have hm : (roots.map fun r => (X - C r : F[X])).prod = ((roots : Multiset F).map fun r => X - C r).prod := by
    simp
  refine ⟨c, h1, ?_, h2, h3, by rw [h3, hm, roots_multiset_prod_X_sub_C]⟩
  intro hlast
  have h4 := getLast?_coeff hlast
  rw [h3, h2, Nat.add_sub_cancel, hm] at h4
  have h5 : ((roots : Multiset F).map fun r => (X - C r : F[X])).prod.natDegree = roots.length := by
    rw [natDegree_multiset_prod_X_sub_C_eq_card]; rfl
  have h6 := (monic_multiset_prod_of_monic (roots : Multiset F) (fun r => (X - C r : F[X]))
    fun r _ => monic_X_sub_C r).leadingCoeff
  rw [leadingCoeff, h5, h4] at h6
  exact zero_ne_one h6

omit [DecidableEq F] in
/-- C57: `EvaluateVanishingPolyByRoots` agrees with it, for every number of threads. -/
theorem C57_vanishing {threads : ℕ} (roots : List F) (x : F) (ht : 0 < threads)
    (h : roots.length + threads ≤ 2 ^ 64) (h2 : 2 * roots.length ≤ 2 ^ 64) :
    Dense.vanishingByRoots threads roots x = (roots.map fun r => x - r).prod ∧
    ∃ c, Dense.fromRoots roots = some c ∧ Dense.vanishingByRoots threads roots x = (dpoly c).eval x := by
  have h3 := Dense.vanishing_spec roots x ht h h2
  obtain ⟨c, h4, -, h5⟩ := Dense.fromRoots_spec roots
  refine ⟨h3, c, h4, ?_⟩
  rw [h3, h5, eval_list_prod, List.map_map]
  congr 1
  refine List.map_congr_left fun r _ => ?_
  simp

-- (x - 1)^2 (x - 3)
example : Dense.fromRoots [(1 : F7), 1, 3] = some [4, 0, 2, 1] ∧
    Dense.vanishingByRoots 2 [(1 : F7), 1, 3] 5 = (5 - 1) * (5 - 1) * (5 - 3) := by decide +kernel

/-! ## C58 -/

/-- C58: `Fold` of a dense polynomial with an even number of coefficients adds `r` times the odd part to
the even part. -/
theorem C58_dense (l : List F) (r : F) (he : 2 ∣ l.length) :
    ∃ w, Dense.fold l r = some w ∧ DClean w ∧ ∀ i, (dpoly w).coeff i =
      (dpoly l).coeff (2 * i) + r * (dpoly l).coeff (2 * i + 1) :=
  Dense.fold_spec l r he

/-- C58: with an odd number of coefficients, that is for a clean polynomial of even degree, the loop
reads past the end. -/
theorem C58_dense_odd (l : List F) (r : F) (ho : ¬2 ∣ l.length) : Dense.fold l r = none :=
  Dense.fold_odd l r ho

/-- C58: `Fold` of a sparse polynomial. -/
theorem C58_sparse {a : List (ℕ × F)} (ha : SClean a) (r : F) : SClean (Sparse.fold a r) ∧
    ∀ i, (spoly (Sparse.fold a r)).coeff i = (spoly a).coeff (2 * i) + r * (spoly a).coeff (2 * i + 1) :=
  Sparse.fold_spec ha r

example : Dense.fold [(1 : F7), 2, 3, 4] 5 = some [1 + 2 * 5, 3 + 4 * 5] ∧
    Dense.fold [(1 : F7), 2, 3] 5 = none ∧
    Sparse.fold [(0, (1 : F7)), (1, 2), (2, 1), (3, 4), (7, 2)] 5 = [(0, 4), (3, 3)] := by
  decide +kernel

end Tachyon.Props
