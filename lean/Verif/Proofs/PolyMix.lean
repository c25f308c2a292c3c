import Verif.Proofs.PolyOps
import Mathlib.Algebra.Polynomial.FieldDivision
/-! Dense polynomials with sparse arguments, and division. -/
universe u
namespace Tachyon.Poly
open Polynomial

variable {F : Type u} [Field F] [DecidableEq F]

namespace Dense

theorem addSparse_spec {l : List F} {r : List (ℕ × F)} (hl : DClean l) (hr : SClean r) :
    dpoly (addSparse l r) = dpoly l + spoly r ∧ DClean (addSparse l r) := by
  rw [addSparse]; split
  · next h => rw [List.isEmpty_iff.1 h]; simpa [dpoly] using Sparse.toDense_spec hr
  · split
    · next h => rw [List.isEmpty_iff.1 h]; exact ⟨by simp, hl⟩
    · apply removeZeros_is
      ext i
      rw [coeff_dpoly, getD_map_range, coeff_add, ← coeff_eq, ← Sparse.coeff_eq hr.1]
      split
      · rfl
      · rw [degree_eq_length] at *
        rw [coeff_of_le (by omega), Sparse.coeff_of_lt hr.1 (by omega), add_zero]

theorem subSparse_spec {l : List F} {r : List (ℕ × F)} (hl : DClean l) (hr : SClean r) :
    dpoly (subSparse l r) = dpoly l - spoly r ∧ DClean (subSparse l r) := by
  rw [subSparse]; split
  · next h =>
    rw [List.isEmpty_iff.1 h]
    have := Sparse.toDense_spec (Sparse.neg_spec hr).2
    rw [Sparse.spoly_neg] at this
    simpa [dpoly] using this
  · split
    · next h => rw [List.isEmpty_iff.1 h]; exact ⟨by simp, hl⟩
    · apply removeZeros_is
      ext i
      rw [coeff_dpoly, getD_map_range, coeff_sub, ← coeff_eq, ← Sparse.coeff_eq hr.1]
      split
      · rfl
      · rw [degree_eq_length] at *
        rw [coeff_of_le (by omega), Sparse.coeff_of_lt hr.1 (by omega), sub_zero]

/-- `spoly` or its negation. -/
noncomputable def signed (negation : Bool) (p : F[X]) : F[X] := if negation then -p else p

omit [DecidableEq F] in
theorem signed_cons (negation : Bool) (t : ℕ × F) (ts : List (ℕ × F)) :
    signed negation (spoly (t :: ts)) =
      monomial t.1 (if negation then -t.2 else t.2) + signed negation (spoly ts) := by
  cases negation
  · simp [signed]
  · simp [signed]; ring

omit [DecidableEq F] in
theorem copy_spec (negation : Bool) : ∀ (sched : List (ℕ × F)) (c : List F),
    (∀ t ∈ sched, t.1 < c.length) → (sched.map Prod.fst).Nodup →
    (∀ t ∈ sched, (dpoly c).coeff t.1 = 0) →
    ∃ w, sched.foldlM (fun c t => modifyAt c t.1 fun _ => if negation then -t.2 else t.2) c = some w ∧
      w.length = c.length ∧ dpoly w = dpoly c + signed negation (spoly sched)
  | [], c, _, _, _ => ⟨c, rfl, rfl, by cases negation <;> simp [signed]⟩
  | t :: ts, c, h, hn, h0 => by
    rw [List.map_cons, List.nodup_cons] at hn
    obtain ⟨v, e1, e2, e3⟩ := modifyAt_spec c (fun _ => if negation then -t.2 else t.2) (h t (by simp))
    rw [h0 t (by simp), sub_zero] at e3
    obtain ⟨w, f1, f2, f3⟩ := copy_spec negation ts v (fun s hs => by rw [e2]; exact h s (by simp [hs]))
      hn.2 (fun s hs => by
        rw [e3, coeff_add, h0 s (by simp [hs]), coeff_monomial, if_neg, add_zero]
        intro e; exact hn.1 (List.mem_map.2 ⟨s, hs, e.symm⟩))
    refine ⟨w, ?_, f2.trans e2, ?_⟩
    · rw [List.foldlM_cons, e1]; exact f1
    · rw [f3, e3, signed_cons]; ring

omit [Field F] [DecidableEq F] in
theorem nodup_of_perm {r sched : List (ℕ × F)} (h : sched.Perm r)
    (hr : r.Pairwise fun a b => a.1 < b.1) : (sched.map Prod.fst).Nodup :=
  (h.map Prod.fst).nodup_iff.2 (sorted_nodup hr)

theorem copySparse_spec (negation : Bool) {r sched : List (ℕ × F)} (hr : SClean r) (hs : sched.Perm r) :
    ∃ w, copySparse negation r sched = some w ∧ dpoly w = signed negation (spoly r) ∧ DClean w := by
  obtain ⟨w, e1, -, e3⟩ := copy_spec negation sched (List.replicate (Sparse.degree r + 1) (0 : F))
    (fun t ht => by
      rw [List.length_replicate]
      exact Nat.lt_succ_of_le (Sparse.degree_max hr.1 t (hs.subset ht)))
    (nodup_of_perm hs hr.1) (fun t _ => by rw [dpoly_replicate_zero]; simp)
  rw [copySparse, e1]
  refine ⟨_, rfl, removeZeros_is ?_⟩
  rw [e3, dpoly_replicate_zero, zero_add, spoly_perm hs]

omit [DecidableEq F] in
theorem termsInto_spec (negation : Bool) (D : ℕ) : ∀ (sched : List (ℕ × F)) (lo up : List F),
    lo.length = D + 1 → (∀ t ∈ sched, t.1 < D + 1 + up.length) → (sched.map Prod.fst).Nodup →
    (∀ t ∈ sched, D < t.1 → (dpoly up).coeff (t.1 - D - 1) = 0) →
    ∃ s, termsInto negation D sched lo up = some s ∧ s.1.length = D + 1 ∧ s.2.length = up.length ∧
      dpoly (s.1 ++ s.2) = dpoly (lo ++ up) + signed negation (spoly sched)
  | [], lo, up, h, _, _, _ => ⟨(lo, up), rfl, h, rfl, by cases negation <;> simp [signed]⟩
  | t :: ts, lo, up, hlo, h, hn, h0 => by
    rw [List.map_cons, List.nodup_cons] at hn
    have hts : ∀ s ∈ ts, t.1 ≠ s.1 := fun s hs e => hn.1 (List.mem_map.2 ⟨s, hs, e.symm⟩)
    rw [termsInto, List.foldlM_cons]
    by_cases hD : t.1 ≤ D
    · simp only [hD, if_true]
      obtain ⟨v, e1, e2, e3⟩ := modifyAt_spec lo (i := t.1)
        (fun c => if negation then c - t.2 else c + t.2) (by omega)
      obtain ⟨s, f1, f2, f3, f4⟩ := termsInto_spec negation D ts v up (e2.trans hlo)
        (fun s hs => h s (by simp [hs])) hn.2 (fun s hs => h0 s (by simp [hs]))
      refine ⟨s, ?_, f2, f3, ?_⟩
      · rw [e1]; exact f1
      · rw [f4, dpoly_append, dpoly_append, e2, e3, signed_cons]
        have : (if negation then (dpoly lo).coeff t.1 - t.2 else (dpoly lo).coeff t.1 + t.2) -
            (dpoly lo).coeff t.1 = if negation then -t.2 else t.2 := by cases negation <;> simp
        rw [this]; ring
    · simp only [hD, if_false]
      have hu := h t (by simp)
      obtain ⟨v, e1, e2, e3⟩ := modifyAt_spec up (i := t.1 - D - 1)
        (fun _ => if negation then -t.2 else t.2) (by omega)
      rw [h0 t (by simp) (by omega), sub_zero] at e3
      obtain ⟨s, f1, f2, f3, f4⟩ := termsInto_spec negation D ts lo v hlo
        (fun s hs => by rw [e2]; exact h s (by simp [hs])) hn.2 (fun s hs hsD => by
          rw [e3, coeff_add, h0 s (by simp [hs]) hsD, coeff_monomial, if_neg, add_zero]
          have := hts s hs
          omega)
      refine ⟨s, ?_, f2, f3.trans e2, ?_⟩
      · rw [e1]; exact f1
      · rw [f4, dpoly_append, dpoly_append, e3, signed_cons, mul_add, hlo]
        have : (monomial t.1 (if negation = true then -t.2 else t.2) : F[X]) =
            X ^ (D + 1) * monomial (t.1 - D - 1) (if negation = true then -t.2 else t.2) := by
          rw [monomial_eq, monomial_eq, ← mul_assoc, ← pow_add]
          congr 2; omega
        rw [this]; ring

theorem inPlaceSparse_spec (negation : Bool) {l : List F} {r sched : List (ℕ × F)} (hr : SClean r)
    (hs : sched.Perm r) (hl0 : l ≠ []) :
    ∃ w, ((termsInto negation (degree l) sched l
        (List.replicate (Sparse.degree r - degree l) 0)).map fun s => removeZeros (s.1 ++ s.2)) = some w ∧
      dpoly w = dpoly l + signed negation (spoly r) ∧ DClean w := by
  have hlen : l.length = degree l + 1 := by
    have := List.length_pos_iff.2 hl0
    rw [degree_eq_length]; omega
  obtain ⟨s, e1, -, -, e4⟩ := termsInto_spec negation (degree l) sched l
    (List.replicate (Sparse.degree r - degree l) 0) hlen
    (fun t ht => by
      have := Sparse.degree_max hr.1 t (hs.subset ht)
      rw [List.length_replicate]; omega)
    (nodup_of_perm hs hr.1) (fun t _ _ => by rw [dpoly_replicate_zero]; simp)
  rw [e1]
  refine ⟨_, rfl, removeZeros_is ?_⟩
  rw [e4, dpoly_append, dpoly_replicate_zero, spoly_perm hs]; simp

theorem addInPlaceSparse_spec {l : List F} {r sched : List (ℕ × F)} (hl : DClean l) (hr : SClean r)
    (hs : sched.Perm r) :
    ∃ w, addInPlaceSparse l r sched = some w ∧ dpoly w = dpoly l + spoly r ∧ DClean w := by
  rw [addInPlaceSparse]; split
  · next h => rw [List.isEmpty_iff.1 h]; simpa [dpoly, signed] using copySparse_spec false hr hs
  · next h =>
    split
    · next h' => rw [List.isEmpty_iff.1 h']; exact ⟨l, rfl, by simp, hl⟩
    · simpa [signed] using inPlaceSparse_spec false hr hs (isEmpty_ne h)

theorem subInPlaceSparse_spec {l : List F} {r sched : List (ℕ × F)} (hl : DClean l) (hr : SClean r)
    (hs : sched.Perm r) :
    ∃ w, subInPlaceSparse l r sched = some w ∧ dpoly w = dpoly l - spoly r ∧ DClean w := by
  rw [subInPlaceSparse]; split
  · next h => rw [List.isEmpty_iff.1 h]; simpa [dpoly, signed] using copySparse_spec true hr hs
  · next h =>
    split
    · next h' => rw [List.isEmpty_iff.1 h']; exact ⟨l, rfl, by simp, hl⟩
    · simpa [signed, sub_eq_add_neg] using inPlaceSparse_spec true hr hs (isEmpty_ne h)

theorem doMulSparse_spec {a : List F} {b : List (ℕ × F)} (ha : a ≠ []) (hb : SClean b) :
    ∃ w, doMulSparse a b = some w ∧ dpoly w = dpoly a * spoly b ∧ DClean w := by
  have h1 := List.length_pos_iff.2 ha
  obtain ⟨w, e1, -, e3⟩ := mulTerms_spec a b (List.replicate (degree a + Sparse.degree b + 1) 0)
    fun t ht => by
      have := Sparse.degree_max hb.1 t ht
      rw [List.length_replicate, degree_eq_length]; omega
  rw [doMulSparse, e1]
  exact ⟨_, rfl, removeZeros_is (by rw [e3, dpoly_replicate_zero]; simp)⟩

theorem mulSparse_spec {a : List F} {b sched : List (ℕ × F)} (ha : DClean a) (hb : SClean b)
    (hs : sched.Perm b) :
    (∃ w, mulSparse a b = some w ∧ dpoly w = dpoly a * spoly b ∧ DClean w) ∧
    ∃ w, mulInPlaceSparse a b sched = some w ∧ dpoly w = dpoly a * spoly b ∧ DClean w := by
  constructor
  · rw [mulSparse]; split
    · next h =>
      refine ⟨_, rfl, ?_, dclean_nil⟩
      rcases h with h | h <;> rw [List.isEmpty_iff.1 h] <;> simp [dpoly]
    · next h =>
      rw [not_or] at h
      split
      · next h1 => rw [isOne_iff.1 h1]; exact ⟨_, rfl, by simpa [dpoly] using Sparse.toDense_spec hb⟩
      · split
        · next h1 => rw [Sparse.isOne_iff.1 h1]; exact ⟨_, rfl, by simp, ha⟩
        · exact doMulSparse_spec (isEmpty_ne h.1) hb
  · rw [mulInPlaceSparse]; split
    · next h =>
      refine ⟨_, rfl, ?_, ha⟩
      rcases h with h | h
      · rw [List.isEmpty_iff.1 h]; simp [dpoly]
      · rw [Sparse.isOne_iff.1 h]; simp
    · next h =>
      rw [not_or] at h
      split
      · next h1 => rw [isOne_iff.1 h1]; simpa [dpoly, signed] using copySparse_spec false hb hs
      · split
        · next h1 => rw [List.isEmpty_iff.1 h1]; exact ⟨_, rfl, by simp [dpoly], dclean_nil⟩
        · exact doMulSparse_spec (isEmpty_ne h.1) hb

theorem toSparse_spec (l : List F) : spoly (toSparse l) = dpoly l ∧ SClean (toSparse l) := by
  have hs : SClean (toSparse l) := by
    constructor
    · rw [toSparse, List.pairwise_map]
      exact (List.pairwise_lt_range.sublist List.filter_sublist)
    · intro t ht
      obtain ⟨i, hi, rfl⟩ := List.mem_map.1 ht
      simpa using (List.mem_filter.1 hi).2
  refine ⟨?_, hs⟩
  ext i
  by_cases hi : i < degree l + 1 ∧ coeff l i ≠ 0
  · have : (i, coeff l i) ∈ toSparse l := List.mem_map.2 ⟨i, List.mem_filter.2
      ⟨List.mem_range.2 hi.1, by simpa using hi.2⟩, rfl⟩
    rw [coeff_spoly_of_mem (sorted_nodup hs.1) this, coeff_eq]
  · rw [coeff_spoly_eq_zero, ← coeff_eq]
    · symm
      by_contra hne
      refine hi ⟨?_, hne⟩
      by_contra hge
      rw [degree_eq_length] at hge
      exact hne (coeff_of_le (by omega))
    · intro t ht e
      obtain ⟨j, hj, rfl⟩ := List.mem_map.1 ht
      obtain ⟨h1, h2⟩ := List.mem_filter.1 hj
      obtain rfl : j = i := e
      exact hi ⟨List.mem_range.1 h1, by simpa using h2⟩

/-! ### Division -/

theorem divideGo_spec {sub : F → ℕ → List F → Option (List F)} {dD : ℕ} {inv : F} {D : F[X]}
    (hD : D.natDegree = dD) (hinv : D.coeff dD * inv = 1)
    (hsub : ∀ (q : F) (k : ℕ) (r : List F), k + dD < r.length →
      ∃ r', sub q k r = some r' ∧ r'.length = r.length ∧ dpoly r' = dpoly r - C q * X ^ k * D) :
    ∀ (n : ℕ) (q r : List F), r.length < n → r.length ≤ q.length + dD → DClean r →
    (∀ i, i + dD < r.length → (dpoly q).coeff i = 0) →
    ∃ q' r', divideGo sub dD inv n q r = some (q', r') ∧
      dpoly q' * D + dpoly r' = dpoly q * D + dpoly r ∧ DClean r' ∧ (dpoly r').degree < D.degree := by
  have hD0 : D ≠ 0 := by rintro rfl; simp at hinv
  intro n
  induction n with
  | zero => intro q r h; omega
  | succ n ih =>
    intro q r hn hq hr hz
    rw [divideGo]
    rcases hlast : r.getLast? with _ | last
    · obtain rfl : r = [] := List.getLast?_eq_none_iff.1 hlast
      exact ⟨q, [], rfl, rfl, hr, by simpa [dpoly, bot_lt_iff_ne_bot] using hD0⟩
    · have hne : r ≠ [] := by rintro rfl; simp at hlast
      have hpos := List.length_pos_iff.2 hne
      have hdeg := degree_eq_length r
      dsimp only
      split
      · next hle =>
        generalize hk : degree r - dD = k
        obtain ⟨q1, e1, e2, e3⟩ := modifyAt_spec q (i := k) (fun _ => last * inv) (by omega)
        rw [hz k (by omega), sub_zero] at e3
        obtain ⟨r1, f1, f2, f3⟩ := hsub (last * inv) k r (by omega)
        rw [e1, f1]
        dsimp only
        have hr1 : (dpoly r1).coeff (r1.length - 1) = 0 := by
          rw [f3, coeff_sub, f2, getLast?_coeff hlast, mul_assoc, coeff_C_mul,
            show r.length - 1 = dD + k by omega, coeff_X_pow_mul]
          linear_combination (-last) * hinv
        have hlt := length_removeZeros_lt (by intro e; rw [e] at f2; simp at f2; omega) hr1
        obtain ⟨g1, g2, -⟩ := removeZeros_spec r1
        obtain ⟨q', r', i1, i2, i3, i4⟩ := ih q1 (removeZeros r1) (by omega) (by omega) g2
          (fun i hi => by
            rw [e3, coeff_add, hz i (by omega), coeff_monomial, if_neg (by omega), add_zero])
        refine ⟨q', r', i1, ?_, i3, i4⟩
        rw [i2, e3, g1, f3, monomial_eq]; ring
      · next hgt =>
        refine ⟨q, r, rfl, rfl, hr, ?_⟩
        apply degree_lt_degree
        rw [natDegree_dpoly hr, hD]; omega

/-- The polynomial of a divisor. -/
noncomputable def Divisor.poly : Divisor F → F[X]
  | .dense l => dpoly l
  | .sparse t => spoly t

/-- A clean divisor. -/
def Divisor.Clean : Divisor F → Prop
  | .dense l => DClean l
  | .sparse t => SClean t

omit [DecidableEq F] in
theorem Divisor.isZero_iff {d : Divisor F} (h : d.Clean) : d.isZero = true ↔ d.poly = 0 := by
  cases d with
  | dense l => rw [isZero, List.isEmpty_iff]; exact (dpoly_eq_zero h).symm
  | sparse t => rw [isZero, List.isEmpty_iff]; exact (spoly_eq_zero h).symm

omit [DecidableEq F] in
theorem Divisor.facts {d : Divisor F} (h : d.Clean) (h0 : d.poly ≠ 0) :
    d.poly.natDegree = d.degree ∧ d.poly.coeff d.degree = d.leading ∧ d.leading ≠ 0 := by
  have key : d.poly.natDegree = d.degree ∧ d.poly.coeff d.degree = d.leading := by
    cases d with
    | dense l =>
      refine ⟨natDegree_dpoly h, ?_⟩
      have hne : l ≠ [] := by rintro rfl; exact h0 rfl
      show (dpoly l).coeff (Dense.degree l) = Dense.leading l
      rw [Dense.degree_eq_length, Dense.leading, List.getLast?_eq_some_getLast hne, Option.getD_some]
      exact getLast?_coeff (List.getLast?_eq_some_getLast hne)
    | sparse t =>
      have hne : t ≠ [] := by rintro rfl; exact h0 rfl
      exact ⟨(Sparse.leading_eq h hne).2.2, (Sparse.leading_eq h hne).2.1⟩
  refine ⟨key.1, key.2, ?_⟩
  rw [← key.2, ← key.1]
  exact mt leadingCoeff_eq_zero.1 h0

omit [DecidableEq F] in
theorem Divisor.sub_spec {d : Divisor F} (h : d.Clean) (h0 : d.poly ≠ 0) (q : F) (k : ℕ) (r : List F)
    (hk : k + d.degree < r.length) :
    ∃ r', d.sub q k r = some r' ∧ r'.length = r.length ∧ dpoly r' = dpoly r - C q * X ^ k * d.poly := by
  cases d with
  | dense l =>
    have hne : l ≠ [] := by rintro rfl; exact h0 rfl
    have := List.length_pos_iff.2 hne
    exact subRow_spec q l k r (by
      have : Divisor.degree (.dense l) = Dense.degree l := rfl
      rw [this, Dense.degree_eq_length] at hk
      omega)
  | sparse t =>
    exact subTerms_spec q k t r fun s hs => by
      have : s.1 ≤ Divisor.degree (.sparse t) := Sparse.degree_max h.1 s hs
      omega

theorem divide_spec {l : List F} {d : Divisor F} (hl : DClean l) (hd : d.Clean) (h0 : d.poly ≠ 0)
    (hne : l ≠ []) :
    ∃ q r, divide l d = some (q, r) ∧ dpoly l = dpoly q * d.poly + dpoly r ∧
      (dpoly r).degree < d.poly.degree ∧ DClean q ∧ DClean r := by
  obtain ⟨h1, h2, h3⟩ := Divisor.facts hd h0
  rw [divide, if_neg (by rw [Divisor.isZero_iff hd]; exact h0), if_neg (by simpa using hne)]
  split
  · next hlt =>
    refine ⟨[], l, rfl, by simp [dpoly], ?_, dclean_nil, hl⟩
    exact degree_lt_degree (by rw [natDegree_dpoly hl, h1]; exact hlt)
  · next hge =>
    have hpos := List.length_pos_iff.2 hne
    have hdl := degree_eq_length l
    obtain ⟨q, r, e1, e2, e3, e4⟩ := divideGo_spec (inv := d.leading⁻¹) h1
      (by rw [h2]; exact mul_inv_cancel₀ h3) (fun q k r hk => Divisor.sub_spec hd h0 q k r hk)
      (l.length + 1) (List.replicate (degree l - d.degree + 1) 0) l (by omega)
      (by rw [List.length_replicate]; omega) hl (fun i _ => by rw [dpoly_replicate_zero]; simp)
    rw [e1]
    obtain ⟨g1, g2, -⟩ := removeZeros_spec q
    refine ⟨_, _, rfl, ?_, e4, g2, e3⟩
    rw [g1, e2, dpoly_replicate_zero]; ring

omit [DecidableEq F] in
theorem div_mod_unique {f g q r : F[X]} (h : f = q * g + r) (hr : r.degree < g.degree) :
    q = f / g ∧ r = f % g := by
  have hg : g ≠ 0 := by
    rintro rfl
    simp at hr
  have h2 : r = f % g := by
    rw [h, add_mod, EuclideanDomain.mod_eq_zero.2 (dvd_mul_left g q), zero_add,
      (mod_eq_self_iff hg).2 hr]
  refine ⟨?_, h2⟩
  have h3 := EuclideanDomain.div_add_mod f g
  rw [← h2] at h3
  have : g * q = g * (f / g) := by linear_combination -h - h3
  exact mul_left_cancel₀ hg this

end Dense
end Tachyon.Poly
