import Verif.Proofs.Poly
/-! What the polynomial operations compute. -/
universe u
namespace Tachyon.Poly
open Polynomial

variable {F : Type u} [Field F]

theorem modifyAt_spec (v : List F) {i : ℕ} (f : F → F) (h : i < v.length) :
    ∃ w, modifyAt v i f = some w ∧ w.length = v.length ∧
      dpoly w = dpoly v + monomial i (f ((dpoly v).coeff i) - (dpoly v).coeff i) := by
  refine ⟨v.set i (f v[i]), by rw [modifyAt, List.getElem?_eq_getElem h], by simp, ?_⟩
  have hc : (dpoly v).coeff i = v[i] := by
    rw [coeff_dpoly, List.getD_eq_getElem?_getD, List.getElem?_eq_getElem h]; rfl
  ext j
  rw [hc, coeff_add, coeff_monomial, coeff_dpoly, coeff_dpoly, List.getD_eq_getElem?_getD,
    List.getD_eq_getElem?_getD, List.getElem?_set]
  by_cases hij : i = j
  · subst hij
    rw [if_pos rfl, if_pos rfl, if_pos h, List.getElem?_eq_getElem h]
    simp
  · rw [if_neg hij, if_neg hij, add_zero]

theorem monomial_eq (i : ℕ) (a : F) : monomial i a = X ^ i * C a := by
  rw [← C_mul_X_pow_eq_monomial, mul_comm]

namespace Dense

theorem mulRow_spec (b : F) : ∀ (a : List F) (k : ℕ) (c : List F), k + a.length ≤ c.length →
    ∃ c', mulRow b a k c = some c' ∧ c'.length = c.length ∧
      dpoly c' = dpoly c + X ^ k * dpoly a * C b
  | [], k, c, _ => ⟨c, rfl, rfl, by simp [dpoly]⟩
  | x :: a, k, c, h => by
    rw [List.length_cons] at h
    obtain ⟨w, h1, h2, h3⟩ := modifyAt_spec c (· + x * b) (i := k) (by omega)
    obtain ⟨c', h4, h5, h6⟩ := mulRow_spec b a (k + 1) w (by omega)
    refine ⟨c', by rw [mulRow, h1]; exact h4, by omega, ?_⟩
    rw [h6, h3, add_sub_cancel_left, monomial_eq, dpoly, pow_succ, C_mul]; ring

theorem subRow_spec (q : F) : ∀ (d : List F) (k : ℕ) (r : List F), k + d.length ≤ r.length →
    ∃ r', subRow q d k r = some r' ∧ r'.length = r.length ∧
      dpoly r' = dpoly r - C q * X ^ k * dpoly d
  | [], k, c, _ => ⟨c, rfl, rfl, by simp [dpoly]⟩
  | x :: a, k, c, h => by
    rw [List.length_cons] at h
    obtain ⟨w, h1, h2, h3⟩ := modifyAt_spec c (· - q * x) (i := k) (by omega)
    obtain ⟨c', h4, h5, h6⟩ := subRow_spec q a (k + 1) w (by omega)
    refine ⟨c', by rw [subRow, h1]; exact h4, by omega, ?_⟩
    rw [h6, h3, sub_sub_cancel_left, monomial_eq, dpoly, pow_succ, C_neg, C_mul]; ring

theorem subTerms_spec (q : F) (k : ℕ) : ∀ (d : List (ℕ × F)) (r : List F),
    (∀ t ∈ d, k + t.1 < r.length) →
    ∃ r', subTerms q k d r = some r' ∧ r'.length = r.length ∧
      dpoly r' = dpoly r - C q * X ^ k * spoly d
  | [], c, _ => ⟨c, rfl, rfl, by simp⟩
  | t :: d, c, h => by
    obtain ⟨w, h1, h2, h3⟩ := modifyAt_spec c (· - q * t.2) (i := k + t.1) (h t (by simp))
    obtain ⟨c', h4, h5, h6⟩ := subTerms_spec q k d w fun s hs => by
      rw [h2]; exact h s (by simp [hs])
    refine ⟨c', by rw [subTerms, h1]; exact h4, by omega, ?_⟩
    rw [h6, h3, sub_sub_cancel_left, monomial_eq, spoly_cons, monomial_eq, pow_add, C_neg, C_mul]; ring

variable [DecidableEq F]

theorem mulRows_spec (a : List F) : ∀ (bs : List F) (i : ℕ) (c : List F),
    i + bs.length + a.length ≤ c.length + 1 →
    ∃ c', mulRows a bs i c = some c' ∧ c'.length = c.length ∧
      dpoly c' = dpoly c + X ^ i * dpoly a * dpoly bs
  | [], i, c, _ => ⟨c, rfl, rfl, by simp [dpoly]⟩
  | b :: bs, i, c, h => by
    rw [List.length_cons] at h
    rw [mulRows]
    by_cases hb : b = 0
    · rw [if_pos hb]
      obtain ⟨c', h4, h5, h6⟩ := mulRows_spec a bs (i + 1) c (by omega)
      refine ⟨c', h4, h5, ?_⟩
      rw [h6, dpoly, hb, C_0, pow_succ]; ring
    · rw [if_neg hb]
      obtain ⟨w, h1, h2, h3⟩ := mulRow_spec b a i c (by omega)
      obtain ⟨c', h4, h5, h6⟩ := mulRows_spec a bs (i + 1) w (by omega)
      refine ⟨c', by rw [h1]; exact h4, by omega, ?_⟩
      rw [h6, h3, dpoly, pow_succ]; ring

theorem mulTerms_spec (a : List F) : ∀ (ts : List (ℕ × F)) (c : List F),
    (∀ t ∈ ts, t.1 + a.length ≤ c.length) →
    ∃ c', mulTerms a ts c = some c' ∧ c'.length = c.length ∧
      dpoly c' = dpoly c + dpoly a * spoly ts
  | [], c, _ => ⟨c, rfl, rfl, by simp⟩
  | t :: ts, c, h => by
    rw [mulTerms]
    by_cases hb : t.2 = 0
    · rw [if_pos hb]
      obtain ⟨c', h4, h5, h6⟩ := mulTerms_spec a ts c fun s hs => h s (by simp [hs])
      refine ⟨c', h4, h5, ?_⟩
      rw [h6, spoly_cons, hb, monomial_zero_right, zero_add]
    · rw [if_neg hb]
      obtain ⟨w, h1, h2, h3⟩ := mulRow_spec t.2 a t.1 c (h t (by simp))
      obtain ⟨c', h4, h5, h6⟩ := mulTerms_spec a ts w fun s hs => by
        rw [h2]; exact h s (by simp [hs])
      refine ⟨c', by rw [h1]; exact h4, by omega, ?_⟩
      rw [h6, h3, spoly_cons, monomial_eq]; ring

/-- The result of a function that ends with `RemoveHighDegreeZeros`. -/
theorem removeZeros_is {l : List F} {p : F[X]} (h : dpoly l = p) :
    dpoly (removeZeros l) = p ∧ DClean (removeZeros l) :=
  ⟨(removeZeros_spec l).1.trans h, (removeZeros_spec l).2.1⟩

omit [DecidableEq F] in
theorem dclean_nil : DClean ([] : List F) := by simp [DClean]

omit [DecidableEq F] in
theorem dclean_map {l : List F} (hl : DClean l) {f : F → F} (hf : ∀ x, f x = 0 → x = 0) :
    DClean (l.map f) := by
  rw [DClean, List.getLast?_map]
  intro h
  obtain ⟨x, h1, h2⟩ := Option.map_eq_some_iff.1 h
  rw [hf x h2] at h1
  exact hl h1

omit [DecidableEq F] in
theorem neg_spec {l : List F} (hl : DClean l) : dpoly (neg l) = -dpoly l ∧ DClean (neg l) := by
  rw [neg]; split
  · next h => rw [List.isEmpty_iff.1 h]; exact ⟨by simp [dpoly], dclean_nil⟩
  · exact ⟨dpoly_map_neg l, dclean_map hl fun x h => neg_eq_zero.1 h⟩

omit [DecidableEq F] in
theorem coeff_of_le {l : List F} {i : ℕ} (h : l.length ≤ i) : coeff l i = 0 := by
  rw [coeff_eq]; exact coeff_dpoly_of_le h

theorem add_spec {l r : List F} (hl : DClean l) (hr : DClean r) :
    dpoly (add l r) = dpoly l + dpoly r ∧ DClean (add l r) := by
  rw [add]; split
  · next h => rw [List.isEmpty_iff.1 h]; exact ⟨by simp [dpoly], hr⟩
  · split
    · next h => rw [List.isEmpty_iff.1 h]; exact ⟨by simp [dpoly], hl⟩
    · apply removeZeros_is
      ext i
      rw [coeff_dpoly, getD_map_range, coeff_add, ← coeff_eq, ← coeff_eq]
      split
      · rfl
      · rw [coeff_of_le (by omega), coeff_of_le (by omega), add_zero]

theorem sub_spec {l r : List F} (hl : DClean l) (hr : DClean r) :
    dpoly (sub l r) = dpoly l - dpoly r ∧ DClean (sub l r) := by
  rw [sub]; split
  · next h => rw [List.isEmpty_iff.1 h]; simpa [dpoly] using neg_spec hr
  · split
    · next h => rw [List.isEmpty_iff.1 h]; exact ⟨by simp [dpoly], hl⟩
    · apply removeZeros_is
      ext i
      rw [coeff_dpoly, getD_map_range, coeff_sub, ← coeff_eq, ← coeff_eq]
      split
      · rfl
      · rw [coeff_of_le (by omega), coeff_of_le (by omega), sub_zero]

omit [DecidableEq F] in
theorem zipInto_add : ∀ (l r : List F), r.length ≤ l.length →
    ∃ w, zipInto (· + ·) l r = some w ∧ dpoly w = dpoly l + dpoly r
  | l, [], _ => ⟨l, by cases l <;> rfl, by simp [dpoly]⟩
  | [], _ :: _, h => by simp at h
  | a :: l, b :: r, h => by
    obtain ⟨w, h1, h2⟩ := zipInto_add l r (by simpa using h)
    refine ⟨(a + b) :: w, by rw [zipInto, h1]; rfl, ?_⟩
    rw [dpoly, dpoly, dpoly, h2, C_add]; ring

omit [DecidableEq F] in
theorem zipInto_sub : ∀ (l r : List F), r.length ≤ l.length →
    ∃ w, zipInto (· - ·) l r = some w ∧ dpoly w = dpoly l - dpoly r
  | l, [], _ => ⟨l, by cases l <;> rfl, by simp [dpoly]⟩
  | [], _ :: _, h => by simp at h
  | a :: l, b :: r, h => by
    obtain ⟨w, h1, h2⟩ := zipInto_sub l r (by simpa using h)
    refine ⟨(a - b) :: w, by rw [zipInto, h1]; rfl, ?_⟩
    rw [dpoly, dpoly, dpoly, h2, C_sub]; ring

omit [DecidableEq F] in
theorem dpoly_padTo (n : ℕ) (l : List F) : dpoly (padTo n l) = dpoly l := by
  rw [padTo, dpoly_append, dpoly_replicate_zero]; simp

omit [Field F] [DecidableEq F] in
theorem isEmpty_ne {α : Type*} {l : List α} (h : ¬l.isEmpty = true) : l ≠ [] := fun e => h (by simp [e])

theorem addInPlace_spec {l r : List F} (hl : DClean l) (hr : DClean r) :
    ∃ w, addInPlace l r = some w ∧ dpoly w = dpoly l + dpoly r ∧ DClean w := by
  rw [addInPlace]; split
  · next h => rw [List.isEmpty_iff.1 h]; exact ⟨r, rfl, by simp [dpoly], hr⟩
  · split
    · next h => rw [List.isEmpty_iff.1 h]; exact ⟨l, rfl, by simp [dpoly], hl⟩
    · obtain ⟨w, h1, h2⟩ := zipInto_add (padTo (max l.length r.length) l) r (by
        simp [padTo])
      rw [h1]
      exact ⟨_, rfl, removeZeros_is (h2.trans (by rw [dpoly_padTo]))⟩

theorem subInPlace_spec {l r : List F} (hl : DClean l) (hr : DClean r) :
    ∃ w, subInPlace l r = some w ∧ dpoly w = dpoly l - dpoly r ∧ DClean w := by
  rw [subInPlace]; split
  · next h => rw [List.isEmpty_iff.1 h]; exact ⟨_, rfl, by simpa [dpoly] using neg_spec hr⟩
  · split
    · next h => rw [List.isEmpty_iff.1 h]; exact ⟨l, rfl, by simp [dpoly], hl⟩
    · obtain ⟨w, h1, h2⟩ := zipInto_sub (padTo (max l.length r.length) l) r (by
        simp [padTo])
      rw [h1]
      exact ⟨_, rfl, removeZeros_is (h2.trans (by rw [dpoly_padTo]))⟩

theorem mulScalar_spec {l : List F} (hl : DClean l) (s : F) :
    (dpoly (mulScalar l s) = dpoly l * C s ∧ DClean (mulScalar l s)) ∧
    (dpoly (mulInPlaceScalar l s) = dpoly l * C s ∧ DClean (mulInPlaceScalar l s)) := by
  rw [mulScalar, mulInPlaceScalar]
  by_cases h : l.isEmpty ∨ s = 1
  · rw [if_pos h, if_pos h]
    have : dpoly l = dpoly l * C s := by
      rcases h with h | h
      · rw [List.isEmpty_iff.1 h]; simp [dpoly]
      · rw [h]; simp
    exact ⟨⟨this, hl⟩, this, hl⟩
  · rw [if_neg h, if_neg h]
    refine ⟨?_, removeZeros_is (dpoly_map_mul l s)⟩
    split
    · next h0 => rw [h0]; exact ⟨by simp [dpoly], dclean_nil⟩
    · next h0 =>
      exact ⟨dpoly_map_mul l s, dclean_map hl fun x hx => (mul_eq_zero.1 hx).resolve_right h0⟩

theorem isOne_iff {l : List F} : isOne l = true ↔ l = [1] := by
  rcases l with _ | ⟨a, _ | ⟨b, l⟩⟩ <;> simp [isOne]

theorem doMul_spec {a b : List F} (ha : a ≠ []) (hb : b ≠ []) :
    ∃ w, doMul a b = some w ∧ dpoly w = dpoly a * dpoly b ∧ DClean w := by
  have h1 := List.length_pos_iff.2 ha
  have h2 := List.length_pos_iff.2 hb
  obtain ⟨w, e1, -, e3⟩ := mulRows_spec a b 0 (List.replicate (degree a + degree b + 1) 0) (by
    rw [List.length_replicate, degree_eq_length, degree_eq_length]; omega)
  rw [doMul, e1]
  exact ⟨_, rfl, removeZeros_is (by rw [e3, dpoly_replicate_zero]; simp)⟩

theorem mul_spec {a b : List F} (ha : DClean a) (hb : DClean b) :
    (∃ w, mul a b = some w ∧ dpoly w = dpoly a * dpoly b ∧ DClean w) ∧
    ∃ w, mulInPlace a b = some w ∧ dpoly w = dpoly a * dpoly b ∧ DClean w := by
  constructor
  · rw [mul]; split
    · next h =>
      refine ⟨_, rfl, ?_, dclean_nil⟩
      rcases h with h | h <;> rw [List.isEmpty_iff.1 h] <;> simp [dpoly]
    · next h =>
      rw [not_or] at h
      split
      · next h1 => rw [isOne_iff.1 h1]; exact ⟨_, rfl, by simp [dpoly], hb⟩
      · split
        · next h1 => rw [isOne_iff.1 h1]; exact ⟨_, rfl, by simp [dpoly], ha⟩
        · exact doMul_spec (isEmpty_ne h.1) (isEmpty_ne h.2)
  · rw [mulInPlace]; split
    · next h =>
      refine ⟨_, rfl, ?_, ha⟩
      rcases h with h | h
      · rw [List.isEmpty_iff.1 h]; simp [dpoly]
      · rw [isOne_iff.1 h]; simp [dpoly]
    · next h =>
      rw [not_or] at h
      split
      · next h1 => rw [isOne_iff.1 h1]; exact ⟨_, rfl, by simp [dpoly], hb⟩
      · split
        · next h1 => rw [List.isEmpty_iff.1 h1]; exact ⟨_, rfl, by simp [dpoly], dclean_nil⟩
        · next h1 => exact doMul_spec (isEmpty_ne h.1) (isEmpty_ne h1)

end Dense

/-! ### Sparse -/

namespace Sparse
variable [DecidableEq F]

omit [DecidableEq F] in
theorem coeff_of_lt {ts : List (ℕ × F)} (h : ts.Pairwise fun a b => a.1 < b.1) {i : ℕ}
    (hi : degree ts < i) : coeff ts i = 0 := by
  rw [coeff_eq h]
  exact coeff_spoly_eq_zero fun t ht e => by have := degree_max h t ht; omega

omit [DecidableEq F] in
theorem toDense_spec {ts : List (ℕ × F)} (h : SClean ts) :
    dpoly (toDense ts) = spoly ts ∧ DClean (toDense ts) := by
  rw [toDense]; split
  · next he => rw [List.isEmpty_iff.1 he]; exact ⟨by simp [dpoly], Dense.dclean_nil⟩
  · next he =>
    constructor
    · ext i
      rw [coeff_dpoly, getD_map_range, ← coeff_eq h.1]
      split
      · rfl
      · rw [coeff_of_lt h.1 (by omega)]
    · rw [DClean, List.range_succ, List.map_append]
      simp only [List.map_cons, List.map_nil, List.getLast?_append, List.getLast?_singleton,
        Option.some_or]
      obtain ⟨h1, h2, -⟩ := leading_eq h (Dense.isEmpty_ne he)
      rw [coeff_eq h.1, h2]
      intro e; exact h1 (Option.some.inj e)

omit [DecidableEq F] in
theorem length_toDense {ts : List (ℕ × F)} (h : ts ≠ []) : (toDense ts).length = degree ts + 1 := by
  rw [toDense, if_neg (by simpa using h)]; simp

omit [DecidableEq F] in
theorem spoly_neg (ts : List (ℕ × F)) : spoly (neg ts) = -spoly ts := by
  induction ts with
  | nil => simp [neg]
  | cons t ts ih =>
    rw [neg, List.map_cons, spoly_cons, spoly_cons, ← neg, ih, monomial_neg]; ring

omit [DecidableEq F] in
theorem sclean_map {ts : List (ℕ × F)} (h : SClean ts) {f : F → F} (hf : ∀ x, f x = 0 → x = 0) :
    SClean (ts.map fun t => (t.1, f t.2)) := by
  refine ⟨List.pairwise_map.2 h.1, ?_⟩
  intro t ht
  obtain ⟨s, hs, rfl⟩ := List.mem_map.1 ht
  exact fun e => h.2 s hs (hf _ e)

omit [DecidableEq F] in
theorem neg_spec {ts : List (ℕ × F)} (h : SClean ts) : spoly (neg ts) = -spoly ts ∧ SClean (neg ts) :=
  ⟨spoly_neg ts, sclean_map h fun _ hx => neg_eq_zero.1 hx⟩

omit [DecidableEq F] in
theorem sclean_nil : SClean ([] : List (ℕ × F)) := ⟨List.Pairwise.nil, by simp⟩

omit [DecidableEq F] in
theorem sclean_cons {t : ℕ × F} {ts : List (ℕ × F)} :
    SClean (t :: ts) ↔ (t.2 ≠ 0 ∧ ∀ s ∈ ts, t.1 < s.1) ∧ SClean ts := by
  simp only [SClean, List.pairwise_cons, List.mem_cons, forall_eq_or_imp]
  tauto

theorem doAddGo_spec (negation : Bool) : ∀ (n : ℕ) (a b : List (ℕ × F)), a.length + b.length ≤ n →
    SClean a → SClean b →
    ∃ c, doAddGo negation n a b = some c ∧
      spoly c = (if negation then spoly a - spoly b else spoly a + spoly b) ∧ SClean c ∧
      ∀ t ∈ c, (∃ s ∈ a, s.1 = t.1) ∨ ∃ s ∈ b, s.1 = t.1 := by
  intro n
  induction n with
  | zero =>
    intro a b h ha hb
    obtain rfl : a = [] := List.eq_nil_of_length_eq_zero (by omega)
    obtain rfl : b = [] := List.eq_nil_of_length_eq_zero (by omega)
    exact ⟨[], rfl, by cases negation <;> simp, sclean_nil, by simp⟩
  | succ n ih =>
    intro a b h ha hb
    rcases a with _ | ⟨x, as⟩
    · rcases b with _ | ⟨y, bs⟩
      · exact ⟨[], rfl, by cases negation <;> simp, sclean_nil, by simp⟩
      · obtain ⟨⟨hy, hys⟩, hbs⟩ := sclean_cons.1 hb
        obtain ⟨c, h1, h2, h3, h4⟩ := ih [] bs (by simp at h ⊢; omega) ha hbs
        refine ⟨_, by rw [doAddGo, h1]; rfl, ?_, sclean_cons.2 ⟨⟨?_, ?_⟩, h3⟩, ?_⟩
        · rw [spoly_cons, h2, spoly_cons]; cases negation
          · simp
          · simp [monomial_neg]; ring
        · cases negation <;> simpa using hy
        · intro s hs
          rcases h4 s hs with ⟨r, hr, e⟩ | ⟨r, hr, e⟩
          · simp at hr
          · rw [← e]; exact hys r hr
        · intro t ht
          rcases List.mem_cons.1 ht with rfl | ht
          · exact Or.inr ⟨y, by simp, rfl⟩
          · rcases h4 t ht with ⟨r, hr, e⟩ | ⟨r, hr, e⟩
            · simp at hr
            · exact Or.inr ⟨r, by simp [hr], e⟩
    · obtain ⟨⟨hx, hxs⟩, has⟩ := sclean_cons.1 ha
      rcases b with _ | ⟨y, bs⟩
      · obtain ⟨c, h1, h2, h3, h4⟩ := ih as [] (by simp at h ⊢; omega) has hb
        refine ⟨_, by rw [doAddGo, h1]; rfl, ?_, sclean_cons.2 ⟨⟨hx, ?_⟩, h3⟩, ?_⟩
        · rw [spoly_cons, h2, spoly_cons]; cases negation <;> simp
        · intro s hs
          rcases h4 s hs with ⟨r, hr, e⟩ | ⟨r, hr, e⟩
          · rw [← e]; exact hxs r hr
          · simp at hr
        · intro t ht
          rcases List.mem_cons.1 ht with rfl | ht
          · exact Or.inl ⟨t, by simp, rfl⟩
          · rcases h4 t ht with ⟨r, hr, e⟩ | ⟨r, hr, e⟩
            · exact Or.inl ⟨r, by simp [hr], e⟩
            · simp at hr
      · obtain ⟨⟨hy, hys⟩, hbs⟩ := sclean_cons.1 hb
        rw [doAddGo]
        by_cases hlt : x.1 < y.1
        · rw [if_pos hlt]
          obtain ⟨c, h1, h2, h3, h4⟩ := ih as (y :: bs) (by simp at h ⊢; omega) has hb
          refine ⟨_, by rw [h1]; rfl, ?_, sclean_cons.2 ⟨⟨hx, ?_⟩, h3⟩, ?_⟩
          · rw [spoly_cons, h2, spoly_cons]; cases negation <;> simp <;> ring
          · intro s hs
            rcases h4 s hs with ⟨r, hr, e⟩ | ⟨r, hr, e⟩
            · rw [← e]; exact hxs r hr
            · rw [← e]
              rcases List.mem_cons.1 hr with rfl | hr
              · exact hlt
              · exact hlt.trans (hys r hr)
          · intro t ht
            rcases List.mem_cons.1 ht with rfl | ht
            · exact Or.inl ⟨t, by simp, rfl⟩
            · rcases h4 t ht with ⟨r, hr, e⟩ | h
              · exact Or.inl ⟨r, by simp [hr], e⟩
              · exact Or.inr h
        · rw [if_neg hlt]
          by_cases hgt : y.1 < x.1
          · rw [if_pos hgt]
            obtain ⟨c, h1, h2, h3, h4⟩ := ih (x :: as) bs (by simp at h ⊢; omega) ha hbs
            refine ⟨_, by rw [h1]; rfl, ?_, sclean_cons.2 ⟨⟨?_, ?_⟩, h3⟩, ?_⟩
            · rw [spoly_cons, h2, spoly_cons y]; cases negation <;> simp [monomial_neg] <;> ring
            · cases negation <;> simpa using hy
            · intro s hs
              rcases h4 s hs with ⟨r, hr, e⟩ | ⟨r, hr, e⟩
              · rw [← e]
                rcases List.mem_cons.1 hr with rfl | hr
                · exact hgt
                · exact hgt.trans (hxs r hr)
              · rw [← e]; exact hys r hr
            · intro t ht
              rcases List.mem_cons.1 ht with rfl | ht
              · exact Or.inr ⟨y, by simp, rfl⟩
              · rcases h4 t ht with h | ⟨r, hr, e⟩
                · exact Or.inl h
                · exact Or.inr ⟨r, by simp [hr], e⟩
          · rw [if_neg hgt]
            have hxy : x.1 = y.1 := by omega
            obtain ⟨c, h1, h2, h3, h4⟩ := ih as bs (by simp at h ⊢; omega) has hbs
            have hmono : (if negation then spoly (x :: as) - spoly (y :: bs)
                else spoly (x :: as) + spoly (y :: bs)) =
                monomial x.1 (if negation then x.2 - y.2 else x.2 + y.2) + spoly c := by
              rw [h2, spoly_cons, spoly_cons, ← hxy]
              cases negation <;> simp [map_sub, map_add] <;> ring
            have hup : ∀ t ∈ c, (∃ s ∈ x :: as, s.1 = t.1) ∨ ∃ s ∈ y :: bs, s.1 = t.1 := by
              intro t ht
              rcases h4 t ht with ⟨r, hr, e⟩ | ⟨r, hr, e⟩
              · exact Or.inl ⟨r, by simp [hr], e⟩
              · exact Or.inr ⟨r, by simp [hr], e⟩
            dsimp only
            by_cases hc : (if negation then x.2 - y.2 else x.2 + y.2) ≠ 0
            · rw [if_pos hc, h1]
              refine ⟨_, rfl, by rw [spoly_cons, hmono], sclean_cons.2 ⟨⟨hc, ?_⟩, h3⟩, ?_⟩
              · intro s hs
                rcases h4 s hs with ⟨r, hr, e⟩ | ⟨r, hr, e⟩
                · rw [← e]; exact hxs r hr
                · rw [← e]; show x.1 < r.1; rw [hxy]; exact hys r hr
              · intro t ht
                rcases List.mem_cons.1 ht with rfl | ht
                · exact Or.inl ⟨x, by simp, rfl⟩
                · exact hup t ht
            · rw [if_neg hc]
              rw [not_not] at hc
              exact ⟨c, h1, by rw [hmono, hc, monomial_zero_right, zero_add], h3, hup⟩

theorem add_spec {a b : List (ℕ × F)} (ha : SClean a) (hb : SClean b) :
    ∃ c, add a b = some c ∧ spoly c = spoly a + spoly b ∧ SClean c := by
  rw [add]; split
  · next h => rw [List.isEmpty_iff.1 h]; exact ⟨b, rfl, by simp, hb⟩
  · split
    · next h => rw [List.isEmpty_iff.1 h]; exact ⟨a, rfl, by simp, ha⟩
    · obtain ⟨c, h1, h2, h3, -⟩ := doAddGo_spec false _ a b le_rfl ha hb
      exact ⟨c, h1, by simpa using h2, h3⟩

theorem sub_spec {a b : List (ℕ × F)} (ha : SClean a) (hb : SClean b) :
    ∃ c, sub a b = some c ∧ spoly c = spoly a - spoly b ∧ SClean c := by
  rw [sub]; split
  · next h => rw [List.isEmpty_iff.1 h]; exact ⟨_, rfl, by simpa using neg_spec hb⟩
  · split
    · next h => rw [List.isEmpty_iff.1 h]; exact ⟨a, rfl, by simp, ha⟩
    · obtain ⟨c, h1, h2, h3, -⟩ := doAddGo_spec true _ a b le_rfl ha hb
      exact ⟨c, h1, by simpa using h2, h3⟩

omit [DecidableEq F] in
theorem spoly_map_mul (ts : List (ℕ × F)) (s : F) :
    spoly (ts.map fun t => (t.1, t.2 * s)) = spoly ts * C s := by
  induction ts with
  | nil => simp
  | cons t ts ih =>
    rw [List.map_cons, spoly_cons, spoly_cons, ih, add_mul, monomial_mul_C]

theorem mulScalar_spec {a : List (ℕ × F)} (ha : SClean a) (s : F) :
    (spoly (mulScalar a s) = spoly a * C s ∧ SClean (mulScalar a s)) ∧
    (spoly (mulInPlaceScalar a s) = spoly a * C s ∧ SClean (mulInPlaceScalar a s)) := by
  have key : s ≠ 0 → spoly (a.map fun t => (t.1, t.2 * s)) = spoly a * C s ∧
      SClean (a.map fun t => (t.1, t.2 * s)) := fun h0 =>
    ⟨spoly_map_mul a s, sclean_map (f := (· * s)) ha fun x hx => (mul_eq_zero.1 hx).resolve_right h0⟩
  constructor
  · rw [mulScalar]; split
    · next h =>
      refine ⟨?_, sclean_nil⟩
      rcases h with h | h
      · rw [List.isEmpty_iff.1 h]; simp
      · rw [h]; simp
    · next h => exact key fun e => h (Or.inr e)
  · rw [mulInPlaceScalar]; split
    · next h =>
      refine ⟨?_, ha⟩
      rcases h with h | h
      · rw [List.isEmpty_iff.1 h]; simp
      · rw [h]; simp
    · split
      · next h => rw [h]; exact ⟨by simp, sclean_nil⟩
      · next h => exact key h

/-- Distinct degrees and no zero coefficient. -/
def Weak (ts : List (ℕ × F)) : Prop := (ts.map Prod.fst).Nodup ∧ ∀ t ∈ ts, t.2 ≠ 0

omit [DecidableEq F] in
theorem weak_cons {t : ℕ × F} {ts : List (ℕ × F)} :
    Weak (t :: ts) ↔ (t.2 ≠ 0 ∧ ∀ s ∈ ts, s.1 ≠ t.1) ∧ Weak ts := by
  simp only [Weak, List.map_cons, List.nodup_cons, List.mem_map, List.mem_cons, forall_eq_or_imp,
    not_exists, not_and]
  tauto

theorem insertTerm_spec (d : ℕ) {f : F} (hf : f ≠ 0) : ∀ {ts : List (ℕ × F)}, Weak ts →
    spoly (insertTerm d f ts) = spoly ts + monomial d f ∧ Weak (insertTerm d f ts) ∧
      ∀ t ∈ insertTerm d f ts, t.1 = d ∨ ∃ s ∈ ts, s.1 = t.1
  | [], _ => ⟨by simp [insertTerm], by simp [insertTerm, Weak, hf], by simp [insertTerm]⟩
  | t :: ts, h => by
    obtain ⟨⟨h1, h2⟩, h3⟩ := weak_cons.1 h
    rw [insertTerm]
    by_cases ht : t.1 = d
    · rw [if_pos ht]
      by_cases h0 : t.2 + f = 0
      · rw [if_pos h0]
        refine ⟨?_, h3, fun s hs => Or.inr ⟨s, by simp [hs], rfl⟩⟩
        rw [spoly_cons, ← ht, add_right_comm, ← map_add, h0]; simp
      · rw [if_neg h0]
        refine ⟨?_, weak_cons.2 ⟨⟨h0, h2⟩, h3⟩, ?_⟩
        · rw [spoly_cons, spoly_cons, ← ht, map_add]; ring
        · intro s hs
          rcases List.mem_cons.1 hs with rfl | hs
          · exact Or.inl ht
          · exact Or.inr ⟨s, by simp [hs], rfl⟩
    · rw [if_neg ht]
      obtain ⟨e1, e2, e3⟩ := insertTerm_spec d hf h3
      refine ⟨by rw [spoly_cons, spoly_cons, e1]; ring, weak_cons.2 ⟨⟨h1, ?_⟩, e2⟩, ?_⟩
      · intro s hs
        rcases e3 s hs with h | ⟨r, hr, e⟩
        · rw [h]; exact fun e => ht e.symm
        · rw [← e]; exact h2 r hr
      · intro s hs
        rcases List.mem_cons.1 hs with rfl | hs
        · exact Or.inr ⟨s, by simp, rfl⟩
        · rcases e3 s hs with h | ⟨r, hr, e⟩
          · exact Or.inl h
          · exact Or.inr ⟨r, by simp [hr], e⟩

omit [Field F] [DecidableEq F] in
theorem insertSorted_perm (t : ℕ × F) : ∀ l : List (ℕ × F), (insertSorted t l).Perm (t :: l)
  | [] => List.Perm.refl _
  | s :: ts => by
    rw [insertSorted]; split
    · exact List.Perm.refl _
    · exact ((insertSorted_perm t ts).cons s).trans (List.Perm.swap t s ts)

omit [Field F] [DecidableEq F] in
theorem sortTerms_perm : ∀ l : List (ℕ × F), (sortTerms l).Perm l
  | [] => List.Perm.refl _
  | t :: l => (insertSorted_perm t _).trans ((sortTerms_perm l).cons t)

omit [Field F] [DecidableEq F] in
theorem insertSorted_sorted (t : ℕ × F) : ∀ {l : List (ℕ × F)}, l.Pairwise (fun a b => a.1 < b.1) →
    (∀ s ∈ l, s.1 ≠ t.1) → (insertSorted t l).Pairwise fun a b => a.1 < b.1
  | [], _, _ => by simp [insertSorted]
  | s :: ts, h, hn => by
    obtain ⟨h1, h2⟩ := List.pairwise_cons.1 h
    have hs := hn s (by simp)
    rw [insertSorted]; split
    · next hle =>
      refine List.pairwise_cons.2 ⟨?_, h⟩
      intro r hr
      rcases List.mem_cons.1 hr with rfl | hr
      · omega
      · have := h1 r hr; omega
    · next hle =>
      refine List.pairwise_cons.2 ⟨?_, insertSorted_sorted t h2 fun r hr => hn r (by simp [hr])⟩
      intro r hr
      rcases List.mem_cons.1 ((insertSorted_perm t ts).subset hr) with rfl | hr
      · omega
      · exact h1 r hr

omit [Field F] [DecidableEq F] in
theorem sortTerms_sorted : ∀ {l : List (ℕ × F)}, (l.map Prod.fst).Nodup →
    (sortTerms l).Pairwise fun a b => a.1 < b.1
  | [], _ => List.Pairwise.nil
  | t :: l, h => by
    rw [List.map_cons, List.nodup_cons] at h
    refine insertSorted_sorted t (sortTerms_sorted h.2) fun s hs e => h.1 ?_
    exact List.mem_map.2 ⟨s, (sortTerms_perm l).subset hs, e⟩

theorem doMul_inner (s : ℕ × F) : ∀ (b c : List (ℕ × F)), Weak c →
    spoly (b.foldl (fun c t => let f := s.2 * t.2; if f = 0 then c else insertTerm (s.1 + t.1) f c) c) =
      spoly c + monomial s.1 s.2 * spoly b ∧
    Weak (b.foldl (fun c t => let f := s.2 * t.2; if f = 0 then c else insertTerm (s.1 + t.1) f c) c)
  | [], c, h => by simp [h]
  | t :: b, c, h => by
    rw [List.foldl_cons]
    by_cases h0 : s.2 * t.2 = 0
    · obtain ⟨h1, h2⟩ := doMul_inner s b c h
      dsimp only at h1 h2 ⊢
      rw [if_pos h0]
      refine ⟨?_, h2⟩
      rw [h1, spoly_cons, mul_add, monomial_mul_monomial, h0]; simp
    · obtain ⟨e1, e2, -⟩ := insertTerm_spec (s.1 + t.1) h0 h
      obtain ⟨h1, h2⟩ := doMul_inner s b _ e2
      dsimp only at h1 h2 ⊢
      rw [if_neg h0]
      refine ⟨?_, h2⟩
      rw [h1, e1, spoly_cons, mul_add, monomial_mul_monomial]; ring

theorem doMul_outer (b : List (ℕ × F)) : ∀ (a c : List (ℕ × F)), Weak c →
    spoly (a.foldl (fun c s => b.foldl (fun c t =>
      let f := s.2 * t.2; if f = 0 then c else insertTerm (s.1 + t.1) f c) c) c) =
      spoly c + spoly a * spoly b ∧
    Weak (a.foldl (fun c s => b.foldl (fun c t =>
      let f := s.2 * t.2; if f = 0 then c else insertTerm (s.1 + t.1) f c) c) c)
  | [], c, h => by simp [h]
  | s :: a, c, h => by
    obtain ⟨e1, e2⟩ := doMul_inner s b c h
    obtain ⟨h1, h2⟩ := doMul_outer b a _ e2
    rw [List.foldl_cons]
    refine ⟨?_, h2⟩
    rw [h1, e1, spoly_cons]; ring

theorem doMul_spec (a b : List (ℕ × F)) :
    spoly (doMul a b) = spoly a * spoly b ∧ SClean (doMul a b) := by
  obtain ⟨h1, h2⟩ := doMul_outer b a [] (by simp [Weak])
  rw [doMul]
  refine ⟨?_, sortTerms_sorted h2.1, fun t ht => h2.2 t ((sortTerms_perm _).subset ht)⟩
  rw [spoly_perm (sortTerms_perm _), h1]; simp

theorem isOne_iff {l : List (ℕ × F)} : isOne l = true ↔ l = [(0, 1)] := by
  rcases l with _ | ⟨⟨d, a⟩, _ | ⟨b, l⟩⟩ <;> simp [isOne]

theorem mul_spec {a b : List (ℕ × F)} (ha : SClean a) (hb : SClean b) :
    (spoly (mul a b) = spoly a * spoly b ∧ SClean (mul a b)) ∧
    (spoly (mulInPlace a b) = spoly a * spoly b ∧ SClean (mulInPlace a b)) := by
  have one : spoly [((0 : ℕ), (1 : F))] = 1 := by simp
  constructor
  · rw [mul]; split
    · next h =>
      refine ⟨?_, sclean_nil⟩
      rcases h with h | h <;> rw [List.isEmpty_iff.1 h] <;> simp
    · split
      · next h1 => rw [isOne_iff.1 h1, one]; exact ⟨by simp, hb⟩
      · split
        · next h1 => rw [isOne_iff.1 h1, one]; exact ⟨by simp, ha⟩
        · exact doMul_spec a b
  · rw [mulInPlace]; split
    · next h =>
      refine ⟨?_, ha⟩
      rcases h with h | h
      · rw [List.isEmpty_iff.1 h]; simp
      · rw [isOne_iff.1 h, one]; simp
    · split
      · next h1 => rw [isOne_iff.1 h1, one]; exact ⟨by simp, hb⟩
      · split
        · next h1 => rw [List.isEmpty_iff.1 h1]; exact ⟨by simp, sclean_nil⟩
        · exact doMul_spec a b

end Sparse

end Tachyon.Poly
