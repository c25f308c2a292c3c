import Verif.Proofs.Multivariate
import Verif.Spec.F7
/-! `C94`: multivariate polynomials in sparse form. -/
universe u
namespace Tachyon.Props
open Tachyon.Multivariate MvPolynomial

variable {F : Type u} [Field F] [DecidableEq F]

/-- `Evaluate` gives the value of the polynomial for every number of threads. It succeeds exactly if the number of variables is known,
there are not more coordinates than that, and every variable that occurs has a coordinate. -/
theorem C94_evaluate {threads : ℕ} (ht : 0 < threads) (p : Poly F) (hp : Fits threads p.terms)
    (h : ∀ t ∈ p.terms, Fits threads t.literal) (point : List F) (v : F) :
    p.evaluate threads point = some v ↔ (∃ n, p.numVars = some n ∧ point.length ≤ n) ∧
      (∀ t ∈ p.terms, ∀ e ∈ t.literal, e.var < point.length) ∧ v = eval (fun i => point.getD i 0) (den p.terms) :=
  evaluate_iff ht hp h v

/-- `Compact` keeps the polynomial and leaves no zeros. It must not be called without terms. -/
theorem C94_compact (ts : List (Term F)) :
    (compact ts = none ↔ ts = []) ∧ ∀ cs, compact ts = some cs → den cs = den ts ∧ ∀ t ∈ cs, t.coeff ≠ 0 :=
  ⟨by cases ts <;> simp [compact], fun _ h => compact_den h⟩

/-- The sum and the difference are right if literals that are not different for `operator<` stand for the same monomial. -/
theorem C94_sum {a b c : Poly F} (h : Agree a.terms b.terms) :
    (a.addInPlace b = some c → den c.terms = den a.terms + den b.terms) ∧
      (∀ maxDegree, a.subInPlace maxDegree b = some c → den c.terms = den a.terms - den b.terms) := by
  constructor
  · intro hc
    rw [Poly.addInPlace] at hc
    split_ifs at hc with h1 h2
    · rw [List.isEmpty_iff] at h1
      rw [← Option.some.inj hc, h1, den_nil, zero_add]
    · rw [List.isEmpty_iff] at h2
      rw [← Option.some.inj hc, h2, den_nil, add_zero]
    · simp only [doAdd, Option.bind_eq_some_iff, Option.map_eq_some_iff] at hc
      obtain ⟨ts, h3, cs, h4, rfl⟩ := hc
      exact (compact_den h4).1.trans (mergeTerms_den h h3)
  · intro maxDegree hc
    rw [Poly.subInPlace] at hc
    split_ifs at hc with h1 h2
    · rw [List.isEmpty_iff] at h1
      rw [h1, den_nil, zero_sub]
      rw [Poly.negate] at hc
      split_ifs at hc with h2
      · rw [List.isEmpty_iff] at h2
        rw [← Option.some.inj hc, h2, den_nil, neg_zero]
      · simp only [Poly.make, Option.bind_eq_some_iff] at hc
        obtain ⟨d, -, hc⟩ := hc
        split_ifs at hc
        rw [← Option.some.inj hc, den_neg]
    · rw [List.isEmpty_iff] at h2
      rw [← Option.some.inj hc, h2, den_nil, sub_zero]
    · simp only [doAdd, Option.bind_eq_some_iff, Option.map_eq_some_iff] at hc
      obtain ⟨ts, h3, cs, h4, rfl⟩ := hc
      exact (compact_den h4).1.trans (mergeTerms_den h h3)

/-- For polynomials in normal form the sum and the difference are in normal form, and they keep the number of variables. They fail exactly
if both are not zero and the result is. -/
theorem C94_normal {a b : Poly F} (ha : Normal a.terms) (hb : Normal b.terms) (h : Agree a.terms b.terms)
    (ha0 : a.terms ≠ []) (hb0 : b.terms ≠ []) (maxDegree : ℕ) :
    (a.addInPlace b = none ↔ den a.terms + den b.terms = 0) ∧
      (a.subInPlace maxDegree b = none ↔ den a.terms - den b.terms = 0) ∧
      (∀ c, a.addInPlace b = some c ∨ a.subInPlace maxDegree b = some c → Normal c.terms ∧ c.terms ≠ [] ∧ c.numVars = a.numVars) := by
  have key : ∀ negation, (doAdd negation a b a.numVars = none ↔ signedDen negation (den a.terms) (den b.terms) = 0) ∧
      ∀ c, doAdd negation a b a.numVars = some c → Normal c.terms ∧ c.terms ≠ [] ∧ c.numVars = a.numVars := by
    intro negation
    obtain ⟨cs, h1, h2, -⟩ := mergeTerms_sorted (negation := negation) (normal_iff.1 ha) (normal_iff.1 hb)
    have h3 := mergeTerms_den h h1
    rw [doAdd, h1, Option.bind_some, ← h3]
    by_cases h0 : cs = []
    · subst h0
      simp [compact, den_nil]
    · rw [compact_sorted h2 h0]
      refine ⟨by simp [den_ne h2 h0], fun c hc => ?_⟩
      rw [← Option.some.inj hc]
      exact ⟨normal_iff.2 h2, h0, rfl⟩
  have h1 : a.addInPlace b = doAdd false a b a.numVars := by rw [Poly.addInPlace, if_neg (by simpa using ha0), if_neg (by simpa using hb0)]
  have h2 : a.subInPlace maxDegree b = doAdd true a b a.numVars := by
    rw [Poly.subInPlace, if_neg (by simpa using ha0), if_neg (by simpa using hb0)]
  rw [h1, h2]
  exact ⟨(key false).1, (key true).1, fun c hc => hc.elim ((key false).2 c) ((key true).2 c)⟩

/-- `Add` and `Sub` of polynomials that are not zero have the terms of `AddInPlace` and `SubInPlace`, but the number of variables is not
initialised: the sum cannot be evaluated. -/
theorem C94_uninitialised {a b c : Poly F} (ha0 : a.terms ≠ []) (hb0 : b.terms ≠ []) (maxDegree : ℕ)
    (hc : a.add b = some c ∨ a.sub maxDegree b = some c) :
    c.numVars = none ∧ (∀ threads point, c.evaluate threads point = none) ∧
      (a.addInPlace b = some ⟨a.numVars, c.terms⟩ ∨ a.subInPlace maxDegree b = some ⟨a.numVars, c.terms⟩) := by
  have key : ∀ negation, doAdd negation a b none = some c → c.numVars = none ∧ doAdd negation a b a.numVars = some ⟨a.numVars, c.terms⟩ := by
    intro negation hc
    simp only [doAdd, Option.bind_eq_some_iff, Option.map_eq_some_iff] at hc ⊢
    obtain ⟨ts, h1, cs, h2, rfl⟩ := hc
    exact ⟨rfl, ts, h1, cs, h2, rfl⟩
  have ev : c.numVars = none → ∀ threads point, c.evaluate threads point = none := fun h threads point => by
    rw [Poly.evaluate, h]; rfl
  rw [Poly.add, Poly.sub, if_neg (by simpa using ha0), if_neg (by simpa using hb0), if_neg (by simpa using ha0),
    if_neg (by simpa using hb0)] at hc
  rw [Poly.addInPlace, Poly.subInPlace, if_neg (by simpa using ha0), if_neg (by simpa using hb0), if_neg (by simpa using ha0),
    if_neg (by simpa using hb0)]
  rcases hc with hc | hc
  · exact ⟨(key false hc).1, ev (key false hc).1, .inl (key false hc).2⟩
  · exact ⟨(key true hc).1, ev (key true hc).1, .inr (key true hc).2⟩

/-- A polynomial that is not zero cannot be subtracted from itself. -/
theorem C94_sub_self (p : Poly F) (h0 : p.terms ≠ []) (h : ∀ t ∈ p.terms, t.literal ≠ []) (maxDegree : ℕ) :
    p.sub maxDegree p = none ∧ p.subInPlace maxDegree p = none := by
  rw [Poly.sub, Poly.subInPlace, if_neg (by simpa using h0), if_neg (by simpa using h0), if_neg (by simpa using h0),
    if_neg (by simpa using h0), doAdd, doAdd, mergeTerms_self h]
  exact ⟨rfl, rfl⟩

/-- The comparison is at fault: different literals in normal form of which neither is less are added as if they were equal. -/
theorem C94_conflict {x y : Lit} (hx : x.Valid) (hy : y.Valid) (hne : x ≠ y) (h1 : Lit.lt x y = some false)
    (h2 : Lit.lt y x = some false) {c d : F} (hd : d ≠ 0) (n : Option ℕ) :
    ∀ r, Poly.addInPlace ⟨n, [⟨x, c⟩]⟩ ⟨n, [⟨y, d⟩]⟩ = some r → den r.terms ≠ den [⟨x, c⟩] + den [⟨y, d⟩] := by
  intro r hr hden
  have hm : mergeTerms false [⟨x, c⟩] [⟨y, d⟩] = some (if c + d = 0 then [] else [⟨x, c + d⟩]) := by
    simp only [mergeTerms, mergeInto, h1, h2, Option.bind_some, Bool.false_eq_true, if_false, signedSum, List.map_nil, Option.map_some]
  simp only [Poly.addInPlace, List.isEmpty_cons, Bool.false_eq_true, if_false, doAdd, hm, Option.bind_some, Option.map_eq_some_iff] at hr
  obtain ⟨cs, hcs, rfl⟩ := hr
  have h3 := (compact_den hcs).1
  have h4 : x.exps ≠ y.exps := fun he => hne (exps_injective hx hy he)
  have h5 : coeff y.exps (den cs) = 0 := by
    rw [h3]
    split_ifs with h0
    · rw [den_nil, coeff_zero]
    · exact coeff_not (by simpa using h4)
  simp only [] at hden
  rw [hden, coeff_add, coeff_not (by simpa using h4), zero_add, den_cons, coeff_add, den_nil, coeff_zero, add_zero, coeff_monomial,
    if_pos rfl] at h5
  exact hd h5

/-- `Negate` and `NegateInPlace`. -/
theorem C94_negate (p : Poly F) (maxDegree : ℕ) :
    den p.negateInPlace.terms = -den p.terms ∧ p.negateInPlace.numVars = p.numVars ∧
      (∀ c, p.negate maxDegree = some c → c = p.negateInPlace) ∧
      (p.negate maxDegree = none ↔ ∃ d, degree p.terms = some d ∧ maxDegree < d) := by
  have hdeg : degree (p.terms.map Term.neg) = degree p.terms := by
    by_cases h0 : p.terms = []
    · rw [h0]; rfl
    · rw [degree_last h0, degree_last (by simpa using h0), List.getLast_map]
      rfl
  refine ⟨den_neg _, rfl, fun c hc => ?_, ?_⟩
  · rw [Poly.negate] at hc
    split_ifs at hc with h1
    · rw [List.isEmpty_iff] at h1
      obtain ⟨n, ts⟩ := p
      simp only [] at h1
      rw [← Option.some.inj hc, Poly.negateInPlace, h1]; rfl
    · simp only [Poly.make, Option.bind_eq_some_iff] at hc
      obtain ⟨d, -, hc⟩ := hc
      split_ifs at hc
      exact (Option.some.inj hc).symm
  · rw [Poly.negate]
    split_ifs with h1
    · rw [List.isEmpty_iff] at h1
      simp [h1, degree]
    · have h0 : p.terms ≠ [] := by simpa using h1
      rw [Poly.make, hdeg, degree_last h0, Option.bind_some]
      simp

/-- `operator==` decides equality of polynomials in normal form. -/
theorem C94_eq (p q : Poly F) (hp : Normal p.terms) (hq : Normal q.terms) : p.eq q = true ↔ den p.terms = den q.terms :=
  eq_iff (normal_iff.1 hp) (normal_iff.1 hq)

/-- `operator[]` gives the coefficient, if no other literal of the polynomial is like the one asked for in `operator<`. -/
theorem C94_index (p : Poly F) (hp : Normal p.terms) (a : Lit) (ha : a.Valid)
    (hs : ∀ t ∈ p.terms, Lit.lt t.literal a = some false → Lit.lt a t.literal = some false → t.literal = a) :
    p.index a = some (coeff a.exps (den p.terms)) := by
  refine index_eq (normal_iff.1 hp) ha fun t ht hk => hs t ht ?_ ?_
  · rw [lt_key (hp.1 t ht).1 ha, hk]; simp
  · rw [lt_key ha (hp.1 t ht).1, hk]; simp

/-- `Degree` is not more than the degree, and is the degree in one variable. -/
theorem C94_degree (ts : List (Term F)) (h : Normal ts) (d : ℕ) (hd : degree ts = some d) :
    d ≤ (den ts).totalDegree ∧ ((∃ v, ∀ t ∈ ts, ∀ e ∈ t.literal, e.var = v ∨ e.exp = 0) → (den ts).totalDegree = d) :=
  ⟨degree_le (normal_iff.1 h) hd, fun ⟨_, hv⟩ => degree_one (normal_iff.1 h) hv hd⟩

/-! ### Examples -/

/-- `x₀x₁`. -/
def c94xy : Lit := [⟨0, 1⟩, ⟨1, 1⟩]
/-- `x₀²x₁`. -/
def c94xxy : Lit := [⟨0, 2⟩, ⟨1, 1⟩]
/-- `4 + x₀² + 2x₀x₁ + 3x₁²`. -/
def c94p : Poly F7 := ⟨some 2, [⟨[⟨0, 0⟩], 4⟩, ⟨[⟨0, 2⟩], 1⟩, ⟨c94xy, 2⟩, ⟨[⟨1, 2⟩], 3⟩]⟩
/-- `4 + x₀³ + 2x₀x₁² + 3x₁³`. -/
def c94q : Poly F7 := ⟨some 2, [⟨[⟨0, 0⟩], 4⟩, ⟨[⟨0, 3⟩], 1⟩, ⟨[⟨0, 1⟩, ⟨1, 2⟩], 2⟩, ⟨[⟨1, 3⟩], 3⟩]⟩

example : c94p.evaluate 2 [3, 3] = some 2 := by decide +kernel
example : (c94p.addInPlace c94q).map (fun r => r.terms.length) = some 7 := by decide +kernel
example : ((c94p.addInPlace c94q).bind fun r => r.evaluate 3 [3, 3]) = some 0 := by decide +kernel
example : ((c94p.add c94q).bind fun r => r.evaluate 3 [3, 3]) = none := by decide +kernel
example : (c94p.subInPlace 5 c94p).isNone := by decide +kernel
example : c94p.index c94xy = some 2 ∧ c94p.index [⟨1, 1⟩] = some 0 := by decide +kernel

theorem c94normal : Normal c94p.terms ∧ Normal c94q.terms ∧ Agree c94p.terms c94q.terms := by
  have hv : ∀ e ∈ ([2, 3] : List ℕ), ∀ v, Lit.Valid [⟨v, e⟩] := fun e he v =>
    .inr ⟨by simp, by simp, by simp at he ⊢; omega⟩
  have hxy : ∀ e, 0 < e → Lit.Valid [⟨0, 1⟩, ⟨1, e⟩] := fun e he => .inr ⟨by simp, by simp, by simpa using he⟩
  refine ⟨⟨fun t ht => ?_, by simp only [c94p]; decide⟩, ⟨fun t ht => ?_, by simp only [c94q]; decide⟩, fun a ha b hb h1 h2 => ?_⟩
  · simp only [c94p, List.mem_cons, List.not_mem_nil, or_false] at ht
    rcases ht with rfl | rfl | rfl | rfl
    · exact ⟨.inl rfl, by decide⟩
    · exact ⟨hv 2 (by simp) 0, by decide⟩
    · exact ⟨hxy 1 (by simp), by decide⟩
    · exact ⟨hv 2 (by simp) 1, by decide⟩
  · simp only [c94q, List.mem_cons, List.not_mem_nil, or_false] at ht
    rcases ht with rfl | rfl | rfl | rfl
    · exact ⟨.inl rfl, by decide⟩
    · exact ⟨hv 3 (by simp) 0, by decide⟩
    · exact ⟨hxy 2 (by simp), by decide⟩
    · exact ⟨hv 3 (by simp) 1, by decide⟩
  · simp only [c94p, List.mem_cons, List.not_mem_nil, or_false] at ha
    simp only [c94q, List.mem_cons, List.not_mem_nil, or_false] at hb
    rcases ha with rfl | rfl | rfl | rfl <;> rcases hb with rfl | rfl | rfl | rfl <;>
      first | rfl | exact absurd h1 (by decide) | exact absurd h2 (by decide)

/-- Two variables are enough for a conflict: `x₀x₁ + x₀²x₁` becomes `2x₀x₁`. -/
example : c94xy.Valid ∧ c94xxy.Valid ∧ c94xy ≠ c94xxy ∧ Lit.lt c94xy c94xxy = some false ∧ Lit.lt c94xxy c94xy = some false ∧
    (Poly.addInPlace ⟨some 2, [⟨c94xy, (1 : F7)⟩]⟩ ⟨some 2, [⟨c94xxy, 1⟩]⟩).map (fun r => r.terms.map fun t => (t.literal, t.coeff)) =
      some [(c94xy, 2)] :=
  ⟨.inr ⟨by simp [c94xy], by simp [c94xy], by simp [c94xy]⟩, .inr ⟨by simp [c94xxy], by simp [c94xxy], by simp [c94xxy]⟩,
    by decide +kernel, by decide +kernel, by decide +kernel, by decide +kernel⟩

/-- `operator[]` of `x₀x₁` does not find the term behind `x₀²x₁`, and `Degree` of `x₀⁵ + x₁` is one. -/
example : Poly.index ⟨some 2, [⟨c94xxy, (1 : F7)⟩, ⟨c94xy, 3⟩]⟩ c94xy = some 0 ∧
    degree ([⟨[⟨0, 5⟩], 1⟩, ⟨[⟨1, 1⟩], 1⟩] : List (Term F7)) = some 1 := by decide +kernel

end Tachyon.Props
