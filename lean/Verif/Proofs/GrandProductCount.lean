import Mathlib.Algebra.MvPolynomial.SchwartzZippel
import Mathlib.Algebra.Polynomial.Roots
import Mathlib.Algebra.MvPolynomial.Eval
import Mathlib.Algebra.MvPolynomial.CommRing
import Mathlib.Data.Set.Card
import Mathlib.Data.Fintype.BigOperators
/-! Equality of products of linear forms in two challenges. -/
namespace Tachyon.GrandProduct
open Polynomial

variable {F : Type*} [Field F]

/-- `v + β l + γ` as a polynomial in `β = X₀` and `γ = X₁`. -/
noncomputable def form (p : F × F) : MvPolynomial (Fin 2) F :=
  MvPolynomial.C p.1 + MvPolynomial.X 0 * MvPolynomial.C p.2 + MvPolynomial.X 1

theorem form_degree (p : F × F) : (form p).totalDegree ≤ 1 := by
  unfold form
  refine (MvPolynomial.totalDegree_add _ _).trans (max_le ?_ ?_)
  · refine (MvPolynomial.totalDegree_add _ _).trans (max_le (by simp) ?_)
    refine (MvPolynomial.totalDegree_mul _ _).trans ?_
    simp
  · simp

theorem form_eval (p : F × F) (r : Fin 2 → F) : MvPolynomial.eval r (form p) = p.1 + r 0 * p.2 + r 1 := by
  simp [form]

theorem form_ne_zero (p : F × F) : form p ≠ 0 := by
  intro h
  have h0 := congrArg (MvPolynomial.eval ![0, -p.1]) h
  have h1 := congrArg (MvPolynomial.eval ![0, -p.1 + 1]) h
  rw [form_eval, map_zero] at h0 h1
  simp at h1

noncomputable def formProd (s : Multiset (F × F)) : MvPolynomial (Fin 2) F := (s.map form).prod

theorem formProd_degree (s : Multiset (F × F)) : (formProd s).totalDegree ≤ s.card := by
  induction s using Multiset.induction_on with
  | empty => simp [formProd]
  | cons a s ih =>
    unfold formProd at *
    rw [Multiset.map_cons, Multiset.prod_cons, Multiset.card_cons]
    refine (MvPolynomial.totalDegree_mul _ _).trans ?_
    have := form_degree a
    omega

theorem formProd_ne_zero (s : Multiset (F × F)) : formProd s ≠ 0 := by
  unfold formProd
  rw [Ne, Multiset.prod_eq_zero_iff]
  intro h
  obtain ⟨a, _, h⟩ := Multiset.mem_map.1 h
  exact form_ne_zero a h

theorem formProd_eval (s : Multiset (F × F)) (r : Fin 2 → F) :
    MvPolynomial.eval r (formProd s) = (s.map fun p => p.1 + r 0 * p.2 + r 1).prod := by
  unfold formProd
  rw [map_multiset_prod, Multiset.map_map]
  congr 1
  exact Multiset.map_congr rfl fun p _ => form_eval p r

/-- The roots in `X₁` recover the pairs. -/
theorem formProd_injective {s t : Multiset (F × F)} (h : formProd s = formProd t) : s = t := by
  let φ : MvPolynomial (Fin 2) F →+* F[X][X] :=
    MvPolynomial.eval₂Hom (C.comp C) ![C X, X]
  have key : ∀ s : Multiset (F × F), (φ (formProd s)).roots = s.map fun p => -(C p.1 + X * C p.2 : F[X]) := by
    intro s
    have : φ (formProd s) = ((s.map fun p => -(C p.1 + X * C p.2 : F[X])).map fun a => X - C a).prod := by
      unfold formProd
      rw [map_multiset_prod, Multiset.map_map, Multiset.map_map]
      congr 1
      refine Multiset.map_congr rfl fun p _ => ?_
      simp [φ, form]
      ring
    rw [this, roots_multiset_prod_X_sub_C]
  have h2 := congrArg (fun P => (φ P).roots) h
  simp only [key] at h2
  refine Multiset.map_injective (fun p q hpq => ?_) h2
  have hpq := neg_injective hpq
  have c0 := congrArg (fun P => Polynomial.coeff P 0) hpq
  have c1 := congrArg (fun P => Polynomial.coeff P 1) hpq
  simp at c0 c1
  exact Prod.ext c0 c1

variable [Fintype F]

/-- A nonzero polynomial of degree at most `d` in two variables has at most `d |F|` zeros. -/
theorem zeros_le {P : MvPolynomial (Fin 2) F} (hP : P ≠ 0) {d : ℕ} (hd : P.totalDegree ≤ d) :
    {r : F × F | MvPolynomial.eval ![r.1, r.2] P = 0}.ncard ≤ d * Fintype.card F := by
  classical
  have h := MvPolynomial.schwartz_zippel_totalDegree hP (Finset.univ : Finset F)
  have hc : 0 < Fintype.card F := Fintype.card_pos
  have e : {r : F × F | MvPolynomial.eval ![r.1, r.2] P = 0}.ncard =
      (Finset.filter (fun f => MvPolynomial.eval f P = 0)
        (Fintype.piFinset fun _ : Fin 2 => (Finset.univ : Finset F))).card := by
    rw [← Set.ncard_coe_finset]
    refine Set.ncard_congr (fun r _ => ![r.1, r.2]) ?_ ?_ ?_
    · intro r hr; simpa using hr
    · intro r r' _ _ h
      have h0 := congrFun h 0
      have h1 := congrFun h 1
      simp at h0 h1
      exact Prod.ext h0 h1
    · intro f hf
      have hf : MvPolynomial.eval f P = 0 := by simpa using hf
      have : f = ![f 0, f 1] := by ext i; fin_cases i <;> rfl
      exact ⟨(f 0, f 1), by simpa [← this] using hf, this.symm⟩
  rw [e]
  rw [Finset.card_univ, div_le_div_iff₀ (by positivity) (by exact_mod_cast hc)] at h
  have h' : (Finset.filter (fun f => MvPolynomial.eval f P = 0)
      (Fintype.piFinset fun _ : Fin 2 => (Finset.univ : Finset F))).card * Fintype.card F ≤
      P.totalDegree * Fintype.card F ^ 2 := by exact_mod_cast h
  have h2 : (Finset.filter (fun f => MvPolynomial.eval f P = 0)
      (Fintype.piFinset fun _ : Fin 2 => (Finset.univ : Finset F))).card ≤ P.totalDegree * Fintype.card F := by
    refine Nat.le_of_mul_le_mul_right (c := Fintype.card F) ?_ hc
    calc _ ≤ _ := h'
      _ = _ := by ring
  exact h2.trans (Nat.mul_le_mul_right _ hd)

/-- Two polynomials are equal, or the first is 0, for few challenges only. -/
theorem bad_poly_le {P Q : MvPolynomial (Fin 2) F} (h : P ≠ Q) (h0 : P ≠ 0) {d : ℕ} (hP : P.totalDegree ≤ d)
    (hQ : Q.totalDegree ≤ d) :
    {r : F × F | MvPolynomial.eval ![r.1, r.2] P = MvPolynomial.eval ![r.1, r.2] Q ∨
      MvPolynomial.eval ![r.1, r.2] P = 0}.ncard ≤ 2 * d * Fintype.card F := by
  have h1 := zeros_le (P := P - Q) (fun e => h (sub_eq_zero.1 e)) (d := d)
    ((MvPolynomial.totalDegree_sub _ _).trans (max_le hP hQ))
  have h2 := zeros_le h0 hP
  have : {r : F × F | MvPolynomial.eval ![r.1, r.2] P = MvPolynomial.eval ![r.1, r.2] Q ∨
      MvPolynomial.eval ![r.1, r.2] P = 0} ⊆
      {r : F × F | MvPolynomial.eval ![r.1, r.2] (P - Q) = 0} ∪
      {r : F × F | MvPolynomial.eval ![r.1, r.2] P = 0} := by
    rintro r (hr | hr)
    · left
      show MvPolynomial.eval ![r.1, r.2] (P - Q) = 0
      rw [map_sub, hr, sub_self]
    · exact Or.inr hr
  refine (Set.ncard_le_ncard this (Set.toFinite _)).trans ((Set.ncard_union_le _ _).trans ?_)
  have : 2 * d * Fintype.card F = d * Fintype.card F + d * Fintype.card F := by ring
  omega

/-- Different multisets of pairs give the same product, or one of them 0, for few challenges only. -/
theorem bad_le {s t : Multiset (F × F)} (h : s ≠ t) {d : ℕ} (hs : s.card ≤ d) (ht : t.card ≤ d) :
    {r : F × F | (s.map fun p => p.1 + r.1 * p.2 + r.2).prod = (t.map fun p => p.1 + r.1 * p.2 + r.2).prod ∨
      (s.map fun p => p.1 + r.1 * p.2 + r.2).prod = 0}.ncard ≤ 2 * d * Fintype.card F := by
  have := bad_poly_le (fun e => h (formProd_injective e)) (formProd_ne_zero s) ((formProd_degree s).trans hs)
    ((formProd_degree t).trans ht)
  simpa only [formProd_eval, Matrix.cons_val_zero, Matrix.cons_val_one] using this

/-! ### Lookups -/

/-- `∏ (a + β) ∏ (s + γ)`. -/
noncomputable def lookProd (a s : Multiset F) : MvPolynomial (Fin 2) F :=
  (a.map fun x => MvPolynomial.C x + MvPolynomial.X 0).prod * (s.map fun x => MvPolynomial.C x + MvPolynomial.X 1).prod

omit [Fintype F] in
theorem lin_ne_zero (i : Fin 2) (x : F) : (MvPolynomial.C x + MvPolynomial.X i : MvPolynomial (Fin 2) F) ≠ 0 := by
  intro h
  have := congrArg (MvPolynomial.eval fun _ => -x + 1) h
  simp at this

omit [Fintype F] in
theorem linProd_ne_zero (i : Fin 2) (s : Multiset F) :
    (s.map fun x => (MvPolynomial.C x + MvPolynomial.X i : MvPolynomial (Fin 2) F)).prod ≠ 0 := by
  rw [Ne, Multiset.prod_eq_zero_iff]
  intro h
  obtain ⟨a, _, h⟩ := Multiset.mem_map.1 h
  exact lin_ne_zero i a h

omit [Fintype F] in
theorem linProd_degree (i : Fin 2) (s : Multiset F) :
    (s.map fun x => (MvPolynomial.C x + MvPolynomial.X i : MvPolynomial (Fin 2) F)).prod.totalDegree ≤ s.card := by
  induction s using Multiset.induction_on with
  | empty => simp
  | cons a s ih =>
    rw [Multiset.map_cons, Multiset.prod_cons, Multiset.card_cons]
    refine (MvPolynomial.totalDegree_mul _ _).trans ?_
    have : (MvPolynomial.C a + MvPolynomial.X i : MvPolynomial (Fin 2) F).totalDegree ≤ 1 :=
      (MvPolynomial.totalDegree_add _ _).trans (max_le (by simp) (by simp))
    omega

omit [Fintype F] in
theorem lookProd_ne_zero (a s : Multiset F) : lookProd a s ≠ 0 :=
  mul_ne_zero (linProd_ne_zero 0 a) (linProd_ne_zero 1 s)

omit [Fintype F] in
theorem lookProd_degree (a s : Multiset F) : (lookProd a s).totalDegree ≤ a.card + s.card :=
  (MvPolynomial.totalDegree_mul _ _).trans (Nat.add_le_add (linProd_degree 0 a) (linProd_degree 1 s))

omit [Fintype F] in
theorem lookProd_eval (a s : Multiset F) (β γ : F) :
    MvPolynomial.eval ![β, γ] (lookProd a s) = (a.map (· + β)).prod * (s.map (· + γ)).prod := by
  unfold lookProd
  rw [map_mul, map_multiset_prod, map_multiset_prod, Multiset.map_map, Multiset.map_map]
  congr 2 <;> exact Multiset.map_congr rfl fun p _ => by simp

omit [Fintype F] in
theorem linProd_injective (i : Fin 2) {a a' : Multiset F}
    (h : (a.map fun x => (MvPolynomial.C x + MvPolynomial.X i : MvPolynomial (Fin 2) F)).prod =
      (a'.map fun x => MvPolynomial.C x + MvPolynomial.X i).prod) : a = a' := by
  let φ : MvPolynomial (Fin 2) F →+* F[X] := MvPolynomial.eval₂Hom C fun _ => X
  have key : ∀ s : Multiset F, (φ (s.map fun x => MvPolynomial.C x + MvPolynomial.X i).prod).roots =
      s.map fun x => -x := by
    intro s
    rw [map_multiset_prod, Multiset.map_map, ← roots_multiset_prod_X_sub_C (s.map fun x => -x), Multiset.map_map]
    congr 2
    refine Multiset.map_congr rfl fun p _ => ?_
    simp [φ]
    ring
  have h2 := congrArg (fun P => (φ P).roots) h
  simp only [key] at h2
  exact Multiset.map_injective neg_injective h2

omit [Fintype F] in
theorem lookProd_injective {a s a' s' : Multiset F} (h : lookProd a s = lookProd a' s') : a = a' ∧ s = s' := by
  have hs : s = s' := by
    let φ : MvPolynomial (Fin 2) F →+* F[X][X] := MvPolynomial.eval₂Hom (C.comp C) ![C X, X]
    have key : ∀ a s : Multiset F, (φ (lookProd a s)).roots = s.map fun x => C (-x) := by
      intro a s
      have e : φ (lookProd a s) = C ((a.map fun x => C x + X).prod : F[X]) *
          ((s.map fun x => (C (-x) : F[X])).map fun y => X - C y).prod := by
        unfold lookProd
        rw [map_mul, map_multiset_prod, map_multiset_prod, map_multiset_prod, Multiset.map_map, Multiset.map_map,
          Multiset.map_map, Multiset.map_map]
        congr 2
        · exact Multiset.map_congr rfl fun p _ => by simp [φ]
        · refine Multiset.map_congr rfl fun p _ => ?_
          simp [φ]
          ring
      rw [e, roots_C_mul, roots_multiset_prod_X_sub_C]
      rw [Ne, Multiset.prod_eq_zero_iff]
      intro h
      obtain ⟨x, _, h⟩ := Multiset.mem_map.1 h
      have := congrArg (fun P => Polynomial.coeff P 1) h
      simp at this
    have h2 := congrArg (fun P => (φ P).roots) h
    simp only [key] at h2
    exact Multiset.map_injective (fun x y hxy => neg_injective (C_injective hxy)) h2
  subst hs
  exact ⟨linProd_injective 0 (mul_right_cancel₀ (linProd_ne_zero 1 s) h), rfl⟩

/-! ### One challenge -/

/-- Different multisets give the same product, or 0, for few challenges only. -/
theorem bad_one_le {a a' : Multiset F} (h : a ≠ a') {d : ℕ} (ha : a.card ≤ d) (ha' : a'.card ≤ d) :
    {γ : F | (a.map (· + γ)).prod = (a'.map (· + γ)).prod ∨ (a.map (· + γ)).prod = 0}.ncard ≤ 2 * d := by
  classical
  let Q : Multiset F → F[X] := fun s => ((s.map fun x => -x).map fun y => X - C y).prod
  have hev : ∀ (s : Multiset F) (γ : F), (Q s).eval γ = (s.map (· + γ)).prod := by
    intro s γ
    simp only [Q]
    rw [eval_multiset_prod, Multiset.map_map, Multiset.map_map]
    congr 1
    exact Multiset.map_congr rfl fun p _ => by simp [add_comm]
  have hdeg : ∀ s : Multiset F, (Q s).natDegree = s.card := by
    intro s
    simp only [Q]
    rw [natDegree_multiset_prod_X_sub_C_eq_card, Multiset.card_map]
  have hroots : ∀ s : Multiset F, (Q s).roots = s.map fun x => -x := fun s => roots_multiset_prod_X_sub_C _
  have hne : Q a - Q a' ≠ 0 := by
    intro e
    have := congrArg Polynomial.roots (sub_eq_zero.1 e)
    rw [hroots, hroots] at this
    exact h (Multiset.map_injective neg_injective this)
  have hz : ∀ P : F[X], P ≠ 0 → P.natDegree ≤ d → {γ : F | P.eval γ = 0}.ncard ≤ d := by
    intro P h0 hd
    have : {γ : F | P.eval γ = 0} ⊆ (P.roots.toFinset : Set F) := by
      intro γ hγ
      simp only [Finset.mem_coe, Multiset.mem_toFinset, mem_roots h0]
      exact hγ
    refine (Set.ncard_le_ncard this (Set.toFinite _)).trans ?_
    rw [Set.ncard_coe_finset]
    exact (Multiset.toFinset_card_le _).trans ((card_roots' P).trans hd)
  have hQ : Q a ≠ 0 := (monic_multiset_prod_of_monic _ _ fun y _ => monic_X_sub_C y).ne_zero
  have h1 := hz _ hne ((natDegree_sub_le _ _).trans (max_le (by rw [hdeg]; exact ha) (by rw [hdeg]; exact ha')))
  have h2 := hz _ hQ (by rw [hdeg]; exact ha)
  have : {γ : F | (a.map (· + γ)).prod = (a'.map (· + γ)).prod ∨ (a.map (· + γ)).prod = 0} ⊆
      {γ : F | (Q a - Q a').eval γ = 0} ∪ {γ : F | (Q a).eval γ = 0} := by
    rintro γ (hr | hr)
    · left
      show (Q a - Q a').eval γ = 0
      rw [eval_sub, hev, hev, hr, sub_self]
    · right
      show (Q a).eval γ = 0
      rw [hev, hr]
  refine (Set.ncard_le_ncard this (Set.toFinite _)).trans ((Set.ncard_union_le _ _).trans ?_)
  omega

end Tachyon.GrandProduct
