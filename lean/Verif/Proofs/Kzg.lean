import Verif.Spec.Kzg
import Verif.Proofs.PolyEval
import Verif.Proofs.PolyMix
import Verif.Props.Poly
/-! Commitments and combinations of polynomials. -/
namespace Tachyon.Kzg
open Polynomial Tachyon.Poly

section
variable {F M N : Type} [Field F] [AddCommGroup M] [Module F M] [AddCommGroup N] [Module F N]

theorem powSum_append (r : F) (a b : List M) :
    powSum r (a ++ b) = powSum r a + r ^ a.length • powSum r b := by
  induction a with
  | nil => simp [powSum]
  | cons x a ih =>
    rw [List.cons_append, powSum, powSum, ih, smul_add, List.length_cons, pow_succ', mul_smul]
    abel

theorem powSum_map_add {α : Type} (r : F) (f g : α → M) (l : List α) :
    powSum r (l.map fun x => f x + g x) = powSum r (l.map f) + powSum r (l.map g) := by
  induction l with
  | nil => simp [powSum]
  | cons x l ih => simp only [List.map_cons, powSum, ih, smul_add]; abel

theorem powSum_map_sub {α : Type} (r : F) (f g : α → M) (l : List α) :
    powSum r (l.map fun x => f x - g x) = powSum r (l.map f) - powSum r (l.map g) := by
  induction l with
  | nil => simp [powSum]
  | cons x l ih => simp only [List.map_cons, powSum, ih, smul_sub]; abel

theorem powSum_map_hom {α : Type} (r : F) (φ : M →ₗ[F] N) (f : α → M) (l : List α) :
    powSum r (l.map fun x => φ (f x)) = φ (powSum r (l.map f)) := by
  induction l with
  | nil => simp [powSum]
  | cons x l ih => simp only [List.map_cons, powSum, ih, map_add, map_smul]

theorem powSum_map_smul {α : Type} (r : F) (f : α → F) (g : M) (l : List α) :
    powSum r (l.map fun x => f x • g) = powSum r (l.map f) • g :=
  powSum_map_hom r ((LinearMap.toSpanSingleton F M g)) f l

theorem powSum_map_const_smul {α : Type} (r c : F) (f : α → M) (l : List α) :
    powSum r (l.map fun x => c • f x) = c • powSum r (l.map f) := by
  induction l with
  | nil => simp [powSum]
  | cons x l ih => simp only [List.map_cons, powSum, ih, smul_add, smul_comm r c]

theorem powSum_zero {α : Type} (r : F) (f : α → M) (l : List α) (h : ∀ x ∈ l, f x = 0) :
    powSum r (l.map f) = 0 := by
  induction l with
  | nil => rfl
  | cons x l ih =>
    rw [List.map_cons, powSum, h x (by simp), ih fun y hy => h y (by simp [hy])]; simp

theorem powSum_eval {α : Type} (r : F) (f : α → F[X]) (l : List α) (x : F) :
    (powSum r (l.map f)).eval x = powSum r (l.map fun a => (f a).eval x) := by
  induction l with
  | nil => simp [powSum]
  | cons a l ih => simp only [List.map_cons, powSum, eval_add, eval_smul, ih]

theorem powSum_dpoly (r : F) (l : List F) : powSum r l = (dpoly l).eval r := by
  induction l with
  | nil => simp [powSum, dpoly]
  | cons a l ih => simp [powSum, dpoly, ih]

theorem powSum_natDegree (r : F) (D : ℕ) (l : List F[X]) (h : ∀ p ∈ l, p.natDegree ≤ D) :
    (powSum r l).natDegree ≤ D := by
  induction l with
  | nil => simp [powSum]
  | cons p l ih =>
    rw [powSum]
    refine (natDegree_add_le _ _).trans (max_le (h p (by simp)) ?_)
    exact (natDegree_smul_le _ _).trans (ih fun q hq => h q (by simp [hq]))

/-- Where a list that is not zero vanishes as a combination: fewer values than its length. -/
theorem exists_bad (l : List F) (h : ∃ x ∈ l, x ≠ 0) :
    ∃ bad : Finset F, bad.card < l.length ∧ ∀ r ∉ bad, powSum r l ≠ 0 := by
  classical
  obtain ⟨x, hx, h0⟩ := h
  obtain ⟨i, hi, rfl⟩ := List.getElem_of_mem hx
  have hne : dpoly l ≠ 0 := by
    intro h
    have := coeff_dpoly l i
    rw [h, coeff_zero, List.getD_eq_getElem _ _ hi] at this
    exact h0 this.symm
  refine ⟨(dpoly l).roots.toFinset, ?_, fun r hr h => hr ?_⟩
  · refine (Multiset.toFinset_card_le _).trans_lt ?_
    refine (card_roots' _).trans_lt ?_
    exact (natDegree_lt_iff_degree_lt hne).2 (degree_dpoly_lt le_rfl)
  · rw [Multiset.mem_toFinset, mem_roots hne, IsRoot, ← powSum_dpoly, h]

theorem exists_roots (p : F[X]) (h : p ≠ 0) {D : ℕ} (hD : p.natDegree ≤ D) :
    ∃ bad : Finset F, bad.card ≤ D ∧ ∀ r ∉ bad, p.eval r ≠ 0 := by
  classical
  refine ⟨p.roots.toFinset, (Multiset.toFinset_card_le _).trans ((card_roots' _).trans hD), fun r hr h' => hr ?_⟩
  rw [Multiset.mem_toFinset, mem_roots h]; exact h'

end

variable {F G : Type} [Field F] [AddCommGroup G] [Module F G]

theorem zip_powers (g : G) (tau : F) : ∀ (l : List F) (k n : ℕ), l.length ≤ n →
    (List.zipWith (fun (s : F) b => s • b) l ((List.range' k n).map fun i => tau ^ i • g)).sum =
      (tau ^ k * (dpoly l).eval tau) • g := by
  intro l
  induction l with
  | nil => intro k n _; simp [dpoly]
  | cons a l ih =>
    intro k n h
    obtain ⟨n, rfl⟩ : ∃ m, n = m + 1 := ⟨n - 1, by simp at h; omega⟩
    rw [List.range'_succ, List.map_cons, List.zipWith_cons_cons, List.sum_cons,
      ih (k + 1) n (by simpa using h), smul_smul, ← add_smul, dpoly]
    congr 1
    simp only [eval_add, eval_C, eval_mul, eval_X]
    ring

theorem doMSM_eq (bases : List G) (l : List F) :
    doMSM bases l = if l.length ≤ bases.length then
      some (List.zipWith (fun (s : F) b => s • b) l bases).sum else none := by
  rw [doMSM, msm, List.length_take]
  by_cases h : l.length ≤ bases.length
  · rw [min_eq_right h, min_eq_left h, if_neg (by simp), if_pos h]
    congr 2
    rw [List.zipWith_eq_zipWith_take_min (l₁ := l) (l₂ := bases), min_eq_left h, List.take_length]
  · rw [if_pos (by omega), if_neg h]

theorem commit_eq {k : Setup G} {g : G} {tau : F} {n : ℕ} (hk : k.For g tau n) (l : List F) :
    k.commit l = if l.length ≤ n then some (commitment g tau (dpoly l)) else none := by
  rw [Setup.commit, doMSM_eq, hk, List.length_map, List.length_range]
  by_cases h : l.length ≤ n
  · rw [if_pos h, if_pos h, List.range_eq_range', zip_powers g tau l 0 n h, pow_zero, one_mul]; rfl
  · rw [if_neg h, if_neg h]

theorem length_le_of_degree {l : List F} (hl : DClean l) {n : ℕ} (h : (dpoly l).degree < (n : WithBot ℕ)) :
    l.length ≤ n := by
  by_cases h0 : l = []
  · simp [h0]
  have hne : dpoly l ≠ 0 := fun e => h0 ((dpoly_eq_zero hl).1 e)
  have h1 := (natDegree_lt_iff_degree_lt hne).2 h
  rw [natDegree_dpoly hl, Dense.degree_eq_length] at h1
  have := List.length_pos_of_ne_nil h0
  omega

/-! ### Operations on lists that need not be clean -/

variable [DecidableEq F]

/-- A list that is clean or has at most one element. -/
def Short (l : List F) : Prop := DClean l ∨ l.length ≤ 1

theorem mulInPlaceScalar_any (l : List F) (s : F) :
    dpoly (Dense.mulInPlaceScalar l s) = s • dpoly l ∧
      (Short l → Short (Dense.mulInPlaceScalar l s)) ∧ (DClean l → DClean (Dense.mulInPlaceScalar l s)) := by
  rw [Dense.mulInPlaceScalar]
  split
  · next h =>
    refine ⟨?_, id, id⟩
    rcases h with h | rfl
    · rw [List.isEmpty_iff.1 h]; simp [dpoly]
    · rw [one_smul]
  · obtain ⟨h1, h2⟩ := Dense.removeZeros_spec (l.map (· * s))
    exact ⟨by rw [h1, dpoly_map_mul, mul_comm, ← smul_eq_C_mul], fun _ => .inl h2.1, fun _ => h2.1⟩

theorem addInPlace_any (l r : List F) : ∃ w, Dense.addInPlace l r = some w ∧ dpoly w = dpoly l + dpoly r ∧
    (Short l → Short r → Short w) ∧ (DClean l → DClean r → DClean w) := by
  rw [Dense.addInPlace]
  split
  · next h => exact ⟨r, rfl, by rw [List.isEmpty_iff.1 h]; simp [dpoly], fun _ h => h, fun _ h => h⟩
  split
  · next h => exact ⟨l, rfl, by rw [List.isEmpty_iff.1 h]; simp [dpoly], fun h _ => h, fun h _ => h⟩
  obtain ⟨w, h1, h2⟩ := Dense.zipInto_add (Dense.padTo (max l.length r.length) l) r (by
    rw [Dense.padTo, List.length_append, List.length_replicate]; omega)
  obtain ⟨h3, h4⟩ := Dense.removeZeros_spec w
  rw [h1, Option.map_some]
  exact ⟨_, rfl, by rw [h3, h2, Dense.dpoly_padTo], fun _ _ => .inl h4.1, fun _ _ => h4.1⟩

theorem subInPlace_any (l r : List F) (hr : DClean r) :
    ∃ w, Dense.subInPlace l r = some w ∧ dpoly w = dpoly l - dpoly r ∧ (Short l → Short w) := by
  rw [Dense.subInPlace]
  split
  · next h =>
    obtain ⟨h1, h2⟩ := Dense.neg_spec hr
    exact ⟨_, rfl, by rw [h1, List.isEmpty_iff.1 h]; simp [dpoly], fun _ => .inl h2⟩
  split
  · next h => exact ⟨l, rfl, by rw [List.isEmpty_iff.1 h]; simp [dpoly], fun h => h⟩
  obtain ⟨w, h1, h2⟩ := Dense.zipInto_sub (Dense.padTo (max l.length r.length) l) r (by
    rw [Dense.padTo, List.length_append, List.length_replicate]; omega)
  obtain ⟨h3, h4⟩ := Dense.removeZeros_spec w
  rw [h1, Option.map_some]
  exact ⟨_, rfl, by rw [h3, h2, Dense.dpoly_padTo], fun _ => .inl h4.1⟩

theorem mulScalar_any (l : List F) (s : F) : dpoly (Dense.mulScalar l s) = s • dpoly l ∧
    (Short l → Short (Dense.mulScalar l s)) := by
  rw [Dense.mulScalar]
  split
  · next h =>
    refine ⟨?_, id⟩
    rcases h with h | rfl
    · rw [List.isEmpty_iff.1 h]; simp [dpoly]
    · rw [one_smul]
  split
  · next h => rw [h]; exact ⟨by simp [dpoly], fun _ => .inr (by simp)⟩
  · next h1 h2 =>
    refine ⟨by rw [dpoly_map_mul, mul_comm, ← smul_eq_C_mul], ?_⟩
    rintro (h | h)
    · exact .inl (Dense.dclean_map h fun x hx => by simpa [h2] using hx)
    · exact .inr (by simpa using h)

theorem polyCombine_go (r : F) : ∀ (vs : List (List F)) (v : List F), ∃ w,
    vs.foldlM (fun ret v => Dense.addInPlace (Dense.mulInPlaceScalar ret r) v) v = some w ∧
      dpoly w = powSum r ((vs.reverse ++ [v]).map dpoly) ∧
      (Short v → (∀ x ∈ vs, Short x) → Short w) ∧ (DClean v → (∀ x ∈ vs, DClean x) → DClean w) := by
  intro vs
  induction vs with
  | nil => intro v; exact ⟨v, rfl, by simp [powSum], fun h _ => h, fun h _ => h⟩
  | cons x vs ih =>
    intro v
    obtain ⟨m1, m2, m3⟩ := mulInPlaceScalar_any v r
    obtain ⟨w, a1, a2, a3, a4⟩ := addInPlace_any (Dense.mulInPlaceScalar v r) x
    obtain ⟨z, z1, z2, z3, z4⟩ := ih w
    refine ⟨z, by rw [List.foldlM_cons, a1]; exact z1, ?_, fun h h' => ?_, fun h h' => ?_⟩
    · rw [z2, List.reverse_cons, List.append_assoc, List.map_append, List.map_append, powSum_append, powSum_append]
      congr 1
      simp [powSum, a2, m1, add_comm]
    · exact z3 (a3 (m2 h) (h' x (by simp))) fun y hy => h' y (by simp [hy])
    · exact z4 (a4 (m3 h) (h' x (by simp))) fun y hy => h' y (by simp [hy])

theorem polyCombine_eq (r : F) (values : List (List F)) (h : values ≠ []) : ∃ w,
    polyCombine r values = some w ∧ dpoly w = powSum r (values.map dpoly) ∧
      ((∀ x ∈ values, Short x) → Short w) ∧ ((∀ x ∈ values, DClean x) → DClean w) := by
  rw [polyCombine]
  split
  · next h' => exact absurd (List.reverse_eq_nil_iff.1 h') h
  next v vs h' =>
    obtain ⟨w, w1, w2, w3, w4⟩ := polyCombine_go r vs v
    have hv : values = vs.reverse ++ [v] := by rw [← List.reverse_reverse values, h', List.reverse_cons]
    refine ⟨w, w1, by rw [w2, hv], fun hs => ?_, fun hs => ?_⟩
    · exact w3 (hs v (by simp [hv])) fun x hx => hs x (by simp [hv, hx])
    · exact w4 (hs v (by simp [hv])) fun x hx => hs x (by simp [hv, hx])

/-- Exact division by a product of linear factors. -/
theorem div_exact {l z : List F} {p : F[X]} (hl : Short l) (hz : DClean z) (hz0 : dpoly z ≠ 0)
    (hz1 : 0 < (dpoly z).natDegree) (h : dpoly l = p * dpoly z) :
    ∃ w, Dense.div l (.dense z) = some w ∧ dpoly w = p ∧ DClean w := by
  have hzne : z ≠ [] := fun e => hz0 ((dpoly_eq_zero hz).2 e)
  by_cases hp : dpoly l = 0
  · have hp0 : p = 0 := by
      rw [hp] at h; exact (mul_eq_zero.1 h.symm).resolve_right hz0
    have hlen : l.length ≤ 1 := by
      rcases hl with hl | hl
      · rw [(dpoly_eq_zero hl).1 hp]; simp
      · exact hl
    have hdeg : Dense.degree l < Dense.degree z := by
      rw [natDegree_dpoly hz] at hz1
      rw [Dense.degree_eq_length l]; omega
    refine ⟨[], ?_, by simp [dpoly, hp0], Dense.dclean_nil⟩
    rw [Dense.div, Dense.divide, if_neg (by simpa [Dense.Divisor.isZero] using hzne)]
    split
    · rfl
    · rw [if_pos (show Dense.degree l < Dense.Divisor.degree (.dense z) from hdeg)]; rfl
  · have hlc : DClean l := by
      rcases hl with hl | hl
      · exact hl
      · match l, hl with
        | [], _ => exact Dense.dclean_nil
        | [a], _ =>
          intro e
          refine hp ?_
          simp at e
          simp [dpoly, e]
    obtain ⟨q', r, -, h2, -, -, -, h6, -, h8, -⟩ := Props.C36_divide (d := .dense z) hlc hz hp hz0
    refine ⟨q', h2, ?_, h8⟩
    rw [h6, h]
    show p * dpoly z / dpoly z = p
    exact mul_div_cancel_right₀ _ hz0

end Tachyon.Kzg
