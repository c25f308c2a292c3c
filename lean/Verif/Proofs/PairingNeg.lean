import Verif.Proofs.PairingMain
/-! Negating the point of `G1` conjugates the lines. -/
namespace Tachyon.Pairing
open WeierstrassCurve.Affine Tachyon.BigInt

variable {α β γ k K L : Type} [Field k] [DecidableEq k] [Field K] [DecidableEq K] [CommRing L] [Nontrivial L]
  {o : Ops α β γ}
  {R1 : α → k → Prop} {R2 : β → K → Prop} {R12 : γ → L → Prop} {ι : k →+* K} {j : K →+* L} {w : L}
  {ξ : K} {p : ℕ} {bE : k} {b : K}
  (h : o.Implements R1 R2 R12 ι j w ξ p) {cfg : Config β} {u : L}
  (hu : if cfg.twistM then u * w = 1 else u = w) [Fact p.Prime] [CharP K p]
include h

omit [DecidableEq k] [DecidableEq K] [Nontrivial L] [Fact p.Prime] [CharP K p] in
theorem conj_j (a : K) : (j a) ^ p ^ 6 = j a := by
  rw [← map_pow]
  congr 1
  have : p ^ 6 = p ^ 2 * p ^ 2 * p ^ 2 := by ring
  rw [this, pow_mul, pow_mul, h.fixed2, h.fixed2, h.fixed2]

include hu

omit [DecidableEq k] [DecidableEq K] [Nontrivial L] [Fact p.Prime] [CharP K p] in
theorem conj_u : u ^ p ^ 6 = -u := by
  cases hM : cfg.twistM with
  | true =>
    simp only [hM, if_true] at hu
    have h1 : u ^ p ^ 6 * w ^ p ^ 6 = 1 := by rw [← mul_pow, hu, one_pow]
    rw [h.conj] at h1
    linear_combination -u * h1 - u ^ p ^ 6 * hu
  | false =>
    simp only [hM, Bool.false_eq_true, if_false] at hu
    rw [hu, h.conj]

omit [DecidableEq k] in
theorem line_neg (x y : k) (T Q : (twist b).Pt) : ∃ s : L, s ^ 2 = 1 ∧
    line j u (j (ι x)) (j (ι (-y))) T Q = s * line j u (j (ι x)) (j (ι y)) T Q ^ p ^ 6 := by
  rcases T with _ | ⟨X, Y, hP⟩
  · exact ⟨1, by simp, by simp [line]⟩
  rcases Q with _ | ⟨X₂, Y₂, hP₂⟩
  · exact ⟨1, by simp, by simp [line]⟩
  refine ⟨-1, by ring, ?_⟩
  have : CharP L p := charP_of_injective_ringHom j.injective p
  simp only [line]
  rw [sub_pow_char_pow, sub_pow_char_pow, mul_pow, mul_pow, mul_pow, sub_pow_char_pow, mul_pow, conj_j h, conj_j h,
    conj_j h, conj_j h, conj_j h, ← pow_mul u 3, mul_comm 3, pow_mul, ← pow_mul u 2, mul_comm 2, pow_mul, conj_u h hu,
    map_neg, map_neg]
  ring

omit [DecidableEq k] in
theorem miller_neg (x y : k) (Q : (twist b).Pt) (ds : List ℤ) : ∀ (T : (twist b).Pt) (f f' : L),
    (∃ s : L, s ^ 2 = 1 ∧ f' = s * f ^ p ^ 6) →
    ∃ s : L, s ^ 2 = 1 ∧ miller j u (j (ι x)) (j (ι (-y))) Q ds T f' =
      s * miller j u (j (ι x)) (j (ι y)) Q ds T f ^ p ^ 6 := by
  induction ds with
  | nil => intro T f f' hf; exact hf
  | cons d ds ih =>
    rintro T f f' ⟨s, hs, rfl⟩
    obtain ⟨s1, hs1, e1⟩ := line_neg h hu x y T T
    obtain ⟨s2, hs2, e2⟩ := line_neg h hu x y (T + T) (d • Q)
    simp only [miller]
    split
    · refine ih _ _ _ ⟨s1, hs1, ?_⟩
      rw [e1]
      linear_combination (f ^ p ^ 6) ^ 2 * s1 * line j u (j (ι x)) (j (ι y)) T T ^ p ^ 6 * hs
    · refine ih _ _ _ ⟨s1 * s2, by rw [mul_pow, hs1, hs2, one_mul], ?_⟩
      rw [e1, e2]
      simp only [mul_pow]
      linear_combination (f ^ p ^ 6) ^ 2 * s1 * line j u (j (ι x)) (j (ι y)) T T ^ p ^ 6 * s2 *
        line j u (j (ι x)) (j (ι y)) (T + T) (d • Q) ^ p ^ 6 * hs

omit [DecidableEq k] in
theorem ateMiller_neg (ds : List ℤ) (P : (twist bE).Pt) (Q : (twist b).Pt) : ∃ s : L, s ^ 2 = 1 ∧
    ateMiller ι j u ds (-P) Q = s * ateMiller ι j u ds P Q ^ p ^ 6 := by
  rcases P with _ | ⟨x, y, hP⟩
  · exact ⟨1, by simp, by rw [show -(Point.zero : (twist bE).Pt) = Point.zero from rfl]; simp [ateMiller]⟩
  · obtain ⟨h', e⟩ := Curve.neg_curve hP
    rw [e]
    simp only [ateMiller]
    split
    · exact ⟨1, by simp, by simp⟩
    · exact miller_neg h hu x y Q ds Q 1 1 ⟨1, by simp, by simp⟩

omit [DecidableEq k] in
theorem bnLines_neg (t : ℤ) (π : (twist b).Pt → (twist b).Pt) (P : (twist bE).Pt) (Q : (twist b).Pt) :
    ∃ s : L, s ^ 2 = 1 ∧ bnLines ι j u t π (-P) Q = s * bnLines ι j u t π P Q ^ p ^ 6 := by
  rcases P with _ | ⟨x, y, hP⟩
  · exact ⟨1, by simp, by rw [show -(Point.zero : (twist bE).Pt) = Point.zero from rfl]; simp [bnLines]⟩
  · obtain ⟨h', e⟩ := Curve.neg_curve hP
    rw [e]
    simp only [bnLines]
    split
    · exact ⟨1, by simp, by simp⟩
    · obtain ⟨s1, hs1, e1⟩ := line_neg h hu x y (t • Q) (π Q)
      obtain ⟨s2, hs2, e2⟩ := line_neg h hu x y (t • Q + π Q) (-π (π Q))
      exact ⟨s1 * s2, by rw [mul_pow, hs1, hs2, one_mul], by rw [e1, e2]; ring⟩

omit [Field k] [DecidableEq k] [Field K] [DecidableEq K] [Nontrivial L] h hu [Fact p.Prime] [CharP K p] in
theorem prod_neg {I : Type} {l : List I} {f g : I → L} (hfg : ∀ i, ∃ s : L, s ^ 2 = 1 ∧ g i = s * f i ^ p ^ 6) :
    ∃ s : L, s ^ 2 = 1 ∧ (l.map g).prod = s * (l.map f).prod ^ p ^ 6 := by
  induction l with
  | nil => exact ⟨1, by simp, by simp⟩
  | cons i l ih =>
    obtain ⟨s1, h1, e1⟩ := hfg i
    obtain ⟨s2, h2, e2⟩ := ih
    refine ⟨s1 * s2, by rw [mul_pow, h1, h2, one_mul], ?_⟩
    rw [List.map_cons, List.prod_cons, List.map_cons, List.prod_cons, e1, e2]
    ring

omit [DecidableEq k] [DecidableEq K] hu [Fact p.Prime] [CharP K p] [Nontrivial L] in
/-- For the final exponentiation, `s U^(p⁶)` with `s² = 1` is the inverse of `U`. -/
theorem neg_exponent {U U' : Lˣ} {s : L} (hs : s ^ 2 = 1) (hU : (U' : L) = s * (U : L) ^ p ^ 6) (n e : ℤ) :
    (U' ^ n) ^ (((p : ℤ) ^ 6 - 1) * ((p : ℤ) ^ 2 + 1) * e) =
      ((U ^ n) ^ (((p : ℤ) ^ 6 - 1) * ((p : ℤ) ^ 2 + 1) * e))⁻¹ := by
  obtain ⟨S, rfl⟩ : ∃ S : Lˣ, (S : L) = s :=
    ⟨⟨s, s, by rw [← sq, hs], by rw [← sq, hs]⟩, rfl⟩
  have e0 : U' = (S * U ^ p ^ 6) := Units.ext (by simpa using hU)
  have h1 := Removed.easy h (c := S) ⟨1, one_ne_zero, by simpa using hs⟩
  have h2 : (S ^ n) ^ (((p : ℤ) ^ 6 - 1) * ((p : ℤ) ^ 2 + 1) * e) = 1 := by
    rw [← zpow_mul, mul_comm, mul_assoc, zpow_mul, h1, one_zpow]
  have e6 : ((p ^ 6 : ℕ) : ℤ) = (p : ℤ) ^ 6 := by push_cast; rfl
  rw [e0, mul_zpow, mul_zpow, h2, one_mul, ← zpow_natCast, ← zpow_mul, ← zpow_mul, ← zpow_mul, ← zpow_neg, e6]
  have e1 : (p : ℤ) ^ 6 * (n * (((p : ℤ) ^ 6 - 1) * ((p : ℤ) ^ 2 + 1) * e)) =
      ((p : ℤ) ^ 12 - 1) * (n * ((p : ℤ) ^ 2 + 1) * e) + -(n * (((p : ℤ) ^ 6 - 1) * ((p : ℤ) ^ 2 + 1) * e)) := by ring
  rw [e1, zpow_add, zpow_mul, h.unit_fixed, one_zpow, one_mul]

omit [DecidableEq k] h hu [Fact p.Prime] [CharP K p] in
theorem Point.neg_rep1 {f : FieldOps α} (hf : f.Implements R1) {q : Point α} {Q : (twist bE).Pt} (hq : q.Rep R1 bE Q) :
    (q.neg f).Rep R1 bE (-Q) := by
  obtain ⟨x, y, rx, ry, hrep⟩ := hq
  refine ⟨x, -y, rx, hf.neg ry, ?_⟩
  rcases Q with _ | ⟨X, Y, hP⟩
  · show Curve.Affine.Rep (twist bE) _ (0 : (twist bE).Pt)
    obtain ⟨h1, h2⟩ := hrep
    dsimp only at h1 h2
    exact ⟨h1, by dsimp only; rw [h2, neg_zero]⟩
  · obtain ⟨h', e⟩ := Curve.neg_curve hP
    obtain ⟨hx, hy, hn⟩ := hrep
    dsimp only at hx hy
    rw [e]
    exact ⟨hx, by dsimp only; rw [hy], by simpa using hn⟩

end Tachyon.Pairing
