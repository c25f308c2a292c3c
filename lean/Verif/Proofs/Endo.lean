import Verif.Spec.Endo
import Verif.Proofs.CurveOps
/-! The endomorphism is a group homomorphism, and the point classes implement it. -/
universe u
namespace Tachyon.Curve
open WeierstrassCurve.Affine

variable {F : Type u} [Field F] {cfg : Config F} {β : F}

theorem some_congr {X Y X' Y' : F} {h : cfg.curve.Nonsingular X Y} {h' : cfg.curve.Nonsingular X' Y'}
    (hx : X = X') (hy : Y = Y') : (Point.some X Y h : cfg.Pt) = Point.some X' Y' h' := by
  subst hx hy; rfl

theorem endoPt_add [DecidableEq F] (ha : cfg.a = 0) (hβ : β ^ 3 = 1) (P Q : cfg.Pt) :
    endoPt cfg β ha hβ (P + Q) = endoPt cfg β ha hβ P + endoPt cfg β ha hβ Q := by
  have hβ0 : β ≠ 0 := by
    rintro rfl; rw [zero_pow (by omega)] at hβ; exact zero_ne_one hβ
  rcases P with _ | ⟨X₁, Y₁, h₁⟩
  · show endoPt cfg β ha hβ (0 + Q) = 0 + _
    rw [zero_add, zero_add]
  rcases Q with _ | ⟨X₂, Y₂, h₂⟩
  · show endoPt cfg β ha hβ (_ + 0) = _ + 0
    rw [add_zero, add_zero]
  by_cases hx : X₁ = X₂
  · subst hx
    by_cases hy : Y₁ = Y₂
    · subst hy
      by_cases hz : Y₁ + Y₁ = 0
      · rw [add_self_zero hz]
        simp only [endoPt]
        rw [add_self_zero hz]; rfl
      · obtain ⟨l, h, hl, e⟩ := add_self (cfg := cfg) (h₁ := h₁) hz
        obtain ⟨l', h', hl', e'⟩ := add_self (cfg := cfg) (h₁ := nonsingular_endo ha hβ h₁) hz
        rw [e]
        simp only [endoPt]
        rw [e']
        have hll : l' = β ^ 2 * l := by
          have : (l' - β ^ 2 * l) * (Y₁ + Y₁) = 0 := by
            rw [ha] at hl hl'
            linear_combination hl' - β ^ 2 * hl
          rcases mul_eq_zero.1 this with h0 | h0
          · exact sub_eq_zero.1 h0
          · exact absurd h0 hz
        subst hll
        refine some_congr ?_ ?_
        · linear_combination -β * l ^ 2 * hβ
        · linear_combination (-3 * l * X₁ + β ^ 3 * l ^ 3 + l ^ 3) * hβ
    · rw [add_opposite rfl hy]
      simp only [endoPt]
      rw [add_opposite rfl hy]; rfl
  · obtain ⟨l, h, hl, e⟩ := add_distinct (cfg := cfg) (h₁ := h₁) (h₂ := h₂) hx
    have hx' : β * X₁ ≠ β * X₂ := fun h0 => hx (mul_left_cancel₀ hβ0 h0)
    obtain ⟨l', h', hl', e'⟩ := add_distinct (cfg := cfg) (h₁ := nonsingular_endo ha hβ h₁)
      (h₂ := nonsingular_endo ha hβ h₂) hx'
    rw [e]
    simp only [endoPt]
    rw [e']
    have hll : l = β * l' := by
      have : (l - β * l') * (X₂ - X₁) = 0 := by linear_combination hl - hl'
      rcases mul_eq_zero.1 this with h0 | h0
      · exact sub_eq_zero.1 h0
      · exact absurd (sub_eq_zero.1 h0).symm hx
    subst hll
    refine some_congr ?_ ?_
    · linear_combination l' ^ 2 * hβ
    · linear_combination -l' ^ 3 * hβ

theorem endoPt_neg (ha : cfg.a = 0) (hβ : β ^ 3 = 1) (P : cfg.Pt) :
    endoPt cfg β ha hβ (-P) = -endoPt cfg β ha hβ P := by
  rcases P with _ | ⟨X, Y, h⟩
  · rfl
  · obtain ⟨h', e⟩ := neg_curve h
    obtain ⟨h'', e'⟩ := neg_curve (nonsingular_endo ha hβ h)
    rw [e]
    simp only [endoPt]
    rw [e']

theorem Affine.endomorphism_rep (ha : cfg.a = 0) (hβ : β ^ 3 = 1) {p : Affine F} {P : cfg.Pt}
    (hp : p.Rep cfg P) : (p.endomorphism β).Rep cfg (endoPt cfg β ha hβ P) := by
  have hβ0 : β ≠ 0 := by
    rintro rfl; rw [zero_pow (by omega)] at hβ; exact zero_ne_one hβ
  rcases P with _ | ⟨X, Y, h⟩
  · obtain ⟨h1, h2⟩ := hp
    exact ⟨by simp [Affine.endomorphism, h1], h2⟩
  · obtain ⟨h1, h2, h3⟩ := hp
    refine ⟨by simp [Affine.endomorphism, h1, mul_comm], h2, fun h0 => h3 ⟨?_, h0.2⟩⟩
    rcases mul_eq_zero.1 h0.1 with h | h
    · exact absurd h hβ0
    · exact h

theorem Jacobian.endomorphism_rep (ha : cfg.a = 0) (hβ : β ^ 3 = 1) {p : Jacobian F} {P : cfg.Pt}
    (hp : p.Rep cfg P) : (p.endomorphism β).Rep cfg (endoPt cfg β ha hβ P) := by
  rcases P with _ | ⟨X, Y, h⟩
  · exact hp
  · exact ⟨hp.1, by simp only [Jacobian.endomorphism]; rw [hp.2.1]; ring, hp.2.2⟩

theorem Projective.endomorphism_rep (ha : cfg.a = 0) (hβ : β ^ 3 = 1) {p : Projective F} {P : cfg.Pt}
    (hp : p.Rep cfg P) : (p.endomorphism β).Rep cfg (endoPt cfg β ha hβ P) := by
  rcases P with _ | ⟨X, Y, h⟩
  · exact hp
  · exact ⟨hp.1, by simp only [Projective.endomorphism]; rw [hp.2.1]; ring, hp.2.2⟩

theorem XYZZ.endomorphism_rep (ha : cfg.a = 0) (hβ : β ^ 3 = 1) {p : XYZZ F} {P : cfg.Pt}
    (hp : p.Rep cfg P) : (p.endomorphism β).Rep cfg (endoPt cfg β ha hβ P) := by
  rcases P with _ | ⟨X, Y, h⟩
  · exact hp
  · exact ⟨hp.1, hp.2.1, by simp only [XYZZ.endomorphism]; rw [hp.2.2.1]; ring, hp.2.2.2⟩

end Tachyon.Curve
