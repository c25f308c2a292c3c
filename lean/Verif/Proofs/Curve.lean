import Verif.Spec.Curve
import Mathlib.Tactic.LinearCombination
import Mathlib.Tactic.Ring
/-! Group law lemmas: the explicit formulas, with the slope given by its defining equation. -/
universe u
namespace Tachyon.Curve
open WeierstrassCurve.Affine

variable {F : Type u} [Field F] [DecidableEq F] {cfg : Config F}

omit [DecidableEq F] in
theorem scaled_eq_iff {c A B X Y : F} (hc : c ≠ 0) (hA : A = X * c) (hB : B = Y * c) :
    A = B ↔ X = Y := by
  rw [hA, hB, mul_left_inj' hc]

omit [DecidableEq F] in
theorem equation_curve {X Y : F} :
    cfg.curve.Equation X Y ↔ Y ^ 2 = X ^ 3 + cfg.a * X + cfg.b := by
  rw [equation_iff]; simp [Config.curve]

omit [DecidableEq F] in
theorem negY_curve (X Y : F) : cfg.curve.negY X Y = -Y := by simp [negY, Config.curve]

omit [DecidableEq F] in
theorem neg_curve {X Y : F} (h : cfg.curve.Nonsingular X Y) :
    ∃ h', -(Point.some X Y h : cfg.Pt) = Point.some X (-Y) h' := by
  have h' : cfg.curve.Nonsingular X (-Y) := by
    have := (nonsingular_neg (W' := cfg.curve) X Y).mpr h
    rwa [negY_curve] at this
  refine ⟨h', ?_⟩
  rw [Point.neg_some]
  simp only [negY_curve]

theorem add_opposite {X₁ Y₁ X₂ Y₂ : F} {h₁ : cfg.curve.Nonsingular X₁ Y₁}
    {h₂ : cfg.curve.Nonsingular X₂ Y₂} (hx : X₁ = X₂) (hy : Y₁ ≠ Y₂) :
    (Point.some X₁ Y₁ h₁ + Point.some X₂ Y₂ h₂ : cfg.Pt) = 0 := by
  refine Point.add_of_Y_eq hx ?_
  have e₁ := equation_curve.mp h₁.1
  have e₂ := equation_curve.mp h₂.1
  subst hx
  have : (Y₁ - Y₂) * (Y₁ + Y₂) = 0 := by linear_combination e₁ - e₂
  rw [negY_curve]
  rcases mul_eq_zero.mp this with h | h
  · exact absurd (sub_eq_zero.mp h) hy
  · exact eq_neg_of_add_eq_zero_left h

theorem add_self_zero {X Y : F} {h : cfg.curve.Nonsingular X Y} (hy : Y + Y = 0) :
    (Point.some X Y h + Point.some X Y h : cfg.Pt) = 0 :=
  Point.add_of_Y_eq rfl (by rw [negY_curve]; exact eq_neg_of_add_eq_zero_left hy)

theorem add_of_slope {X₁ Y₁ X₂ Y₂ l : F} {h₁ : cfg.curve.Nonsingular X₁ Y₁}
    {h₂ : cfg.curve.Nonsingular X₂ Y₂} (hxy : ¬(X₁ = X₂ ∧ Y₁ = cfg.curve.negY X₂ Y₂))
    (hl : cfg.curve.slope X₁ X₂ Y₁ Y₂ = l) :
    ∃ h, (Point.some X₁ Y₁ h₁ + Point.some X₂ Y₂ h₂ : cfg.Pt) =
      Point.some (l ^ 2 - X₁ - X₂) (l * (X₁ - (l ^ 2 - X₁ - X₂)) - Y₁) h := by
  have hX : cfg.curve.addX X₁ X₂ (cfg.curve.slope X₁ X₂ Y₁ Y₂) = l ^ 2 - X₁ - X₂ := by
    rw [hl]; simp [addX, Config.curve]
  have hY : cfg.curve.addY X₁ X₂ Y₁ (cfg.curve.slope X₁ X₂ Y₁ Y₂) =
      l * (X₁ - (l ^ 2 - X₁ - X₂)) - Y₁ := by
    rw [addY, negY_curve, negAddY, hX, hl]; ring
  have h := nonsingular_add h₁ h₂ hxy
  rw [hX, hY] at h
  refine ⟨h, ?_⟩
  rw [Point.add_some hxy]
  simp only [hX, hY]

theorem add_distinct {X₁ Y₁ X₂ Y₂ : F} {h₁ : cfg.curve.Nonsingular X₁ Y₁}
    {h₂ : cfg.curve.Nonsingular X₂ Y₂} (hx : X₁ ≠ X₂) :
    ∃ l h, l * (X₂ - X₁) = Y₂ - Y₁ ∧ (Point.some X₁ Y₁ h₁ + Point.some X₂ Y₂ h₂ : cfg.Pt) =
      Point.some (l ^ 2 - X₁ - X₂) (l * (X₁ - (l ^ 2 - X₁ - X₂)) - Y₁) h := by
  obtain ⟨h, e⟩ := add_of_slope (cfg := cfg) (h₁ := h₁) (h₂ := h₂) (fun h => hx h.1)
    (slope_of_X_ne hx)
  refine ⟨_, h, ?_, e⟩
  have : X₁ - X₂ ≠ 0 := sub_ne_zero.mpr hx
  have hd : (Y₁ - Y₂) / (X₁ - X₂) * (X₁ - X₂) = Y₁ - Y₂ := div_mul_cancel₀ _ this
  linear_combination -hd

theorem add_self {X Y : F} {h₁ : cfg.curve.Nonsingular X Y} (hy : Y + Y ≠ 0) :
    ∃ l h, l * (Y + Y) = 3 * X ^ 2 + cfg.a ∧ (Point.some X Y h₁ + Point.some X Y h₁ : cfg.Pt) =
      Point.some (l ^ 2 - X - X) (l * (X - (l ^ 2 - X - X)) - Y) h := by
  have hn : Y ≠ cfg.curve.negY X Y := by
    rw [negY_curve]; intro h; exact hy (add_eq_zero_iff_eq_neg.mpr h)
  obtain ⟨h, e⟩ := add_of_slope (cfg := cfg) (h₁ := h₁) (h₂ := h₁) (fun h => hn h.2)
    (slope_of_Y_ne rfl hn)
  refine ⟨_, h, ?_, e⟩
  rw [negY_curve, sub_neg_eq_add, div_mul_cancel₀ _ hy]
  simp [Config.curve]

end Tachyon.Curve
