import Verif.Spec.Curve
/-! The map `(x, y) ↦ (β x, y)` on the points of `y² = x³ + b`. -/
universe u
namespace Tachyon.Curve
open WeierstrassCurve.Affine

variable {F : Type u} [Field F] {cfg : Config F}

theorem nonsingular_endo {β : F} (ha : cfg.a = 0) (hβ : β ^ 3 = 1) {X Y : F}
    (h : cfg.curve.Nonsingular X Y) : cfg.curve.Nonsingular (β * X) Y := by
  rw [nonsingular_iff, equation_iff] at h ⊢
  simp only [Config.curve, ha] at h ⊢
  refine ⟨by linear_combination h.1 - X ^ 3 * hβ, ?_⟩
  rcases h.2 with h' | h'
  · left
    intro e
    apply h'
    have hβ0 : β ^ 2 ≠ 0 := by
      intro h0
      have : β ^ 3 = 0 := by rw [pow_succ, h0, zero_mul]
      rw [hβ] at this; exact one_ne_zero this
    have : β ^ 2 * (3 * X ^ 2) = 0 := by linear_combination -e
    rcases mul_eq_zero.1 this with h0 | h0
    · exact absurd h0 hβ0
    · linear_combination -h0
  · right; simpa using h'

/-- `(x, y) ↦ (β x, y)`. -/
def endoPt (cfg : Config F) (β : F) (ha : cfg.a = 0) (hβ : β ^ 3 = 1) : cfg.Pt → cfg.Pt
  | .zero => .zero
  | .some X Y h => .some (β * X) Y (nonsingular_endo ha hβ h)

end Tachyon.Curve
