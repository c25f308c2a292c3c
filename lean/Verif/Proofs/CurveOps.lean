import Verif.Proofs.Curve
/-! The formulas of the three projective coordinate systems compute the group law. -/
universe u
namespace Tachyon.Curve
open WeierstrassCurve.Affine

variable {F : Type u} [Field F] [DecidableEq F] {cfg : Config F}

namespace Jacobian

theorem double_rep (hv : cfg.Valid) (ha : cfg.aIsZero = true) {p : Jacobian F} {P : cfg.Pt}
    (h : p.Rep cfg P) : (double cfg p).Rep cfg (P + P) := by
  have ha0 := hv.aIsZero ha
  rcases P with _ | ⟨X, Y, hP⟩
  · have hz : p.z = 0 := h
    have e : double cfg p = zero := by simp [double, isZero, hz]
    rw [e]
    show (zero : Jacobian F).Rep cfg (0 + 0)
    rw [add_zero]; rfl
  · obtain ⟨hz, hx, hy⟩ := h
    rcases p with ⟨x, y, z⟩
    dsimp only at hz hx hy
    have hd : ∀ d : F, (if cfg.lowDegree = true then x * (y * y) + x * (y * y) + (x * (y * y) + x * (y * y))
        else (x + y * y) * (x + y * y) - x * x - y * y * (y * y) +
          ((x + y * y) * (x + y * y) - x * x - y * y * (y * y))) = 4 * x * y ^ 2 := by
      intro _; split <;> ring
    simp only [double, isZero, hz, decide_false, doDouble, ha, hd 0, if_true, Bool.false_eq_true, if_false]
    by_cases h2 : Y + Y = 0
    · rw [add_self_zero h2]
      show y * z + y * z = 0
      rw [hy]; linear_combination z ^ 4 * h2
    · obtain ⟨l, h', hl, e⟩ := add_self (h₁ := hP) h2
      rw [e, ha0, add_zero] at *
      refine ⟨?_, ?_, ?_⟩ <;> dsimp only
      · rw [hy]
        have : (Y + Y) * z ^ 4 ≠ 0 := mul_ne_zero h2 (pow_ne_zero _ hz)
        intro h0; exact this (by linear_combination h0)
      · subst hx hy
        linear_combination (-(3 * X ^ 2) - l * (Y + Y)) * z ^ 8 * hl
      · subst hx hy
        linear_combination (-12 * X * Y ^ 2 + 9 * X ^ 4 + 3 * X ^ 2 * l * (2 * Y) + l ^ 2 * (2 * Y) ^ 2) * z ^ 12 * hl

theorem add_rep (hv : cfg.Valid) (h2 : (2 : F) ≠ 0) {p q : Jacobian F}
    {P Q : cfg.Pt} (ha : P = Q → cfg.aIsZero = true) (hp : p.Rep cfg P) (hq : q.Rep cfg Q) : (add cfg p q).Rep cfg (P + Q) := by
  rcases P with _ | ⟨X₁, Y₁, hP⟩
  · have hz : p.z = 0 := hp
    have e : add cfg p q = q := by simp [add, isZero, hz]
    rw [e]
    show q.Rep cfg (0 + Q)
    rwa [zero_add]
  rcases Q with _ | ⟨X₂, Y₂, hQ⟩
  · have hz : q.z = 0 := hq
    have hz' : p.z ≠ 0 := hp.1
    have e : add cfg p q = p := by simp [add, isZero, hz, hz']
    rw [e]
    show p.Rep cfg (_ + 0)
    rwa [add_zero]
  have hdbl := fun h => double_rep hv h hp
  obtain ⟨hz₁, hx₁, hy₁⟩ := hp
  obtain ⟨hz₂, hx₂, hy₂⟩ := hq
  have e : add cfg p q = doAdd cfg p q := by simp [add, isZero, hz₁, hz₂]
  rw [e, doAdd]
  rcases p with ⟨x₁, y₁, z₁⟩
  rcases q with ⟨x₂, y₂, z₂⟩
  dsimp only at hz₁ hz₂ hx₁ hx₂ hy₁ hy₂ ⊢
  have hU : x₁ * (z₂ * z₂) = x₂ * (z₁ * z₁) ↔ X₁ = X₂ := by
    exact scaled_eq_iff (c := z₁ ^ 2 * z₂ ^ 2) (mul_ne_zero (pow_ne_zero _ hz₁) (pow_ne_zero _ hz₂)) (by rw [hx₁]; ring) (by rw [hx₂]; ring)
  have hS : y₁ * z₂ * (z₂ * z₂) = y₂ * z₁ * (z₁ * z₁) ↔ Y₁ = Y₂ := by
    exact scaled_eq_iff (c := z₁ ^ 3 * z₂ ^ 3) (mul_ne_zero (pow_ne_zero _ hz₁) (pow_ne_zero _ hz₂)) (by rw [hy₁]; ring) (by rw [hy₂]; ring)
  by_cases hX : X₁ = X₂
  · by_cases hY : Y₁ = Y₂
    · rw [if_pos ⟨hU.mpr hX, hS.mpr hY⟩]
      subst hX hY
      exact hdbl (ha rfl)
    · rw [if_neg (fun h => hY (hS.mp h.2)), add_opposite hX hY]
      show (z₁ * z₂ + z₁ * z₂) * (x₂ * (z₁ * z₁) - x₁ * (z₂ * z₂)) = 0
      rw [hU.mpr hX, sub_self, mul_zero]
  · rw [if_neg (fun h => hX (hU.mp h.1))]
    obtain ⟨l, h', hl, e⟩ := add_distinct (h₁ := hP) (h₂ := hQ) hX
    rw [e]
    have hY₂ : Y₂ = Y₁ + l * (X₂ - X₁) := by rw [hl]; ring
    refine ⟨?_, ?_, ?_⟩ <;> dsimp only
    · refine mul_ne_zero ?_ (sub_ne_zero.mpr fun h => hX (hU.mp h.symm))
      have : z₁ * z₂ + z₁ * z₂ = 2 * (z₁ * z₂) := by ring
      rw [this]
      exact mul_ne_zero h2 (mul_ne_zero hz₁ hz₂)
    · rw [hx₁, hy₁, hx₂, hy₂, hY₂]; ring
    · rw [hx₁, hy₁, hx₂, hy₂, hY₂]; ring

theorem toJacobian_rep {p : Affine F} {P : cfg.Pt} (h : p.Rep cfg P) : p.toJacobian.Rep cfg P := by
  rcases P with _ | ⟨X, Y, hP⟩
  · obtain ⟨hx, hy⟩ := h
    simp [Affine.toJacobian, Affine.isZero, hx, hy, Rep]
  · obtain ⟨hx, hy, hn⟩ := h
    have e : p.toJacobian = ⟨p.x, p.y, 1⟩ := by
      simp only [Affine.toJacobian, Affine.isZero, hx, hy]
      rw [if_neg (by simpa using hn)]
    rw [e]
    exact ⟨one_ne_zero, by simp [hx], by simp [hy]⟩

theorem _root_.Tachyon.Curve.Affine.isZero_eq {p : Affine F} {P : cfg.Pt}
    (h : p.Rep cfg P) : p.isZero = true ↔ P = 0 := by
  rcases P with _ | ⟨X, Y, hP⟩
  · obtain ⟨hx, hy⟩ := h
    simp only [Affine.isZero, hx, hy, decide_true, Bool.and_self, true_iff]; rfl
  · obtain ⟨hx, hy, hn⟩ := h
    simp only [Affine.isZero, hx, hy, Bool.and_eq_true, decide_eq_true_eq]
    exact ⟨fun h => absurd h hn, fun h => absurd h (Point.some_ne_zero hP)⟩

theorem addAffine_rep (hv : cfg.Valid) (h2 : (2 : F) ≠ 0) {p : Jacobian F}
    {q : Affine F} {P Q : cfg.Pt} (ha : P = Q → cfg.aIsZero = true) (hp : p.Rep cfg P) (hq : q.Rep cfg Q) :
    (addAffine cfg p q).Rep cfg (P + Q) := by
  rcases Q with _ | ⟨X₂, Y₂, hQ⟩
  · have e : addAffine cfg p q = p := by
      rw [addAffine, if_pos ((Affine.isZero_eq hq).mpr rfl)]
    rw [e]
    show p.Rep cfg (P + 0)
    rwa [add_zero]
  have hqz : q.isZero ≠ true := fun h => Point.some_ne_zero hQ ((Affine.isZero_eq hq).mp h)
  rcases P with _ | ⟨X₁, Y₁, hP⟩
  · have hz : p.z = 0 := hp
    have e : addAffine cfg p q = q.toJacobian := by
      rw [addAffine, if_neg hqz, if_pos (by simp [isZero, hz])]
    rw [e]
    show q.toJacobian.Rep cfg (0 + _)
    rw [zero_add]; exact toJacobian_rep hq
  have hdbl := fun h => double_rep hv h hp
  obtain ⟨hz₁, hx₁, hy₁⟩ := hp
  obtain ⟨hx₂, hy₂, -⟩ := hq
  have e : addAffine cfg p q = doAddAffine cfg p q := by
    rw [addAffine, if_neg hqz, if_neg (by simp [isZero, hz₁])]
  rw [e, doAddAffine]
  rcases p with ⟨x₁, y₁, z₁⟩
  rcases q with ⟨x₂, y₂⟩
  dsimp only at hz₁ hx₁ hx₂ hy₁ hy₂ ⊢
  have hU : x₁ = x₂ * (z₁ * z₁) ↔ X₁ = X₂ := by
    exact scaled_eq_iff (pow_ne_zero 2 hz₁) hx₁ (by rw [hx₂]; ring)
  have hS : y₁ = y₂ * z₁ * (z₁ * z₁) ↔ Y₁ = Y₂ := by
    exact scaled_eq_iff (pow_ne_zero 3 hz₁) hy₁ (by rw [hy₂]; ring)
  by_cases hX : X₁ = X₂
  · by_cases hY : Y₁ = Y₂
    · rw [if_pos ⟨hU.mpr hX, hS.mpr hY⟩]
      subst hX hY
      exact hdbl (ha rfl)
    · rw [if_neg (fun h => hY (hS.mp h.2)), add_opposite hX hY]
      show z₁ * (x₂ * (z₁ * z₁) - x₁) + z₁ * (x₂ * (z₁ * z₁) - x₁) = 0
      rw [← hU.mpr hX, sub_self, mul_zero, add_zero]
  · rw [if_neg (fun h => hX (hU.mp h.1))]
    obtain ⟨l, h', hl, e⟩ := add_distinct (h₁ := hP) (h₂ := hQ) hX
    rw [e]
    have hY₂ : Y₂ = Y₁ + l * (X₂ - X₁) := by rw [hl]; ring
    refine ⟨?_, ?_, ?_⟩ <;> dsimp only
    · rw [← two_mul]
      exact mul_ne_zero h2 (mul_ne_zero hz₁ (sub_ne_zero.mpr fun h => hX (hU.mp h.symm)))
    · rw [hx₁, hy₁, hx₂, hy₂, hY₂]; ring
    · rw [hx₁, hy₁, hx₂, hy₂, hY₂]; ring

omit [DecidableEq F] in
theorem neg_rep {p : Jacobian F} {P : cfg.Pt} (h : p.Rep cfg P) : p.neg.Rep cfg (-P) := by
  rcases P with _ | ⟨X, Y, hP⟩
  · exact h
  · obtain ⟨h', e⟩ := neg_curve hP
    rw [e]
    obtain ⟨hz, hx, hy⟩ := h
    exact ⟨hz, hx, by simp [neg, hy]⟩

theorem eq_iff {p q : Jacobian F} {P Q : cfg.Pt} (hp : p.Rep cfg P) (hq : q.Rep cfg Q) :
    p.eq q = true ↔ P = Q := by
  rcases P with _ | ⟨X₁, Y₁, hP⟩
  · have hz : p.z = 0 := hp
    rcases Q with _ | ⟨X₂, Y₂, hQ⟩
    · have hz' : q.z = 0 := hq
      simp [eq, isZero, hz, hz']
    · have hz' : q.z ≠ 0 := hq.1
      simp [eq, isZero, hz, hz']
  · obtain ⟨hz₁, hx₁, hy₁⟩ := hp
    rcases Q with _ | ⟨X₂, Y₂, hQ⟩
    · have hz' : q.z = 0 := hq
      simp [eq, isZero, hz₁, hz']
    · obtain ⟨hz₂, hx₂, hy₂⟩ := hq
      have hU : p.x * (q.z * q.z) = q.x * (p.z * p.z) ↔ X₁ = X₂ := by
        exact scaled_eq_iff (c := p.z ^ 2 * q.z ^ 2) (mul_ne_zero (pow_ne_zero _ hz₁) (pow_ne_zero _ hz₂)) (by rw [hx₁]; ring) (by rw [hx₂]; ring)
      have hS : p.y * (q.z * q.z * q.z) = q.y * (p.z * p.z * p.z) ↔ Y₁ = Y₂ := by
        exact scaled_eq_iff (c := p.z ^ 3 * q.z ^ 3) (mul_ne_zero (pow_ne_zero _ hz₁) (pow_ne_zero _ hz₂)) (by rw [hy₁]; ring) (by rw [hy₂]; ring)
      simp only [eq, isZero, hz₁, hz₂, decide_false, Bool.false_eq_true, if_false, ne_eq, hU, hS,
        Point.some.injEq]
      by_cases hX : X₁ = X₂ <;> simp [hX]

end Jacobian

omit [DecidableEq F] in
theorem withA_eq (hv : cfg.Valid) (m v : F) :
    (if cfg.aIsZero = true then m else m + cfg.mulByA v) = m + cfg.a * v := by
  split
  · next h => rw [hv.aIsZero h]; ring
  · rw [hv.mulByA]

omit [DecidableEq F] in
theorem withA_eq' (hv : cfg.Valid) (m : F) :
    (if cfg.aIsZero = true then m else m + cfg.a) = m + cfg.a := by
  split
  · next h => rw [hv.aIsZero h]; ring
  · rfl

namespace Projective

theorem double_rep (hv : cfg.Valid) {p : Projective F} {P : cfg.Pt} (h : p.Rep cfg P) :
    (double cfg p).Rep cfg (P + P) := by
  rcases P with _ | ⟨X, Y, hP⟩
  · have hz : p.z = 0 := h
    have e : double cfg p = zero := by simp [double, isZero, hz]
    rw [e]
    show (zero : Projective F).Rep cfg (0 + 0)
    rw [add_zero]; rfl
  · obtain ⟨hz, hx, hy⟩ := h
    rcases p with ⟨x, y, z⟩
    dsimp only at hz hx hy
    simp only [double, isZero, hz, decide_false, doDouble, Bool.false_eq_true, if_false]
    rw [withA_eq hv]
    by_cases h2 : Y + Y = 0
    · rw [add_self_zero h2]
      show (y * z + y * z) * (y * z + y * z) * (y * z + y * z) = 0
      have : y * z + y * z = 0 := by rw [hy]; linear_combination z ^ 2 * h2
      rw [this, mul_zero]
    · obtain ⟨l, h', hl, e⟩ := add_self (h₁ := hP) h2
      rw [e]
      have ha : cfg.a = l * (Y + Y) - 3 * X ^ 2 := by rw [hl]; ring
      refine ⟨?_, ?_, ?_⟩ <;> dsimp only
      · have : y * z + y * z ≠ 0 := by
          rw [hy]
          have : (Y + Y) * z ^ 2 ≠ 0 := mul_ne_zero h2 (pow_ne_zero _ hz)
          intro h0; exact this (by linear_combination h0)
        exact mul_ne_zero (mul_ne_zero this this) this
      · rw [ha, hx, hy]; ring
      · rw [ha, hx, hy]; ring

theorem add_rep (hv : cfg.Valid) {p q : Projective F}
    {P Q : cfg.Pt} (hp : p.Rep cfg P) (hq : q.Rep cfg Q) : (add cfg p q).Rep cfg (P + Q) := by
  rcases P with _ | ⟨X₁, Y₁, hP⟩
  · have hz : p.z = 0 := hp
    have e : add cfg p q = q := by simp [add, isZero, hz]
    rw [e]
    show q.Rep cfg (0 + Q)
    rwa [zero_add]
  rcases Q with _ | ⟨X₂, Y₂, hQ⟩
  · have hz : q.z = 0 := hq
    have hz' : p.z ≠ 0 := hp.1
    have e : add cfg p q = p := by simp [add, isZero, hz, hz']
    rw [e]
    show p.Rep cfg (_ + 0)
    rwa [add_zero]
  have hdbl := double_rep hv hp
  obtain ⟨hz₁, hx₁, hy₁⟩ := hp
  obtain ⟨hz₂, hx₂, hy₂⟩ := hq
  have e : add cfg p q = doAdd cfg p q := by simp [add, isZero, hz₁, hz₂]
  rw [e, doAdd]
  rcases p with ⟨x₁, y₁, z₁⟩
  rcases q with ⟨x₂, y₂, z₂⟩
  dsimp only at hz₁ hz₂ hx₁ hx₂ hy₁ hy₂ ⊢
  have hU : x₂ * z₁ - x₁ * z₂ = 0 ↔ X₂ = X₁ := by
    rw [sub_eq_zero]
    exact scaled_eq_iff (mul_ne_zero hz₁ hz₂) (by rw [hx₂]; ring) (by rw [hx₁]; ring)
  have hS : y₂ * z₁ - y₁ * z₂ = 0 ↔ Y₂ = Y₁ := by
    rw [sub_eq_zero]
    exact scaled_eq_iff (mul_ne_zero hz₁ hz₂) (by rw [hy₂]; ring) (by rw [hy₁]; ring)
  by_cases hX : X₁ = X₂
  · have hv0 := hU.mpr hX.symm
    by_cases hY : Y₁ = Y₂
    · rw [if_pos ⟨hS.mpr hY.symm, hv0⟩]
      subst hX hY
      exact hdbl
    · rw [if_neg (fun h => hY (hS.mp h.1).symm), add_opposite hX hY, hv0]
      show (0 : F) * (0 * 0) * (z₁ * z₂) = 0
      ring
  · rw [if_neg (fun h => hX (hU.mp h.2).symm)]
    obtain ⟨l, h', hl, e⟩ := add_distinct (h₁ := hP) (h₂ := hQ) hX
    rw [e]
    have hY₂ : Y₂ = Y₁ + l * (X₂ - X₁) := by rw [hl]; ring
    refine ⟨?_, ?_, ?_⟩ <;> dsimp only
    · have : x₂ * z₁ - x₁ * z₂ ≠ 0 := fun h => hX (hU.mp h).symm
      exact mul_ne_zero (mul_ne_zero this (mul_ne_zero this this)) (mul_ne_zero hz₁ hz₂)
    · rw [hx₁, hy₁, hx₂, hy₂, hY₂]; ring
    · rw [hx₁, hy₁, hx₂, hy₂, hY₂]; ring

theorem toProjective_rep {p : Affine F} {P : cfg.Pt} (h : p.Rep cfg P) :
    p.toProjective.Rep cfg P := by
  rcases P with _ | ⟨X, Y, hP⟩
  · obtain ⟨hx, hy⟩ := h
    simp [Affine.toProjective, Affine.isZero, hx, hy, Rep]
  · obtain ⟨hx, hy, hn⟩ := h
    have e : p.toProjective = ⟨p.x, p.y, 1⟩ := by
      simp only [Affine.toProjective, Affine.isZero, hx, hy]
      rw [if_neg (by simpa using hn)]
    rw [e]
    exact ⟨one_ne_zero, by simp [hx], by simp [hy]⟩

theorem addAffine_rep (hv : cfg.Valid) {p : Projective F}
    {q : Affine F} {P Q : cfg.Pt} (hp : p.Rep cfg P) (hq : q.Rep cfg Q) :
    (addAffine cfg p q).Rep cfg (P + Q) := by
  rcases P with _ | ⟨X₁, Y₁, hP⟩
  · have hz : p.z = 0 := hp
    have e : addAffine cfg p q = q.toProjective := by
      rw [addAffine, if_pos (by simp [isZero, hz])]
    rw [e]
    show q.toProjective.Rep cfg (0 + Q)
    rw [zero_add]; exact toProjective_rep hq
  have hpz : p.isZero ≠ true := by simp [isZero, hp.1]
  rcases Q with _ | ⟨X₂, Y₂, hQ⟩
  · have e : addAffine cfg p q = p := by
      rw [addAffine, if_neg hpz, if_pos ((Affine.isZero_eq hq).mpr rfl)]
    rw [e]
    show p.Rep cfg (_ + 0)
    rwa [add_zero]
  have hqz : q.isZero ≠ true := fun h => Point.some_ne_zero hQ ((Affine.isZero_eq hq).mp h)
  have hdbl := double_rep hv hp
  obtain ⟨hz₁, hx₁, hy₁⟩ := hp
  obtain ⟨hx₂, hy₂, -⟩ := hq
  rw [addAffine, if_neg hpz, if_neg hqz, doAddAffine]
  rcases p with ⟨x₁, y₁, z₁⟩
  rcases q with ⟨x₂, y₂⟩
  dsimp only at hz₁ hx₁ hx₂ hy₁ hy₂ ⊢
  have hU : x₂ * z₁ - x₁ = 0 ↔ X₂ = X₁ := by
    rw [sub_eq_zero]; exact scaled_eq_iff hz₁ (by rw [hx₂]) hx₁
  have hS : y₂ * z₁ - y₁ = 0 ↔ Y₂ = Y₁ := by
    rw [sub_eq_zero]; exact scaled_eq_iff hz₁ (by rw [hy₂]) hy₁
  by_cases hX : X₁ = X₂
  · have hv0 := hU.mpr hX.symm
    by_cases hY : Y₁ = Y₂
    · rw [if_pos ⟨hS.mpr hY.symm, hv0⟩]
      subst hX hY
      exact hdbl
    · rw [if_neg (fun h => hY (hS.mp h.1).symm), add_opposite hX hY, hv0]
      show (0 : F) * (0 * 0) * z₁ = 0
      ring
  · rw [if_neg (fun h => hX (hU.mp h.2).symm)]
    obtain ⟨l, h', hl, e⟩ := add_distinct (h₁ := hP) (h₂ := hQ) hX
    rw [e]
    have hY₂ : Y₂ = Y₁ + l * (X₂ - X₁) := by rw [hl]; ring
    refine ⟨?_, ?_, ?_⟩ <;> dsimp only
    · have : x₂ * z₁ - x₁ ≠ 0 := fun h => hX (hU.mp h).symm
      exact mul_ne_zero (mul_ne_zero this (mul_ne_zero this this)) hz₁
    · rw [hx₁, hy₁, hx₂, hy₂, hY₂]; ring
    · rw [hx₁, hy₁, hx₂, hy₂, hY₂]; ring

omit [DecidableEq F] in
theorem neg_rep {p : Projective F} {P : cfg.Pt} (h : p.Rep cfg P) : p.neg.Rep cfg (-P) := by
  rcases P with _ | ⟨X, Y, hP⟩
  · exact h
  · obtain ⟨h', e⟩ := neg_curve hP
    rw [e]
    obtain ⟨hz, hx, hy⟩ := h
    exact ⟨hz, hx, by simp [neg, hy]⟩

theorem eq_iff {p q : Projective F} {P Q : cfg.Pt} (hp : p.Rep cfg P) (hq : q.Rep cfg Q) :
    p.eq q = true ↔ P = Q := by
  rcases P with _ | ⟨X₁, Y₁, hP⟩
  · have hz : p.z = 0 := hp
    rcases Q with _ | ⟨X₂, Y₂, hQ⟩
    · have hz' : q.z = 0 := hq
      simp [eq, isZero, hz, hz']
    · have hz' : q.z ≠ 0 := hq.1
      simp [eq, isZero, hz, hz']
  · obtain ⟨hz₁, hx₁, hy₁⟩ := hp
    rcases Q with _ | ⟨X₂, Y₂, hQ⟩
    · have hz' : q.z = 0 := hq
      simp [eq, isZero, hz₁, hz']
    · obtain ⟨hz₂, hx₂, hy₂⟩ := hq
      have hU : p.x * q.z = q.x * p.z ↔ X₁ = X₂ :=
        scaled_eq_iff (mul_ne_zero hz₁ hz₂) (by rw [hx₁]; ring) (by rw [hx₂]; ring)
      have hS : p.y * q.z = q.y * p.z ↔ Y₁ = Y₂ :=
        scaled_eq_iff (mul_ne_zero hz₁ hz₂) (by rw [hy₁]; ring) (by rw [hy₂]; ring)
      simp only [eq, isZero, hz₁, hz₂, decide_false, Bool.false_eq_true, if_false, ne_eq, hU, hS,
        Point.some.injEq]
      by_cases hX : X₁ = X₂ <;> simp [hX]

end Projective

namespace XYZZ

omit [DecidableEq F] in
theorem zzz_ne_zero {p : XYZZ F} (hz : p.zz ≠ 0) (h : p.zz ^ 3 = p.zzz ^ 2) : p.zzz ≠ 0 := by
  intro h0
  rw [h0] at h
  exact pow_ne_zero 3 hz (by simpa using h)

theorem double_rep (hv : cfg.Valid) {p : XYZZ F} {P : cfg.Pt} (h : p.Rep cfg P) :
    (double cfg p).Rep cfg (P + P) := by
  rcases P with _ | ⟨X, Y, hP⟩
  · have hz : p.zz = 0 := h.1
    have e : double cfg p = zero := by simp [double, isZero, hz]
    rw [e]
    show (zero : XYZZ F).Rep cfg (0 + 0)
    rw [add_zero]; exact ⟨rfl, rfl⟩
  · obtain ⟨hz, hc, hx, hy⟩ := h
    have hzzz := zzz_ne_zero hz hc
    rcases p with ⟨x, y, z, t⟩
    dsimp only at hz hc hx hy hzzz
    simp only [double, isZero, hz, decide_false, doDouble, Bool.false_eq_true, if_false]
    rw [withA_eq hv]
    by_cases h2 : Y + Y = 0
    · rw [add_self_zero h2]
      have h0 : y + y = 0 := by rw [hy]; linear_combination t * h2
      rw [h0]
      exact ⟨by simp, by simp⟩
    · obtain ⟨l, h', hl, e⟩ := add_self (h₁ := hP) h2
      rw [e]
      have ha : cfg.a = l * (Y + Y) - 3 * X ^ 2 := by rw [hl]; ring
      have hu : y + y ≠ 0 := by
        rw [hy]
        have : (Y + Y) * t ≠ 0 := mul_ne_zero h2 hzzz
        intro h0; exact this (by linear_combination h0)
      refine ⟨mul_ne_zero (mul_ne_zero hu hu) hz, ?_, ?_, ?_⟩ <;> dsimp only
      · linear_combination (y + y) ^ 6 * hc
      · rw [ha, hx, hy]
        linear_combination 4 * l ^ 2 * Y ^ 2 * z * hc
      · rw [ha, hx, hy]
        linear_combination 8 * Y ^ 3 * l * (3 * X * t ^ 2 - l ^ 2 * (z ^ 3 + t ^ 2)) * hc

theorem add_rep (hv : cfg.Valid) {p q : XYZZ F}
    {P Q : cfg.Pt} (hp : p.Rep cfg P) (hq : q.Rep cfg Q) : (add cfg p q).Rep cfg (P + Q) := by
  rcases P with _ | ⟨X₁, Y₁, hP⟩
  · have hz : p.zz = 0 := hp.1
    have e : add cfg p q = q := by simp [add, isZero, hz]
    rw [e]
    show q.Rep cfg (0 + Q)
    rwa [zero_add]
  rcases Q with _ | ⟨X₂, Y₂, hQ⟩
  · have hz : q.zz = 0 := hq.1
    have hz' : p.zz ≠ 0 := hp.1
    have e : add cfg p q = p := by simp [add, isZero, hz, hz']
    rw [e]
    show p.Rep cfg (_ + 0)
    rwa [add_zero]
  have hdbl := double_rep hv hp
  obtain ⟨hz₁, hc₁, hx₁, hy₁⟩ := hp
  obtain ⟨hz₂, hc₂, hx₂, hy₂⟩ := hq
  have ht₁ := zzz_ne_zero hz₁ hc₁
  have ht₂ := zzz_ne_zero hz₂ hc₂
  have e : add cfg p q = doAdd cfg p q := by simp [add, isZero, hz₁, hz₂]
  rw [e, doAdd]
  rcases p with ⟨x₁, y₁, z₁, t₁⟩
  rcases q with ⟨x₂, y₂, z₂, t₂⟩
  dsimp only at hz₁ hz₂ hx₁ hx₂ hy₁ hy₂ hc₁ hc₂ ht₁ ht₂ ⊢
  have hU : x₂ * z₁ - x₁ * z₂ = 0 ↔ X₂ = X₁ := by
    rw [sub_eq_zero]
    exact scaled_eq_iff (mul_ne_zero hz₁ hz₂) (by rw [hx₂]; ring) (by rw [hx₁]; ring)
  have hS : y₂ * t₁ - y₁ * t₂ = 0 ↔ Y₂ = Y₁ := by
    rw [sub_eq_zero]
    exact scaled_eq_iff (mul_ne_zero ht₁ ht₂) (by rw [hy₂]; ring) (by rw [hy₁]; ring)
  by_cases hX : X₁ = X₂
  · have hv0 := hU.mpr hX.symm
    by_cases hY : Y₁ = Y₂
    · rw [if_pos ⟨hv0, hS.mpr hY.symm⟩]
      subst hX hY
      exact hdbl
    · rw [if_neg (fun h => hY (hS.mp h.2).symm), add_opposite hX hY, hv0]
      exact ⟨by simp, by simp⟩
  · rw [if_neg (fun h => hX (hU.mp h.1).symm)]
    obtain ⟨l, h', hl, e⟩ := add_distinct (h₁ := hP) (h₂ := hQ) hX
    rw [e]
    have hY₂ : Y₂ = Y₁ + l * (X₂ - X₁) := by rw [hl]; ring
    have hP0 : x₂ * z₁ - x₁ * z₂ ≠ 0 := fun h => hX (hU.mp h).symm
    have hZ : (z₁ * z₂) ^ 3 = (t₁ * t₂) ^ 2 := by rw [mul_pow, mul_pow, hc₁, hc₂]
    refine ⟨mul_ne_zero (mul_ne_zero hz₁ hz₂) (mul_ne_zero hP0 hP0), ?_, ?_, ?_⟩ <;> dsimp only
    · linear_combination (x₂ * z₁ - x₁ * z₂) ^ 6 * hZ
    · rw [hx₁, hy₁, hx₂, hy₂, hY₂]
      linear_combination -(l ^ 2 * (X₂ - X₁) ^ 2) * hZ
    · rw [hx₁, hy₁, hx₂, hy₂, hY₂]
      linear_combination l ^ 3 * (X₂ - X₁) ^ 3 * (t₁ * t₂) * hZ

theorem toXYZZ_rep {p : Affine F} {P : cfg.Pt} (h : p.Rep cfg P) : p.toXYZZ.Rep cfg P := by
  rcases P with _ | ⟨X, Y, hP⟩
  · obtain ⟨hx, hy⟩ := h
    simp [Affine.toXYZZ, Affine.isZero, hx, hy, Rep]
  · obtain ⟨hx, hy, hn⟩ := h
    have e : p.toXYZZ = ⟨p.x, p.y, 1, 1⟩ := by
      simp only [Affine.toXYZZ, Affine.isZero, hx, hy]
      rw [if_neg (by simpa using hn)]
    rw [e]
    exact ⟨one_ne_zero, by simp, by simp [hx], by simp [hy]⟩

theorem addAffine_rep (hv : cfg.Valid) {p : XYZZ F}
    {q : Affine F} {P Q : cfg.Pt} (hp : p.Rep cfg P) (hq : q.Rep cfg Q) :
    (addAffine cfg p q).Rep cfg (P + Q) := by
  rcases P with _ | ⟨X₁, Y₁, hP⟩
  · have hz : p.zz = 0 := hp.1
    have e : addAffine cfg p q = q.toXYZZ := by
      rw [addAffine, if_pos (by simp [isZero, hz])]
    rw [e]
    show q.toXYZZ.Rep cfg (0 + Q)
    rw [zero_add]; exact toXYZZ_rep hq
  have hpz : p.isZero ≠ true := by simp [isZero, hp.1]
  rcases Q with _ | ⟨X₂, Y₂, hQ⟩
  · have e : addAffine cfg p q = p := by
      rw [addAffine, if_neg hpz, if_pos ((Affine.isZero_eq hq).mpr rfl)]
    rw [e]
    show p.Rep cfg (_ + 0)
    rwa [add_zero]
  have hqz : q.isZero ≠ true := fun h => Point.some_ne_zero hQ ((Affine.isZero_eq hq).mp h)
  have hdbl := double_rep hv hp
  obtain ⟨hz₁, hc₁, hx₁, hy₁⟩ := hp
  obtain ⟨hx₂, hy₂, -⟩ := hq
  have ht₁ := zzz_ne_zero hz₁ hc₁
  rw [addAffine, if_neg hpz, if_neg hqz, doAddAffine]
  rcases p with ⟨x₁, y₁, z₁, t₁⟩
  rcases q with ⟨x₂, y₂⟩
  dsimp only at hz₁ hx₁ hx₂ hy₁ hy₂ hc₁ ht₁ ⊢
  have hU : x₂ * z₁ - x₁ = 0 ↔ X₂ = X₁ := by
    rw [sub_eq_zero]; exact scaled_eq_iff hz₁ (by rw [hx₂]) hx₁
  have hS : y₂ * t₁ - y₁ = 0 ↔ Y₂ = Y₁ := by
    rw [sub_eq_zero]; exact scaled_eq_iff ht₁ (by rw [hy₂]) hy₁
  by_cases hX : X₁ = X₂
  · have hv0 := hU.mpr hX.symm
    by_cases hY : Y₁ = Y₂
    · rw [if_pos ⟨hv0, hS.mpr hY.symm⟩]
      subst hX hY
      exact hdbl
    · rw [if_neg (fun h => hY (hS.mp h.2).symm), add_opposite hX hY, hv0]
      exact ⟨by simp, by simp⟩
  · rw [if_neg (fun h => hX (hU.mp h.1).symm)]
    obtain ⟨l, h', hl, e⟩ := add_distinct (h₁ := hP) (h₂ := hQ) hX
    rw [e]
    have hY₂ : Y₂ = Y₁ + l * (X₂ - X₁) := by rw [hl]; ring
    have hP0 : x₂ * z₁ - x₁ ≠ 0 := fun h => hX (hU.mp h).symm
    refine ⟨mul_ne_zero hz₁ (mul_ne_zero hP0 hP0), ?_, ?_, ?_⟩ <;> dsimp only
    · linear_combination (x₂ * z₁ - x₁) ^ 6 * hc₁
    · rw [hx₁, hy₁, hx₂, hy₂, hY₂]
      linear_combination -(l ^ 2 * (X₂ - X₁) ^ 2) * hc₁
    · rw [hx₁, hy₁, hx₂, hy₂, hY₂]
      linear_combination l ^ 3 * (X₂ - X₁) ^ 3 * t₁ * hc₁

omit [DecidableEq F] in
theorem neg_rep {p : XYZZ F} {P : cfg.Pt} (h : p.Rep cfg P) : p.neg.Rep cfg (-P) := by
  rcases P with _ | ⟨X, Y, hP⟩
  · exact h
  · obtain ⟨h', e⟩ := neg_curve hP
    rw [e]
    obtain ⟨hz, hc, hx, hy⟩ := h
    exact ⟨hz, hc, hx, by simp [neg, hy]⟩

theorem eq_iff {p q : XYZZ F} {P Q : cfg.Pt} (hp : p.Rep cfg P) (hq : q.Rep cfg Q) :
    p.eq q = true ↔ P = Q := by
  rcases P with _ | ⟨X₁, Y₁, hP⟩
  · have hz : p.zz = 0 := hp.1
    rcases Q with _ | ⟨X₂, Y₂, hQ⟩
    · have hz' : q.zz = 0 := hq.1
      simp [eq, isZero, hz, hz']
    · have hz' : q.zz ≠ 0 := hq.1
      simp [eq, isZero, hz, hz']
  · obtain ⟨hz₁, hc₁, hx₁, hy₁⟩ := hp
    rcases Q with _ | ⟨X₂, Y₂, hQ⟩
    · have hz' : q.zz = 0 := hq.1
      simp [eq, isZero, hz₁, hz']
    · obtain ⟨hz₂, hc₂, hx₂, hy₂⟩ := hq
      have hU : p.x * q.zz = q.x * p.zz ↔ X₁ = X₂ :=
        scaled_eq_iff (mul_ne_zero hz₁ hz₂) (by rw [hx₁]; ring) (by rw [hx₂]; ring)
      have hS : p.y * q.zzz = q.y * p.zzz ↔ Y₁ = Y₂ :=
        scaled_eq_iff (mul_ne_zero (zzz_ne_zero hz₁ hc₁) (zzz_ne_zero hz₂ hc₂))
          (by rw [hy₁]; ring) (by rw [hy₂]; ring)
      simp only [eq, isZero, hz₁, hz₂, decide_false, Bool.false_eq_true, if_false, ne_eq, hU, hS,
        Point.some.injEq]
      by_cases hX : X₁ = X₂ <;> simp [hX]

end XYZZ

namespace Affine

omit [DecidableEq F] in
theorem neg_rep {p : Affine F} {P : cfg.Pt} (h : p.Rep cfg P) : p.neg.Rep cfg (-P) := by
  rcases P with _ | ⟨X, Y, hP⟩
  · exact ⟨h.1, by simp [neg, h.2]⟩
  · obtain ⟨h', e⟩ := neg_curve hP
    rw [e]
    obtain ⟨hx, hy, hn⟩ := h
    exact ⟨hx, by simp [neg, hy], by simpa using hn⟩

theorem eq_iff {p q : Affine F} {P Q : cfg.Pt} (hp : p.Rep cfg P) (hq : q.Rep cfg Q) :
    p.eq q = true ↔ P = Q := by
  rw [eq]
  by_cases hP : P = 0
  · rw [if_pos ((isZero_eq hp).mpr hP), isZero_eq hq, hP, eq_comm]
  · rw [if_neg (fun h => hP ((isZero_eq hp).mp h))]
    by_cases hQ : Q = 0
    · rw [if_pos ((isZero_eq hq).mpr hQ)]
      subst hQ; simp [hP]
    · rw [if_neg (fun h => hQ ((isZero_eq hq).mp h))]
      rcases P with _ | ⟨X₁, Y₁, h₁⟩
      · exact absurd rfl hP
      rcases Q with _ | ⟨X₂, Y₂, h₂⟩
      · exact absurd rfl hQ
      obtain ⟨hx, hy, -⟩ := hp
      obtain ⟨hx', hy', -⟩ := hq
      simp [hx, hy, hx', hy']

theorem doubleProjective_rep (hv : cfg.Valid) {p : Affine F} {P : cfg.Pt} (h : p.Rep cfg P) :
    (doubleProjective cfg p).Rep cfg (P + P) := by
  rw [doubleProjective]
  by_cases hP : P = 0
  · rw [if_pos ((isZero_eq h).mpr hP), hP, add_zero]; rfl
  rw [if_neg (fun hz => hP ((isZero_eq h).mp hz))]
  rcases P with _ | ⟨X, Y, h₁⟩
  · exact absurd rfl hP
  obtain ⟨hx, hy, -⟩ := h
  rw [hx, hy]
  dsimp only
  rw [withA_eq' hv]
  by_cases h2 : Y + Y = 0
  · rw [add_self_zero h2]
    show Y * (Y * Y + Y * Y) + Y * (Y * Y + Y * Y) + (Y * (Y * Y + Y * Y) + Y * (Y * Y + Y * Y)) = 0
    linear_combination 4 * Y ^ 2 * h2
  · obtain ⟨l, h', hl, e⟩ := add_self (h₁ := h₁) h2
    rw [e]
    have ha : cfg.a = l * (Y + Y) - 3 * X ^ 2 := by rw [hl]; ring
    refine ⟨?_, ?_, ?_⟩ <;> dsimp only
    · intro h0; exact pow_ne_zero 3 h2 (by linear_combination h0)
    · rw [ha]; ring
    · rw [ha]; ring

theorem doubleXYZZ_rep (hv : cfg.Valid) {p : Affine F} {P : cfg.Pt} (h : p.Rep cfg P) :
    (doubleXYZZ cfg p).Rep cfg (P + P) := by
  rw [doubleXYZZ]
  by_cases hP : P = 0
  · rw [if_pos ((isZero_eq h).mpr hP), hP, add_zero]; exact ⟨rfl, rfl⟩
  rw [if_neg (fun hz => hP ((isZero_eq h).mp hz))]
  rcases P with _ | ⟨X, Y, h₁⟩
  · exact absurd rfl hP
  obtain ⟨hx, hy, -⟩ := h
  rw [hx, hy]
  dsimp only
  rw [withA_eq' hv]
  by_cases h2 : Y + Y = 0
  · rw [add_self_zero h2, h2]
    exact ⟨by simp, by simp⟩
  · obtain ⟨l, h', hl, e⟩ := add_self (h₁ := h₁) h2
    rw [e]
    have ha : cfg.a = l * (Y + Y) - 3 * X ^ 2 := by rw [hl]; ring
    refine ⟨mul_ne_zero h2 h2, ?_, ?_, ?_⟩ <;> dsimp only
    · ring
    · rw [ha]; ring
    · rw [ha]; ring

end Affine
end Tachyon.Curve
