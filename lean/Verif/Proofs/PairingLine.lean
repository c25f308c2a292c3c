import Verif.Spec.Pairing
import Verif.Proofs.Curve
import Mathlib.Tactic.Ring
import Mathlib.Tactic.FieldSimp
import Mathlib.Tactic.LinearCombination
/-! The projective steps add and double points of the twist, and their coefficients are those of the
line through the two points. -/
namespace Tachyon.Pairing
open WeierstrassCurve.Affine

variable {α β γ k K L : Type} [CommRing k] [Field K] [DecidableEq K] [CommRing L] {o : Ops α β γ}
  {R1 : α → k → Prop} {R2 : β → K → Prop} {R12 : γ → L → Prop} {ι : k →+* K} {j : K →+* L} {w : L}
  {ξ : K} {p : ℕ} {b : K}

/-- The stored projective coordinates stand for the point `T`, which is not the point at infinity. -/
def G2Projective.Rep (R2 : β → K → Prop) (b : K) (r : G2Projective β) (T : (twist b).Pt) : Prop :=
  ∃ x y z, R2 r.x x ∧ R2 r.y y ∧ R2 r.z z ∧ T ≠ 0 ∧ Curve.Projective.Rep (twist b) ⟨x, y, z⟩ T

/-- The coefficients are a non-zero multiple `s` of those of the line through `T` and `Q` with slope
`m`: `y - m x + (m x₁ - y₁)`. -/
def EllCoeff.Rep (R2 : β → K → Prop) (twistM : Bool) (c : EllCoeff β) : (twist b).Pt → (twist b).Pt → Prop
  | .some X₁ Y₁ _, .some X₂ Y₂ _ =>
    ∃ s c0 c1 c2, s ≠ 0 ∧ R2 c.c0 c0 ∧ R2 c.c1 c1 ∧ R2 c.c2 c2 ∧
      (if twistM then c2 else c0) = s ∧
      c1 = -s * (twist b).curve.slope X₁ X₂ Y₁ Y₂ ∧
      (if twistM then c0 else c2) = s * ((twist b).curve.slope X₁ X₂ Y₁ Y₂ * X₁ - Y₁)
  | _, _ => False

/-- A factor that the final exponentiation removes: its square lies in `K`. -/
def Removed (j : K →+* L) (c : L) : Prop := ∃ a : K, a ≠ 0 ∧ c ^ 2 = j a

omit [DecidableEq K] in
theorem Removed.one : Removed j (1 : L) := ⟨1, one_ne_zero, by simp⟩

omit [DecidableEq K] in
theorem Removed.mul {c d : L} (hc : Removed j c) (hd : Removed j d) : Removed j (c * d) := by
  obtain ⟨a, ha, e⟩ := hc
  obtain ⟨a', ha', e'⟩ := hd
  exact ⟨a * a', mul_ne_zero ha ha', by rw [mul_pow, e, e', map_mul]⟩

omit [DecidableEq K] in
theorem Removed.sq {c : L} (hc : Removed j c) : Removed j (c * c) := hc.mul hc

variable (h : o.Implements R1 R2 R12 ι j w ξ p)
include h

omit [DecidableEq K] in
theorem Ops.Implements.twoInv : ∃ t, R1 o.fp.twoInv t ∧ (2 : K) * ι t = 1 := by
  obtain ⟨t, h1, h2⟩ := h.fp.twoInv h.two
  refine ⟨t, h1, ?_⟩
  have := congrArg ι h2
  rwa [map_mul, map_one, map_ofNat] at this

omit [DecidableEq K] in
theorem Ops.Implements.two_ne : (2 : K) ≠ 0 := by
  intro e
  have := h.two.map ι
  rw [map_ofNat, e] at this
  exact not_isUnit_zero this

omit [DecidableEq K] in
theorem Ops.Implements.w_unit [Nontrivial L] : IsUnit w := by
  refine h.unit12 w ?_
  intro e
  exact one_ne_zero (h.independent 0 1 0 (by simp [e])).2.1

omit [DecidableEq K] in
theorem Ops.Implements.xi_ne [Nontrivial L] : ξ ≠ 0 := by
  intro e
  have := h.w_unit.pow 6
  rw [h.w6, e, map_zero] at this
  exact not_isUnit_zero this

theorem G2Projective.double_rep {cfg : Config β} (hb : R2 cfg.b b) {r : G2Projective β} {T : (twist b).Pt}
    (hr : r.Rep R2 b T) (h2 : T + T ≠ 0) :
    (r.double o cfg).1.Rep R2 b (T + T) ∧ (r.double o cfg).2.Rep R2 cfg.twistM T T := by
  obtain ⟨x, y, z, rx, ry, rz, hT, hrep⟩ := hr
  rcases T with _ | ⟨X, Y, hP⟩
  · exact absurd rfl hT
  obtain ⟨hz, hx, hy⟩ := hrep
  dsimp only at hz hx hy
  have hY : Y + Y ≠ 0 := fun e => h2 (Curve.add_self_zero e)
  have hY0 : Y ≠ 0 := fun e => hY (by rw [e, add_zero])
  obtain ⟨t, rt, ht⟩ := h.twoInv
  have h20 := h.two_ne
  have ht' : ι t = 2⁻¹ := eq_inv_of_mul_eq_one_right ht
  have hn : Y ≠ (twist b).curve.negY X Y := by
    rw [Curve.negY_curve]; intro e; exact hY (add_eq_zero_iff_eq_neg.mpr e)
  have hsl : (twist b).curve.slope X X Y Y = 3 * X ^ 2 / (2 * Y) := by
    rw [slope_of_Y_ne rfl hn, Curve.negY_curve]
    simp [Curve.Config.curve, twist]
    ring
  have heq := Curve.equation_curve.mp hP.1
  have heq' : Y ^ 2 = X ^ 3 + b := by simpa [twist] using heq
  have hbb : b = Y ^ 2 - X ^ 3 := by rw [heq']; ring
  obtain ⟨h', e⟩ := Curve.add_of_slope (cfg := twist b) (h₁ := hP) (h₂ := hP) (fun h => hn h.2) hsl
  have f := h.fp2
  have ra := h.mulBase (f.mul rx ry) rt
  have rb := f.square ry
  have rc := f.square rz
  have re := f.mul hb (f.add (f.double rc) rc)
  have rf := f.add (f.double re) re
  have rg := h.mulBase (f.add rb rf) rt
  have rh := f.sub (f.square (f.add ry rz)) (f.add rb rc)
  have ri := f.sub re rb
  have rj := f.square rx
  have re2 := f.square re
  have rx' := f.mul ra (f.sub rb rf)
  have ry' := f.sub (f.square rg) (f.add (f.double re2) re2)
  have rz' := f.mul rb rh
  have rj3 := f.add (f.double rj) rj
  have rnh := f.neg rh
  constructor
  · refine ⟨_, _, _, rx', ry', rz', h2, ?_⟩
    rw [e]
    refine ⟨?_, ?_, ?_⟩ <;> dsimp only
    · rw [hy]
      have : (Y * z) * (Y * z) * (2 * (Y * z) * z) ≠ 0 := by
        refine mul_ne_zero (mul_ne_zero ?_ ?_) (mul_ne_zero (mul_ne_zero h20 ?_) hz) <;> exact mul_ne_zero hY0 hz
      intro e0; exact this (by linear_combination e0)
    · rw [hx, hy, ht', hbb]; field_simp; ring
    · rw [hy, ht', hbb]; field_simp; ring
  · have hs : -(2 * Y * z ^ 2) ≠ 0 := neg_ne_zero.mpr (mul_ne_zero (mul_ne_zero h20 hY0) (pow_ne_zero _ hz))
    have g1 : -((y + z) * (y + z) - (y * y + z * z)) = -(2 * Y * z ^ 2) := by rw [hy]; ring
    have g2 : x * x + x * x + x * x = -(-(2 * Y * z ^ 2)) * (3 * X ^ 2 / (2 * Y)) := by
      rw [hx]; field_simp; ring
    have g3 : b * (z * z + z * z + z * z) - y * y = -(2 * Y * z ^ 2) * (3 * X ^ 2 / (2 * Y) * X - Y) := by
      rw [hy, hbb]; field_simp; ring
    show EllCoeff.Rep R2 cfg.twistM _ (.some X Y hP) (.some X Y hP)
    simp only [EllCoeff.Rep, hsl]
    cases hM : cfg.twistM with
    | true =>
      simp only [G2Projective.double, hM, if_true]
      exact ⟨-(2 * Y * z ^ 2), _, _, _, hs, ri, rj3, rnh, g1, g2, g3⟩
    | false =>
      simp only [G2Projective.double, hM, Bool.false_eq_true, if_false]
      exact ⟨-(2 * Y * z ^ 2), _, _, _, hs, rnh, rj3, ri, g1, g2, g3⟩

theorem G2Projective.add_rep {cfg : Config β} {r : G2Projective β} {q : Point β} {T Q : (twist b).Pt}
    (hr : r.Rep R2 b T) (hq : q.Rep R2 b Q) (hQ : Q ≠ 0) (h1 : T ≠ Q) (h2 : T + Q ≠ 0) :
    (r.add o cfg q).1.Rep R2 b (T + Q) ∧ (r.add o cfg q).2.Rep R2 cfg.twistM T Q := by
  obtain ⟨x, y, z, rx, ry, rz, hT, hrep⟩ := hr
  obtain ⟨qx, qy, rqx, rqy, hqrep⟩ := hq
  rcases T with _ | ⟨X, Y, hP⟩
  · exact absurd rfl hT
  rcases Q with _ | ⟨X₂, Y₂, hP₂⟩
  · exact absurd rfl hQ
  obtain ⟨hz, hx, hy⟩ := hrep
  obtain ⟨hx₂, hy₂, -⟩ := hqrep
  dsimp only at hz hx hy hx₂ hy₂
  subst hx₂ hy₂
  have hX : X ≠ qx := by
    intro e
    by_cases hY : Y = qy
    · subst e hY; exact h1 rfl
    · exact h2 (Curve.add_opposite e hY)
  have hX' : X - qx ≠ 0 := sub_ne_zero.mpr hX
  have hsl : (twist b).curve.slope X qx Y qy = (Y - qy) / (X - qx) := slope_of_X_ne hX
  obtain ⟨h', e⟩ := Curve.add_of_slope (cfg := twist b) (h₁ := hP) (h₂ := hP₂) (fun h => hX h.1) hsl
  have hE1 : Y ^ 2 = X ^ 3 + b := by simpa [twist] using Curve.equation_curve.mp hP.1
  have f := h.fp2
  have rth := f.sub ry (f.mul rqy rz)
  have rla := f.sub rx (f.mul rqx rz)
  have rc := f.square rth
  have rd := f.square rla
  have re := f.mul rla rd
  have rf := f.mul rz rc
  have rg := f.mul rx rd
  have rh := f.sub (f.add re rf) (f.double rg)
  have rx' := f.mul rla rh
  have ry' := f.sub (f.mul rth (f.sub rg rh)) (f.mul re ry)
  have rz' := f.mul rz re
  have rj := f.sub (f.mul rth rqx) (f.mul rla rqy)
  have rnt := f.neg rth
  constructor
  · refine ⟨_, _, _, rx', ry', rz', h2, ?_⟩
    rw [e]
    have hl : x - qx * z ≠ 0 := by
      rw [hx, ← sub_mul]; exact mul_ne_zero hX' hz
    refine ⟨?_, ?_, ?_⟩ <;> dsimp only
    · exact mul_ne_zero hz (mul_ne_zero hl (mul_ne_zero hl hl))
    · rw [hx, hy]; field_simp; ring
    · rw [hx, hy]; field_simp; ring
  · have hs : (X - qx) * z ≠ 0 := mul_ne_zero hX' hz
    have g1 : x - qx * z = (X - qx) * z := by rw [hx]; ring
    have g2 : -(y - qy * z) = -((X - qx) * z) * ((Y - qy) / (X - qx)) := by rw [hy]; field_simp
    have g3 : (y - qy * z) * qx - (x - qx * z) * qy = (X - qx) * z * ((Y - qy) / (X - qx) * X - Y) := by
      rw [hx, hy]; field_simp; ring
    show EllCoeff.Rep R2 cfg.twistM _ (.some X Y hP) (.some qx qy hP₂)
    simp only [EllCoeff.Rep, hsl]
    cases hM : cfg.twistM with
    | true =>
      simp only [G2Projective.add, hM, if_true]
      exact ⟨(X - qx) * z, _, _, _, hs, rj, rnt, rla, g1, g2, g3⟩
    | false =>
      simp only [G2Projective.add, hM, Bool.false_eq_true, if_false]
      exact ⟨(X - qx) * z, _, _, _, hs, rla, rnt, rj, g1, g2, g3⟩

theorem G2Projective.neg_rep {r : G2Projective β} {T : (twist b).Pt} (hr : r.Rep R2 b T) :
    (r.neg o).Rep R2 b (-T) := by
  obtain ⟨x, y, z, rx, ry, rz, hT, hrep⟩ := hr
  refine ⟨x, -y, z, rx, h.fp2.neg ry, rz, neg_ne_zero.mpr hT, ?_⟩
  rcases T with _ | ⟨X, Y, hP⟩
  · exact absurd rfl hT
  obtain ⟨h', e⟩ := Curve.neg_curve hP
  obtain ⟨hz, hx, hy⟩ := hrep
  dsimp only at hy
  rw [e]
  exact ⟨hz, hx, by dsimp only; rw [hy]; ring⟩

omit [DecidableEq K] in
theorem Point.neg_rep {q : Point β} {Q : (twist b).Pt} (hq : q.Rep R2 b Q) : (q.neg o.fp2).Rep R2 b (-Q) := by
  obtain ⟨x, y, rx, ry, hrep⟩ := hq
  refine ⟨x, -y, rx, h.fp2.neg ry, ?_⟩
  rcases Q with _ | ⟨X, Y, hP⟩
  · show Curve.Affine.Rep (twist b) _ (0 : (twist b).Pt)
    obtain ⟨h1, h2⟩ := hrep
    dsimp only at h1 h2
    exact ⟨h1, by dsimp only; rw [h2, neg_zero]⟩
  · obtain ⟨h', e⟩ := Curve.neg_curve hP
    obtain ⟨hx, hy, hn⟩ := hrep
    dsimp only at hx hy
    rw [e]
    exact ⟨hx, by dsimp only; rw [hy], by simpa using hn⟩

omit [DecidableEq K] in
theorem Point.isZero_rep {q : Point β} {Q : (twist b).Pt} (hq : q.Rep R2 b Q) : q.isZero o.fp2 = true ↔ Q = 0 := by
  obtain ⟨x, y, rx, ry, hrep⟩ := hq
  rw [Point.isZero, Bool.and_eq_true, h.fp2.isZero rx, h.fp2.isZero ry]
  rcases Q with _ | ⟨X, Y, hP⟩
  · exact ⟨fun _ => rfl, fun _ => hrep⟩
  · obtain ⟨hx, hy, hn⟩ := hrep
    dsimp only at hx hy
    subst hx hy
    exact ⟨fun e => absurd e hn, fun e => absurd e (by exact Point.some_ne_zero hP)⟩

/-- `Ell` multiplies by the value of the line, up to a factor that is removed later. -/
theorem ell_rep [Nontrivial L] {cfg : Config β} {u : L} (hu : if cfg.twistM then u * w = 1 else u = w)
    {f : γ} {F : L} (hf : R12 f F) {c : EllCoeff β} {T Q : (twist b).Pt} (hc : c.Rep R2 cfg.twistM T Q)
    {P : Point α} {xP yP : k} (hx : R1 P.x xP) (hy : R1 P.y yP) :
    ∃ C, Removed j C ∧ R12 (ell o cfg f c P) (F * (C * line j u (j (ι xP)) (j (ι yP)) T Q)) := by
  rcases T with _ | ⟨X, Y, hP⟩
  · exact hc.elim
  rcases Q with _ | ⟨X₂, Y₂, hP₂⟩
  · exact hc.elim
  obtain ⟨s, c0, c1, c2, hs, r0, r1, r2, e0, e1, e2⟩ := hc
  cases hM : cfg.twistM with
  | true =>
    simp only [hM, if_true] at hu e0 e2
    refine ⟨j s * w ^ 3, ⟨s ^ 2 * ξ, mul_ne_zero (pow_ne_zero _ hs) h.xi_ne, ?_⟩, ?_⟩
    · rw [mul_pow, ← pow_mul, h.w6]; simp
    · have := h.mulBy014 hf r0 (h.mulBase r1 hx) (h.mulBase r2 hy)
      simp only [ell, hM, if_true]
      convert this using 2
      rw [e0, e1, e2, line]
      simp only [map_mul, map_neg, map_sub]
      have hu3 : u ^ 3 * w ^ 3 = 1 := by rw [← mul_pow, hu, one_pow]
      set m := j ((twist b).curve.slope X X₂ Y Y₂)
      linear_combination (-j s * j Y + j s * m * j X) * hu3 - j s * m * j (ι xP) * w ^ 2 * hu
  | false =>
    simp only [hM, Bool.false_eq_true, if_false] at hu e0 e2
    refine ⟨j s, ⟨s ^ 2, pow_ne_zero _ hs, by simp⟩, ?_⟩
    have := h.mulBy034 hf (h.mulBase r0 hy) (h.mulBase r1 hx) r2
    simp only [ell, hM, Bool.false_eq_true, if_false]
    convert this using 2
    rw [e0, e1, e2, line, hu]
    simp only [map_mul, map_neg, map_sub]
    ring

end Tachyon.Pairing
