import Verif.Proofs.CurveOps
import Verif.Proofs.Group
import Verif.Proofs.Parallel
import Mathlib.Data.List.Forall2
/-! Conversions between coordinate systems and batch normalisation. -/
universe u
namespace Tachyon.Curve
open WeierstrassCurve.Affine Tachyon.Group Tachyon.Parallel

variable {F : Type u} [Field F] [DecidableEq F] {cfg : Config F}

omit [DecidableEq F] in
theorem not_origin (hb : cfg.b ≠ 0) {X Y : F} (h : cfg.curve.Nonsingular X Y) :
    ¬ (X = 0 ∧ Y = 0) := by
  rintro ⟨rfl, rfl⟩
  have := equation_curve.mp h.1
  exact hb (by simpa using this.symm)

namespace Jacobian

theorem toAffine_rep (hb : cfg.b ≠ 0) {p : Jacobian F} {P : cfg.Pt} (h : p.Rep cfg P) :
    p.toAffine.Rep cfg P := by
  rcases P with _ | ⟨X, Y, hP⟩
  · have hz : p.z = 0 := h
    simp [toAffine, isZero, hz, Affine.Rep, Affine.zero]
  · obtain ⟨hz, hx, hy⟩ := h
    simp only [toAffine, isZero, hz, decide_false, Bool.false_eq_true, if_false]
    split
    · next h1 => exact ⟨by rw [hx, h1]; ring, by rw [hy, h1]; ring, not_origin hb hP⟩
    · refine ⟨?_, ?_, not_origin hb hP⟩ <;> dsimp only
      · rw [hx]; field_simp
      · rw [hy]; field_simp

omit [DecidableEq F] in
theorem toProjective_rep {p : Jacobian F} {P : cfg.Pt} (h : p.Rep cfg P) :
    p.toProjective.Rep cfg P := by
  rcases P with _ | ⟨X, Y, hP⟩
  · have hz : p.z = 0 := h
    simp [toProjective, hz, Projective.Rep]
  · obtain ⟨hz, hx, hy⟩ := h
    exact ⟨mul_ne_zero (mul_ne_zero hz hz) hz, by simp only [toProjective, hx]; ring,
      by simp only [toProjective, hy]; ring⟩

omit [DecidableEq F] in
theorem toXYZZ_rep {p : Jacobian F} {P : cfg.Pt} (h : p.Rep cfg P) : p.toXYZZ.Rep cfg P := by
  rcases P with _ | ⟨X, Y, hP⟩
  · have hz : p.z = 0 := h
    simp [toXYZZ, hz, XYZZ.Rep]
  · obtain ⟨hz, hx, hy⟩ := h
    exact ⟨mul_ne_zero hz hz, by simp only [toXYZZ]; ring, by simp only [toXYZZ, hx]; ring,
      by simp only [toXYZZ, hy]; ring⟩

theorem normalizeWith_eq (p : Jacobian F) :
    normalizeWith (if p.z = 0 then 0 else 1 * p.z⁻¹) p = p.toAffine := by
  by_cases hz : p.z = 0
  · simp [normalizeWith, toAffine, isZero, hz]
  · simp [normalizeWith, toAffine, isZero, hz]

theorem batchNormalizeSerial_eq (ps : List (Jacobian F)) :
    batchNormalizeSerial ps ps.length = some (ps.map toAffine) := by
  rw [batchNormalizeSerial, if_neg (by simp), batchInverseSerial, if_neg (by simp), doBatchInverse_eq]
  simp only [Option.some.injEq]
  induction ps with
  | nil => rfl
  | cons p ps ih =>
    simp only [List.map_cons, List.zipWith_cons_cons, normalizeWith_eq, List.cons.injEq, true_and]
    exact ih

end Jacobian

namespace Projective

theorem toAffine_rep (hb : cfg.b ≠ 0) {p : Projective F} {P : cfg.Pt} (h : p.Rep cfg P) :
    p.toAffine.Rep cfg P := by
  rcases P with _ | ⟨X, Y, hP⟩
  · have hz : p.z = 0 := h
    simp [toAffine, isZero, hz, Affine.Rep, Affine.zero]
  · obtain ⟨hz, hx, hy⟩ := h
    simp only [toAffine, isZero, hz, decide_false, Bool.false_eq_true, if_false]
    split
    · next h1 => exact ⟨by rw [hx, h1]; ring, by rw [hy, h1]; ring, not_origin hb hP⟩
    · refine ⟨?_, ?_, not_origin hb hP⟩ <;> dsimp only
      · rw [hx]; field_simp
      · rw [hy]; field_simp

omit [DecidableEq F] in
theorem toJacobian_rep {p : Projective F} {P : cfg.Pt} (h : p.Rep cfg P) :
    p.toJacobian.Rep cfg P := by
  rcases P with _ | ⟨X, Y, hP⟩
  · exact h
  · obtain ⟨hz, hx, hy⟩ := h
    exact ⟨hz, by simp only [toJacobian, hx]; ring, by simp only [toJacobian, hy]; ring⟩

omit [DecidableEq F] in
theorem toXYZZ_rep {p : Projective F} {P : cfg.Pt} (h : p.Rep cfg P) : p.toXYZZ.Rep cfg P := by
  rcases P with _ | ⟨X, Y, hP⟩
  · have hz : p.z = 0 := h
    simp [toXYZZ, hz, XYZZ.Rep]
  · obtain ⟨hz, hx, hy⟩ := h
    exact ⟨mul_ne_zero hz hz, by simp only [toXYZZ]; ring, by simp only [toXYZZ, hx]; ring,
      by simp only [toXYZZ, hy]; ring⟩

theorem normalizeWith_eq (p : Projective F) :
    normalizeWith (if p.z = 0 then 0 else 1 * p.z⁻¹) p = p.toAffine := by
  by_cases hz : p.z = 0
  · simp [normalizeWith, toAffine, isZero, hz]
  · simp [normalizeWith, toAffine, isZero, hz]

theorem batchNormalizeSerial_eq (ps : List (Projective F)) :
    batchNormalizeSerial ps ps.length = some (ps.map toAffine) := by
  rw [batchNormalizeSerial, if_neg (by simp), batchInverseSerial, if_neg (by simp), doBatchInverse_eq]
  simp only [Option.some.injEq]
  induction ps with
  | nil => rfl
  | cons p ps ih =>
    simp only [List.map_cons, List.zipWith_cons_cons, normalizeWith_eq, List.cons.injEq, true_and]
    exact ih

end Projective

namespace XYZZ

theorem toAffine_rep (hb : cfg.b ≠ 0) {p : XYZZ F} {P : cfg.Pt} (h : p.Rep cfg P)
    (h1 : p.zz = 1 → p.zzz = 1) : p.toAffine.Rep cfg P := by
  rcases P with _ | ⟨X, Y, hP⟩
  · have hz : p.zz = 0 := h.1
    simp [toAffine, isZero, hz, Affine.Rep, Affine.zero]
  · obtain ⟨hz, hc, hx, hy⟩ := h
    have ht := zzz_ne_zero hz hc
    simp only [toAffine, isZero, hz, decide_false, Bool.false_eq_true, if_false]
    split
    · next hzz =>
      exact ⟨by rw [hx, hzz]; ring, by rw [hy, h1 hzz]; ring, not_origin hb hP⟩
    · refine ⟨?_, ?_, not_origin hb hP⟩ <;> dsimp only
      · rw [hx]; field_simp; linear_combination X * hc
      · rw [hy]; field_simp

theorem toProjective_rep {p : XYZZ F} {P : cfg.Pt} (h : p.Rep cfg P)
    (h1 : p.zz = 1 → p.zzz = 1) : p.toProjective.Rep cfg P := by
  rcases P with _ | ⟨X, Y, hP⟩
  · have hz : p.zz = 0 := h.1
    simp [toProjective, isZero, hz, Projective.Rep]
  · obtain ⟨hz, hc, hx, hy⟩ := h
    have ht := zzz_ne_zero hz hc
    simp only [toProjective, isZero, hz, decide_false, Bool.false_eq_true, if_false]
    split
    · next hzz => exact ⟨one_ne_zero, by simp [hx, hzz], by simp [hy, h1 hzz]⟩
    · exact ⟨mul_ne_zero hz ht, by dsimp only; rw [hx]; ring, by dsimp only; rw [hy]; ring⟩

theorem toJacobian_rep {p : XYZZ F} {P : cfg.Pt} (h : p.Rep cfg P)
    (h1 : p.zz = 1 → p.zzz = 1) : p.toJacobian.Rep cfg P := by
  rcases P with _ | ⟨X, Y, hP⟩
  · have hz : p.zz = 0 := h.1
    simp [toJacobian, isZero, hz, Jacobian.Rep]
  · obtain ⟨hz, hc, hx, hy⟩ := h
    have ht := zzz_ne_zero hz hc
    simp only [toJacobian, isZero, hz, decide_false, Bool.false_eq_true, if_false]
    split
    · next hzz => exact ⟨one_ne_zero, by simp [hx, hzz], by simp [hy, h1 hzz]⟩
    · exact ⟨mul_ne_zero hz ht, by dsimp only; rw [hx]; ring, by dsimp only; rw [hy]; ring⟩

omit [DecidableEq F] in
theorem zz_eq_zero {p : XYZZ F} {P : cfg.Pt} (h : p.Rep cfg P) : p.zz = 0 ↔ p.zzz = 0 := by
  rcases P with _ | ⟨X, Y, hP⟩
  · exact ⟨fun _ => h.2, fun _ => h.1⟩
  · exact ⟨fun h0 => absurd h0 h.1, fun h0 => absurd h0 (zzz_ne_zero h.1 h.2.1)⟩

theorem normalizeWith_eq (p : XYZZ F) (h : p.zz = 0 ∨ p.zzz ≠ 0) :
    normalizeWith (if p.zzz = 0 then 0 else 1 * p.zzz⁻¹) p = p.toAffine := by
  by_cases hz : p.zz = 0
  · simp [normalizeWith, toAffine, isZero, hz]
  · have := h.resolve_left hz
    simp [normalizeWith, toAffine, isZero, hz, this]

theorem batchNormalizeSerial_eq (ps : List (XYZZ F)) :
    batchNormalizeSerial ps ps.length = some (ps.map toAffine) := by
  rw [batchNormalizeSerial, if_neg (by simp), batchInverseSerial, if_neg (by simp), doBatchInverse_eq]
  simp only [Option.some.injEq]
  induction ps with
  | nil => rfl
  | cons p ps ih =>
    have e : normalizeWith (if p.zzz = 0 then 0 else 1 * p.zzz⁻¹) p = p.toAffine := by
      by_cases ht : p.zzz = 0
      · simp [normalizeWith, toAffine, isZero, ht]
      · exact normalizeWith_eq p (Or.inr ht)
    simp only [List.map_cons, List.zipWith_cons_cons, e, List.cons.injEq, true_and]
    exact ih

end XYZZ

omit [Field F] [DecidableEq F] in
theorem batchNormalize_eq {P : Type u} {serial : List P → ℕ → Option (List (Affine F))}
    {f : P → Affine F} (hs : ∀ ps, serial ps ps.length = some (ps.map f)) (threads : ℕ)
    (ps : List P) (ht : 0 < threads) (ht' : threads < 128) (hl : ps.length ≤ 2 ^ 63) :
    batchNormalize serial threads ps ps.length = some (ps.map f) := by
  rw [batchNormalize, if_neg (by simp), if_neg (by omega)]
  split
  · next hge =>
    have hpos : 0 < ps.length := lt_of_lt_of_le (Nat.two_pow_pos _) hge
    obtain ⟨hp, hle, -⟩ := sizePerThread_bounds ht (total := ps.length) (by omega) none
    have hcs := hp.2 hpos
    generalize sizePerThread threads ps.length none = cs at *
    have e : (invocations ps.length cs).map (fun c => serial (chunkOf ps cs c) c.2) =
        (invocations ps.length cs).map (fun c => some ((chunkOf ps cs c).map f)) := by
      refine List.map_congr_left fun c hc => ?_
      obtain ⟨hi, hc2⟩ := (mem_invocations hcs).mp hc
      obtain ⟨h1, h2, -, -⟩ := chunk_bounds hcs (by omega) hi
      have hlen : (chunkOf ps cs c).length = c.2 := by
        rw [chunkOf, List.length_take, List.length_drop, hc2]
        have := min_le_right ((c.1 + 1) * cs) ps.length
        omega
      conv_lhs => rw [← hlen]
      exact hs _
    simp only [e]
    rw [if_pos (by simp), List.flatMap_map]
    simp only [Option.getD_some]
    rw [← List.map_flatMap, flatMap_chunkOf ps hcs (by omega)]
  · exact hs ps

end Tachyon.Curve
