import Verif.Proofs.CIntConvert
import Verif.Proofs.ByJump
/-! # The inverter of `byinverter.h` -/
namespace Tachyon.BY
open Tachyon.BigInt (Limbs)

/-! ### `Invert62` -/

theorem xor2 (f : BitVec 64) (hf : f.toNat % 2 = 1) : (((3#64 * f) ^^^ 2#64) * f).toNat % 32 = 1 := by
  have key : ∀ x : BitVec 5, x.toNat % 2 = 1 → ((3#5 * x) ^^^ 2#5) * x = 1#5 := by decide
  have h := key (f.setWidth 5) (by rw [BitVec.toNat_setWidth]; omega)
  have e : ((((3#64 * f) ^^^ 2#64) * f).setWidth 5) = ((3#5 * f.setWidth 5) ^^^ 2#5) * f.setWidth 5 := by
    rw [BitVec.setWidth_mul _ _ (by norm_num), BitVec.setWidth_xor, BitVec.setWidth_mul _ _ (by norm_num)]
    rfl
  have e2 := congrArg BitVec.toNat (e.trans h)
  rw [BitVec.toNat_setWidth] at e2
  exact e2

theorem Low.sub {f g : BitVec 64} {F G : ℤ} (h : Low 64 f F) (h' : Low 64 g G) : Low 64 (f - g) (F - G) := by
  rw [BitVec.sub_eq_add_neg, _root_.sub_eq_add_neg]
  exact h.add (le_refl _) (h'.neg (le_refl _))

theorem invert62_spec {v : BitVec 64} (hv : v.toNat % 2 = 1) : (2 : ℤ) ^ 62 ∣ (invert62 v : ℤ) * v.toNat - 1 := by
  have hx := xor2 v hv
  rw [invert62]
  generalize (3#64 * v) ^^^ 2#64 = x at hx
  have lx := Low.self 64 x
  have lv := Low.self 64 v
  have l1 : Low 64 1#64 1 := Low.self 64 1#64
  have ly := l1.sub (lx.mul (le_refl _) lv)
  set Y : ℤ := 1 - x.toNat * v.toNat with hY
  have lx1 := lx.mul (le_refl _) (ly.add (le_refl _) l1)
  have ly1 := ly.mul (le_refl _) ly
  have lx2 := lx1.mul (le_refl _) (ly1.add (le_refl _) l1)
  have ly2 := ly1.mul (le_refl _) ly1
  have lx3 := lx2.mul (le_refl _) (ly2.add (le_refl _) l1)
  have ly3 := ly2.mul (le_refl _) ly2
  have lx4 := lx3.mul (le_refl _) (ly3.add (le_refl _) l1)
  have h32 : (32 : ℤ) ∣ Y := by
    rw [BitVec.toNat_mul] at hx
    have : (((x.toNat * v.toNat : ℕ)) : ℤ) = x.toNat * v.toNat := by push_cast; rfl
    rw [hY, ← this]
    omega
  obtain ⟨y, hy⟩ := h32
  rw [and_mask]
  have h1 := (pow_dvd_pow (2 : ℤ) (show 62 ≤ 64 by norm_num)).trans lx4
  obtain ⟨k, hk⟩ := h1
  have h2 := Int.emod_add_mul_ediv (((x * (1#64 - x * v + 1#64)) * ((1#64 - x * v) * (1#64 - x * v) + 1#64) *
    ((1#64 - x * v) * (1#64 - x * v) * ((1#64 - x * v) * (1#64 - x * v)) + 1#64) *
    ((1#64 - x * v) * (1#64 - x * v) * ((1#64 - x * v) * (1#64 - x * v)) *
      ((1#64 - x * v) * (1#64 - x * v) * ((1#64 - x * v) * (1#64 - x * v))) + 1#64)).toNat : ℤ) (2 ^ 62)
  rw [Int.natCast_mod, show ((2 ^ 62 : ℕ) : ℤ) = 2 ^ 62 by norm_num]
  generalize (((x * (1#64 - x * v + 1#64)) * ((1#64 - x * v) * (1#64 - x * v) + 1#64) *
    ((1#64 - x * v) * (1#64 - x * v) * ((1#64 - x * v) * (1#64 - x * v)) + 1#64) *
    ((1#64 - x * v) * (1#64 - x * v) * ((1#64 - x * v) * (1#64 - x * v)) *
      ((1#64 - x * v) * (1#64 - x * v) * ((1#64 - x * v) * (1#64 - x * v))) + 1#64)).toNat : ℤ) = R at hk h2 ⊢
  refine ⟨(k - R / 2 ^ 62) * v.toNat - 2 ^ 18 * y ^ 16, ?_⟩
  have e : ((x.toNat : ℤ) * (Y + 1) * (Y * Y + 1) * (Y * Y * (Y * Y) + 1) * (Y * Y * (Y * Y) * (Y * Y * (Y * Y)) + 1)) * v.toNat
      = 1 - 2 ^ 80 * y ^ 16 := by
    have : (x.toNat : ℤ) * v.toNat = 1 - Y := by rw [hY]; ring
    calc _ = ((x.toNat : ℤ) * v.toNat) * (Y + 1) * (Y * Y + 1) * (Y * Y * (Y * Y) + 1) *
          (Y * Y * (Y * Y) * (Y * Y * (Y * Y)) + 1) := by ring
      _ = 1 - Y ^ 16 := by rw [this]; ring
      _ = _ := by rw [hy]; ring
  linear_combination v.toNat * h2 + v.toNat * hk + e

/-! ### One iteration -/

theorem wrap_eq' {z : ℤ} (h0 : -2 ^ 63 ≤ z) (h1 : z < 2 ^ 63) : wrap z = z := by
  rw [wrap, Int.bmod_eq_of_le] <;> norm_num <;> omega

theorem range_of_lt {n : ℕ} {z : ℤ} (h : |z| < 2 ^ (64 * n + 63)) : InRange (chunks n) z := by
  have hb := chunks_bound n
  have : (2 : ℤ) ^ (64 * n + 63) ≤ 2 ^ (62 * chunks n - 1) := pow_le_pow_right₀ (by norm_num) (by omega)
  rw [abs_lt] at h
  constructor <;> linarith

theorem chunks_pos (n : ℕ) : 0 < chunks n := by have := chunks_bound n; omega

theorem row_bounds {a b : ℤ} (h : |a| + |b| ≤ 2 ^ 62) : -2 ^ 63 < a ∧ a < 2 ^ 63 ∧ -2 ^ 63 < b ∧ b < 2 ^ 63 := by
  have h1 : |a| ≤ 2 ^ 62 := by have := abs_nonneg b; linarith
  have h2 : |b| ≤ 2 ^ 62 := by have := abs_nonneg a; linarith
  rw [abs_le] at h1 h2
  refine ⟨?_, ?_, ?_, ?_⟩ <;> omega

theorem fg_spec {n : ℕ} {f g : List ℕ} {F G F' G' : ℤ} {t : Mat} (hf : Cong (chunks n) f F) (hg : Cong (chunks n) g G)
    (ba : |t.a| + |t.b| ≤ 2 ^ 62) (bc : |t.c| + |t.d| ≤ 2 ^ 62) (eF : 2 ^ 62 * F' = t.a * F + t.b * G)
    (eG : 2 ^ 62 * G' = t.c * F + t.d * G) (hF : |F'| < 2 ^ (64 * n)) (hG : |G'| < 2 ^ (64 * n)) :
    ∃ f' g', fg f g t = some (f', g') ∧ Cong (chunks n) f' F' ∧ Cong (chunks n) g' G' := by
  obtain ⟨a1, a2, a3, a4⟩ := row_bounds ba
  obtain ⟨c1, c2, c3, c4⟩ := row_bounds bc
  obtain ⟨x, hx, hx'⟩ := comb_spec hf hg a1 a2 a3 a4
  obtain ⟨y, hy, hy'⟩ := comb_spec hf hg c1 c2 c3 c4
  have rng : ∀ {z : ℤ}, |z| < 2 ^ (64 * n) → InRange (chunks n) (2 ^ 62 * z) := by
    intro z hz
    apply range_of_lt
    rw [abs_mul, abs_of_pos (by positivity), pow_add]
    have : (0 : ℤ) < 2 ^ (64 * n) := by positivity
    norm_num
    linarith
  refine ⟨_, _, by simp [fg, hx, hy]; exact ⟨rfl, rfl⟩, ?_, ?_⟩
  · refine Cong.shift (chunks_pos n) ?_ (rng hF)
    rw [eF]; convert hx' using 1; ring
  · refine Cong.shift (chunks_pos n) ?_ (rng hG)
    rw [eG]; convert hy' using 1; ring

theorem deHalf_spec {n : ℕ} {m d e : List ℕ} {M D E : ℤ} {inv : ℕ} {a b : ℤ} (hM0 : 0 < M) (hMlt : M < 2 ^ (64 * n))
    (hinv : (2 : ℤ) ^ 62 ∣ inv * M - 1) (hm : Cong (chunks n) m M) (hd : Cong (chunks n) d D) (he : Cong (chunks n) e E)
    (hD0 : -2 * M < D) (hD1 : D < M) (hE0 : -2 * M < E) (hE1 : E < M) (hb : |a| + |b| ≤ 2 ^ 62) :
    ∃ r D', deHalf m inv d e a b = some r ∧ Cong (chunks n) r D' ∧ -2 * M < D' ∧ D' < M ∧
      M ∣ 2 ^ 62 * D' - (a * D + b * E) := by
  have hL := chunks_pos n
  have hMp : (2 : ℤ) ^ (64 * n) * 2 ^ 63 = 2 ^ (64 * n + 63) := (pow_add _ _ _).symm
  have rngD : ∀ {z : ℤ}, -2 * M < z → z < M → InRange (chunks n) z := by
    intro z h0 h1
    apply range_of_lt
    rw [← hMp, abs_lt]
    constructor <;> nlinarith
  have nd := hd.isNegative hL (rngD hD0 hD1)
  have ne := he.isNegative hL (rngD hE0 hE1)
  obtain ⟨a1, a2, a3, a4⟩ := row_bounds hb
  -- the numbers that are added
  set u : ℤ := ((isNegative d).toNat : ℤ) with hu
  set v : ℤ := ((isNegative e).toNat : ℤ) with hv
  have hu' : -M < D + M * u ∧ D + M * u < M := by
    rw [hu, nd]
    by_cases h : D < 0
    · simp only [h, decide_true, Bool.toNat_true, Nat.cast_one, mul_one]; constructor <;> linarith
    · simp only [h, decide_false, Bool.toNat_false, Nat.cast_zero, mul_zero, add_zero]; constructor <;> linarith
  have hv' : -M < E + M * v ∧ E + M * v < M := by
    rw [hv, ne]
    by_cases h : E < 0
    · simp only [h, decide_true, Bool.toNat_true, Nat.cast_one, mul_one]; constructor <;> linarith
    · simp only [h, decide_false, Bool.toNat_false, Nat.cast_zero, mul_zero, add_zero]; constructor <;> linarith
  have hu01 : 0 ≤ u ∧ u ≤ 1 := by
    rw [hu]; cases isNegative d <;> simp
  have hv01 : 0 ≤ v ∧ v ≤ 1 := by
    rw [hv]; cases isNegative e <;> simp
  have hmd : |a * u + b * v| ≤ 2 ^ 62 := by
    refine le_trans (abs_add_le _ _) (le_trans ?_ hb)
    rw [abs_mul, abs_mul, abs_of_nonneg hu01.1, abs_of_nonneg hv01.1]
    have h1 := mul_le_mul_of_nonneg_left hu01.2 (abs_nonneg a)
    have h2 := mul_le_mul_of_nonneg_left hv01.2 (abs_nonneg b)
    linarith
  -- the lowest chunks
  obtain ⟨_, ld⟩ := hd.lowest hL
  obtain ⟨_, le⟩ := he.lowest hL
  have c62 : ∀ z : ℤ, (((z % 2 ^ 64).toNat &&& mask62 : ℕ) : ℤ) = z % 2 ^ 62 := by
    intro z
    rw [and_mask]
    push_cast
    rw [Int.toNat_of_nonneg (Int.emod_nonneg _ (by norm_num))]
    exact Int.emod_emod_of_dvd z (by norm_num)
  set cd : ℤ := (a * lowest d + b * lowest e) % 2 ^ 62 with hcd
  set q : ℤ := (cd * inv + (a * u + b * v)) % 2 ^ 62 with hq
  have hq0 : 0 ≤ q := Int.emod_nonneg _ (by norm_num)
  have hq1 : q < 2 ^ 62 := Int.emod_lt_of_pos _ (by norm_num)
  rw [abs_le] at hmd
  have hfac : deFactor inv d e a b = some (a * u + b * v - q) := by
    rw [deFactor, ← hu, ← hv, i64_eq (abs_le.2 hmd), Option.map_some]
    simp only [c62]
    rw [← hcd, ← hq, wrap_eq' (by omega) (by omega)]
  set md : ℤ := a * u + b * v - q with hmdef
  obtain ⟨x, hx, hx'⟩ := comb_spec hd he a1 a2 a3 a4
  obtain ⟨y, hy, hy'⟩ := hm.mul (show -2 ^ 63 < md by omega) (show md < 2 ^ 63 by omega)
  -- divisibility
  have hdiv : (2 : ℤ) ^ 62 ∣ D * a + E * b + M * md := by
    obtain ⟨k1, hk1⟩ := ld
    obtain ⟨k2, hk2⟩ := le
    obtain ⟨k3, hk3⟩ := hinv
    have hk4 := Int.emod_add_mul_ediv (a * lowest d + b * lowest e) (2 ^ 62)
    have hk5 := Int.emod_add_mul_ediv (cd * inv + (a * u + b * v)) (2 ^ 62)
    rw [← hcd] at hk4
    rw [← hq] at hk5
    refine ⟨-k1 * a - k2 * b + ((a * lowest d + b * lowest e) / 2 ^ 62)
      + M * ((cd * inv + (a * u + b * v)) / 2 ^ 62) - cd * k3, ?_⟩
    rw [hmdef]
    linear_combination -a * hk1 - b * hk2 - hk4 - M * hk5 - cd * hk3
  obtain ⟨D', hD'⟩ := hdiv
  -- range
  have hsum : 2 ^ 62 * D' = a * (D + M * u) + b * (E + M * v) - M * q := by
    rw [← hD', hmdef]; ring
  have habs : |a * (D + M * u) + b * (E + M * v)| ≤ 2 ^ 62 * (M - 1) := by
    refine le_trans (abs_add_le _ _) ?_
    rw [abs_mul, abs_mul]
    have h1 : |D + M * u| ≤ M - 1 := abs_le.2 ⟨by linarith, by linarith⟩
    have h2 : |E + M * v| ≤ M - 1 := abs_le.2 ⟨by linarith, by linarith⟩
    have h3 := mul_le_mul_of_nonneg_left h1 (abs_nonneg a)
    have h4 := mul_le_mul_of_nonneg_left h2 (abs_nonneg b)
    have h5 := mul_le_mul_of_nonneg_right hb (show 0 ≤ M - 1 by linarith)
    linarith
  rw [abs_le] at habs
  have hMq0 : 0 ≤ M * q := mul_nonneg hM0.le hq0
  have hMq1 : M * q ≤ M * (2 ^ 62 - 1) := mul_le_mul_of_nonneg_left (by linarith) hM0.le
  have hr1 : D' < M := by
    have : 2 ^ 62 * D' < 2 ^ 62 * M := by rw [hsum]; linarith
    exact lt_of_mul_lt_mul_left this (by norm_num)
  have hr0 : -2 * M < D' := by
    have : 2 ^ 62 * (-2 * M) < 2 ^ 62 * D' := by rw [hsum]; linarith
    exact lt_of_mul_lt_mul_left this (by norm_num)
  refine ⟨shift (add x y), D', by simp [deHalf, hfac, hx, hy], ?_, hr0, hr1, ⟨md, by rw [← hD']; ring⟩⟩
  refine Cong.shift hL ?_ ?_
  · rw [← hD']; exact hx'.add hy'
  · apply range_of_lt
    rw [← hMp, abs_lt]
    constructor <;> linarith

/-- The result of `Norm`. -/
theorem norm_spec {n : ℕ} {m d : List ℕ} {M D : ℤ} (hM0 : 0 < M) (hMlt : M < 2 ^ (64 * n)) (hm : Cong (chunks n) m M)
    (hd : Cong (chunks n) d D) (hD0 : -2 * M < D) (hD1 : D < M) (neg? : Bool) :
    ∃ R, Cong (chunks n) (norm m d neg?) R ∧ 0 ≤ R ∧ R < M ∧ M ∣ R - (if neg? then -D else D) := by
  have hL := chunks_pos n
  have hMp : (2 : ℤ) ^ (64 * n) * 2 ^ 63 = 2 ^ (64 * n + 63) := (pow_add _ _ _).symm
  have rngD : ∀ {z : ℤ}, -2 * M < z → z < M → InRange (chunks n) z := by
    intro z h0 h1
    apply range_of_lt
    rw [← hMp, abs_lt]
    constructor <;> nlinarith
  have nd := hd.isNegative hL (rngD hD0 hD1)
  obtain ⟨D1, c1, r10, r11, k1, e1⟩ : ∃ D1, Cong (chunks n) (if isNegative d then add d m else d) D1 ∧ -M < D1 ∧ D1 < M ∧
      ∃ k, D1 = D + M * k := by
    rw [nd]
    by_cases h : D < 0
    · simp only [h, decide_true, if_true]
      exact ⟨D + M, hd.add hm, by linarith, by linarith, 1, by ring⟩
    · simp only [h, decide_false]
      exact ⟨D, hd, by linarith, by linarith, 0, by ring⟩
  obtain ⟨D2, c2, r20, r21, k2, e2⟩ : ∃ D2, Cong (chunks n)
      (if neg? then neg (if isNegative d then add d m else d) else (if isNegative d then add d m else d)) D2 ∧ -M < D2 ∧ D2 < M ∧
      ∃ k, D2 = (if neg? then -D else D) + M * k := by
    cases neg?
    · exact ⟨D1, c1, r10, r11, k1, e1⟩
    · exact ⟨-D1, c1.neg, by linarith, by linarith, -k1, by simp [e1]; ring⟩
  have n2 := c2.isNegative hL (rngD (by linarith) r21)
  rw [norm, n2]
  by_cases h : D2 < 0
  · simp only [h, decide_true, if_true]
    exact ⟨D2 + M, c2.add hm, by linarith, by linarith, k2 + 1, by rw [e2]; ring⟩
  · simp only [h, decide_false]
    exact ⟨D2, c2, by linarith, r21, k2, by rw [e2]; ring⟩

/-! ### The loop -/

/-- The loop of `Invert` after `k` iterations. -/
structure LoopInv (n : ℕ) (v : Inverter) (M A X : ℤ) (k : ℕ) (δ : ℤ) (f g d e : List ℕ) (D E : ℤ) : Prop where
  δ_eq : δ = (divstep^[62 * k] ⟨1, M, X⟩).δ
  cf : Cong (chunks n) f (divstep^[62 * k] ⟨1, M, X⟩).f
  cg : Cong (chunks n) g (divstep^[62 * k] ⟨1, M, X⟩).g
  cd : Cong (chunks n) d D
  ce : Cong (chunks n) e E
  D0 : -2 * M < D
  D1 : D < M
  E0 : -2 * M < E
  E1 : E < M
  eD : M ∣ D * X - A * (divstep^[62 * k] ⟨1, M, X⟩).f
  eE : M ∣ E * X - A * (divstep^[62 * k] ⟨1, M, X⟩).g

theorem cancel62 {M z : ℤ} (hM : M % 2 = 1) (h : M ∣ 2 ^ 62 * z) : M ∣ z := by
  have hc : IsCoprime M ((2 : ℤ) ^ 62) := IsCoprime.pow_right ⟨1, -(M / 2), by omega⟩
  exact hc.dvd_of_dvd_mul_left h

theorem loop_spec {n : ℕ} (hn : n < 2 ^ 50) {v : Inverter} (hv : v.size = n) {M A X : ℤ} (hM0 : 0 < M) (hMlt : M < 2 ^ (64 * n))
    (hodd : M % 2 = 1) (hX0 : 0 ≤ X) (hXlt : X < 2 ^ (64 * n)) (hm : Cong (chunks n) v.modulus M)
    (hinv : (2 : ℤ) ^ 62 ∣ v.inverse * M - 1) : ∀ {fuel k : ℕ} {δ : ℤ} {f g d e : List ℕ} {D E : ℤ},
    LoopInv n v M A X k δ f g d e D E → k + fuel = 5 * n + 1 →
    ∃ f' d' F D', v.loop fuel δ f g d e = some (f', d') ∧ Cong (chunks n) f' F ∧ InRange (chunks n) F ∧ Cong (chunks n) d' D' ∧
      -2 * M < D' ∧ D' < M ∧ M ∣ D' * X - A * F ∧ F.natAbs = Int.gcd M X := by
  have hL2 : 2 ≤ chunks n := by have := chunks_bound n; omega
  have hL := chunks_pos n
  have hz : Cong (chunks n) (load64 (chunks n) 0) 0 := load64_spec hL2 (by norm_num) (by norm_num)
  have hbnd : ∀ k, |(divstep^[k] ⟨1, M, X⟩).f| < 2 ^ (64 * n) ∧ |(divstep^[k] ⟨1, M, X⟩).g| < 2 ^ (64 * n) := by
    intro k
    have := divsteps_bound k (s := ⟨1, M, X⟩) (B := 2 ^ (64 * n) - 1) hodd (by dsimp only; rw [abs_of_pos hM0]; linarith)
      (by dsimp only; rw [abs_of_nonneg hX0]; linarith)
    exact ⟨by linarith [this.1], by linarith [this.2]⟩
  have hp63 : (2 : ℤ) ^ (64 * n) ≤ 2 ^ (64 * n + 63) := pow_le_pow_right₀ (by norm_num) (by omega)
  have hrng : ∀ k, InRange (chunks n) (divstep^[k] ⟨1, M, X⟩).f ∧ InRange (chunks n) (divstep^[k] ⟨1, M, X⟩).g := fun k =>
    ⟨range_of_lt (lt_of_lt_of_le (hbnd k).1 hp63), range_of_lt (lt_of_lt_of_le (hbnd k).2 hp63)⟩
  have hrng0 : InRange (chunks n) 0 := range_of_lt (by simp)
  -- the loop ends
  have hend : (divstep^[62 * (5 * n + 1)] ⟨1, M, X⟩).g = 0 := by
    have hW : W M X < 2 ^ (128 * n + 2) := by
      have e : (2 : ℤ) ^ (128 * n + 2) = 4 * (2 ^ (64 * n)) ^ 2 := by
        rw [← pow_mul, pow_add]; ring_nf
      rw [e, W]
      nlinarith [mul_nonneg hM0.le hX0]
    have h := divsteps_end (128 * n + 2) hodd hW
    rw [show 62 * (5 * n + 1) = (54 * n + 58) + 2 * (128 * n + 2) by ring, Function.iterate_add_apply]
    exact divsteps_zero _ h
  intro fuel
  induction fuel with
  | zero =>
    intro k δ f g d e D E h hk
    have hk : k = 5 * n + 1 := by omega
    subst hk
    have hg := (h.cg.eq hL hz (hrng _).2 hrng0).2 hend
    rw [Inverter.loop, hv, if_pos hg]
    refine ⟨f, d, _, D, rfl, h.cf, (hrng _).1, h.cd, h.D0, h.D1, h.eD, ?_⟩
    rw [← divsteps_gcd (62 * (5 * n + 1)) (s := ⟨1, M, X⟩) hodd, hend, Int.gcd_zero_right]
  | succ fuel ih =>
    intro k δ f g d e D E h hk
    rw [Inverter.loop, hv]
    by_cases hg : g = load64 (chunks n) 0
    · have hg0 := (h.cg.eq hL hz (hrng _).2 hrng0).1 hg
      rw [if_pos hg]
      refine ⟨f, d, _, D, rfl, h.cf, (hrng _).1, h.cd, h.D0, h.D1, h.eD, ?_⟩
      rw [← divsteps_gcd (62 * k) (s := ⟨1, M, X⟩) hodd, hg0, Int.gcd_zero_right]
    · rw [if_neg hg]
      have hδ : |δ| ≤ 2 ^ 61 := by
        rw [h.δ_eq]
        refine le_trans (divsteps_delta _ _) ?_
        simp only [abs_one]
        omega
      have hst : (⟨δ, (divstep^[62 * k] ⟨1, M, X⟩).f, (divstep^[62 * k] ⟨1, M, X⟩).g⟩ : St) = divstep^[62 * k] ⟨1, M, X⟩ := by
        rw [h.δ_eq]
      obtain ⟨δ', t, hj, hp⟩ := jump_spec hδ (divsteps_odd (62 * k) (s := ⟨1, M, X⟩) hodd) (h.cf.lowest hL).2 (h.cg.lowest hL).2
      rw [hst] at hp
      have hnext : divstep^[62] (divstep^[62 * k] ⟨1, M, X⟩) = divstep^[62 * (k + 1)] ⟨1, M, X⟩ := by
        rw [← Function.iterate_add_apply, show 62 + 62 * k = 62 * (k + 1) by ring]
      obtain ⟨hp1, hp2, hp3, hp4, hp5⟩ := hp
      rw [hnext] at hp1 hp2 hp3
      obtain ⟨f', g', hfg, cf', cg'⟩ := fg_spec h.cf h.cg hp4 hp5 hp2 hp3 (hbnd _).1 (hbnd _).2
      obtain ⟨d', D', hd, cd', D0', D1', eD'⟩ := deHalf_spec hM0 hMlt hinv hm h.cd h.ce h.D0 h.D1 h.E0 h.E1 hp4
      obtain ⟨e', E', he, ce', E0', E1', eE'⟩ := deHalf_spec hM0 hMlt hinv hm h.cd h.ce h.D0 h.D1 h.E0 h.E1 hp5
      have hde : de v.modulus v.inverse d e t = some (d', e') := by simp [de, hd, he]
      simp only [hj, Option.bind_some, hfg, hde]
      refine ih (k := k + 1) (D := D') (E := E') ⟨hp1, cf', cg', cd', ce', D0', D1', E0', E1', ?_, ?_⟩ (by omega)
      · apply cancel62 hodd
        obtain ⟨k1, hk1⟩ := eD'
        obtain ⟨k2, hk2⟩ := h.eD
        obtain ⟨k3, hk3⟩ := h.eE
        refine ⟨k1 * X + t.a * k2 + t.b * k3, ?_⟩
        linear_combination X * hk1 + t.a * hk2 + t.b * hk3 - A * hp2
      · apply cancel62 hodd
        obtain ⟨k1, hk1⟩ := eE'
        obtain ⟨k2, hk2⟩ := h.eD
        obtain ⟨k3, hk3⟩ := h.eE
        refine ⟨k1 * X + t.c * k2 + t.d * k3, ?_⟩
        linear_combination X * hk1 + t.c * hk2 + t.d * hk3 - A * hp3

/-- The whole inverter. -/
theorem invert_spec {m a x : Limbs 64} (hn : m.length < 2 ^ 50) (ha : a.length = m.length) (hx : x.length = m.length)
    (hodd : limbsVal m % 2 = 1) (ham : limbsVal a < limbsVal m) :
    (Nat.gcd (limbsVal m) (limbsVal x) ≠ 1 → (Inverter.new m a).invert x = some none) ∧
    (Nat.gcd (limbsVal m) (limbsVal x) = 1 → ∃ r, (Inverter.new m a).invert x = some (some r) ∧ r.length = m.length ∧
      limbsVal r < limbsVal m ∧ limbsVal r * limbsVal x % limbsVal m = limbsVal a) := by
  set n := m.length with hnd
  set M : ℤ := ((limbsVal m : ℕ) : ℤ) with hM
  set X : ℤ := ((limbsVal x : ℕ) : ℤ) with hX
  set A : ℤ := ((limbsVal a : ℕ) : ℤ) with hA
  have hL2 : 2 ≤ chunks n := by have := chunks_bound n; omega
  have hL := chunks_pos n
  have hM0 : 0 < M := by rw [hM]; omega
  have hMlt : M < 2 ^ (64 * n) := by rw [hM]; exact_mod_cast limbs_lt m
  have hXlt : X < 2 ^ (64 * n) := by rw [hX, ← hx]; exact_mod_cast limbs_lt x
  have hX0 : 0 ≤ X := Int.natCast_nonneg _
  have hA0 : 0 ≤ A := Int.natCast_nonneg _
  have hAM : A < M := by rw [hA, hM]; exact_mod_cast ham
  have hMo : M % 2 = 1 := by rw [hM]; omega
  have cm : Cong (chunks n) (Inverter.new m a).modulus M := loadBig_spec rfl
  have ca : Cong (chunks n) (Inverter.new m a).adjuster A := loadBig_spec ha
  have cx : Cong (chunks n) (loadBig (chunks n) x false) X := loadBig_spec hx
  have lz : Cong (chunks n) (load64 (chunks n) 0) 0 := load64_spec hL2 (by norm_num) (by norm_num)
  have l1 : Cong (chunks n) (load64 (chunks n) 1) 1 := load64_spec hL2 (by norm_num) (by norm_num)
  have lm : Cong (chunks n) (load64 (chunks n) (-1)) (-1) := load64_spec hL2 (by norm_num) (by norm_num)
  have hp63 : (1 : ℤ) < 2 ^ (64 * n + 63) := by
    have : (2 : ℤ) ^ 63 ≤ 2 ^ (64 * n + 63) := pow_le_pow_right₀ (by norm_num) (by omega)
    linarith
  have r1 : InRange (chunks n) 1 := range_of_lt (by rw [abs_one]; exact hp63)
  have rm : InRange (chunks n) (-1) := range_of_lt (by rw [abs_neg, abs_one]; exact hp63)
  have hinv : (2 : ℤ) ^ 62 ∣ (Inverter.new m a).inverse * M - 1 := by
    match m, hodd, hM with
    | [], hodd, _ => simp [limbsVal] at hodd
    | m0 :: ms, hodd, hM =>
      have h0 : m0.toNat % 2 = 1 := by rw [limbsVal] at hodd; omega
      obtain ⟨k, hk⟩ := invert62_spec h0
      refine ⟨k + invert62 m0 * (4 * limbsVal ms), ?_⟩
      rw [hM, limbsVal]
      simp only [Inverter.new, List.headD_cons]
      push_cast
      linear_combination hk
  have hinit : LoopInv n (Inverter.new m a) M A X 0 1 (Inverter.new m a).modulus (loadBig (chunks n) x false)
      (load64 (chunks n) 0) (Inverter.new m a).adjuster 0 A :=
    ⟨rfl, cm, cx, lz, ca, by linarith, hM0, by linarith, hAM, ⟨-A, by simp; ring⟩, ⟨0, by simp⟩⟩
  obtain ⟨f', d', F, D, hl, cf, rF, cd, D0, D1, eD, hF⟩ := loop_spec (A := A) hn (v := Inverter.new m a) rfl hM0 hMlt hMo hX0 hXlt cm
    hinv hinit (show 0 + (5 * n + 1) = 5 * n + 1 by omega)
  have hg : Int.gcd M X = Nat.gcd (limbsVal m) (limbsVal x) := by rw [hM, hX]; exact Int.gcd_natCast_natCast _ _
  rw [hg] at hF
  have h1 := cf.eq hL l1 rF r1
  have hm1 := cf.eq hL lm rF rm
  have e1 : (f' == load64 (chunks n) 1) = decide (F = 1) := by
    rw [Bool.eq_iff_iff, beq_iff_eq, decide_eq_true_eq]; exact h1
  have em : (f' == load64 (chunks n) (-1)) = decide (F = -1) := by
    rw [Bool.eq_iff_iff, beq_iff_eq, decide_eq_true_eq]; exact hm1
  have hsize : (Inverter.new m a).size = n := rfl
  have heq : (Inverter.new m a).invert x = some (if decide (F = 1) || decide (F = -1) then
      some (saveBig n (norm (Inverter.new m a).modulus d' (decide (F = -1)))) else none) := by
    rw [Inverter.invert, hsize, hl, Option.map_some]
    simp only [e1, em]
  rw [heq]
  constructor
  · intro hne
    have hn1 : F ≠ 1 := by rintro rfl; exact hne (by rw [← hF]; rfl)
    have hn2 : F ≠ -1 := by rintro rfl; exact hne (by rw [← hF]; rfl)
    simp [hn1, hn2]
  · intro h
    rw [h] at hF
    have hF1 : F = 1 ∨ F = -1 := by omega
    obtain ⟨R, cR, R0, R1, eR⟩ := norm_spec hM0 hMlt cm cd D0 D1 (decide (F = -1))
    obtain ⟨s1, s2⟩ := saveBig_spec cR R0 (lt_trans R1 hMlt)
    refine ⟨saveBig n (norm (Inverter.new m a).modulus d' (decide (F = -1))), ?_, s1, ?_, ?_⟩
    · rcases hF1 with rfl | rfl <;> simp
    · have : (limbsVal (saveBig n (norm (Inverter.new m a).modulus d' (decide (F = -1)))) : ℤ) < limbsVal m := by
        rw [s2]; exact R1
      exact_mod_cast this
    · have hdiv : M ∣ R * X - A := by
        obtain ⟨k1, hk1⟩ := eR
        obtain ⟨k2, hk2⟩ := eD
        rcases hF1 with rfl | rfl
        · refine ⟨k1 * X + k2, ?_⟩
          simp at hk1
          linear_combination X * hk1 + hk2
        · refine ⟨k1 * X - k2, ?_⟩
          simp at hk1
          linear_combination X * hk1 - hk2
      have : ((limbsVal (saveBig n (norm (Inverter.new m a).modulus d' (decide (F = -1)))) * limbsVal x % limbsVal m : ℕ) : ℤ)
          = limbsVal a := by
        push_cast
        rw [s2]
        change R * X % M = A
        rw [← Int.emod_eq_of_lt hA0 hAM]
        exact (Int.emod_emod_of_dvd _ (dvd_refl M)).symm.trans ((Int.ModEq.symm ((Int.modEq_iff_dvd).2 hdiv)) ▸ by
          rw [Int.emod_emod_of_dvd _ (dvd_refl M)])
      exact_mod_cast this

end Tachyon.BY
