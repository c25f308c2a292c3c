import Verif.Model.ByInverter
import Verif.Proofs.Divstep
import Verif.Proofs.Bits
import Mathlib.Data.Int.ModEq
import Mathlib.RingTheory.Coprime.Lemmas
import Mathlib.Tactic.Ring
import Mathlib.Tactic.Linarith
import Mathlib.Tactic.LinearCombination
import Mathlib.Tactic.NormNum
import Mathlib.Tactic.Positivity
/-! # `Jump` of `byinverter.h` makes 62 division steps -/
namespace Tachyon.BY

/-- A `uint64_t` agrees with a number on the lowest `s` bits. -/
def Low (s : ℕ) (f : BitVec 64) (F : ℤ) : Prop := (2 : ℤ) ^ s ∣ (f.toNat : ℤ) - F

theorem Low.mono {s s' : ℕ} {f : BitVec 64} {F : ℤ} (h : Low s f F) (hs : s' ≤ s) : Low s' f F :=
  (pow_dvd_pow 2 hs).trans h

theorem mod_dvd {s : ℕ} (hs : s ≤ 64) (x : ℕ) : (2 : ℤ) ^ s ∣ ((x % 2 ^ 64 : ℕ) : ℤ) - x := by
  have h1 : (2 : ℤ) ^ 64 ∣ ((x % 2 ^ 64 : ℕ) : ℤ) - x := by
    rw [Int.natCast_mod]
    push_cast
    omega
  exact (pow_dvd_pow 2 hs).trans h1

theorem Low.neg {s : ℕ} (hs : s ≤ 64) {f : BitVec 64} {F : ℤ} (h : Low s f F) : Low s (-f) (-F) := by
  have h1 := mod_dvd hs (2 ^ 64 - f.toNat)
  have hf := f.isLt
  have hc : ((2 ^ 64 - f.toNat : ℕ) : ℤ) = 2 ^ 64 - f.toNat := by rw [Nat.cast_sub hf.le]; norm_num
  have h2 : (2 : ℤ) ^ s ∣ 2 ^ 64 := pow_dvd_pow 2 hs
  rw [Low, BitVec.toNat_neg]
  rw [hc] at h1
  have h : (2 : ℤ) ^ s ∣ (f.toNat : ℤ) - F := h
  obtain ⟨k, hk⟩ := dvd_add (dvd_sub h1 h) h2
  exact ⟨k, by linear_combination hk⟩

theorem Low.add {s : ℕ} (hs : s ≤ 64) {f g : BitVec 64} {F G : ℤ} (h : Low s f F) (h' : Low s g G) : Low s (f + g) (F + G) := by
  have h1 := mod_dvd hs (f.toNat + g.toNat)
  rw [Low, BitVec.toNat_add]
  obtain ⟨k, hk⟩ := dvd_add h1 (dvd_add h h')
  push_cast at hk ⊢
  exact ⟨k, by linear_combination hk⟩

theorem Low.mul {s : ℕ} (hs : s ≤ 64) {f g : BitVec 64} {F G : ℤ} (h : Low s f F) (h' : Low s g G) : Low s (f * g) (F * G) := by
  have h1 := mod_dvd hs (f.toNat * g.toNat)
  rw [Low, BitVec.toNat_mul]
  obtain ⟨k, hk⟩ := dvd_add h1 (dvd_add (Dvd.dvd.mul_right h (g.toNat : ℤ)) (Dvd.dvd.mul_left h' F))
  push_cast at hk ⊢
  exact ⟨k, by linear_combination hk⟩

theorem Low.self (s : ℕ) (f : BitVec 64) : Low s f f.toNat := by rw [Low, sub_self]; exact dvd_zero _

theorem Low.shift {s z : ℕ} (hz : z ≤ s) {g : BitVec 64} {G : ℤ} (h : Low s g G) (hg : g.toNat % 2 ^ z = 0) :
    ∃ G', G = 2 ^ z * G' ∧ Low (s - z) (g >>> z) G' := by
  obtain ⟨k, hk⟩ := h
  obtain ⟨u, hu⟩ := Nat.dvd_of_mod_eq_zero hg
  have e : (2 : ℤ) ^ s = 2 ^ z * 2 ^ (s - z) := by rw [← pow_add]; congr 1; omega
  have hu' : (g.toNat : ℤ) = 2 ^ z * u := by exact_mod_cast hu
  refine ⟨u - 2 ^ (s - z) * k, by rw [hu', e] at hk; linear_combination -hk, ?_⟩
  have hs : (g >>> z).toNat = u := by
    rw [BitVec.toNat_ushiftRight, Nat.shiftRight_eq_div_pow, hu]
    exact Nat.mul_div_cancel_left _ (by positivity)
  exact ⟨k, by rw [hs]; ring⟩

theorem xor28 (f : BitVec 64) (hf : f.toNat % 2 = 1) : (((3#64 * f) ^^^ 28#64) * f).toNat % 32 = 31 := by
  have key : ∀ x : BitVec 5, x.toNat % 2 = 1 → ((3#5 * x) ^^^ 28#5) * x = 31#5 := by decide
  have h := key (f.setWidth 5) (by rw [BitVec.toNat_setWidth]; omega)
  have e : ((((3#64 * f) ^^^ 28#64) * f).setWidth 5) = ((3#5 * f.setWidth 5) ^^^ 28#5) * f.setWidth 5 := by
    rw [BitVec.setWidth_mul _ _ (by norm_num), BitVec.setWidth_xor, BitVec.setWidth_mul _ _ (by norm_num)]
    rfl
  have e2 := congrArg BitVec.toNat (e.trans h)
  rw [BitVec.toNat_setWidth] at e2
  exact e2

theorem wrap_eq {z : ℤ} (h : |z| ≤ 2 ^ 62) : wrap z = z := by
  rw [abs_le] at h
  rw [wrap, Int.bmod_eq_of_le] <;> norm_num <;> omega

theorem i64_eq {z : ℤ} (h : |z| ≤ 2 ^ 62) : i64 z = some z := by
  rw [abs_le] at h
  rw [i64, if_pos (by constructor <;> omega)]

/-- The state of the loop of `Jump` with `s` steps left, in the middle of a group of `m` of them. -/
structure JumpInv (s0 : St) (s m : ℕ) (f g : BitVec 64) (δ : ℤ) (t : Mat) (F G : ℤ) : Prop where
  le : s ≤ 62
  ms : m ≤ s
  odd : F % 2 = 1
  steps : divstep^[s] ⟨δ, F, G⟩ = divstep^[62] s0
  lf : Low s f F
  lg : Low s g G
  eF : 2 ^ (62 - s) * F = t.a * s0.f + t.b * s0.g
  eG : 2 ^ (62 - s) * G = t.c * s0.f + t.d * s0.g
  ba : |t.a| + |t.b| ≤ 2 ^ (62 - s)
  bc : |t.c| + |t.d| ≤ 2 ^ (62 - s + m)
  md : (2 : ℤ) ^ m ∣ G
  bd : |δ| ≤ |s0.δ| + (62 - s : ℕ)

/-- What `Jump` returns. -/
structure JumpPost (s0 : St) (δ : ℤ) (t : Mat) : Prop where
  δ_eq : δ = (divstep^[62] s0).δ
  eF : 2 ^ 62 * (divstep^[62] s0).f = t.a * s0.f + t.b * s0.g
  eG : 2 ^ 62 * (divstep^[62] s0).g = t.c * s0.f + t.d * s0.g
  ba : |t.a| + |t.b| ≤ 2 ^ 62
  bc : |t.c| + |t.d| ≤ 2 ^ 62

theorem odd_pow_dvd {F x : ℤ} (hF : F % 2 = 1) {m : ℕ} (h : (2 : ℤ) ^ m ∣ x * F) : (2 : ℤ) ^ m ∣ x := by
  have hc : IsCoprime ((2 : ℤ) ^ m) F := by
    apply IsCoprime.pow_left
    exact ⟨-(F / 2), 1, by omega⟩
  exact hc.dvd_of_dvd_mul_right h

theorem small_dvd {x : ℤ} {m : ℕ} (h : (2 : ℤ) ^ m ∣ x) (h0 : -2 ^ m < x) (h1 : x < 2 ^ m) : x = 0 := by
  exact Int.eq_zero_of_abs_lt_dvd h (abs_lt.2 ⟨h0, h1⟩)

/-- The second half of an iteration: after the optional exchange, `w f` is added. -/
theorem jumpAdd_spec {s0 : St} {s : ℕ} {f g : BitVec 64} {δ : ℤ} {t : Mat} {F G : ℤ} (hs0 : 0 < s) (hs : s ≤ 62) (hδ : δ ≤ 0)
    (hodd : F % 2 = 1) (lf : Low s f F) (lg : Low s g G) (bd : |δ| ≤ |s0.δ| + (62 - s : ℕ))
    (eF : 2 ^ (62 - s) * F = t.a * s0.f + t.b * s0.g) (eG : 2 ^ (62 - s) * G = t.c * s0.f + t.d * s0.g)
    (ba : |t.a| + |t.b| ≤ 2 ^ (62 - s)) (bc : |t.c| + |t.d| ≤ 2 ^ (62 - s))
    (hst : ∀ m : ℕ, 1 ≤ m → m ≤ s → δ + m ≤ 1 → ∃ w g' : ℤ, 0 ≤ w ∧ w < 2 ^ m ∧ 2 ^ m * g' = G + w * F ∧
      divstep^[62] s0 = divstep^[s - m] ⟨δ + m, F, g'⟩) :
    ∃ m G', 1 ≤ m ∧ JumpInv s0 s m f (jumpAdd f g δ s t).1 δ (jumpAdd f g δ s t).2 F G' := by
  set m := min (min s (1 - δ).toNat) 5 with hm
  have hm1 : 1 ≤ m := by omega
  have hms : m ≤ s := by omega
  have hm5 : m ≤ 5 := by omega
  have hmd : δ + m ≤ 1 := by omega
  obtain ⟨w, g', hw0, hw1, hg', hstep⟩ := hst m hm1 hms hmd
  set W := (g * ((3#64 * f) ^^^ 28#64)) &&& BitVec.ofNat 64 (2 ^ m - 1) with hW
  have hfodd : f.toNat % 2 = 1 := by
    have h2 : (2 : ℤ) ∣ (f.toNat : ℤ) - F := by
      have : (2 : ℤ) ^ 1 ∣ (f.toNat : ℤ) - F := (pow_dvd_pow 2 (by omega)).trans lf
      simpa using this
    omega
  have hmp : 2 ^ m ≤ 2 ^ 5 := Nat.pow_le_pow_right (by norm_num) hm5
  have hWn : W.toNat = (g * ((3#64 * f) ^^^ 28#64)).toNat % 2 ^ m := by
    have hp : 0 < 2 ^ m := by positivity
    rw [hW, BitVec.toNat_and, BitVec.toNat_ofNat, Nat.mod_eq_of_lt (by omega), Nat.and_two_pow_sub_one_eq_mod]
  have hWlt : (W.toNat : ℤ) < 2 ^ m := by
    rw [hWn]; exact_mod_cast Nat.mod_lt _ (by positivity)
  -- `g + W f` is divisible by `2 ^ m`
  have hdiv : (2 : ℤ) ^ m ∣ G + W.toNat * F := by
    have l1 : Low m (g * ((3#64 * f) ^^^ 28#64) * f) (W.toNat * F) := by
      refine Low.mul (by omega) ?_ (lf.mono hms)
      rw [Low, hWn, Int.natCast_mod]
      push_cast
      exact Int.dvd_self_sub_emod
    have l2 : Low m (g * ((3#64 * f) ^^^ 28#64) * f) (-G) := by
      rw [BitVec.mul_assoc]
      have : Low m (((3#64 * f) ^^^ 28#64) * f) (-1) := by
        have h32 := xor28 f hfodd
        have : (2 : ℤ) ^ 5 ∣ ((((3#64 * f) ^^^ 28#64) * f).toNat : ℤ) - (-1) := by
          generalize (((3#64 * f) ^^^ 28#64) * f).toNat = y at h32
          omega
        exact (pow_dvd_pow 2 hm5).trans this
      have h := Low.mul (by omega) (lg.mono hms) this
      rwa [mul_neg_one] at h
    obtain ⟨k, hk⟩ := dvd_sub l2 l1
    exact ⟨k, by linear_combination hk⟩
  have hWw : (W.toNat : ℤ) = w := by
    have h1 : (2 : ℤ) ^ m ∣ (W.toNat - w) * F := by
      obtain ⟨k, hk⟩ := hdiv
      exact ⟨k - g', by linear_combination hk + hg'⟩
    have h2 := small_dvd (odd_pow_dvd hodd h1) (by have := W.toNat; have : (0 : ℤ) ≤ W.toNat := Int.natCast_nonneg _; linarith)
      (by linarith)
    linarith
  have hj1 : (jumpAdd f g δ s t).1 = g + W * f := rfl
  have hj2 : (jumpAdd f g δ s t).2 = { t with c := wrap (t.a * W.toNat + t.c), d := wrap (t.b * W.toNat + t.d) } := rfl
  -- bounds
  have hpow : (2 : ℤ) ^ (62 - s + m) = 2 ^ (62 - s) * 2 ^ m := pow_add _ _ _
  have hpow62 : (2 : ℤ) ^ (62 - s + m) ≤ 2 ^ 62 := pow_le_pow_right₀ (by norm_num) (by omega)
  have hb : |t.a * W.toNat + t.c| + |t.b * W.toNat + t.d| ≤ 2 ^ (62 - s + m) := by
    have hW0 : (0 : ℤ) ≤ W.toNat := Int.natCast_nonneg _
    have h1 : |t.a * W.toNat + t.c| ≤ |t.a| * W.toNat + |t.c| := by
      refine le_trans (abs_add_le _ _) ?_
      rw [abs_mul, abs_of_nonneg hW0]
    have h2 : |t.b * W.toNat + t.d| ≤ |t.b| * W.toNat + |t.d| := by
      refine le_trans (abs_add_le _ _) ?_
      rw [abs_mul, abs_of_nonneg hW0]
    have h3 : (|t.a| + |t.b|) * W.toNat ≤ 2 ^ (62 - s) * (2 ^ m - 1) := by
      apply mul_le_mul ba (by linarith) hW0 (by positivity)
    rw [hpow]
    linarith
  have hc0 : |t.a * W.toNat + t.c| ≤ 2 ^ 62 := by have := abs_nonneg (t.b * W.toNat + t.d); linarith
  have hd0 : |t.b * W.toNat + t.d| ≤ 2 ^ 62 := by have := abs_nonneg (t.a * W.toNat + t.c); linarith
  refine ⟨m, 2 ^ m * g', hm1, ?_⟩
  rw [hj1, hj2, wrap_eq hc0, wrap_eq hd0]
  refine ⟨hs, hms, hodd, ?_, lf, ?_, eF, ?_, ba, hb, dvd_mul_right _ _, bd⟩
  · rw [hstep]
    conv_lhs => rw [show s = (s - m) + m by omega]
    rw [Function.iterate_add_apply, divsteps_even]
  · rw [hg', ← hWw]
    exact lg.add (by omega) ((Low.self s W).mul (by omega) lf)
  · rw [hg', ← hWw]
    dsimp only
    linear_combination eG + W.toNat * eF

theorem jumpLoop_spec {s0 : St} (hδ0 : |s0.δ| ≤ 2 ^ 61) : ∀ {fuel s m : ℕ} {f g : BitVec 64} {δ : ℤ} {t : Mat} {F G : ℤ},
    JumpInv s0 s m f g δ t F G → (if m = 0 then s + 1 else s) ≤ fuel → 0 < fuel →
    ∃ δ' t', jumpLoop fuel f g δ s t = some (δ', t') ∧ JumpPost s0 δ' t'
  | 0, _, _, _, _, _, _, _, _, _, _, h0 => absurd h0 (by omega)
  | fuel + 1, s, m, f, g, δ, t, F, G, h, hf, _ => by
    obtain ⟨hle, hms, hodd, hsteps, hlf, hlg, heF, heG, hba, hbc, hmd, hbd⟩ := h
    set z := min (Bits.countTrailingZeroBits g) s with hz
    have hzs : z ≤ s := min_le_right _ _
    -- the lowest bits of `g`
    have hgz : g.toNat % 2 ^ z = 0 := by
      by_cases h0 : g = 0#64
      · rw [h0]; simp
      · have := (Bits.countTrailingZeroBits_spec h0).1
        have hd := Nat.dvd_of_mod_eq_zero this
        exact Nat.mod_eq_zero_of_dvd ((Nat.pow_dvd_pow 2 (min_le_left _ _)).trans hd)
    have hmz : m ≤ z := by
      apply le_min _ hms
      by_cases h0 : g = 0#64
      · have : Bits.countTrailingZeroBits g = 64 := by rw [h0]; simp [Bits.countTrailingZeroBits]
        omega
      · have hbit := (Bits.countTrailingZeroBits_spec h0).2
        by_contra hlt
        have hlt : Bits.countTrailingZeroBits g < m := by omega
        have hd : (2 : ℤ) ^ m ∣ g.toNat := by
          have := dvd_add ((pow_dvd_pow (2 : ℤ) hms).trans hlg) hmd
          rwa [sub_add_cancel] at this
        have hd : 2 ^ m ∣ g.toNat := by exact_mod_cast hd
        obtain ⟨k, hk⟩ := hd
        rw [hk, Nat.testBit_two_pow_mul] at hbit
        simp at hbit
        omega
    obtain ⟨G', hG', hlg'⟩ := hlg.shift hzs hgz
    -- the matrix
    have hS : 62 - (s - z) = 62 - s + z := by omega
    have hpow : (2 : ℤ) ^ (62 - s + z) = 2 ^ (62 - s) * 2 ^ z := pow_add _ _ _
    have hpow62 : (2 : ℤ) ^ (62 - s + z) ≤ 2 ^ 62 := pow_le_pow_right₀ (by norm_num) (by omega)
    have hz0 : (0 : ℤ) < 2 ^ z := by positivity
    have hba' : |t.a * 2 ^ z| + |t.b * 2 ^ z| ≤ 2 ^ (62 - s + z) := by
      rw [abs_mul, abs_mul, abs_of_pos hz0, hpow, ← add_mul]
      exact mul_le_mul_of_nonneg_right hba hz0.le
    have ha : |t.a * 2 ^ z| ≤ 2 ^ 62 := by have := abs_nonneg (t.b * 2 ^ z); linarith
    have hb : |t.b * 2 ^ z| ≤ 2 ^ 62 := by have := abs_nonneg (t.a * 2 ^ z); linarith
    have hbd' : |δ + z| ≤ |s0.δ| + (62 - (s - z) : ℕ) := by
      refine le_trans (abs_add_le _ _) ?_
      rw [abs_of_nonneg (Int.natCast_nonneg z)]
      omega
    have hδ62 : |δ + z| ≤ 2 ^ 62 := by omega
    have hbc' : |t.c| + |t.d| ≤ 2 ^ (62 - s + z) :=
      le_trans hbc (pow_le_pow_right₀ (by norm_num) (by omega))
    have hst : divstep^[s] ⟨δ, F, G⟩ = divstep^[s - z] ⟨δ + z, F, G'⟩ := by
      conv_lhs => rw [show s = (s - z) + z by omega]
      rw [Function.iterate_add_apply, hG', divsteps_even]
    have heF' : 2 ^ (62 - (s - z)) * F = t.a * 2 ^ z * s0.f + t.b * 2 ^ z * s0.g := by
      rw [hS, hpow]; linear_combination 2 ^ z * heF
    have heG' : 2 ^ (62 - (s - z)) * G' = t.c * s0.f + t.d * s0.g := by
      rw [hS, hpow]; rw [hG'] at heG; linear_combination heG
    rw [jumpLoop]
    simp only [← hz]
    rw [i64_eq hδ62, Option.bind_some, i64_eq ha, Option.bind_some, i64_eq hb, Option.bind_some]
    by_cases hs0 : s - z = 0
    · rw [if_pos hs0]
      rw [hs0] at hst heF' heG'
      rw [hst] at hsteps
      have hr : (divstep^[62] s0) = ⟨δ + z, F, G'⟩ := hsteps.symm
      have h62 : 62 - s + z = 62 := by omega
      rw [h62] at hba' hbc'
      exact ⟨_, _, rfl, ⟨by rw [hr], by rw [hr]; exact heF', by rw [hr]; exact heG', hba', hbc'⟩⟩
    · rw [if_neg hs0]
      have hctz : z = Bits.countTrailingZeroBits g := by omega
      have hg0 : g ≠ 0#64 := by
        intro h0
        have : Bits.countTrailingZeroBits g = 64 := by rw [h0]; simp [Bits.countTrailingZeroBits]
        omega
      have hgodd : (g >>> z).toNat % 2 = 1 := by
        have hbit := (Bits.countTrailingZeroBits_spec hg0).2
        rw [← hctz] at hbit
        rw [BitVec.toNat_ushiftRight]
        have : (g.toNat >>> z).testBit 0 = true := by rw [Nat.testBit_shiftRight]; exact hbit
        rw [Nat.testBit_zero] at this
        exact of_decide_eq_true this
      have hGodd : G' % 2 = 1 := by
        have h2 : (2 : ℤ) ^ 1 ∣ ((g >>> z).toNat : ℤ) - G' := (pow_dvd_pow 2 (by omega)).trans hlg'
        rw [pow_one] at h2
        omega
      have hlf' := hlf.mono (show s - z ≤ s by omega)
      have hfuel : s - z ≤ fuel := by
        split at hf <;> omega
      have hfuel0 : 0 < fuel := by omega
      rw [← hS] at hba' hbc'
      by_cases hpos : 0 < δ + z
      · rw [if_pos hpos]
        have hna : |-(t.a * 2 ^ z)| ≤ 2 ^ 62 := by rwa [abs_neg]
        have hnb : |-(t.b * 2 ^ z)| ≤ 2 ^ 62 := by rwa [abs_neg]
        rw [i64_eq hna, Option.bind_some, i64_eq hnb, Option.bind_some]
        obtain ⟨m', G'', hm', hinv⟩ := jumpAdd_spec (s0 := s0) (s := s - z) (f := g >>> z) (g := -f) (δ := -(δ + z))
          (t := ⟨t.c, t.d, -(t.a * 2 ^ z), -(t.b * 2 ^ z)⟩) (F := G') (G := -F) (by omega) (by omega) (by omega) hGodd hlg'
          (hlf'.neg (by omega)) (by rwa [abs_neg]) heG' (by dsimp only; linear_combination -heF') hbc'
          (by dsimp only; rwa [abs_neg, abs_neg])
          (fun m h1 h2 h3 => by
            obtain ⟨w, g', i1, i2, i3, i4⟩ := divsteps_swap m h1 hodd hGodd hpos h3
            refine ⟨w, g', i1, i2, i3, ?_⟩
            rw [← hsteps, hst]
            conv_lhs => rw [show s - z = (s - z - m) + m by omega]
            rw [Function.iterate_add_apply, i4])
        exact jumpLoop_spec hδ0 hinv (by rw [if_neg (by omega)]; exact hfuel) hfuel0
      · rw [if_neg hpos]
        obtain ⟨m', G'', hm', hinv⟩ := jumpAdd_spec (s0 := s0) (s := s - z) (f := f) (g := g >>> z) (δ := δ + z)
          (t := { t with a := t.a * 2 ^ z, b := t.b * 2 ^ z }) (F := F) (G := G') (by omega) (by omega) (by omega) hodd hlf'
          hlg' hbd' heF' heG' hba' hbc'
          (fun m h1 h2 h3 => by
            obtain ⟨w, g', i1, i2, i3, i4⟩ := divsteps_add m (g := G') hodd h3
            refine ⟨w, g', i1, i2, i3, ?_⟩
            rw [← hsteps, hst]
            conv_lhs => rw [show s - z = (s - z - m) + m by omega]
            rw [Function.iterate_add_apply, i4])
        exact jumpLoop_spec hδ0 hinv (by rw [if_neg (by omega)]; exact hfuel) hfuel0

theorem jump_spec {f g : ℕ} {F G δ : ℤ} (hδ : |δ| ≤ 2 ^ 61) (hF : F % 2 = 1) (hf : (2 : ℤ) ^ 62 ∣ (f : ℤ) - F)
    (hg : (2 : ℤ) ^ 62 ∣ (g : ℤ) - G) : ∃ δ' t', jump f g δ = some (δ', t') ∧ JumpPost ⟨δ, F, G⟩ δ' t' := by
  have low : ∀ {x : ℕ} {X : ℤ}, (2 : ℤ) ^ 62 ∣ (x : ℤ) - X → Low 62 (BitVec.ofNat 64 x) X := by
    intro x X h
    rw [Low, BitVec.toNat_ofNat]
    have := dvd_add (mod_dvd (by norm_num : 62 ≤ 64) x) h
    rwa [sub_add_sub_cancel] at this
  rw [jump]
  refine jumpLoop_spec (s0 := ⟨δ, F, G⟩) (m := 0) (F := F) (G := G) hδ ?_ (by simp) (by norm_num)
  exact ⟨le_refl _, by norm_num, hF, rfl, low hf, low hg, by simp, by simp, by simp, by simp, by simp, by simp⟩

end Tachyon.BY
