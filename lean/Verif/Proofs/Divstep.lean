import Mathlib.Algebra.Order.Ring.Int
import Mathlib.Data.Int.GCD
import Mathlib.Data.Int.ModEq
import Mathlib.Logic.Function.Iterate
import Mathlib.RingTheory.Multiplicity
import Mathlib.Tactic.Linarith
import Mathlib.Tactic.Ring
import Mathlib.Tactic.LinearCombination
import Mathlib.Tactic.Positivity
/-!
# Division steps of Bernstein and Yang

A bound on the number of steps: the form `(f - g)² + 3 g²` is at least halved by two steps, taken in groups
that start and end with `δ = 1`.
-/
namespace Tachyon.BY

/-- The state of the division steps. -/
structure St where
  δ : ℤ
  f : ℤ
  g : ℤ

/-- A division step. -/
def divstep (s : St) : St :=
  if 0 < s.δ ∧ s.g % 2 = 1 then ⟨1 - s.δ, s.g, (s.g - s.f) / 2⟩
  else ⟨1 + s.δ, s.f, (s.g + s.g % 2 * s.f) / 2⟩

theorem divstep_even {δ f g : ℤ} : divstep ⟨δ, f, 2 * g⟩ = ⟨δ + 1, f, g⟩ := by
  rw [divstep, if_neg (by dsimp only; omega)]
  simp only [Int.mul_emod_right, zero_mul, add_zero, St.mk.injEq, true_and]
  exact ⟨by ring, by omega⟩

theorem divsteps_even (z : ℕ) : ∀ {δ f g : ℤ}, divstep^[z] ⟨δ, f, 2 ^ z * g⟩ = ⟨δ + z, f, g⟩ := by
  induction z with
  | zero => simp
  | succ z ih =>
    intro δ f g
    rw [Function.iterate_succ_apply, pow_succ', mul_assoc, divstep_even, ih]
    simp only [St.mk.injEq, and_true]
    push_cast
    ring

/-- Steps without an exchange. -/
theorem divsteps_add (z : ℕ) : ∀ {δ f g : ℤ}, f % 2 = 1 → δ + z ≤ 1 →
    ∃ w g' : ℤ, 0 ≤ w ∧ w < 2 ^ z ∧ 2 ^ z * g' = g + w * f ∧ divstep^[z] ⟨δ, f, g⟩ = ⟨δ + z, f, g'⟩ := by
  induction z with
  | zero => intro δ f g _ _; exact ⟨0, g, le_rfl, by simp, by simp, by simp⟩
  | succ z ih =>
    intro δ f g hf hd
    push_cast at hd
    rw [Function.iterate_succ_apply, divstep, if_neg (by dsimp only; omega)]
    obtain ⟨w, g', h1, h2, h3, h4⟩ := ih (δ := 1 + δ) (f := f) (g := (g + g % 2 * f) / 2) hf (by omega)
    refine ⟨g % 2 + 2 * w, g', by omega, by rw [pow_succ]; omega, ?_, ?_⟩
    · have : 2 * ((g + g % 2 * f) / 2) = g + g % 2 * f := by
        rcases Int.emod_two_eq_zero_or_one g with e | e <;> rw [e] <;> omega
      rw [pow_succ]
      linear_combination 2 * h3 + this
    · rw [h4]
      simp only [St.mk.injEq, and_true]
      push_cast
      ring

/-- An exchange and the steps after it. -/
theorem divsteps_swap (z : ℕ) {δ f g : ℤ} (hz : 1 ≤ z) (hf : f % 2 = 1) (hg : g % 2 = 1) (hd : 0 < δ) (hz' : -δ + z ≤ 1) :
    ∃ w g' : ℤ, 0 ≤ w ∧ w < 2 ^ z ∧ 2 ^ z * g' = -f + w * g ∧ divstep^[z] ⟨δ, f, g⟩ = ⟨-δ + z, g, g'⟩ := by
  obtain ⟨z, rfl⟩ := Nat.exists_eq_add_of_le' hz
  push_cast at hz'
  rw [Function.iterate_succ_apply, divstep, if_pos ⟨hd, hg⟩]
  obtain ⟨w, g', h1, h2, h3, h4⟩ := divsteps_add z (δ := 1 - δ) (f := g) (g := (g - f) / 2) hg (by omega)
  refine ⟨1 + 2 * w, g', by omega, by rw [pow_succ]; omega, ?_, ?_⟩
  · have : 2 * ((g - f) / 2) = g - f := by omega
    rw [pow_succ]
    linear_combination 2 * h3 + this
  · rw [h4]
    simp only [St.mk.injEq, and_true]
    push_cast
    ring

/-! ### What the steps keep -/

theorem divstep_odd {s : St} (h : s.f % 2 = 1) : (divstep s).f % 2 = 1 := by
  rw [divstep]
  split
  · next h' => exact h'.2
  · exact h

theorem divsteps_odd (n : ℕ) {s : St} (h : s.f % 2 = 1) : (divstep^[n] s).f % 2 = 1 := by
  induction n with
  | zero => exact h
  | succ n ih => rw [Function.iterate_succ_apply']; exact divstep_odd ih

theorem divstep_bound {s : St} {B : ℤ} (h : s.f % 2 = 1) (hf : |s.f| ≤ B) (hg : |s.g| ≤ B) :
    |(divstep s).f| ≤ B ∧ |(divstep s).g| ≤ B := by
  rw [divstep]
  rw [abs_le] at hf hg
  split
  · next h' =>
    have := h'.2
    dsimp only
    refine ⟨abs_le.2 hg, abs_le.2 ⟨by omega, by omega⟩⟩
  · dsimp only
    refine ⟨abs_le.2 hf, abs_le.2 ?_⟩
    rcases Int.emod_two_eq_zero_or_one s.g with e | e <;> rw [e] <;> exact ⟨by omega, by omega⟩

theorem divsteps_bound (n : ℕ) {s : St} {B : ℤ} (h : s.f % 2 = 1) (hf : |s.f| ≤ B) (hg : |s.g| ≤ B) :
    |(divstep^[n] s).f| ≤ B ∧ |(divstep^[n] s).g| ≤ B := by
  induction n with
  | zero => exact ⟨hf, hg⟩
  | succ n ih => rw [Function.iterate_succ_apply']; exact divstep_bound (divsteps_odd n h) ih.1 ih.2

theorem divstep_delta (s : St) : |(divstep s).δ| ≤ |s.δ| + 1 := by
  rw [divstep]
  split <;> dsimp only <;> rw [abs_le] <;> constructor <;> cases abs_cases s.δ <;> omega

theorem divsteps_delta (n : ℕ) (s : St) : |(divstep^[n] s).δ| ≤ |s.δ| + n := by
  induction n with
  | zero => simp
  | succ n ih =>
    rw [Function.iterate_succ_apply']
    have := divstep_delta (divstep^[n] s)
    push_cast
    omega

theorem gcd_half {f y : ℤ} (hf : f % 2 = 1) : Int.gcd f (2 * y) = Int.gcd f y := by
  refine Int.gcd_mul_right_right_of_gcd_eq_one ?_
  rw [Int.gcd_comm]
  have := Int.gcd_emod f 2
  rw [Int.gcd_comm, ← this, hf]
  rfl

theorem divstep_gcd {s : St} (h : s.f % 2 = 1) : Int.gcd (divstep s).f (divstep s).g = Int.gcd s.f s.g := by
  rw [divstep]
  split
  · next h' =>
    have hg := h'.2
    dsimp only
    rw [← gcd_half hg, show 2 * ((s.g - s.f) / 2) = -s.f + s.g by omega, Int.gcd_add_self_right, Int.gcd_neg, Int.gcd_comm]
  · dsimp only
    rw [← gcd_half h]
    rcases Int.emod_two_eq_zero_or_one s.g with e | e <;> rw [e]
    · rw [show 2 * ((s.g + 0 * s.f) / 2) = s.g by omega]
    · rw [show 2 * ((s.g + 1 * s.f) / 2) = s.g + s.f by omega, Int.gcd_add_self_right]

theorem divsteps_gcd (n : ℕ) {s : St} (h : s.f % 2 = 1) :
    Int.gcd (divstep^[n] s).f (divstep^[n] s).g = Int.gcd s.f s.g := by
  induction n with
  | zero => rfl
  | succ n ih => rw [Function.iterate_succ_apply', divstep_gcd (divsteps_odd n h), ih]

theorem divsteps_zero (n : ℕ) {s : St} (h : s.g = 0) : (divstep^[n] s).g = 0 := by
  induction n with
  | zero => exact h
  | succ n ih =>
    rw [Function.iterate_succ_apply', divstep, ih]
    simp

/-! ### Termination -/

/-- The form that shrinks. -/
def W (f g : ℤ) : ℤ := (f - g) ^ 2 + 3 * g ^ 2

theorem W_pos {f g : ℤ} (hf : f % 2 = 1) : 1 ≤ W f g := by
  rw [W]
  by_contra h
  have h1 := sq_nonneg (f - g)
  have h2 := sq_nonneg g
  have h3 : g ^ 2 = 0 := by omega
  have h4 : (f - g) ^ 2 = 0 := by omega
  rw [pow_eq_zero_iff (by norm_num)] at h3 h4
  omega

/-- The inequality for a group: `g = B h`, `4 B g' = q h - f`. -/
theorem W_group {f h g' q B : ℤ} (hB : B = 1 ∨ 2 ≤ B) (hq : 0 < q) (hq' : q < 4 * B) (hodd : q % 2 = 1)
    (hg : 4 * B * g' = q * h - f) : 2 * B * W h g' ≤ W f (B * h) := by
  have hB0 : 0 < B := by omega
  have key : 16 * B ^ 2 * (2 * B * W h g') ≤ 16 * B ^ 2 * W f (B * h) := by
    have e1 : 16 * B ^ 2 * W h g' = 4 * (f - (q - B) * h) ^ 2 + 12 * B ^ 2 * h ^ 2 := by
      rw [W, show f = q * h - 4 * B * g' by linear_combination hg]
      ring
    have e2 : 16 * B ^ 2 * (2 * B * W h g') = 2 * B * (16 * B ^ 2 * W h g') := by ring
    rw [e2, e1, W]
    set u := f - B * h with hu
    have e3 : f - (q - B) * h = u + (2 * B - q) * h := by rw [hu]; ring
    rw [e3]
    have hs : (2 * B - q) ^ 2 * h ^ 2 ≤ (2 * B - 1) ^ 2 * h ^ 2 := by
      refine mul_le_mul_of_nonneg_right ?_ (sq_nonneg h)
      refine sq_le_sq' (by omega) (by omega)
    rcases hB with rfl | hB
    · nlinarith [sq_nonneg (u - (2 * 1 - q) * h), sq_nonneg h]
    · have h5 : (2 * B - 1) ^ 2 * h ^ 2 ≤ 4 * B ^ 2 * h ^ 2 := by
        refine mul_le_mul_of_nonneg_right ?_ (sq_nonneg h)
        nlinarith
      have h6 : (u + (2 * B - q) * h) ^ 2 * 2 ≤ 6 * u ^ 2 + 3 * (4 * B ^ 2 * h ^ 2) := by
        nlinarith [sq_nonneg (2 * u - (2 * B - q) * h)]
      have h7 : 0 ≤ u ^ 2 * (B - 2) := mul_nonneg (sq_nonneg u) (by omega)
      have h8 : 0 ≤ B ^ 2 * h ^ 2 * (B - 2) := by
        have := mul_nonneg (mul_nonneg (sq_nonneg B) (sq_nonneg h)) (show 0 ≤ B - 2 by omega)
        linarith
      have h9 : 4 * (u + (2 * B - q) * h) ^ 2 + 12 * B ^ 2 * h ^ 2 ≤ 8 * B * (u ^ 2 + 3 * (B * h) ^ 2) := by
        nlinarith
      nlinarith [mul_le_mul_of_nonneg_left h9 (show 0 ≤ 2 * B by omega)]
  exact le_of_mul_le_mul_left key (by positivity)

/-- A group of steps: from `δ = 1` to `δ = 1`. -/
theorem group {f g : ℤ} (hf : f % 2 = 1) (hg : g ≠ 0) :
    ∃ (e : ℕ) (f' g' : ℤ), divstep^[2 * (e + 1)] ⟨1, f, g⟩ = ⟨1, f', g'⟩ ∧ f' % 2 = 1 ∧ 2 ^ (e + 1) * W f' g' ≤ W f g := by
  obtain ⟨e, h, ho, rfl⟩ : ∃ (e : ℕ) (h : ℤ), h % 2 = 1 ∧ g = 2 ^ e * h := by
    have hfin : FiniteMultiplicity (2 : ℤ) g := Int.finiteMultiplicity_iff.2 ⟨by norm_num, hg⟩
    obtain ⟨h, h1, h2⟩ := hfin.exists_eq_pow_mul_and_not_dvd
    exact ⟨_, h, by omega, h1⟩
  obtain ⟨w, g', h1, h2, h3, h4⟩ := divsteps_swap (e + 2) (δ := 1 + e) (f := f) (g := h) (by omega) hf ho (by omega)
    (by push_cast; omega)
  refine ⟨e, h, g', ?_, ho, ?_⟩
  · rw [show 2 * (e + 1) = (e + 2) + e by ring, Function.iterate_add_apply, divsteps_even, h4]
    simp only [St.mk.injEq, and_true]
    push_cast
    ring
  · have hw : w % 2 = 1 := by
      have : (2 : ℤ) ^ (e + 2) = 2 * 2 ^ (e + 1) := by ring
      rw [this, mul_assoc] at h3
      rcases Int.emod_two_eq_zero_or_one w with e' | e'
      · exfalso
        obtain ⟨k, hk⟩ : ∃ k, w = 2 * k := ⟨w / 2, by omega⟩
        rw [hk, mul_assoc] at h3
        omega
      · exact e'
    have := W_group (f := f) (h := h) (g' := g') (q := w) (B := 2 ^ e) ?_ (by omega) ?_ hw ?_
    · rwa [← pow_succ'] at this
    · rcases e with _ | e
      · exact .inl (by norm_num)
      · right
        rw [pow_succ]
        have : (1 : ℤ) ≤ 2 ^ e := one_le_pow₀ (by norm_num)
        omega
    · rw [show (4 : ℤ) * 2 ^ e = 2 ^ (e + 2) by ring]; exact h2
    · rw [show (4 : ℤ) * 2 ^ e = 2 ^ (e + 2) by ring, h3]; ring

theorem divsteps_end (n : ℕ) : ∀ {f g : ℤ}, f % 2 = 1 → W f g < 2 ^ n → (divstep^[2 * n] ⟨1, f, g⟩).g = 0 := by
  induction n using Nat.strong_induction_on with
  | _ n ih =>
    intro f g hf hw
    by_cases hg : g = 0
    · exact divsteps_zero _ hg
    obtain ⟨e, f', g', h1, h2, h3⟩ := group hf hg
    have hp := W_pos (g := g') h2
    have hlt : e + 1 < n := by
      by_contra hn
      have : (2 : ℤ) ^ n ≤ 2 ^ (e + 1) := pow_le_pow_right₀ (by norm_num) (by omega)
      have h5 : (2 : ℤ) ^ (e + 1) * 1 ≤ 2 ^ (e + 1) * W f' g' := mul_le_mul_of_nonneg_left hp (by positivity)
      omega
    rw [show 2 * n = 2 * (n - (e + 1)) + 2 * (e + 1) by omega, Function.iterate_add_apply, h1]
    refine ih (n - (e + 1)) (by omega) h2 ?_
    have : (2 : ℤ) ^ n = 2 ^ (e + 1) * 2 ^ (n - (e + 1)) := by rw [← pow_add]; congr 1; omega
    rw [this] at hw
    exact lt_of_mul_lt_mul_left (lt_of_le_of_lt h3 hw) (by positivity)

end Tachyon.BY
