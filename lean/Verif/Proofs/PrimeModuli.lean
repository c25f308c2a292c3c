import Mathlib.NumberTheory.LucasPrimality
import Mathlib.NumberTheory.LegendreSymbol.Basic
import Mathlib.Tactic.NormNum.Prime
/-! # Primality of the 32-bit moduli, by Lucas' test with a computed modular power -/
namespace Tachyon

/-- `a ^ e % m` by squaring, for computing in the kernel. -/
def powMod (m : Nat) : Nat → Nat → Nat → Nat
  | 0, _, _ => 1 % m
  | fuel + 1, a, e =>
    if e = 0 then 1 % m
    else
      let h := powMod m fuel (a * a % m) (e / 2)
      if e % 2 = 1 then h * a % m else h

theorem powMod_eq (m : Nat) : ∀ (fuel a e : Nat), e < 2 ^ fuel → powMod m fuel a e = a ^ e % m := by
  intro fuel
  induction fuel with
  | zero => intro a e h; have : e = 0 := by simpa using h
            subst this; simp [powMod]
  | succ n ih =>
    intro a e h
    rw [powMod]
    split
    · rename_i h0; subst h0; simp
    · have e2 := ih (a * a % m) (e / 2) (by rw [pow_succ] at h; omega)
      rw [← Nat.pow_mod, ← sq, ← pow_mul] at e2
      dsimp only
      rw [← sq, e2]
      split
      · rename_i h1
        rw [Nat.mod_mul_mod, ← pow_succ]
        congr 2; omega
      · congr 2; omega

theorem prime_of_certificate (p a : Nat) (fuel : Nat) (qs : List Nat) (hp : p - 1 < 2 ^ fuel)
    (h2 : 2 ≤ p)
    (h1 : powMod p fuel a (p - 1) = 1)
    (hq : ∀ q ∈ qs, powMod p fuel a ((p - 1) / q) ≠ 1)
    (hfac : ∀ q, q.Prime → q ∣ p - 1 → q ∈ qs) : p.Prime := by
  have cast : ∀ e, e < 2 ^ fuel → ((a : ZMod p) ^ e = 1 ↔ powMod p fuel a e = 1) := by
    intro e he
    rw [powMod_eq p fuel a e he]
    have := ZMod.natCast_eq_natCast_iff' (a ^ e) 1 p
    rw [Nat.mod_eq_of_lt (by omega : 1 < p)] at this
    push_cast at this
    exact this
  refine lucas_primality p (a : ZMod p) ((cast _ hp).2 h1) fun q hq1 hd => ?_
  rw [Ne, cast _ ((Nat.div_le_self _ _).trans_lt hp)]
  exact hq q (hfac q hq1 hd)

theorem not_isSquare_of_powMod (p a fuel : Nat) [Fact p.Prime] (hf : p / 2 < 2 ^ fuel)
    (ha : a % p ≠ 0) (h : powMod p fuel a (p / 2) ≠ 1) : ¬ IsSquare ((a : ℕ) : ZMod p) := by
  have hp := (Fact.out : p.Prime)
  rw [ZMod.euler_criterion p (by
    rw [Ne, ZMod.natCast_eq_zero_iff]; exact fun hd => ha (Nat.mod_eq_zero_of_dvd hd))]
  intro h1
  apply h
  rw [powMod_eq p fuel a _ hf]
  have := (ZMod.natCast_eq_natCast_iff' (a ^ (p / 2)) 1 p).1 (by push_cast; exact h1)
  rwa [Nat.mod_eq_of_lt hp.one_lt] at this

theorem prime_babyBear : Nat.Prime 2013265921 := by
  refine prime_of_certificate _ 31 31 [2, 3, 5] (by decide) (by decide) (by decide +kernel)
    (by decide +kernel) fun q hq hd => ?_
  rw [show 2013265921 - 1 = 2 ^ 27 * 3 * 5 by decide +kernel, hq.dvd_mul, hq.dvd_mul] at hd
  rcases hd with (hd | hd) | hd
  · simp [(Nat.prime_dvd_prime_iff_eq hq Nat.prime_two).1 (hq.dvd_of_dvd_pow hd)]
  · simp [(Nat.prime_dvd_prime_iff_eq hq Nat.prime_three).1 hd]
  · simp [(Nat.prime_dvd_prime_iff_eq hq Nat.prime_five).1 hd]

theorem prime_koalaBear : Nat.Prime 2130706433 := by
  refine prime_of_certificate _ 3 31 [2, 127] (by decide) (by decide) (by decide +kernel)
    (by decide +kernel) fun q hq hd => ?_
  rw [show 2130706433 - 1 = 2 ^ 24 * 127 by decide +kernel, hq.dvd_mul] at hd
  rcases hd with hd | hd
  · simp [(Nat.prime_dvd_prime_iff_eq hq Nat.prime_two).1 (hq.dvd_of_dvd_pow hd)]
  · simp [(Nat.prime_dvd_prime_iff_eq hq (by norm_num)).1 hd]

theorem prime_mersenne31 : Nat.Prime 2147483647 := by
  refine prime_of_certificate _ 7 31 [2, 3, 7, 11, 31, 151, 331] (by decide) (by decide)
    (by decide +kernel) (by decide +kernel) fun q hq hd => ?_
  rw [show 2147483647 - 1 = 2 * 3 ^ 2 * 7 * 11 * 31 * 151 * 331 by decide +kernel] at hd
  simp only [hq.dvd_mul] at hd
  have key : ∀ r : Nat, r.Prime → q ∣ r → q = r := fun r hr h =>
    (Nat.prime_dvd_prime_iff_eq hq hr).1 h
  rcases hd with (((((hd | hd) | hd) | hd) | hd) | hd) | hd
  · simp [key 2 (by norm_num) hd]
  · simp [key 3 (by norm_num) (hq.dvd_of_dvd_pow hd)]
  · simp [key 7 (by norm_num) hd]
  · simp [key 11 (by norm_num) hd]
  · simp [key 31 (by norm_num) hd]
  · simp [key 151 (by norm_num) hd]
  · simp [key 331 (by norm_num) hd]

end Tachyon
