import Verif.Proofs.PairingMain
import Verif.Proofs.FrobTable
import Mathlib.Tactic.Linarith
import Mathlib.Tactic.IntervalCases
/-! The parameters of the BN and BLS12 families. -/
namespace Tachyon.Pairing
open Tachyon.BigInt

section Naf
variable {w : ℕ}

theorem toNAFGo_ne_nil {fuel : ℕ} {v : Limbs w} {zs : List ℤ} (h : toNAFGo fuel v = some zs) (hv : limbsVal v ≠ 0) :
    zs ≠ [] := by
  cases fuel with
  | zero => simp [toNAFGo, isZero_spec, hv] at h
  | succ fuel =>
    rw [toNAFGo, isZero_spec] at h
    simp only [hv, decide_false, Bool.false_eq_true, ↓reduceIte, Option.map_eq_some_iff] at h
    obtain ⟨_, _, rfl⟩ := h
    simp

/-- The last digit of `ToNAF` is not zero. -/
theorem toNAFGo_last (hw : 0 < w) : ∀ (fuel : ℕ) (v : Limbs w) (zs : List ℤ), toNAFGo fuel v = some zs →
    ∀ z, zs.getLast? = some z → z ≠ 0 := by
  intro fuel
  induction fuel with
  | zero =>
    intro v zs h z hz
    simp only [toNAFGo] at h
    split at h
    · cases h; simp at hz
    · simp at h
  | succ fuel ih =>
    intro v zs h z hz
    by_cases hv : limbsVal v = 0
    · simp [toNAFGo, isZero_spec, hv] at h
      subst h; simp at hz
    rw [toNAFGo, isZero_spec] at h
    simp only [hv, decide_false, Bool.false_eq_true, ↓reduceIte, Option.map_eq_some_iff] at h
    obtain ⟨ys, h1, rfl⟩ := h
    cases ys with
    | cons y ys =>
      rw [List.getLast?_cons_cons] at hz
      exact ih _ _ h1 z hz
    | nil =>
      rw [List.getLast?_singleton, Option.some_inj] at hz
      subst hz
      intro hz
      refine toNAFGo_ne_nil h1 ?_ rfl
      rw [if_pos hz, (divBy2_spec hw v).1]
      rw [isOdd_spec hw] at hz
      by_cases ho : limbsVal v % 2 = 1
      · rw [if_pos (by simpa using ho)] at hz
        cases v with
        | nil => simp at ho
        | cons x xs =>
          rw [limbsVal_cons] at ho
          obtain ⟨j, rfl⟩ : ∃ j, w = j + 1 := ⟨w - 1, by omega⟩
          have e : 2 ^ (j + 1) * limbsVal xs = 2 * (2 ^ j * limbsVal xs) := by ring
          rw [e] at ho
          simp only [List.headD_cons] at hz
          omega
      · omega

theorem digitsVal_abs {zs : List ℤ} (hz : ∀ z ∈ zs, z = -1 ∨ z = 0 ∨ z = 1) :
    |digitsVal 2 zs| + 1 ≤ 2 ^ zs.length := by
  induction zs with
  | nil => simp [digitsVal]
  | cons z zs ih =>
    have h1 := ih fun y hy => hz y (by simp [hy])
    have h2 := hz z (by simp)
    have h3 : |z| ≤ 1 := by rcases h2 with rfl | rfl | rfl <;> simp
    have h4 := abs_add_le z (2 * digitsVal 2 zs)
    rw [abs_mul] at h4
    simp only [digitsVal, List.length_cons, pow_succ]
    have h5 : |(2 : ℤ)| = 2 := by norm_num
    rw [h5] at h4
    linarith

theorem digitsVal_append (xs : List ℤ) (y : ℤ) : digitsVal 2 (xs ++ [y]) = digitsVal 2 xs + y * 2 ^ xs.length := by
  induction xs with
  | nil => simp [digitsVal]
  | cons x xs ih =>
    simp only [List.cons_append, digitsVal, ih, List.length_cons, pow_succ]
    ring

/-- A positive number has last digit 1. -/
theorem last_one {zs : List ℤ} (hz : ∀ z ∈ zs, z = -1 ∨ z = 0 ∨ z = 1) (hl : ∀ z, zs.getLast? = some z → z ≠ 0)
    (hpos : 0 < digitsVal 2 zs) : zs.getLast? = some 1 := by
  rcases List.eq_nil_or_concat zs with rfl | ⟨xs, y, rfl⟩
  · simp [digitsVal] at hpos
  rw [List.concat_eq_append] at *
  rw [List.getLast?_concat] at hl ⊢
  have h0 := hl y rfl
  rcases hz y (by simp) with rfl | rfl | rfl
  · rw [digitsVal_append] at hpos
    have h1 := digitsVal_abs (zs := xs) fun z h => hz z (by simp [h])
    have h2 := le_abs_self (digitsVal 2 xs)
    linarith
  · exact absurd rfl h0
  · rfl

/-- The generated loop count. -/
theorem ateLoopCount_spec {n : ℕ} (hn : 6 * n + 2 < 2 ^ 576) :
    ∃ zs, computeAteLoopCount n = some zs ∧ (∀ z ∈ zs, z = 0 ∨ z = 1 ∨ z = -1) ∧ digitsVal 2 zs = 6 * n + 2 ∧
      zs.getLast? = some 1 := by
  have hv : 6 * n + 2 ≠ 0 := by omega
  have hlt : 6 * n + 2 < 2 ^ (64 * ((6 * n + 2).log2 / 64 + 1)) :=
    lt_of_lt_of_le (Nat.lt_log2_self) (Nat.pow_le_pow_right (by norm_num) (by omega))
  have hs : (6 * n + 2).log2 / 64 + 1 ≤ 9 := by
    have := (Nat.log2_lt hv).2 hn
    omega
  clear hn
  have hval := limbsVal_copyLimbs hlt
  have hlen : (copyLimbs ((6 * n + 2).log2 / 64 + 1) (6 * n + 2)).length = (6 * n + 2).log2 / 64 + 1 := by
    simp [copyLimbs]
  set c := copyLimbs ((6 * n + 2).log2 / 64 + 1) (6 * n + 2) with hc
  have hcond : limbsVal c + 1 < 2 ^ (64 * c.length) := by
    rw [hval, hlen]
    have : 2 ∣ 2 ^ (64 * ((6 * n + 2).log2 / 64 + 1)) := dvd_pow_self _ (by omega)
    omega
  obtain ⟨zs, h1, h2, h3, -⟩ := toNAFGo_spec (by norm_num : 2 ≤ 64) (64 * c.length + 1) c hcond
    (by rw [pow_succ]; have := limbsVal_lt c; omega)
  rw [hval] at h2
  have hlast := toNAFGo_last (by norm_num : 0 < 64) (64 * c.length + 1) c zs h1
  have hpos : 0 < digitsVal 2 zs := by rw [h2]; exact_mod_cast Nat.pos_of_ne_zero hv
  refine ⟨zs, ?_, fun z hz => ?_, by rw [h2]; push_cast; ring, last_one h3 hlast hpos⟩
  · simp only [computeAteLoopCount, if_pos hs]
    exact h1
  · rcases h3 z hz with h | h | h
    · exact Or.inr (Or.inr h)
    · exact Or.inl h
    · exact Or.inr (Or.inl h)

/-- The number the loop runs over. -/
theorem ateDigits_value {β : Type} {cfg : Config β} (hl : cfg.ateLoopCount.getLast? = some 1) :
    fromDigits (ateDigits cfg) 1 = digitsVal 2 cfg.ateLoopCount := by
  rw [fromDigits_eq]
  rcases List.eq_nil_or_concat cfg.ateLoopCount with h | ⟨xs, y, h⟩
  · rw [h] at hl; simp at hl
  · rw [List.concat_eq_append] at h
    rw [h, List.getLast?_concat, Option.some_inj] at hl
    subst hl
    simp only [ateDigits, h, List.dropLast_concat, List.reverse_reverse, List.length_reverse,
      digitsVal_append]
    ring

end Naf

section Families
variable {x : ℤ}

theorem not_dvd_of_abs_lt {m r : ℤ} (h0 : m ≠ 0) (h1 : m < r) (h2 : -r < m) : ¬ r ∣ m := fun h =>
  h0 (Int.eq_zero_of_abs_lt_dvd h (abs_lt.2 ⟨h2, h1⟩))

theorem bn_cases (hx : x ≠ 0) : (∃ y, 0 ≤ y ∧ (x = y + 2 ∨ x = -(y + 2))) ∨ x = 1 ∨ x = -1 := by
  by_cases h1 : 2 ≤ x
  · exact Or.inl ⟨x - 2, by omega, Or.inl (by omega)⟩
  by_cases h2 : x ≤ -2
  · exact Or.inl ⟨-x - 2, by omega, Or.inr (by omega)⟩
  omega

theorem bn_nonDegenerate {r p : ℕ} (hr : r.Prime) (er : (r : ℤ) = bnR x) (ep : (p : ℤ) = bnQ x) :
    NonDegenerate r p |6 * x + 2| (6 * x + 2) := by
  have hx0 : x ≠ 0 := by
    rintro rfl
    simp [bnR] at er
    exact hr.one_lt.ne' er
  have hp : (p : ℤ) = r + 6 * x ^ 2 := by rw [er, ep, bnR, bnQ]; ring
  have hp2 : (p : ℤ) ^ 2 = r * (r + 12 * x ^ 2 + 1) + (-36 * x ^ 3 - 18 * x ^ 2 - 6 * x - 1) := by
    rw [hp, er, bnR]; ring
  have d1 : ∀ a m : ℤ, (r : ℤ) ∣ a → (r : ℤ) ∣ r * m + a := fun a m h => (dvd_mul_right _ _).add h
  have t1 : (r : ℤ) ∣ 6 * x + 2 - p ↔ (r : ℤ) ∣ 6 * x + 2 - 6 * x ^ 2 := by
    rw [hp, show 6 * x + 2 - ((r : ℤ) + 6 * x ^ 2) = 6 * x + 2 - 6 * x ^ 2 - r by ring]
    exact (dvd_sub_self_right)
  have t2 : (r : ℤ) ∣ 6 * x + 2 + p ↔ (r : ℤ) ∣ 6 * x ^ 2 + 6 * x + 2 := by
    rw [hp, show 6 * x + 2 + ((r : ℤ) + 6 * x ^ 2) = (6 * x ^ 2 + 6 * x + 2) + r by ring]
    exact dvd_add_self_right
  have t3 : (r : ℤ) ∣ 6 * x + 2 + p + p ^ 2 ↔ (r : ℤ) ∣ -36 * x ^ 3 - 12 * x ^ 2 + 1 := by
    rw [hp2, hp, show 6 * x + 2 + ((r : ℤ) + 6 * x ^ 2) + (r * (r + 12 * x ^ 2 + 1) + (-36 * x ^ 3 - 18 * x ^ 2 - 6 * x - 1))
      = (-36 * x ^ 3 - 12 * x ^ 2 + 1) + r * (r + 12 * x ^ 2 + 2) by ring]
    exact dvd_add_left (dvd_mul_right _ _)
  have t4 : (r : ℤ) ∣ 6 * x + 2 + p - p ^ 2 ↔ (r : ℤ) ∣ 36 * x ^ 3 + 24 * x ^ 2 + 12 * x + 3 := by
    rw [hp2, hp, show 6 * x + 2 + ((r : ℤ) + 6 * x ^ 2) - (r * (r + 12 * x ^ 2 + 1) + (-36 * x ^ 3 - 18 * x ^ 2 - 6 * x - 1))
      = (36 * x ^ 3 + 24 * x ^ 2 + 12 * x + 3) + r * (-(r + 12 * x ^ 2)) by ring]
    exact dvd_add_left (dvd_mul_right _ _)
  rw [show ((6 : ℤ) * x + 2) = 6 * x + 2 from rfl] at *
  refine ⟨?_, t1.not.2 ?_, t2.not.2 ?_, t3.not.2 ?_, t4.not.2 ?_⟩ <;> clear t1 t2 t3 t4 hp hp2 d1 ep hr <;> rw [er]
  · have h1 : 6 * x + 2 < bnR x - 2 ∧ -(6 * x + 2) < bnR x - 2 := by
      rcases bn_cases hx0 with ⟨y, hy, rfl | rfl⟩ | rfl | rfl <;> simp only [bnR] <;> constructor <;> first | norm_num; done | nlinarith [pow_nonneg hy 2, pow_nonneg hy 3, pow_nonneg hy 4]
    have := abs_lt.2 ⟨by linarith [h1.2], h1.1⟩
    linarith
  all_goals
    rcases bn_cases hx0 with ⟨y, hy, rfl | rfl⟩ | rfl | rfl
  any_goals (norm_num [bnR]; done)
  all_goals
    simp only [bnR]
    refine not_dvd_of_abs_lt ?_ ?_ ?_
  any_goals nlinarith [pow_nonneg hy 2, pow_nonneg hy 3, pow_nonneg hy 4]

/-- The hard exponent of the BN curves. -/
theorem bn_hard {q r : ℤ} (er : r = bnR x) (eq : q = bnQ x) :
    (q ^ 3 * (12 * x ^ 3 + 6 * x ^ 2 + 4 * x - 1) + q ^ 2 * (12 * x ^ 3 + 6 * x ^ 2 + 6 * x)
      + q * (12 * x ^ 3 + 6 * x ^ 2 + 4 * x) + (12 * x ^ 3 + 12 * x ^ 2 + 6 * x + 1)) * r =
      2 * x * (6 * x ^ 2 + 3 * x + 1) * (q ^ 4 - q ^ 2 + 1) := by
  rw [er, eq, bnR, bnQ]
  ring

/-- The hard exponent of the BLS12 curves. -/
theorem bls_hard {q r : ℤ} (er : r = blsR x) (eq : 3 * q = (x - 1) ^ 2 * r + 3 * x) :
    ((x - 1) ^ 2 * (x + q) * (x ^ 2 + q ^ 2 - 1) + 3) * r = 3 * (q ^ 4 - q ^ 2 + 1) := by
  rw [er, blsR] at *
  linear_combination (-(x + q) * (x ^ 2 + q ^ 2 - 1)) * eq

theorem bn_coprime {r : ℕ} (hr : r.Prime) (er : (r : ℤ) = bnR x) :
    IsCoprime (2 * x * (6 * x ^ 2 + 3 * x + 1)) (r : ℤ) := by
  have hx0 : x ≠ 0 := by
    rintro rfl
    simp [bnR] at er
    exact hr.one_lt.ne' er
  have hp : Prime (r : ℤ) := Nat.prime_iff_prime_int.1 hr
  refine ((hp.coprime_iff_not_dvd).2 fun h => ?_).symm
  have h2 : ¬ (r : ℤ) ∣ 2 := by
    rw [er]
    refine not_dvd_of_abs_lt (by norm_num) ?_ ?_ <;>
    rcases bn_cases hx0 with ⟨y, hy, rfl | rfl⟩ | rfl | rfl <;>
      (try simp only [bnR]) <;> first | (norm_num; done) | nlinarith [pow_nonneg hy 2, pow_nonneg hy 3, pow_nonneg hy 4]
  have h3 : ¬ (r : ℤ) ∣ x := by
    rw [er]
    refine not_dvd_of_abs_lt hx0 ?_ ?_ <;>
    rcases bn_cases hx0 with ⟨y, hy, rfl | rfl⟩ | rfl | rfl <;>
      (try simp only [bnR]) <;> first | (norm_num; done) | nlinarith [pow_nonneg hy 2, pow_nonneg hy 3, pow_nonneg hy 4]
  have h4 : ¬ (r : ℤ) ∣ 6 * x ^ 2 + 3 * x + 1 := by
    rw [er]
    refine not_dvd_of_abs_lt ?_ ?_ ?_ <;>
    rcases bn_cases hx0 with ⟨y, hy, rfl | rfl⟩ | rfl | rfl <;>
      (try simp only [bnR]) <;> first | (norm_num; done) | nlinarith [pow_nonneg hy 2, pow_nonneg hy 3, pow_nonneg hy 4]
  rcases hp.dvd_or_dvd h with h | h
  · rcases hp.dvd_or_dvd h with h | h
    · exact h2 h
    · exact h3 h
  · exact h4 h

theorem bls_coprime {r : ℤ} (er : r = blsR x) : IsCoprime 3 r := by
  have h3 : Prime (3 : ℤ) := Int.prime_three
  refine (h3.coprime_iff_not_dvd).2 ?_
  rw [er, blsR]
  intro h
  have : (x ^ 4 - x ^ 2 + 1) % 3 = 0 := Int.emod_eq_zero_of_dvd h
  have e : x % 3 = 0 ∨ x % 3 = 1 ∨ x % 3 = 2 := by omega
  rcases e with e | e | e <;> simp [Int.add_emod, Int.sub_emod, pow_succ, Int.mul_emod, e] at this

/-- Powers by an exponent `e` with `e r = m n`, `m` prime to `r`, in a group where `n`-th powers are 1. -/
theorem exponent_facts {G : Type} [CommGroup G] {u : G} {e r m n c : ℤ} (h : e * r = m * n) (hu : u ^ n = 1)
    (hc : IsCoprime m r) (hr : r ≠ 0) (hn : n = c * r) :
    (u ^ e) ^ r = 1 ∧ u ^ e = (u ^ c) ^ m ∧ (u ^ e = 1 ↔ u ^ c = 1) := by
  have e1 : e = c * m := by
    apply mul_right_cancel₀ hr
    rw [h, hn]; ring
  have h1 : u ^ e = (u ^ c) ^ m := by rw [e1, zpow_mul]
  refine ⟨?_, h1, ?_⟩
  · rw [← zpow_mul, h, mul_comm, zpow_mul, hu, one_zpow]
  · constructor
    · intro h2
      rw [h1] at h2
      obtain ⟨s, t, hst⟩ := hc
      have h3 : (u ^ c) ^ r = 1 := by rw [← zpow_mul, ← hn, hu]
      calc u ^ c = (u ^ c) ^ (s * m + t * r) := by rw [hst, zpow_one]
        _ = ((u ^ c) ^ m) ^ s * ((u ^ c) ^ r) ^ t := by
          rw [zpow_add, mul_comm s, mul_comm t, zpow_mul (u ^ c) m, zpow_mul (u ^ c) r]
        _ = 1 := by rw [h2, h3, one_zpow, one_zpow, one_mul]
    · intro h2
      rw [h1, h2, one_zpow]

end Families
end Tachyon.Pairing
