import Verif.Proofs.MixedRadix
import Verif.Props.FFT
/-! C63: the mixed radix domain. -/
namespace Tachyon.Props
open Tachyon.FFT Tachyon.Poly Tachyon.Group Tachyon.Parallel Polynomial

variable {F : Type*} [Field F] [DecidableEq F]

/-- C63: `BestMixedDomainSize` is the least number `q^i * 2^j >= min_size` within the adicities, and
`UINT64_MAX` if there is none. -/
theorem C63_best_size {q qAdicity twoAdicity minSize : ℕ} (hq : 0 < q) (hm : minSize ≤ 2 ^ 63)
    (hqa : q ^ qAdicity < 2 ^ 64) :
    ∃ best, bestMixedDomainSize q qAdicity twoAdicity minSize = some best ∧
      ((∃ i ≤ qAdicity, ∃ j ≤ twoAdicity, minSize ≤ q ^ i * 2 ^ j ∧ q ^ i * 2 ^ j < 2 ^ 64) →
        IsLeast {v | (∃ i ≤ qAdicity, ∃ j ≤ twoAdicity, v = q ^ i * 2 ^ j) ∧ minSize ≤ v} best) ∧
      ((∀ i ≤ qAdicity, ∀ j ≤ twoAdicity, q ^ i * 2 ^ j < minSize) → best = 2 ^ 64 - 1) := by
  obtain ⟨best, e, h1, h2⟩ := bestMixedDomainSize_spec (ta := twoAdicity) hq hm hqa
  refine ⟨best, e, ?_, ?_⟩
  · rintro ⟨i, hi, j, hj, hv, hv'⟩
    exact h1 ⟨_, ⟨i, hi, j, hj, rfl⟩, hv, hv'⟩
  · intro h
    refine h2 ?_
    rintro v ⟨i, hi, j, hj, rfl⟩
    exact h i hi j hj

/-- C63: a field without a large subgroup has no mixed radix domain, and `IsValidNumCoeffs` says so. -/
theorem C63_no_subgroup {cfg : RootConfig F} (hl : cfg.large = none) (maxDegree numCoeffs : ℕ) :
    isValidNumCoeffsMixed cfg maxDegree numCoeffs = some false ∧
      Domain.createMixed cfg maxDegree numCoeffs = none := by
  constructor
  · rw [isValidNumCoeffsMixed, hl]
  · rw [Domain.createMixed, hl]

/-- C63: `Create` makes the domain of the best size, with a generator of that order, when this size is at
most `MaxDegree + 1`; otherwise it fails its `CHECK`, and `IsValidNumCoeffs` tells these cases apart. -/
theorem C63_create {cfg : RootConfig F} (hcfg : cfg.Valid) {q qAdicity : ℕ} {root : F}
    (hl : cfg.large = some (q, qAdicity, root)) {maxDegree numCoeffs : ℕ} (hmax : maxDegree + 1 ≤ 2 ^ 63)
    (hn : numCoeffs ≤ 2 ^ 63) (hqa : q ^ qAdicity < 2 ^ 64) :
    (∀ i ≤ qAdicity, ∀ j ≤ cfg.twoAdicity, numCoeffs ≤ q ^ i * 2 ^ j →
      (∀ i' ≤ qAdicity, ∀ j' ≤ cfg.twoAdicity, numCoeffs ≤ q ^ i' * 2 ^ j' → q ^ i * 2 ^ j ≤ q ^ i' * 2 ^ j') →
      q ^ i * 2 ^ j ≤ maxDegree + 1 →
      isValidNumCoeffsMixed cfg maxDegree numCoeffs = some true ∧
      ∃ d, Domain.createMixed cfg maxDegree numCoeffs = some d ∧ d.Valid ∧ d.size = q ^ i * 2 ^ j ∧
        d.logSize = j ∧ d.offset = 1) ∧
    ((∀ i ≤ qAdicity, ∀ j ≤ cfg.twoAdicity, numCoeffs ≤ q ^ i * 2 ^ j → maxDegree + 1 < q ^ i * 2 ^ j) →
      isValidNumCoeffsMixed cfg maxDegree numCoeffs = some false ∧
      Domain.createMixed cfg maxDegree numCoeffs = none) := by
  have hv := hcfg
  rw [RootConfig.Valid, hl] at hv
  obtain ⟨hq, hq1, -, -⟩ := hv
  obtain ⟨best, e, h1, h2⟩ := bestMixedDomainSize_spec (q := q) (ta := cfg.twoAdicity) (by omega) hn hqa
  constructor
  · intro i hi j hj hge hleast hle
    have hlt : q ^ i * 2 ^ j < 2 ^ 64 := by omega
    obtain ⟨⟨hb1, hb2⟩, hb3⟩ := h1 ⟨_, ⟨i, hi, j, hj, rfl⟩, hge, hlt⟩
    obtain rfl : best = q ^ i * 2 ^ j := by
      refine le_antisymm (hb3 ⟨⟨i, hi, j, hj, rfl⟩, hge⟩) ?_
      obtain ⟨i', hi', j', hj', rfl⟩ := hb1
      exact hleast i' hi' j' hj' hb2
    have hc : computeSizeAndFactors maxDegree q qAdicity cfg.twoAdicity numCoeffs =
        some (some (q ^ i * 2 ^ j, j)) := by
      rw [computeSizeAndFactors, e]
      simp only
      rw [if_neg (by omega), (decompose_spec hq hq1 _).1 i j rfl]
    obtain ⟨w, hw1, hw2⟩ := (getRootOfUnity_large hcfg hl _).1 i hi j hj rfl
    obtain ⟨d, hd1, hd2, hd3, hd4, -, hd6⟩ := Domain.new_spec (logSize := j) (by positivity) (by omega) hw2 hw1
    refine ⟨?_, d, ?_, hd2, hd3, hd4, hd6⟩
    · rw [isValidNumCoeffsMixed, hl]; simp only [hc]; rfl
    · rw [Domain.createMixed, hl]; simp only [hc]; exact hd1
  · intro h
    have hc : computeSizeAndFactors maxDegree q qAdicity cfg.twoAdicity numCoeffs = some none := by
      rw [computeSizeAndFactors, e]
      simp only
      rw [if_pos]
      by_cases hex : ∃ v ∈ MixedSizes q qAdicity cfg.twoAdicity, numCoeffs ≤ v ∧ v < 2 ^ 64
      · obtain ⟨⟨⟨i, hi, j, hj, rfl⟩, hb2⟩, -⟩ := h1 hex
        exact h i hi j hj hb2
      · by_cases hex2 : ∀ v ∈ MixedSizes q qAdicity cfg.twoAdicity, v < numCoeffs
        · rw [h2 hex2]; omega
        · push Not at hex2
          obtain ⟨v, hv1, hv2⟩ := hex2
          obtain ⟨b', e', hb1, hb2, hb3⟩ := bestGo_spec (q := q) (ta := cfg.twoAdicity) (minSize := numCoeffs)
            (by omega) hn (qAdicity + 1) fun i hi =>
              lt_of_le_of_lt (Nat.pow_le_pow_right (by omega) (by omega)) hqa
          obtain rfl : best = b' := by
            rw [bestMixedDomainSize] at e
            rw [e] at e'; simpa using e'
          rcases hb2 with rfl | ⟨hb, i, hi, j, hj, rfl⟩
          · omega
          · exact h i (by omega) j hj hb
    constructor
    · rw [isValidNumCoeffsMixed, hl]; simp only [hc]; rfl
    · rw [Domain.createMixed, hl]; simp only [hc]

/-- C63: when the size is a power of two, `FFT` gives the values at the elements of the coset, both for the
serial and the parallel code and any number of threads. -/
theorem C63_fft {threads : Option ℕ} (o : Sched) {q : ℕ} (hq : q % 2 = 1) (hq1 : 1 < q) {d : Domain F}
    (hd : d.Radix2) {p : List F} (h0 : p ≠ []) (hp : p.length ≤ d.size) (ht : 0 < threads.getD 1)
    (ht' : threads.getD 1 ≤ 2 ^ 63) : mixedFFT threads o q d p =
      some ((List.range d.size).map fun i => (dpoly p).eval (d.offset * d.gen ^ i)) :=
  mixedFFT_spec o hq hq1 hd h0 hp ht ht'

/-- C63: when the size is a power of two, `IFFT` gives the clean polynomial with the given values. -/
theorem C63_ifft {threads : Option ℕ} (o : Sched) {q : ℕ} (hq : q % 2 = 1) (hq1 : 1 < q) {d : Domain F}
    (hd : d.Radix2) (e : List F) (ht : 0 < threads.getD 1) (ht' : threads.getD 1 ≤ 2 ^ 63) :
    ∃ p, mixedIFFT threads o q d e = some p ∧ DClean p ∧ p.length ≤ d.size ∧
      ∀ i < d.size, (dpoly p).eval (d.offset * d.gen ^ i) = e.getD i 0 :=
  mixedIFFT_spec o hq hq1 hd e ht ht'

/-- C63: on these sizes the mixed radix domain and the radix-2 domain compute the same transform. -/
theorem C63_agree {threads : Option ℕ} (threads' : ℕ) (o o' : Sched) {q : ℕ} (hq : q % 2 = 1) (hq1 : 1 < q)
    {d : Domain F} (hd : d.Radix2) {item : Item F} (hi : item.For d) {p : List F} (hp : p.length ≤ d.size)
    (ht : 0 < threads.getD 1) (ht' : threads.getD 1 ≤ 2 ^ 63) (h1 : 0 < threads') (h2 : threads' ≤ 2 ^ 63) :
    mixedFFT threads o q d p = fft threads' o' d item p := by
  by_cases h0 : p = []
  · subst h0; rfl
  · rw [C63_fft o hq hq1 hd h0 hp ht ht', fft_spec o' hd hi h0 hp h1 h2]

/-- C63, false of the code: with a factor `q` in the size the transform is wrong. The reference
`base_term` refers to an element that the first iteration of the loop overwrites. Over the field with
seven elements, the domain of three elements `1, 2, 4` and the polynomial `x`. -/
theorem C63_wrong_three (o : Sched) (threads : Option ℕ) :
    ∃ d : Domain F7, Domain.createMixed exLarge 5 3 = some d ∧ d.Valid ∧ d.size = 3 ∧
      mixedFFT threads o 3 d [0, 1] = some [1, 3, 5] ∧
      (List.range 3).map (fun i => (dpoly [0, 1]).eval (d.offset * d.gen ^ i)) = [1, 2, 4] := by
  refine ⟨⟨3, 0, 3, 5, 2, 4, 1, 1, 1⟩, by decide +kernel, ?_, rfl, ?_, ?_⟩
  · refine ⟨by decide, by decide, by decide, by decide, ?_, by decide, by decide, by decide, by decide⟩
    have := orderOf_eq_prime (p := 3) (x := (2 : F7)) (by decide) (by decide)
    change IsPrimitiveRoot (2 : F7) 3
    rw [← this]; exact IsPrimitiveRoot.orderOf _
  · cases threads with
    | none => exact (by decide +kernel : mixedFFT none Sched.seq 3
        (⟨3, 0, 3, 5, 2, 4, 1, 1, 1⟩ : Domain F7) [0, 1] = some [1, 3, 5])
    | some t =>
      rw [mixedFFT, if_neg (by decide), if_pos (by rfl), bestFFT, if_pos (Nat.zero_le _)]
      exact (by decide +kernel : serialFFT Sched.seq 3 (resizeZero 3 [0, 1]) (2 : F7) 0 = some [1, 3, 5])
  · have h : ∀ x : F7, (dpoly [0, 1]).eval x = x := fun x => by
      rw [eval_dpoly (n := 2) (by decide)]
      simp only [Finset.sum_range_succ, Finset.range_zero, Finset.sum_empty]
      revert x; decide
    simp only [h]
    decide

/-- C63, false of the code: the same in a domain of size `2 * 3`, and the round trip does not give the
polynomial back. -/
theorem C63_wrong_six :
    ∃ d : Domain F7, Domain.createMixed exLarge 5 5 = some d ∧ d.size = 6 ∧ d.gen = 3 ∧
      mixedFFT none Sched.seq 3 d [0, 0, 1] = some [1, 3, 5, 1, 3, 5] ∧
      mixedFFT (some 1) Sched.seq 3 d [0, 0, 1] = some [1, 3, 5, 1, 3, 5] ∧
      mixedIFFT none Sched.seq 3 d [1, 3, 2, 6, 4, 5] ≠ some [0, 1] := by
  exact ⟨⟨6, 1, 6, 6, 3, 5, 1, 1, 1⟩, by decide +kernel, rfl, rfl, by decide +kernel, by decide +kernel,
    by decide +kernel⟩

/-- C63, false of the code: `MaxDegreeForMixedRadixEvaluationDomain` leaves out the powers of `q`, so
that with the default bound no domain larger than `2^kTwoAdicity` can be made. -/
theorem C63_max_degree {q qAdicity twoAdicity : ℕ} (hq : 0 < q) (ht : twoAdicity < 64) :
    maxDegreeMixed q qAdicity twoAdicity = some (2 ^ twoAdicity - 1) := by
  have : ∀ fuel i, qAdicity + 1 < i + fuel → 0 < fuel → ∃ j, maxDegreeGo q qAdicity fuel i = some j := by
    intro fuel
    induction fuel with
    | zero => intro i _ h; omega
    | succ f ih =>
      intro i h _
      rw [maxDegreeGo]
      split
      · next hle =>
        have : i ≤ i * q := Nat.le_mul_of_pos_right _ hq
        exact ih _ (by omega) (by omega)
      · exact ⟨i, rfl⟩
  obtain ⟨j, hj⟩ := this (qAdicity + 2) 0 (by omega) (by omega)
  rw [maxDegreeMixed, hj]
  simp only
  rw [if_neg (by omega), one_mul]

/-- C63, false of the code: a polynomial with more coefficients than the domain has elements is cut off
without a check; the radix-2 domain rejects it (`C38_fft_too_long`). -/
theorem C63_truncated : mixedFFT none Sched.seq 3 (⟨2, 1, 2, 4, 6, 6, 1, 1, 1⟩ : Domain F7) [0, 0, 1] =
    some [0, 0] := by decide +kernel

/-! ### Examples -/

theorem exLarge_valid : exLarge.Valid := by
  refine ⟨by decide, by decide, by decide, ?_⟩
  have h : orderOf (3 : F7) = 6 := by
    rw [orderOf_eq_iff (by decide)]
    refine ⟨by decide, fun m hm h0 => ?_⟩
    interval_cases m <;> decide
  change IsPrimitiveRoot (3 : F7) 6
  rw [← h]; exact IsPrimitiveRoot.orderOf _

-- sizes q^i 2^j with i <= 1, j <= 1 for q = 3: 1, 2, 3, 6
example : (List.range 8).map (bestMixedDomainSize 3 1 1) =
    [some 1, some 1, some 2, some 3, some 6, some 6, some 6, some (2 ^ 64 - 1)] := by decide +kernel
example : (Domain.createMixed exLarge 5 4).map (fun d => (d.size, d.logSize, d.gen)) = some (6, 1, 3) ∧
    (Domain.createMixed exLarge 1 4).isNone ∧ maxDegreeMixed 3 1 1 = some 1 := by decide +kernel
-- size eight in the field with 17 elements: 1 + 2x + 3x^2 on the coset of 3, with one and with four threads
example : exDomain.Radix2 := exDomain_radix2
example : mixedFFT (some 1) Sched.seq 3 exDomain [1, 2, 3] = mixedFFT (some 4) Sched.rev 3 exDomain [1, 2, 3] ∧
    mixedFFT none Sched.rev 3 exDomain [1, 2, 3] = mixedFFT (some 4) Sched.rev 3 exDomain [1, 2, 3] ∧
    (mixedFFT (some 4) Sched.rev 3 exDomain [1, 2, 3]).bind (mixedIFFT (some 2) Sched.seq 3 exDomain) =
      some [1, 2, 3] := by decide +kernel

end Tachyon.Props
