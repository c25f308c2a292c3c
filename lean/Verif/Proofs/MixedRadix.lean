import Verif.Model.MixedRadix
import Verif.Proofs.FFTTop
import Verif.Proofs.BatchFFT
/-! Proofs about the mixed radix FFT for sizes that are powers of two, and about the choice of the size. -/
namespace Tachyon.FFT
open Tachyon.Group Tachyon.Parallel Tachyon.Poly Finset

variable {F : Type*} [Field F]

theorem foldlM_flatMap_opt {α β γ : Type*} (f : γ → β → Option γ) (g : α → List β) (l : List α) (s : γ) :
    (l.flatMap g).foldlM f s = l.foldlM (fun s a => (g a).foldlM f s) s := by
  induction l generalizing s with
  | nil => rfl
  | cons a l ih =>
    rw [List.flatMap_cons, List.foldlM_append, List.foldlM_cons]
    congr 1; funext s'; exact ih s'

theorem twoInner_eq (k m : ℕ) (wm : F) {roots : List F} (n : ℕ) : ∀ (j : ℕ) (a : List F),
    (∀ i, j ≤ i → i < j + n → roots[i]? = some (wm ^ i)) →
    twoInner k m wm n j (wm ^ j) a =
      ((List.range' j n).map fun i => (k, i)).foldlM (butterflyStep butterflyOutIn roots m) a := by
  induction n with
  | zero => intro j a _; rfl
  | succ n ih =>
    intro j a h
    rw [twoInner, List.range'_succ, List.map_cons, List.foldlM_cons, butterflyStep, h j le_rfl (by omega)]
    simp only
    rw [show k + j + m = k + m + j by omega]
    cases e : pairStep (butterflyOutIn (wm ^ j)) a (k + j) (k + m + j) with
    | none => rfl
    | some a' =>
      simp only [← pow_succ]
      exact ih (j + 1) a' fun i h1 h2 => h i (by omega) (by omega)

theorem twoBlocks_eq {n m : ℕ} (wm : F) {a : List F} (hl : a.length = n) :
    (List.range ((n + 2 * m - 1) / (2 * m))).foldlM (fun a b => twoInner (b * (2 * m)) m wm m 0 1 a) a =
      applyButterfly Sched.seq butterflyOutIn a ((List.range m).map (wm ^ ·)) m := by
  rw [applyButterfly, hl]
  change _ = (butterflyPairs n m).foldlM _ _
  rw [butterflyPairs, foldlM_flatMap_opt]
  congr 1
  funext a b
  have := twoInner_eq (b * (2 * m)) m wm (roots := (List.range m).map (wm ^ ·)) m 0 a fun i _ hi => by
    rw [List.getElem?_map, List.getElem?_range (by omega)]; rfl
  rw [pow_zero] at this
  rw [this, ← List.range_eq_range']

/-- The vectors of roots that the loops compute on the fly. -/
def rootTable (w : F) (k : ℕ) : List (List F) :=
  (List.range k).map fun s => (List.range (2 ^ s)).map ((w ^ 2 ^ (k - 1 - s)) ^ ·)

theorem rootTable_for (w : F) (k : ℕ) : RootsFor w k (rootTable w k) := by
  intro s hs
  refine ⟨_, by rw [rootTable, List.getElem?_map, List.getElem?_range hs]; rfl, by simp, fun j hj => ?_⟩
  rw [List.getD_eq_getElem?_getD, List.getElem?_map, List.getElem?_range hj]
  simp [pow_mul]

theorem twoPasses_eq {w : F} {k : ℕ} (hk : k ≤ 63) (e : ℕ) : ∀ (s fuel : ℕ) (arr : List F), e + s = k →
    e ≤ fuel → arr.length = 2 ^ k →
    twoPasses (2 ^ k) w e (2 ^ s) arr = outInGo Sched.seq (rootTable w k) fuel (2 ^ s) s arr := by
  induction e with
  | zero =>
    intro s fuel arr hs _ hl
    obtain rfl : s = k := by omega
    rw [twoPasses]
    cases fuel with
    | zero => rw [outInGo, if_neg (by omega)]
    | succ f => rw [outInGo, if_neg (by omega)]
  | succ e ih =>
    intro s fuel arr hs hf hl
    obtain ⟨f, rfl⟩ : ∃ f, fuel = f + 1 := ⟨fuel - 1, by omega⟩
    have hlt : 2 ^ s < arr.length := by rw [hl]; exact Nat.pow_lt_pow_right (by norm_num) (by omega)
    have hdiv : 2 ^ k / (2 * 2 ^ s) = 2 ^ (k - 1 - s) := by
      rw [← pow_succ', Nat.pow_div (by omega) (by norm_num)]; congr 1; omega
    have hpow : powSize w (2 ^ k / (2 * 2 ^ s)) = w ^ 2 ^ (k - 1 - s) := by
      rw [hdiv]
      exact powSize_eq _ (Nat.pow_lt_pow_right (by norm_num) (by omega))
    rw [twoPasses, hpow, twoBlocks_eq _ hl, outInGo, if_pos hlt]
    have hget : (rootTable w k)[s]? = some ((List.range (2 ^ s)).map ((w ^ 2 ^ (k - 1 - s)) ^ ·)) := by
      rw [rootTable, List.getElem?_map, List.getElem?_range (by omega)]; rfl
    rw [hget]
    simp only
    obtain ⟨r, er, hrl, -⟩ := applyButterfly_spec Sched.seq butterflyOutIn (arr := arr)
      (roots := (List.range (2 ^ s)).map ((w ^ 2 ^ (k - 1 - s)) ^ ·)) (q := 2 ^ e) (gap := 2 ^ s)
      (by positivity) (by rw [hl, ← hs]; ring) (by simp)
    rw [er]
    simp only
    rw [← pow_succ]
    exact ih (s + 1) f r (by omega) (by omega) (by omega)

theorem adicity_pow_two {q k : ℕ} (hq : q % 2 = 1) (hq1 : 1 < q) : computeAdicity q (2 ^ k) = some 0 := by
  obtain ⟨a, e, h1, h2⟩ := computeAdicity_spec (k := q) (n := 2 ^ k) (by omega) (by positivity)
  rw [e]
  rcases Nat.eq_zero_or_pos a with rfl | h
  · rfl
  · exfalso
    have hd : q ∣ 2 ^ k := (dvd_pow_self q (by omega)).trans h1
    obtain ⟨j, -, hj⟩ := (Nat.dvd_prime_pow Nat.prime_two).1 hd
    rcases j with _ | j
    · omega
    · rw [pow_succ] at hj; omega

theorem adicity_two_pow (k : ℕ) : computeAdicity 2 (2 ^ k) = some k := by
  obtain ⟨a, e, h⟩ := computeAdicity_spec (k := 2) (n := 2 ^ k) le_rfl (by positivity)
  rw [e]
  congr 1
  refine adicity_unique h ⟨dvd_rfl, fun h => ?_⟩
  have := Nat.le_of_dvd (by positivity) h
  rw [pow_succ] at this
  have : 0 < 2 ^ k := by positivity
  omega

/-- For sizes that are powers of two `SerialFFT` computes the transform. -/
theorem serialFFT_spec (o : Sched) {q k : ℕ} (hq : q % 2 = 1) (hq1 : 1 < q) (hk : k ≤ 63) {a : List F}
    (hl : a.length = 2 ^ k) {w : F} (hw : 0 < k → w ^ 2 ^ (k - 1) = -1) :
    serialFFT o q a w k = some ((List.range (2 ^ k)).map fun j => dft w (2 ^ k) (fun t => a.getD t 0) j) := by
  rw [serialFFT]
  simp only [hl]
  rw [adicity_pow_two hq hq1]
  simp only
  rw [if_neg (by simp), if_neg (by omega)]
  obtain ⟨r, er, hrl, hr⟩ := swapBitRev_getD (size := 2 ^ k) o hl le_rfl (by omega) (fun i h => by
    rw [List.getD_eq_getElem?_getD, List.getElem?_eq_none (by omega)]; rfl)
  rw [er]
  simp only
  have := twoPasses_eq (w := w) hk k 0 k r (by omega) le_rfl hrl
  rw [pow_zero] at this
  rw [this]
  obtain ⟨r2, e2, hl2, h2⟩ := outInGo_spec Sched.seq hw (rootTable_for w k) (fun t => a.getD t 0) k 0 k r
    (by omega) le_rfl hrl (by
      intro b hb j hj
      obtain rfl : j = 0 := by simpa using hj
      rw [dit_start, pow_zero, mul_one, add_zero, hr b hb])
  rw [pow_zero] at e2
  rw [e2, list_eq_map hl2 h2]

theorem cosetInner_eq (a : List F) (i cs : ℕ) (step : F) (n : ℕ) : ∀ (c : ℕ) (acc elt : F),
    cosetInner a i cs step n c (acc, elt) =
      (acc + ∑ d ∈ range n, a.getD (i + (c + d) * cs) 0 * (elt * step ^ d), elt * step ^ n) := by
  induction n with
  | zero => intro c acc elt; simp [cosetInner]
  | succ n ih =>
    intro c acc elt
    rw [cosetInner, ih, Finset.sum_range_succ', Prod.mk.injEq]
    refine ⟨?_, by ring⟩
    rw [add_assoc, add_comm (∑ _ ∈ _, _)]
    congr 1
    rw [add_zero, pow_zero, mul_one]
    congr 1
    refine Finset.sum_congr rfl fun d _ => ?_
    rw [show c + 1 + d = c + (d + 1) by omega]
    ring

theorem cosetLoop_eq (a : List F) {num cs : ℕ} {step wk : F} (h1 : step ^ num = 1) (n : ℕ) : ∀ (i : ℕ),
    cosetLoop a num cs step wk n i (wk ^ i) = (List.range' i n).map fun i =>
      ∑ d ∈ range num, a.getD (i + d * cs) 0 * (wk ^ i * step ^ d) := by
  induction n with
  | zero => intro i; rfl
  | succ n ih =>
    intro i
    rw [cosetLoop, cosetInner_eq, List.range'_succ, List.map_cons]
    simp only [h1, mul_one, zero_add]
    rw [← pow_succ, ih (i + 1)]

theorem sum_range_mul (f : ℕ → F) (num cs : ℕ) : ∑ t ∈ range (num * cs), f t =
    ∑ i ∈ range cs, ∑ d ∈ range num, f (i + d * cs) := by
  rw [Finset.sum_comm]
  induction num with
  | zero => simp
  | succ n ih =>
    rw [add_mul, one_mul, Finset.sum_range_add, ih, Finset.sum_range_succ]
    congr 1
    exact Finset.sum_congr rfl fun i _ => by rw [add_comm]

/-- The recombination of the transforms over the cosets. -/
theorem dft_cosets {w : F} {num cs : ℕ} (hw : w ^ (num * cs) = 1) (c : ℕ → F) (k u : ℕ) :
    dft (w ^ num) cs (fun i => ∑ d ∈ range num, c (i + d * cs) * ((w ^ k) ^ i * (w ^ (k * cs)) ^ d)) u =
      dft w (num * cs) c (k + num * u) := by
  rw [dft, dft]
  rw [sum_range_mul]
  refine Finset.sum_congr rfl fun i _ => ?_
  rw [smul_eq_mul, Finset.mul_sum]
  refine Finset.sum_congr rfl fun d _ => ?_
  rw [smul_eq_mul]
  have : w ^ ((k + num * u) * (i + d * cs)) =
      (w ^ num) ^ (u * i) * ((w ^ k) ^ i * (w ^ (k * cs)) ^ d) * (w ^ (num * cs)) ^ (u * d) := by
    simp only [← pow_mul, ← pow_add]
    congr 1
    ring
  rw [this, hw, one_pow]
  ring

/-- For sizes that are powers of two `ParallelFFT` computes the transform. -/
theorem parallelFFT_spec (o : Sched) {q k lt : ℕ} (hq : q % 2 = 1) (hq1 : 1 < q) (hk : k ≤ 63) (hlt : lt ≤ k)
    {a : List F} (hl : a.length = 2 ^ k) {w : F} (hw : IsPrimitiveRoot w (2 ^ k)) :
    parallelFFT o q a w k lt =
      some ((List.range (2 ^ k)).map fun j => dft w (2 ^ k) (fun t => a.getD t 0) j) := by
  obtain ⟨e, rfl⟩ : ∃ e, k = lt + e := ⟨k - lt, by omega⟩
  have hpk : 2 ^ (lt + e) = 2 ^ lt * 2 ^ e := pow_add _ _ _
  have hdiv : 2 ^ (lt + e) / 2 ^ lt = 2 ^ e := by rw [hpk, Nat.mul_div_cancel_left _ (by positivity)]
  have hlt64 : 2 ^ (lt + e) < 2 ^ 64 := Nat.pow_lt_pow_right (by norm_num) (by omega)
  have hnum : 2 ^ lt ≤ 2 ^ (lt + e) := Nat.pow_le_pow_right (by norm_num) (by omega)
  rw [parallelFFT, if_neg (by
    rw [hl, hpk, Nat.mul_mod_right]; simp)]
  simp only [hl, hdiv]
  rw [adicity_two_pow]
  simp only
  have hsub : IsPrimitiveRoot (w ^ 2 ^ lt) (2 ^ e) :=
    hw.pow (by positivity) (by rw [hpk])
  have hhalf : 0 < e → (w ^ 2 ^ lt) ^ 2 ^ (e - 1) = -1 := fun h => by
    rw [show e = e - 1 + 1 by omega] at hsub
    exact half_pow hsub
  have hone : w ^ (2 ^ lt * 2 ^ e) = 1 := by rw [← hpk]; exact hw.pow_eq_one
  have hmap : (List.range (2 ^ lt)).mapM (fun k =>
        serialFFT o q (cosetLoop a (2 ^ lt) (2 ^ e) (powSize w (k * 2 ^ e)) (powSize w k) (2 ^ e) 0 1)
          (powSize w (2 ^ lt)) e) =
      some ((List.range (2 ^ lt)).map fun k => (List.range (2 ^ e)).map fun u =>
        dft w (2 ^ lt * 2 ^ e) (fun t => a.getD t 0) (k + 2 ^ lt * u)) := by
    apply mapM_some
    intro k hk'
    rw [List.mem_range] at hk'
    have hk2 : k * 2 ^ e < 2 ^ 64 := by
      have : k * 2 ^ e ≤ 2 ^ lt * 2 ^ e := Nat.mul_le_mul_right _ hk'.le
      omega
    rw [powSize_eq w hk2, powSize_eq w (show k < 2 ^ 64 by omega),
      powSize_eq w (show 2 ^ lt < 2 ^ 64 by omega)]
    have hstep : (w ^ (k * 2 ^ e)) ^ 2 ^ lt = 1 := by
      rw [← pow_mul, show k * 2 ^ e * 2 ^ lt = 2 ^ lt * 2 ^ e * k by ring, pow_mul, hone, one_pow]
    have hcl := cosetLoop_eq a (cs := 2 ^ e) (wk := w ^ k) hstep (2 ^ e) 0
    rw [pow_zero] at hcl
    rw [hcl, serialFFT_spec o hq hq1 (by omega) (by simp) hhalf]
    congr 1
    refine List.map_congr_left fun u _ => ?_
    rw [← dft_cosets hone]
    refine Finset.sum_congr rfl fun i hi => ?_
    congr 1
    beta_reduce
    rw [List.getD_eq_getElem?_getD, List.getElem?_map, ← List.range_eq_range',
      List.getElem?_range (Finset.mem_range.1 hi)]
    rfl
  rw [hmap]
  simp only
  congr 1
  refine List.map_congr_left fun j hj => ?_
  rw [List.mem_range] at hj
  have h1 : j % 2 ^ lt < 2 ^ lt := Nat.mod_lt _ (by positivity)
  have h2 : j / 2 ^ lt < 2 ^ e := by rw [Nat.div_lt_iff_lt_mul (by positivity), mul_comm, ← hpk]; exact hj
  simp only [List.getD_eq_getElem?_getD, List.getElem?_map, List.getElem?_range h1, Option.map_some,
    Option.getD_some, List.getElem?_range h2]
  rw [Nat.mod_add_div, ← hpk]

theorem bestFFT_spec (threads : Option ℕ) (o : Sched) {q k : ℕ} (hq : q % 2 = 1) (hq1 : 1 < q) (hk : k ≤ 63)
    {a : List F} (hl : a.length = 2 ^ k) {w : F} (hw : IsPrimitiveRoot w (2 ^ k)) :
    bestFFT threads o q a w k =
      some ((List.range (2 ^ k)).map fun j => dft w (2 ^ k) (fun t => a.getD t 0) j) := by
  have hhalf : 0 < k → w ^ 2 ^ (k - 1) = -1 := fun h => by
    rw [show k = k - 1 + 1 by omega] at hw
    exact half_pow hw
  cases threads with
  | none => exact serialFFT_spec o hq hq1 hk hl hhalf
  | some t =>
    rw [bestFFT]
    split
    · exact serialFFT_spec o hq hq1 hk hl hhalf
    · exact parallelFFT_spec o hq hq1 hk (by omega) hl hw

variable [DecidableEq F]

theorem mixedFFT_spec {threads : Option ℕ} (o : Sched) {q : ℕ} (hq : q % 2 = 1) (hq1 : 1 < q) {d : Domain F}
    (hd : d.Radix2) {p : List F} (h0 : p ≠ []) (hp : p.length ≤ d.size) (ht : 0 < threads.getD 1)
    (ht' : threads.getD 1 ≤ 2 ^ 63) : mixedFFT threads o q d p =
      some ((List.range d.size).map fun i => (dpoly p).eval (d.offset * d.gen ^ i)) := by
  have hle := hd.1.le
  have hprim := hd.1.prim
  rw [mixedFFT, if_neg (by simpa using h0)]
  have key : ∀ a : List F, (∀ t, a.getD t 0 = p.getD t 0 * d.offset ^ t) →
      bestFFT threads o q (resizeZero d.size a) d.gen d.logSize =
      some ((List.range d.size).map fun i => (dpoly p).eval (d.offset * d.gen ^ i)) := by
    intro a hav
    rw [bestFFT_spec threads o hq hq1 (Domain.Radix2.le hd) (by rw [length_resizeZero, hd.2])
      (by rw [← hd.2]; exact hprim), ← hd.2]
    congr 1
    refine List.map_congr_left fun j _ => ?_
    rw [eval_dpoly hp, dft]
    refine Finset.sum_congr rfl fun t ht => ?_
    rw [getD_resizeZero, if_pos (Finset.mem_range.1 ht), hav, smul_eq_mul, mul_pow, ← pow_mul]; ring
  split
  · next h => exact key p fun t => by rw [h]; simp
  · rw [distribute_eq p _ _ ht ht' (by omega)]
    refine key _ fun t => ?_
    rw [getD_mapIdx _ (by simp), one_mul]

theorem mixedIFFT_spec {threads : Option ℕ} (o : Sched) {q : ℕ} (hq : q % 2 = 1) (hq1 : 1 < q) {d : Domain F}
    (hd : d.Radix2) (e : List F) (ht : 0 < threads.getD 1) (ht' : threads.getD 1 ≤ 2 ^ 63) :
    ∃ p, mixedIFFT threads o q d e = some p ∧ DClean p ∧ p.length ≤ d.size ∧
      ∀ i < d.size, (dpoly p).eval (d.offset * d.gen ^ i) = e.getD i 0 := by
  rw [mixedIFFT]
  split
  · next h =>
    rw [List.isEmpty_iff] at h
    subst h
    exact ⟨[], rfl, by simp [DClean], by simp, fun i _ => by simp [dpoly]⟩
  have hpos := hd.1.pos
  have hle := hd.1.le
  have hn0 : (d.size : F) ≠ 0 := card_ne_zero hpos hd.1.prim
  have hpi : IsPrimitiveRoot d.gen⁻¹ d.size := hd.1.prim.inv
  rw [hd.1.genInv, bestFFT_spec threads o hq hq1 (Domain.Radix2.le hd) (by rw [length_resizeZero, hd.2])
    (by rw [← hd.2]; exact hpi), ← hd.2]
  simp only
  generalize hr2 : (List.range d.size).map (fun j => dft d.gen⁻¹ d.size
    (fun t => (resizeZero d.size e).getD t 0) j) = r2
  have hr2l : r2.length = d.size := by rw [← hr2]; simp
  have hr2v : ∀ t < d.size, r2.getD t 0 = dft d.gen⁻¹ d.size (fun t => (resizeZero d.size e).getD t 0) t := by
    intro t ht
    rw [← hr2, List.getD_eq_getElem?_getD, List.getElem?_map, List.getElem?_range ht]; rfl
  have hres : ∃ r3 : List F, (if d.offset = 1 then r2.map (· * d.sizeInv)
      else distribute (threads.getD 1) r2 d.offsetInv d.sizeInv) = r3 ∧ r3.length = d.size ∧
      ∀ t, r3.getD t 0 = r2.getD t 0 * (d.sizeInv * d.offset⁻¹ ^ t) := by
    refine ⟨_, rfl, ?_⟩
    split
    · next h =>
      refine ⟨by simp [hr2l], fun t => ?_⟩
      rw [h, List.getD_eq_getElem?_getD, List.getElem?_map, List.getD_eq_getElem?_getD]
      cases r2[t]? <;> simp
    · rw [distribute_eq _ _ _ ht ht' (by omega)]
      refine ⟨by simp [hr2l], fun t => ?_⟩
      rw [getD_mapIdx _ (by simp), hd.1.offsetInv]
  obtain ⟨r3, e3, hl3, h3⟩ := hres
  obtain ⟨z1, z2, z3⟩ := Dense.removeZeros_spec r3
  refine ⟨Dense.removeZeros r3, by rw [e3], z2, by omega, fun i hii => ?_⟩
  rw [z1, eval_dpoly hl3.le]
  have : ∀ t ∈ range d.size, r3.getD t 0 * (d.offset * d.gen ^ i) ^ t =
      d.sizeInv * (d.gen⁻¹⁻¹ ^ (i * t) • dft d.gen⁻¹ d.size (fun t => (resizeZero d.size e).getD t 0) t) := by
    intro t ht
    rw [Finset.mem_range] at ht
    rw [h3, hr2v t ht, inv_inv, smul_eq_mul, mul_pow, ← pow_mul]
    have : d.offset⁻¹ ^ t * d.offset ^ t = 1 := by
      rw [← mul_pow, inv_mul_cancel₀ hd.1.offset, one_pow]
    linear_combination dft d.gen⁻¹ d.size (fun t => (resizeZero d.size e).getD t 0) t * d.sizeInv *
      d.gen ^ (i * t) * this
  rw [Finset.sum_congr rfl this, ← Finset.mul_sum]
  have := dft_dft hpi (fun t => (resizeZero d.size e).getD t 0) hii
  rw [dft] at this
  rw [this, smul_eq_mul, hd.1.sizeInv, ← mul_assoc, inv_mul_cancel₀ hn0, one_mul, getD_resizeZero,
    if_pos hii]

/-! ### The size of the domain -/

theorem doubleUntil_spec {minSize : ℕ} (hm : minSize ≤ 2 ^ 63) (fuel : ℕ) : ∀ (r t : ℕ), 0 < r →
    minSize ≤ r * 2 ^ fuel → ∃ s, doubleUntil minSize fuel r t = some (r * 2 ^ s, t + s) ∧
      minSize ≤ r * 2 ^ s ∧ ∀ j, minSize ≤ r * 2 ^ j → s ≤ j := by
  induction fuel with
  | zero =>
    intro r t h0 h
    refine ⟨0, ?_, by simpa using h, fun j _ => by omega⟩
    rw [doubleUntil, if_neg (by omega)]; simp
  | succ f ih =>
    intro r t h0 h
    rw [doubleUntil]
    split
    · next hlt =>
      rw [Nat.mod_eq_of_lt (by omega)]
      obtain ⟨s, e, h1, h2⟩ := ih (r * 2) (t + 1) (by omega) (by rw [mul_assoc, ← pow_succ']; exact h)
      refine ⟨s + 1, ?_, by rw [pow_succ', ← mul_assoc]; exact h1, fun j hj => ?_⟩
      · rw [e]; congr 2 <;> ring
      · rcases j with _ | j
        · simp at hj; omega
        · have := h2 j (by rw [mul_assoc, ← pow_succ']; exact hj)
          omega
    · exact ⟨0, by simp, by simp; omega, fun j _ => by omega⟩

/-- The sizes that have a subgroup: `q^i * 2^j` within the adicities. -/
def MixedSizes (q qAdicity twoAdicity : ℕ) : Set ℕ := {v | ∃ i ≤ qAdicity, ∃ j ≤ twoAdicity, v = q ^ i * 2 ^ j}

theorem bestGo_spec {q ta minSize : ℕ} (hq : 0 < q) (hm : minSize ≤ 2 ^ 63) (n : ℕ)
    (hqn : ∀ i < n, q ^ i < 2 ^ 64) :
    ∃ best, (List.range n).foldlM (bestStep q ta minSize) (2 ^ 64 - 1) = some best ∧ best ≤ 2 ^ 64 - 1 ∧
      (best = 2 ^ 64 - 1 ∨ (minSize ≤ best ∧ ∃ i < n, ∃ j ≤ ta, best = q ^ i * 2 ^ j)) ∧
      ∀ i < n, ∀ j ≤ ta, minSize ≤ q ^ i * 2 ^ j → best ≤ q ^ i * 2 ^ j := by
  induction n with
  | zero => exact ⟨_, rfl, le_rfl, Or.inl rfl, fun i hi => by omega⟩
  | succ n ih =>
    obtain ⟨best, e, h1, h2, h3⟩ := ih fun i hi => hqn i (by omega)
    rw [List.range_succ, List.foldlM_append, e]
    have hpos : 0 < q ^ n := by positivity
    obtain ⟨s, es, hs1, hs2⟩ := doubleUntil_spec hm 64 (q ^ n) 0 hpos (by nlinarith)
    refine ⟨if 0 + s ≤ ta then min best (q ^ n * 2 ^ s) else best, ?_, ?_, ?_, ?_⟩
    · simp only [Option.bind_eq_bind, Option.bind_some, List.foldlM_cons, List.foldlM_nil, bestStep, es]
      rfl
    · split <;> omega
    · split
      · next hta =>
        rcases le_total best (q ^ n * 2 ^ s) with hle | hle
        · rw [min_eq_left hle]
          exact h2.imp id fun ⟨a, i, hi, b⟩ => ⟨a, i, by omega, b⟩
        · rw [min_eq_right hle]
          exact Or.inr ⟨hs1, n, by omega, s, by omega, rfl⟩
      · exact h2.imp id fun ⟨a, i, hi, b⟩ => ⟨a, i, by omega, b⟩
    · intro i hi j hj hv
      rcases Nat.lt_succ_iff_lt_or_eq.1 hi with h | rfl
      · have := h3 i h j hj hv
        split <;> omega
      · have hsj := hs2 j hv
        have : q ^ i * 2 ^ s ≤ q ^ i * 2 ^ j :=
          Nat.mul_le_mul_left _ (Nat.pow_le_pow_right (by norm_num) hsj)
        rw [if_pos (by omega)]
        omega

/-- The best size is the least size of a subgroup that is large enough, if there is one. -/
theorem bestMixedDomainSize_spec {q qa ta minSize : ℕ} (hq : 0 < q) (hm : minSize ≤ 2 ^ 63)
    (hqa : q ^ qa < 2 ^ 64) :
    ∃ best, bestMixedDomainSize q qa ta minSize = some best ∧
      ((∃ v ∈ MixedSizes q qa ta, minSize ≤ v ∧ v < 2 ^ 64) →
        IsLeast {v | v ∈ MixedSizes q qa ta ∧ minSize ≤ v} best) ∧
      ((∀ v ∈ MixedSizes q qa ta, v < minSize) → best = 2 ^ 64 - 1) := by
  obtain ⟨best, e, h1, h2, h3⟩ := bestGo_spec (ta := ta) hq hm (qa + 1) fun i hi =>
    lt_of_le_of_lt (Nat.pow_le_pow_right hq (by omega)) hqa
  have hlow : ∀ v ∈ MixedSizes q qa ta, minSize ≤ v → best ≤ v := by
    rintro v ⟨i, hi, j, hj, rfl⟩ hv
    exact h3 i (by omega) j hj hv
  refine ⟨best, e, ?_, ?_⟩
  · rintro ⟨v, hv, hmv, hv64⟩
    refine ⟨?_, fun u hu => hlow u hu.1 hu.2⟩
    rcases h2 with h | ⟨hb, i, hi, j, hj, he⟩
    · have := hlow v hv hmv
      obtain rfl : best = v := by omega
      exact ⟨hv, hmv⟩
    · exact ⟨⟨i, by omega, j, hj, he⟩, hb⟩
  · intro h
    rcases h2 with h' | ⟨hb, i, hi, j, hj, he⟩
    · exact h'
    · have := h best ⟨i, by omega, j, hj, he⟩
      omega

end Tachyon.FFT
