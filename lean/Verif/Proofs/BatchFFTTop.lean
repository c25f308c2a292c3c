import Verif.Proofs.BatchFFT
/-! `FFTBatch`, `IFFTBatch`, `CosetLDEBatch` and `NaiveBatchFFT` on matrices. -/
namespace Tachyon.FFT
open Tachyon.Group Tachyon.Parallel Tachyon.Props Tachyon.Poly Finset

variable {F : Type*} [Field F] [DecidableEq F]

omit [Field F] [DecidableEq F] in
theorem toMat_congr {rows cols : ℕ} {A B : ℕ → ℕ → F} (h : ∀ i < rows, ∀ j < cols, A i j = B i j) :
    toMat rows cols A = toMat rows cols B := by
  rw [toMat, toMat]
  refine List.map_congr_left fun i hi => ?_
  rw [toRow, toRow]
  exact List.map_congr_left fun j hj => h i (List.mem_range.1 hi) j (List.mem_range.1 hj)

omit [DecidableEq F] in
theorem dft_apply (w : F) (n : ℕ) (c : ℕ → ℕ → F) (i j : ℕ) :
    dft w n c i j = ∑ t ∈ range n, w ^ (i * t) * c t j := by
  simp [dft, Finset.sum_apply]

omit [DecidableEq F] in
theorem dft_congr (w : F) {n : ℕ} {V : Type*} [AddCommGroup V] [Module F V] {c c' : ℕ → V}
    (h : ∀ t < n, c t = c' t) (i : ℕ) : dft w n c i = dft w n c' i :=
  Finset.sum_congr rfl fun t ht => by rw [h t (Finset.mem_range.1 ht)]

omit [DecidableEq F] in
theorem eval_eq_dft {p : Polynomial F} {n : ℕ} (h : p.degree < n) (w : F) (i : ℕ) :
    p.eval (w ^ i) = dft w n (fun t => p.coeff t) i := by
  rw [dft]
  rcases Nat.eq_zero_or_pos n with rfl | hn
  · have : p = 0 := by
      rw [← Polynomial.degree_eq_bot]
      by_contra h0
      rw [Polynomial.degree_eq_natDegree (fun h1 => h0 (by rw [h1]; simp))] at h
      exact absurd h (by simp)
    simp [this]
  · have hnat : p.natDegree < n := by
      by_cases h0 : p = 0
      · rw [h0]; simpa using hn
      · rwa [Polynomial.degree_eq_natDegree h0, Nat.cast_lt] at h
    rw [Polynomial.eval_eq_sum_range' hnat]
    refine Finset.sum_congr rfl fun t _ => ?_
    rw [smul_eq_mul, ← pow_mul, mul_comm]

omit [DecidableEq F] in
/-- The coefficients of the polynomials through the columns. -/
theorem coeff_of_values {w : F} {n : ℕ} (hw : IsPrimitiveRoot w n) {c : ℕ → ℕ → F} {p : Polynomial F}
    (hp : p.degree < n) {j : ℕ} (hv : ∀ i < n, p.eval (w ^ i) = c i j) {t : ℕ} (ht : t < n) :
    dft w⁻¹ n c t j = (n : F) * p.coeff t := by
  have h := dft_dft hw (fun t => p.coeff t) ht
  rw [smul_eq_mul] at h
  rw [← h, dft_apply, dft]
  refine Finset.sum_congr rfl fun i hi => ?_
  rw [smul_eq_mul, ← hv i (Finset.mem_range.1 hi), eval_eq_dft hp]

omit [DecidableEq F] in
theorem Domain.Radix2.le63 {d : Domain F} (hd : d.Radix2) : d.logSize ≤ 63 := by
  have h := hd.1.le
  rw [hd.2] at h
  exact (Nat.pow_le_pow_iff_right (by norm_num)).1 h

theorem Item.new_batch {threads : ℕ} (o : Sched) (pvo : Bool) {d : Domain F} (hd : d.Radix2)
    (hk : 0 < d.logSize) (ht : 0 < threads) (ht' : threads ≤ 2 ^ 63) :
    ∃ item, Item.new threads o true d pvo = some item ∧ item.ForBatch d := by
  have hle := hd.1.le
  have hsz := hd.2
  have hhalf : d.size / 2 = 2 ^ (d.logSize - 1) := by
    rw [hsz, show d.logSize = d.logSize - 1 + 1 by omega, pow_succ]; simp
  have hk63 := hd.le63
  have hpow : ∀ g : F, getSuccessivePowers threads (d.size / 2) g 1 = powList d.logSize g := fun g => by
    rw [C23_powers threads _ g 1 ht (by omega) ht', hhalf, powList]
    simp only [one_mul]
  have hst : ∀ (g : F) (i : ℕ), i < d.logSize → ∃ l, stride d.size (powList d.logSize g) pvo i = some l ∧
      (i = 0 → l = powList d.logSize g) := by
    intro g i hi
    rcases Nat.eq_zero_or_pos i with rfl | h0
    · exact ⟨_, by rw [stride, if_pos rfl], fun _ => rfl⟩
    · cases pvo with
      | true => exact ⟨_, by rw [stride, if_neg (by omega), if_pos rfl], by omega⟩
      | false => exact ⟨_, stride_spec hsz hi, by omega⟩
  choose! f hf hf0 using hst
  have e1 : (List.range d.logSize).mapM (fun t => stride d.size (powList d.logSize d.gen) pvo
      (d.logSize - 1 - t)) = some ((List.range d.logSize).map fun t => f d.gen (d.logSize - 1 - t)) :=
    mapM_some fun t ht => hf d.gen _ (by rw [List.mem_range] at ht; omega)
  have e2 : (List.range d.logSize).mapM (fun i => stride d.size (powList d.logSize d.genInv) pvo i) =
      some ((List.range d.logSize).map fun i => f d.genInv i) :=
    mapM_some fun t ht => hf d.genInv _ (by rw [List.mem_range] at ht; omega)
  obtain ⟨b, eb, hb⟩ := swapBitRevCopy_spec o (k := d.logSize - 1) (by omega) fun j => d.gen ^ j
  obtain ⟨bi, ebi, hbi⟩ := swapBitRevCopy_spec o (k := d.logSize - 1) (by omega) fun j => d.genInv ^ j
  rw [Item.new, if_neg (by omega)]
  simp only [hpow]
  rw [e1, e2]
  simp only [if_true, powList]
  rw [eb, ebi]
  refine ⟨_, rfl, ?_, ?_, hb, by rw [← hd.1.genInv]; exact hbi, ?_, ?_⟩
  · simp only
    rw [List.getLast?_eq_getElem?, List.length_map, List.length_range, List.getElem?_map,
      List.getElem?_range (by omega), Option.map_some, hf0 _ _ (by omega) (by omega)]
  · simp only
    rw [List.getElem?_map, List.getElem?_range hk, Option.map_some, hf0 _ _ hk rfl, hd.1.genInv]
  · simp only [hb]; rfl
  · simp only [hbi, ← hd.1.genInv]; rfl

omit [DecidableEq F] in
/-- `FFTBatch` on a matrix. -/
theorem fftBatch_eq (o : Sched) {lanes cols : ℕ} {d : Domain F} (hd : d.Radix2)
    {item : Item F} (hi : item.ForBatch d) (c : ℕ → ℕ → F) :
    fftBatch o lanes d item (toMat d.size cols c) = some (toMat d.size cols (dft d.gen d.size c)) := by
  have hroots : item.roots.length ≠ 0 := by
    intro h
    have := hi.roots
    rw [List.length_eq_zero_iff.1 h] at this
    simp at this
  rw [fftBatch, if_neg (by rw [hi.packed, length_toMat]; simp [List.length_eq_zero_iff] at hroots ⊢; exact hroots)]
  have hrev : ∀ A : ℕ → ℕ → F, reverseRows o (toMat d.size cols A) =
      some (toMat d.size cols fun i => A (rv d.logSize i)) := fun A => by
    rw [hd.2]; exact reverseRows_eq o hd.le63 cols A
  rw [hrev, hi.roots, hi.bitrev, hi.packed]
  simp only [List.getElem?_cons_zero, List.getElem?_cons_succ]
  rw [twoHalves_eq o hd.le63 hd.2 hd.half]
  simp only
  rw [hrev]
  congr 1
  refine toMat_congr fun i h _ _ => ?_
  rw [rv_rv (by rw [← hd.2]; exact h)]

/-! ### `IFFTBatch` -/

omit [DecidableEq F] in
theorem scaleRow_toMat {n cols r : ℕ} (hr : r < n) (A : ℕ → ℕ → F) (w : F) :
    scaleRow (toMat n cols A) r w = some (toMat n cols fun i => if i = r then w • A i else A i) := by
  rw [scaleRow, toMat_getElem?, if_pos hr]
  simp only
  congr 1
  refine eq_toMat (by simp) fun i hi => ?_
  rw [List.getElem?_set, toMat_getElem?, toRow_map]
  simp only [length_toMat, hr, hi, if_true]
  split
  · next h => rw [if_pos h.symm, h]
  · next h => rw [if_neg (fun h' => h h'.symm)]

omit [DecidableEq F] in
theorem dft_neg {w : F} {n : ℕ} (hw : IsPrimitiveRoot w n) (c : ℕ → ℕ → F) {i i' : ℕ}
    (h : (i + i') % n = 0) : dft w n c i = dft w⁻¹ n c i' := by
  rw [dft, dft]
  refine Finset.sum_congr rfl fun t _ => ?_
  congr 1
  rcases Nat.eq_zero_or_pos n with rfl | hn
  · have : i = 0 ∧ i' = 0 := by simpa using h
    simp [this.1, this.2]
  rw [inv_pow]
  refine eq_inv_of_mul_eq_one_left ?_
  rw [← pow_add, ← Nat.add_mul, pow_mul]
  obtain ⟨m, hm⟩ := Nat.dvd_of_mod_eq_zero h
  rw [hm, pow_mul, hw.pow_eq_one, one_pow, one_pow]

theorem ifftBatch_eq (o : Sched) {cols n : ℕ} {w : F} (hn : 0 < n) (h2 : n = 1 ∨ n % 2 = 0)
    (hw : IsPrimitiveRoot w n) {fft : List (List F) → Option (List (List F))} {mat : List (List F)}
    {c : ℕ → ℕ → F} (hf : fft mat = some (toMat n cols (dft w n c))) :
    ifftBatch o fft mat = some (toMat n cols fun t => (n : F)⁻¹ • dft w⁻¹ n c t) := by
  have hn0 := card_ne_zero hn hw
  rw [ifftBatch, hf]
  simp only
  rw [length_toMat, inv?, if_neg hn0]
  simp only
  rw [scaleRow_toMat hn]
  simp only
  rw [length_toMat, scaleRow_toMat (by omega)]
  simp only [length_toMat]
  generalize hA : (fun i => if i = n / 2 then (n : F)⁻¹ • (if i = 0 then (n : F)⁻¹ • dft w n c i else
    dft w n c i) else if i = 0 then (n : F)⁻¹ • dft w n c i else dft w n c i) = A
  have hmem : ∀ r, r ∈ o.one (List.range' 1 (n / 2 - 1)) ↔ 1 ≤ r ∧ r < n / 2 := fun r => by
    rw [(o.one_perm _).mem_iff, List.mem_range'_1]; omega
  obtain ⟨r, e, hl, hp, ho⟩ := foldlM_pairs (P := fun _ => True)
    (f := fun _ => fun a b : List F => (b.map (· * (n : F)⁻¹), a.map (· * (n : F)⁻¹)))
    (lo := fun r => r) (hi := fun r => n - r)
    (step := fun mat row => pairStep (fun a b => (b.map (· * (n : F)⁻¹), a.map (· * (n : F)⁻¹))) mat row
      (n - row))
    (l := o.one (List.range' 1 (n / 2 - 1))) (arr := toMat n cols A)
    ((o.one_perm _).nodup_iff.2 List.nodup_range') (fun _ _ _ _ => rfl)
    (fun _ _ h => absurd trivial h)
    (fun r hr _ => by
      have := (hmem r).1 hr
      rw [length_toMat]
      refine ⟨?_, ?_, ?_⟩ <;> omega)
    (fun r hr _ r' hr' _ hne => by
      have h1 := (hmem r).1 hr
      have h2 := (hmem r').1 hr'
      refine ⟨?_, ?_, ?_, ?_⟩ <;> omega)
  rw [e]
  congr 1
  refine eq_toMat (by rw [hl, length_toMat]) fun i hi => ?_
  by_cases h0 : i = 0 ∨ i = n / 2
  · rw [ho i fun r hr _ => by have := (hmem r).1 hr; constructor <;> omega, toMat_getElem?, if_pos hi, ← hA]
    congr 2
    rcases h2 with h2 | h2
    · have hi0 : i = 0 := by omega
      subst h2
      simp only [hi0, if_true]
      rw [dft_neg hw c (i := 0) (i' := 0) (by simp)]
      simp
    · simp only
      by_cases hi0 : i = 0
      · rw [if_neg (by omega), if_pos hi0, hi0, dft_neg hw c (i := 0) (i' := 0) (by simp)]
      · rw [if_pos (by omega), if_neg hi0, dft_neg hw c (i := i) (i' := i)]
        rw [show i + i = n by omega, Nat.mod_self]
  · push Not at h0
    have hAi : ∀ m, m ≠ 0 → m ≠ n / 2 → A m = dft w n c m := fun m h1 h2 => by
      rw [← hA]; simp only; rw [if_neg h2, if_neg h1]
    have key : ∀ row, 1 ≤ row → row < n / 2 →
        r[row]? = some (toRow cols ((n : F)⁻¹ • dft w⁻¹ n c row)) ∧
        r[n - row]? = some (toRow cols ((n : F)⁻¹ • dft w⁻¹ n c (n - row))) := by
      intro row h1 h3
      have := hp row ((hmem row).2 ⟨h1, h3⟩) trivial _ _
        (by rw [toMat_getElem?, if_pos (by omega)]) (by rw [toMat_getElem?, if_pos (by omega)])
      simp only [toRow_map] at this
      rw [this.1, this.2, hAi _ (by omega) (by omega), hAi _ (by omega) (by omega),
        dft_neg hw c (i := row) (i' := n - row) (by rw [show row + (n - row) = n by omega]; simp),
        dft_neg hw c (i := n - row) (i' := row) (by rw [show n - row + row = n by omega]; simp)]
      exact ⟨rfl, rfl⟩
    rcases lt_or_ge i (n / 2) with h | h
    · exact (key i (by omega) h).1
    · have := (key (n - i) (by omega) (by omega)).2
      rwa [show n - (n - i) = i by omega] at this

/-! ### `CosetLDEBatch` -/

omit [DecidableEq F] in
theorem scaleLoop_spec {k cols : ℕ} (h0 : 0 < k) (hk : k ≤ 63) (shift s : F) (A : ℕ → ℕ → F) (n : ℕ) :
    ∀ (row : ℕ) (weight : F) (a : List (List F)), row + n ≤ 2 ^ k → weight = s * shift ^ row →
      a.length = 2 ^ k →
      (∀ i, i < 2 ^ k ∧ row ≤ rv k i ∧ rv k i < row + n → a[i]? = (toMat (2 ^ k) cols A)[i]?) →
      ∃ r, scaleLoop k shift n row weight a = some r ∧ r.length = 2 ^ k ∧
        (∀ i, i < 2 ^ k ∧ row ≤ rv k i ∧ rv k i < row + n →
          r[i]? = (toMat (2 ^ k) cols fun i => (s * shift ^ rv k i) • A i)[i]?) ∧
        ∀ i, ¬ (i < 2 ^ k ∧ row ≤ rv k i ∧ rv k i < row + n) → r[i]? = a[i]? := by
  induction n with
  | zero => intro row weight a _ _ ha _; exact ⟨a, rfl, ha, fun i hi => by omega, fun _ _ => rfl⟩
  | succ n ih =>
    intro row weight a hle hwt ha hin
    obtain ⟨q, eq, hq⟩ := reverseBitsLen_rv h0 (show k ≤ 64 by omega) (show row < 2 ^ k by omega)
    have hrr : rv k (rv k row) = row := rv_rv (by omega)
    have hrl := rv_lt k row
    have hget : a[rv k row]? = some (toRow cols (A (rv k row))) := by
      rw [hin _ ⟨hrl, by omega, by omega⟩, toMat_getElem?, if_pos hrl]
    have hne : ∀ i, i < 2 ^ k → i ≠ rv k row → rv k i ≠ row := fun i hi h h' => h (by
      rw [← h', rv_rv hi])
    obtain ⟨r, e, hl, h1, h2⟩ := ih (row + 1) (weight * shift)
      (a.set (rv k row) ((toRow cols (A (rv k row))).map (· * weight))) (by omega)
      (by rw [hwt, pow_succ]; ring) (by simpa using ha)
      (fun i hi => by
        rw [List.getElem?_set, if_neg (fun h => by rw [← h, hrr] at hi; omega)]
        exact hin i (by omega))
    refine ⟨r, ?_, hl, fun i hi => ?_, fun i hi => ?_⟩
    · rw [scaleLoop, eq]
      simp only
      rw [hq, scaleRow, hget]
      exact e
    · by_cases hir : i = rv k row
      · rw [h2 i (by rw [hir, hrr]; omega), List.getElem?_set, hir, if_pos rfl, if_pos (by omega),
          toMat_getElem?, if_pos hrl, hrr, toRow_map, hwt]
      · exact h1 i (by have := hne i hi.1 hir; omega)
    · rw [h2 i (by omega), List.getElem?_set, if_neg (fun h => hi (by rw [← h, hrr]; omega))]

omit [DecidableEq F] in
theorem scaleAll_eq {threads k cols : ℕ} (o : Sched) (ht : 0 < threads) (ht' : threads ≤ 2 ^ 63)
    (h0 : 0 < k) (hk : k ≤ 63) (shift s : F) (A : ℕ → ℕ → F) :
    (o.two (invocations (2 ^ k) (numElementsPerThread threads (2 ^ k) none))).foldlM
      (scaleChunk k (numElementsPerThread threads (2 ^ k) none) s shift) (toMat (2 ^ k) cols A) =
    some (toMat (2 ^ k) cols fun i => (s * shift ^ rv k i) • A i) := by
  have h63 : (2 : ℕ) ^ k ≤ 2 ^ 63 := Nat.pow_le_pow_right (by norm_num) hk
  obtain ⟨hp, hle, -⟩ := sizePerThread_bounds ht (total := 2 ^ k) (by omega) none
  rw [numElementsPerThread]
  have hcs := hp.2 (by positivity)
  generalize sizePerThread threads (2 ^ k) none = cs at *
  have hsz : 2 ^ k + cs ≤ 2 ^ 64 := by omega
  have hmem : ∀ ch, ch ∈ o.two (invocations (2 ^ k) cs) ↔
      ch.1 < numChunks (2 ^ k) cs ∧ ch.2 = chunkLen (2 ^ k) cs ch.1 := fun ch => by
    rw [(o.two_perm _).mem_iff, mem_invocations hcs]
  have hnd : (o.two (invocations (2 ^ k) cs)).Nodup := by
    rw [(o.two_perm _).nodup_iff, invocations, if_neg (by omega)]
    exact List.nodup_range.map fun i j h => (Prod.ext_iff.1 h).1
  have hreg : ∀ ch, ch ∈ o.two (invocations (2 ^ k) cs) → ∀ x, ch.1 * cs ≤ x → x < ch.1 * cs + ch.2 →
      x / cs = ch.1 := by
    intro ch hch x h1 h2
    obtain ⟨h3, h4⟩ := (hmem ch).1 hch
    have := (chunk_bounds hcs hsz h3).2.2.2
    exact (mem_block hcs).1 ⟨h1, by omega⟩
  obtain ⟨r, e, hl, h, -⟩ := foldlM_regions (n := 2 ^ k)
    (R := fun ch : ℕ × ℕ => fun i => i < 2 ^ k ∧ ch.1 * cs ≤ rv k i ∧ rv k i < ch.1 * cs + ch.2)
    (init := toMat (2 ^ k) cols A) (fin := toMat (2 ^ k) cols fun i => (s * shift ^ rv k i) • A i)
    (step := scaleChunk k cs s shift) hnd
    (fun ch hch a ha hin => by
      obtain ⟨h3, h4⟩ := (hmem ch).1 hch
      obtain ⟨h5, h6, -, -⟩ := chunk_bounds hcs hsz h3
      rw [scaleChunk]
      refine scaleLoop_spec h0 hk shift s A ch.2 (ch.1 * cs) _ a (by omega) ?_ ha hin
      rw [powSize_eq _ (by omega)])
    (fun x hx y hy hne i h1 h2 => by
      have hx1 := hreg x hx _ h1.2.1 h1.2.2
      have hy1 := hreg y hy _ h2.2.1 h2.2.2
      have h12 : x.1 = y.1 := hx1.symm.trans hy1
      exact hne (Prod.ext h12 (by rw [((hmem x).1 hx).2, ((hmem y).1 hy).2, h12])))
    (toMat (2 ^ k) cols A) (by simp) (fun _ _ _ _ => rfl)
  rw [e]
  congr 1
  refine List.ext_getElem? fun i => ?_
  by_cases hi : i < 2 ^ k
  · have hr := rv_lt k i
    have hq : rv k i / cs < numChunks (2 ^ k) cs := by
      rw [Nat.div_lt_iff_lt_mul hcs]
      exact lt_of_lt_of_le hr (numChunks_bounds hcs hsz).1
    obtain ⟨h5, h6, h7, h8⟩ := chunk_bounds hcs hsz hq
    refine h (rv k i / cs, chunkLen (2 ^ k) cs (rv k i / cs)) ((hmem _).2 ⟨hq, rfl⟩) i ⟨hi, ?_, ?_⟩
    · exact Nat.div_mul_le_self _ _
    · simp only
      rw [h6]
      have := Nat.lt_mul_div_succ (rv k i) hcs
      rw [Nat.mul_comm] at this
      omega
  · rw [List.getElem?_eq_none (by omega), List.getElem?_eq_none (by simp; omega)]

omit [DecidableEq F] in
theorem expandZeroPad_eq {k a cols : ℕ} (ha : a ≠ 0) (e : ℕ → ℕ → F) :
    expandZeroPad cols a (toMat (2 ^ k) cols fun i => e (rv k i)) =
      some (toMat (2 ^ (k + a)) cols fun i => if rv (k + a) i < 2 ^ k then e (rv (k + a) i) else 0) := by
  rw [expandZeroPad, if_neg ha, length_toMat, ← pow_add]
  refine (mapM_some (g := fun i => toRow cols (if rv (k + a) i < 2 ^ k then e (rv (k + a) i) else 0))
    fun i hi => ?_)
  rw [List.mem_range] at hi
  have hdm := Nat.div_add_mod i (2 ^ a)
  have hm := Nat.mod_lt i (show 0 < 2 ^ a by positivity)
  have hrv := rv_append a k (i / 2 ^ a) (i % 2 ^ a) hm
  rw [Nat.mul_comm (i / 2 ^ a), hdm, Nat.add_comm a k] at hrv
  have hlt : i / 2 ^ a < 2 ^ k := by
    rw [Nat.div_lt_iff_lt_mul (by positivity), ← pow_add]; exact hi
  split
  · next h =>
    rw [h, rv_zero, Nat.zero_mul, Nat.zero_add] at hrv
    rw [toMat_getElem?, if_pos hlt, hrv, if_pos (rv_lt _ _)]
  · next h =>
    have : 0 < rv a (i % 2 ^ a) := by
      rcases Nat.eq_zero_or_pos (rv a (i % 2 ^ a)) with h0 | h0
      · exact absurd (rv_inj hm (by positivity) (h0.trans (rv_zero a).symm)) h
      · exact h0
    have := Nat.mul_le_mul_right (2 ^ k) (show 1 ≤ rv a (i % 2 ^ a) from this)
    rw [if_neg (by omega)]
    congr 1
    refine List.ext_getElem? fun j => ?_
    rw [toRow, List.getElem?_replicate, List.getElem?_map]
    split
    · next hj => rw [List.getElem?_range hj]; rfl
    · next hj => rw [List.getElem?_eq_none (by simpa using hj)]; rfl

theorem cosetLDE_eq {threads : ℕ} (o : Sched) {lanes cols : ℕ} {cfg : RootConfig F} (hcfg : cfg.Valid)
    {cache : Domain F → Option (Item F)}
    (hcache : ∀ d' : Domain F, d'.Radix2 → 0 < d'.logSize → ∃ it, cache d' = some it ∧ it.ForBatch d')
    {d : Domain F} (hd : d.Radix2) (hk : 0 < d.logSize) {item : Item F} (hi : item.ForBatch d)
    (ht : 0 < threads) (ht' : threads ≤ 2 ^ 63) {a : ℕ} (ha : d.logSize + a ≤ cfg.twoAdicity)
    (ha' : d.logSize + a ≤ 63) {shift : F} {outRows outCols : ℕ}
    (hout : a ≠ 0 → outRows = d.size * 2 ^ a ∧ outCols = cols) (c : ℕ → ℕ → F) {p : ℕ → Polynomial F}
    (hp : ∀ j < cols, (p j).degree < d.size ∧ ∀ i < d.size, (p j).eval (d.gen ^ i) = c i j)
    (rev : Bool) :
    ∃ w, getRootOfUnity cfg (2 ^ (d.logSize + a)) = some (some w) ∧
      IsPrimitiveRoot w (2 ^ (d.logSize + a)) ∧
      cosetLDE threads o lanes cfg cache d item (toMat d.size cols c) cols a shift outRows outCols rev =
        some (toMat (2 ^ (d.logSize + a)) cols fun i j =>
          (p j).eval (shift * w ^ (if rev then i else rv (d.logSize + a) i))) := by
  obtain ⟨w, hw1, hw2⟩ := (getRootOfUnity_pow hcfg ha').1 ha
  refine ⟨w, hw1, hw2, ?_⟩
  have hroots : item.roots.length ≠ 0 := by
    intro h
    have := hi.roots
    rw [List.length_eq_zero_iff.1 h] at this
    simp at this
  rw [cosetLDE, if_neg (by rw [hi.packed, length_toMat]; simp [List.length_eq_zero_iff] at hroots ⊢; exact hroots)]
  have hrev : ∀ A : ℕ → ℕ → F, reverseRows o (toMat d.size cols A) =
      some (toMat d.size cols fun i => A (rv d.logSize i)) := fun A => by
    rw [hd.2]; exact reverseRows_eq o hd.le63 cols A
  rw [hrev, hi.invRoots, hi.bitrevInv, hi.packedInv]
  simp only [List.getElem?_cons_zero, List.getElem?_cons_succ]
  have hhalf : 0 < d.logSize → d.gen⁻¹ ^ 2 ^ (d.logSize - 1) = -1 := fun h => by
    rw [inv_pow, hd.half h]; norm_num
  rw [twoHalves_eq o hd.le63 hd.2 hhalf]
  simp only
  rw [hd.2, scaleAll_eq o ht ht' hk hd.le63, ← hd.2]
  simp only [length_toMat]
  generalize he : (fun t => (d.sizeInv * shift ^ t) • dft d.gen⁻¹ d.size c t) = e
  have hn0 := card_ne_zero hd.1.pos hd.1.prim
  have hcoef : ∀ t < d.size, ∀ j < cols, e t j = shift ^ t * (p j).coeff t := by
    intro t ht j hj
    rw [← he]
    simp only [Pi.smul_apply, smul_eq_mul]
    rw [coeff_of_values hd.1.prim (hp j hj).1 (hp j hj).2 ht, hd.1.sizeInv]
    field_simp
  have hee : (fun i => (d.sizeInv * shift ^ rv d.logSize i) • dft d.gen⁻¹ d.size c (rv d.logSize i)) =
      fun i => e (rv d.logSize i) := by rw [← he]
  rw [hee]
  generalize hE : (fun t => if t < d.size then e t else 0) = e'
  have hstep : (if a = 0 then some (toMat d.size cols fun i => e (rv d.logSize i))
      else if outRows ≠ d.size * 2 ^ a ∨ outCols ≠ cols then none
      else expandZeroPad cols a (toMat d.size cols fun i => e (rv d.logSize i))) =
      some (toMat (2 ^ (d.logSize + a)) cols fun i => e' (rv (d.logSize + a) i)) := by
    split
    · next h =>
      subst h
      rw [Nat.add_zero, ← hd.2]
      congr 1
      refine toMat_congr fun i hi j hj => ?_
      rw [← hE]; simp only
      rw [if_pos (by rw [hd.2]; exact rv_lt _ _)]
    · next h =>
      rw [if_neg (by have := hout h; tauto), hd.2, expandZeroPad_eq h, ← hE, hd.2]
  rw [hstep]
  simp only [length_toMat]
  rw [(C53_checkedLog2 _ _).2 (ofNat_pow_toNat ha')]
  simp only
  obtain ⟨d', ed', hd1, hd2, hd3, hd4, hd5⟩ := Domain.new_spec (cfg := cfg)
    (logSize := d.logSize + a) (by positivity) (Nat.pow_le_pow_right (by norm_num) ha') hw2 hw1
  rw [ed']
  simp only
  have hr2 : d'.Radix2 := ⟨hd1, by rw [hd2, hd3]⟩
  obtain ⟨it, eit, hit⟩ := hcache d' hr2 (by omega)
  rw [eit]
  simp only
  rw [hit.roots, hit.bitrev, hit.packed]
  simp only [List.getElem?_cons_zero, List.getElem?_cons_succ]
  have hth := twoHalves_eq (lanes := lanes) (cols := cols) o (d := d') (w := d'.gen) (by omega) hr2.2
    hr2.half e'
  rw [hd3, hd2, hd4] at hth
  rw [hd3, hd4, hth]
  simp only
  have hval : ∀ i, ∀ j < cols, dft w (2 ^ (d.logSize + a)) e' i j = (p j).eval (shift * w ^ i) := by
    intro i j hj
    have hle : d.size ≤ 2 ^ (d.logSize + a) := by
      rw [hd.2]; exact Nat.pow_le_pow_right (by norm_num) (by omega)
    rw [dft_apply, ← Finset.sum_subset (Finset.range_mono hle) (fun t _ h => by
      rw [Finset.mem_range] at h
      rw [← hE]; simp only
      rw [if_neg h]; simp)]
    have hnat : (p j).natDegree < d.size := by
      have := (hp j hj).1
      by_cases h0 : p j = 0
      · rw [h0]; simpa using hd.1.pos
      · rwa [Polynomial.degree_eq_natDegree h0, Nat.cast_lt] at this
    rw [Polynomial.eval_eq_sum_range' hnat]
    refine Finset.sum_congr rfl fun t ht => ?_
    rw [Finset.mem_range] at ht
    rw [← hE]; simp only
    rw [if_pos ht, hcoef t ht j hj]
    ring
  cases rev with
  | true =>
    simp only [if_true]
    rw [reverseRows_eq o ha']
    congr 1
    refine toMat_congr fun i hi j hj => ?_
    rw [rv_rv hi, hval i j hj]
  | false =>
    simp only [Bool.false_eq_true, if_false]
    congr 1
    exact toMat_congr fun i hi j hj => hval _ j hj

/-! ### `NaiveBatchFFT` -/

omit [DecidableEq F] in
theorem replicate_zero (cols : ℕ) : List.replicate cols (0 : F) = toRow cols 0 := by
  refine List.ext_getElem? fun j => ?_
  rw [toRow, List.getElem?_replicate, List.getElem?_map]
  split
  · next hj => rw [List.getElem?_range hj]; rfl
  · next hj => rw [List.getElem?_eq_none (by simpa using hj)]; rfl

omit [DecidableEq F] in
theorem naiveRow_eq (cols : ℕ) (b : F) : ∀ (l : List (ℕ → F)) (pow : F) (f : ℕ → F),
    naiveRow b (l.map (toRow cols)) pow (toRow cols f) =
      toRow cols (f + ∑ t ∈ range l.length, (pow * b ^ t) • l.getD t 0)
  | [], pow, f => by simp [naiveRow]
  | a :: l, pow, f => by
    have hz : List.zipWith (fun r m => r + pow * m) (toRow cols f) (toRow cols a) =
        toRow cols (f + pow • a) := by
      simp [toRow, List.zipWith_map, List.zipWith_self]
    rw [List.map_cons, naiveRow, hz, naiveRow_eq cols b l, List.length_cons, Finset.sum_range_succ']
    congr 1
    have : ∀ t, (pow * b * b ^ t) • l.getD t 0 = (pow * b ^ (t + 1)) • (a :: l).getD (t + 1) 0 :=
      fun t => by rw [pow_succ']; simp [mul_assoc]
    simp only [this]
    simp
    abel

omit [DecidableEq F] in
theorem naiveChunk_eq (g : F) (mat : List (List F)) (row : List F) : ∀ (n : ℕ) (b : F),
    naiveChunk g mat (List.replicate n row) b = (List.range n).map fun r => naiveRow (b * g ^ r) mat 1 row
  | 0, b => rfl
  | n + 1, b => by
    rw [List.replicate_succ, naiveChunk, naiveChunk_eq g mat row n, List.range_succ_eq_map, List.map_cons,
      List.map_map]
    simp only [pow_zero, mul_one, Function.comp_def, Nat.succ_eq_add_one, pow_succ', mul_assoc]

omit [DecidableEq F] in
theorem naiveFFT_eq {threads : ℕ} {cfg : RootConfig F} {k cols : ℕ} (hk : k ≤ 63) {w : F}
    (hr : getRootOfUnity cfg (2 ^ k) = some (some w)) (ht : 0 < threads) (ht' : threads ≤ 2 ^ 63)
    (c : ℕ → ℕ → F) :
    naiveFFT threads cfg cols (toMat (2 ^ k) cols c) = some (toMat (2 ^ k) cols (dft w (2 ^ k) c)) := by
  have h63 : (2 : ℕ) ^ k ≤ 2 ^ 63 := Nat.pow_le_pow_right (by norm_num) hk
  rw [naiveFFT, length_toMat, if_pos ((C53_isPowerOfTwo _).2 ⟨k, ofNat_pow_toNat hk⟩), hr]
  simp only
  congr 1
  refine parallelize_eq ht (by simp; omega) (by simp; omega) (by simp) fun i cs len hl hle => ?_
  rw [List.length_replicate] at hle
  have h1 : chunkOf (List.replicate (2 ^ k) (List.replicate cols (0 : F))) cs (i, len) =
      List.replicate len (List.replicate cols 0) := by
    simp [chunkOf]; omega
  have h2 := replicate_zero (F := F) cols
  have h3 : toMat (2 ^ k) cols c = ((List.range (2 ^ k)).map c).map (toRow cols) := by
    rw [toMat, List.map_map]; rfl
  rw [h1, naiveChunk_eq, powSize_eq _ (by omega)]
  refine List.ext_getElem? fun r => ?_
  by_cases hr : r < len
  · rw [getElem?_chunkOf hr, toMat_getElem?, if_pos (by omega), List.getElem?_map, List.getElem?_range hr,
      Option.map_some, h2, h3, naiveRow_eq]
    congr 2
    rw [zero_add, dft, List.length_map, List.length_range]
    refine Finset.sum_congr rfl fun t ht => ?_
    rw [Finset.mem_range] at ht
    rw [List.getD_eq_getElem?_getD, List.getElem?_map, List.getElem?_range ht, one_mul, ← pow_add, ← pow_mul]
    rfl
  · rw [List.getElem?_eq_none (by simp; omega), List.getElem?_eq_none (by
      rw [chunkOf, List.length_take]; omega)]

omit [DecidableEq F] in
theorem rowsLoop_eq (shift : F) : ∀ (l : List (List F)) (w : F),
    rowsLoop shift l w = l.mapIdx fun i row => row.map (· * (w * shift ^ i))
  | [], w => rfl
  | a :: l, w => by
    rw [rowsLoop, rowsLoop_eq shift l, List.mapIdx_cons]
    simp only [pow_zero, mul_one, pow_succ', mul_assoc]

omit [DecidableEq F] in
theorem naiveCosetFFT_eq {threads : ℕ} {cfg : RootConfig F} {k cols : ℕ} (hk : k ≤ 63) {w : F}
    (hr : getRootOfUnity cfg (2 ^ k) = some (some w)) (ht : 0 < threads) (ht' : threads ≤ 2 ^ 63)
    (shift : F) (c : ℕ → ℕ → F) :
    naiveCosetFFT threads cfg cols (toMat (2 ^ k) cols c) shift =
      some (toMat (2 ^ k) cols (dft w (2 ^ k) fun t => shift ^ t • c t)) := by
  have h63 : (2 : ℕ) ^ k ≤ 2 ^ 63 := Nat.pow_le_pow_right (by norm_num) hk
  rw [naiveCosetFFT, ← naiveFFT_eq hk hr ht ht']
  congr 1
  refine parallelize_eq ht (by simp; omega) (by simp; omega) (by simp) fun i cs len hl hle => ?_
  rw [length_toMat] at hle
  rw [rowsLoop_eq, powSize_eq _ (by omega)]
  refine List.ext_getElem? fun r => ?_
  rw [List.getElem?_mapIdx]
  by_cases hr : r < len
  · rw [getElem?_chunkOf hr, getElem?_chunkOf hr, toMat_getElem?, toMat_getElem?, if_pos (by omega),
      if_pos (by omega), Option.map_some, toRow_map, ← pow_add]
  · rw [List.getElem?_eq_none (by rw [chunkOf, List.length_take]; omega),
      List.getElem?_eq_none (by rw [chunkOf, List.length_take]; omega)]
    rfl

theorem naiveCosetLDE_eq {threads : ℕ} (o : Sched) {cols : ℕ} {cfg : RootConfig F} (hcfg : cfg.Valid)
    (ht : 0 < threads) (ht' : threads ≤ 2 ^ 63) {k a : ℕ} (ha : k + a ≤ cfg.twoAdicity)
    (ha' : k + a ≤ 63) {shift g : F} (hg : getRootOfUnity cfg (2 ^ k) = some (some g)) (c : ℕ → ℕ → F)
    {p : ℕ → Polynomial F}
    (hp : ∀ j < cols, (p j).degree < (2 ^ k : ℕ) ∧ ∀ i < 2 ^ k, (p j).eval (g ^ i) = c i j) :
    ∃ w, getRootOfUnity cfg (2 ^ (k + a)) = some (some w) ∧ IsPrimitiveRoot w (2 ^ (k + a)) ∧
      naiveCosetLDE threads o cfg cols (toMat (2 ^ k) cols c) a shift (2 ^ k * 2 ^ a) cols =
        some (toMat (2 ^ (k + a)) cols fun i j => (p j).eval (shift * w ^ i)) := by
  obtain ⟨w, hw1, hw2⟩ := (getRootOfUnity_pow hcfg ha').1 ha
  refine ⟨w, hw1, hw2, ?_⟩
  obtain ⟨g', hg1, hg2⟩ := (getRootOfUnity_pow hcfg (show k ≤ 63 by omega)).1 (by omega)
  obtain rfl : g = g' := by rw [hg] at hg1; simpa using hg1
  have hn0 := card_ne_zero (by positivity) hg2
  rw [naiveCosetLDE, length_toMat, if_neg (by simp),
    ifftBatch_eq o (by positivity) (by
      rcases Nat.eq_zero_or_pos k with rfl | h
      · left; simp
      · right; rw [show k = k - 1 + 1 by omega, pow_succ]; simp) hg2
      (naiveFFT_eq (by omega) hg ht ht' c)]
  simp only
  generalize he : (fun t => (((2 ^ k : ℕ) : F))⁻¹ • dft g⁻¹ (2 ^ k) c t) = e
  have hcoef : ∀ t < 2 ^ k, ∀ j < cols, e t j = (p j).coeff t := by
    intro t ht j hj
    rw [← he]
    simp only [Pi.smul_apply, smul_eq_mul]
    rw [coeff_of_values hg2 (hp j hj).1 (hp j hj).2 ht, inv_mul_cancel_left₀ hn0]
  have hpad : toMat (2 ^ k) cols e ++ List.replicate (2 ^ k * 2 ^ a - 2 ^ k) (List.replicate cols 0) =
      toMat (2 ^ (k + a)) cols fun t => if t < 2 ^ k then e t else 0 := by
    have hle : 2 ^ k ≤ 2 ^ k * 2 ^ a := Nat.le_mul_of_pos_right _ (by positivity)
    refine eq_toMat (by simp [pow_add]; omega) fun i hi => ?_
    rw [List.getElem?_append, length_toMat]
    split
    · next h => rw [toMat_getElem?, if_pos h]
    · next h =>
      rw [pow_add] at hi
      rw [List.getElem?_replicate, if_pos (by omega)]
      rw [replicate_zero]
  rw [hpad, naiveCosetFFT_eq ha' hw1 ht ht']
  congr 1
  refine toMat_congr fun i hi j hj => ?_
  have hle : 2 ^ k ≤ 2 ^ (k + a) := Nat.pow_le_pow_right (by norm_num) (by omega)
  rw [dft_apply, ← Finset.sum_subset (Finset.range_mono hle) (fun t _ h => by
    rw [Finset.mem_range] at h
    simp [h])]
  have hnat : (p j).natDegree < 2 ^ k := by
    have := (hp j hj).1
    by_cases h0 : p j = 0
    · rw [h0]; simp
    · rwa [Polynomial.degree_eq_natDegree h0, Nat.cast_lt] at this
  rw [Polynomial.eval_eq_sum_range' hnat]
  refine Finset.sum_congr rfl fun t ht => ?_
  rw [Finset.mem_range] at ht
  simp only [ht, if_true, Pi.smul_apply, smul_eq_mul]
  rw [hcoef t ht j hj]
  ring

end Tachyon.FFT
