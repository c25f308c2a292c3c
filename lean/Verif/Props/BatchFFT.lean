import Mathlib.LinearAlgebra.Lagrange
import Verif.Proofs.BatchFFTTop
import Verif.Props.FFT
/-! C62: transforms of the columns of a matrix. -/
namespace Tachyon.Props
open Tachyon.FFT Tachyon.Poly Tachyon.Group Tachyon.Parallel Polynomial

variable {F : Type*} [Field F] [DecidableEq F]

/-- C62: for small fields the constructor of `Item` builds everything that the batch transforms read, for
both values of `packed_vec_only`. -/
theorem C62_item (threads : ℕ) (o : Sched) (packedVecOnly : Bool) {d : Domain F} (hd : d.Radix2)
    (hk : 0 < d.logSize) (ht : 0 < threads) (ht' : threads ≤ 2 ^ 63) :
    ∃ item, Item.new threads o true d packedVecOnly = some item ∧ item.ForBatch d :=
  Item.new_batch o packedVecOnly hd hk ht ht'

omit [DecidableEq F] in
theorem dft_column {mat : List (List F)} {n : ℕ} (hn : mat.length = n) (w : F) (i j : ℕ) :
    dft w n (fun i j => (column mat j).getD i 0) i j = (dpoly (column mat j)).eval (w ^ i) := by
  rw [dft_apply, eval_dpoly (n := n) (by simp [column, hn])]
  refine Finset.sum_congr rfl fun t _ => ?_
  rw [← pow_mul, mul_comm]

omit [DecidableEq F] in
/-- C62: `FFTBatch` replaces every column by the values of its polynomial at `gen^i`, in order, for every
number of columns and lanes and every order of the parallel loops. -/
theorem C62_fftBatch (o : Sched) (lanes : ℕ) {cols : ℕ} {d : Domain F} (hd : d.Radix2) {item : Item F}
    (hi : item.ForBatch d) {mat : List (List F)} (hr : mat.length = d.size)
    (hc : ∀ row ∈ mat, row.length = cols) :
    fftBatch o lanes d item mat = some ((List.range d.size).map fun i => (List.range cols).map fun j =>
      (dpoly (column mat j)).eval (d.gen ^ i)) := by
  have := fftBatch_eq (lanes := lanes) (cols := cols) o hd hi fun i j => (column mat j).getD i 0
  rw [← hr, ← mat_eq_toMat hc] at this
  rw [this, hr]
  congr 1
  exact toMat_congr fun i _ j _ => dft_column hr _ i j

omit [DecidableEq F] in
theorem exists_poly {w : F} {n : ℕ} (hw : IsPrimitiveRoot w n) (c : ℕ → ℕ → F) :
    ∃ p : ℕ → F[X], ∀ j, (p j).degree < n ∧ ∀ i < n, (p j).eval (w ^ i) = c i j := by
  classical
  have hinj : Set.InjOn (fun i : ℕ => w ^ i) (Finset.range n) := fun a ha b hb h =>
    hw.pow_inj (by simpa using ha) (by simpa using hb) h
  refine ⟨fun j => Lagrange.interpolate (Finset.range n) (fun i => w ^ i) fun i => c i j, fun j => ⟨?_, ?_⟩⟩
  · simpa using Lagrange.degree_interpolate_lt (fun i => c i j) hinj
  · intro i hi
    exact Lagrange.eval_interpolate_at_node (fun i => c i j) hinj (Finset.mem_range.2 hi)

/-- C62: `IFFTBatch` recovers the coefficients: for columns that hold the values of polynomials `p j` of
degree below the number of rows it gives their coefficients. -/
theorem C62_ifftBatch (o : Sched) (lanes : ℕ) {cols : ℕ} {d : Domain F} (hd : d.Radix2)
    (hk : 0 < d.logSize) {item : Item F} (hi : item.ForBatch d) {p : ℕ → F[X]}
    (hp : ∀ j < cols, (p j).degree < d.size) :
    ifftBatch o (fftBatch o lanes d item) ((List.range d.size).map fun i => (List.range cols).map fun j =>
        (p j).eval (d.gen ^ i)) =
      some ((List.range d.size).map fun t => (List.range cols).map fun j => (p j).coeff t) := by
  have hn0 := card_ne_zero hd.1.pos hd.1.prim
  have := ifftBatch_eq o hd.1.pos (Or.inr (by
    rw [hd.2, show d.logSize = d.logSize - 1 + 1 by omega, pow_succ]; simp)) hd.1.prim
    (fftBatch_eq (lanes := lanes) (cols := cols) o hd hi fun i j => (p j).eval (d.gen ^ i))
  refine this.trans ?_
  congr 1
  refine toMat_congr fun t ht j hj => ?_
  simp only [Pi.smul_apply, smul_eq_mul]
  rw [coeff_of_values hd.1.prim (hp j hj) (fun i _ => rfl) ht, inv_mul_cancel_left₀ hn0]

/-- C62: `CosetLDEBatch` evaluates the polynomials through the columns on the coset `shift * <w>` of the
larger subgroup: in order with `reverse_at_last`, in bit-reversed order without. -/
theorem C62_cosetLDE {threads : ℕ} (o : Sched) (lanes : ℕ) {cols : ℕ} {cfg : RootConfig F}
    (hcfg : cfg.Valid) {cache : Domain F → Option (Item F)}
    (hcache : ∀ d' : Domain F, d'.Radix2 → 0 < d'.logSize → ∃ it, cache d' = some it ∧ it.ForBatch d')
    {d : Domain F} (hd : d.Radix2) (hk : 0 < d.logSize) {item : Item F} (hi : item.ForBatch d)
    (ht : 0 < threads) (ht' : threads ≤ 2 ^ 63) {a : ℕ} (ha : d.logSize + a ≤ cfg.twoAdicity)
    (ha' : d.logSize + a ≤ 63) (shift : F) {outRows outCols : ℕ}
    (hout : a ≠ 0 → outRows = d.size * 2 ^ a ∧ outCols = cols) {mat : List (List F)}
    (hr : mat.length = d.size) (hc : ∀ row ∈ mat, row.length = cols) (rev : Bool) :
    ∃ (p : ℕ → F[X]) (w : F),
      (∀ j < cols, (p j).degree < d.size ∧ ∀ i < d.size, (p j).eval (d.gen ^ i) = (column mat j).getD i 0) ∧
      getRootOfUnity cfg (2 ^ (d.logSize + a)) = some (some w) ∧
      IsPrimitiveRoot w (2 ^ (d.logSize + a)) ∧
      cosetLDE threads o lanes cfg cache d item mat cols a shift outRows outCols rev =
        some ((List.range (2 ^ (d.logSize + a))).map fun i => (List.range cols).map fun j =>
          (p j).eval (shift * w ^ (if rev then i else rv (d.logSize + a) i))) := by
  obtain ⟨p, hp⟩ := exists_poly hd.1.prim fun i j => (column mat j).getD i 0
  obtain ⟨w, h1, h2, h3⟩ := cosetLDE_eq (lanes := lanes) (shift := shift) o hcfg hcache hd hk hi ht ht' ha
    ha' hout _ (fun j _ => hp j) rev
  rw [← hr, ← mat_eq_toMat hc] at h3
  exact ⟨p, w, fun j _ => hp j, h1, h2, h3⟩

omit [DecidableEq F] in
/-- C62: `NaiveBatchFFT::FFTBatch` computes the same values, also for a single row. -/
theorem C62_naiveFFT {threads : ℕ} {cfg : RootConfig F} (hcfg : cfg.Valid) {k cols : ℕ} (hk : k ≤ 63)
    (hk' : k ≤ cfg.twoAdicity) (ht : 0 < threads) (ht' : threads ≤ 2 ^ 63) {mat : List (List F)}
    (hr : mat.length = 2 ^ k) (hc : ∀ row ∈ mat, row.length = cols) :
    ∃ w, getRootOfUnity cfg (2 ^ k) = some (some w) ∧ IsPrimitiveRoot w (2 ^ k) ∧
      naiveFFT threads cfg cols mat = some ((List.range (2 ^ k)).map fun i => (List.range cols).map fun j =>
        (dpoly (column mat j)).eval (w ^ i)) := by
  obtain ⟨w, h1, h2⟩ := (getRootOfUnity_pow hcfg hk).1 hk'
  refine ⟨w, h1, h2, ?_⟩
  have := naiveFFT_eq (cols := cols) hk h1 ht ht' fun i j => (column mat j).getD i 0
  rw [← hr, ← mat_eq_toMat hc] at this
  rw [this, hr]
  congr 1
  exact toMat_congr fun i _ j _ => dft_column hr _ i j

/-- C62: `NaiveBatchFFT::CosetLDEBatch` evaluates the polynomials through the columns on the coset. -/
theorem C62_naiveCosetLDE {threads : ℕ} (o : Sched) {cols : ℕ} {cfg : RootConfig F} (hcfg : cfg.Valid)
    (ht : 0 < threads) (ht' : threads ≤ 2 ^ 63) {k a : ℕ} (ha : k + a ≤ cfg.twoAdicity)
    (ha' : k + a ≤ 63) (shift : F) {mat : List (List F)} (hr : mat.length = 2 ^ k)
    (hc : ∀ row ∈ mat, row.length = cols) :
    ∃ (p : ℕ → F[X]) (g w : F), getRootOfUnity cfg (2 ^ k) = some (some g) ∧ IsPrimitiveRoot g (2 ^ k) ∧
      (∀ j < cols, (p j).degree < (2 ^ k : ℕ) ∧ ∀ i < 2 ^ k, (p j).eval (g ^ i) = (column mat j).getD i 0) ∧
      getRootOfUnity cfg (2 ^ (k + a)) = some (some w) ∧ IsPrimitiveRoot w (2 ^ (k + a)) ∧
      naiveCosetLDE threads o cfg cols mat a shift (2 ^ k * 2 ^ a) cols =
        some ((List.range (2 ^ (k + a))).map fun i => (List.range cols).map fun j =>
          (p j).eval (shift * w ^ i)) := by
  obtain ⟨g, hg1, hg2⟩ := (getRootOfUnity_pow hcfg (show k ≤ 63 by omega)).1 (by omega)
  obtain ⟨p, hp⟩ := exists_poly hg2 fun i j => (column mat j).getD i 0
  obtain ⟨w, h1, h2, h3⟩ := naiveCosetLDE_eq (shift := shift) o hcfg ht ht' ha ha' hg1 _
    fun j _ => hp j
  rw [← hr, ← mat_eq_toMat hc, hr] at h3
  exact ⟨p, g, w, hg1, hg2, fun j _ => hp j, h1, h2, h3⟩

/-- C62: both implementations of the low degree extension agree on a domain made from the same
configuration. -/
theorem C62_agree {threads : ℕ} (o o' : Sched) (lanes : ℕ) {cols : ℕ} {cfg : RootConfig F}
    (hcfg : cfg.Valid) {cache : Domain F → Option (Item F)}
    (hcache : ∀ d' : Domain F, d'.Radix2 → 0 < d'.logSize → ∃ it, cache d' = some it ∧ it.ForBatch d')
    {d : Domain F} (hd : d.Radix2) (hgen : getRootOfUnity cfg d.size = some (some d.gen))
    (hk : 0 < d.logSize) {item : Item F} (hi : item.ForBatch d)
    (ht : 0 < threads) (ht' : threads ≤ 2 ^ 63) {a : ℕ} (ha : d.logSize + a ≤ cfg.twoAdicity)
    (ha' : d.logSize + a ≤ 63) (shift : F) {mat : List (List F)}
    (hr : mat.length = d.size) (hc : ∀ row ∈ mat, row.length = cols) :
    cosetLDE threads o lanes cfg cache d item mat cols a shift (d.size * 2 ^ a) cols true =
      naiveCosetLDE threads o' cfg cols mat a shift (d.size * 2 ^ a) cols := by
  obtain ⟨p, hp⟩ := exists_poly hd.1.prim fun i j => (column mat j).getD i 0
  obtain ⟨w, h1, h2, h3⟩ := cosetLDE_eq (lanes := lanes) (shift := shift) (cols := cols) o hcfg hcache hd
    hk hi ht ht' ha ha' (fun _ => ⟨rfl, rfl⟩) _ (fun j _ => hp j) true
  obtain ⟨w', h1', h2', h3'⟩ := naiveCosetLDE_eq (shift := shift) (cols := cols) o' hcfg ht ht' ha ha'
    (g := d.gen) (by rw [← hd.2]; exact hgen) _ fun j _ => by rw [← hd.2]; exact hp j
  obtain rfl : w = w' := by rw [h1] at h1'; simpa using h1'
  have e : toMat d.size cols (fun i j => (column mat j).getD i 0) = mat := by
    rw [← hr]; exact (mat_eq_toMat hc).symm
  rw [← hd.2, e] at h3'
  rw [e] at h3
  rw [h3, h3']
  simp only [if_true]

/-- C62, false of the code: a single row is a valid input, but the item of a domain of size one has no
roots, and `FFTBatch` and `CosetLDEBatch` fail a `CHECK`. -/
theorem C62_single_row (threads : ℕ) (o o' : Sched) (lanes : ℕ) (packedVecOnly : Bool) {d : Domain F}
    (hk : d.logSize = 0) (mat : List (List F)) :
    ∃ item, Item.new threads o true d packedVecOnly = some item ∧ fftBatch o' lanes d item mat = none ∧
      ∀ cfg cache cols a shift outRows outCols rev,
        cosetLDE threads o' lanes cfg cache d item mat cols a shift outRows outCols rev = none := by
  refine ⟨⟨[], [], [], [], [], [], none⟩, by rw [Item.new, if_pos hk], ?_, ?_⟩
  · rw [fftBatch, if_pos (Or.inl (by rfl))]
  · intro cfg cache cols a shift outRows outCols rev
    rw [cosetLDE, if_pos (Or.inl (by rfl))]

/-! ### Examples over the field with 17 elements -/

/-- The item of `exMain` for the batch transforms. -/
def exBatch : Item F17 :=
  ⟨[[1], [1, 13], [1, 9, 13, 15]], [[1, 2, 4, 8], [1, 4], [1]], [1, 13, 9, 15], [1, 4, 2, 8],
    [[1, 9, 13, 15], [1, 13, 9, 15]], [[1, 2, 4, 8], [1, 4, 2, 8]], some false⟩

-- the hypotheses hold
example : exMain.Radix2 ∧ exBatch.ForBatch exMain :=
  ⟨⟨⟨by decide, by decide, by decide, by decide, exPrim (w := 9) (k := 2) (by decide), by decide, by decide,
    by decide, by decide⟩, rfl⟩, ⟨by decide +kernel, by decide +kernel, by decide +kernel, by decide +kernel,
    by decide +kernel, by decide +kernel⟩⟩

-- columns 1 + 2x + ... + 8x^7, 1, x with lanes of two columns: the third column uses the plain twiddle
example : fftBatch Sched.rev 2 exMain exBatch
    [[1, 1, 0], [2, 0, 1], [3, 0, 0], [4, 0, 0], [5, 0, 0], [6, 0, 0], [7, 0, 0], [8, 0, 0]] =
    some [[2, 1, 1], [1, 1, 9], [12, 1, 13], [3, 1, 15], [13, 1, 16], [6, 1, 8], [14, 1, 4], [8, 1, 2]] := by
  decide +kernel
example : ifftBatch Sched.rev (fftBatch Sched.seq 2 exMain exBatch)
    [[2, 1, 1], [1, 1, 9], [12, 1, 13], [3, 1, 15], [13, 1, 16], [6, 1, 8], [14, 1, 4], [8, 1, 2]] =
    some [[1, 1, 0], [2, 0, 1], [3, 0, 0], [4, 0, 0], [5, 0, 0], [6, 0, 0], [7, 0, 0], [8, 0, 0]] := by
  decide +kernel

-- the extension by one bit over the coset of 3: the implementations agree
example : naiveCosetLDE 2 Sched.rev exConfig 1 [[0], [1], [2], [3], [4], [5], [6], [7]] 1 3 16 1 =
    some [[15], [1], [3], [2], [13], [3], [4], [4], [13], [5], [3], [6], [15], [7], [13], [0]] := by
  decide +kernel
example : cosetLDE 2 Sched.rev 4 exConfig (fun d => Item.new 1 Sched.seq true d true) exMain exBatch
    [[0], [1], [2], [3], [4], [5], [6], [7]] 1 1 3 16 1 true =
    some [[15], [1], [3], [2], [13], [3], [4], [4], [13], [5], [3], [6], [15], [7], [13], [0]] := by
  decide +kernel

/-- C62, false of the code: the overload of `CosetLDEBatch` for a constant matrix takes
`reverse_at_last` but does not pass it on, so the rows come out in order although bit-reversed order was
asked for; for the domain of 8 elements and one added bit the results of the overloads differ. -/
theorem C62_reverse_dropped :
    let mat : List (List F17) := [[0], [1], [2], [3], [4], [5], [6], [7]]
    let cache : Domain F17 → Option (Item F17) := fun d => Item.new 1 Sched.seq true d true
    (∃ r, cosetLDE 1 Sched.seq 4 exConfig cache exMain exBatch mat 1 1 3 16 1 false = some r ∧
      cosetLDEConst 1 Sched.seq 4 exConfig cache exMain exBatch mat 1 1 3 16 1 false ≠ some r) ∧
    cosetLDEConst 1 Sched.seq 4 exConfig cache exMain exBatch mat 1 1 3 16 1 false =
      cosetLDE 1 Sched.seq 4 exConfig cache exMain exBatch mat 1 1 3 16 1 true := by
  refine ⟨?_, rfl⟩
  have h : (cosetLDE 1 Sched.seq 4 exConfig (fun d => Item.new 1 Sched.seq true d true) exMain exBatch
    [[0], [1], [2], [3], [4], [5], [6], [7]] 1 1 3 16 1 false).isSome = true := by decide +kernel
  obtain ⟨r, hr⟩ := Option.isSome_iff_exists.1 h
  refine ⟨r, hr, ?_⟩
  rw [← hr]
  decide +kernel

end Tachyon.Props
