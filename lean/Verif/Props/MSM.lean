import Verif.Proofs.FixedBase
import Verif.Proofs.GLV
import Verif.Proofs.Endo
import Verif.Model.MSMCurve
import Verif.Props.Curve
import Verif.Props.Parallel
import Mathlib.Data.ZMod.Basic
import Mathlib.Algebra.Module.ZMod
/-!
# Properties C31-C34: multi-scalar multiplication

The operations implement an abelian group `M` in the sense of `Verif/Spec/MSM.lean`: `S` relates buckets
to elements, `R` relates points to elements.
-/
namespace Tachyon.Props
open Tachyon.MSM Tachyon.BigInt Tachyon.Parallel

variable {α β M : Type*} [AddCommGroup M] {o : Ops β α} {S : β → M → Prop} {R : α → M → Prop}

/-! ## C32: signed digits -/

/-- C32: `FillDigits` does not overflow or read out of bounds; the digits represent the scalar; all but
the last lie in `[-2^(w-1), 2^(w-1))` and the last in `[0, 2^w]`. -/
theorem C32_fillDigits (a : List (BitVec 64)) (w n : ℕ) (hw : 0 < w) (hw' : w ≤ 62) (hn : 0 < n)
    (hb : w * (n - 1) < 64 * a.length) (hv : limbsVal a < 2 ^ (w * n)) :
    ∃ ds, fillDigits a w n = some ds ∧ ds.length = n ∧
      digitsVal (2 ^ w) ds = (limbsVal a : ℤ) ∧
      (∀ (i : ℕ) (d : ℤ), ds[i]? = some d → i + 1 < n → -2 ^ (w - 1) ≤ d ∧ d < 2 ^ (w - 1)) ∧
      (∀ d, ds[n - 1]? = some d → 0 ≤ d ∧ d ≤ 2 ^ w) := by
  obtain ⟨ds, e1, e2, e3, e4, e5⟩ := fillDigits_spec a hw hw' hn hb
  rw [Nat.mod_eq_of_lt hv] at e3
  exact ⟨ds, e1, e2, e3, e4, e5⟩

-- the digits 7, 6, 7, 7 of 0xff7, with carries
example : fillDigits [0xff7#64] 3 4 = some [-1, -1, 0, 8] := by decide +kernel
example : digitsVal (2 ^ 3) [-1, -1, 0, 8] = 0xff7 := by decide

/-- C32: the bound on the width is needed: with 63 bits the subtraction of two `int64_t` overflows. -/
theorem C32_wide_undefined : fillDigits [2 ^ 62, 0] 63 2 = none := by decide +kernel

/-! ## C31: Pippenger -/

/-- C31: `Pippenger::Run` with signed or unsigned windows of any width up to 62 returns `Σ s_i P_i`; all
bucket indices are in range. -/
theorem C31_pippenger (h : o.Implements S R) (ln : ℕ → ℕ) (modulusBits : ℕ) (useNAF : Bool)
    (bases : List α) (xs : List M) (scalars : List (List (BitVec 64)))
    (hln : ln scalars.length ≤ 60) (hm : 0 < modulusBits) (hb : List.Forall₂ R bases xs)
    (hl : bases.length = scalars.length)
    (hs : ∀ s ∈ scalars, limbsVal s < 2 ^ modulusBits ∧ modulusBits ≤ 64 * s.length) :
    ∃ r, pippenger o ln modulusBits useNAF bases scalars = some r ∧
      S r (List.zipWith (fun s x => limbsVal s • x) scalars xs).sum := by
  have hw : 0 < windowsBits ln scalars.length ∧ windowsBits ln scalars.length ≤ 62 := by
    unfold windowsBits; split <;> omega
  simp only [pippenger, hl, ne_eq, not_true_eq_false, if_false]
  cases useNAF with
  | true =>
    obtain ⟨sums, r, e1, e2, e3⟩ := naf_rel h hw.1 hw.2 hm hb hl hs
    exact ⟨r, by simp only [if_true, e1, e2], e3⟩
  | false =>
    obtain ⟨sums, r, e1, e2, e3⟩ := plain_rel h hw.1 hw.2 hm hb hl hs
    exact ⟨r, by simp only [Bool.false_eq_true, if_false, e1, e2], e3⟩

/-- C31: inputs of different lengths are rejected. -/
theorem C31_mismatch (o : Ops β α) (ln : ℕ → ℕ) (modulusBits : ℕ) (useNAF : Bool) (threads : ℕ)
    (strategy : Strategy) (bases : List α) (scalars : List (List (BitVec 64)))
    (hl : bases.length ≠ scalars.length) :
    pippenger o ln modulusBits useNAF bases scalars = none ∧
    runWithStrategy o ln modulusBits useNAF threads strategy bases scalars = none := by
  have e : pippenger o ln modulusBits useNAF bases scalars = none := by
    simp only [pippenger, ne_eq, hl, not_false_eq_true, if_true]
  refine ⟨e, ?_⟩
  simp only [runWithStrategy, e, ne_eq, hl, not_false_eq_true, if_true, Option.map_none]
  split <;> rfl

private theorem forall₂_chunkOf {γ δ : Type*} {P : γ → δ → Prop} {xs : List γ} {ys : List δ}
    (h : List.Forall₂ P xs ys) (cs : ℕ) (c : ℕ × ℕ) : List.Forall₂ P (chunkOf xs cs c) (chunkOf ys cs c) :=
  List.forall₂_take _ (List.forall₂_drop _ h)

private theorem chunkOf_zipWith {γ δ ε : Type*} (f : γ → δ → ε) (xs : List γ) (ys : List δ) (cs : ℕ)
    (c : ℕ × ℕ) : chunkOf (List.zipWith f xs ys) cs c =
      List.zipWith f (chunkOf xs cs c) (chunkOf ys cs c) := by
  simp [chunkOf, List.drop_zipWith, List.take_zipWith]

/-- C31: `PippengerAdapter::RunWithStrategy` returns `Σ s_i P_i` for every strategy and every number of
threads. -/
theorem C31_strategies (h : o.Implements S R) (ln : ℕ → ℕ) (modulusBits : ℕ) (useNAF : Bool)
    (threads : ℕ) (strategy : Strategy)
    (bases : List α) (xs : List M) (scalars : List (List (BitVec 64)))
    (hln : ∀ n, ln n ≤ 60) (hm : 0 < modulusBits) (hb : List.Forall₂ R bases xs)
    (hl : bases.length = scalars.length) (ht : 0 < threads) (ht' : threads ≤ 2 ^ 31)
    (hsz : scalars.length ≤ 2 ^ 63)
    (hs : ∀ s ∈ scalars, limbsVal s < 2 ^ modulusBits ∧ modulusBits ≤ 64 * s.length) :
    ∃ r t, runWithStrategy o ln modulusBits useNAF threads strategy bases scalars = some (r, t) ∧
      S r (List.zipWith (fun s x => limbsVal s • x) scalars xs).sum := by
  by_cases hst : strategy = .none ∨ strategy = .parallelWindow
  · obtain ⟨r, e, hr⟩ := C31_pippenger h ln modulusBits useNAF bases xs scalars (hln _) hm hb hl hs
    exact ⟨r, threads, by simp only [runWithStrategy, if_pos hst, e, Option.map_some], hr⟩
  by_cases h0 : scalars.length = 0
  · obtain rfl : scalars = [] := List.length_eq_zero_iff.1 h0
    refine ⟨o.zero, threads, ?_, by simpa using h.zero⟩
    simp only [runWithStrategy, if_neg hst, hl, ne_eq, not_true_eq_false, if_false, List.length_nil,
      if_true]
  generalize htd : strategyThreads ln modulusBits threads scalars.length strategy = t
  have htb : 0 < t ∧ t ≤ 2 ^ 31 := by
    rw [← htd]; unfold strategyThreads
    split
    · refine ⟨by omega, max_le (le_trans (Nat.div_le_self _ _) ht') (by norm_num)⟩
    · exact ⟨ht, ht'⟩
  obtain ⟨hp, hle, -⟩ := sizePerThread_bounds htb.1 (total := scalars.length) (by omega) none
  have hcs := hp.2 (by omega)
  generalize hcsd : sizePerThread t scalars.length none = cs at hp hle hcs
  obtain ⟨results, er, hres⟩ := sequence_rel (xs := invocations scalars.length cs)
    (f := fun c => pippenger o ln modulusBits useNAF (chunkOf bases cs c) (chunkOf scalars cs c))
    (P := fun c r => S r (List.zipWith (fun s x => limbsVal s • x) (chunkOf scalars cs c)
      (chunkOf xs cs c)).sum) (fun c _ => by
      refine C31_pippenger h ln modulusBits useNAF _ _ _ (hln _) hm (forall₂_chunkOf hb cs c) ?_ ?_
      · simp [chunkOf, hl]
      · intro s hsm
        exact hs s (List.mem_of_mem_drop (List.mem_of_mem_take hsm)))
  refine ⟨results.foldl o.add o.zero, t, ?_, ?_⟩
  · simp only [runWithStrategy, if_neg hst, hl, ne_eq, not_true_eq_false, if_false, h0, htd, hcsd, er]
  · have hfold : ∀ (cs' : List (ℕ × ℕ)) (rs : List β) (b : β) (z : M), S b z →
        List.Forall₂ (fun c r => S r (List.zipWith (fun s x => limbsVal s • x) (chunkOf scalars cs c)
          (chunkOf xs cs c)).sum) cs' rs →
        S (rs.foldl o.add b) (z + ((cs'.flatMap fun c =>
          chunkOf (List.zipWith (fun s x => limbsVal s • x) scalars xs) cs c).sum)) := by
      intro cs' rs b z hz hf
      induction hf generalizing b z with
      | nil => simpa using hz
      | cons hcr _ ih =>
        have := ih _ _ (h.add hz hcr)
        rw [List.flatMap_cons, List.sum_append, chunkOf_zipWith, ← add_assoc]
        exact this
    have := hfold _ _ _ _ h.zero hres
    have hzl : (List.zipWith (fun (s : List (BitVec 64)) (x : M) => limbsVal s • x) scalars xs).length =
        scalars.length := by
      rw [List.length_zipWith, ← hb.length_eq, hl, min_self]
    rw [← hzl, flatMap_chunkOf _ hcs (by rw [hzl]; omega), zero_add] at this
    exact this

/-- C31: `VariableBaseMSM::Run` on affine points of a short Weierstrass curve: the result is an XYZZ
representation of `Σ s_i P_i`. -/
theorem C31_variableBase {F : Type*} [Field F] [DecidableEq F] {cfg : Curve.Config F} (hv : cfg.Valid)
    (ln : ℕ → ℕ) (modulusBits : ℕ) (useNAF : Bool) (threads : ℕ) (bases : List (Curve.Affine F))
    (xs : List cfg.Pt) (scalars : List (List (BitVec 64))) (hln : ∀ n, ln n ≤ 60) (hm : 0 < modulusBits)
    (hb : List.Forall₂ (Curve.Affine.Rep cfg) bases xs) (hl : bases.length = scalars.length)
    (ht : 0 < threads) (ht' : threads ≤ 2 ^ 31) (hsz : scalars.length ≤ 2 ^ 63)
    (hs : ∀ s ∈ scalars, limbsVal s < 2 ^ modulusBits ∧ modulusBits ≤ 64 * s.length) :
    ∃ r t, variableBaseMSM (Curve.affineXYZZOps cfg) ln modulusBits useNAF threads bases scalars =
        some (r, t) ∧
      r.Rep cfg (List.zipWith (fun s x => limbsVal s • x) scalars xs).sum :=
  C31_strategies (o := Curve.affineXYZZOps cfg) (S := Curve.XYZZ.Rep cfg) (R := Curve.Affine.Rep cfg)
    ⟨C27_zero.1, fun h h' => C27_add hv _ _ _ _ h h', fun h h' => C27_addAffine hv _ _ _ _ h h',
      fun h h' => (C27_sub hv _ _ _ _ _ _ h h h').2, fun h => C27_double hv _ _ h⟩
    ln modulusBits useNAF threads .parallelTerm bases xs scalars hln hm hb hl ht ht' hsz hs

/-- C31: after the strategy `kParallelWindowAndTerm` the number of OpenMP threads stays at the reduced
value: the call meant to restore it sets the number it has just read. -/
theorem C31_threads_not_restored : ∃ r, runWithStrategy (groupOps ℤ) (fun _ => 0) 6 true 8
    .parallelWindowAndTerm [5, 7] [[3#64], [2#64]] = some (r, 4) := ⟨29, by decide +kernel⟩

-- 3 * 5 + 63 * 7 + 0 * 11 + 1 * 13 + 36 * (-2), in three chunks, both variants
example : runWithStrategy (groupOps ℤ) (fun _ => 1) 6 true 3 .parallelTerm [5, 7, 11, 13, -2]
    [[3#64], [63#64], [0#64], [1#64], [36#64]] = some (397, 3) := by decide +kernel
example : runWithStrategy (groupOps ℤ) (fun _ => 1) 6 false 3 .parallelTerm [5, 7, 11, 13, -2]
    [[3#64], [63#64], [0#64], [1#64], [36#64]] = some (397, 3) := by decide +kernel

/-! ## C33: fixed base -/

/-- C33: after `Reset(size, G)`, `Run` returns `s_i G` for every scalar, for windows of at most 31 bits
(`size` up to about `2^42`). -/
theorem C33_fixedBase (h : o.Implements S R) (ln : ℕ → ℕ) (modulusBits size : ℕ) (base : β) (x : M)
    (hx : S base x) (hln : ln size ≤ 29) (hm : 0 < modulusBits) (scalars : List (List (BitVec 64)))
    (hs : ∀ s ∈ scalars, limbsVal s < 2 ^ modulusBits) :
    ∃ m rs, FixedBase.reset o ln modulusBits size base = some m ∧
      m.run o modulusBits scalars scalars.length = some rs ∧
      List.Forall₂ (fun s r => S r (limbsVal s • x)) scalars rs := by
  have hw : 0 < windowsBits ln size ∧ windowsBits ln size < 32 := by
    unfold windowsBits; split <;> omega
  obtain ⟨n1, n2, n3⟩ := windowsCount_bounds hw.1 hm
  obtain ⟨t, et, htl, ht⟩ := windowTable_rel h hx hw.2 n1 n2 n3
  refine ⟨⟨windowsBits ln size, windowsCount modulusBits (windowsBits ln size), t⟩, ?_⟩
  obtain ⟨rs, er, hr⟩ := sequence_rel (xs := scalars) (f := FixedBase.scalarMul o
      ⟨windowsBits ln size, windowsCount modulusBits (windowsBits ln size), t⟩ modulusBits)
    (P := fun s r => S r (limbsVal s • x)) (fun s hsm => by
      obtain ⟨r, e, hr⟩ := fixedMulGo_rel h ht s (hs s hsm) (windowsCount modulusBits (windowsBits ln size))
        0 o.zero (by omega) (by simpa [Nat.mod_one] using h.zero)
      rw [Nat.zero_mul, Nat.zero_min] at e
      rw [Nat.mod_eq_of_lt (lt_of_lt_of_le (hs s hsm) (Nat.pow_le_pow_right (by omega) n3))] at hr
      exact ⟨r, e, hr⟩)
  exact ⟨rs, by simp only [FixedBase.reset, et, Option.map_some],
    by simp only [FixedBase.run, ne_eq, not_true_eq_false, if_false, er], hr⟩

/-- C33: outputs of the wrong size are rejected. -/
theorem C33_mismatch (o : Ops β α) (m : FixedBase β) (modulusBits n : ℕ)
    (scalars : List (List (BitVec 64))) (hn : scalars.length ≠ n) :
    m.run o modulusBits scalars n = none := if_pos hn


-- a partial last window: 7 bits in windows of 3
example : (FixedBase.reset (groupOps ℤ) (fun _ => 0) 7 4 5).bind (fun m =>
    m.run (groupOps ℤ) 7 [[0#64], [1#64], [64#64], [127#64]] 4) = some [0, 5, 320, 635] := by
  decide +kernel

/-- C33: the instance for affine points: the results are Jacobian points. -/
theorem C33_affine {F : Type*} [Field F] [DecidableEq F] {cfg : Curve.Config F} (hv : cfg.Valid)
    (ha : cfg.aIsZero = true) (h2 : (2 : F) ≠ 0) (ln : ℕ → ℕ) (modulusBits size : ℕ)
    (base : Curve.Jacobian F) (P : cfg.Pt) (hP : base.Rep cfg P) (hln : ln size ≤ 29)
    (hm : 0 < modulusBits) (scalars : List (List (BitVec 64)))
    (hs : ∀ s ∈ scalars, limbsVal s < 2 ^ modulusBits) :
    ∃ m rs, FixedBase.reset (Curve.affineJacobianOps cfg) ln modulusBits size base = some m ∧
      m.run (Curve.affineJacobianOps cfg) modulusBits scalars scalars.length = some rs ∧
      List.Forall₂ (fun s r => r.Rep cfg (limbsVal s • P)) scalars rs :=
  C33_fixedBase (S := Curve.Jacobian.Rep cfg) (R := Curve.Affine.Rep cfg)
    ⟨C25_zero.1, fun h h' => C25_add hv h2 _ _ _ _ (fun _ => ha) h h',
      fun h h' => C25_addAffine hv h2 _ _ _ _ (fun _ => ha) h h',
      fun h h' => (C25_sub hv h2 _ _ _ _ _ _ (fun _ => ha) (fun _ => ha) h h h').2,
      fun h => C25_double hv ha _ _ h⟩
    ln modulusBits size base P hP hln hm scalars hs

/-! ## C34: the GLV endomorphism -/

/-- C34: `Decompose` returns `k1 + λ k2 ≡ k (mod r)` for every integer `k`, when the rows of the matrix
are in the lattice. -/
theorem C34_decompose (n11 n12 n21 n22 lambda r k : ℤ) (h1 : r ∣ n11 + lambda * n12)
    (h2 : r ∣ n21 + lambda * n22) :
    r ∣ (decompose n11 n12 n21 n22 r k).1 + lambda * (decompose n11 n12 n21 n22 r k).2 - k := by
  obtain ⟨c, hc⟩ := h1
  obtain ⟨d, hd⟩ := h2
  refine ⟨-((k * n22).tdiv r * c + (k * -n12).tdiv r * d), ?_⟩
  simp only [decompose]
  linear_combination (-(k * n22).tdiv r) * hc - (k * -n12).tdiv r * hd

/-- C34: the parts are short: as short as the basis vectors, up to a factor of 2. -/
theorem C34_decompose_short (n11 n12 n21 n22 r k : ℤ) (hr : 0 < r) (hdet : n11 * n22 - n12 * n21 = r) :
    |(decompose n11 n12 n21 n22 r k).1| ≤ |n11| + |n21| ∧
    |(decompose n11 n12 n21 n22 r k).2| ≤ |n12| + |n22| := by
  have e1 := Int.mul_tdiv_add_tmod (k * n22) r
  have e2 := Int.mul_tdiv_add_tmod (k * -n12) r
  have b : ∀ z : ℤ, |z.tmod r| ≤ r := by
    intro z
    have h1 := Int.tmod_lt_of_pos z hr
    have h2 := Int.lt_tmod_of_pos z hr
    rw [abs_le]; constructor <;> omega
  have key : ∀ u v : ℤ, |(k * n22).tmod r * u + (k * -n12).tmod r * v| ≤ r * (|u| + |v|) := by
    intro u v
    refine (abs_add_le _ _).trans ?_
    rw [abs_mul, abs_mul, mul_add]
    exact add_le_add (mul_le_mul_of_nonneg_right (b _) (abs_nonneg _))
      (mul_le_mul_of_nonneg_right (b _) (abs_nonneg _))
  simp only [decompose]
  constructor
  · refine le_of_mul_le_mul_left ?_ hr
    rw [← abs_of_pos hr, ← abs_mul, abs_of_pos hr]
    refine le_of_eq_of_le ?_ (key n11 n21)
    congr 1
    linear_combination (-k) * hdet + n11 * (-e1) + n21 * (-e2)
  · refine le_of_mul_le_mul_left ?_ hr
    rw [← abs_of_pos hr, ← abs_mul, abs_of_pos hr]
    refine le_of_eq_of_le ?_ (key n12 n22)
    congr 1
    linear_combination n12 * (-e1) + n22 * (-e2)

/-- C34: the constants of the four groups satisfy the hypotheses of the theorems: rows in the lattice,
determinant `r`, `λ² + λ + 1 ≡ 0`. -/
theorem C34_constants : ∀ p ∈ [Curve.bn254G1, Curve.bn254G2, Curve.bls12381G1, Curve.bls12381G2],
    p.r ∣ p.n11 + p.lambda * p.n12 ∧ p.r ∣ p.n21 + p.lambda * p.n22 ∧
    p.n11 * p.n22 - p.n12 * p.n21 = p.r ∧ 0 < p.r ∧ p.r ∣ p.lambda ^ 2 + p.lambda + 1 ∧
    |p.n11| + |p.n21| < 2 ^ 128 ∧ |p.n12| + |p.n22| < 2 ^ 128 := by
  decide +kernel

private theorem gmpNumBits_le {k : ℕ} (h : k < 2 ^ 128) : gmpNumBits k ≤ 128 := by
  unfold gmpNumBits
  split
  · omega
  · have : k.log2 < 128 := (Nat.log2_lt (by assumption)).2 h
    omega

/-- C34: for the four groups and every integer `k`, `Decompose` returns parts of at most 128 bits with
`k1 + λ k2 ≡ k (mod r)`. -/
theorem C34_decompose_groups :
    ∀ p ∈ [Curve.bn254G1, Curve.bn254G2, Curve.bls12381G1, Curve.bls12381G2], ∀ k : ℤ,
    p.r ∣ (decompose p.n11 p.n12 p.n21 p.n22 p.r k).1 +
        p.lambda * (decompose p.n11 p.n12 p.n21 p.n22 p.r k).2 - k ∧
    |(decompose p.n11 p.n12 p.n21 p.n22 p.r k).1| < 2 ^ 128 ∧
    |(decompose p.n11 p.n12 p.n21 p.n22 p.r k).2| < 2 ^ 128 := by
  intro p hp k
  obtain ⟨h1, h2, h3, h4, -, h5, h6⟩ := C34_constants p hp
  have hs := C34_decompose_short p.n11 p.n12 p.n21 p.n22 p.r k h4 h3
  exact ⟨C34_decompose _ _ _ _ _ _ k h1 h2, hs.1.trans_lt h5, hs.2.trans_lt h6⟩

variable {og : GLVOps β α} {φ : M → M}

/-- C34: `Mul` returns `k P` when the two parts have the same number of 64-bit limbs, or `k2 = 0`. -/
theorem C34_mul (h : og.Implements S R φ) (n11 n12 n21 n22 lambda r k : ℤ)
    (h1 : r ∣ n11 + lambda * n12) (h2 : r ∣ n21 + lambda * n22) (p : α) (x : M) (hp : R p x)
    (hφ : φ x = lambda • x) (hr : r • x = 0)
    (hb : gmpNumBits (decompose n11 n12 n21 n22 r k).1.natAbs < 2 ^ 63)
    (hb' : gmpNumBits (decompose n11 n12 n21 n22 r k).2.natAbs < 2 ^ 63)
    (heq : (decompose n11 n12 n21 n22 r k).2 = 0 ∨
      gmpNumBits (decompose n11 n12 n21 n22 r k).1.natAbs =
        gmpNumBits (decompose n11 n12 n21 n22 r k).2.natAbs) :
    ∃ q, glvMul og n11 n12 n21 n22 r p k = some q ∧ S q (k • x) := by
  obtain ⟨q, e, hq⟩ := glvMulWith_rel h hp (decompose n11 n12 n21 n22 r k) hb hb'
  refine ⟨q, e, ?_⟩
  have hd := C34_decompose n11 n12 n21 n22 lambda r k h1 h2
  generalize decompose n11 n12 n21 n22 r k = d at *
  have e2 : d.2.sign * (aligned d.1.natAbs d.2.natAbs : ℤ) = d.2 := by
    rcases heq with h0 | h0
    · rw [h0]; simp
    · rw [aligned, h0, Nat.mul_div_cancel _ (by positivity), Int.sign_mul_natAbs]
  obtain ⟨c, hc⟩ := hd
  have : k • x = d.1 • x + d.2 • φ x := by
    rw [hφ, ← mul_smul, ← add_smul]
    have e : d.1 + d.2 * lambda = k + r * c := by linear_combination hc
    rw [e, add_smul, mul_comm r c, mul_smul, hr, smul_zero, add_zero]
  rw [this]
  rwa [e2] at hq

/-- C34: for the four groups. -/
theorem C34_mul_groups (h : og.Implements S R φ) (g : Curve.GLVParams)
    (hg : g ∈ [Curve.bn254G1, Curve.bn254G2, Curve.bls12381G1, Curve.bls12381G2])
    (p : α) (x : M) (hp : R p x) (hφ : φ x = g.lambda • x) (hr : g.r • x = 0) (k : ℤ)
    (heq : (decompose g.n11 g.n12 g.n21 g.n22 g.r k).2 = 0 ∨
      gmpNumBits (decompose g.n11 g.n12 g.n21 g.n22 g.r k).1.natAbs =
        gmpNumBits (decompose g.n11 g.n12 g.n21 g.n22 g.r k).2.natAbs) :
    ∃ q, glvMul og g.n11 g.n12 g.n21 g.n22 g.r p k = some q ∧ S q (k • x) := by
  obtain ⟨h1, h2, -, -, -, -, -⟩ := C34_constants g hg
  obtain ⟨-, b1, b2⟩ := C34_decompose_groups g hg k
  have conv : ∀ z : ℤ, |z| < 2 ^ 128 → gmpNumBits z.natAbs < 2 ^ 63 := by
    intro z hz
    refine (gmpNumBits_le ?_).trans_lt (by norm_num)
    rw [Int.abs_eq_natAbs] at hz
    exact_mod_cast hz
  exact C34_mul h _ _ _ _ g.lambda _ k h1 h2 p x hp hφ hr (conv _ b1) (conv _ b2) heq

/-- C34: the condition on the limbs is needed. In the group of order `r` of bn254, `Mul(P, λ)` is not
`λ P`: the second part has one limb, the first has two, and the iterators are aligned at the top. -/
theorem C34_mul_wrong :
    let g := Curve.bn254G1
    ∃ q, glvMul (groupGLVOps (M := ZMod g.r.natAbs) fun x => g.lambda • x) g.n11 g.n12 g.n21 g.n22 g.r
      1 g.lambda = some q ∧ q ≠ g.lambda • 1 := by
  intro g
  have hd : decompose g.n11 g.n12 g.n21 g.n22 g.r g.lambda =
      (147946756881789319000765030803803410728, -9931322734385697762) := by decide +kernel
  have himp : (groupGLVOps (M := ZMod g.r.natAbs) fun x => g.lambda • x).Implements Eq Eq
      (fun x => g.lambda • x) := by
    constructor
    · constructor <;> intros <;> subst_vars <;> rfl
    all_goals intros; subst_vars; rfl
  obtain ⟨q, e, hq⟩ := glvMulWith_rel himp (p := (1 : ZMod g.r.natAbs)) rfl
    (decompose g.n11 g.n12 g.n21 g.n22 g.r g.lambda) (by rw [hd]; decide +kernel)
    (by rw [hd]; decide +kernel)
  refine ⟨q, e, ?_⟩
  rw [hd] at hq
  have ha : aligned (147946756881789319000765030803803410728 : ℤ).natAbs
      (-9931322734385697762 : ℤ).natAbs = 9931322734385697762 * 2 ^ 64 := by decide +kernel
  simp only [ha] at hq
  rw [hq]
  simp only [zsmul_eq_mul, mul_one]
  intro h
  have h' : (((147946756881789319000765030803803410728 : ℤ) + (-9931322734385697762 : ℤ).sign *
      (9931322734385697762 * 2 ^ 64 : ℕ) * g.lambda - g.lambda : ℤ) : ZMod g.r.natAbs) = 0 := by
    push_cast at h ⊢
    rw [sub_eq_zero]; exact h
  rw [ZMod.intCast_zmod_eq_zero_iff_dvd] at h'
  revert h'
  decide +kernel

-- in bls12-381 the parts of `λ` have one limb and two
example : (decompose Curve.bls12381G1.n11 Curve.bls12381G1.n12 Curve.bls12381G1.n21 Curve.bls12381G1.n22
    Curve.bls12381G1.r Curve.bls12381G1.lambda) = (1, -228988810152649578064853576960394133502) := by decide +kernel

-- parts of two limbs each: 2^200 P
example : gmpNumBits (decompose Curve.bn254G1.n11 Curve.bn254G1.n12 Curve.bn254G1.n21 Curve.bn254G1.n22
    Curve.bn254G1.r (2 ^ 200)).1.natAbs = 128 ∧ gmpNumBits (decompose Curve.bn254G1.n11 Curve.bn254G1.n12
    Curve.bn254G1.n21 Curve.bn254G1.n22 Curve.bn254G1.r (2 ^ 200)).2.natAbs = 128 := by decide +kernel

section curve
variable {F : Type*} [Field F] {cfg : Curve.Config F} {b : F}

/-- C34: `(x, y) ↦ (β x, y)` with `β³ = 1` is an endomorphism of the group of `y² = x³ + b`. -/
theorem C34_endomorphism_hom [DecidableEq F] (ha : cfg.a = 0) (hβ : b ^ 3 = 1) (P Q : cfg.Pt) :
    Curve.endoPt cfg b ha hβ (P + Q) = Curve.endoPt cfg b ha hβ P + Curve.endoPt cfg b ha hβ Q ∧
    Curve.endoPt cfg b ha hβ (-P) = -Curve.endoPt cfg b ha hβ P ∧
    Curve.endoPt cfg b ha hβ 0 = 0 :=
  ⟨Curve.endoPt_add ha hβ P Q, Curve.endoPt_neg ha hβ P, rfl⟩

/-- C34: `Endomorphism` in all four coordinate systems. -/
theorem C34_endomorphism (ha : cfg.a = 0) (hβ : b ^ 3 = 1) (P : cfg.Pt) :
    (∀ p : Curve.Affine F, p.Rep cfg P → (p.endomorphism b).Rep cfg (Curve.endoPt cfg b ha hβ P)) ∧
    (∀ p : Curve.Jacobian F, p.Rep cfg P → (p.endomorphism b).Rep cfg (Curve.endoPt cfg b ha hβ P)) ∧
    (∀ p : Curve.Projective F, p.Rep cfg P → (p.endomorphism b).Rep cfg (Curve.endoPt cfg b ha hβ P)) ∧
    (∀ p : Curve.XYZZ F, p.Rep cfg P → (p.endomorphism b).Rep cfg (Curve.endoPt cfg b ha hβ P)) :=
  ⟨fun _ => Curve.Affine.endomorphism_rep ha hβ, fun _ => Curve.Jacobian.endomorphism_rep ha hβ,
    fun _ => Curve.Projective.endomorphism_rep ha hβ, fun _ => Curve.XYZZ.endomorphism_rep ha hβ⟩

/-- C34: if the endomorphism multiplies a generator by `λ`, it multiplies the whole subgroup by `λ`. -/
theorem C34_endomorphism_subgroup [DecidableEq F] (ha : cfg.a = 0) (hβ : b ^ 3 = 1) (G : cfg.Pt)
    (lambda : ℤ) (hG : Curve.endoPt cfg b ha hβ G = lambda • G) (P : cfg.Pt)
    (hP : P ∈ AddSubgroup.zmultiples G) : Curve.endoPt cfg b ha hβ P = lambda • P := by
  obtain ⟨n, rfl⟩ := AddSubgroup.mem_zmultiples_iff.1 hP
  let f : cfg.Pt →+ cfg.Pt := ⟨⟨Curve.endoPt cfg b ha hβ, rfl⟩, Curve.endoPt_add ha hβ⟩
  have : f (n • G) = lambda • (n • G) := by
    rw [map_zsmul, show f G = lambda • G from hG, smul_comm]
  exact this

/-- C34: `GLV<AffinePoint>::Mul` on a curve `y² = x³ + b`. -/
theorem C34_mul_affine [DecidableEq F] (hv : cfg.Valid) (haz : cfg.aIsZero = true) (ha : cfg.a = 0)
    (h2 : (2 : F) ≠ 0) (hβ : b ^ 3 = 1) (g : Curve.GLVParams)
    (hg : g ∈ [Curve.bn254G1, Curve.bn254G2, Curve.bls12381G1, Curve.bls12381G2])
    (p : Curve.Affine F) (P G : cfg.Pt) (hp : p.Rep cfg P) (hP : P ∈ AddSubgroup.zmultiples G)
    (hG : Curve.endoPt cfg b ha hβ G = g.lambda • G) (hr : g.r • P = 0) (k : ℤ)
    (heq : (decompose g.n11 g.n12 g.n21 g.n22 g.r k).2 = 0 ∨
      gmpNumBits (decompose g.n11 g.n12 g.n21 g.n22 g.r k).1.natAbs =
        gmpNumBits (decompose g.n11 g.n12 g.n21 g.n22 g.r k).2.natAbs) :
    ∃ q, glvMul (Curve.affineGLVOps cfg b) g.n11 g.n12 g.n21 g.n22 g.r p k = some q ∧
      q.Rep cfg (k • P) :=
  C34_mul_groups (S := Curve.Jacobian.Rep cfg) (R := Curve.Affine.Rep cfg)
    (φ := Curve.endoPt cfg b ha hβ)
    ⟨⟨C25_zero.1, fun h h' => C25_add hv h2 _ _ _ _ (fun _ => haz) h h',
      fun h h' => C25_addAffine hv h2 _ _ _ _ (fun _ => haz) h h',
      fun h h' => (C25_sub hv h2 _ _ _ _ _ _ (fun _ => haz) (fun _ => haz) h h h').2,
      fun h => C25_double hv haz _ _ h⟩,
      fun h => (C34_endomorphism ha hβ _).1 _ h, fun h => (C28_neg _ _ h).1,
      fun h h' => (C28_add hv _ _ h).1 _ _ h' h2 (fun _ => haz)⟩
    g hg p P hp (C34_endomorphism_subgroup ha hβ G g.lambda hG P hP) hr k heq

end curve

end Tachyon.Props
