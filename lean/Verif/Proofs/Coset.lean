import Verif.Spec.Coset
import Verif.Props.FFT
import Verif.Proofs.Fri
import Verif.Proofs.PolyEval
import Mathlib.Algebra.Polynomial.Roots
/-! Lemmas about two-adic cosets. -/
namespace Tachyon.Coset
open Tachyon.FFT Tachyon.Group Tachyon.Parallel Polynomial

variable {F : Type} [Field F] [DecidableEq F]

omit [DecidableEq F] in
theorem root_pow {cfg : RootConfig F} (hl : cfg.large = none) (hA : cfg.twoAdicity ≤ 63) {k : ℕ}
    (hk : k ≤ cfg.twoAdicity) :
    getRootOfUnity cfg (2 ^ k) = some (some (cfg.twoAdicRoot ^ 2 ^ (cfg.twoAdicity - k))) := by
  have hlog : Bits.log2Ceiling (BitVec.ofNat 64 (2 ^ k)) = k := by
    have h63 : (2 : ℕ) ^ k ≤ 2 ^ 63 := Nat.pow_le_pow_right (by norm_num) (by omega)
    obtain ⟨i, h1, -, -, h4, h5⟩ := log2Ceiling_ofNat (Nat.two_pow_pos k) h63
    rw [h1, le_antisymm (h5 k le_rfl) ((Nat.pow_le_pow_iff_right (by norm_num)).1 h4)]
  rw [getRootOfUnity, hl]
  simp only [hlog]
  rw [if_neg (by omega), Int.toNat_natCast, if_neg (by simp; omega), squareTimes_eq]

theorem new_eq {cfg : RootConfig F} (hc : cfg.Valid) (hl : cfg.large = none) (hA : cfg.twoAdicity ≤ 63)
    {k : ℕ} {s : F} (hk : k ≤ cfg.twoAdicity) (hs : s ≠ 0) : ∃ d, new cfg k s = some d ∧ Of cfg k s d := by
  have h63 : (2 : ℕ) ^ k ≤ 2 ^ 63 := Nat.pow_le_pow_right (by norm_num) (by omega)
  obtain ⟨j, hj, e, e2, h3, h4⟩ := bitCeil_spec h63
  obtain rfl : j = k := le_antisymm (h4 k le_rfl) ((Nat.pow_le_pow_iff_right (by norm_num)).1 h3)
  have hr := root_pow hl hA hk
  have hp : IsPrimitiveRoot (cfg.twoAdicRoot ^ 2 ^ (cfg.twoAdicity - j)) (2 ^ j) := by
    obtain ⟨w, hw, hp⟩ := (getRootOfUnity_pow hc hj).1 hk
    rw [hr] at hw
    rwa [Option.some.inj (Option.some.inj hw)]
  obtain ⟨d, hd, v1, v2, v3, v4, v5⟩ := Domain.new_spec (logSize := j) (Nat.two_pow_pos j) h63 hp hr
  obtain ⟨d', g1, g2, g3, g4, g5, g6⟩ := Domain.getCoset_spec v1 hs
  refine ⟨d', ?_, ⟨g2, by rw [g3, g4, v2, v3]⟩, by rw [g4, v3], g6, by rw [g5, v4]⟩
  rw [new, if_neg (by omega), Domain.create, e]
  simp only [e2, hd, Option.bind_some, g1]

omit [DecidableEq F] in
theorem zpAt_eq {d : Domain F} (hd : d.Radix2) (x : F) : zpAt d x = (x / d.offset) ^ d.size - 1 := by
  rw [zpAt, squareTimes_eq, hd.1.offsetInv, ← div_eq_mul_inv, hd.2]

omit [DecidableEq F] in
theorem mem_iff {d : Domain F} (hd : d.Valid) (x : F) : Mem d x ↔ (x / d.offset) ^ d.size = 1 := by
  have : NeZero d.size := ⟨by have := hd.pos; omega⟩
  constructor
  · rintro ⟨i, -, rfl⟩
    rw [mul_div_cancel_left₀ _ hd.offset, ← pow_mul, mul_comm, pow_mul, hd.prim.pow_eq_one, one_pow]
  · intro h
    obtain ⟨i, hi, e⟩ := hd.prim.eq_pow_of_pow_eq_one h
    exact ⟨i, hi, by rw [e, mul_div_cancel₀ _ hd.offset]⟩

theorem splitLoop_eq {cfg : RootConfig F} (hc : cfg.Valid) (hl : cfg.large = none)
    (hA : cfg.twoAdicity ≤ 63) {k : ℕ} (hk : k ≤ cfg.twoAdicity) {g : F} (hg : g ≠ 0) :
    ∀ (n : ℕ) (f : F), f ≠ 0 → ∃ ds, splitLoop cfg g k n f = some ds ∧ ds.length = n ∧
      ∀ i (hi : i < ds.length), Of cfg k (f * g ^ i) ds[i]
  | 0, f, _ => ⟨[], rfl, rfl, fun i hi => absurd hi (by simp)⟩
  | n + 1, f, hf => by
    obtain ⟨d, e, hd⟩ := new_eq hc hl hA hk hf
    obtain ⟨ds, e2, h2, h3⟩ := splitLoop_eq hc hl hA hk hg n (f * g) (mul_ne_zero hf hg)
    refine ⟨d :: ds, by rw [splitLoop, e, Option.bind_some, e2]; rfl, by simp [h2], fun i hi => ?_⟩
    cases i with
    | zero => simpa using hd
    | succ i =>
      have := h3 i (by simpa using hi)
      rwa [mul_assoc, ← pow_succ'] at this

omit [DecidableEq F] in
theorem rowLoop_eq (gen ci gi : F) : ∀ (n : ℕ) (x : F), rowLoop gen ci gi n x =
    (List.range n).map fun i => (x * gen ^ i - 1, x * gen ^ i - ci, x * gen ^ i - gi)
  | 0, _ => rfl
  | n + 1, x => by
    rw [rowLoop, rowLoop_eq gen ci gi n, List.range_succ_eq_map, List.map_cons, List.map_map]
    simp only [pow_zero, mul_one, Function.comp_def, pow_succ', mul_assoc]

/-- What is stored at one position. -/
def sel (d : Domain F) (ci e v x : F) : Selectors F :=
  ⟨(if x - 1 = 0 then 0 else 1 * (x - 1)⁻¹) * e, (if x - ci = 0 then 0 else 1 * (x - ci)⁻¹) * e, x - d.genInv, v⟩

theorem cosetChunk_eq (d c : Domain F) (e v ci : F) {start len : ℕ} (hs : start < 2 ^ 64) :
    cosetChunk d c [e] [v] ci start len =
      some ((List.range len).map fun i => sel d ci e v (c.offset * c.gen ^ (start + i))) := by
  have hr : ∀ f : F → F, (List.range len).map (fun i => f (c.offset * powSize c.gen start * c.gen ^ i)) =
      (List.range len).map fun i => f (c.offset * c.gen ^ (start + i)) := by
    intro f
    simp only [powSize_eq _ hs, pow_add, mul_assoc]
  rw [cosetChunk]
  simp only [rowLoop_eq, List.map_map, Function.comp_def]
  have b1 := Props.C22_serial ((List.range len).map fun i =>
    c.offset * powSize c.gen start * c.gen ^ i - 1) (1 : F)
  have b2 := Props.C22_serial ((List.range len).map fun i =>
    c.offset * powSize c.gen start * c.gen ^ i - ci) (1 : F)
  rw [List.length_map, List.length_range] at b1 b2
  rw [b1, Option.bind_some, b2, Option.bind_some]
  refine Fri.mapM_map_some _ _ _ fun i hi => ?_
  have hi' : i < len := List.mem_range.1 hi
  simp only [List.getElem?_map, List.getElem?_range hi', Option.map_some, Option.bind_some,
    List.length_singleton, Nat.mod_one, List.getElem?_cons_zero, sel, powSize_eq _ hs, pow_add, mul_assoc]

theorem selectorsOnCoset_eq {threads : ℕ} {d c : Domain F} (hd : d.Radix2) (hcv : c.Valid)
    (ht : 0 < threads) (ht' : threads ≤ 2 ^ 63)
    (h1 : d.offset = 1) (h2 : c.offset ≠ 1) (h3 : c.logSize = d.logSize) :
    selectorsOnCoset threads d c = some ((List.range c.size).map fun i =>
      sel d d.genInv (c.offset ^ d.size - 1)
        (if c.offset ^ d.size - 1 = 0 then 0 else 1 * (c.offset ^ d.size - 1)⁻¹) (c.offset * c.gen ^ i)) := by
  have hle := hcv.le
  rw [selectorsOnCoset, if_neg (by simp [h1, h2, h3]),
    if_neg (by rw [h3, Nat.add_sub_cancel_left]; simp)]
  have e0 : squareTimes d.logSize c.offset * powSize d.gen 0 = c.offset ^ d.size := by
    rw [squareTimes_eq, powSize_eq _ (by norm_num), pow_zero, mul_one, hd.2]
  have e1 : squareTimes d.logSize d.gen * d.genInv = d.genInv := by
    rw [squareTimes_eq, ← hd.2, hd.1.prim.pow_eq_one, one_mul]
  simp only [e0, e1]
  have b := Props.C22_serial [c.offset ^ d.size - 1] (1 : F)
  rw [List.length_singleton] at b
  rw [b, Option.bind_some, List.map_singleton]
  obtain ⟨hp, hle', -⟩ := sizePerThread_bounds ht (total := c.size) (by omega) none
  have hcs := hp.2 hcv.pos
  rw [numElementsPerThread]
  generalize sizePerThread threads c.size none = cs at hcs hle'
  rw [Fri.mapM_map_some _ (fun ch : ℕ × ℕ => (List.range ch.2).map fun i =>
      sel d d.genInv (c.offset ^ d.size - 1)
        (if c.offset ^ d.size - 1 = 0 then 0 else 1 * (c.offset ^ d.size - 1)⁻¹)
        (c.offset * c.gen ^ (ch.1 * cs + i))) _ fun ch hch => ?_, Option.map_some]
  · congr 1
    exact Poly.denoms_flatten (fun i => sel d d.genInv (c.offset ^ d.size - 1)
        (if c.offset ^ d.size - 1 = 0 then 0 else 1 * (c.offset ^ d.size - 1)⁻¹)
        (c.offset * c.gen ^ i)) c.size hcs (by omega)
  · obtain ⟨h3, h4⟩ := (mem_invocations hcs).1 hch
    obtain ⟨h5, h6, h7, h8⟩ := chunk_bounds hcs (by omega) h3
    exact cosetChunk_eq d c _ _ _ (by omega)

omit [DecidableEq F] in
theorem geom_of_prim {n : ℕ} {w : F} (hw : IsPrimitiveRoot w n) {i : ℕ} (hi : i < n) :
    ∑ j ∈ Finset.range n, (w ^ i) ^ j = if i = 0 then (n : F) else 0 := by
  split
  · next h => simp [h]
  · next h =>
    have n1 : w ^ i - 1 ≠ 0 := sub_ne_zero.2 (hw.pow_ne_one_of_pos_of_lt (by omega) hi)
    have := geom_sum_mul (w ^ i) n
    rw [← pow_mul, mul_comm i, pow_mul, hw.pow_eq_one, one_pow, sub_self] at this
    exact (mul_eq_zero.1 this).resolve_right n1

omit [DecidableEq F] in
theorem pow_mod_of_prim {n : ℕ} {w : F} (hw : IsPrimitiveRoot w n) (i : ℕ) : w ^ i = w ^ (i % n) := by
  conv_lhs => rw [← Nat.mod_add_div i n, pow_add, pow_mul, hw.pow_eq_one, one_pow, mul_one]

omit [DecidableEq F] in
theorem degree_range_lt (n : ℕ) (a : ℕ → F) :
    (∑ j ∈ Finset.range n, C (a j) * X ^ j).degree < (n : WithBot ℕ) := by
  refine lt_of_le_of_lt (degree_sum_le _ _) ((Finset.sup_lt_iff (WithBot.bot_lt_coe n)).2 fun j hj => ?_)
  exact lt_of_le_of_lt (degree_C_mul_X_pow_le _ _) (Nat.cast_lt.2 (Finset.mem_range.1 hj))

end Tachyon.Coset
