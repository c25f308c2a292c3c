import Mathlib.Data.Nat.Notation
import Verif.Model.Domain
/-! Two-adic cosets: `two_adic_multiplicative_coset.h` and `lagrange_selectors.h` in
`crypto/commitments/fri`. A coset is its radix-2 domain (C59). Points of an extension field and the members
of the domain are all in one field: members are represented by their images. `ExpPowOfTwo` is
`squareTimes`, `/` and `Inverse` are `none` for a zero divisor (the callers `unwrap`). -/
namespace Tachyon.Coset
open Tachyon.FFT Tachyon.Group Tachyon.Parallel

variable {F : Type} [Field F] [DecidableEq F]

/-- The constructor (two_adic_multiplicative_coset.h:29-34); shifts by 64 and more are undefined. -/
def new (cfg : RootConfig F) (logN : ℕ) (shift : F) : Option (Domain F) :=
  if 64 ≤ logN then none else (Domain.create cfg (2 ^ logN)).bind (Domain.getCoset · shift)

/-- `GetNaturalDomainForDegree` (two_adic_fri.h:71-74). -/
def naturalDomain (cfg : RootConfig F) (size : ℕ) : Option (Domain F) :=
  (Bits.checkedLog2 (BitVec.ofNat 64 size)).bind fun logN => new cfg logN 1

/-- `GetNextPoint` (two_adic_multiplicative_coset.h:41-44). -/
def nextPoint (d : Domain F) (x : F) : F := x * d.gen

/-- `CreateDisjointDomain` (two_adic_multiplicative_coset.h:46-50); `g` is `kSubgroupGenerator`. -/
def createDisjoint (cfg : RootConfig F) (g : F) (d : Domain F) (minSize : ℕ) : Option (Domain F) :=
  new cfg (Bits.safeLog2Ceiling (BitVec.ofNat 64 minSize)).toNat (d.offset * g)

/-- `GetZpAtPoint` (two_adic_multiplicative_coset.h:52-57). -/
def zpAt (d : Domain F) (point : F) : F := squareTimes d.logSize (point * d.offsetInv) - 1

/-- The loop of `SplitDomains` (two_adic_multiplicative_coset.h:63-68). -/
def splitLoop (cfg : RootConfig F) (gen : F) (logN : ℕ) : ℕ → F → Option (List (Domain F))
  | 0, _ => some []
  | n + 1, f => (new cfg logN f).bind fun d => (splitLoop cfg gen logN n (f * gen)).map (d :: ·)

/-- `SplitDomains` (two_adic_multiplicative_coset.h:59-69); the difference of the logarithms is a
`uint32_t`. -/
def splitDomains (cfg : RootConfig F) (d : Domain F) (numChunks : ℕ) : Option (List (Domain F)) :=
  (Bits.checkedLog2 (BitVec.ofNat 64 numChunks)).bind fun logChunks =>
  splitLoop cfg d.gen ((d.logSize + 2 ^ 32 - logChunks) % 2 ^ 32) numChunks d.offset

/-- `LagrangeSelectors` (lagrange_selectors.h:11-16). -/
structure Selectors (T : Type) where
  firstRow : T
  lastRow : T
  transition : T
  invZeroifier : T
deriving DecidableEq

/-- `GetSelectorsAtPoint` (two_adic_multiplicative_coset.h:71-82). -/
def selectorsAt (d : Domain F) (point : F) : Option (Selectors F) :=
  let u := point * d.offsetInv
  let zh := squareTimes d.logSize u - 1
  (inv? (u - 1)).bind fun i1 =>
  (inv? (u - d.genInv)).bind fun i2 =>
  (inv? zh).map fun i3 => ⟨zh * i1, zh * i2, u - d.genInv, i3⟩

/-- The first loop of a chunk (two_adic_multiplicative_coset.h:131-136): `x - 1`, `x - coset_i` and
`x - group_gen_inv`. -/
def rowLoop (gen cosetI genInv : F) : ℕ → F → List (F × F × F)
  | 0, _ => []
  | n + 1, x => (x - 1, x - cosetI, x - genInv) :: rowLoop gen cosetI genInv n (x * gen)

/-- The callback of the second `Parallelize` (two_adic_multiplicative_coset.h:124-148). -/
def cosetChunk (d c : Domain F) (evals invs : List F) (cosetI : F) (start len : ℕ) :
    Option (List (Selectors F)) :=
  let rows := rowLoop c.gen cosetI d.genInv len (c.offset * powSize c.gen start)
  (batchInverseSerial (rows.map (·.1)) len 1).bind fun first =>
  (batchInverseSerial (rows.map (·.2.1)) len 1).bind fun last =>
  (List.range len).mapM fun i =>
    (first[i]?).bind fun f => (last[i]?).bind fun l => (rows[i]?).bind fun r =>
    (evals[(start + i) % evals.length]?).bind fun e =>
    (invs[(start + i) % evals.length]?).map fun v => ⟨f * e, l * e, r.2.2, v⟩

/-- `GetSelectorsOnCoset` (two_adic_multiplicative_coset.h:84-152), as a vector of selectors. The
difference of the logarithms is a `uint32_t` and, after the `CHECK_GE`, not positive: for a smaller coset
it wraps and the shift is undefined, otherwise `evals` has one entry. -/
def selectorsOnCoset (threads : ℕ) (d c : Domain F) : Option (List (Selectors F)) :=
  if d.offset ≠ 1 ∨ c.offset = 1 ∨ d.logSize < c.logSize then none
  else if (c.logSize + 2 ^ 32 - d.logSize) % 2 ^ 32 ≠ 0 then none
  else
    let eval := squareTimes d.logSize c.offset * powSize d.gen 0
    (batchInverseSerial [eval - 1] 1 1).bind fun invs =>
    let cosetI := squareTimes d.logSize d.gen * d.genInv
    let cs := numElementsPerThread threads c.size none
    ((invocations c.size cs).mapM fun ch =>
      cosetChunk d c [eval - 1] invs cosetI (ch.1 * cs) ch.2).map List.flatten

end Tachyon.Coset
