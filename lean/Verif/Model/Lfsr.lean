import Mathlib.Algebra.Field.Defs
import Mathlib.Data.Nat.Notation
import Verif.Model.Serialize
/-!
# Model of the Grain generator of Poseidon's constants

`tachyon/crypto/hashes/sponge/poseidon/{poseidon_grain_lfsr,poseidon_config,poseidon_config_entry_base}.h`,
`FindPoseidon2ARK` of `poseidon2_config.h`. `bool state[80]` is a function of the index; `head` stays below 80
(`C74_update`). Unbounded loops have fuel. Elements are the `BigInt`s given to `FromBigInt`; `none` is a loop that does
not end within the fuel or a failed check.
-/
namespace Tachyon.Lfsr
open BigInt

/-- `PoseidonGrainLFSRConfig` (poseidon_grain_lfsr.h:18-24). -/
structure Config where
  inverse : Bool
  primeNumBits : ℕ
  stateLen : ℕ
  fullRounds : ℕ
  partialRounds : ℕ

/-- `PoseidonGrainLFSR` (poseidon_grain_lfsr.h:29-34) without `prime_num_bits`. -/
structure Gen where
  state : ℕ → Bool
  head : ℕ

/-- `ToPoseidonGrainLFSRConfig` (poseidon_config_entry_base.h:39-49); `is_sbox_an_inverse` keeps its default
(poseidon_grain_lfsr.h:19). -/
def entryConfig (kModulusBits rate fullRounds partialRounds : ℕ) : Config :=
  ⟨false, kModulusBits, rate + 1, fullRounds, partialRounds⟩

/-- `PoseidonConfigBase::IsValid` (poseidon_config_base.h:34-38) for the rows and columns of `ark`. -/
def isValid (fullRounds partialRounds rate capacity rows cols : ℕ) : Bool :=
  rows == fullRounds + partialRounds && cols == rate + capacity

/-- `state[i] = v`. -/
def setCell (s : ℕ → Bool) (i : ℕ) (v : Bool) : ℕ → Bool := fun j => if j = i then v else s j

/-- `Update` (poseidon_grain_lfsr.h:45-54). -/
def update (g : Gen) : Bool × Gen :=
  let newBit := ((((g.state ((g.head + 62) % 80) ^^ g.state ((g.head + 51) % 80)) ^^ g.state ((g.head + 38) % 80)) ^^
    g.state ((g.head + 23) % 80)) ^^ g.state ((g.head + 13) % 80)) ^^ g.state g.head
  (newBit, ⟨setCell g.state g.head newBit, (g.head + 1) % 80⟩)

/-- The loop of `Init` (poseidon_grain_lfsr.h:56-60). -/
def initLoop : ℕ → Gen → Gen
  | 0, g => g
  | k + 1, g => initLoop k (update g).2

/-- `fill_state` (poseidon_grain_lfsr.h:74-79) on the `k` cells from `start` on, the last one first. -/
def fillState (start : ℕ) : ℕ → ℕ → (ℕ → Bool) → ℕ → Bool
  | 0, _, s => s
  | k + 1, value, s => fillState start k (value / 2) (setCell s (start + k) (value % 2 == 1))

/-- The state the constructor starts `Init` with (poseidon_grain_lfsr.h:66-99). -/
def seed (c : Config) : Gen :=
  let s : ℕ → Bool := fun _ => false
  let s := setCell s 1 true
  let s := setCell s 5 c.inverse
  let s := fillState 6 12 c.primeNumBits s
  let s := fillState 18 12 c.stateLen s
  let s := fillState 30 10 c.fullRounds s
  let s := fillState 40 10 c.partialRounds s
  ⟨fun i => if 50 ≤ i ∧ i < 80 then true else s i, 0⟩

/-- The constructor (poseidon_grain_lfsr.h:63-101). -/
def create (c : Config) : Gen := initLoop 160 (seed c)

/-- The inner loop of `GetBits` (poseidon_grain_lfsr.h:113-118). -/
def skipLoop : ℕ → Bool → Gen → Option Gen
  | _, true, g => some g
  | 0, false, _ => none
  | f + 1, false, g => skipLoop f (update (update g).2).1 (update (update g).2).2

/-- `GetBits` (poseidon_grain_lfsr.h:103-124); `f` is fuel for the inner loop. -/
def getBits (f : ℕ) : ℕ → Gen → Option (List Bool × Gen)
  | 0, g => some ([], g)
  | n + 1, g =>
    (skipLoop f (update g).1 (update g).2).bind fun g =>
      (getBits f n (update g).2).map fun r => ((update g).1 :: r.1, r.2)

/-- The inner loop of `GetFieldElementsRejectionSampling` (poseidon_grain_lfsr.h:139-152), `f'` its fuel. -/
def rejectLoop (f bits : ℕ) (p : Limbs 64) : ℕ → Gen → Option (Limbs 64 × Gen)
  | 0, _ => none
  | f' + 1, g =>
    (getBits f bits g).bind fun r =>
      (fromBitsBE p.length r.1).bind fun a =>
        if lt a p then some (a, r.2) else rejectLoop f bits p f' r.2

/-- `GetFieldElementsRejectionSampling` (poseidon_grain_lfsr.h:126-156) after its check. -/
def reject (f f' bits : ℕ) (p : Limbs 64) : ℕ → Gen → Option (List (Limbs 64) × Gen)
  | 0, g => some ([], g)
  | n + 1, g =>
    (rejectLoop f bits p f' g).bind fun r =>
      (reject f f' bits p n r.2).map fun q => (r.1 :: q.1, q.2)

/-- `GetFieldElementsModP` (poseidon_grain_lfsr.h:158-183) after its check. -/
def modP (f bits : ℕ) (p : Limbs 64) : ℕ → Gen → Option (List (Limbs 64) × Gen)
  | 0, g => some ([], g)
  | n + 1, g =>
    (getBits f bits g).bind fun r =>
      (fromBitsBE p.length r.1).bind fun a =>
        (modP f bits p n r.2).map fun q => (BigInt.mod a p :: q.1, q.2)

/-- The rows drawn by `FindPoseidon2ARK` (poseidon2_config.h:29-47), rows `i`, `i + 1`, …; a partial row has one entry. -/
def rows (f f' bits : ℕ) (p : Limbs 64) (len : ℕ → ℕ) : ℕ → ℕ → Gen → Option (List (List (Limbs 64)) × Gen)
  | 0, _, g => some ([], g)
  | k + 1, i, g =>
    (reject f f' bits p (len i) g).bind fun r =>
      (rows f f' bits p len k (i + 1) r.2).map fun q => (r.1 :: q.1, q.2)

/-- `FindPoseidon2ARK` (poseidon2_config.h:29-47); `kBits` is `kModulusBits`, which is checked. -/
def findArk2 (f f' kBits : ℕ) (p : Limbs 64) (c : Config) : Option (List (List (Limbs 64))) :=
  if kBits = c.primeNumBits then
    (rows f f' kBits p (fun i => if i < c.fullRounds / 2 ∨ c.fullRounds / 2 + c.partialRounds ≤ i then c.stateLen else 1)
      (c.fullRounds + c.partialRounds) 0 (create c)).map Prod.fst
  else none

/-- The loop over the matrices that are skipped (poseidon_config.h:50-52). -/
def skipMatrices (f bits : ℕ) (p : Limbs 64) (len : ℕ) : ℕ → Gen → Option Gen
  | 0, g => some g
  | k + 1, g => (modP f bits p (2 * len) g).bind fun r => skipMatrices f bits p len k r.2

/-- What `FindPoseidonARKAndMDS` (poseidon_config.h:38-60) draws: the rows, `xs` and `ys`. -/
def findArk (f f' kBits : ℕ) (p : Limbs 64) (c : Config) (skip : ℕ) :
    Option (List (List (Limbs 64)) × List (Limbs 64) × List (Limbs 64)) :=
  if kBits = c.primeNumBits then
    (rows f f' kBits p (fun _ => c.stateLen) (c.fullRounds + c.partialRounds) 0 (create c)).bind fun r =>
      (skipMatrices f kBits p c.stateLen skip r.2).bind fun g =>
        (modP f kBits p c.stateLen g).bind fun xs =>
          (modP f kBits p c.stateLen xs.2).map fun ys => (r.1, xs.1, ys.1)
  else none

/-- The entries of `mds` (poseidon_config.h:62-67) from the elements of `xs` and `ys`, row by row; `Inverse` of zero is
none and `unwrap` of it stops the program. -/
def mdsRows {F : Type} [Field F] [DecidableEq F] (xs ys : List F) : Option (List (List F)) :=
  xs.mapM fun x => ys.mapM fun y => if x + y = 0 then none else some (x + y)⁻¹

end Tachyon.Lfsr
