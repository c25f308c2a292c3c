import Mathlib.LinearAlgebra.Matrix.Notation
import Verif.Model.Pow
import Verif.Model.SmallField
/-!
# Model of the Poseidon2 permutation

`tachyon/crypto/hashes/sponge/poseidon2/{poseidon2,poseidon2_config,poseidon2_external_matrix,
poseidon2_horizen_external_matrix,poseidon2_plonky3_external_matrix,poseidon2_horizen_internal_matrix,
poseidon2_plonky3_internal_matrix}.h`, `MakeCirculant` of `tachyon/math/matrix/matrix_utils.h`. `n` is `kWidth`; rows
of `ark` are a list. `none` is `NOTREACHED`, a failed check, a row out of bounds or a shift that is undefined.
-/
namespace Tachyon.Poseidon2
open Matrix SmallField

variable {F : Type} [Field F]

/-- `Poseidon2Vendor` (poseidon2_vendor.h:10-13). -/
inductive Vendor where
  | horizen
  | plonky3
  deriving DecidableEq

/-- Four elements of the state. -/
structure Quad (F : Type) where
  x0 : F
  x1 : F
  x2 : F
  x3 : F

/-- `Poseidon2HorizenExternalMatrix::DoApply` (poseidon2_horizen_external_matrix.h:17-27). -/
def horizen4 (v : Quad F) : Quad F :=
  let t0 := v.x0 + v.x1
  let t1 := v.x2 + v.x3
  let t2 := v.x1 + v.x1 + t1
  let t3 := v.x3 + v.x3 + t0
  let y3 := (t1 + t1) + (t1 + t1) + t3
  let y1 := (t0 + t0) + (t0 + t0) + t2
  ⟨t3 + y1, y1, t2 + y3, y3⟩

/-- `Poseidon2Plonky3ExternalMatrix::DoApply` (poseidon2_plonky3_external_matrix.h:17-28). -/
def plonky4 (v : Quad F) : Quad F :=
  let t0 := v.x0 + v.x1
  let t1 := v.x2 + v.x3
  let t2 := t0 + t1
  let t3 := t2 + v.x1
  let t4 := t2 + v.x3
  ⟨t3 + t0, t3 + (v.x2 + v.x2), t4 + t1, t4 + (v.x0 + v.x0)⟩

/-- `Derived::DoApply`. -/
def do4 : Vendor → Quad F → Quad F
  | .horizen => horizen4
  | .plonky3 => plonky4

/-- `Derived::DoConstruct` (poseidon2_horizen_external_matrix.h:29-36, poseidon2_plonky3_external_matrix.h:30-37). -/
def construct4 : Vendor → Matrix (Fin 4) (Fin 4) F
  | .horizen => !![5, 7, 1, 3; 4, 6, 1, 1; 1, 3, 5, 7; 1, 1, 4, 6]
  | .plonky3 => !![2, 3, 1, 1; 1, 2, 3, 1; 1, 1, 2, 3; 3, 1, 1, 2]

/-- Element `k` of a vector. -/
def get {n : ℕ} (v : Fin n → F) (k : ℕ) : F := if h : k < n then v ⟨k, h⟩ else 0

/-- The block of four elements that starts at `k`. -/
def block {n : ℕ} (v : Fin n → F) (k : ℕ) : Quad F := ⟨get v k, get v (k + 1), get v (k + 2), get v (k + 3)⟩

/-- Element `r` of a block. -/
def Quad.at (q : Quad F) : ℕ → F
  | 0 => q.x0
  | 1 => q.x1
  | 2 => q.x2
  | _ => q.x3

/-- `DoApply` on each block (poseidon2_external_matrix.h:36-39). -/
def blocks (vd : Vendor) {n : ℕ} (v : Fin n → F) : Fin n → F := fun i =>
  (do4 vd (block v (4 * (i.val / 4)))).at (i.val % 4)

/-- `v_tmp[r]` (poseidon2_external_matrix.h:41-47). -/
def vTmp {n : ℕ} (v : Fin n → F) (r : ℕ) : F := (List.range (n / 4)).foldl (fun acc j => acc + get v (r + 4 * j)) 0

/-- `Poseidon2ExternalMatrix::Apply` (poseidon2_external_matrix.h:20-55). -/
def applyExternal (vd : Vendor) {n : ℕ} (v : Fin n → F) : Option (Fin n → F) :=
  if n ≤ 1 ∨ 24 < n then none
  else if n = 2 then some fun i => v i + (get v 0 + get v 1)
  else if n = 3 then some fun i => v i + (get v 0 + get v 1 + get v 2)
  else if n = 4 then some (blocks vd v)
  else if n % 4 = 0 then some fun i => blocks vd v i + vTmp (blocks vd v) (i.val % 4)
  else none

/-- `MakeCirculant` (matrix_utils.h:33-56). -/
def circulant {n : ℕ} (vec : ℕ → F) : Matrix (Fin n) (Fin n) F := Matrix.of fun i j =>
  vec (if j.val ≤ i.val then i.val - j.val else i.val + n - j.val)

/-- `Poseidon2ExternalMatrix::Construct` (poseidon2_external_matrix.h:57-82). -/
def constructExternal (vd : Vendor) (n : ℕ) : Option (Matrix (Fin n) (Fin n) F) :=
  if n ≤ 1 ∨ 24 < n then none
  else if n = 2 ∨ n = 3 then some (circulant fun k => if k = 0 then 2 else 1)
  else if n = 4 then some (Matrix.of fun i j => construct4 vd (Fin.ofNat 4 i) (Fin.ofNat 4 j))
  else if n % 4 = 0 then
    some (Matrix.of fun i j =>
      if i.val / 4 = j.val / 4 then 2 * construct4 vd (Fin.ofNat 4 i) (Fin.ofNat 4 j)
      else construct4 vd (Fin.ofNat 4 i) (Fin.ofNat 4 j))
  else none

/-- `Poseidon2HorizenInternalMatrix::Apply` (poseidon2_horizen_internal_matrix.h:18-38). -/
def applyInternal {n : ℕ} (d v : Fin n → F) : Fin n → F :=
  let sum := (List.finRange n).foldl (fun acc i => acc + v i) 0
  fun i => v i * d i + sum

/-- `Poseidon2Plonky3InternalMatrix::Apply` for packed fields (poseidon2_plonky3_internal_matrix.h:22-35); `rawOne` is
`RawOne()` of a field in Montgomery representation and absent otherwise. -/
def applyInternalPacked {n : ℕ} (rawOne : Option F) (d v : Fin n → F) : Fin n → F :=
  match rawOne with
  | some r => fun i => applyInternal d v i * r
  | none => applyInternal d v

/-- The parameters `Permute` depends on and the config. `rawOne` is used when the internal matrix is Plonky3's. -/
structure Config (F : Type) (n : ℕ) where
  external : Vendor
  internal : Vendor
  rawOne : Option F
  ark : List (Fin n → F)
  diag : Fin n → F

/-- `ApplyMixPartial` (poseidon2.h:90-106) for fields of at most 32 bits; the overload for unpacked fields is
`applyShifts`. -/
def mixPartial {n : ℕ} (c : Config F n) (s : Fin n → F) : Fin n → F :=
  match c.internal with
  | .plonky3 => applyInternalPacked c.rawOne c.diag s
  | .horizen => applyInternal c.diag s

/-- `elem.ConstPow<kAlpha>()`. -/
def pow (alpha : BitVec 32) (x : F) : F := constPow ⟨1, (· * ·), fun x => x * x⟩ alpha x

/-- `ApplySBoxFull` (poseidon_sponge_base.h:162-167). -/
def sboxFull {n : ℕ} (alpha : BitVec 32) (s : Fin n → F) : Fin n → F := fun i => pow alpha (s i)

/-- `ApplyARKPartial`, `ApplySBoxPartial` (poseidon_sponge_base.h:155-160, :169-173). -/
def firstOnly {n : ℕ} (alpha : BitVec 32) (a s : Fin n → F) : Fin n → F := fun i =>
  if i.val = 0 then pow alpha (s i + a i) else s i

/-- The loops over full rounds of `Permute` (poseidon2.h:53-57, :64-69), `k` rounds from `i` on. -/
def fullRounds {n : ℕ} (alpha : BitVec 32) (c : Config F n) : ℕ → ℕ → (Fin n → F) → Option (Fin n → F)
  | 0, _, s => some s
  | k + 1, i, s =>
    (c.ark[i]?).bind fun a =>
      (applyExternal c.external (sboxFull alpha (s + a))).bind fun s => fullRounds alpha c k (i + 1) s

/-- The loop over partial rounds of `Permute` (poseidon2.h:58-63). -/
def partialRounds {n : ℕ} (alpha : BitVec 32) (c : Config F n) : ℕ → ℕ → (Fin n → F) → Option (Fin n → F)
  | 0, _, s => some s
  | k + 1, i, s => (c.ark[i]?).bind fun a => partialRounds alpha c k (i + 1) (mixPartial c (firstOnly alpha a s))

/-- `Permute` (poseidon2.h:49-70). -/
def permute {n : ℕ} (alpha : BitVec 32) (R P : ℕ) (c : Config F n) (s : Fin n → F) : Option (Fin n → F) :=
  let h := R / 2
  (applyExternal c.external s).bind fun s =>
    (fullRounds alpha c h 0 s).bind fun s =>
      (partialRounds alpha c P h s).bind fun s => fullRounds alpha c (P + R - (h + P)) (h + P) s

/-! ## Machine words -/

/-- `FromU62` (poseidon2_plonky3_internal_matrix.h:73-78) for a field that is not in Montgomery representation;
with `debug` the checks `DCHECK_LT` here and in the constructor (small_prime_field.h:45-47) are made. -/
def fromU62 (debug : Bool) (c : SmallField.Config) (x : BitVec 64) : Option (BitVec 32) :=
  let lo := (x &&& c.modulus.setWidth 64).setWidth 32
  let hi := (x >>> 31).setWidth 32
  if debug ∧ ¬ (x.toNat < 2 ^ 62 ∧ lo.toNat < c.modulus.toNat ∧ hi.toNat < c.modulus.toNat) then none
  else some (addMod c lo hi)

/-- What the sums are turned into: `FromMontgomery` of `Config` or `FromU62`. -/
def reduceSum (debug mont : Bool) (c : SmallField.Config) (x : BitVec 64) : Option (BitVec 32) :=
  if mont then some (fromMontgomery c.modulus (kInverse32 c.modulus) x) else fromU62 debug c x

/-- The loop over the elements from the second on (poseidon2_plonky3_internal_matrix.h:58-65). -/
def shiftLoop (debug mont : Bool) (c : SmallField.Config) (full : BitVec 64) :
    List (BitVec 32) → List (BitVec 8) → Option (List (BitVec 32))
  | [], _ => some []
  | x :: xs, s :: ss =>
    if s.toNat < 64 then
      (reduceSum debug mont c (full + (x.setWidth 64 <<< s.toNat))).bind fun y =>
        (shiftLoop debug mont c full xs ss).map (y :: ·)
    else none
  | _ :: _, [] => none

/-- `Poseidon2Plonky3InternalMatrix::Apply` for unpacked fields (poseidon2_plonky3_internal_matrix.h:37-66) on the words
the elements are stored in. -/
def applyShifts (debug mont : Bool) (c : SmallField.Config) (v : List (BitVec 32)) (shifts : List (BitVec 8)) :
    Option (List (BitVec 32)) :=
  match v with
  | [] => none
  | x :: xs =>
    let partialSum := xs.foldl (fun acc y => acc + y.setWidth 64) 0#64
    (reduceSum debug mont c (partialSum + (negate c x).setWidth 64)).bind fun y =>
      (shiftLoop debug mont c (partialSum + x.setWidth 64) xs shifts).map (y :: ·)

/-- `internal_diagonal_minus_one` for packed fields from the shifts (poseidon2_config.h:134-140), as integers. -/
def diagOfShifts (modulus : ℕ) (shifts : List ℕ) : List ℕ := (modulus - 2) :: shifts.map fun s => 2 ^ s

end Tachyon.Poseidon2
