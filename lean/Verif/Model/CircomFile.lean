import Verif.Model.Buffer
import Verif.Model.Circom
/-!
# Model of the parsers of circom files

`vendors/circom/circomlib/base/{sections,modulus}.h`, `wtns/wtns.h`, `r1cs/r1cs.h`, `zkey/{zkey,verifying_key}.h`, on the
buffers of `Model/Buffer`. `none` is the end of the program; `some (none, _)` is `return false`.

The machine is little endian (`env.hostBig = false`): the pointers into the file assume it. The parsers set the byte
order to little first, so an `EndianAutoReset` changes nothing. Pointers into the file are the values they point to, at
whatever address; the conversion of witnesses and coefficients in place is done on these values, so that sections of a
zkey that overlap with the coefficients are not seen changed. What field elements and points are is left to the caller: `Types`.
-/
namespace Tachyon.CircomFile
open Tachyon.Buffer

/-- The field and the groups: sizes, and what their values are. -/
structure Types (F G1 G2 : Type) where
  /-- `sizeof(F)` and those of the affine points. -/
  sizeF : Nat
  sizeG1 : Nat
  sizeG2 : Nat
  /-- `F(v)` for a number `v` (wtns.h:131, math/finite_fields/prime_field_base.h:224). -/
  fr : Nat → F
  /-- `F::FromMontgomery(v.ToBigInt())` of an element whose bytes are this number (zkey.h:219-220). -/
  frZkey : Nat → F
  g1 : List Byte → G1
  g2 : List Byte → G2

/-- `buffer.Read` of a number (read_only_buffer.h:83-111, :157-160). -/
def num (env : Env) (n : Nat) (b : Buf) : Option (Option Nat × Buf) := readIntAt env b b.off n

/-- `return false`. -/
def failR {α : Type} (b : Buf) : Option (Option α × Buf) := some (none, b)

/-- `ReadPtr` (read_only_buffer.h:137-151, :162-165) with the elements of `size` bytes it points to; elements beyond the
end of the buffer are `none`. -/
def readPtr (size n : Nat) (b : Buf) : Option (Option (List (List Byte)) × Buf) :=
  match readPtrAt b b.off size n with
  | (none, b) => some (none, b)
  | (some off, b) =>
    if off + size * n ≤ b.data.length then
      some (some ((List.range n).map fun i => (b.data.drop (off + size * i)).take size), b)
    else none

/-- `ReadPtr` of one element. -/
def readOne (size : Nat) : Buf → Option (Option (List Byte) × Buf) :=
  bindR (readPtr size 1) fun l => match l with
    | [x] => pureR x
    | _ => fun _ => none

/-! ## Sections -/

/-- `Section` (sections.h:16-20); the second member of the range is the size (sections.h:60). -/
structure Section where
  type : Nat
  start : Nat
  size : Nat
deriving DecidableEq

/-- `Add` (sections.h:55-63). -/
def addSection (env : Env) : Buf → Option (Option Section × Buf) :=
  bindR (num env 4) fun type => bindR (num env 8) fun size b =>
    some (some ⟨type, b.off, size⟩, { b with off := (b.off + size) % 2 ^ 64 })

/-- `Sections::Read` (sections.h:30-40). -/
def readSections (env : Env) : Buf → Option (Option (List Section) × Buf) :=
  bindR (num env 4) fun n => resize env n (readN (addSection env) n)

/-- `MoveTo` (sections.h:42-52). -/
def moveTo (l : List Section) (type : Nat) (b : Buf) : Option (Option Unit × Buf) :=
  match l.find? fun s => decide (s.type = type) with
  | none => some (none, b)
  | some s => some (some (), { b with off := s.start })

/-- `Modulus::Read` (modulus.h:37-47). -/
def readModulus (env : Env) : Buf → Option (Option (List Byte) × Buf) :=
  bindR (num env 4) fun n =>
    if n % 8 ≠ 0 then failR else resize env n fun b => readBytesAt b b.off n

/-- `ParseWtns`, `ParseR1CS` and `ParseZKey` (wtns.h:52-79, r1cs.h:50-76, zkey.h:57-85) on the bytes of the file: `some none` is
`nullptr`, and a failed `Read` is the end of the program. -/
def parse {α : Type} (env : Env) (magic : List Byte) (version : Nat) (read : Buf → Option (Option α × Buf))
    (data : List Byte) : Option (Option α) :=
  match bindR (readN (num env 1) 4) (fun m => bindR (num env 4) fun v => pureR (m, v)) ⟨data, 0, .little, false⟩ with
  | none => none
  | some (none, _) => some none
  | some (some (m, v), b) =>
    if m ≠ magic.map BitVec.toNat then some none
    else if v ≠ version then some none
    else match read b with
      | some (some a, _) => some (some a)
      | _ => none

variable {F G1 G2 : Type}

/-! ## Witnesses -/

/-- `v2::Wtns` (wtns.h:139-142). -/
structure Wtns (F : Type) where
  modulus : List Byte
  numWitness : Nat
  witnesses : List F

/-- `kWtnsMagic` (wtns.h:48). -/
def wtnsMagic : List Byte := [0x77#8, 0x74#8, 0x6e#8, 0x73#8]

/-- `WtnsHeaderSection::Read` (wtns.h:101-105). -/
def readWtnsHeader (env : Env) : Buf → Option (Option (List Byte × Nat) × Buf) :=
  bindR (readModulus env) fun m => bindR (num env 4) fun n => pureR (m, n)

/-- `WtnsDataSection::Read` (wtns.h:124-134). -/
def readWtnsData (ty : Types F G1 G2) (n : Nat) : Buf → Option (Option (List F) × Buf) :=
  bindR (readPtr ty.sizeF n) fun es => pureR (es.map fun e => ty.fr (ofBytesLE e))

/-- `v2::Wtns::Read` (wtns.h:151-161). -/
def readWtns (env : Env) (ty : Types F G1 G2) : Buf → Option (Option (Wtns F) × Buf) :=
  bindR (readSections env) fun l =>
    bindR (moveTo l 1) fun _ => bindR (readWtnsHeader env) fun h =>
      bindR (moveTo l 2) fun _ => bindR (readWtnsData ty h.2) fun ws => pureR ⟨h.1, h.2, ws⟩

/-- `ParseWtns` (wtns.h:51-79). -/
def parseWtns (env : Env) (ty : Types F G1 G2) : List Byte → Option (Option (Wtns F)) :=
  parse env wtnsMagic 2 (readWtns env ty)

/-! ## Constraint systems -/

/-- `R1CSHeaderSection` (r1cs.h:90-106). -/
structure R1csHeader where
  modulus : List Byte
  numWires : Nat
  numOutputs : Nat
  numInputs : Nat
  numPrivate : Nat
  numLabels : Nat
  numConstraints : Nat
deriving DecidableEq

/-- `v1::R1CS` (r1cs.h:202-205). -/
structure R1csFile (F : Type) where
  header : R1csHeader
  constraints : List (Circom.Constraint F)
  labels : List Nat

/-- `kR1CSMagic` (r1cs.h:47). -/
def r1csMagic : List Byte := [0x72#8, 0x31#8, 0x63#8, 0x73#8]

/-- `R1CSHeaderSection::Read` (r1cs.h:120-125). -/
def readR1csHeader (env : Env) : Buf → Option (Option R1csHeader × Buf) :=
  bindR (readModulus env) fun m => bindR (num env 4) fun w => bindR (num env 4) fun o => bindR (num env 4) fun i =>
    bindR (num env 4) fun p => bindR (num env 8) fun l => bindR (num env 4) fun c => pureR ⟨m, w, o, i, p, l, c⟩

/-- `Read` of a field element (math/finite_fields/prime_field_base.h:215-226), whose limbs are read one after the other. -/
def readField (ty : Types F G1 G2) : Buf → Option (Option F × Buf) :=
  bindR (fun b => readBytesAt b b.off ty.sizeF) fun bs => pureR (ty.fr (ofBytesLE bs))

/-- One term (r1cs.h:159-160). -/
def readTerm (env : Env) (ty : Types F G1 G2) : Buf → Option (Option (Circom.CTerm F) × Buf) :=
  bindR (num env 4) fun w => bindR (readField ty) fun c => pureR ⟨w, c⟩

/-- One linear combination (r1cs.h:155-161). -/
def readLC (env : Env) (ty : Types F G1 G2) : Buf → Option (Option (List (Circom.CTerm F)) × Buf) :=
  bindR (num env 4) fun n => resize env n (readN (readTerm env ty) n)

/-- One constraint (r1cs.h:153-169). -/
def readConstraint (env : Env) (ty : Types F G1 G2) : Buf → Option (Option (Circom.Constraint F) × Buf) :=
  bindR (readLC env ty) fun a => bindR (readLC env ty) fun b => bindR (readLC env ty) fun c => pureR ⟨a, b, c⟩

/-- `v1::R1CS::Read` (r1cs.h:211-224) with `Read` of the constraints and of the labels (r1cs.h:148-173, :188-196). -/
def readR1cs (env : Env) (ty : Types F G1 G2) : Buf → Option (Option (R1csFile F) × Buf) :=
  bindR (readSections env) fun l =>
    bindR (moveTo l 1) fun _ => bindR (readR1csHeader env) fun h =>
      bindR (moveTo l 2) fun _ =>
        bindR (resize env h.numConstraints (readN (readConstraint env ty) h.numConstraints)) fun cs =>
          bindR (moveTo l 3) fun _ => bindR (resize env h.numWires (readN (num env 8) h.numWires)) fun ls => pureR ⟨h, cs, ls⟩

/-- `ParseR1CS` (r1cs.h:49-76). -/
def parseR1cs (env : Env) (ty : Types F G1 G2) : List Byte → Option (Option (R1csFile F)) :=
  parse env r1csMagic 1 (readR1cs env ty)

/-- What the circuit gets (r1cs.h:226-234): the sum is one of 32-bit numbers. -/
def R1csFile.r1cs (r : R1csFile F) : Circom.R1CS F :=
  ⟨(1 + r.header.numOutputs + r.header.numInputs) % 2 ^ 32, r.header.numWires, r.constraints⟩

/-! ## Keys -/

/-- `ZKeyHeaderGrothSection` (zkey.h:129-136), with `VerifyingKey` (verifying_key.h:17-22). -/
structure GrothHeader (G1 G2 : Type) where
  q : List Byte
  r : List Byte
  numVars : Nat
  numPublic : Nat
  domainSize : Nat
  alphaG1 : G1
  betaG1 : G1
  betaG2 : G2
  gammaG2 : G2
  deltaG1 : G1
  deltaG2 : G2

/-- `v1::ZKey` (zkey.h:238-246) without the number in its first header, which is one. -/
structure ZKeyFile (F G1 G2 : Type) where
  header : GrothHeader G1 G2
  ic : List G1
  coefficients : List (Circom.Coeff F)
  a1 : List G1
  b1 : List G1
  b2 : List G2
  c1 : List G1
  h1 : List G1

/-- `kZKeyMagic` (zkey.h:54). -/
def zkeyMagic : List Byte := [0x7a#8, 0x6b#8, 0x65#8, 0x79#8]

/-- `ZKeyHeaderSection::Read` (zkey.h:114-122). -/
def readZKeyHeader (env : Env) : Buf → Option (Option Unit × Buf) :=
  bindR (num env 4) fun t => if t ≠ 1 then failR else pureR ()

/-- `ZKeyHeaderGrothSection::Read` (zkey.h:147-154) with `VerifyingKey::Read` (verifying_key.h:33-37). -/
def readGrothHeader (env : Env) (ty : Types F G1 G2) : Buf → Option (Option (GrothHeader G1 G2) × Buf) :=
  bindR (readModulus env) fun q => bindR (readModulus env) fun r =>
    bindR (num env 4) fun v => bindR (num env 4) fun p => bindR (num env 4) fun d =>
      bindR (readOne ty.sizeG1) fun a1 => bindR (readOne ty.sizeG1) fun b1 => bindR (readOne ty.sizeG2) fun b2 =>
        bindR (readOne ty.sizeG2) fun g2 => bindR (readOne ty.sizeG1) fun d1 => bindR (readOne ty.sizeG2) fun d2 =>
          pureR ⟨q, r, v, p, d, ty.g1 a1, ty.g1 b1, ty.g2 b2, ty.g2 g2, ty.g1 d1, ty.g2 d2⟩

/-- `CommitmentsSection::Read` (zkey.h:176-181). -/
def readPoints {G : Type} (size : Nat) (g : List Byte → G) (n : Nat) : Buf → Option (Option (List G) × Buf) :=
  bindR (readPtr size n) fun es => pureR (es.map g)

/-- One packed `Coefficient` (zkey/coefficient.h:12-36) with the conversion of its value (zkey.h:219-220). -/
def coeffOf (ty : Types F G1 G2) (bs : List Byte) : Circom.Coeff F :=
  ⟨ofBytesLE (bs.take 4), ofBytesLE ((bs.drop 4).take 4), ofBytesLE ((bs.drop 8).take 4), ty.frZkey (ofBytesLE (bs.drop 12))⟩

/-- `CoefficientsSection::Read` (zkey.h:211-224). -/
def readCoefficients (env : Env) (ty : Types F G1 G2) : Buf → Option (Option (List (Circom.Coeff F)) × Buf) :=
  bindR (num env 4) fun n => bindR (readPtr (12 + ty.sizeF) n) fun es => pureR (es.map (coeffOf ty))

/-- `v1::ZKey::Read` (zkey.h:255-296); the numbers of points are 32-bit numbers. -/
def readZKey (env : Env) (ty : Types F G1 G2) : Buf → Option (Option (ZKeyFile F G1 G2) × Buf) :=
  bindR (readSections env) fun l =>
    bindR (moveTo l 1) fun _ => bindR (readZKeyHeader env) fun _ =>
      bindR (moveTo l 2) fun _ => bindR (readGrothHeader env ty) fun h =>
        bindR (moveTo l 3) fun _ => bindR (readPoints ty.sizeG1 ty.g1 ((h.numPublic + 1) % 2 ^ 32)) fun ic =>
          bindR (moveTo l 4) fun _ => bindR (readCoefficients env ty) fun cs =>
            bindR (moveTo l 5) fun _ => bindR (readPoints ty.sizeG1 ty.g1 h.numVars) fun a1 =>
              bindR (moveTo l 6) fun _ => bindR (readPoints ty.sizeG1 ty.g1 h.numVars) fun b1 =>
                bindR (moveTo l 7) fun _ => bindR (readPoints ty.sizeG2 ty.g2 h.numVars) fun b2 =>
                  bindR (moveTo l 8) fun _ =>
                    bindR (readPoints ty.sizeG1 ty.g1 ((h.numVars + 2 ^ 33 - h.numPublic - 1) % 2 ^ 32)) fun c1 =>
                      bindR (moveTo l 9) fun _ => bindR (readPoints ty.sizeG1 ty.g1 h.domainSize) fun h1 =>
                        pureR ⟨h, ic, cs, a1, b1, b2, c1, h1⟩

/-- `ParseZKey` (zkey.h:57-85). -/
def parseZKey (env : Env) (ty : Types F G1 G2) : List Byte → Option (Option (ZKeyFile F G1 G2)) :=
  parse env zkeyMagic 1 (readZKey env ty)

/-- What the prover gets (zkey.h:298-314). -/
def ZKeyFile.key (z : ZKeyFile F G1 G2) : Circom.ZKey F G1 G2 where
  pk := ⟨z.header.alphaG1, z.header.betaG1, z.header.betaG2, z.header.gammaG2, z.header.deltaG1, z.header.deltaG2, z.ic,
    z.a1, z.b1, z.b2, z.c1, z.h1⟩
  coefficients := z.coefficients
  domainSize := z.header.domainSize
  numInst := (z.header.numPublic + 1) % 2 ^ 32

end Tachyon.CircomFile
