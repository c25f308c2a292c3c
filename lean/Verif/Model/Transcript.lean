import Verif.Model.Buffer
import Verif.Model.Curve
import Verif.Model.Halo2Protocol
import Verif.Model.PrimeField
import Verif.Model.Sponge
/-! The transcripts of halo2 and the bytes of its proofs: `crypto/transcripts/{transcript,simple_transcript}.h`,
`zk/plonk/halo2/{blake2b_transcript,sha256_transcript,poseidon_transcript,snark_verifier_poseidon_transcript,proof_serializer,
prime_field_conversion,constants}.h`, and `Copyable` of prime fields and of `BigInt` (math/finite_fields/prime_field_base.h:189-226,
math/base/big_int.h:1168-1176).

The hash functions are functions of all bytes they were given since their initialisation, and the permutation of Poseidon is any function of
the state. The state that is saved and restored by the bindings to Rust (`GetState`, `SetState`, `Update`, `Finalize`) is left out, and so is
the member `state_` of `Sha256Writer` (sha256_transcript.h:190), which hides the one of its base class and which nothing reads. -/
namespace Tachyon.Transcript
open Tachyon.Buffer Tachyon.Curve Tachyon.Halo2

/-! ## Numbers and field elements -/

/-- A prime field: the number of its limbs, `ToBigInt()`, the constructor from a `BigInt` (of a number that may be out of range), and the
numbers that `Copyable` writes and reads, which are in Montgomery form if `s_is_in_montgomery` is set (prime_field_base.h:198-226). -/
structure Codec (F : Type) where
  limbs : ℕ
  val : F → ℕ
  of : ℕ → F
  num : F → ℕ
  ofNum : ℕ → F

/-- `kByteNums` (big_int.h:56). -/
def Codec.size {F : Type} (c : Codec F) : ℕ := 8 * c.limbs

/-- The limbs of a number. -/
def toLimbs : ℕ → ℕ → List ℕ
  | 0, _ => []
  | k + 1, v => v % 2 ^ 64 :: toLimbs k (v / 2 ^ 64)

/-- The number with these limbs. -/
def ofLimbs : List ℕ → ℕ
  | [] => 0
  | l :: ls => l + 2 ^ 64 * ofLimbs ls

/-- `WriteTo` of `Copyable<BigInt>` (big_int.h:1170-1172). -/
def writeNum (env : Env) (k v : ℕ) : Buf → Option (Bool × Buf) := write env (.arr k (.int 8)) (toLimbs k v)

/-- `ReadFrom` of `Copyable<BigInt>` (big_int.h:1174-1176). -/
def readNum (env : Env) (k : ℕ) : Buf → Option (Option ℕ × Buf) :=
  bindR (read env (.arr k (.int 8))) fun ls => pureR (ofLimbs ls)

/-- `Write` of an array of bytes. -/
def writeBytes (env : Env) (n : ℕ) (bytes : List ℕ) : Buf → Option (Bool × Buf) := write env (.arr n (.int 1)) bytes

/-- `Read` of an array of bytes. -/
def readBytes (env : Env) (n : ℕ) : Buf → Option (Option (List ℕ) × Buf) := read env (.arr n (.int 1))

/-- `FromUint512` (prime_field_conversion.h:28-51): the result is in Montgomery form. -/
def fromUint512 {w : ℕ} (m limbs : BigInt.Limbs w) : BigInt.Limbs w :=
  let d0 := limbs.take m.length
  let d1 := limbs.drop m.length
  let d2 := BigInt.montgomeryReduce false m (PrimeField.kInverse m) (BigInt.mulExtend d0 (BigInt.montgomeryRk 2 m))
  let d3 := BigInt.montgomeryReduce false m (PrimeField.kInverse m) (BigInt.mulExtend d1 (BigInt.montgomeryRk 3 m))
  PrimeField.add m d2 d3

/-! ## `proof_serializer.h` -/

/-- `ProofSerializer<F>::WriteToProof` (proof_serializer.h:31-34). -/
def writeScalar {F : Type} (env : Env) (c : Codec F) (s : F) : Buf → Option (Bool × Buf) := writeNum env c.limbs (c.num s)

/-- `ProofSerializer<F>::ReadFromProof` (proof_serializer.h:26-29). -/
def readScalar {F : Type} (env : Env) (c : Codec F) : Buf → Option (Option F × Buf) :=
  bindR (readNum env c.limbs) fun v => pureR (c.ofNum v)

/-- `ProofSerializer<AffinePoint>::CheckBits` (proof_serializer.h:47-50). -/
def checkBits (legacy : Bool) (modulusBits : ℕ) : Bool :=
  let bitsNeeded := if legacy then 1 else 2
  decide (bitsNeeded ≤ modulusBits % 8)

variable {B F S : Type} [Field B] [DecidableEq B]

/-- `ProofSerializer<AffinePoint>::WriteToProof` (proof_serializer.h:85-101). -/
def writePoint (env : Env) (c : Codec B) (legacy : Bool) (p : Affine B) (b : Buf) : Option (Bool × Buf) :=
  if p.isZero then
    let zeroBytes : List ℕ := List.replicate c.size 0
    let zeroBytes := if legacy then zeroBytes else zeroBytes.set (c.size - 1) (zeroBytes.getD (c.size - 1) 0 ||| 0b10000000)
    writeBytes env c.size zeroBytes b
  else
    let bits := if legacy then 7 else 6
    let isOdd := (if c.val p.y % 2 = 1 then 1 else 0) <<< bits
    let x : List ℕ := (bytesLE c.size (c.val p.x)).map BitVec.toNat
    andThen (writeBytes env c.size x)
      (fun b => writeIntAt env b (b.off - 1) 1 (x.getD (c.size - 1) 0 ||| isOdd)) b

/-- `CreateFromX` and the end of `ReadFromProof` (proof_serializer.h:78-82). -/
def decompress (cfg : Config B) (sqrt : B → Option B) (c : Codec B) (x : B) (isOdd : Bool) : Buf → Option (Option (Affine B) × Buf) :=
  match createFromX cfg sqrt (fun y => decide (c.val y % 2 = 0)) x isOdd with
  | none => fun b => some (none, b)
  | some p => pureR p

/-- `ProofSerializer<AffinePoint>::ReadFromProof` (proof_serializer.h:52-83). -/
def readPoint (env : Env) (cfg : Config B) (sqrt : B → Option B) (c : Codec B) (legacy : Bool) : Buf → Option (Option (Affine B) × Buf) :=
  bindR (readBytes env c.size) fun bytes =>
    let last := bytes.getD (c.size - 1) 0
    if legacy then
      let isOdd := decide (last >>> 7 ≠ 0)
      let bytes := bytes.set (c.size - 1) (last &&& 0b01111111)
      let x := c.of (ofBytesLE (bytes.map (BitVec.ofNat 8)))
      if x = 0 then pureR Affine.zero else decompress cfg sqrt c x isOdd
    else
      let isInf := decide (last >>> 7 ≠ 0)
      let isOdd := decide ((last >>> 6) &&& 1 ≠ 0)
      let bytes := bytes.set (c.size - 1) (last &&& 0b00111111)
      let x := c.of (ofBytesLE (bytes.map (BitVec.ofNat 8)))
      if x = 0 ∧ isInf then pureR Affine.zero else decompress cfg sqrt c x isOdd

/-- The virtual functions `DoWriteToProof` and `DoReadFromProof` (transcript.h:131-136, :206-211). -/
structure Serializer (P F : Type) where
  writePoint : P → Buf → Option (Bool × Buf)
  writeScalar : F → Buf → Option (Bool × Buf)
  readPoint : Buf → Option (Option P × Buf)
  readScalar : Buf → Option (Option F × Buf)

def Serializer.write {P F : Type} (s : Serializer P F) : Msg P F → Buf → Option (Bool × Buf)
  | .point p => s.writePoint p
  | .scalar v => s.writeScalar v

/-- The serializer of Blake2b, Poseidon and SnarkVerifierPoseidon (blake2b_transcript.h:126-132, :173-179, poseidon_transcript.h:178-184,
:228-234, snark_verifier_poseidon_transcript.h:153-159, :204-210). -/
def compressed (env : Env) (cfg : Config B) (sqrt : B → Option B) (cB : Codec B) (cF : Codec F) (legacy : Bool) :
    Serializer (Affine B) F :=
  ⟨writePoint env cB legacy, writeScalar env cF, readPoint env cfg sqrt cB legacy, readScalar env cF⟩

/-- The serializer of Sha256 (sha256_transcript.h:121-135, :178-188). -/
def uncompressed (env : Env) (cB : Codec B) (cF : Codec F) : Serializer (Affine B) F :=
  ⟨fun p => andThen (writeNum env cB.limbs (cB.val p.x)) (writeNum env cB.limbs (cB.val p.y)), writeScalar env cF,
    bindR (readNum env cB.limbs) fun x => bindR (readNum env cB.limbs) fun y => pureR ⟨cB.of x, cB.of y⟩, readScalar env cF⟩

/-! ## Writer and reader (`transcript.h`) -/

/-- The virtual functions `WriteToTranscript` and `SqueezeChallenge` (transcript.h:36-45); `none` is an access out of bounds. -/
structure Hash (P F S : Type) where
  absorb : Msg P F → S → Option S
  squeeze : S → Option (F × S)

variable {P : Type}

/-- What a prover does to its transcript. -/
inductive Act (P F : Type)
  | tell (m : Msg P F)
  | send (m : Msg P F)
  | squeeze
deriving DecidableEq

/-- What a verifier does to its transcript. -/
inductive Ask (P F : Type)
  | tell (m : Msg P F)
  | point
  | scalar
  | squeeze
deriving DecidableEq

/-- What comes of it. -/
inductive Out (P F : Type)
  | told
  | msg (m : Msg P F)
  | challenge (c : F)
deriving DecidableEq

/-- One call of the writer (transcript.h:193-204). -/
def writerStep (h : Hash P F S) (s : Serializer P F) : Act P F → S × Buf → Option (Bool × Out P F × S × Buf)
  | .tell m, (st, b) => (h.absorb m st).map fun st => (true, .told, st, b)
  | .send m, (st, b) => (h.absorb m st).bind fun st =>
    (s.write m b).map fun r => (r.1, .msg m, st, r.2)
  | .squeeze, (st, b) => (h.squeeze st).map fun r => (true, .challenge r.1, r.2, b)

/-- One call of the reader (transcript.h:116-129). -/
def readerStep (h : Hash P F S) (s : Serializer P F) : Ask P F → S × Buf → Option (Option (Out P F) × S × Buf)
  | .tell m, (st, b) => (h.absorb m st).map fun st => (some .told, st, b)
  | .point, (st, b) => (s.readPoint b).bind fun r =>
    match r with
    | (none, b) => some (none, st, b)
    | (some p, b) => (h.absorb (.point p) st).map fun st => (some (.msg (.point p)), st, b)
  | .scalar, (st, b) => (s.readScalar b).bind fun r =>
    match r with
    | (none, b) => some (none, st, b)
    | (some v, b) => (h.absorb (.scalar v) st).map fun st => (some (.msg (.scalar v)), st, b)
  | .squeeze, (st, b) => (h.squeeze st).map fun r => (some (.challenge r.1), r.2, b)

/-- A prover that stops at the first failure. -/
def runWriter (h : Hash P F S) (s : Serializer P F) : List (Act P F) → S × Buf → Option (Option (List (Out P F)) × S × Buf)
  | [], st => some (some [], st)
  | a :: as, st => (writerStep h s a st).bind fun r =>
    if r.1 then (runWriter h s as r.2.2).map fun q => (q.1.map (r.2.1 :: ·), q.2) else some (none, r.2.2)

/-- A verifier that stops at the first failure. -/
def runReader (h : Hash P F S) (s : Serializer P F) : List (Ask P F) → S × Buf → Option (Option (List (Out P F)) × S × Buf)
  | [], st => some (some [], st)
  | a :: as, st => (readerStep h s a st).bind fun r =>
    match r with
    | (none, st) => some (none, st)
    | (some o, st) => (runReader h s as st).map fun q => (q.1.map (o :: ·), q.2)

/-- The state after what a transcript has seen. -/
def Hash.run (h : Hash P F S) : Log P F → S → Option S
  | [], st => some st
  | .absorb m :: l, st => (h.absorb m st).bind (h.run l)
  | .squeeze :: l, st => (h.squeeze st).bind fun r => h.run l r.2

/-! ## The hashes -/

/-- `Blake2bBase` (blake2b_transcript.h:27-72); the state is the bytes since `BLAKE2B512_InitWithPersonal`, `hash` maps them to the digest,
and `wide` is `FromUint512`. -/
def blake2b (cB : Codec B) (cF : Codec F) (hash : List Byte → List Byte) (wide : ℕ → F) : Hash (Affine B) F (List Byte) where
  absorb
    | .point p, st => some (st ++ [1] ++
        if p.isZero then bytesLE cB.size 0 ++ bytesLE cB.size 5
        else bytesLE cB.size (cB.val p.x) ++ bytesLE cB.size (cB.val p.y))
    | .scalar v, st => some (st ++ [2] ++ bytesLE cF.size (cF.val v))
  squeeze st := some (wide (ofBytesLE (hash (st ++ [0]))), st ++ [0])

/-- `Sha256Base` (sha256_transcript.h:24-69). -/
def sha256 (cB : Codec B) (cF : Codec F) (hash : List Byte → List Byte) (wide : ℕ → F) : Hash (Affine B) F (List Byte) where
  absorb
    | .point p, st => some (st ++ List.replicate 31 0 ++ [1] ++ (bytesLE cB.size (cB.val p.x)).reverse ++
        (bytesLE cB.size (cB.val p.y)).reverse)
    | .scalar v, st => some (st ++ List.replicate 31 0 ++ [2] ++ (bytesLE cF.size (cF.val v)).reverse)
  squeeze st :=
    let result := hash (st ++ [0])
    some (wide (ofBytesLE (result ++ List.replicate 32 0)), result)

variable [Field F]

/-- The sponge of a Poseidon transcript: `kRate` and the permutation. -/
structure Sponge (F : Type) where
  rate : ℕ
  permute : List F → List F

/-- The members: `absorbing_` or `buf_`, and the elements of `state_`. -/
structure SpongeSt (F : Type) where
  pending : List F
  elems : List F
deriving DecidableEq

/-- The constructors (poseidon_transcript.h:38-46, snark_verifier_poseidon_transcript.h:29-37). -/
def spongeInit (width : ℕ) : SpongeSt F := ⟨[], (List.replicate width 0).set 0 (2 ^ 64)⟩

/-- `BaseToScalar` (poseidon_transcript.h:144-151, snark_verifier_poseidon_transcript.h:118-125). -/
def baseToScalar (cB : Codec B) (wide : ℕ → F) (x : B) : F :=
  wide (ofBytesLE ((bytesLE cB.size (cB.val x)).take (min 64 cB.size)))

/-- The values for a message (poseidon_transcript.h:56-65, snark_verifier_poseidon_transcript.h:47-56). -/
def elements (cB : Codec B) (wide : ℕ → F) : Msg (Affine B) F → List F
  | .point p => [baseToScalar cB wide p.x, baseToScalar cB wide p.y]
  | .scalar v => [v]

/-- `DoSqueezeChallenge` of a squeezed scalar (poseidon_transcript.h:49-53, snark_verifier_poseidon_transcript.h:40-44). -/
def widen (cF : Codec F) (wide : ℕ → F) (s : F) : F := wide (ofBytesLE (bytesLE 32 (cF.val s) ++ List.replicate 32 0))

/-- The loop of `DoUpdate` from chunk `i` on (poseidon_transcript.h:98-118). -/
def poseidonChunks (p : Sponge F) (input : List F) (numChunks : ℕ) : ℕ → ℕ → SpongeSt F → Option (SpongeSt F)
  | 0, _, st => some st
  | fuel + 1, i, st =>
    if i < numChunks then
      let start := i * p.rate
      let chunkLen := if i = numChunks - 1 then input.length - start else p.rate
      let chunk := (input.drop start).take chunkLen
      if chunkLen < p.rate then poseidonChunks p input numChunks fuel (i + 1) ⟨chunk, st.elems⟩
      else
        (Tachyon.Sponge.addAt 1 (chunk.take p.rate) st.elems).bind fun s =>
          poseidonChunks p input numChunks fuel (i + 1) ⟨[], p.permute s⟩
    else some st

/-- `DoUpdate` (poseidon_transcript.h:92-119). -/
def poseidonUpdate (p : Sponge F) (data : List F) (st : SpongeSt F) : Option (SpongeSt F) :=
  let input := st.pending ++ data
  let numChunks := (input.length + p.rate - 1) / p.rate
  poseidonChunks p input numChunks numChunks 0 st

/-- `DoSqueeze` (poseidon_transcript.h:69-88). -/
def poseidonSqueeze (p : Sponge F) (st : SpongeSt F) : Option (F × SpongeSt F) :=
  (Tachyon.Sponge.addAt 1 (st.pending ++ [1]) st.elems).bind fun s =>
    let s := p.permute s
    (s[1]?).map fun x => (x, ⟨[], s⟩)

/-- `PoseidonBase` (poseidon_transcript.h:30-151). -/
def poseidon (cB : Codec B) (cF : Codec F) (wide : ℕ → F) (p : Sponge F) : Hash (Affine B) F (SpongeSt F) where
  absorb m st := poseidonUpdate p (elements cB wide m) st
  squeeze st := (poseidonSqueeze p st).map fun r => (widen cF wide r.1, r.2)

/-- The loop of `DoSqueeze` from chunk `i` on (snark_verifier_poseidon_transcript.h:61-75). -/
def snarkChunks (p : Sponge F) (buf : List F) (numChunks : ℕ) : ℕ → ℕ → List F → Option (List F)
  | 0, _, s => some s
  | fuel + 1, i, s =>
    if i < numChunks then
      let start := i * p.rate
      let len := min (start + p.rate) buf.length - start
      (Tachyon.Sponge.addAt 1 ((buf.drop start).take len) s).bind fun s =>
        (if len + 1 < s.length then Tachyon.Sponge.addAt (len + 1) [1] s else some s).bind fun s =>
          snarkChunks p buf numChunks fuel (i + 1) (p.permute s)
    else some s

/-- `DoSqueeze` (snark_verifier_poseidon_transcript.h:58-86). -/
def snarkSqueeze (p : Sponge F) (st : SpongeSt F) : Option (F × SpongeSt F) :=
  let numChunks := (st.pending.length + p.rate - 1) / p.rate
  (snarkChunks p st.pending numChunks numChunks 0 st.elems).bind fun s =>
    (if st.pending.length = numChunks * p.rate then (Tachyon.Sponge.addAt 1 [1] s).map p.permute else some s).bind fun s =>
      (s[1]?).map fun x => (x, ⟨[], s⟩)

/-- `SnarkVerifierPoseidonBase` (snark_verifier_poseidon_transcript.h:20-125). -/
def snarkVerifier (cB : Codec B) (cF : Codec F) (wide : ℕ → F) (p : Sponge F) : Hash (Affine B) F (SpongeSt F) where
  absorb m st := some { st with pending := st.pending ++ elements cB wide m }
  squeeze st := (snarkSqueeze p st).map fun r => (widen cF wide r.1, r.2)

/-- `SimpleTranscript` (simple_transcript.h:29-55); `toScalar` is `BaseToScalar` of `value()`. -/
def simple (toScalar : B → F) : Hash (Affine B) F F where
  absorb
    | .point p, st => some (st + toScalar p.x + toScalar p.y)
    | .scalar v, st => some (st + v)
  squeeze st := some (st + st, st + st)

end Tachyon.Transcript
