import Verif.Model.Transcript
/-! Random number generators: `crypto/random/{rng,block_rng}.h`, `crypto/random/xor_shift/xor_shift_rng.h`,
`crypto/random/cha_cha20/cha_cha20_rng.h` and `zk/plonk/halo2/random_field_generator.h`, on a little-endian machine. The function
`chacha_core` of OpenSSL is any function from 16 words to 64 bytes. `SetRandomSeed` is `SetSeed` with a random seed. States are written and
read as bytes; that the buffers do so is C44. `none` is an access out of bounds or the result `false` of a function that reads. -/
namespace Tachyon.Random
open Tachyon.Buffer

abbrev Word := BitVec 32

/-- The word at four bytes. -/
def wordOf (bs : List Byte) : Word := BitVec.ofNat 32 (ofBytesLE bs)

/-- The bytes of a word. -/
def bytesOf (w : Word) : List Byte := bytesLE 4 w.toNat

/-- `n` words from the first `4 n` bytes. -/
def wordsOf : ℕ → List Byte → List Word
  | 0, _ => []
  | n + 1, bs => wordOf (bs.take 4) :: wordsOf n (bs.drop 4)

/-- `n` calls of a generator. -/
def run {S A : Type} (next : S → Option (A × S)) : ℕ → S → Option (List A × S)
  | 0, s => some ([], s)
  | n + 1, s => (next s).bind fun a => (run next n a.2).map fun r => (a.1 :: r.1, r.2)

/-- `NextUint64` (rng.h:17-21). -/
def nextUint64 {S : Type} (next : S → Option (Word × S)) (s : S) : Option (BitVec 64 × S) :=
  (next s).bind fun lo => (next lo.2).map fun hi => (BitVec.shiftLeft (hi.1.setWidth 64) 32 ||| lo.1.setWidth 64, hi.2)

/-- `Generate` (random_field_generator.h:20-28). -/
def generate {S : Type} (next : S → Option (Word × S)) (m : BigInt.Limbs 64) (s : S) : Option (BigInt.Limbs 64 × S) :=
  (run (nextUint64 next) 8 s).map fun r => (Transcript.fromUint512 m r.1, r.2)

/-! ### `XORShiftRNG` -/

/-- The members (xor_shift_rng.h:84-87). -/
structure XorShift where
  x : Word
  y : Word
  z : Word
  w : Word
  deriving DecidableEq

/-- The initial values (xor_shift_rng.h:84-87). -/
def XorShift.new : XorShift := ⟨195911405, 195911405, 195911405, 195911405⟩

/-- `SetSeed` (xor_shift_rng.h:42-52): the result and the state after it. -/
def XorShift.setSeed (s : XorShift) (seed : List Byte) : Bool × XorShift :=
  if seed.length ≠ 16 then (false, s)
  else (true, ⟨wordOf (seed.take 4), wordOf ((seed.drop 4).take 4), wordOf ((seed.drop 8).take 4), wordOf ((seed.drop 12).take 4)⟩)

/-- `NextUint32` (xor_shift_rng.h:54-61). -/
def XorShift.next (s : XorShift) : Word × XorShift :=
  let t := s.x ^^^ (s.x <<< 11)
  let w := s.w ^^^ (s.w >>> 19) ^^^ (t ^^^ (t >>> 8))
  (w, ⟨s.y, s.z, s.w, w⟩)

/-- `WriteToBuffer` (xor_shift_rng.h:75-78). -/
def XorShift.write (s : XorShift) : List Byte := bytesOf s.x ++ bytesOf s.y ++ bytesOf s.z ++ bytesOf s.w

/-- `ReadFromBuffer` (xor_shift_rng.h:63-73): the state and what is left. -/
def XorShift.read (bs : List Byte) : Option (XorShift × List Byte) :=
  if bs.length < 16 then none
  else some (⟨wordOf (bs.take 4), wordOf ((bs.drop 4).take 4), wordOf ((bs.drop 8).take 4), wordOf ((bs.drop 12).take 4)⟩, bs.drop 16)

/-! ### `ChaCha20RNG` -/

/-- The members (block_rng.h:31, cha_cha20_rng.h:122-123). -/
structure ChaCha where
  index : ℕ
  input : List Word
  output : List Byte
  deriving DecidableEq

/-- The first words of the input (cha_cha20_rng.h:88-91). -/
def constants : List Word := [0x61707865, 0x3320646E, 0x79622D32, 0x6B206574]

/-- `SetSeed` (cha_cha20_rng.h:54-63): the result and the state after it. -/
def ChaCha.setSeed (s : ChaCha) (seed : List Byte) : Bool × ChaCha :=
  if seed.length ≠ 32 then (false, s)
  else (true, { s with input := s.input.take 4 ++ wordsOf 8 seed ++ s.input.drop 12 })

/-- The constructor from a seed (cha_cha20_rng.h:86-101); `output` are the bytes in the memory. -/
def ChaCha.new (seed output : List Byte) : Option ChaCha :=
  let r := ChaCha.setSeed ⟨16, constants ++ List.replicate 12 0, output⟩ seed
  if r.1 then some { r.2 with input := r.2.input.take 12 ++ [0, 0, 0, 0] } else none

/-- `Update` (cha_cha20_rng.h:111-116). -/
def ChaCha.update (core : List Word → List Byte) (s : ChaCha) : ChaCha :=
  let lo := s.input.getD 12 0 + 1
  let input := s.input.set 12 lo
  { s with output := core s.input, input := if lo = 0 then input.set 13 (input.getD 13 0 + 1) else input }

/-- `Get` (cha_cha20_rng.h:118-120). -/
def ChaCha.get (s : ChaCha) (index : ℕ) : Option Word :=
  if (index + 1) * 4 ≤ s.output.length then some (wordOf ((s.output.drop (index * 4)).take 4)) else none

/-- `NextUint32` (block_rng.h:21-28); `kMaxIndex` (block_rng.h:13) is 16. -/
def ChaCha.next (core : List Word → List Byte) (s : ChaCha) : Option (Word × ChaCha) :=
  let s := if s.index = 16 then { s.update core with index := 0 } else s
  (s.get s.index).map fun w => (w, { s with index := s.index + 1 })

/-- `WriteToBuffer` (cha_cha20_rng.h:78-81). -/
def ChaCha.write (s : ChaCha) : List Byte := bytesLE 8 s.index ++ s.input.flatMap bytesOf ++ s.output

/-- `ReadFromBuffer` (cha_cha20_rng.h:65-76): the state and what is left. -/
def ChaCha.read (bs : List Byte) : Option (ChaCha × List Byte) :=
  if bs.length < 136 then none
  else some (⟨ofBytesLE (bs.take 8), wordsOf 16 (bs.drop 8), (bs.drop 72).take 64⟩, bs.drop 136)

end Tachyon.Random
