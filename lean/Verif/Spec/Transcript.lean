import Mathlib.Data.ZMod.Basic
import Verif.Spec.Buffer
import Verif.Model.Transcript
/-! The bytes of points and scalars in a proof, and what transcripts have to satisfy. -/
namespace Tachyon.Transcript
open Tachyon.Buffer Tachyon.Curve Tachyon.Halo2

variable {B F P S : Type}

/-- Elements and numbers belong together; nothing is said of numbers that are not the number of an element. -/
structure Codec.Ok (c : Codec F) : Prop where
  limbs : 0 < c.limbs
  val_lt : ∀ x, c.val x < 256 ^ c.size
  of_val : ∀ x, c.of (c.val x) = x
  num_lt : ∀ x, c.num x < 256 ^ c.size
  ofNum_num : ∀ x, c.ofNum (c.num x) = x

/-- Zero has the number zero, and an element other than zero and its negative differ in parity. -/
structure Codec.Signed [Field F] (c : Codec F) : Prop extends c.Ok where
  val_zero : c.val 0 = 0
  parity : ∀ y, y ≠ 0 → c.val (-y) % 2 ≠ c.val y % 2

/-- The integers modulo `p`, with `R` the factor of the numbers in a proof: one, or the one of the Montgomery form. -/
def zmodCodec (p : ℕ) [NeZero p] (R : (ZMod p)ˣ) (limbs : ℕ) : Codec (ZMod p) :=
  ⟨limbs, ZMod.val, Nat.cast, fun x => (x * R).val, fun v => v * (R⁻¹ : (ZMod p)ˣ)⟩

/-- Integers of more than one byte start with their lowest byte. -/
def Little (env : Env) (e : Endian) : Prop := env.hostBig = false ∧ e ≠ .big

variable [Field B]

/-- The points on the curve. -/
def OnCurve (cfg : Config B) (p : Affine B) : Prop := p.y ^ 2 = p.x ^ 3 + cfg.a * p.x + cfg.b

/-- The lowest bit that the coordinate leaves: the highest bit of all, or the one below. -/
def signBit (c : Codec B) (legacy : Bool) : ℕ := if legacy then 2 ^ (8 * c.size - 1) else 2 ^ (8 * c.size - 2)

/-- The number of a point: its first coordinate and the parity of the second one; for zero nothing or the highest bit. -/
noncomputable def code (c : Codec B) (legacy : Bool) (p : Affine B) : ℕ :=
  open Classical in
  if p = ⟨0, 0⟩ then if legacy then 0 else 2 ^ (8 * c.size - 1)
  else c.val p.x + c.val p.y % 2 * signBit c legacy

/-- The number stands for the point. -/
def Stands (cfg : Config B) (c : Codec B) (legacy : Bool) (v : ℕ) (p : Affine B) : Prop :=
  let x := c.of (v % signBit c legacy)
  let inf := x = 0 ∧ (legacy = false → 2 ^ (8 * c.size - 1) ≤ v)
  (inf ∧ p = ⟨0, 0⟩) ∨
    (¬ inf ∧ p.x = x ∧ OnCurve cfg p ∧ (p.y ≠ 0 → c.val p.y % 2 = v / signBit c legacy % 2))

/-- The points that the form has bytes for. -/
def Writable (cfg : Config B) (legacy : Bool) (p : Affine B) : Prop :=
  p = ⟨0, 0⟩ ∨ OnCurve cfg p ∧ (legacy = true → p.x ≠ 0)

/-- What is written can be read, and takes these bytes. -/
structure Serializes (env : Env) (e : Endian) (s : Serializer P F) (Good : Msg P F → Prop) (bytes : Msg P F → List Byte) : Prop where
  write : ∀ m, Good m → ∀ b : Buf, b.endian = e → b.growable = true → b.off = b.data.length → b.data.length + (bytes m).length ≤ env.maxSize →
    s.write m b = some (true, { b with data := b.data ++ bytes m, off := b.off + (bytes m).length })
  point : ∀ p, Good (.point p) → ∀ b : Buf, b.endian = e → b.off ≤ b.data.length → b.data.length < 2 ^ 64 →
    bytes (.point p) <+: b.data.drop b.off → s.readPoint b = some (some p, { b with off := b.off + (bytes (.point p)).length })
  scalar : ∀ v, Good (.scalar v) → ∀ b : Buf, b.endian = e → b.off ≤ b.data.length → b.data.length < 2 ^ 64 →
    bytes (.scalar v) <+: b.data.drop b.off → s.readScalar b = some (some v, { b with off := b.off + (bytes (.scalar v)).length })

/-- What the transcript of a prover sees. -/
def Act.event : Act P F → Event P F
  | .tell m => .absorb m
  | .send m => .absorb m
  | .squeeze => .squeeze

/-- What the verifier does when the prover does this. -/
def Act.ask : Act P F → Ask P F
  | .tell m => .tell m
  | .send (.point _) => .point
  | .send (.scalar _) => .scalar
  | .squeeze => .squeeze

/-- What a prover writes to the proof. -/
def Act.sent : Act P F → Option (Msg P F)
  | .send m => some m
  | _ => none

/-- The bytes of a proof. -/
def proofOf (bytes : Msg P F → List Byte) (as : List (Act P F)) : List Byte := (as.filterMap Act.sent).flatMap bytes

/-- The inputs of the hash function of Sha256, from the bytes `st` on; `msg` is what a message adds. -/
def digested (hash : List Byte → List Byte) (msg : Msg P F → List Byte) : Log P F → List Byte → List (List Byte)
  | [], _ => []
  | .absorb m :: l, st => digested hash msg l (st ++ msg m)
  | .squeeze :: l, st => (st ++ [0]) :: digested hash msg l (hash (st ++ [0]))

/-- A sponge with a one behind the input, which is added in blocks. -/
inductive Squeezed [Field F] (rate : ℕ) (permute : List F → List F) : List F → List F → List F → Prop
  | last {st xs : List F} (h : xs.length < rate) :
      Squeezed rate permute st xs (permute (st.mapIdx fun i s => if i = 0 then s else s + (xs ++ [1]).getD (i - 1) 0))
  | block {st xs ys r : List F} (h : xs.length = rate)
      (hr : Squeezed rate permute (permute (st.mapIdx fun i s => if i = 0 then s else s + xs.getD (i - 1) 0)) ys r) :
      Squeezed rate permute st (xs ++ ys) r

/-- The elements of a sponge at its last squeeze, and what it was given since. -/
inductive After [Field F] (rate : ℕ) (permute : List F → List F) (init : List F) (values : Msg P F → List F) :
    Log P F → List F → List F → Prop
  | nil : After rate permute init values [] init []
  | absorb {l : Log P F} {st xs : List F} (h : After rate permute init values l st xs) (m : Msg P F) :
      After rate permute init values (l ++ [.absorb m]) st (xs ++ values m)
  | squeeze {l : Log P F} {st xs r : List F} (h : After rate permute init values l st xs) (hr : Squeezed rate permute st xs r) :
      After rate permute init values (l ++ [.squeeze]) r []

end Tachyon.Transcript
