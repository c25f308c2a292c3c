import Verif.Spec.Buffer
import Verif.Model.CircomFile
/-! The formats of circom's files, as relations between bytes and values, and files made of sections. -/
namespace Tachyon.CircomFile
open Tachyon.Buffer

/-- The headers of the sections from the offset on: type, size, contents; the next header is behind the contents, in 64 bits. -/
inductive Walk (data : List Byte) : ℕ → List Section → Prop
  | nil (off : ℕ) : Walk data off []
  | cons {off t size : ℕ} {l : List Section} (ht : t < 2 ^ 32) (hs : size < 2 ^ 64)
      (h : digits 4 t ++ digits 8 size <+: data.drop off) (hl : Walk data ((off + 12 + size) % 2 ^ 64) l) :
      Walk data off (⟨t, off + 12, size⟩ :: l)

/-- The file starts with the word, the version and the number of sections, and has these sections. -/
structure Begins (data magic : List Byte) (version : ℕ) (l : List Section) : Prop where
  count : l.length < 2 ^ 32
  start : magic ++ digits 4 version ++ digits 4 l.length <+: data
  walk : Walk data 12 l

/-- `s` is the first section of the type, and the bytes stand where it begins. -/
def Holds (data : List Byte) (l : List Section) (t : ℕ) (bs : List Byte) : Prop :=
  ∃ s, l.find? (fun s => decide (s.type = t)) = some s ∧ bs <+: data.drop s.start

/-- The elements of `size` bytes stand where the first section of the type begins, in the file. -/
def HoldsAll (data : List Byte) (l : List Section) (t size : ℕ) (es : List (List Byte)) : Prop :=
  (∀ e ∈ es, e.length = size) ∧
    ∃ s, l.find? (fun s => decide (s.type = t)) = some s ∧ s.start ≤ data.length ∧ es.flatten <+: data.drop s.start

/-- A modulus: a multiple of eight bytes with their number before. -/
def ModOk (m : List Byte) : Prop := m.length % 8 = 0 ∧ m.length < 2 ^ 32

def encMod (m : List Byte) : List Byte := digits 4 m.length ++ m

variable {F G1 G2 : Type}

/-- A file of witnesses. -/
def IsWtns (ty : Types F G1 G2) (data : List Byte) (w : Wtns F) : Prop :=
  ∃ (l : List Section) (es : List (List Byte)), Begins data [0x77#8, 0x74#8, 0x6e#8, 0x73#8] 2 l ∧ ModOk w.modulus ∧ w.numWitness < 2 ^ 32 ∧
    Holds data l 1 (encMod w.modulus ++ digits 4 w.numWitness) ∧ es.length = w.numWitness ∧ HoldsAll data l 2 ty.sizeF es ∧
    w.witnesses = es.map fun e => ty.fr (ofBytesLE e)

/-- A term with the bytes of its coefficient. -/
structure RawTerm where
  wire : ℕ
  coeff : List Byte

def RawTerm.Ok (size : ℕ) (t : RawTerm) : Prop := t.wire < 2 ^ 32 ∧ t.coeff.length = size

def RawTerm.enc (t : RawTerm) : List Byte := digits 4 t.wire ++ t.coeff

def RawTerm.term (ty : Types F G1 G2) (t : RawTerm) : Circom.CTerm F := ⟨t.wire, ty.fr (ofBytesLE t.coeff)⟩

/-- A linear combination: the number of terms and the terms. -/
def LCOk (size : ℕ) (l : List RawTerm) : Prop := l.length < 2 ^ 32 ∧ ∀ t ∈ l, t.Ok size

def encLC (l : List RawTerm) : List Byte := digits 4 l.length ++ l.flatMap RawTerm.enc

/-- A constraint. -/
structure RawConstraint where
  a : List RawTerm
  b : List RawTerm
  c : List RawTerm

def RawConstraint.Ok (size : ℕ) (c : RawConstraint) : Prop := LCOk size c.a ∧ LCOk size c.b ∧ LCOk size c.c

def RawConstraint.enc (c : RawConstraint) : List Byte := encLC c.a ++ encLC c.b ++ encLC c.c

def RawConstraint.constraint (ty : Types F G1 G2) (c : RawConstraint) : Circom.Constraint F :=
  ⟨c.a.map (RawTerm.term ty), c.b.map (RawTerm.term ty), c.c.map (RawTerm.term ty)⟩

/-- The header of a constraint system. -/
structure R1csHeader.Ok (h : R1csHeader) : Prop where
  modulus : ModOk h.modulus
  wires : h.numWires < 2 ^ 32
  outputs : h.numOutputs < 2 ^ 32
  inputs : h.numInputs < 2 ^ 32
  priv : h.numPrivate < 2 ^ 32
  labels : h.numLabels < 2 ^ 64
  constraints : h.numConstraints < 2 ^ 32

def R1csHeader.enc (h : R1csHeader) : List Byte :=
  encMod h.modulus ++ digits 4 h.numWires ++ digits 4 h.numOutputs ++ digits 4 h.numInputs ++ digits 4 h.numPrivate ++
    digits 8 h.numLabels ++ digits 4 h.numConstraints

/-- A file with a constraint system. -/
def IsR1cs (ty : Types F G1 G2) (data : List Byte) (r : R1csFile F) : Prop :=
  ∃ (l : List Section) (cs : List RawConstraint), Begins data [0x72#8, 0x31#8, 0x63#8, 0x73#8] 1 l ∧ r.header.Ok ∧ Holds data l 1 r.header.enc ∧
    cs.length = r.header.numConstraints ∧ (∀ c ∈ cs, RawConstraint.Ok ty.sizeF c) ∧
    Holds data l 2 (cs.flatMap RawConstraint.enc) ∧ r.constraints = cs.map (RawConstraint.constraint ty) ∧
    r.labels.length = r.header.numWires ∧ (∀ x ∈ r.labels, x < 2 ^ 64) ∧ Holds data l 3 (r.labels.flatMap (digits 8))

/-- The header of a key with the bytes of its points. -/
structure RawHeader where
  q : List Byte
  r : List Byte
  numVars : ℕ
  numPublic : ℕ
  domainSize : ℕ
  alphaG1 : List Byte
  betaG1 : List Byte
  betaG2 : List Byte
  gammaG2 : List Byte
  deltaG1 : List Byte
  deltaG2 : List Byte

structure RawHeader.Ok (ty : Types F G1 G2) (h : RawHeader) : Prop where
  q : ModOk h.q
  r : ModOk h.r
  vars : h.numVars < 2 ^ 32
  pub : h.numPublic < 2 ^ 32
  domain : h.domainSize < 2 ^ 32
  alpha1 : h.alphaG1.length = ty.sizeG1
  beta1 : h.betaG1.length = ty.sizeG1
  beta2 : h.betaG2.length = ty.sizeG2
  gamma2 : h.gammaG2.length = ty.sizeG2
  delta1 : h.deltaG1.length = ty.sizeG1
  delta2 : h.deltaG2.length = ty.sizeG2

def RawHeader.enc (h : RawHeader) : List Byte :=
  encMod h.q ++ encMod h.r ++ digits 4 h.numVars ++ digits 4 h.numPublic ++ digits 4 h.domainSize ++ h.alphaG1 ++ h.betaG1 ++
    h.betaG2 ++ h.gammaG2 ++ h.deltaG1 ++ h.deltaG2

def RawHeader.header (ty : Types F G1 G2) (h : RawHeader) : GrothHeader G1 G2 :=
  ⟨h.q, h.r, h.numVars, h.numPublic, h.domainSize, ty.g1 h.alphaG1, ty.g1 h.betaG1, ty.g2 h.betaG2, ty.g2 h.gammaG2,
    ty.g1 h.deltaG1, ty.g2 h.deltaG2⟩

/-- A coefficient with the bytes of its value. -/
structure RawCoeff where
  matrix : ℕ
  constraint : ℕ
  signal : ℕ
  value : List Byte

def RawCoeff.Ok (size : ℕ) (c : RawCoeff) : Prop :=
  c.matrix < 2 ^ 32 ∧ c.constraint < 2 ^ 32 ∧ c.signal < 2 ^ 32 ∧ c.value.length = size

def RawCoeff.enc (c : RawCoeff) : List Byte := digits 4 c.matrix ++ digits 4 c.constraint ++ digits 4 c.signal ++ c.value

def RawCoeff.coeff (ty : Types F G1 G2) (c : RawCoeff) : Circom.Coeff F :=
  ⟨c.matrix, c.constraint, c.signal, ty.frZkey (ofBytesLE c.value)⟩

/-- A section of `n` points. -/
def HoldsPoints {G : Type} (data : List Byte) (l : List Section) (t size : ℕ) (g : List Byte → G) (n : ℕ) (ps : List G) : Prop :=
  ∃ es : List (List Byte), es.length = n ∧ HoldsAll data l t size es ∧ ps = es.map g

/-- A file with a key; the numbers of points are taken in 32 bits. -/
def IsZKey (ty : Types F G1 G2) (data : List Byte) (z : ZKeyFile F G1 G2) : Prop :=
  ∃ (l : List Section) (h : RawHeader) (cs : List RawCoeff), Begins data [0x7a#8, 0x6b#8, 0x65#8, 0x79#8] 1 l ∧ Holds data l 1 (digits 4 1) ∧
    RawHeader.Ok ty h ∧ Holds data l 2 h.enc ∧ z.header = h.header ty ∧
    HoldsPoints data l 3 ty.sizeG1 ty.g1 ((h.numPublic + 1) % 2 ^ 32) z.ic ∧
    (cs.length < 2 ^ 32 ∧ (∀ c ∈ cs, RawCoeff.Ok ty.sizeF c) ∧ Holds data l 4 (digits 4 cs.length ++ cs.flatMap RawCoeff.enc) ∧
      z.coefficients = cs.map (RawCoeff.coeff ty)) ∧
    HoldsPoints data l 5 ty.sizeG1 ty.g1 h.numVars z.a1 ∧ HoldsPoints data l 6 ty.sizeG1 ty.g1 h.numVars z.b1 ∧
    HoldsPoints data l 7 ty.sizeG2 ty.g2 h.numVars z.b2 ∧
    HoldsPoints data l 8 ty.sizeG1 ty.g1 ((h.numVars - h.numPublic - 1 : ℤ) % 2 ^ 32).toNat z.c1 ∧
    HoldsPoints data l 9 ty.sizeG1 ty.g1 h.domainSize z.h1

/-! Files made of sections. -/

/-- The bytes of a section: type, size and contents. -/
def encSection (s : ℕ × List Byte) : List Byte := digits 4 s.1 ++ digits 8 s.2.length ++ s.2

/-- A file with these sections. -/
def file (magic : List Byte) (version : ℕ) (secs : List (ℕ × List Byte)) : List Byte :=
  magic ++ digits 4 version ++ digits 4 secs.length ++ secs.flatMap encSection

/-- Types and sizes fit. -/
structure SecsOk (secs : List (ℕ × List Byte)) : Prop where
  types : ∀ s ∈ secs, s.1 < 2 ^ 32
  count : secs.length < 2 ^ 32
  size : 12 + (secs.flatMap encSection).length < 2 ^ 64

/-- The first section of the type has contents that start with the bytes. -/
def Section1 (secs : List (ℕ × List Byte)) (t : ℕ) (bs : List Byte) : Prop :=
  ∃ s, secs.find? (fun s => decide (s.1 = t)) = some s ∧ bs <+: s.2

end Tachyon.CircomFile
