import Mathlib.Data.Nat.Notation
/-! Byte buffers and serialisation: `base/buffer/*`. `none` is undefined behaviour, an exception or the end of the program.
The out parameters of a failing read are not modelled. -/
namespace Tachyon.Buffer

abbrev Byte := BitVec 8

/-- `Endian` (base/endian.h:10-14). -/
inductive Endian | native | big | little
  deriving DecidableEq

/-- The machine: its byte order, and the number of elements above which `resize` of a container throws (one bound for all
containers). -/
structure Env where
  hostBig : Bool
  maxSize : ℕ

/-- The members (read_only_buffer.h:215-219); `growable` says that the object is a `VectorBuffer` or a `StringBuffer`. -/
structure Buf where
  data : List Byte
  off : ℕ
  endian : Endian
  growable : Bool
  deriving DecidableEq

/-- The low `n` bytes of a number, lowest first. -/
def bytesLE : ℕ → ℕ → List Byte
  | 0, _ => []
  | n + 1, v => BitVec.ofNat 8 v :: bytesLE n (v / 256)

/-- The number with these bytes, lowest first. -/
def ofBytesLE : List Byte → ℕ
  | [] => 0
  | b :: bs => b.toNat + 256 * ofBytesLE bs

/-- The bytes of a number in the memory of the machine. -/
def memory (env : Env) (n v : ℕ) : List Byte := if env.hostBig then (bytesLE n v).reverse else bytesLE n v

/-- The number at these bytes of the memory of the machine. -/
def ofMemory (env : Env) (bs : List Byte) : ℕ := if env.hostBig then ofBytesLE bs.reverse else ofBytesLE bs

/-- `Grow` (buffer.h:134, vector_buffer.h:41-51, string_buffer.h:30-35). -/
def grow (env : Env) (b : Buf) (size : ℕ) : Option (Bool × Buf) :=
  if b.growable then
    if env.maxSize < size then none
    else some (true, { b with data := b.data.take size ++ List.replicate (size - b.data.length) 0 })
  else some (false, b)

/-- `memcpy` or a store into the buffer. -/
def put (b : Buf) (off : ℕ) (bs : List Byte) : Option Buf :=
  if off + bs.length ≤ b.data.length then
    some { b with data := b.data.take off ++ bs ++ b.data.drop (off + bs.length), off := off + bs.length }
  else none

/-- `WriteAt` of bytes (buffer.cc:9-19); the stores of 16, 32 and 64 bits (buffer.cc:21-57) are the same but for the order
of the bytes. -/
def writeBytesAt (env : Env) (b : Buf) (off : ℕ) (bs : List Byte) : Option (Bool × Buf) :=
  if 2 ^ 64 ≤ off + bs.length then some (false, b)
  else if b.data.length < off + bs.length then
    match grow env b (off + bs.length) with
    | some (true, b) => (put b off bs).map fun b => (true, b)
    | r => r
  else (put b off bs).map fun b => (true, b)

/-- `memcpy` or a load from the buffer. -/
def get (b : Buf) (off size : ℕ) : Option (List Byte) :=
  if off + size ≤ b.data.length then some ((b.data.drop off).take size) else none

/-- `ReadAt` of bytes (read_only_buffer.cc:7-19); the loads of 16, 32 and 64 bits (read_only_buffer.cc:21-61) are the same but
for the order of the bytes. -/
def readBytesAt (b : Buf) (off size : ℕ) : Option (Option (List Byte) × Buf) :=
  if 2 ^ 64 ≤ off + size then some (none, b)
  else if b.data.length < off + size then some (none, b)
  else (get b off size).map fun bs => (some bs, { b with off := off + size })

/-- Sizes with a function for a given byte order. -/
def sized (n : ℕ) : Bool := n == 2 || n == 4 || n == 8

/-- `WriteAt` of an integer (buffer.h:82-112). -/
def writeIntAt (env : Env) (b : Buf) (off n v : ℕ) : Option (Bool × Buf) :=
  if sized n then
    match b.endian with
    | .big => writeBytesAt env b off (bytesLE n v).reverse
    | .little => writeBytesAt env b off (bytesLE n v)
    | .native => writeBytesAt env b off (memory env n v)
  else writeBytesAt env b off (memory env n v)

/-- `ReadAt` of a fundamental type (read_only_buffer.h:83-111); other sizes fall through to the order of the machine. -/
def readIntAt (env : Env) (b : Buf) (off n : ℕ) : Option (Option ℕ × Buf) :=
  (readBytesAt b off n).map fun r => (r.1.map fun bs =>
    match b.endian with
    | .big => if sized n then ofBytesLE bs.reverse else ofMemory env bs
    | .little => if sized n then ofBytesLE bs else ofMemory env bs
    | .native => ofMemory env bs, r.2)

/-- Conversion of an IEEE float with `m` bits of mantissa and `e` bits of exponent to an unsigned integer of the same size: the
value is truncated; undefined for values out of range. -/
def floatToUnsigned (m e bits : ℕ) : Option ℕ :=
  let exp := bits / 2 ^ m % 2 ^ e
  let mant := bits % 2 ^ m
  let bias := 2 ^ (e - 1) - 1
  if exp < bias then some 0
  else if bits / 2 ^ (m + e) = 1 then none
  else if bias + (m + e + 1) ≤ exp then none
  else some ((2 ^ m + mant) * 2 ^ (exp - bias) / 2 ^ m)

/-- The kinds of floats: mantissa, exponent and size. -/
structure FloatKind where
  m : ℕ
  e : ℕ
  size : ℕ

def f32 : FloatKind := ⟨23, 8, 4⟩
def f64 : FloatKind := ⟨52, 11, 8⟩

/-- `WriteAt` of a float (buffer.h:82-98): the parameter of `Write32BEAt` and the others is an unsigned integer, thus the value
is converted, whereas `kNative` and `ReadAt` take the bits. -/
def writeFloatAt (env : Env) (b : Buf) (off : ℕ) (k : FloatKind) (bits : ℕ) : Option (Bool × Buf) :=
  match b.endian with
  | .big => (floatToUnsigned k.m k.e bits).bind fun v => writeBytesAt env b off (bytesLE k.size v).reverse
  | .little => (floatToUnsigned k.m k.e bits).bind fun v => writeBytesAt env b off (bytesLE k.size v)
  | .native => writeBytesAt env b off (memory env k.size bits)

/-- The serialisable types: fundamental types and enumerations (integers of `n` bytes), floats, strings with characters of `w`
bytes, `std::vector` and `absl::Span`, `std::array` and arrays, and classes that write their members one after the other. -/
inductive Ty
  | int (n : ℕ)
  | float (k : FloatKind)
  | str (w : ℕ)
  | vec (t : Ty)
  | arr (n : ℕ) (t : Ty)
  | pair (s t : Ty)

/-- The values of a type; floats are given by their bits. -/
def Ty.Val : Ty → Type
  | .int _ => ℕ
  | .float _ => ℕ
  | .str _ => List ℕ
  | .vec t => List t.Val
  | .arr _ t => List t.Val
  | .pair s t => s.Val × t.Val

/-- `if (!w1) return false; return w2;`. -/
def andThen (w1 w2 : Buf → Option (Bool × Buf)) (b : Buf) : Option (Bool × Buf) :=
  match w1 b with
  | some (true, b) => w2 b
  | r => r

/-- The loops of copyable.h:115-118, 141-143, 169-171, 195-197. -/
def writeList {α : Type} (w : α → Buf → Option (Bool × Buf)) : List α → Buf → Option (Bool × Buf)
  | [], b => some (true, b)
  | a :: l, b => andThen (w a) (writeList w l) b

/-- `Write` of a string (copyable.h:67-71; string views: 46-51): the number of characters, and so many bytes. -/
def writeStr (env : Env) (w : ℕ) (cs : List ℕ) (b : Buf) : Option (Bool × Buf) :=
  andThen (fun b => writeIntAt env b b.off 8 cs.length)
    (fun b => writeBytesAt env b b.off ((cs.flatMap (memory env w)).take cs.length)) b

/-- `Write` of `const CharTy*` (copyable.h:93-98): all bytes of the characters. -/
def writeCStr (env : Env) (w : ℕ) (cs : List ℕ) (b : Buf) : Option (Bool × Buf) :=
  andThen (fun b => writeIntAt env b b.off 8 cs.length)
    (fun b => writeBytesAt env b b.off (cs.flatMap (memory env w))) b

/-- `Write` (buffer.h:28-31, 57-66, 114-120; copyable.h:29-31, 114-119, 139-145, 168-173, 193-199). -/
def write (env : Env) : (t : Ty) → t.Val → Buf → Option (Bool × Buf)
  | .int n, v, b => writeIntAt env b b.off n v
  | .float k, v, b => writeFloatAt env b b.off k v
  | .str w, v, b => writeStr env w v b
  | .vec t, v, b => andThen (fun b => writeIntAt env b b.off 8 (List.length v)) (writeList (write env t) v) b
  | .arr _ t, v, b => writeList (write env t) v b
  | .pair s t, v, b => andThen (write env s v.1) (write env t v.2) b

/-- `if (!r) return false;` and the rest. -/
def bindR {α β : Type} (r : Buf → Option (Option α × Buf)) (f : α → Buf → Option (Option β × Buf)) (b : Buf) :
    Option (Option β × Buf) :=
  match r b with
  | some (some a, b) => f a b
  | some (none, b) => some (none, b)
  | none => none

/-- A result without further reading. -/
def pureR {α : Type} (a : α) (b : Buf) : Option (Option α × Buf) := some (some a, b)

/-- The loops of copyable.h:122-124, 151-153, 176-178 and read_only_buffer.h:131-133. -/
def readN {α : Type} (r : Buf → Option (Option α × Buf)) : ℕ → Buf → Option (Option (List α) × Buf)
  | 0 => pureR []
  | n + 1 => bindR r fun a => bindR (readN r n) fun l => pureR (a :: l)

/-- `resize` throws above the bound. -/
def resize {α : Type} (env : Env) (size : ℕ) (r : Buf → Option (Option α × Buf)) (b : Buf) : Option (Option α × Buf) :=
  if env.maxSize < size then none else r b

/-- The `size` characters of `w` bytes in this memory. -/
def chars (env : Env) (w size : ℕ) (bs : List Byte) : List ℕ :=
  (List.range size).map fun i => ofMemory env ((bs.drop (w * i)).take w)

/-- `Read` of a string (copyable.h:73-79): so many bytes as there are characters; the others stay zero from `resize`. -/
def readStr (env : Env) (w : ℕ) : Buf → Option (Option (List ℕ) × Buf) :=
  bindR (fun b => readIntAt env b b.off 8) fun size => resize env size <|
    bindR (fun b => readBytesAt b b.off size) fun bs =>
      pureR (chars env w size (bs ++ List.replicate (w * size - size) 0))

/-- `Read` (read_only_buffer.h:120-135, 157-160, 191-200; copyable.h:33-38, 121-126, 147-155, 175-180). -/
def read (env : Env) : (t : Ty) → Buf → Option (Option t.Val × Buf)
  | .int n => fun b => readIntAt env b b.off n
  | .float k => fun b => readIntAt env b b.off k.size
  | .str w => readStr env w
  | .vec t => bindR (fun b => readIntAt env b b.off 8) fun size => resize env size (readN (read env t) size)
  | .arr n t => readN (read env t) n
  | .pair s t => bindR (read env s) fun a => bindR (read env t) fun b => pureR (a, b)

/-- `WriteManyAt` (buffer.h:122-132), for values of one type. -/
def writeManyAt (env : Env) (off : ℕ) (t : Ty) : List t.Val → Buf → Option (Bool × Buf)
  | [], b => some (true, b)
  | v :: vs, b => andThen (fun b => write env t v { b with off := off }) (writeManyAt env off t vs) b

/-- `ReadPtrAt` (read_only_buffer.h:137-151): the result is the position of the pointer. -/
def readPtrAt (b : Buf) (off size num : ℕ) : Option ℕ × Buf :=
  let bytes := size * num % 2 ^ 64
  if 2 ^ 64 ≤ off + bytes then (none, b)
  else if b.data.length < off + bytes then (none, b)
  else (some off, { b with off := off + bytes })

/-- Conversion of `size_t` to `int` and back. -/
def viaInt (x : ℕ) : ℕ := if x % 2 ^ 32 < 2 ^ 31 then x % 2 ^ 32 else x % 2 ^ 32 + (2 ^ 64 - 2 ^ 32)

/-- `EstimateSize` (copyable.h:23, 40, 81-83, 128-133, 157-162, 182-187, copyable_forward.h:33-36); the sum over an array starts
with an `int`, in which `std::accumulate` keeps it. -/
def estimate : (t : Ty) → t.Val → ℕ
  | .int n, _ => n
  | .float k, _ => k.size
  | .str _, v => (8 + List.length v) % 2 ^ 64
  | .vec t, v => List.foldl (fun total x => (total + estimate t x) % 2 ^ 64) 8 v
  | .arr _ t, v => List.foldl (fun total x => viaInt (total + estimate t x)) 0 v
  | .pair s t, v => (estimate s v.1 + estimate t v.2) % 2 ^ 64

end Tachyon.Buffer
