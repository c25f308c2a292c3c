import Mathlib.Algebra.Field.Defs
import Verif.Model.Parallel
/-!
# Model of the Fiat-Shamir challengers: `tachyon/crypto/challenger/*.h`

and of the two permutation-based hashes built in the same way,
`crypto/hashes/sponge/padding_free_sponge.h` and `crypto/hashes/sponge/truncated_permutation.h`.

A `SpongeState` is the list of its `kWidth` elements; the permutation is a parameter. `DuplexChallenger`
and `MultiField32Challenger` have the same text up to the two loops that move the input buffer into the
state and the state into the output buffer; those loops are the fields `load` and `emit` of `Core`.
`none` is an access outside an array, `back()` of an empty vector, or a failed `CHECK`.
-/
namespace Tachyon.Challenger

variable {F : Type} {S : Type}

/-! ## Duplex challengers -/

/-- The parts in which the duplex challengers differ. -/
structure Core (S : Type) (F : Type) where
  /-- The template parameter `R`. -/
  rate : ℕ
  /-- The loop that writes the input buffer into the state. -/
  load : List F → S → Option S
  /-- `permutation_.Permute`. -/
  permute : S → S
  /-- The loop that writes the state into the output buffer. -/
  emit : S → Option (List F)

/-- The members (duplex_challenger.h:80-82, multi_field32_challenger.h:91-93). -/
structure State (S : Type) (F : Type) where
  state : S
  input : List F
  output : List F
  deriving DecidableEq

/-- `Duplex` (duplex_challenger.h:66-78, multi_field32_challenger.h:70-89). -/
def duplex (c : Core S F) (d : State S F) : Option (State S F) := do
  let s ← c.load d.input d.state
  let s := c.permute s
  let out ← c.emit s
  some ⟨s, [], out⟩

/-- `DoObserve` (duplex_challenger.h:46-54, multi_field32_challenger.h:50-58). -/
def observe (c : Core S F) (d : State S F) (x : F) : Option (State S F) :=
  let d' : State S F := ⟨d.state, d.input ++ [x], []⟩
  if d'.input.length = c.rate then duplex c d' else some d'

/-- `DoSample` (duplex_challenger.h:56-64, multi_field32_challenger.h:60-68). -/
def sample (c : Core S F) (d : State S F) : Option (F × State S F) := do
  let d ← if !d.input.isEmpty || d.output.isEmpty then duplex c d else some d
  let x ← d.output.getLast?
  some (x, { d with output := d.output.dropLast })

/-- `state_[i] = input_buffer_[i]` for `i = k, …` (duplex_challenger.h:67-69). -/
def overwrite : ℕ → List F → List F → Option (List F)
  | _, [], s => some s
  | k, x :: xs, s => if k < s.length then overwrite (k + 1) xs (s.set k x) else none

/-- `DuplexChallenger<Permutation, R>` (duplex_challenger.h:22-84). -/
def duplexCore (perm : List F → List F) (width R : ℕ) : Core (List F) F where
  rate := R
  load xs s := overwrite 0 xs s
  permute := perm
  -- duplex_challenger.h:75-77
  emit s := (List.range width).mapM fun i => s[i]?

/-- A `DuplexChallenger` as constructed: the state is zero (sponge_state.h:29), the buffers are empty. -/
def duplexInit [Zero F] (width : ℕ) : State (List F) F := ⟨List.replicate width 0, [], []⟩

/-! ## `MultiField32Challenger`: small-field elements packed into a large field -/

/-- The loop of `Reduce` (multi_field32_conversions.h:30-45): limb `i / 2` gets `v_i + 2^32 v_{i+1}`.
`canon` is `FromMontgomery(value)`, `limbs` the limbs written so far; reading outside is excluded by the
bounds of the loop. -/
def reduceLimbs (canon : F → ℕ) : List F → List ℕ
  | [] => []
  | [x] => [canon x]
  | x :: y :: xs => (canon x + canon y * 2 ^ 32) % 2 ^ 64 :: reduceLimbs canon xs

/-- The value of a little-endian list of 64-bit limbs. -/
def ofLimbs : List ℕ → ℕ
  | [] => 0
  | l :: ls => l + 2 ^ 64 * ofLimbs ls

/-- `Reduce` (multi_field32_conversions.h:21-47): `limbNums` is `BigInt::kLimbNums`, `modulus` the modulus
of the large field, whose elements are represented by their canonical value. -/
def reduce (canon : F → ℕ) (limbNums modulus : ℕ) (xs : List F) : Option ℕ :=
  if xs.length < limbNums * 2 then some (ofLimbs (reduceLimbs canon xs) % modulus) else none

/-- `Split` (multi_field32_conversions.h:49-69) for a small field in Montgomery form: `ofU64` is
`FromMontgomery(ToMontgomery(digit))`, which reduces the 64-bit digit. -/
def split (ofU64 : ℕ → F) : ℕ → ℕ → List F
  | 0, _ => []
  | n + 1, v => ofU64 (v % 2 ^ 64) :: split ofU64 n (v / 2 ^ 64)

/-- The loop of `MultiField32Challenger::Duplex` that fills the state
(multi_field32_challenger.h:71-77); `k` is `kNumFElements`, `i` counts up to `n`. -/
def loadChunks (red : List F → Option ℕ) (k : ℕ) (xs : List F) : ℕ → List ℕ → Option (List ℕ)
  | 0, s => some s
  | n + 1, s => do
    let s ← loadChunks red k xs n s
    let v ← red ((xs.drop (n * k)).take (min (xs.length - n * k) k))
    if n < s.length then some (s.set n v) else none

/-- `MultiField32Challenger<SmallF, Permutation>` (multi_field32_challenger.h:22-95). `k` is
`kNumFElements` (:40), `R` is `k * width` (:41). -/
def multiCore (canon : F → ℕ) (ofU64 : ℕ → F) (limbNums modulus k : ℕ)
    (perm : List ℕ → List ℕ) (width : ℕ) : Core (List ℕ) F where
  rate := k * width
  load xs s := loadChunks (reduce canon limbNums modulus) k xs ((xs.length + k - 1) / k) s
  permute := perm
  -- multi_field32_challenger.h:83-88
  emit s := ((List.range width).mapM fun i => s[i]?).map fun l => l.flatMap (split ofU64 k)

/-! ## Hash challenger -/

/-- The members of `HashChallenger` (hash_challenger.h:56-57). -/
structure HashState (F : Type) where
  input : List F
  output : List F

/-- `DoObserve` (hash_challenger.h:32-36). -/
def hashObserve (d : HashState F) (x : F) : Option (HashState F) := some ⟨d.input ++ [x], []⟩

/-- `Flush` (hash_challenger.h:48-54). -/
def flush (hash : List F → List F) (d : HashState F) : HashState F :=
  let out := hash d.input
  ⟨out, out⟩

/-- `DoSample` (hash_challenger.h:38-46). -/
def hashSample (hash : List F → List F) (d : HashState F) : Option (F × HashState F) := do
  let d := if d.output.isEmpty then flush hash d else d
  let x ← d.output.getLast?
  some (x, { d with output := d.output.dropLast })

/-! ## The common interface `Challenger` -/

/-- What `Challenger<Derived>` calls on `Derived`. -/
structure Ops (D : Type) (F : Type) where
  observe : D → F → Option D
  sample : D → Option (F × D)

/-- The operations of the duplex challengers. -/
def duplexOps (c : Core S F) : Ops (State S F) F := ⟨observe c, sample c⟩

/-- The operations of the hash challenger. -/
def hashOps (hash : List F → List F) : Ops (HashState F) F := ⟨hashObserve, hashSample hash⟩

variable {D : Type}

/-- `ObserveContainer` (challenger.h:38-44). -/
def observeAll (o : Ops D F) (d : D) (xs : List F) : Option D := xs.foldlM o.observe d

/-- `ObserveContainer2D` (challenger.h:46-54). -/
def observeAll2 (o : Ops D F) (d : D) (xss : List (List F)) : Option D := xss.foldlM (observeAll o) d

/-- `SampleArray` (challenger.h:61-64), and `m` successive calls of `Sample`. -/
def sampleN (o : Ops D F) : ℕ → D → Option (List F × D)
  | 0, d => some ([], d)
  | n + 1, d => do
    let (x, d) ← o.sample d
    let (xs, d) ← sampleN o n d
    some (x :: xs, d)

/-- `SampleBits` (challenger.h:75-87); `canon` is the canonical representative, `none` the two
`DCHECK`s. -/
def sampleBits (o : Ops D F) (canon : F → ℕ) (modulus bits : ℕ) (d : D) : Option (ℕ × D) :=
  if bits < 32 ∧ 2 ^ bits % 2 ^ 32 < modulus then do
    let (x, d) ← o.sample d
    some (canon x &&& (2 ^ bits - 1), d)
  else none

/-- `CheckWitness` (challenger.h:130-133). -/
def checkWitness (o : Ops D F) (canon : F → ℕ) (modulus bits : ℕ) (d : D) (w : F) :
    Option (Bool × D) := do
  let d ← o.observe d w
  let (b, d) ← sampleBits o canon modulus bits d
  some (b == 0, d)

variable [Field F]

/-- `Field(uint32_t)`: `none` is the `DCHECK_LT` with the modulus. -/
def ofU32 (modulus n : ℕ) : Option F := if n < modulus then some (n : F) else none

/-- The loop of one callback of `Grind` (challenger.h:106-115), `n` iterations from `i` on. `seen i` is
the value the load of `found` returns in iteration `i`; the result is `ret`, with `none` for the maximal
`uint32_t`. -/
def grindLoop (check : F → Option Bool) (seen : ℕ → Bool) : ℕ → ℕ → F → Option (Option ℕ)
  | 0, _, _ => some none
  | n + 1, i, f =>
    if seen i then some none
    else do
      let b ← check f
      if b then some (some i) else grindLoop check seen n (i + 1) (f + 1)

/-- `uint32_t start` (challenger.h:103). -/
def grindStart (lo cs i : ℕ) : ℕ := (lo + i * cs) % 2 ^ 32

/-- `uint32_t end` (challenger.h:104). -/
def grindStop (hi cs start : ℕ) : ℕ :=
  (start + min ((hi + 2 ^ 32 - start) % 2 ^ 32) (cs % 2 ^ 32)) % 2 ^ 32

/-- The callback from `start` to `stop` (challenger.h:105-116). -/
def grindFrom (check : F → Option Bool) (modulus : ℕ) (seen : ℕ → Bool) (start stop : ℕ) :
    Option (Option ℕ) :=
  (ofU32 modulus start).bind (grindLoop check seen (stop - start) start)

/-- One callback of `Grind` (challenger.h:100-117) in `uint32_t` arithmetic. -/
def grindChunk (check : F → Option Bool) (modulus lo hi cs : ℕ) (seen : ℕ → ℕ → Bool)
    (c : ℕ × ℕ) : Option (Option ℕ) :=
  grindFrom check modulus (seen c.1) (grindStart lo cs c.1) (grindStop hi cs (grindStart lo cs c.1))

/-- `Range<uint32_t>::GetSize` for a range that includes its start only (range.h:159-163, :174-180). -/
def rangeSize (lo hi : ℕ) : ℕ := if hi ≤ lo then 0 else hi - lo

/-- The results of all callbacks of `Grind` (challenger.h:98-117). -/
def grindResults (check : F → Option Bool) (modulus lo hi cs : ℕ) (seen : ℕ → ℕ → Bool) :
    Option (List (Option ℕ)) :=
  (Parallel.invocations (rangeSize lo hi) cs).mapM (grindChunk check modulus lo hi cs seen)

/-- `Grind` (challenger.h:94-128). The callbacks work on copies of the challenger. -/
def grind (o : Ops D F) (canon : F → ℕ) (modulus bits threads lo hi : ℕ) (seen : ℕ → ℕ → Bool)
    (d : D) (powWitness : Option F) : Option (F × D) := do
  let ret ← grindResults (fun f => (checkWitness o canon modulus bits d f).map Prod.fst) modulus lo hi
    (Parallel.sizePerThread threads (rangeSize lo hi) none) seen
  let i ← ret.findSome? id
  let w ← match powWitness with
    | some w => some w
    | none => ofU32 modulus i
  let (b, d) ← checkWitness o canon modulus bits d w
  if b then some (w, d) else none

/-! ## Permutation-based hash and compression -/

/-- The inner loop of `PaddingFreeSponge::DoHash` (padding_free_sponge.h:44-48), `j = 0, …, n - 1`. -/
def loadBlock (input : List F) (i : ℕ) : ℕ → List F → Option (List F)
  | 0, s => some s
  | n + 1, s => do
    let s ← loadBlock input i n s
    match input[i + n]? with
    | some x => if n < s.length then some (s.set n x) else none
    | none => some s

/-- The outer loop (padding_free_sponge.h:43-50): `k` iterations, the `k`-th one at `i = k * Rate`. -/
def hashBlocks (perm : List F → List F) (rate : ℕ) (input : List F) : ℕ → List F → Option (List F)
  | 0, s => some s
  | k + 1, s => do
    let s ← hashBlocks perm rate input k s
    let s ← loadBlock input (k * rate) rate s
    some (perm s)

/-- `PaddingFreeSponge::Hash` (hasher.h:17-22, padding_free_sponge.h:39-56). -/
def spongeHash (perm : List F → List F) (width rate out : ℕ) (input : List F) : Option (List F) := do
  let s ← hashBlocks perm rate input ((input.length + rate - 1) / rate) (List.replicate width 0)
  (List.range out).mapM fun i => s[i]?

/-- `TruncatedPermutation::Compress` (truncated_permutation.h:39-56) for the elements `input[i][j]`,
`i < N`, `j < Chunk`, in the order of the two loops. -/
def compress (perm : List F → List F) (width chunk : ℕ) (input : List (List F)) : Option (List F) := do
  let s ← overwrite 0 input.flatten (List.replicate width 0)
  (List.range chunk).mapM fun i => (perm s)[i]?

end Tachyon.Challenger
