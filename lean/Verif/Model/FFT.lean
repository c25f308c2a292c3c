import Verif.Model.Domain
/-! Radix-2 FFT: `math/polynomials/univariate/evaluations_utils.h`, `radix2_twiddle_cache.h`,
`radix2_evaluation_domain.h`, `univariate_evaluation_domain.h` (`FFT`, `IFFT`, butterflies). The CUDA
parts are not modelled.

The iterations of a parallel loop take effect in an arbitrary order, given by a `Sched`; this includes
every order that OpenMP may choose. Every iteration works on cells of its own. -/
universe u
namespace Tachyon.FFT
open Tachyon.Group Tachyon.Parallel

/-- The order in which the iterations of a parallel loop take effect. -/
structure Sched where
  one : List Nat → List Nat
  two : List (Nat × Nat) → List (Nat × Nat)
  one_perm : ∀ l, (one l).Perm l
  two_perm : ∀ l, (two l).Perm l

/-- The sequential order. -/
def Sched.seq : Sched := ⟨id, id, fun _ => .refl _, fun _ => .refl _⟩

/-- The reverse order. -/
def Sched.rev : Sched := ⟨List.reverse, List.reverse, fun _ => List.reverse_perm _,
  fun _ => List.reverse_perm _⟩

section
variable {V : Type u}

/-- `f(arr.at(i), arr.at(j))` on references; `none` out of bounds. -/
def pairStep (f : V → V → V × V) (arr : List V) (i j : Nat) : Option (List V) :=
  match arr[i]?, arr[j]? with
  | some x, some y => some ((arr.set i (f x y).1).set j (f x y).2)
  | _, _ => none

/-- An iteration of `SwapBitRevElementsInPlace` (evaluations_utils.h:35-40). -/
def swapStep (logLen : Nat) (arr : List V) (idx : Nat) : Option (List V) :=
  match Bits.reverseBitsLen (BitVec.ofNat 64 idx) logLen with
  | none => none
  | some r => if idx < r.toNat then pairStep (fun x y => (y, x)) arr idx r.toNat else some arr

/-- `SwapBitRevElementsInPlace` (evaluations_utils.h:30-41). -/
def swapBitRev (o : Sched) (arr : List V) (size logLen : Nat) : Option (List V) :=
  if size ≤ 1 then some arr else (o.one (List.range' 1 (size - 1))).foldlM (swapStep logLen) arr

/-- `SwapBitRevElements` (evaluations_utils.h:18-24). -/
def swapBitRevCopy (o : Sched) (vals : List V) : Option (List V) :=
  match Bits.checkedLog2 (BitVec.ofNat 64 vals.length) with
  | none => none
  | some log => swapBitRev o vals vals.length log

end

variable {F : Type u} [Field F] [DecidableEq F]

/-! ### The twiddle cache -/

/-- `Radix2TwiddleCache::Item` (radix2_twiddle_cache.h:28-37). A packed vector is represented by the
broadcast values. `packedVecOnly` is not initialised for a domain of size 1. -/
structure Item (F : Type u) where
  roots : List (List F)
  invRoots : List (List F)
  bitrev : List F
  bitrevInv : List F
  packed : List (List F)
  packedInv : List (List F)
  packedVecOnly : Option Bool
deriving DecidableEq

/-- The vector for `i`, taken from the largest vector (radix2_twiddle_cache.h:103-120). -/
def stride (size : Nat) (largest : List F) (packedVecOnly : Bool) (i : Nat) : Option (List F) :=
  if i = 0 then some largest
  else if packedVecOnly then some []
  else (List.range (size / (2 ^ i * 2))).mapM fun j => largest[2 ^ i * j]?

/-- The constructor of `Item` (radix2_twiddle_cache.h:57-121); `small` is `kModulusBits <= 32`. -/
def Item.new (threads : Nat) (o : Sched) (small : Bool) (d : Domain F) (packedVecOnly : Bool) :
    Option (Item F) :=
  if d.logSize = 0 then some ⟨[], [], [], [], [], [], none⟩
  else
    let largest := getSuccessivePowers threads (d.size / 2) d.gen 1
    let largestInv := getSuccessivePowers threads (d.size / 2) d.genInv 1
    match (List.range d.logSize).mapM fun t => stride d.size largest packedVecOnly (d.logSize - 1 - t),
      (List.range d.logSize).mapM fun i => stride d.size largestInv packedVecOnly i with
    | some roots, some invRoots =>
      if small then
        match swapBitRevCopy o largest, swapBitRevCopy o largestInv with
        | some b, some bi =>
          some ⟨roots, invRoots, b, bi, [largest, b], [largestInv, bi], some packedVecOnly⟩
        | _, _ => none
      else some ⟨roots, invRoots, [], [], [], [], some packedVecOnly⟩
    | _, _ => none

/-- The map of the cache: `absl::flat_hash_map<std::pair<size_t, F>, std::unique_ptr<Item>>`
(radix2_twiddle_cache.h:143). -/
abbrev Cache (F : Type u) := List ((Nat × F) × Item F)

/-- `it->second` for the given key. -/
def Cache.find (c : Cache F) (size : Nat) (gen : F) : Option (Item F) :=
  (c.find? fun e => e.1.1 = size ∧ e.1.2 = gen).map (·.2)

/-- `GetItem` (radix2_twiddle_cache.h:124-139). `insert` with a hint leaves the map unchanged when the
key is present and returns the element that is already there. Reading a flag that has not been
initialised is undefined. -/
def Cache.getItem (threads : Nat) (o : Sched) (small : Bool) (c : Cache F) (d : Domain F)
    (packedVecOnly : Bool) : Option (Item F × Cache F) :=
  match c.find d.size d.gen with
  | none =>
    match Item.new threads o small d packedVecOnly with
    | none => none
    | some it => some (it, ((d.size, d.gen), it) :: c)
  | some it =>
    match it.packedVecOnly with
    | none => none
    | some flag =>
      if flag && !packedVecOnly then
        match Item.new threads o small d packedVecOnly with
        | none => none
        | some _ => some (it, c)
      else some (it, c)

/-! ### Butterflies -/

/-- `ButterflyFnInOut` (univariate_evaluation_domain.h:518-524). -/
def butterflyInOut (root lo hi : F) : F × F := (lo + hi, (lo - hi) * root)

/-- `ButterflyFnOutIn` (univariate_evaluation_domain.h:557-566). -/
def butterflyOutIn (root lo hi : F) : F × F := (lo + hi * root, lo - hi * root)

/-- An iteration of `ApplyButterfly` (radix2_evaluation_domain.h:309) for cluster start and offset. -/
def butterflyStep (fn : F → F → F → F × F) (roots : List F) (gap : Nat) (arr : List F)
    (p : Nat × Nat) : Option (List F) :=
  match roots[p.2]? with
  | none => none
  | some root => pairStep (fn root) arr (p.1 + p.2) (p.1 + p.2 + gap)

/-- The iterations of `ApplyButterfly` (radix2_evaluation_domain.h:305-308). -/
def butterflyPairs (n gap : Nat) : List (Nat × Nat) :=
  (List.range ((n + 2 * gap - 1) / (2 * gap))).flatMap fun b =>
    (List.range gap).map fun j => (b * (2 * gap), j)

/-- `ApplyButterfly` (radix2_evaluation_domain.h:289-312). -/
def applyButterfly (o : Sched) (fn : F → F → F → F × F) (arr roots : List F) (gap : Nat) :
    Option (List F) :=
  (o.two (butterflyPairs arr.length gap)).foldlM (butterflyStep fn roots gap) arr

/-- The loop of `InOutHelper` (radix2_evaluation_domain.h:317-321). -/
def inOutGo (o : Sched) (invRoots : List (List F)) : Nat → Nat → Nat → List F → Option (List F)
  | 0, gap, _, arr => if gap = 0 then some arr else none
  | fuel + 1, gap, idx, arr =>
    if gap = 0 then some arr
    else
      match invRoots[idx]? with
      | none => none
      | some roots =>
        match applyButterfly o butterflyInOut arr roots gap with
        | none => none
        | some arr => inOutGo o invRoots fuel (gap / 2) (idx + 1) arr

/-- `InOutHelper` (radix2_evaluation_domain.h:314-322); `gap` is halved, so `gap` iterations suffice. -/
def inOut (o : Sched) (item : Item F) (arr : List F) : Option (List F) :=
  inOutGo o item.invRoots (arr.length / 2) (arr.length / 2) 0 arr

/-- The loop of `OutInHelper` (radix2_evaluation_domain.h:329-332). -/
def outInGo (o : Sched) (roots : List (List F)) : Nat → Nat → Nat → List F → Option (List F)
  | 0, gap, _, arr => if gap < arr.length then none else some arr
  | fuel + 1, gap, idx, arr =>
    if gap < arr.length then
      match roots[idx]? with
      | none => none
      | some rs =>
        match applyButterfly o butterflyOutIn arr rs gap with
        | none => none
        | some arr => outInGo o roots fuel (gap * 2) (idx + 1) arr
    else some arr

/-- `OutInHelper` (radix2_evaluation_domain.h:324-333); `gap` is doubled, so the size is an upper bound
for the number of iterations. -/
def outIn (o : Sched) (item : Item F) (arr : List F) (startGap : Nat) : Option (List F) :=
  outInGo o item.roots arr.length startGap
    (Bits.safeLog2Ceiling (BitVec.ofNat 64 startGap)).toNat arr

/-- `v.resize(n, F::Zero())`. -/
def resizeZero (n : Nat) (l : List F) : List F := l.take n ++ List.replicate (n - l.length) 0

/-- Copying the first element of a chunk (radix2_evaluation_domain.h:252-257). -/
def copyFirst : List F → List F
  | [] => []
  | v :: l => v :: l.map fun _ => v

/-- The part of `DegreeAwareFFTInPlace` after the coset shift (radix2_evaluation_domain.h:233-260). -/
def degreeAware (o : Sched) (d : Domain F) (item : Item F) (a : List F) : Option (List F) :=
  let logD := (Bits.safeLog2Ceiling (BitVec.ofNat 64 a.length)).toNat
  if d.logSize < logD then none
  else
    let dup := 2 ^ (d.logSize - logD)
    match swapBitRev o (resizeZero d.size a) a.length d.logSize with
    | none => none
    | some arr =>
      if 4 ≤ dup then outIn o item (byChunkSize arr dup fun _ span => copyFirst span) dup
      else outIn o item arr 1

/-- `DegreeAwareFFTInPlace` (radix2_evaluation_domain.h:228-261). -/
def degreeAwareFFT (threads : Nat) (o : Sched) (d : Domain F) (item : Item F) (a : List F) :
    Option (List F) :=
  degreeAware o d item (if d.offset = 1 then a else distribute threads a d.offset 1)

/-- `FFT` (univariate_evaluation_domain.h:141-182, radix2_evaluation_domain.h:213-216). The zero
polynomial gives the empty vector. -/
def fft (threads : Nat) (o : Sched) (d : Domain F) (item : Item F) (poly : List F) :
    Option (List F) :=
  if poly.isEmpty then some [] else degreeAwareFFT threads o d item poly

/-- `InOrderIFFTInPlace`, `IFFTHelperInPlace` (radix2_evaluation_domain.h:263-287). -/
def inOrderIFFT (threads : Nat) (o : Sched) (d : Domain F) (item : Item F) (a : List F) :
    Option (List F) :=
  match inOut o item a with
  | none => none
  | some a =>
    match swapBitRev o a a.length d.logSize with
    | none => none
    | some a =>
      some (if d.offset = 1 then a.map (· * d.sizeInv) else distribute threads a d.offsetInv d.sizeInv)

/-- `IFFT` (univariate_evaluation_domain.h:187-232, radix2_evaluation_domain.h:218-223). -/
def ifft (threads : Nat) (o : Sched) (d : Domain F) (item : Item F) (evals : List F) :
    Option (List F) :=
  if evals.isEmpty then some []
  else (inOrderIFFT threads o d item (resizeZero d.size evals)).map Poly.Dense.removeZeros

end Tachyon.FFT
