import Mathlib.Algebra.Group.Defs
import Mathlib.Data.Nat.Notation
/-!
# Model of the duplex sponge of Poseidon

`tachyon/crypto/hashes/sponge/poseidon/poseidon_sponge_base.h`, `sponge_state.h`, `duplex_sponge_mode.h`. The
permutation (`derived.Permute`, which changes `state.elements` only) is a parameter. `none` is an access out
of bounds or a loop that does not end. `next_index` is at most `kRate` whenever the code sets it; the
differences of `size_t` are differences of natural numbers here. The overloads that serialise other types
to field elements, and `SqueezeBytes` and `SqueezeBits`, which do not compile when instantiated (a
`std::vector<F>` returned as bytes, `begin` of a `std::bitset`), are left out.
-/
namespace Tachyon.Sponge

variable {F : Type}

/-- `SpongeState` (sponge_state.h:20-46) with its `DuplexSpongeMode` (duplex_sponge_mode.h:17-39). -/
structure State (F : Type) where
  elems : List F
  absorbing : Bool
  next : ℕ
  deriving DecidableEq

/-- `SpongeState()` (sponge_state.h:27-29). -/
def State.new [Zero F] (width : ℕ) : State F := ⟨List.replicate width 0, true, 0⟩

/-- `Params` and `Permute`. -/
structure Params (F : Type) where
  rate : ℕ
  capacity : ℕ
  permute : List F → List F

variable [Add F]

/-- `state[k + i] += elements[i]` for all `i` (poseidon_sponge_base.h:185-188, :195-198). -/
def addAt : ℕ → List F → List F → Option (List F)
  | _, [], s => some s
  | k, x :: xs, s => (s[k]?).bind fun y => addAt (k + 1) xs (s.set k (y + x))

/-- `AbsorbInternal` (poseidon_sponge_base.h:177-202) with at most `fuel` iterations. -/
def absorbLoop (p : Params F) : ℕ → List F → ℕ → List F → Option (State F)
  | 0, _, _, _ => none
  | fuel + 1, s, start, xs =>
    if start + xs.length ≤ p.rate then
      (addAt (p.capacity + start) xs s).map fun s => ⟨s, true, start + xs.length⟩
    else
      (addAt (p.capacity + start) (xs.take (p.rate - start)) s).bind fun s =>
        absorbLoop p fuel (p.permute s) 0 (xs.drop (p.rate - start))

/-- `Absorb` (poseidon_sponge_base.h:35-56). -/
def absorb (p : Params F) (st : State F) (xs : List F) : Option (State F) :=
  if st.absorbing then
    if st.next = p.rate then absorbLoop p (xs.length + 1) (p.permute st.elems) 0 xs
    else absorbLoop p (xs.length + 1) st.elems st.next xs
  else absorbLoop p (xs.length + 1) (p.permute st.elems) 0 xs

omit [Add F]

/-- The elements `state[k], …, state[k + n - 1]` (poseidon_sponge_base.h:214-217, :225-228). -/
def slice (s : List F) (k n : ℕ) : Option (List F) := (List.range' k n).mapM fun i => s[i]?

/-- `SqueezeInternal` (poseidon_sponge_base.h:205-236) for `n` elements with at most `fuel` iterations. -/
def squeezeLoop (p : Params F) : ℕ → List F → ℕ → ℕ → Option (List F × State F)
  | 0, _, _, _ => none
  | fuel + 1, s, start, n =>
    if start + n ≤ p.rate then
      (slice s (p.capacity + start) n).map fun out => (out, ⟨s, false, start + n⟩)
    else
      (slice s (p.capacity + start) (p.rate - start)).bind fun out =>
        (squeezeLoop p fuel (if n ≠ p.rate then p.permute s else s) 0 (n - (p.rate - start))).map
          fun r => (out ++ r.1, r.2)

/-- `SqueezeNativeFieldElements` (poseidon_sponge_base.h:120-145). -/
def squeeze (p : Params F) (st : State F) (n : ℕ) : Option (List F × State F) :=
  if st.absorbing then squeezeLoop p (n + 1) (p.permute st.elems) 0 n
  else if st.next = p.rate then squeezeLoop p (n + 1) (p.permute st.elems) 0 n
  else squeezeLoop p (n + 1) st.elems st.next n

end Tachyon.Sponge
