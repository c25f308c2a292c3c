import Verif.Model.Sponge
/-!
# The duplex sponge, one element at a time

`absorb1` and `squeeze1` are the usual definition of a sponge with lazy permutations: a permutation takes
place when the direction changes and when a block is used up.
-/
namespace Tachyon.Sponge.Spec
open Sponge
variable {F : Type}

/-- The state that takes or gives the next element: permuted if the direction changes or the block is
used up. -/
def turn (p : Params F) (absorbing : Bool) (st : State F) : List F × ℕ :=
  if st.absorbing = absorbing ∧ st.next < p.rate then (st.elems, st.next) else (p.permute st.elems, 0)

/-- Absorbing an element: it is added to the next element of the rate part. -/
def absorb1 [Add F] (p : Params F) (st : State F) (x : F) : State F :=
  let (s, i) := turn p true st
  ⟨s.modify (p.capacity + i) (· + x), true, i + 1⟩

/-- Squeezing an element: the next element of the rate part. -/
def squeeze1 [Zero F] (p : Params F) (st : State F) : F × State F :=
  let (s, i) := turn p false st
  (s.getD (p.capacity + i) 0, ⟨s, false, i + 1⟩)

/-- Squeezing `n` elements. -/
def squeezeN [Zero F] (p : Params F) : ℕ → State F → List F × State F
  | 0, st => ([], st)
  | n + 1, st => ((squeeze1 p st).1 :: (squeezeN p n (squeeze1 p st).2).1, (squeezeN p n (squeeze1 p st).2).2)

end Tachyon.Sponge.Spec
