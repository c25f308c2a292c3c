import Mathlib.Data.List.Basic
/-! Merkle roots, independent of any layout. -/
universe u v
namespace Tachyon.Merkle.Spec

variable {L : Type u} {H : Type v}

/-- The root of the complete binary tree of height `k` over `2 ^ k` leaves: the hash of the roots of
the two halves. -/
def root (leaf : L → H) (parent : H → H → H) (dflt : H) : ℕ → List L → H
  | 0, l => match l with
    | x :: _ => leaf x
    | [] => dflt
  | k + 1, l => parent (root leaf parent dflt k (l.take (2 ^ k)))
      (root leaf parent dflt k (l.drop (2 ^ k)))

/-- Two different pairs with the same hash. -/
def Collision (parent : H → H → H) : Prop :=
  ∃ a b c d, (a, b) ≠ (c, d) ∧ parent a b = parent c d

end Tachyon.Merkle.Spec
