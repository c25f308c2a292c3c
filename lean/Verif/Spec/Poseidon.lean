import Mathlib.Data.Matrix.Mul
import Mathlib.Algebra.Field.Defs
/-!
# The Poseidon permutation of the paper

Each round adds its constants, applies the power to all elements (full rounds) or to the first (partial rounds)
and multiplies by the matrix; the partial rounds lie between two halves of the full rounds.
-/
namespace Tachyon.Poseidon.Spec
open Matrix

variable {F : Type} [Field F] {t : ℕ}

def sbox (alpha : ℕ) (full : Prop) [Decidable full] (s : Fin (t + 2) → F) : Fin (t + 2) → F := fun i =>
  if full ∨ i = 0 then s i ^ alpha else s i

def round (alpha : ℕ) (M : Matrix (Fin (t + 2)) (Fin (t + 2)) F) (full : Prop) [Decidable full]
    (a s : Fin (t + 2) → F) : Fin (t + 2) → F :=
  M *ᵥ sbox alpha full (s + a)

/-- `h` full rounds, `P` partial rounds and full rounds again, one round for each element of `ark`. -/
def permute (alpha h P : ℕ) (M : Matrix (Fin (t + 2)) (Fin (t + 2)) F) (ark : List (Fin (t + 2) → F))
    (s : Fin (t + 2) → F) : Fin (t + 2) → F :=
  ark.zipIdx.foldl (fun s r => round alpha M (r.2 < h ∨ h + P ≤ r.2) r.1 s) s

end Tachyon.Poseidon.Spec
