import Mathlib.LinearAlgebra.Matrix.Notation
/-!
# The Poseidon2 permutation of the paper

A multiplication by the external matrix, then rounds: a full round adds its constants, applies the power to all
elements and multiplies by the external matrix, a partial round adds the first constant, applies the power to the first
element and multiplies by the internal matrix.
-/
namespace Tachyon.Poseidon2.Spec
open Matrix
variable {F : Type} [Field F] {n : ℕ}

/-- The external matrix for widths 2, 3 and multiples of four, over a matrix of size four. -/
def external (M4 : Matrix (Fin 4) (Fin 4) F) : Matrix (Fin n) (Fin n) F := Matrix.of fun i j =>
  if n < 4 then if i = j then 2 else 1
  else (if 4 < n ∧ i.val / 4 = j.val / 4 then 2 else 1) * M4 (Fin.ofNat 4 i) (Fin.ofNat 4 j)

/-- The internal matrix: ones outside of the diagonal, `d + 1` on it, times `r`. -/
def internal (r : F) (d : Fin n → F) : Matrix (Fin n) (Fin n) F := Matrix.of fun i j =>
  r * (if i = j then d i + 1 else 1)

def round (alpha : ℕ) (E I : Matrix (Fin n) (Fin n) F) (full : Prop) [Decidable full] (a s : Fin n → F) : Fin n → F :=
  if full then E *ᵥ fun i => (s i + a i) ^ alpha
  else I *ᵥ fun i => if i.val = 0 then (s i + a i) ^ alpha else s i

/-- `h` full rounds, `P` partial rounds, and full rounds again. -/
def permute (alpha h P : ℕ) (E I : Matrix (Fin n) (Fin n) F) (ark : List (Fin n → F)) (s : Fin n → F) : Fin n → F :=
  ark.zipIdx.foldl (fun s r => round alpha E I (r.2 < h ∨ h + P ≤ r.2) r.1 s) (E *ᵥ s)

end Tachyon.Poseidon2.Spec
