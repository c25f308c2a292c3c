import Verif.Spec.FFT
import Verif.Proofs.FFTCore
/-! What the batch transforms require of a twiddle item. -/
namespace Tachyon.FFT

variable {F : Type*} [Field F]

/-- The first `2^(k-1)` powers of `w`. -/
def powList (k : ℕ) (w : F) : List F := (List.range (2 ^ (k - 1))).map fun j => w ^ j

/-- The same powers with the bits of the index reversed. -/
def revList (k : ℕ) (w : F) : List F := (List.range (2 ^ (k - 1))).map fun j => w ^ rv (k - 1) j

/-- The members of the item that the batch transforms over the domain read. -/
structure Item.ForBatch (item : Item F) (d : Domain F) : Prop where
  roots : item.roots.getLast? = some (powList d.logSize d.gen)
  invRoots : item.invRoots[0]? = some (powList d.logSize d.gen⁻¹)
  bitrev : item.bitrev = revList d.logSize d.gen
  bitrevInv : item.bitrevInv = revList d.logSize d.gen⁻¹
  packed : item.packed = [powList d.logSize d.gen, revList d.logSize d.gen]
  packedInv : item.packedInv = [powList d.logSize d.gen⁻¹, revList d.logSize d.gen⁻¹]

/-- Column `j` of a matrix. -/
def column (mat : List (List F)) (j : ℕ) : List F := mat.map fun r => r.getD j 0

end Tachyon.FFT
