import Mathlib.Data.ZMod.Basic
import Mathlib.Algebra.Field.Basic
/-! The field with ninety-seven elements, with an inverse that the kernel can compute: for the examples. It has roots of
unity of order 32 and of order 3. -/
namespace Tachyon

/-- The integers modulo 97. -/
def F97 : Type := ZMod 97

instance : CommRing F97 := inferInstanceAs (CommRing (ZMod 97))
instance : DecidableEq F97 := inferInstanceAs (DecidableEq (ZMod 97))
instance : Fintype F97 := inferInstanceAs (Fintype (ZMod 97))
instance (n : ℕ) : OfNat F97 n := inferInstanceAs (OfNat (ZMod 97) n)

/-- The inverse by Fermat's little theorem: `95 = 64 + 31`. -/
def F97.inv (x : F97) : F97 := (x ^ 8) ^ 8 * (x ^ 5) ^ 6 * x

instance : Field F97 where
  inv := F97.inv
  exists_pair_ne := ⟨0, 1, by decide +kernel⟩
  mul_inv_cancel := by decide +kernel
  inv_zero := by decide +kernel
  nnqsmul := _
  nnqsmul_def _ _ := rfl
  qsmul := _
  qsmul_def _ _ := rfl

end Tachyon
