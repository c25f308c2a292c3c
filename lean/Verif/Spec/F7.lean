import Mathlib.Data.ZMod.Basic
import Mathlib.Algebra.Field.Basic
/-! The field with seven elements, with an inverse that the kernel can compute: for the examples. -/
namespace Tachyon

/-- The integers modulo 7. -/
def F7 : Type := ZMod 7

instance : CommRing F7 := inferInstanceAs (CommRing (ZMod 7))
instance : DecidableEq F7 := inferInstanceAs (DecidableEq (ZMod 7))
instance : Fintype F7 := inferInstanceAs (Fintype (ZMod 7))
instance (n : ℕ) : OfNat F7 n := inferInstanceAs (OfNat (ZMod 7) n)

instance : Field F7 where
  inv x := x ^ 5
  exists_pair_ne := ⟨0, 1, by decide⟩
  mul_inv_cancel := by decide
  inv_zero := by decide
  nnqsmul := _
  nnqsmul_def _ _ := rfl
  qsmul := _
  qsmul_def _ _ := rfl

end Tachyon
