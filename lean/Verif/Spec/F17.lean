import Mathlib.Data.ZMod.Basic
import Mathlib.Algebra.Field.Basic
/-! The field with seventeen elements, with an inverse that the kernel can compute: for the examples. -/
namespace Tachyon

/-- The integers modulo 17. -/
def F17 : Type := ZMod 17

instance : CommRing F17 := inferInstanceAs (CommRing (ZMod 17))
instance : DecidableEq F17 := inferInstanceAs (DecidableEq (ZMod 17))
instance : Fintype F17 := inferInstanceAs (Fintype (ZMod 17))
instance (n : ℕ) : OfNat F17 n := inferInstanceAs (OfNat (ZMod 17) n)

instance : Field F17 where
  inv x := x ^ 15
  exists_pair_ne := ⟨0, 1, by decide⟩
  mul_inv_cancel := by decide
  inv_zero := by decide
  nnqsmul := _
  nnqsmul_def _ _ := rfl
  qsmul := _
  qsmul_def _ _ := rfl

end Tachyon
