import Mathlib.Data.Int.Basic
/-! Value of a list of signed digits, least significant first. -/
namespace Tachyon

/-- `Σ_i z_i * b^i`. -/
def digitsVal (b : Int) : List Int → Int
  | [] => 0
  | z :: zs => z + b * digitsVal b zs

end Tachyon
