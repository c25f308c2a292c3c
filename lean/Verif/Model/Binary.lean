import Mathlib.Data.Nat.Notation
/-!
# Model of the binary tower fields

`tachyon/math/finite_fields/binary_fields/{binary_field,binary_tower_operations,binary_fields}.h`. The field
of `2^n` bits is level `n`; the code has `n ≤ 7`, the model runs the same recursion for every `n`. A value
is the natural number stored in `value_`; the two limbs of the 128-bit field are one number. `none` is a
table index out of range or a failed `DCHECK` of a constructor; `Inverse` has an inner `none` for
`std::nullopt`.
-/
namespace Tachyon.Binary

/-- The number of values of level `n`: `2^kBits` with `kBits = 2^n` (binary_field.h:34). -/
def size (n : ℕ) : ℕ := 2 ^ 2 ^ n

/-- The constructor from an integer (binary_field.h:54-60). -/
def mk (n v : ℕ) : Option ℕ := if v < size n then some v else none

/-- `Add`, `Sub` (binary_field.h:235-237, :252-254). -/
def add (a b : ℕ) : ℕ := a ^^^ b

/-- `DoubleImpl` (binary_field.h:244). -/
def double (_ : ℕ) : ℕ := 0

/-- `Negate` (binary_field.h:261). -/
def neg (a : ℕ) : ℕ := a

/-- `Decompose` of a value of level `n + 1` (binary_field.h:181-194). -/
def decompose (n v : ℕ) : ℕ × ℕ := (v % size n, v / size n % size n)

/-- `Compose` to a value of level `n + 1` (binary_field.h:137-147). -/
def compose (n lo hi : ℕ) : ℕ := hi * size n + lo

/-- The packed table of products of 4-bit elements (binary_tower_operations.h:22-39). -/
def mulTable : List ℕ := [
  0, 0, 0, 0, 0, 0, 0, 0, 16, 50, 84, 118, 152, 186, 220, 254,
  32, 19, 168, 155, 236, 223, 100, 87, 48, 33, 252, 237, 116, 101, 184, 169,
  64, 200, 217, 81, 174, 38, 55, 191, 80, 250, 141, 39, 54, 156, 235, 65,
  96, 219, 113, 202, 66, 249, 83, 232, 112, 233, 37, 188, 218, 67, 143, 22,
  128, 76, 110, 162, 247, 59, 25, 213, 144, 126, 58, 212, 111, 129, 197, 43,
  160, 95, 198, 57, 27, 228, 125, 130, 176, 109, 146, 79, 131, 94, 161, 124,
  192, 132, 183, 243, 89, 29, 46, 106, 208, 182, 227, 133, 193, 167, 242, 148,
  224, 151, 31, 104, 181, 194, 74, 61, 240, 165, 75, 30, 45, 120, 150, 195]

/-- The table of inverses (binary_tower_operations.h:47-80). -/
def invTable : List ℕ := [
  0, 1, 3, 2, 6, 14, 4, 15, 13, 10, 9, 12, 11, 8, 5, 7,
  20, 103, 148, 123, 16, 102, 158, 126, 210, 129, 39, 75, 209, 143, 47, 66,
  60, 230, 222, 124, 179, 193, 74, 26, 48, 233, 221, 121, 177, 198, 67, 30,
  40, 232, 157, 185, 99, 57, 141, 194, 98, 53, 131, 197, 32, 231, 151, 187,
  97, 72, 31, 46, 172, 200, 188, 86, 65, 96, 38, 27, 207, 170, 91, 190,
  239, 115, 109, 94, 247, 134, 71, 189, 136, 252, 191, 78, 118, 224, 83, 108,
  73, 64, 56, 52, 228, 235, 21, 17, 139, 133, 175, 169, 95, 82, 152, 146,
  251, 181, 238, 81, 183, 240, 92, 225, 220, 43, 149, 19, 35, 223, 23, 159,
  211, 25, 196, 58, 138, 105, 85, 246, 88, 253, 132, 104, 195, 54, 208, 29,
  166, 243, 111, 153, 18, 122, 186, 62, 110, 147, 160, 248, 184, 50, 22, 127,
  154, 249, 226, 219, 237, 216, 144, 242, 174, 107, 77, 206, 68, 201, 168, 106,
  199, 44, 192, 36, 250, 113, 241, 116, 156, 51, 150, 63, 70, 87, 79, 90,
  178, 37, 55, 140, 130, 59, 45, 176, 69, 173, 215, 255, 244, 212, 171, 76,
  142, 28, 24, 128, 205, 245, 254, 202, 165, 236, 227, 163, 120, 42, 34, 125,
  93, 119, 162, 218, 100, 234, 33, 61, 49, 41, 229, 101, 217, 164, 114, 80,
  117, 182, 167, 145, 204, 213, 135, 84, 155, 161, 180, 112, 89, 137, 214, 203]

/-- The powers of the generator (binary_tower_operations.h:146-179). -/
def expTable : List ℕ := [
  1, 19, 67, 102, 171, 140, 96, 198, 145, 202, 89, 178, 106, 99, 244, 83,
  23, 15, 250, 186, 238, 135, 214, 224, 110, 47, 104, 66, 117, 232, 234, 203,
  74, 241, 12, 200, 120, 51, 209, 158, 48, 227, 92, 237, 181, 20, 61, 56,
  103, 184, 207, 6, 109, 29, 170, 159, 35, 160, 58, 70, 57, 116, 251, 169,
  173, 225, 125, 108, 14, 233, 249, 136, 44, 90, 128, 168, 190, 162, 27, 199,
  130, 137, 63, 25, 230, 3, 50, 194, 221, 86, 72, 208, 141, 115, 133, 247,
  97, 213, 210, 172, 242, 62, 10, 165, 101, 153, 78, 189, 144, 217, 26, 212,
  193, 239, 148, 149, 134, 197, 163, 8, 132, 228, 34, 179, 121, 32, 146, 248,
  155, 111, 60, 43, 36, 222, 100, 138, 13, 219, 59, 85, 122, 18, 80, 37,
  205, 39, 236, 166, 87, 91, 147, 235, 216, 9, 151, 167, 68, 24, 245, 64,
  84, 105, 81, 54, 142, 65, 71, 42, 55, 157, 2, 33, 129, 187, 253, 196,
  176, 75, 226, 79, 174, 211, 191, 177, 88, 161, 41, 5, 95, 223, 119, 201,
  107, 112, 183, 53, 188, 131, 154, 124, 127, 77, 143, 82, 4, 76, 156, 17,
  98, 231, 16, 113, 164, 118, 218, 40, 22, 28, 185, 220, 69, 11, 182, 38,
  255, 229, 49, 240, 31, 139, 30, 152, 93, 254, 246, 114, 150, 180, 7, 126,
  94, 204, 52, 175, 192, 252, 215, 243, 45, 73, 195, 206, 21, 46, 123, 0]

/-- The discrete logarithms (binary_tower_operations.h:180-213). -/
def logTable : List ℕ := [
  0, 0, 170, 85, 204, 187, 51, 238, 119, 153, 102, 221, 34, 136, 68, 17,
  210, 207, 141, 1, 45, 252, 216, 16, 157, 83, 110, 78, 217, 53, 230, 228,
  125, 171, 122, 56, 132, 143, 223, 145, 215, 186, 167, 131, 72, 248, 253, 25,
  40, 226, 86, 37, 242, 195, 163, 168, 47, 60, 58, 138, 130, 46, 101, 82,
  159, 165, 27, 2, 156, 220, 59, 166, 90, 249, 32, 177, 205, 201, 106, 179,
  142, 162, 203, 15, 160, 139, 89, 148, 184, 10, 73, 149, 42, 232, 240, 188,
  6, 96, 208, 13, 134, 104, 3, 48, 26, 161, 12, 192, 67, 52, 24, 129,
  193, 211, 235, 93, 61, 28, 213, 190, 36, 124, 140, 254, 199, 66, 239, 200,
  74, 172, 80, 197, 120, 94, 116, 21, 71, 81, 135, 229, 5, 92, 164, 202,
  108, 8, 126, 150, 114, 115, 236, 154, 231, 105, 198, 128, 206, 169, 39, 55,
  57, 185, 77, 118, 212, 103, 147, 155, 75, 63, 54, 4, 99, 64, 180, 243,
  176, 183, 11, 123, 237, 44, 222, 194, 49, 218, 19, 173, 196, 107, 76, 182,
  244, 112, 87, 250, 175, 117, 7, 79, 35, 191, 9, 31, 241, 144, 251, 50,
  91, 38, 98, 181, 111, 97, 22, 246, 152, 109, 214, 137, 219, 88, 133, 189,
  23, 65, 178, 41, 121, 225, 84, 209, 29, 69, 30, 151, 146, 43, 20, 113,
  227, 33, 100, 247, 14, 158, 234, 95, 127, 70, 18, 62, 245, 174, 233, 224]

/-- The products with `α` of the 8-bit field (binary_tower_operations.h:231-264). -/
def alphaTable : List ℕ := [
  0, 16, 32, 48, 64, 80, 96, 112, 128, 144, 160, 176, 192, 208, 224, 240,
  65, 81, 97, 113, 1, 17, 33, 49, 193, 209, 225, 241, 129, 145, 161, 177,
  130, 146, 162, 178, 194, 210, 226, 242, 2, 18, 34, 50, 66, 82, 98, 114,
  195, 211, 227, 243, 131, 147, 163, 179, 67, 83, 99, 115, 3, 19, 35, 51,
  148, 132, 180, 164, 212, 196, 244, 228, 20, 4, 52, 36, 84, 68, 116, 100,
  213, 197, 245, 229, 149, 133, 181, 165, 85, 69, 117, 101, 21, 5, 53, 37,
  22, 6, 54, 38, 86, 70, 118, 102, 150, 134, 182, 166, 214, 198, 246, 230,
  87, 71, 119, 103, 23, 7, 55, 39, 215, 199, 247, 231, 151, 135, 183, 167,
  232, 248, 200, 216, 168, 184, 136, 152, 104, 120, 72, 88, 40, 56, 8, 24,
  169, 185, 137, 153, 233, 249, 201, 217, 41, 57, 9, 25, 105, 121, 73, 89,
  106, 122, 74, 90, 42, 58, 10, 26, 234, 250, 202, 218, 170, 186, 138, 154,
  43, 59, 11, 27, 107, 123, 75, 91, 171, 187, 139, 155, 235, 251, 203, 219,
  124, 108, 92, 76, 60, 44, 28, 12, 252, 236, 220, 204, 188, 172, 156, 140,
  61, 45, 29, 13, 125, 109, 93, 77, 189, 173, 157, 141, 253, 237, 221, 205,
  254, 238, 222, 206, 190, 174, 158, 142, 126, 110, 94, 78, 62, 46, 30, 14,
  191, 175, 159, 143, 255, 239, 223, 207, 63, 47, 31, 15, 127, 111, 95, 79]

/-- The squares of the 8-bit field (binary_tower_operations.h:271-304). -/
def squareTable : List ℕ := [
  0, 1, 3, 2, 9, 8, 10, 11, 7, 6, 4, 5, 14, 15, 13, 12,
  65, 64, 66, 67, 72, 73, 75, 74, 70, 71, 69, 68, 79, 78, 76, 77,
  195, 194, 192, 193, 202, 203, 201, 200, 196, 197, 199, 198, 205, 204, 206, 207,
  130, 131, 129, 128, 139, 138, 136, 137, 133, 132, 134, 135, 140, 141, 143, 142,
  169, 168, 170, 171, 160, 161, 163, 162, 174, 175, 173, 172, 167, 166, 164, 165,
  232, 233, 235, 234, 225, 224, 226, 227, 239, 238, 236, 237, 230, 231, 229, 228,
  106, 107, 105, 104, 99, 98, 96, 97, 109, 108, 110, 111, 100, 101, 103, 102,
  43, 42, 40, 41, 34, 35, 33, 32, 44, 45, 47, 46, 37, 36, 38, 39,
  87, 86, 84, 85, 94, 95, 93, 92, 80, 81, 83, 82, 89, 88, 90, 91,
  22, 23, 21, 20, 31, 30, 28, 29, 17, 16, 18, 19, 24, 25, 27, 26,
  148, 149, 151, 150, 157, 156, 158, 159, 147, 146, 144, 145, 154, 155, 153, 152,
  213, 212, 214, 215, 220, 221, 223, 222, 210, 211, 209, 208, 219, 218, 216, 217,
  254, 255, 253, 252, 247, 246, 244, 245, 249, 248, 250, 251, 240, 241, 243, 242,
  191, 190, 188, 189, 182, 183, 181, 180, 184, 185, 187, 186, 177, 176, 178, 179,
  61, 60, 62, 63, 52, 53, 55, 54, 58, 59, 57, 56, 51, 50, 48, 49,
  124, 125, 127, 126, 117, 116, 118, 119, 123, 122, 120, 121, 114, 115, 113, 112]

/-- `DoBinaryMul` (binary_tower_operations.h:20-43). -/
def doBinaryMul (lhs rhs : ℕ) : Option ℕ :=
  let idx := lhs <<< 4 ||| rhs
  (mulTable[idx >>> 1]?).map fun t => (t >>> ((idx &&& 1) * 4)) &&& 15

/-- `DoBinaryInverse` (binary_tower_operations.h:45-83). -/
def doBinaryInverse (x : ℕ) : Option ℕ := invTable[x]?

/-- `Mul` of the 8-bit field (binary_tower_operations.h:144-227). -/
def mul8 (lhs rhs : ℕ) : Option ℕ :=
  if lhs = 0 ∨ rhs = 0 then some 0
  else do
    let l ← logTable[lhs]?
    let r ← logTable[rhs]?
    let i := l + r
    let e ← expTable[if i > 254 then i - 255 else i]?
    mk 3 e

/-- `MulByAlpha` (binary_tower_operations.h:91, :110, :129, :229-267, :339-347). -/
def mulByAlpha : ℕ → ℕ → Option ℕ
  | 0, x => some x
  | 1, x => (doBinaryMul x 2).bind (mk 1)
  | 2, x => (doBinaryMul x 4).bind (mk 2)
  | 3, x => (alphaTable[x]?).bind (mk 3)
  | n + 4, x => do
    let (x0, x1) := decompose (n + 3) x
    let x1a ← mulByAlpha (n + 3) x1
    some (compose (n + 3) x1 (add x0 x1a))

/-- `Mul` (binary_tower_operations.h:89, :106-108, :125-127, :144-227, :322-337). -/
def mul : ℕ → ℕ → ℕ → Option ℕ
  | 0, a, b => mk 0 (a &&& b)
  | 1, a, b => (doBinaryMul a b).bind (mk 1)
  | 2, a, b => (doBinaryMul a b).bind (mk 2)
  | 3, a, b => mul8 a b
  | n + 4, a, b => do
    let (a0, a1) := decompose (n + 3) a
    let (b0, b1) := decompose (n + 3) b
    let z0 ← mul (n + 3) a0 b0
    let z1 ← mul (n + 3) a1 b1
    let z0z1 := add z0 z1
    let m ← mul (n + 3) (add a0 a1) (add b0 b1)
    let z2 := add m z0z1
    let z1a ← mulByAlpha (n + 3) z1
    some (compose (n + 3) z0z1 (add z2 z1a))

/-- `Square` (binary_tower_operations.h:93, :112, :131, :269-307, :349-360). -/
def square : ℕ → ℕ → Option ℕ
  | 0, x => some x
  | 1, x => mul 1 x x
  | 2, x => mul 2 x x
  | 3, x => (squareTable[x]?).bind (mk 3)
  | n + 4, x => do
    let (x0, x1) := decompose (n + 3) x
    let z0 ← square (n + 3) x0
    let z1 ← square (n + 3) x1
    let z1a ← mulByAlpha (n + 3) z1
    some (compose (n + 3) (add z0 z1) z1a)

/-- `Inverse` from the table (binary_tower_operations.h:114-120, :133-139, :309-315). -/
def inverseTable (n x : ℕ) : Option (Option ℕ) :=
  if x = 0 then some none
  else do
    let v ← doBinaryInverse x
    let v ← mk n v
    some (some v)

/-- The end of the recursive `Inverse` (binary_tower_operations.h:375-380). -/
def inverseFinish (n x0x1a x1 : ℕ) : Option ℕ → Option (Option ℕ)
  | none => some none
  | some d => do
    let i0 ← mul n d x0x1a
    let i1 ← mul n d x1
    some (some (compose n i0 i1))

/-- `Inverse` (binary_tower_operations.h:95-101, :114-120, :133-139, :309-315, :362-381). -/
def inverse : ℕ → ℕ → Option (Option ℕ)
  | 0, x => if x = 0 then some none else some (some x)
  | 1, x => inverseTable 1 x
  | 2, x => inverseTable 2 x
  | 3, x => inverseTable 3 x
  | n + 4, x => do
    let (x0, x1) := decompose (n + 3) x
    let a ← mulByAlpha (n + 3) x1
    let x0x1a := add x0 a
    let p ← mul (n + 3) x0 x0x1a
    let q ← square (n + 3) x1
    let d ← inverse (n + 3) (add p q)
    inverseFinish (n + 3) x0x1a x1 d

/-- `TwoInv` (binary_field.h:76); dereferencing `std::nullopt` is `none`. -/
def twoInv (n : ℕ) : Option ℕ := do
  let v ← mk n 2
  let r ← inverse n v
  r

end Tachyon.Binary
