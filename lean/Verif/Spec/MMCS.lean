import Verif.Model.MMCS
import Mathlib.Data.Nat.Log
/-! The Merkle root of several matrices, independent of sorting, chunks and packing. -/
universe u v w
namespace Tachyon.MMCS.Spec

variable {F : Type u} {P : Type v} {D : Type w}

/-- The matrices whose number of rows rounds up to `2 ^ j`, in the given order. -/
def group (leaves : List (List (List F))) (j : ℕ) : List (List (List F)) :=
  leaves.filter fun m => Nat.clog 2 m.length = j

/-- The concatenation of rows `i` of the matrices of a group. -/
def rowData (flat : F → List P) (leaves : List (List (List F))) (j i : ℕ) : List P :=
  (group leaves j).flatMap fun m => (m.getD i []).flatMap flat

/-- The digest of row `i` of a group; beyond the rows a default. -/
def rowDigest (flat : F → List P) (hash : List P → D) (dflt : D) (leaves : List (List (List F)))
    (j i : ℕ) : D :=
  if ∀ m ∈ group leaves j, i < m.length then hash (rowData flat leaves j i) else dflt

/-- Node `i` of level `l` (counted from the leaves) of a tree of height `k`: the compression of its
two children, and then of the result with the digest of the rows of that height, if there are any. -/
def node (flat : F → List P) (hash : List P → D) (compress : D → D → D) (dflt : D) (k : ℕ)
    (leaves : List (List (List F))) : ℕ → ℕ → D
  | 0, i => rowDigest flat hash dflt leaves k i
  | l + 1, i =>
    let c := compress (node flat hash compress dflt k leaves l (2 * i))
      (node flat hash compress dflt k leaves l (2 * i + 1))
    if group leaves (k - (l + 1)) = [] then c
    else compress c (rowDigest flat hash dflt leaves (k - (l + 1)) i)

/-- Two inputs with the same digest, or two pairs with the same compression. -/
def Collision (hash : List P → D) (compress : D → D → D) : Prop :=
  (∃ a b, a ≠ b ∧ hash a = hash b) ∨
  ∃ a b c d, (a, b) ≠ (c, d) ∧ compress a b = compress c d

end Tachyon.MMCS.Spec

namespace Tachyon.MMCS

variable {F : Type u} {P : Type v} {D : Type w}

/-- The packed hash functions work lane by lane, and all elements have equally many coefficients. -/
structure Ops.Implements (o : Ops F P D) (lanes : ℕ) : Prop where
  flat_length : ∀ x y, (o.flat x).length = (o.flat y).length
  packedHash : ∀ rs, rs.length = lanes → (∀ a ∈ rs, ∀ b ∈ rs, a.length = b.length) →
    o.packedHash rs = rs.map o.hash
  packedCompress : ∀ a b, a.length = lanes → b.length = lanes →
    o.packedCompress a b = List.zipWith o.compress a b

/-- Matrices that can be committed to: at least one, none of them empty, all rows of a matrix equally
long, and numbers of rows that round up to the same power of two are equal. -/
structure Valid (leaves : List (List (List F))) : Prop where
  ne : leaves ≠ []
  pos : ∀ m ∈ leaves, 0 < m.length
  width : ∀ m ∈ leaves, ∀ r ∈ m, ∀ r' ∈ m, r.length = r'.length
  heights : ∀ a ∈ leaves, ∀ b ∈ leaves, Nat.clog 2 a.length = Nat.clog 2 b.length → a.length = b.length
  bound : ∀ m ∈ leaves, m.length ≤ 2 ^ 62

/-- `k` is the height of the tree: the number of rows of the tallest matrix rounds up to `2 ^ k`. -/
def IsHeight (leaves : List (List (List F))) (k : ℕ) : Prop :=
  (∃ m ∈ leaves, Nat.clog 2 m.length = k) ∧ ∀ m ∈ leaves, Nat.clog 2 m.length ≤ k

end Tachyon.MMCS
