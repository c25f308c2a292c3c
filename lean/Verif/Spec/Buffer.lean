import Verif.Model.Buffer
/-! The bytes of a value, independent of how they are written. -/
namespace Tachyon.Buffer

/-- The bytes of the number `v < 256^n`, the lowest first. -/
def digits (n v : ℕ) : List Byte := (List.range n).map fun i => BitVec.ofNat 8 (v / 256 ^ i % 256)

/-- The highest byte comes first for sizes 2, 4 and 8 in big endian, and for all sizes in the order of a big endian machine. -/
def highFirst (env : Env) (e : Endian) (n : ℕ) : Prop :=
  (e = .big ∧ (n = 2 ∨ n = 4 ∨ n = 8)) ∨ (env.hostBig = true ∧ (e = .native ∨ ¬ (n = 2 ∨ n = 4 ∨ n = 8)))

instance decHighFirst (env : Env) (e : Endian) (n : ℕ) : Decidable (highFirst env e n) := by
  unfold highFirst; infer_instance

/-- The bytes of an integer. -/
def encInt (env : Env) (e : Endian) (n v : ℕ) : List Byte :=
  if highFirst env e n then (digits n v).reverse else digits n v

/-- The bytes of a value. -/
def enc (env : Env) (e : Endian) : (t : Ty) → t.Val → List Byte
  | .int n, v => encInt env e n v
  | .float k, v => encInt env e k.size v
  | .str _, v => encInt env e 8 (List.length v) ++ List.map (BitVec.ofNat 8) v
  | .vec t, v => encInt env e 8 (List.length v) ++ List.flatMap (enc env e t) v
  | .arr _ t, v => List.flatMap (enc env e t) v
  | .pair s t, v => enc env e s v.1 ++ enc env e t v.2

/-- The values that a variable of the type can hold. -/
def Ty.Wf (env : Env) : (t : Ty) → t.Val → Prop
  | .int n, v => (show ℕ from v) < 256 ^ n
  | .float k, v => (show ℕ from v) < 256 ^ k.size
  | .str w, v => List.length v ≤ env.maxSize ∧ ∀ c ∈ (show List ℕ from v), c < 256 ^ w
  | .vec t, v => List.length v ≤ env.maxSize ∧ ∀ x ∈ (show List t.Val from v), t.Wf env x
  | .arr n t, v => List.length v = n ∧ ∀ x ∈ (show List t.Val from v), t.Wf env x
  | .pair s t, v => s.Wf env v.1 ∧ t.Wf env v.2

/-- No floats unless in the order of the machine, and no strings of wide characters. -/
def Ty.Plain (e : Endian) : Ty → Prop
  | .int _ => True
  | .float k => e = .native ∧ (k.size = 4 ∨ k.size = 8)
  | .str w => w = 1
  | .vec t => t.Plain e
  | .arr _ t => t.Plain e
  | .pair s t => s.Plain e ∧ t.Plain e

/-- `data` with `bs` from position `off` on. -/
def overlay (data : List Byte) (off : ℕ) (bs : List Byte) : List Byte :=
  data.take off ++ bs ++ data.drop (off + bs.length)

end Tachyon.Buffer
