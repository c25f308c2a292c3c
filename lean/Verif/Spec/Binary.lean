import Mathlib.Data.ZMod.Basic
import Mathlib.Algebra.Field.ZMod
import Mathlib.Tactic.Ring
import Mathlib.Tactic.LinearCombination
/-!
# The binary tower

`level 0` is the field with two elements and `α = 1`; `level (n + 1)` consists of the `lo + hi X` over
`level n` with `X² = α X + 1`, and its `α` is `X`. The trace to the field with two elements shows that the
quadratic polynomial has no root, so that every level is a field.
-/
namespace Tachyon.Binary

/-- A level of the tower: a field of characteristic two with an element `α` such that `α` and its inverse
have trace one. -/
structure Level where
  K : Type
  [field : Field K]
  α : K
  tr : K →+ ZMod 2
  char2 : ∀ x : K, x + x = 0
  tr_sq : ∀ x : K, tr (x * x) = tr x
  tr_α : tr α = 1
  tr_inv : tr α⁻¹ = 1

instance (L : Level) : Field L.K := L.field

/-- The elements `lo + hi X` of the next level. -/
@[ext] structure Ext (L : Level) where
  lo : L.K
  hi : L.K

namespace Ext
variable {L : Level}

instance : Zero (Ext L) := ⟨⟨0, 0⟩⟩
instance : One (Ext L) := ⟨⟨1, 0⟩⟩
instance : Add (Ext L) := ⟨fun x y => ⟨x.lo + y.lo, x.hi + y.hi⟩⟩
instance : Neg (Ext L) := ⟨fun x => ⟨-x.lo, -x.hi⟩⟩
/-- `X² = α X + 1`. -/
instance : Mul (Ext L) :=
  ⟨fun x y => ⟨x.lo * y.lo + x.hi * y.hi, x.lo * y.hi + x.hi * y.lo + x.hi * y.hi * L.α⟩⟩

@[simp] theorem zero_lo : (0 : Ext L).lo = 0 := rfl
@[simp] theorem zero_hi : (0 : Ext L).hi = 0 := rfl
@[simp] theorem one_lo : (1 : Ext L).lo = 1 := rfl
@[simp] theorem one_hi : (1 : Ext L).hi = 0 := rfl
@[simp] theorem add_lo (x y : Ext L) : (x + y).lo = x.lo + y.lo := rfl
@[simp] theorem add_hi (x y : Ext L) : (x + y).hi = x.hi + y.hi := rfl
@[simp] theorem neg_lo (x : Ext L) : (-x).lo = -x.lo := rfl
@[simp] theorem neg_hi (x : Ext L) : (-x).hi = -x.hi := rfl
@[simp] theorem mul_lo (x y : Ext L) : (x * y).lo = x.lo * y.lo + x.hi * y.hi := rfl
@[simp] theorem mul_hi (x y : Ext L) :
    (x * y).hi = x.lo * y.hi + x.hi * y.lo + x.hi * y.hi * L.α := rfl

instance : CommRing (Ext L) where
  add_assoc x y z := by ext <;> simp <;> ring
  zero_add x := by ext <;> simp
  add_zero x := by ext <;> simp
  add_comm x y := by ext <;> simp <;> ring
  neg_add_cancel x := by ext <;> simp
  mul_assoc x y z := by ext <;> simp <;> ring
  one_mul x := by ext <;> simp
  mul_one x := by ext <;> simp
  left_distrib x y z := by ext <;> simp <;> ring
  right_distrib x y z := by ext <;> simp <;> ring
  zero_mul x := by ext <;> simp
  mul_zero x := by ext <;> simp
  mul_comm x y := by ext <;> simp <;> ring
  nsmul := nsmulRec
  zsmul := zsmulRec

/-- `lo (lo + hi α) + hi²`. -/
def norm (x : Ext L) : L.K := x.lo * (x.lo + x.hi * L.α) + x.hi * x.hi

theorem α_ne_zero (L : Level) : L.α ≠ 0 := by
  intro h
  have := L.tr_α
  rw [h, map_zero] at this
  exact absurd this (by decide)

/-- `Y² + α Y + 1` has no root. -/
theorem no_root (L : Level) (y : L.K) : y * y + y * L.α + 1 ≠ 0 := by
  intro h
  have hα := α_ne_zero L
  set u := y * L.α⁻¹ with hu
  have e : u * u + u = -(L.α⁻¹ * L.α⁻¹) := by
    have h1 : L.α * L.α⁻¹ = 1 := mul_inv_cancel₀ hα
    rw [hu]
    linear_combination (L.α⁻¹ * L.α⁻¹) * h - (y * L.α⁻¹) * h1
  have ht := congrArg L.tr e
  rw [map_add, L.tr_sq, map_neg, L.tr_sq, L.tr_inv] at ht
  have : ∀ z : ZMod 2, z + z ≠ -1 := by decide
  exact this _ ht

theorem norm_ne_zero {x : Ext L} (hx : x ≠ 0) : norm x ≠ 0 := by
  intro h
  by_cases hh : x.hi = 0
  · refine hx (Ext.ext ?_ hh)
    rw [norm, hh] at h
    simpa using h
  · refine no_root L (x.lo * x.hi⁻¹) ?_
    have h1 : x.hi * x.hi⁻¹ = 1 := mul_inv_cancel₀ hh
    rw [norm] at h
    linear_combination (x.hi⁻¹ * x.hi⁻¹) * h -
      (x.lo * L.α * x.hi⁻¹ + x.hi * x.hi⁻¹ + 1) * h1

instance : Inv (Ext L) := ⟨fun x => ⟨(norm x)⁻¹ * (x.lo + x.hi * L.α), (norm x)⁻¹ * x.hi⟩⟩

@[simp] theorem inv_lo (x : Ext L) : (x⁻¹).lo = (norm x)⁻¹ * (x.lo + x.hi * L.α) := rfl
@[simp] theorem inv_hi (x : Ext L) : (x⁻¹).hi = (norm x)⁻¹ * x.hi := rfl

theorem mul_inv {x : Ext L} (hx : x ≠ 0) : x * x⁻¹ = 1 := by
  have h1 : norm x * (norm x)⁻¹ = 1 := mul_inv_cancel₀ (norm_ne_zero hx)
  generalize hd : (norm x)⁻¹ = d at h1
  rw [norm] at h1
  ext
  · simp only [mul_lo, inv_lo, inv_hi, one_lo, hd]
    linear_combination h1
  · simp only [mul_hi, inv_lo, inv_hi, one_hi, hd]
    linear_combination L.char2 (x.lo * x.hi * d) + L.char2 (x.hi * x.hi * d * L.α)

instance : Field (Ext L) where
  inv := Inv.inv
  exists_pair_ne := ⟨0, 1, fun h => zero_ne_one (congrArg Ext.lo h)⟩
  mul_inv_cancel _ hx := mul_inv hx
  inv_zero := by ext <;> simp
  nnqsmul := _
  nnqsmul_def _ _ := rfl
  qsmul := _
  qsmul_def _ _ := rfl

end Ext

/-- The next level. -/
def next (L : Level) : Level where
  K := Ext L
  α := ⟨0, 1⟩
  tr :=
    { toFun := fun x => L.tr (x.hi * L.α)
      map_zero' := by simp
      map_add' := fun x y => by simp [add_mul] }
  char2 x := Ext.ext (L.char2 x.lo) (L.char2 x.hi)
  tr_sq x := by
    show L.tr ((x * x).hi * L.α) = L.tr (x.hi * L.α)
    rw [← L.tr_sq (x.hi * L.α), Ext.mul_hi, mul_comm x.hi x.lo, L.char2, zero_add]
    congr 1; ring
  tr_α := by
    show L.tr (1 * L.α) = 1
    rw [one_mul, L.tr_α]
  tr_inv := by
    show L.tr ((Ext.norm ⟨0, 1⟩)⁻¹ * 1 * L.α) = 1
    have : Ext.norm (L := L) ⟨0, 1⟩ = 1 := by simp [Ext.norm]
    rw [this, inv_one, one_mul, one_mul, L.tr_α]

/-- The levels of the tower. -/
def level : ℕ → Level
  | 0 =>
    { K := ZMod 2
      field := haveI : Fact (Nat.Prime 2) := ⟨Nat.prime_two⟩; inferInstance
      α := 1
      tr := AddMonoidHom.id _
      char2 := by decide
      tr_sq := by decide
      tr_α := rfl
      tr_inv := by
        have : Fact (Nat.Prime 2) := ⟨Nat.prime_two⟩
        exact inv_one }
  | n + 1 => next (level n)

/-- The element of level `n` that a machine value stands for: bit `0` at level zero, and the low and the
high half of the bits above. -/
def val : (n : ℕ) → ℕ → (level n).K
  | 0, v => (v : ZMod 2)
  | n + 1, v => (⟨val n (v % 2 ^ 2 ^ n), val n (v / 2 ^ 2 ^ n)⟩ : Ext (level n))

end Tachyon.Binary
