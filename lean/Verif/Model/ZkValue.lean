import Mathlib.Algebra.Field.Defs
/-! `Value` (`zk/base/value.h`): a field element that is not known while keys are made. The operations in place are those that are not. What `Field` adds
(quotients and powers) is not modelled. -/
namespace Tachyon.ZkValue

variable {F : Type}

/-- `value_` (value.h:164). -/
abbrev Value (F : Type) := Option F

/-- `IsZero` (value.h:37-40). -/
def isZero [Field F] [DecidableEq F] (a : Value F) : Bool :=
  match a with
  | none => false
  | some x => x == 0

/-- `IsOne` (value.h:42-45). -/
def isOne [Field F] [DecidableEq F] (a : Value F) : Bool :=
  match a with
  | none => false
  | some x => x == 1

/-- `operator==` (value.h:59-63). -/
def eq [DecidableEq F] (a b : Value F) : Bool :=
  match a with
  | none => b.isNone
  | some x =>
    match b with
    | none => false
    | some y => x == y

/-- `operator!=` (value.h:64-66), which calls itself: what it returns with at most `depth` calls. -/
def ne (a b : Value F) : ℕ → Option Bool
  | 0 => none
  | depth + 1 => ne a b depth

/-- `Add` (value.h:75-78). -/
def add [Field F] (a b : Value F) : Value F :=
  match a, b with
  | some x, some y => some (x + y)
  | _, _ => none

/-- `Add` with an element (value.h:80-83). -/
def addElem [Field F] (a : Value F) (y : F) : Value F :=
  match a with
  | none => none
  | some x => some (x + y)

/-- `DoubleImpl` (value.h:85-94). -/
def double [Field F] (a : Value F) : Value F :=
  match a with
  | none => none
  | some x => some (x + x)

/-- `Sub` (value.h:97-100). -/
def sub [Field F] (a b : Value F) : Value F :=
  match a, b with
  | some x, some y => some (x - y)
  | _, _ => none

/-- `Sub` with an element (value.h:102-105). -/
def subElem [Field F] (a : Value F) (y : F) : Value F :=
  match a with
  | none => none
  | some x => some (x - y)

/-- `Negate` (value.h:107-116). -/
def negate [Field F] (a : Value F) : Value F :=
  match a with
  | none => none
  | some x => some (-x)

/-- `Mul` (value.h:119-122). -/
def mul [Field F] (a b : Value F) : Value F :=
  match a, b with
  | some x, some y => some (x * y)
  | _, _ => none

/-- `Mul` with an element (value.h:124-127). -/
def mulElem [Field F] (a : Value F) (y : F) : Value F :=
  match a with
  | none => none
  | some x => some (x * y)

/-- `SquareImpl` (value.h:129-138). -/
def square [Field F] (a : Value F) : Value F :=
  match a with
  | none => none
  | some x => some (x * x)

/-- `Inverse` (value.h:141-154): `none` is `std::nullopt`. -/
def inverse [Field F] [DecidableEq F] (a : Value F) : Option (Value F) :=
  match a with
  | none => some none
  | some x => if x = 0 then none else some (some x⁻¹)

/-- A term in values. -/
inductive Term (F : Type)
  | var (i : ℕ)
  | known (x : F)
  | add (a b : Term F)
  | addElem (a : Term F) (y : F)
  | double (a : Term F)
  | sub (a b : Term F)
  | subElem (a : Term F) (y : F)
  | negate (a : Term F)
  | mul (a b : Term F)
  | mulElem (a : Term F) (y : F)
  | square (a : Term F)
  | inverse (a : Term F)

/-- What a program computes for a term; `none` is the `std::nullopt` of an inverse. -/
def Term.run [Field F] [DecidableEq F] (s : ℕ → Value F) : Term F → Option (Value F)
  | .var i => some (s i)
  | .known x => some (some x)
  | .add a b => (a.run s).bind fun x => (b.run s).map fun y => ZkValue.add x y
  | .addElem a y => (a.run s).map fun x => ZkValue.addElem x y
  | .double a => (a.run s).map ZkValue.double
  | .sub a b => (a.run s).bind fun x => (b.run s).map fun y => ZkValue.sub x y
  | .subElem a y => (a.run s).map fun x => ZkValue.subElem x y
  | .negate a => (a.run s).map ZkValue.negate
  | .mul a b => (a.run s).bind fun x => (b.run s).map fun y => ZkValue.mul x y
  | .mulElem a y => (a.run s).map fun x => ZkValue.mulElem x y
  | .square a => (a.run s).map ZkValue.square
  | .inverse a => (a.run s).bind ZkValue.inverse

end Tachyon.ZkValue
