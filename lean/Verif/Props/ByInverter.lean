import Verif.Proofs.ByInverter
import Verif.Proofs.PrimeField
/-!
# Property C11: inversion by division steps (`BYInverter`, used by `PrimeField::Inverse`)
-/
namespace Tachyon.Props
open Tachyon.BigInt (Limbs)

/-- C11: for every odd modulus and every adjusting parameter less than it, the inverter ends on every input, with
no signed overflow on the way. If the input is coprime to the modulus it returns the number less than the modulus
whose product with the input is the parameter modulo the modulus, otherwise it returns `false`. -/
theorem C11_by (m a x : Limbs 64) (hn : m.length < 2 ^ 50) (ha : a.length = m.length) (hx : x.length = m.length)
    (hodd : limbsVal m % 2 = 1) (ham : limbsVal a < limbsVal m) :
    (Nat.Coprime (limbsVal m) (limbsVal x) → ∃ r, (BY.Inverter.new m a).invert x = some (some r) ∧ r.length = m.length ∧
      limbsVal r < limbsVal m ∧ limbsVal r * limbsVal x % limbsVal m = limbsVal a) ∧
    (¬ Nat.Coprime (limbsVal m) (limbsVal x) → (BY.Inverter.new m a).invert x = some none) :=
  ⟨(BY.invert_spec hn ha hx hodd ham).2, (BY.invert_spec hn ha hx hodd ham).1⟩

/-- C11: in a prime field `Inverse` of a non-zero stored element returns the canonical stored element whose field product
with it is `One`. -/
theorem C11_inverse (m x : Limbs 64) (hn : m.length < 2 ^ 50) (hodd : limbsVal m % 2 = 1) (hprime : (limbsVal m).Prime)
    (hx : x.length = m.length) (hxm : limbsVal x < limbsVal m) (h0 : limbsVal x ≠ 0) :
    ∃ r, BY.inverse m x = some (some r) ∧ r.length = m.length ∧ limbsVal r < limbsVal m ∧
      PrimeField.mul m x r = PrimeField.one m := by
  have hcop : Nat.Coprime (limbsVal m) (limbsVal x) :=
    (Nat.Prime.coprime_iff_not_dvd hprime).2 (fun h => by have := Nat.le_of_dvd (by omega) h; omega)
  obtain ⟨k1, k2⟩ := BigInt.montgomeryRk_spec (w := 64) (by omega) 2 (by omega) m (by omega)
  obtain ⟨r, e1, e2, e3, e4⟩ := (C11_by m (BigInt.montgomeryRk 2 m) x hn k2 hx hodd
    (by rw [k1]; exact Nat.mod_lt _ (by omega))).1 hcop
  refine ⟨r, e1, e2, e3, ?_⟩
  obtain ⟨p1, p2, p3⟩ := PrimeField.mul_spec (by omega) m x r hodd hx e2 hxm
  obtain ⟨o1, o2⟩ := BigInt.montgomeryRk_spec (w := 64) (by omega) 1 (by omega) m (by omega)
  refine limbsVal_inj (by rw [PrimeField.one]; omega) (PrimeField.cancel_R m hodd ?_ p1
    (by rw [PrimeField.one, o1]; exact Nat.mod_lt _ (by omega)))
  refine p2.trans ?_
  have h : limbsVal x * limbsVal r ≡ limbsVal (BigInt.montgomeryRk 2 m) [MOD limbsVal m] := by
    rw [Nat.mul_comm, ← e4]
    exact (Nat.mod_modEq _ _).symm
  refine h.trans ?_
  rw [k1, PrimeField.one, o1, pow_one]
  refine (Nat.mod_modEq _ _).trans ?_
  rw [pow_two]
  exact (Nat.mod_modEq _ _).symm.mul_left _

/-- C11: `Inverse` returns `nullopt` exactly for zero. -/
theorem C11_inverse_zero (m x : Limbs 64) (hn : m.length < 2 ^ 50) (hodd : limbsVal m % 2 = 1) (hprime : (limbsVal m).Prime)
    (hx : x.length = m.length) (hxm : limbsVal x < limbsVal m) : BY.inverse m x = some none ↔ limbsVal x = 0 := by
  constructor
  · intro h
    by_contra h0
    obtain ⟨r, e1, _⟩ := C11_inverse m x hn hodd hprime hx hxm h0
    rw [h] at e1
    cases e1
  · intro h
    obtain ⟨k1, k2⟩ := BigInt.montgomeryRk_spec (w := 64) (by omega) 2 (by omega) m (by omega)
    refine (C11_by m (BigInt.montgomeryRk 2 m) x hn k2 hx hodd (by rw [k1]; exact Nat.mod_lt _ (by omega))).2 ?_
    rw [h, Nat.coprime_zero_right]
    exact hprime.ne_one

-- the scalar field of bn254, with the first input of `byinverter_unittest.cc`
example : (BY.Inverter.new [0x43e1f593f0000001#64, 0x2833e84879b97091#64, 0xb85045b68181585d#64, 0x30644e72e131a029#64]
      [1#64, 0#64, 0#64, 0#64]).invert
      [0x22fa4a1c6ac654be#64, 0xaad58055e378d489#64, 0xf44a10b39ecef4c3#64, 0x16c68ba779cfe550#64] =
    some (some [0xc39e9a3be7f440c8#64, 0x9b9c45bc572d9f6a#64, 0xfcfed101896a8a61#64, 0x2be977e2a6bb029c#64]) := by
  decide +kernel
-- a composite modulus
example : (BY.Inverter.new [0x43e1f593f0000003#64, 0x2833e84879b97091#64, 0xb85045b68181585d#64, 0x30644e72e131a029#64]
      [1#64, 0#64, 0#64, 0#64]).invert
      [0x5a0e5ca38bc5cb15#64, 0x1a3edb882394d96f#64, 0x262617f5abf1ca7f#64, 0x5c1d11f1250475f#64] = some none := by
  decide +kernel
-- 101 in one limb, in Montgomery form
example : BY.inverse [101#64] [7#64] = some (some [98#64]) := by decide +kernel
example : PrimeField.mul [101#64] [7#64] [98#64] = PrimeField.one [101#64] := by decide +kernel
example : BY.inverse [101#64] [0#64] = some none := by decide +kernel

end Tachyon.Props
