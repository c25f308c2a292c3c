import Verif.Proofs.Inverse
/-!
# Property C11: inversion by the binary extended Euclid loop (`BigInt::MontgomeryInverse`)
-/
namespace Tachyon.Props
open Tachyon.BigInt

variable {w : Nat}

/-- C11: for an odd prime modulus and a non-zero stored element the loop terminates and returns
the stored word whose field product with the input is `One`; it is canonical. -/
theorem C11_bea_inverse (hw : 0 < w) (m x : List (BitVec w)) (hodd : limbsVal m % 2 = 1)
    (hprime : (limbsVal m).Prime)
    (hx : x.length = m.length) (hxm : limbsVal x < limbsVal m) (h0 : limbsVal x ≠ 0) :
    ∃ r, montgomeryInverse (hasSpareBit m) m (montgomeryRk 2 m) x = some (some r) ∧
      r.length = m.length ∧ limbsVal r < limbsVal m ∧
      PrimeField.mul m x r = PrimeField.one m := by
  have hcop : Nat.Coprime (limbsVal x) (limbsVal m) :=
    ((Nat.Prime.coprime_iff_not_dvd hprime).2 (fun h => by
      have := Nat.le_of_dvd (by omega) h; omega)).symm
  obtain ⟨k1, k2⟩ := montgomeryRk_spec hw 2 (by omega) m (by omega)
  obtain ⟨r, e1, e2, e3, e4⟩ := montgomeryInverse_spec hw (hasSpareBit m) m (montgomeryRk 2 m) x
    hodd (hasSpareBit_spec hw m) hx k2 (by rw [k1]; exact Nat.mod_lt _ (by omega)) (by omega) hcop
  refine ⟨r, e1, e2, e3, ?_⟩
  obtain ⟨p1, p2, p3⟩ := PrimeField.mul_spec hw m x r hodd hx e2 hxm
  obtain ⟨o1, o2⟩ := montgomeryRk_spec hw 1 (by omega) m (by omega)
  refine limbsVal_inj (by rw [PrimeField.one]; omega) (PrimeField.cancel_R m hodd ?_ p1
    (by rw [PrimeField.one, o1]; exact Nat.mod_lt _ (by omega)))
  refine (p2.trans e4).trans ?_
  rw [k1, PrimeField.one, o1, pow_one]
  refine (Nat.mod_modEq _ _).trans ?_
  rw [pow_two]
  exact (Nat.mod_modEq _ _).symm.mul_left _

/-- C11: inversion fails (returns `false`) exactly on zero. -/
theorem C11_bea_zero (hw : 0 < w) (m x : List (BitVec w)) (hodd : limbsVal m % 2 = 1)
    (hprime : (limbsVal m).Prime)
    (hx : x.length = m.length) (hxm : limbsVal x < limbsVal m) :
    montgomeryInverse (hasSpareBit m) m (montgomeryRk 2 m) x = some none ↔ limbsVal x = 0 := by
  constructor
  · intro h
    by_contra h0
    obtain ⟨r, e1, _⟩ := C11_bea_inverse hw m x hodd hprime hx hxm h0
    rw [h] at e1; simp at e1
  · intro h
    rw [montgomeryInverse, isZero_spec]
    simp [h]

/-- C11: for an operand that has a common divisor with the odd modulus the binary extended Euclid never ends: however
many iterations are made, the condition of the loop still holds. -/
theorem C11_bea_diverges (hw : 0 < w) (m x b c : List (BitVec w)) (spare : Bool) (hodd : limbsVal m % 2 = 1)
    (hx : x.length = m.length) (h : ¬ Nat.Coprime (limbsVal x) (limbsVal m)) (fuel : Nat) :
    inverseLoop spare m fuel x m b c = none := by
  have hd := Nat.gcd_dvd_right (limbsVal x) (limbsVal m)
  refine inverseLoop_none hw spare m (p := Nat.gcd (limbsVal x) (limbsVal m)) h ?_ fuel x m b c hx (Nat.gcd_dvd_left _ _) hd
  obtain ⟨k, hk⟩ := hd
  by_contra hne
  rw [hk, Nat.mul_mod, show Nat.gcd (limbsVal x) (limbsVal m) % 2 = 0 by omega] at hodd
  simp at hodd

-- 3 and 9
example : ¬ Nat.Coprime (limbsVal [0x3#4]) (limbsVal [0x9#4]) := by decide
-- 251 is a prime without spare bit on two 4-bit words
example : montgomeryInverse (hasSpareBit [0xb#4, 0xf#4]) [0xb#4, 0xf#4]
    (montgomeryRk 2 [0xb#4, 0xf#4]) [0x6#4, 0x3#4] = some (some [0x1#4, 0x2#4]) := by decide +kernel
example : PrimeField.mul [0xb#4, 0xf#4] [0x6#4, 0x3#4] [0x1#4, 0x2#4] =
    PrimeField.one [0xb#4, 0xf#4] := by decide
example : Nat.Prime (limbsVal [0xb#4, 0xf#4]) := by decide +kernel

end Tachyon.Props
