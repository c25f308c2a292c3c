import Verif.Proofs.SmallField
import Verif.Proofs.PrimeModuli
/-!
# Property C12: the 32-bit prime fields (Mersenne31, BabyBear, KoalaBear, GF7, the M31 scalar ring)
-/
namespace Tachyon.Props
open Tachyon.SmallField

/-- The configurations in the repository whose addition and subtraction are covered: the default
`Reduce(uint32_t)` with any modulus up to `2^31`, and the specialised ones. -/
inductive IsConfig : Config → Prop
  | default (m : BitVec 32) (h0 : 0 < m.toNat) (h1 : m.toNat ≤ 2 ^ 31) : IsConfig (montConfig m)
  | mersenne31 : IsConfig mersenne31
  | m31Scalar : IsConfig m31Scalar
  | gf7 : IsConfig gf7

theorem IsConfig.reduces {c : Config} (h : IsConfig c) : c.Reduces := by
  cases h with
  | default m h0 h1 => exact montConfig_reduces m h0 h1
  | mersenne31 => exact mersenne31_reduces
  | m31Scalar => exact m31Scalar_reduces
  | gf7 => exact gf7_reduces

/-- C12: addition of canonical words is addition modulo `m`, canonical. -/
theorem C12_add {c : Config} (h : IsConfig c) (a b : BitVec 32)
    (ha : a.toNat < c.modulus.toNat) (hb : b.toNat < c.modulus.toNat) :
    (addMod c a b).toNat = (a.toNat + b.toNat) % c.modulus.toNat :=
  addMod_spec h.reduces a b ha hb

/-- C12: subtraction of canonical words is subtraction modulo `m`, canonical. -/
theorem C12_sub {c : Config} (h : IsConfig c) (a b : BitVec 32)
    (ha : a.toNat < c.modulus.toNat) (hb : b.toNat < c.modulus.toNat) :
    ((subMod c a b).toNat : Int) = ((a.toNat : Int) - b.toNat) % c.modulus.toNat := by
  rw [subMod_spec h.reduces a b ha hb, int_sub_mod hb.le]

/-- C12: negation of a canonical word is negation modulo `m`, canonical (so `-0 = 0`). -/
theorem C12_negate {c : Config} (h : IsConfig c) (a : BitVec 32)
    (ha : a.toNat < c.modulus.toNat) :
    ((negate c a).toNat : Int) = -(a.toNat : Int) % c.modulus.toNat := by
  have := C12_sub h 0#32 a (by simpa using h.reduces.pos) ha
  simpa [negate] using this

example : addMod mersenne31 2147483646#32 5#32 = 4#32 ∧ subMod (montConfig 7#32) 2#32 5#32 = 4#32 ∧
    negate (montConfig 2013265921#32) 0#32 = 0#32 ∧ negate m31Scalar 1#32 = 2147483647#32 := by
  decide

/-- C12: Mersenne31 multiplication. -/
theorem C12_mul_mersenne31 (a b : BitVec 32) (ha : a.toNat < 2 ^ 31 - 1)
    (hb : b.toNat < 2 ^ 31 - 1) :
    (mul mersenne31 a b).toNat = a.toNat * b.toNat % (2 ^ 31 - 1) := by
  rw [mul, mersenne31_reduce64 _ (by
    rw [mul_toNat, sq]
    exact Nat.mul_lt_mul'' ha hb), mul_toNat]

/-- C12: multiplication in the M31 circle scalar ring, for all words. -/
theorem C12_mul_m31Scalar (a b : BitVec 32) :
    (mul m31Scalar a b).toNat = a.toNat * b.toNat % 2 ^ 31 := by
  rw [mul, m31Scalar_reduce64, mul_toNat]

/-- C12: GF7 multiplication. -/
theorem C12_mul_gf7 (a b : BitVec 32) (ha : a.toNat < 7) (hb : b.toNat < 7) :
    (mul gf7 a b).toNat = a.toNat * b.toNat % 7 := by
  have : a.toNat * b.toNat < 7 * 7 := Nat.mul_lt_mul'' ha hb
  rw [mul, gf7_reduce64 _ (by rw [mul_toNat]; omega), mul_toNat]

example : mul mersenne31 2147483646#32 2147483646#32 = 1#32 ∧ mul gf7 5#32 6#32 = 2#32 ∧
    mul m31Scalar 2147483647#32 3#32 = 2147483645#32 := by decide

/-- C12 (disagreement): the generator's default `Reduce(uint64_t)` is a single conditional
subtraction, so a plain-representation field that keeps the default multiplies wrongly. All plain
fields in the repository override it. -/
theorem C12_default_reduce64_wrong :
    ∃ m a b : BitVec 32, a.toNat < m.toNat ∧ b.toNat < m.toNat ∧ m.toNat.Prime ∧
      (mul (montConfig m) a b).toNat ≠ a.toNat * b.toNat % m.toNat :=
  ⟨7#32, 5#32, 6#32, by decide, by decide, by decide, by decide⟩

/-- C12: `Inverse` of the plain representation. For a canonical non-zero word coprime to the modulus
the extended Euclid loop terminates without signed overflow and the result is the canonical
inverse. -/
theorem C12_inverse (c : Config) (a : BitVec 32) (h0 : a.toNat ≠ 0)
    (ha : a.toNat < c.modulus.toNat) (hc : Nat.Coprime a.toNat c.modulus.toNat) :
    ∃ r, inverse c a = some (some r) ∧ r.toNat < c.modulus.toNat ∧
      a.toNat * r.toNat % c.modulus.toNat = 1 :=
  (inverse_spec c a h0 ha (by omega)).1 hc

/-- C12: `Inverse` returns `nullopt` exactly for zero and zero divisors. -/
theorem C12_inverse_none (c : Config) (a : BitVec 32) (ha : a.toNat < c.modulus.toNat)
    (h1 : 1 < c.modulus.toNat) :
    inverse c a = some none ↔ ¬ Nat.Coprime a.toNat c.modulus.toNat := by
  by_cases h0 : a.toNat = 0
  · have e : a = 0#32 := BitVec.eq_of_toNat_eq (by simpa using h0)
    subst e
    simp [inverse, Nat.coprime_zero_left]
    omega
  · obtain ⟨k1, k2⟩ := inverse_spec c a h0 ha h1
    refine ⟨fun h hc => ?_, k2⟩
    obtain ⟨r, hr, _⟩ := k1 hc
    rw [h] at hr
    simp at hr

example : inverse mersenne31 3#32 = some (some 1431655765#32) ∧ inverse gf7 0#32 = some none ∧
    inverse m31Scalar 6#32 = some none ∧ inverse m31Scalar 5#32 = some (some 1288490189#32) := by
  decide +kernel

/-- C12: conversion into the Montgomery representation and back is the identity, and the stored
word is canonical. -/
theorem C12_mont_roundtrip (m v : BitVec 32) (hodd : m.toNat % 2 = 1) (hv : v.toNat < m.toNat) :
    (montOf m v).toNat < m.toNat ∧ montToInt m (montOf m v) = v := by
  have e := toMontgomery_spec m v (by omega)
  refine ⟨by rw [montOf, e]; exact Nat.mod_lt _ (by omega), BitVec.eq_of_toNat_eq ?_⟩
  rw [montToInt_eq m _ hodd v.toNat (by rw [montOf, e]; exact Nat.mod_modEq _ _),
    Nat.mod_eq_of_lt hv]

/-- C12: the 64-bit `ToMontgomery` converts every 64-bit integer to its residue. -/
theorem C12_mont_of_uint64 (m : BitVec 32) (v : BitVec 64) (hodd : m.toNat % 2 = 1) :
    (toMontgomery64 m v).toNat < m.toNat ∧
      (montToInt m (toMontgomery64 m v)).toNat = v.toNat % m.toNat := by
  have e := toMontgomery64_spec m v (by omega)
  exact ⟨by rw [e]; exact Nat.mod_lt _ (by omega),
    montToInt_eq m _ hodd v.toNat (by rw [e]; exact Nat.mod_modEq _ _)⟩

/-- C12: distinct canonical words denote distinct residues, so `==` on words is equality of field
elements. -/
theorem C12_mont_injective (m a b : BitVec 32) (hodd : m.toNat % 2 = 1) (ha : a.toNat < m.toNat)
    (hb : b.toNat < m.toNat) (h : montToInt m a = montToInt m b) : a = b := by
  obtain ⟨_, a2⟩ := montToInt_spec m a hodd
  obtain ⟨_, b2⟩ := montToInt_spec m b hodd
  rw [h] at a2
  exact BitVec.eq_of_toNat_eq (Nat.ModEq.eq_of_lt_of_lt (a2.symm.trans b2) ha hb)

/-- C12: the operations on Montgomery words are the operations of `ℤ/m` on the numbers they denote:
addition, subtraction, negation, multiplication, one, comparison; results are canonical. -/
theorem C12_mont_ops (m a b : BitVec 32) (hodd : m.toNat % 2 = 1) (hm : m.toNat ≤ 2 ^ 31)
    (ha : a.toNat < m.toNat) (hb : b.toNat < m.toNat) :
    let c := montConfig m
    let d := fun x => (montToInt m x).toNat
    (d (addMod c a b) = (d a + d b) % m.toNat ∧ (addMod c a b).toNat < m.toNat) ∧
    ((d (subMod c a b) : Int) = ((d a : Int) - d b) % m.toNat ∧ (subMod c a b).toNat < m.toNat) ∧
    ((d (negate c a) : Int) = -(d a : Int) % m.toNat ∧ (negate c a).toNat < m.toNat) ∧
    (d (montMul m a b) = d a * d b % m.toNat ∧ (montMul m a b).toNat < m.toNat) ∧
    (d (montOne m) = 1 % m.toNat ∧ (montOne m).toNat < m.toNat) ∧
    (montLt m a b = true ↔ d a < d b) := by
  have hc : (montConfig m).Reduces := montConfig_reduces m (by omega) hm
  obtain ⟨a1, a2⟩ := montToInt_spec m a hodd
  obtain ⟨b1, b2⟩ := montToInt_spec m b hodd
  have hpos : 0 < m.toNat := by omega
  have hsub : ∀ x : BitVec 32, x.toNat < m.toNat →
      ((montToInt m (subMod (montConfig m) x b)).toNat : Int) =
        (((montToInt m x).toNat : Int) - (montToInt m b).toNat) % m.toNat ∧
      (subMod (montConfig m) x b).toNat < m.toNat := by
    intro x hx
    have e := subMod_spec hc x b hx hb
    change _ = (x.toNat + (m.toNat - b.toNat)) % m.toNat at e
    refine ⟨?_, by rw [e]; exact Nat.mod_lt _ hpos⟩
    rw [← int_sub_mod b1.le]
    obtain ⟨_, x2⟩ := montToInt_spec m x hodd
    congr 1
    apply montToInt_eq m _ hodd
    rw [e]
    refine (Nat.mod_modEq _ _).trans ?_
    rw [Nat.add_mul]
    refine x2.symm.add ?_
    apply Nat.ModEq.add_right_cancel b2.symm
    rw [← Nat.add_mul, Nat.sub_add_cancel b1.le, Nat.sub_add_cancel hb.le]
    simp [Nat.ModEq]
  refine ⟨⟨?_, ?_⟩, hsub a ha, ?_, ⟨montMul_denotes m a b hodd ha, (montMul_spec m a b hodd ha).1⟩,
    ⟨(montOne_denotes m hodd).2, (montOne_denotes m hodd).1⟩, by simp [montLt]⟩
  · apply montToInt_eq m _ hodd
    rw [addMod_spec hc a b ha hb, Nat.add_mul]
    exact (Nat.mod_modEq _ _).trans (a2.symm.add b2.symm)
  · rw [addMod_spec hc a b ha hb]; exact Nat.mod_lt _ hpos
  · have e := subMod_spec hc 0#32 a (show (0#32).toNat < m.toNat by simpa using hpos) ha
    change _ = (0 + (m.toNat - a.toNat)) % m.toNat at e
    refine ⟨?_, by rw [negate, e]; exact Nat.mod_lt _ hpos⟩
    have := int_sub_mod (a := 0) a1.le
    rw [Nat.cast_zero, zero_sub] at this
    rw [← this]
    congr 1
    apply montToInt_eq m _ hodd
    rw [negate, e, Nat.zero_add, Nat.zero_add]
    refine (Nat.mod_modEq _ _).trans ?_
    apply Nat.ModEq.add_right_cancel a2.symm
    rw [← Nat.add_mul, Nat.sub_add_cancel a1.le, Nat.sub_add_cancel ha.le]
    simp [Nat.ModEq]

-- BabyBear: (2 + 3, 2 * 3, -1) through the stored words
example :
    let m := 2013265921#32
    montToInt m (addMod (montConfig m) (montOf m 2#32) (montOf m 3#32)) = 5#32 ∧
    montToInt m (montMul m (montOf m 2#32) (montOf m 3#32)) = 6#32 ∧
    montToInt m (negate (montConfig m) (montOne m)) = 2013265920#32 := by
  decide +kernel

/-- C12: `Inverse` of the Montgomery representation for every odd prime modulus; `nullopt` exactly
at zero. -/
theorem C12_mont_inverse (m a : BitVec 32) (hp : m.toNat.Prime) (hodd : m.toNat % 2 = 1)
    (ha : a.toNat < m.toNat) :
    (a = 0#32 → montInverse m a = none) ∧
    (a ≠ 0#32 → ∃ r, montInverse m a = some r ∧ r.toNat < m.toNat ∧
      (montToInt m a).toNat * (montToInt m r).toNat % m.toNat = 1) := by
  refine ⟨fun h => by simp [montInverse, h], fun h => montInverse_spec m a hp hodd ha ?_⟩
  intro h0
  exact h (BitVec.eq_of_toNat_eq (by simpa using h0))

example : (montInverse 2013265921#32 (montOf 2013265921#32 2#32)).map (montToInt 2013265921#32) =
    some 1006632961#32 := by decide +kernel

/-- C12: the moduli of the repository's Montgomery fields (BabyBear, KoalaBear) are odd primes
below `2^31`, so the theorems above apply to them. -/
theorem C12_moduli : (2013265921#32).toNat.Prime ∧ (2130706433#32).toNat.Prime ∧
    (2147483647#32).toNat.Prime :=
  ⟨prime_babyBear, prime_koalaBear, prime_mersenne31⟩

end Tachyon.Props
