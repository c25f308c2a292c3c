import Verif.Proofs.PrimeField
import Verif.Proofs.Split32
/-!
# Properties C07-C10: Montgomery prime fields

`limbsVal m` is the modulus `p`, `R = 2 ^ (w * N)`.
-/
namespace Tachyon.Props
open Tachyon.BigInt

variable {w : Nat}

/-- C07: the constant computed by `Modulus::Inverse` is `-p^{-1} mod 2^w`, for every odd modulus. -/
theorem C07_inverse_constant (hw : 0 < w) (m0 : BitVec w) (ms : List (BitVec w))
    (hodd : limbsVal (m0 :: ms) % 2 = 1) :
    2 ^ w ∣ limbsVal (m0 :: ms) * (modulusInverse m0).toNat + 1 := by
  rw [limbsVal_mod_two hw] at hodd
  have h := modulusInverse_spec hw m0 hodd
  have e : limbsVal (m0 :: ms) * (modulusInverse m0).toNat + 1 =
      2 ^ w * (limbsVal ms * (modulusInverse m0).toNat) + (m0.toNat * (modulusInverse m0).toNat + 1) := by
    rw [limbsVal_cons]; ring
  rw [e]
  exact Nat.dvd_add (Dvd.intro _ rfl) h

/-- C07: `MontgomeryReduce` returns the canonical `r` with `r * R ≡ T (mod p)` for every
double-width `T < p * R`, with and without a spare bit. -/
theorem C07_montgomeryReduce (hw : 0 < w) (m0 : BitVec w) (ms r : List (BitVec w))
    (hodd : limbsVal (m0 :: ms) % 2 = 1)
    (hlen : r.length = 2 * (m0 :: ms).length)
    (hr : limbsVal r < limbsVal (m0 :: ms) * 2 ^ (w * (m0 :: ms).length)) :
    let out := montgomeryReduce (hasSpareBit (m0 :: ms)) (m0 :: ms) (modulusInverse m0) r
    limbsVal out < limbsVal (m0 :: ms) ∧
    limbsVal out * 2 ^ (w * (m0 :: ms).length) ≡ limbsVal r [MOD limbsVal (m0 :: ms)] ∧
    out.length = (m0 :: ms).length := by
  rw [limbsVal_mod_two hw] at hodd
  have := montgomeryReduce_spec hw (hasSpareBit (m0 :: ms)) m0 ms (modulusInverse m0) r
    (modulusInverse_spec hw m0 hodd) hlen (hasSpareBit_spec hw _) (by rwa [Nat.mul_comm])
  exact ⟨this.1, by rw [Nat.mul_comm]; exact this.2.1, this.2.2⟩

/-- C07, the 32-bit entry point on 64-bit limbs. -/
theorem C07_montgomeryReduce32 (m r : List (BitVec 64)) (inv : BitVec 32)
    (hinv : 2 ^ 32 ∣ limbsVal m * inv.toNat + 1) (hm : m ≠ [])
    (hlen : r.length = 2 * m.length)
    (hr : limbsVal r < 2 ^ (64 * m.length) * limbsVal m) :
    limbsVal (montgomeryReduce32 (hasSpareBit m) m inv r) < limbsVal m ∧
    2 ^ (64 * m.length) * limbsVal (montgomeryReduce32 (hasSpareBit m) m inv r)
      ≡ limbsVal r [MOD limbsVal m] ∧
    (montgomeryReduce32 (hasSpareBit m) m inv r).length = m.length :=
  montgomeryReduce32_spec _ m inv r hinv hm hlen (hasSpareBit_spec (by omega) m) hr

-- p = 15 * 16 + 11 = 251 without a spare bit, on 4-bit words
example : montgomeryReduce (hasSpareBit [0xb#4, 0xf#4]) [0xb#4, 0xf#4] (modulusInverse 0xb#4)
    [0xf#4, 0xf#4, 0xf#4, 0xe#4] = [0x7#4, 0x2#4] := by decide
example : hasSpareBit [0xb#4, 0xf#4] = false ∧ hasSpareBit [0xb#4, 0x7#4] = true := by decide

/-- C08: the product of two stored elements is canonical and `R * (a*b)_stored ≡ a * b (mod p)`,
whichever path (`DoFastMul` or `DoSlowMul`) the modulus selects. -/
theorem C08_mul (hw : 0 < w) (m a b : List (BitVec w)) (hodd : limbsVal m % 2 = 1)
    (hla : a.length = m.length) (hlb : b.length = m.length)
    (ha : limbsVal a < limbsVal m) (_hb : limbsVal b < limbsVal m) :
    limbsVal (PrimeField.mul m a b) < limbsVal m ∧
    2 ^ (w * m.length) * limbsVal (PrimeField.mul m a b) ≡ limbsVal a * limbsVal b
      [MOD limbsVal m] ∧
    (PrimeField.mul m a b).length = m.length :=
  PrimeField.mul_spec hw m a b hodd hla hlb ha

/-- C08: the dedicated squaring stores exactly the same word as multiplication by itself. -/
theorem C08_square (hw : 0 < w) (m a : List (BitVec w)) (hodd : limbsVal m % 2 = 1)
    (hla : a.length = m.length) (ha : limbsVal a < limbsVal m) :
    PrimeField.square m a = PrimeField.mul m a a := by
  obtain ⟨h1, h2, h3⟩ := PrimeField.square_spec hw m a hodd hla ha
  obtain ⟨g1, g2, g3⟩ := PrimeField.mul_spec hw m a a hodd hla hla ha
  exact limbsVal_inj (by omega) (PrimeField.cancel_R m hodd (h2.trans g2.symm) h1 g1)

/-- C08: the no-carry path and the general path store the same word whenever the modulus has a
spare bit (so in particular whenever the code takes the fast path). -/
theorem C08_fast_eq_slow (hw : 0 < w) (m a b : List (BitVec w)) (hodd : limbsVal m % 2 = 1)
    (hspare : hasSpareBit m = true)
    (hla : a.length = m.length) (hlb : b.length = m.length)
    (ha : limbsVal a < limbsVal m) (_hb : limbsVal b < limbsVal m) :
    fastMul true m (PrimeField.kInverse m) a b = slowMul true m (PrimeField.kInverse m) a b := by
  have hodd' := hodd
  obtain ⟨m0, ms, rfl, h0⟩ := PrimeField.odd_cons hw hodd
  have hs := hasSpareBit_spec hw _ hspare
  obtain ⟨h1, h2, h3⟩ := fastMul_spec hw true m0 ms _ a b (PrimeField.kInverse_spec hw h0) hla hlb
    hs ha
  obtain ⟨g1, g2, g3⟩ := slowMul_spec hw true m0 ms _ a b (PrimeField.kInverse_spec hw h0) hla hlb
    (fun _ => hs) ha
  exact limbsVal_inj (by omega) (PrimeField.cancel_R _ hodd' (h2.trans g2.symm) h1 g1)

-- the hypotheses are met by a modulus of each kind (fast path, slow path)
example : canUseNoCarry [0xb#4, 0x5#4] = true ∧ canUseNoCarry [0xb#4, 0xf#4] = false ∧
    PrimeField.mul [0xb#4, 0x5#4] [0xa#4, 0x5#4] [0xa#4, 0x5#4] = [0x0#4, 0x1#4] ∧
    PrimeField.square [0xb#4, 0xf#4] [0xa#4, 0xf#4] =
      PrimeField.mul [0xb#4, 0xf#4] [0xa#4, 0xf#4] [0xa#4, 0xf#4] := by decide

/-- C09: converting to Montgomery form and back returns the number. -/
theorem C09_roundtrip (hw : 0 < w) (m v : List (BitVec w)) (hodd : limbsVal m % 2 = 1)
    (hlv : v.length = m.length) (hv : limbsVal v < limbsVal m) :
    PrimeField.toBigInt m (PrimeField.fromBigInt m v) = v := by
  obtain ⟨h1, h2⟩ := PrimeField.fromBigInt_spec hw m v hodd hlv hv
  obtain ⟨g1, g2, g3⟩ := PrimeField.toBigInt_spec hw m (PrimeField.fromBigInt m v) hodd h2
    (by rw [h1]; exact Nat.mod_lt _ (by omega))
  refine limbsVal_inj (by omega) (PrimeField.cancel_R m hodd (g2.trans ?_) g1 hv)
  rw [h1]
  exact Nat.mod_modEq _ _

/-- C09: `ToBigInt` is injective on canonical elements. -/
theorem C09_injective (hw : 0 < w) (m a b : List (BitVec w)) (hodd : limbsVal m % 2 = 1)
    (hla : a.length = m.length) (hlb : b.length = m.length)
    (ha : limbsVal a < limbsVal m) (hb : limbsVal b < limbsVal m)
    (h : PrimeField.toBigInt m a = PrimeField.toBigInt m b) : a = b := by
  obtain ⟨_, g2, _⟩ := PrimeField.toBigInt_spec hw m a hodd hla ha
  obtain ⟨_, k2, _⟩ := PrimeField.toBigInt_spec hw m b hodd hlb hb
  rw [h] at g2
  exact limbsVal_inj (by omega) (Nat.ModEq.eq_of_lt_of_lt (g2.symm.trans k2) ha hb)

/-- C09: `ToBigInt` carries the field operations to the operations modulo `p`. -/
theorem C09_homomorphism (hw : 0 < w) (m a b : List (BitVec w)) (hodd : limbsVal m % 2 = 1)
    (hla : a.length = m.length) (hlb : b.length = m.length)
    (ha : limbsVal a < limbsVal m) (hb : limbsVal b < limbsVal m) :
    let x := limbsVal (PrimeField.toBigInt m a)
    let y := limbsVal (PrimeField.toBigInt m b)
    let p := limbsVal m
    limbsVal (PrimeField.toBigInt m (PrimeField.add m a b)) = (x + y) % p ∧
    (limbsVal (PrimeField.toBigInt m (PrimeField.sub m a b)) : Int) = (x - y : Int) % p ∧
    (limbsVal (PrimeField.toBigInt m (PrimeField.negate m a)) : Int) = (-x : Int) % p ∧
    limbsVal (PrimeField.toBigInt m (PrimeField.double m a)) = (2 * x) % p ∧
    limbsVal (PrimeField.toBigInt m (PrimeField.mul m a b)) = (x * y) % p ∧
    limbsVal (PrimeField.toBigInt m (PrimeField.square m a)) = (x * x) % p := by
  intro x y p
  have hp : 0 < p := by show 0 < limbsVal m; omega
  obtain ⟨hx, gx, _⟩ := PrimeField.toBigInt_spec hw m a hodd hla ha
  obtain ⟨hy, gy, _⟩ := PrimeField.toBigInt_spec hw m b hodd hlb hb
  have key : ∀ (c : List (BitVec w)) (z : Nat), c.length = m.length → limbsVal c < limbsVal m →
      limbsVal c ≡ 2 ^ (w * m.length) * z [MOD limbsVal m] →
      limbsVal (PrimeField.toBigInt m c) = z % p := by
    intro c z hl hc hz
    obtain ⟨k1, k2, _⟩ := PrimeField.toBigInt_spec hw m c hodd hl hc
    exact PrimeField.cancel_R_mod m hodd (k2.trans hz) k1
  obtain ⟨e1, l1⟩ := PrimeField.add_spec hw m a b hla hlb ha hb
  obtain ⟨e2, l2⟩ := PrimeField.sub_spec hw m a b hla hlb ha hb
  obtain ⟨e3, l3⟩ := PrimeField.negate_spec hw m a hla ha
  obtain ⟨e4, l4⟩ := PrimeField.double_spec hw m a hla ha
  have hyp : y ≤ p := le_of_lt hy
  have hxp : x ≤ p := le_of_lt hx
  refine ⟨?_, ?_, ?_, ?_, ?_, ?_⟩
  · apply key _ _ l1 (by rw [e1]; exact Nat.mod_lt _ hp)
    rw [e1, Nat.mul_add]
    exact (Nat.mod_modEq _ _).trans (gx.symm.add gy.symm)
  · have : limbsVal (PrimeField.toBigInt m (PrimeField.sub m a b)) = (x + (p - y)) % p := by
      apply key _ _ l2 (by rw [e2]; exact Nat.mod_lt _ hp)
      rw [e2]
      refine (Nat.mod_modEq _ _).trans ?_
      rw [Nat.mul_add]
      refine gx.symm.add ?_
      -- p - b ≡ R (p - y)
      have h1 : (limbsVal m - limbsVal b) + limbsVal b ≡ 0 [MOD limbsVal m] := by
        rw [Nat.sub_add_cancel hb.le]; exact Nat.modEq_zero_iff_dvd.2 (dvd_refl _)
      have h2 : 2 ^ (w * m.length) * (p - y) + 2 ^ (w * m.length) * y ≡ 0 [MOD limbsVal m] := by
        rw [← Nat.mul_add, Nat.sub_add_cancel hyp]
        exact Nat.modEq_zero_iff_dvd.2 (Dvd.intro_left _ rfl)
      have h3 := h1.trans h2.symm
      exact Nat.ModEq.add_right_cancel gy.symm h3
    rw [this]
    push_cast [hyp]
    rw [show (x : Int) + (p - y) = (x - y) + p by ring, Int.add_emod_right]
  · have : limbsVal (PrimeField.toBigInt m (PrimeField.negate m a)) = (p - x) % p := by
      apply key _ _ l3 (by rw [e3]; exact Nat.mod_lt _ hp)
      rw [e3]
      refine (Nat.mod_modEq _ _).trans ?_
      have h1 : (limbsVal m - limbsVal a) + limbsVal a ≡ 0 [MOD limbsVal m] := by
        rw [Nat.sub_add_cancel ha.le]; exact Nat.modEq_zero_iff_dvd.2 (dvd_refl _)
      have h2 : 2 ^ (w * m.length) * (p - x) + 2 ^ (w * m.length) * x ≡ 0 [MOD limbsVal m] := by
        rw [← Nat.mul_add, Nat.sub_add_cancel hxp]
        exact Nat.modEq_zero_iff_dvd.2 (Dvd.intro_left _ rfl)
      exact Nat.ModEq.add_right_cancel gx.symm (h1.trans h2.symm)
    rw [this]
    push_cast [hxp]
    rw [show (p : Int) - x = -x + p by ring, Int.add_emod_right]
  · apply key _ _ l4 (by rw [e4]; exact Nat.mod_lt _ hp)
    rw [e4]
    refine (Nat.mod_modEq _ _).trans ?_
    rw [show 2 ^ (w * m.length) * (2 * x) = 2 * (2 ^ (w * m.length) * x) by ring]
    exact gx.symm.mul_left _
  · obtain ⟨k1, k2, k3⟩ := PrimeField.mul_spec hw m a b hodd hla hlb ha
    apply key _ _ k3 k1
    have h1 : 2 ^ (w * m.length) * limbsVal (PrimeField.mul m a b) ≡
        2 ^ (w * m.length) * (2 ^ (w * m.length) * (x * y)) [MOD limbsVal m] := by
      refine k2.trans ((gx.symm.mul gy.symm).trans ?_)
      rw [show 2 ^ (w * m.length) * x * (2 ^ (w * m.length) * y) =
        2 ^ (w * m.length) * (2 ^ (w * m.length) * (x * y)) by ring]
    exact Nat.ModEq.cancel_left_of_coprime (PrimeField.coprime_R m hodd) h1
  · obtain ⟨k1, k2, k3⟩ := PrimeField.square_spec hw m a hodd hla ha
    apply key _ _ k3 k1
    have h1 : 2 ^ (w * m.length) * limbsVal (PrimeField.square m a) ≡
        2 ^ (w * m.length) * (2 ^ (w * m.length) * (x * x)) [MOD limbsVal m] := by
      refine k2.trans ((gx.symm.mul gx.symm).trans ?_)
      rw [show 2 ^ (w * m.length) * x * (2 ^ (w * m.length) * x) =
        2 ^ (w * m.length) * (2 ^ (w * m.length) * (x * x)) by ring]
    exact Nat.ModEq.cancel_left_of_coprime (PrimeField.coprime_R m hodd) h1

/-- C09: `Zero()` and `One()` denote 0 and 1. -/
theorem C09_constants (hw : 0 < w) (m : List (BitVec w)) (hodd : limbsVal m % 2 = 1)
    (h1 : 1 < limbsVal m) :
    limbsVal (PrimeField.toBigInt m (PrimeField.zeroElt m)) = 0 ∧
    limbsVal (PrimeField.toBigInt m (PrimeField.one m)) = 1 := by
  constructor
  · obtain ⟨k1, k2, _⟩ := PrimeField.toBigInt_spec hw m (zero m.length) hodd (by simp)
      (by simp; omega)
    have := PrimeField.cancel_R_mod (y := 0) m hodd (k2.trans (by simp; rfl)) k1
    rw [PrimeField.zeroElt, this]; simp
  · obtain ⟨r1, r2⟩ := montgomeryRk_spec hw 1 (by omega) m (by omega)
    obtain ⟨k1, k2, _⟩ := PrimeField.toBigInt_spec hw m (montgomeryRk 1 m) hodd r2
      (by rw [r1]; exact Nat.mod_lt _ (by omega))
    have := PrimeField.cancel_R_mod (y := 1) m hodd (k2.trans (by
      rw [r1, pow_one, Nat.mul_one]; exact Nat.mod_modEq _ _)) k1
    rw [PrimeField.one, this]; exact Nat.mod_eq_of_lt h1

/-- C09: the 32-bit conversion entry point denotes the same number as the 64-bit one. -/
theorem C09_fromMontgomery32 (m v : List (BitVec 64)) (inv : BitVec 32)
    (hodd : limbsVal m % 2 = 1)
    (hinv : 2 ^ 32 ∣ limbsVal m * inv.toNat + 1)
    (hlen : v.length = m.length) (hv : limbsVal v < limbsVal m) :
    fromMontgomery32 m inv v = PrimeField.toBigInt m v := by
  obtain ⟨h1, h2, h3⟩ := fromMontgomery32_spec m inv v hinv hlen hv
  obtain ⟨g1, g2, g3⟩ := PrimeField.toBigInt_spec (by omega) m v hodd hlen hv
  exact limbsVal_inj (by omega) (PrimeField.cancel_R m hodd (h2.trans g2.symm) h1 g1)

example : PrimeField.fromBigInt [0xb#4, 0xf#4] [0x3#4, 0x2#4] = [0xf#4, 0xa#4] ∧
    PrimeField.toBigInt [0xb#4, 0xf#4] [0xf#4, 0xa#4] = [0x3#4, 0x2#4] := by decide

/-- C10: addition, doubling, subtraction and negation of canonical words give the canonical
residue of the exact integer result, for every modulus (odd or not), with or without spare bit. -/
theorem C10_additive (hw : 0 < w) (m a b : List (BitVec w))
    (hla : a.length = m.length) (hlb : b.length = m.length)
    (ha : limbsVal a < limbsVal m) (hb : limbsVal b < limbsVal m) :
    limbsVal (PrimeField.add m a b) = (limbsVal a + limbsVal b) % limbsVal m ∧
    (limbsVal (PrimeField.sub m a b) : Int) = (limbsVal a - limbsVal b : Int) % limbsVal m ∧
    (limbsVal (PrimeField.negate m a) : Int) = (-limbsVal a : Int) % limbsVal m ∧
    limbsVal (PrimeField.double m a) = (2 * limbsVal a) % limbsVal m ∧
    (PrimeField.add m a b).length = m.length ∧ (PrimeField.sub m a b).length = m.length ∧
    (PrimeField.negate m a).length = m.length ∧ (PrimeField.double m a).length = m.length := by
  obtain ⟨e1, l1⟩ := PrimeField.add_spec hw m a b hla hlb ha hb
  obtain ⟨e2, l2⟩ := PrimeField.sub_spec hw m a b hla hlb ha hb
  obtain ⟨e3, l3⟩ := PrimeField.negate_spec hw m a hla ha
  obtain ⟨e4, l4⟩ := PrimeField.double_spec hw m a hla ha
  refine ⟨e1, ?_, ?_, e4, l1, l2, l3, l4⟩
  · rw [e2]
    push_cast [hb.le]
    rw [show (limbsVal a : Int) + (limbsVal m - limbsVal b) =
      (limbsVal a - limbsVal b) + limbsVal m by ring, Int.add_emod_right]
  · rw [e3]
    push_cast [ha.le]
    rw [show (limbsVal m : Int) - limbsVal a = -limbsVal a + limbsVal m by ring, Int.add_emod_right]

-- 250 + 250 overflows the two 4-bit words and is reduced modulo 251
example : PrimeField.add [0xb#4, 0xf#4] [0xa#4, 0xf#4] [0xa#4, 0xf#4] = [0x9#4, 0xf#4] := by decide
example : PrimeField.sub [0xb#4, 0xf#4] [0x1#4, 0x0#4] [0xa#4, 0xf#4] = [0x2#4, 0x0#4] := by decide

end Tachyon.Props
