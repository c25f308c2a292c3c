import Verif.Model.FieldInst
import Verif.Spec.FieldImplements
import Verif.Props.SmallField
import Verif.Props.Montgomery
import Verif.Proofs.Serialize
import Mathlib.Algebra.Field.ZMod
/-! The prime field classes implement `ZMod p`. -/
namespace Tachyon

/-- The stored value `a` denotes `x` when it is well formed, canonical, and equal to `ρ x` modulo `p`;
`ρ` is the Montgomery radix, or 1. -/
def StoredRel {α : Type*} {p : ℕ} (ok : α → Prop) (val : α → ℕ) (ρ : ZMod p) (a : α) (x : ZMod p) :
    Prop := ok a ∧ val a < p ∧ (val a : ZMod p) = ρ * x

theorem twoInv_cast {p : ℕ} (hodd : p % 2 = 1) : (2 : ZMod p) * (twoInvNat p : ℕ) = 1 := by
  have : 2 * twoInvNat p = p + 1 := by unfold twoInvNat; omega
  have h := congrArg (Nat.cast (R := ZMod p)) this
  push_cast at h
  rw [h, ZMod.natCast_self, zero_add]

theorem two_dvd_or_odd {p : ℕ} (hp : p.Prime) : p = 2 ∨ p % 2 = 1 := hp.eq_two_or_odd

theorem natCast_inj_of_lt {p a b : ℕ} (ha : a < p) (hb : b < p) (h : (a : ZMod p) = b) : a = b :=
  Nat.ModEq.eq_of_lt_of_lt ((ZMod.natCast_eq_natCast_iff a b p).1 h) ha hb

variable {α : Type*} {p : ℕ} [hpf : Fact p.Prime] {o : FieldOps α} {ok : α → Prop} {val : α → ℕ}
  {ρ : ZMod p}

/-- From statements about stored values to `Implements`. -/
theorem implements_of_stored (hρ : ρ ≠ 0)
    (inj : ∀ {a b}, ok a → ok b → val a = val b → a = b)
    (zero : ok o.zero ∧ val o.zero = 0)
    (one : StoredRel ok val ρ o.one 1)
    (twoInv : StoredRel ok val ρ o.twoInv (twoInvNat p : ℕ))
    (hodd : p % 2 = 1)
    (ofNat : ∀ n : ℕ, StoredRel ok val ρ (o.ofNat n) n)
    (add : ∀ {a b}, ok a → ok b → val a < p → val b < p → ok (o.add a b) ∧ val (o.add a b) < p ∧
      (val (o.add a b) : ZMod p) = val a + val b)
    (sub : ∀ {a b}, ok a → ok b → val a < p → val b < p → ok (o.sub a b) ∧ val (o.sub a b) < p ∧
      (val (o.sub a b) : ZMod p) = val a - val b)
    (mul : ∀ {a b}, ok a → ok b → val a < p → val b < p → ok (o.mul a b) ∧ val (o.mul a b) < p ∧
      ρ * (val (o.mul a b) : ZMod p) = val a * val b)
    (neg : ∀ {a}, ok a → val a < p → ok (o.neg a) ∧ val (o.neg a) < p ∧
      (val (o.neg a) : ZMod p) = -val a)
    (double : ∀ {a}, ok a → val a < p → o.double a = o.add a a)
    (square : ∀ {a}, ok a → val a < p → o.square a = o.mul a a)
    (isZero : ∀ {a}, ok a → (o.isZero a = true ↔ val a = 0))
    (isOne : ∀ {a}, ok a → (o.isOne a = true ↔ a = o.one))
    (eq : ∀ {a b}, ok a → ok b → (o.eq a b = true ↔ a = b))
    (inverse : ∀ {a}, ok a → val a < p → val a ≠ 0 →
      ∃ b, o.inverse a = some b ∧ ok b ∧ val b < p ∧ (val a : ZMod p) * val b = ρ * ρ)
    (inverse_none : ∀ {a}, ok a → val a = 0 → o.inverse a = none) :
    o.Implements (StoredRel ok val ρ) := by
  have hmul : ∀ {a b x y}, StoredRel ok val ρ a x → StoredRel ok val ρ b y →
      StoredRel ok val ρ (o.mul a b) (x * y) := by
    rintro a b x y ⟨a1, a2, a3⟩ ⟨b1, b2, b3⟩
    obtain ⟨k1, k2, k3⟩ := mul a1 b1 a2 b2
    refine ⟨k1, k2, mul_left_cancel₀ hρ ?_⟩
    rw [k3, a3, b3]; ring
  have hadd : ∀ {a b x y}, StoredRel ok val ρ a x → StoredRel ok val ρ b y →
      StoredRel ok val ρ (o.add a b) (x + y) := by
    rintro a b x y ⟨a1, a2, a3⟩ ⟨b1, b2, b3⟩
    obtain ⟨k1, k2, k3⟩ := add a1 b1 a2 b2
    exact ⟨k1, k2, by rw [k3, a3, b3]; ring⟩
  have heq : ∀ {a b x y}, StoredRel ok val ρ a x → StoredRel ok val ρ b y → (a = b ↔ x = y) := by
    rintro a b x y ⟨a1, a2, a3⟩ ⟨b1, b2, b3⟩
    constructor
    · rintro rfl
      exact mul_left_cancel₀ hρ (a3.symm.trans b3)
    · rintro rfl
      exact inj a1 b1 (natCast_inj_of_lt a2 b2 (a3.trans b3.symm))
  have hz : ∀ {a x}, StoredRel ok val ρ a x → (val a = 0 ↔ x = 0) := by
    rintro a x ⟨a1, a2, a3⟩
    constructor
    · intro h
      rw [h, Nat.cast_zero] at a3
      exact (mul_eq_zero.1 a3.symm).resolve_left hρ
    · rintro rfl
      rw [mul_zero] at a3
      exact natCast_inj_of_lt a2 hpf.out.pos (by simpa using a3)
  refine {
    zero := ⟨zero.1, by rw [zero.2]; exact hpf.out.pos, by simp [zero.2]⟩
    one := one
    twoInv := fun _ => ⟨_, twoInv, twoInv_cast hodd⟩
    ofNat := ofNat
    add := hadd
    sub := ?_
    mul := hmul
    neg := ?_
    double := ?_
    square := ?_
    isZero := fun h => (isZero h.1).trans (hz h)
    isOne := fun h => (isOne h.1).trans (heq h one)
    eq := fun h1 h2 => (eq h1.1 h2.1).trans (heq h1 h2)
    inverse := ?_
    inverse_none := ?_ }
  · rintro a b x y ⟨a1, a2, a3⟩ ⟨b1, b2, b3⟩
    obtain ⟨k1, k2, k3⟩ := sub a1 b1 a2 b2
    exact ⟨k1, k2, by rw [k3, a3, b3]; ring⟩
  · rintro a x ⟨a1, a2, a3⟩
    obtain ⟨k1, k2, k3⟩ := neg a1 a2
    exact ⟨k1, k2, by rw [k3, a3]; ring⟩
  · intro a x h
    rw [double h.1 h.2.1]
    exact hadd h h
  · intro a x h
    rw [square h.1 h.2.1]
    exact hmul h h
  · intro a x h hu
    obtain ⟨b, k0, k1, k2, k3⟩ := inverse h.1 h.2.1 (fun hv => hu.ne_zero ((hz h).1 hv))
    refine ⟨b, val b * ρ⁻¹, k0, ⟨k1, k2, by field_simp⟩, ?_⟩
    rw [h.2.2] at k3
    have : x * val b = ρ := mul_left_cancel₀ hρ (by rw [← k3]; ring)
    rw [← mul_assoc, this, mul_inv_cancel₀ hρ]
  · intro a x h hu
    refine inverse_none h.1 ((hz h).2 ?_)
    by_contra h0
    exact hu (Ne.isUnit h0)

theorem cast_mod (a : ℕ) : ((a % p : ℕ) : ZMod p) = a := ZMod.natCast_mod a p

theorem cast_int_eq {p a : ℕ} {z : ℤ} (h : (a : ℤ) = z % p) : (a : ZMod p) = z := by
  have := congrArg (Int.cast (R := ZMod p)) h
  rw [ZMod.intCast_mod, Int.cast_natCast] at this
  exact this

theorem lt_of_int_eq {p a : ℕ} (hp : 0 < p) {z : ℤ} (h : (a : ℤ) = z % p) : a < p := by
  have := Int.emod_lt_of_pos z (by exact_mod_cast hp : (0 : ℤ) < p)
  omega

namespace SmallField

/-- A stored 32-bit word denotes a residue. -/
def PlainRel (p : ℕ) (a : BitVec 32) (x : ZMod p) : Prop := a.toNat < p ∧ (a.toNat : ZMod p) = x

/-- A stored 32-bit Montgomery word denotes a residue. -/
def MontRel (m : BitVec 32) (a : BitVec 32) (x : ZMod m.toNat) : Prop :=
  a.toNat < m.toNat ∧ ((montToInt m a).toNat : ZMod m.toNat) = x

theorem plainOps_implements {c : Config} (hc : c.Reduces) (hp : c.modulus.toNat.Prime)
    (hodd : c.modulus.toNat % 2 = 1)
    (hmul : ∀ a b : BitVec 32, a.toNat < c.modulus.toNat → b.toNat < c.modulus.toNat →
      (mul c a b).toNat = a.toNat * b.toNat % c.modulus.toNat) :
    (plainOps c).Implements (PlainRel c.modulus.toNat) := by
  have : Fact c.modulus.toNat.Prime := ⟨hp⟩
  have hpos := hp.pos
  have h32 := c.modulus.isLt
  have hrel : (PlainRel c.modulus.toNat) =
      StoredRel (fun _ => True) BitVec.toNat (1 : ZMod c.modulus.toNat) := by
    funext a x; simp [PlainRel, StoredRel]
  have h1 : 1 < c.modulus.toNat := hp.one_lt
  have hlt : ∀ n, n < c.modulus.toNat → (BitVec.ofNat 32 n).toNat = n := fun n hn => by
    rw [BitVec.toNat_ofNat, Nat.mod_eq_of_lt (by omega)]
  rw [hrel]
  have hsub : ∀ a b : BitVec 32, a.toNat < c.modulus.toNat → b.toNat < c.modulus.toNat →
      ((subMod c a b).toNat : ℤ) = ((a.toNat : ℤ) - b.toNat) % c.modulus.toNat := fun a b ha hb => by
    rw [subMod_spec hc a b ha hb, int_sub_mod hb.le]
  refine implements_of_stored (o := plainOps c) (p := c.modulus.toNat) one_ne_zero
    (fun _ _ h => BitVec.eq_of_toNat_eq h) ⟨trivial, rfl⟩
    ⟨trivial, h1, by simp [plainOps]⟩ ⟨trivial, ?_, ?_⟩ hodd (fun n => ⟨trivial, ?_, ?_⟩)
    ?_ ?_ ?_ ?_ (fun _ _ => rfl) (fun _ _ => rfl) ?_ ?_ ?_ ?_ ?_
  · change (BitVec.ofNat 32 (twoInvNat c.modulus.toNat)).toNat < _
    rw [hlt] <;> (unfold twoInvNat; omega)
  · change (((BitVec.ofNat 32 (twoInvNat c.modulus.toNat)).toNat : ℕ) : ZMod c.modulus.toNat) = _
    rw [hlt, one_mul]
    unfold twoInvNat; omega
  · change (BitVec.ofNat 32 (n % c.modulus.toNat)).toNat < _
    rw [hlt _ (Nat.mod_lt _ hpos)]; exact Nat.mod_lt _ hpos
  · change (((BitVec.ofNat 32 (n % c.modulus.toNat)).toNat : ℕ) : ZMod c.modulus.toNat) = _
    rw [hlt _ (Nat.mod_lt _ hpos), cast_mod, one_mul]
  · intro a b _ _ ha hb
    have := addMod_spec hc a b ha hb
    refine ⟨trivial, ?_, ?_⟩ <;> simp only [plainOps, this]
    · exact Nat.mod_lt _ hpos
    · rw [cast_mod, Nat.cast_add]
  · intro a b _ _ ha hb
    have := hsub a b ha hb
    exact ⟨trivial, lt_of_int_eq hpos this, (cast_int_eq this).trans (by simp)⟩
  · intro a b _ _ ha hb
    have := hmul a b ha hb
    refine ⟨trivial, ?_, ?_⟩ <;> simp only [plainOps, this]
    · exact Nat.mod_lt _ hpos
    · rw [cast_mod, Nat.cast_mul, one_mul]
  · intro a _ ha
    have := hsub 0#32 a (by simpa using hpos) ha
    exact ⟨trivial, lt_of_int_eq hpos this, (cast_int_eq this).trans (by simp)⟩
  · intro a _
    simp only [plainOps, beq_iff_eq]
    exact ⟨fun h => by rw [h]; rfl, fun h => BitVec.eq_of_toNat_eq h⟩
  · intro a _
    simp [plainOps]
  · intro a b _ _
    simp [plainOps]
  · intro a _ ha h0
    have hcop : Nat.Coprime a.toNat c.modulus.toNat :=
      ((Nat.Prime.coprime_iff_not_dvd hp).2 fun h => by
        have := Nat.le_of_dvd (by omega) h; omega).symm
    obtain ⟨r, e1, e2, e3⟩ := Props.C12_inverse c a h0 ha hcop
    refine ⟨r, by simp [plainOps, e1], trivial, e2, ?_⟩
    have := congrArg (Nat.cast (R := ZMod c.modulus.toNat)) e3
    rw [cast_mod] at this
    simpa using this
  · intro a _ h0
    have : inverse c a = some none := by
      have e : a = 0#32 := BitVec.eq_of_toNat_eq h0
      subst e
      simp [inverse]
    simp [plainOps, this]

theorem montOps_implements (m : BitVec 32) (hp : m.toNat.Prime) (hodd : m.toNat % 2 = 1)
    (hm : m.toNat ≤ 2 ^ 31) : (montOps m).Implements (MontRel m) := by
  have : Fact m.toNat.Prime := ⟨hp⟩
  have hpos := hp.pos
  have h32 := m.isLt
  have hcop : Nat.Coprime m.toNat (2 ^ 32) := coprime_two_pow hodd 32
  have hρ : ((2 ^ 32 : ℕ) : ZMod m.toNat) ≠ 0 := by
    rw [Ne, ZMod.natCast_eq_zero_iff]
    exact fun h => hp.one_lt.ne' (Nat.Coprime.eq_one_of_dvd hcop h)
  have hden : ∀ a : BitVec 32, (a.toNat : ZMod m.toNat) =
      (2 ^ 32 : ℕ) * ((montToInt m a).toNat : ZMod m.toNat) := fun a => by
    have := (ZMod.natCast_eq_natCast_iff _ _ _).2 (montToInt_spec m a hodd).2
    rw [← this, Nat.cast_mul, mul_comm]
  have hrel : MontRel m = StoredRel (fun _ => True) BitVec.toNat ((2 ^ 32 : ℕ) : ZMod m.toNat) := by
    funext a x
    rw [MontRel, StoredRel, hden a, eq_iff_iff, true_and]
    exact and_congr_right fun _ => ⟨fun h => by rw [h], fun h => mul_left_cancel₀ hρ h⟩
  have hc : (montConfig m).Reduces := montConfig_reduces m hpos hm
  have hlt : ∀ n, n < m.toNat → (BitVec.ofNat 32 n).toNat = n := fun n hn => by
    rw [BitVec.toNat_ofNat, Nat.mod_eq_of_lt (by omega)]
  have hof : ∀ v : BitVec 32, (toMontgomery m v).toNat < m.toNat ∧
      ((toMontgomery m v).toNat : ZMod m.toNat) = (2 ^ 32 : ℕ) * v.toNat := fun v => by
    rw [toMontgomery_spec m v hpos]
    exact ⟨Nat.mod_lt _ hpos, by rw [cast_mod, Nat.cast_mul, mul_comm]⟩
  rw [hrel]
  have hsub : ∀ a b : BitVec 32, a.toNat < m.toNat → b.toNat < m.toNat →
      ((subMod (montConfig m) a b).toNat : ℤ) = ((a.toNat : ℤ) - b.toNat) % m.toNat :=
    fun a b ha hb => by
      rw [subMod_spec hc a b ha hb]; exact int_sub_mod hb.le
  refine implements_of_stored (o := montOps m) (p := m.toNat) hρ
    (fun _ _ h => BitVec.eq_of_toNat_eq h) ⟨trivial, rfl⟩
    ⟨trivial, (hof 1#32).1, ?_⟩ ⟨trivial, (hof _).1, ?_⟩ hodd (fun n => ⟨trivial, (hof _).1, ?_⟩)
    ?_ ?_ ?_ ?_ (fun _ _ => rfl) (fun _ _ => rfl) ?_ ?_ ?_ ?_ ?_
  · exact (hof 1#32).2.trans (by simp)
  · refine (hof _).2.trans ?_
    rw [hlt]
    show twoInvNat _ < _
    have := hp.one_lt
    unfold twoInvNat; omega
  · refine (hof _).2.trans ?_
    rw [hlt _ (Nat.mod_lt _ hpos), cast_mod]
  · intro a b _ _ ha hb
    have : ((montOps m).add a b).toNat = (a.toNat + b.toNat) % m.toNat := addMod_spec hc a b ha hb
    exact ⟨trivial, by rw [this]; exact Nat.mod_lt _ hpos, by rw [this, cast_mod, Nat.cast_add]⟩
  · intro a b _ _ ha hb
    have := hsub a b ha hb
    exact ⟨trivial, lt_of_int_eq hpos this, (cast_int_eq this).trans (by simp)⟩
  · intro a b _ _ ha hb
    obtain ⟨e1, e2⟩ := montMul_spec m a b hodd ha
    refine ⟨trivial, e1, ?_⟩
    have := (ZMod.natCast_eq_natCast_iff _ _ _).2 e2
    rw [Nat.cast_mul, Nat.cast_mul, mul_comm] at this
    exact this
  · intro a _ ha
    have := hsub 0#32 a (by simpa using hpos) ha
    exact ⟨trivial, lt_of_int_eq hpos this, (cast_int_eq this).trans (by simp)⟩
  · intro a _
    simp only [montOps, beq_iff_eq]
    exact ⟨fun h => by rw [h]; rfl, fun h => BitVec.eq_of_toNat_eq h⟩
  · intro a _
    simp [montOps]
  · intro a b _ _
    simp [montOps]
  · intro a _ ha h0
    obtain ⟨r, e1, e2, e3⟩ := montInverse_spec m a hp hodd ha h0
    refine ⟨r, e1, trivial, e2, ?_⟩
    have := congrArg (Nat.cast (R := ZMod m.toNat)) e3
    rw [cast_mod, Nat.cast_mul, Nat.cast_one] at this
    rw [hden a, hden r]
    linear_combination ((2 ^ 32 : ℕ) : ZMod m.toNat) ^ 2 * this
  · intro a _ h0
    have e : a = 0#32 := BitVec.eq_of_toNat_eq h0
    simp [montOps, montInverse, e]

end SmallField

namespace PrimeField
open Tachyon.BigInt
variable {w : ℕ}

/-- A stored limb array denotes a residue. -/
def Rel (m a : Limbs w) (x : ZMod (limbsVal m)) : Prop :=
  a.length = m.length ∧ limbsVal a < limbsVal m ∧ (limbsVal (toBigInt m a) : ZMod (limbsVal m)) = x

theorem limbsVal_ofNatLimbs {len v : ℕ} (h : v < 2 ^ (w * len)) :
    limbsVal (ofNatLimbs len v : Limbs w) = v := by
  unfold ofNatLimbs
  rw [limbsVal_digits v _ len (fun i _ => by
    rw [BitVec.toNat_ofNat, Nat.shiftRight_eq_div_pow]), Nat.mod_eq_of_lt h]

theorem ops_implements (hw : 0 < w) (m : Limbs w) (hp : (limbsVal m).Prime)
    (hodd : limbsVal m % 2 = 1) {inv : Limbs w → Option (Limbs w)}
    (hinv : ∀ a, a.length = m.length → limbsVal a < limbsVal m → limbsVal a ≠ 0 →
      ∃ r, inv a = some r ∧ r.length = m.length ∧ limbsVal r < limbsVal m ∧ mul m a r = one m)
    (hinv0 : ∀ a, a.length = m.length → limbsVal a = 0 → inv a = none) :
    (ops m inv).Implements (Rel m) := by
  have : Fact (limbsVal m).Prime := ⟨hp⟩
  have hpos := hp.pos
  have hm := limbsVal_lt m
  have hcop := coprime_R m hodd
  set ρ : ZMod (limbsVal m) := ((2 ^ (w * m.length) : ℕ) : ZMod (limbsVal m)) with hρd
  have hρ : ρ ≠ 0 := by
    rw [Ne, hρd, ZMod.natCast_eq_zero_iff]
    exact fun h => hp.one_lt.ne' (Nat.Coprime.eq_one_of_dvd hcop h)
  have hden : ∀ a : Limbs w, a.length = m.length → limbsVal a < limbsVal m →
      (limbsVal a : ZMod (limbsVal m)) = ρ * (limbsVal (toBigInt m a) : ZMod (limbsVal m)) :=
    fun a h1 h2 => by
      have := (ZMod.natCast_eq_natCast_iff _ _ _).2 (toBigInt_spec hw m a hodd h1 h2).2.1
      rw [← this, Nat.cast_mul]
  have hrel : Rel m = StoredRel (fun a : Limbs w => a.length = m.length) limbsVal ρ := by
    funext a x
    simp only [Rel, StoredRel, eq_iff_iff]
    refine and_congr_right fun h1 => and_congr_right fun h2 => ?_
    rw [hden a h1 h2]
    exact ⟨fun h => by rw [h], fun h => mul_left_cancel₀ hρ h⟩
  have hof : ∀ v < limbsVal m, (fromBigInt m (ofNatLimbs m.length v)).length = m.length ∧
      limbsVal (fromBigInt m (ofNatLimbs m.length v)) < limbsVal m ∧
      (limbsVal (fromBigInt m (ofNatLimbs m.length v)) : ZMod (limbsVal m)) = ρ * v :=
    fun v hv => by
      have e := limbsVal_ofNatLimbs (w := w) (len := m.length) (v := v) (by omega)
      obtain ⟨e1, e2⟩ := fromBigInt_spec hw m (ofNatLimbs m.length v) hodd (by simp [ofNatLimbs])
        (by omega)
      refine ⟨e2, by rw [e1]; exact Nat.mod_lt _ hpos, ?_⟩
      rw [e1, e, cast_mod, Nat.cast_mul]
  have hone : (one m).length = m.length ∧ limbsVal (one m) < limbsVal m ∧
      (limbsVal (one m) : ZMod (limbsVal m)) = ρ * 1 := by
    obtain ⟨r1, r2⟩ := montgomeryRk_spec hw 1 (by omega) m (by omega)
    refine ⟨r2, by rw [one, r1]; exact Nat.mod_lt _ hpos, ?_⟩
    rw [one, r1, cast_mod, pow_one, mul_one]
  rw [hrel]
  refine implements_of_stored (o := ops m inv) (p := limbsVal m) hρ
    (fun h1 h2 h => limbsVal_inj (h1.trans h2.symm) h) ⟨by simp [ops, zeroElt], by simp [ops, zeroElt]⟩
    hone (hof _ (by have := hp.one_lt; unfold twoInvNat; omega)) hodd (fun n => ?_)
    ?_ ?_ ?_ ?_ ?_ ?_ ?_ ?_ ?_ ?_ ?_
  · obtain ⟨k1, k2, k3⟩ := hof (n % limbsVal m) (Nat.mod_lt _ hpos)
    exact ⟨k1, k2, by rw [cast_mod] at k3; exact k3⟩
  · intro a b la lb ha hb
    obtain ⟨e1, e2⟩ := add_spec hw m a b la lb ha hb
    exact ⟨e2, by rw [show (ops m inv).add a b = add m a b from rfl, e1]; exact Nat.mod_lt _ hpos, by
      rw [show (ops m inv).add a b = add m a b from rfl, e1, cast_mod, Nat.cast_add]⟩
  · intro a b la lb ha hb
    obtain ⟨e1, e2⟩ := sub_spec hw m a b la lb ha hb
    refine ⟨e2, by rw [show (ops m inv).sub a b = sub m a b from rfl, e1]; exact Nat.mod_lt _ hpos, ?_⟩
    rw [show (ops m inv).sub a b = sub m a b from rfl, e1, cast_mod, Nat.cast_add,
      Nat.cast_sub hb.le, ZMod.natCast_self]
    ring
  · intro a b la lb ha hb
    obtain ⟨e1, e2, e3⟩ := mul_spec hw m a b hodd la lb ha
    refine ⟨e3, e1, ?_⟩
    have := (ZMod.natCast_eq_natCast_iff _ _ _).2 e2
    rw [Nat.cast_mul, Nat.cast_mul] at this
    exact this
  · intro a la ha
    obtain ⟨e1, e2⟩ := negate_spec hw m a la ha
    refine ⟨e2, by rw [show (ops m inv).neg a = negate m a from rfl, e1]; exact Nat.mod_lt _ hpos, ?_⟩
    rw [show (ops m inv).neg a = negate m a from rfl, e1, cast_mod, Nat.cast_sub ha.le,
      ZMod.natCast_self]
    ring
  · intro a la ha
    obtain ⟨e1, e2⟩ := double_spec hw m a la ha
    obtain ⟨e3, e4⟩ := add_spec hw m a a la la ha ha
    refine limbsVal_inj (e2.trans e4.symm) ?_
    rw [show (ops m inv).double a = double m a from rfl, show (ops m inv).add a a = add m a a from rfl,
      e1, e3, two_mul]
  · intro a la ha
    exact Props.C08_square hw m a hodd la ha
  · intro a la
    simp only [ops, isZero_spec, decide_eq_true_eq]
  · intro a _
    simp [ops]
  · intro a b _ _
    simp [ops]
  · intro a la ha h0
    obtain ⟨r, e1, e2, e3, e4⟩ := hinv a la ha h0
    refine ⟨r, e1, e2, e3, ?_⟩
    obtain ⟨_, k2, _⟩ := mul_spec hw m a r hodd la e2 ha
    have := (ZMod.natCast_eq_natCast_iff _ _ _).2 k2
    rw [Nat.cast_mul, Nat.cast_mul, e4, hone.2.2, mul_one] at this
    exact this.symm
  · intro a la h0
    exact hinv0 a la h0

end PrimeField
end Tachyon
