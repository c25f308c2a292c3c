import Verif.Spec.Pairing
import Verif.Proofs.Pow
import Verif.Proofs.Serialize
import Mathlib.Tactic.LinearCombination
import Mathlib.Tactic.Ring
/-! The final exponentiations raise to the stated powers. -/
namespace Tachyon.Pairing
open Tachyon.BigInt

variable {α β γ k K L : Type} [CommRing k] [CommRing K] [CommRing L] {o : Ops α β γ}
  {R1 : α → k → Prop} {R2 : β → K → Prop} {R12 : γ → L → Prop} {ι : k →+* K} {j : K →+* L} {w : L}
  {ξ : K} {p : ℕ}

namespace Ops.Implements
variable (h : o.Implements R1 R2 R12 ι j w ξ p)
include h

theorem unit_fixed (u : Lˣ) : u ^ ((p : ℤ) ^ 12 - 1) = 1 := by
  have h1 : u ^ p ^ 12 = u := Units.ext (by simpa using h.fixed12 (u : L))
  have h2 : u ^ ((p : ℤ) ^ 12) = u := by
    have : ((p : ℤ) ^ 12) = ((p ^ 12 : ℕ) : ℤ) := by push_cast; rfl
    rw [this, zpow_natCast, h1]
  rw [zpow_sub, h2, zpow_one, mul_inv_cancel]

theorem frobZ {a : γ} {u : Lˣ} (ha : R12 a u) (e : ℕ) : R12 (o.fp12.frobenius e a) ((u ^ ((p : ℤ) ^ e) : Lˣ) : L) := by
  have := h.frob12 e ha
  have e1 : ((p : ℤ) ^ e) = ((p ^ e : ℕ) : ℤ) := by push_cast; rfl
  rwa [e1, zpow_natCast, Units.val_pow_eq_pow_val]

theorem cycInverseZ [Nontrivial L] {a : γ} {u : Lˣ} (ha : R12 a u) :
    ∃ b, o.cycInverse a = some b ∧ R12 b ((u ^ ((p : ℤ) ^ 6) : Lˣ) : L) := by
  obtain ⟨b, h1, h2⟩ := h.cycInverse ha u.ne_zero
  refine ⟨b, h1, ?_⟩
  have e1 : ((p : ℤ) ^ 6) = ((p ^ 6 : ℕ) : ℤ) := by push_cast; rfl
  rwa [e1, zpow_natCast, Units.val_pow_eq_pow_val]

theorem easy [Nontrivial L] {a : γ} {u : Lˣ} (ha : R12 a u) :
    ∃ r, easyPart o a = some r ∧ R12 r ((u ^ (((p : ℤ) ^ 6 - 1) * ((p : ℤ) ^ 2 + 1)) : Lˣ) : L) := by
  obtain ⟨f1, e1, r1⟩ := h.cycInverseZ ha
  obtain ⟨f2, y, e2, r2, hy⟩ := h.fp12.inverse ha u.isUnit
  have hy' : y = ((u⁻¹ : Lˣ) : L) := by
    rw [← mul_one ((u⁻¹ : Lˣ) : L), ← hy, ← mul_assoc, Units.inv_mul, one_mul]
  subst hy'
  refine ⟨_, by simp only [easyPart, e1, e2, Option.bind_eq_bind, Option.bind_some]; rfl, ?_⟩
  have r3 := h.fp12.mul r1 r2
  rw [← Units.val_mul] at r3
  have r4 := h.fp12.mul (h.frobZ r3 2) r3
  rw [← Units.val_mul] at r4
  convert r4 using 2
  rw [← zpow_neg_one, ← zpow_add, ← zpow_mul, ← zpow_add]
  congr 1
  ring

end Ops.Implements

/-- `a` stands for the power `c^n`. -/
def At (R12 : γ → L → Prop) (c : Lˣ) (a : γ) (n : ℤ) : Prop := R12 a ((c ^ n : Lˣ) : L)

namespace At
variable [Nontrivial L] (h : o.Implements R1 R2 R12 ι j w ξ p) {c : Lˣ} (hc : c ^ ((p : ℤ) ^ 4 - (p : ℤ) ^ 2 + 1) = 1)
include h

omit [Nontrivial L] in
theorem mul {a b : γ} {n m : ℤ} (ha : At R12 c a n) (hb : At R12 c b m) : At R12 c (o.fp12.mul a b) (n + m) := by
  have := h.fp12.mul ha hb
  rwa [← Units.val_mul, ← zpow_add] at this

omit [Nontrivial L] in
theorem frob {a : γ} {n : ℤ} (ha : At R12 c a n) (e : ℕ) : At R12 c (o.fp12.frobenius e a) (n * (p : ℤ) ^ e) := by
  have := h.frobZ ha e
  rwa [← zpow_mul] at this

include hc

omit [Nontrivial L] in
theorem sq {a : γ} {n : ℤ} (ha : At R12 c a n) : At R12 c (o.cycSquare a) (2 * n) := by
  have e4 : ((p : ℤ) ^ 4) = ((p ^ 4 : ℕ) : ℤ) := by push_cast; rfl
  have e2 : ((p : ℤ) ^ 2) = ((p ^ 2 : ℕ) : ℤ) := by push_cast; rfl
  have := h.cycSquare ha (by
    rw [← Units.val_pow_eq_pow_val, ← Units.val_pow_eq_pow_val, ← Units.val_mul]
    congr 1
    rw [← zpow_natCast (c ^ n) (p ^ 4), ← zpow_natCast (c ^ n) (p ^ 2), ← e4, ← e2, ← zpow_mul, ← zpow_mul,
      ← zpow_add]
    have h1 : (c ^ ((p : ℤ) ^ 4 - (p : ℤ) ^ 2 + 1)) ^ n = 1 := by rw [hc, one_zpow]
    rw [← zpow_mul] at h1
    have h2 : n * (p : ℤ) ^ 4 + n = ((p : ℤ) ^ 4 - (p : ℤ) ^ 2 + 1) * n + n * (p : ℤ) ^ 2 := by ring
    rw [h2, zpow_add, h1, one_mul])
  rw [← Units.val_mul, ← zpow_add] at this
  rwa [At, two_mul]

theorem inv {a : γ} {n : ℤ} (ha : At R12 c a n) : ∃ b, o.cycInverse a = some b ∧ At R12 c b (-n) := by
  obtain ⟨b, h1, h2⟩ := h.cycInverseZ ha
  refine ⟨b, h1, ?_⟩
  rw [← zpow_mul] at h2
  have e : n * (p : ℤ) ^ 6 = ((p : ℤ) ^ 4 - (p : ℤ) ^ 2 + 1) * (((p : ℤ) ^ 2 + 1) * n) + -n := by ring
  rw [e, zpow_add, zpow_mul, hc, one_zpow, one_mul] at h2
  exact h2

theorem cycPow (cfg : Config β) (hx : limbsVal cfg.x + 1 < 2 ^ (64 * cfg.x.length)) {a : γ} {n : ℤ}
    (ha : At R12 c a n) : ∃ b, cycPowX o cfg a = some b ∧ At R12 c b (n * limbsVal cfg.x) := by
  obtain ⟨zs, h1, h2, h3, -⟩ := toNAFGo_spec (w := 64) (by norm_num) (64 * cfg.x.length + 1) cfg.x hx
    (by rw [pow_succ]; have := limbsVal_lt cfg.x; omega)
  obtain ⟨i, hi, ri⟩ := inv h hc ha
  have hz : o.fp12.isZero a = false := by
    rw [Bool.eq_false_iff]
    intro hz
    exact (c ^ n).ne_zero ((h.fp12.isZero ha).1 hz)
  have hn : toNAF cfg.x = some zs := h1
  refine ⟨_, by simp only [cycPowX, cyclotomicPowNAF, hz, hn, hi]; rfl, ?_⟩
  have := doCyclotomicPowGo_rel (M := WithZero Lˣ)
    (R := fun a m => ∃ n : ℤ, m = ((c ^ n : Lˣ) : WithZero Lˣ) ∧ At R12 c a n)
    (mul := o.fp12.mul) (sq := o.cycSquare) (f := a) (y := ((c ^ n : Lˣ) : WithZero Lˣ)) (inv := some i)
    WithZero.coe_ne_zero ⟨n, rfl, ha⟩
    (by
      intro i' hi'
      simp only [Option.mem_def, Option.some.injEq] at hi'
      subst hi'
      exact ⟨-n, by rw [zpow_neg]; rfl, ri⟩)
    (by
      rintro a b x z ⟨n1, rfl, ha⟩ ⟨n2, rfl, hb⟩
      exact ⟨n1 + n2, by rw [zpow_add]; rfl, mul h ha hb⟩)
    (by
      rintro a x ⟨n1, rfl, ha⟩ -
      exact ⟨2 * n1, by rw [two_mul, zpow_add]; rfl, sq h hc ha⟩)
    zs.reverse false 0 o.fp12.one (by simpa using h3) (by simp) (by simp)
    ⟨0, by simp, by simpa [At] using h.fp12.one⟩
  obtain ⟨m, e, hm⟩ := this
  rw [List.reverse_reverse, h2, zero_mul, zero_add, ← WithZero.coe_zpow, WithZero.coe_inj, ← zpow_mul] at e
  rw [At, e]
  exact hm

theorem powX (cfg : Config β) (hx : limbsVal cfg.x + 1 < 2 ^ (64 * cfg.x.length)) {a : γ} {n : ℤ}
    (ha : At R12 c a n) : ∃ b, powByX o cfg a = some b ∧ At R12 c b (n * cfg.xInt) := by
  obtain ⟨b, h1, h2⟩ := cycPow h hc cfg hx ha
  by_cases hn : cfg.xIsNegative
  · obtain ⟨d, h3, h4⟩ := inv h hc h2
    exact ⟨d, by simp [powByX, h1, inverseIf, hn, h3], by simpa [Config.xInt, hn] using h4⟩
  · exact ⟨b, by simp [powByX, h1, inverseIf, hn], by simpa [Config.xInt, hn] using h2⟩

theorem powNegX (cfg : Config β) (hx : limbsVal cfg.x + 1 < 2 ^ (64 * cfg.x.length)) {a : γ} {n : ℤ}
    (ha : At R12 c a n) : ∃ b, powByNegX o cfg a = some b ∧ At R12 c b (n * -cfg.xInt) := by
  obtain ⟨b, h1, h2⟩ := cycPow h hc cfg hx ha
  by_cases hn : cfg.xIsNegative
  · exact ⟨b, by simp [powByNegX, h1, inverseIf, hn], by simpa [Config.xInt, hn] using h2⟩
  · obtain ⟨d, h3, h4⟩ := inv h hc h2
    exact ⟨d, by simp [powByNegX, h1, inverseIf, hn, h3], by simpa [Config.xInt, hn] using h4⟩

end At

variable [Nontrivial L]

/-- The exponent of the hard part of the BN curves, as written in bn/bn_curve.h:107-110. -/
theorem bn_final (h : o.Implements R1 R2 R12 ι j w ξ p) (cfg : Config β)
    (hx : limbsVal cfg.x + 1 < 2 ^ (64 * cfg.x.length)) {a : γ} {u : Lˣ} (ha : R12 a u) {x q : ℤ}
    (ex : cfg.xInt = x) (eq : (p : ℤ) = q) :
    ∃ g, bnFinalExponentiation o cfg a = some g ∧ R12 g ((u ^ ((q ^ 6 - 1) * (q ^ 2 + 1) *
      (q ^ 3 * (12 * x ^ 3 + 6 * x ^ 2 + 4 * x - 1) + q ^ 2 * (12 * x ^ 3 + 6 * x ^ 2 + 6 * x)
        + q * (12 * x ^ 3 + 6 * x ^ 2 + 4 * x) + (12 * x ^ 3 + 12 * x ^ 2 + 6 * x + 1))) : Lˣ) : L) := by
  obtain ⟨r, e0, r0⟩ := h.easy ha
  set c : Lˣ := u ^ (((p : ℤ) ^ 6 - 1) * ((p : ℤ) ^ 2 + 1)) with hcdef
  have hc : c ^ ((p : ℤ) ^ 4 - (p : ℤ) ^ 2 + 1) = 1 := by
    rw [hcdef, ← zpow_mul, show ((p : ℤ) ^ 6 - 1) * ((p : ℤ) ^ 2 + 1) * ((p : ℤ) ^ 4 - (p : ℤ) ^ 2 + 1)
      = (p : ℤ) ^ 12 - 1 by ring, h.unit_fixed]
  have a0 : At R12 c r 1 := by simpa [At] using r0
  obtain ⟨y0, e1, a1⟩ := a0.powNegX h hc cfg hx
  have a2 := a1.sq h hc
  have a3 := a2.sq h hc
  have a4 := a3.mul h a2
  obtain ⟨y4, e2, a5⟩ := a4.powNegX h hc cfg hx
  have a6 := a5.sq h hc
  obtain ⟨y6, e3, a7⟩ := a6.powNegX h hc cfg hx
  obtain ⟨y3, e4, a8⟩ := a4.inv h hc
  obtain ⟨y6', e5, a9⟩ := a7.inv h hc
  have b7 := a9.mul h a5
  have b8 := b7.mul h a8
  have b9 := b8.mul h a2
  have b11 := (b8.mul h a5).mul h a0
  have b13 := (b9.frob h 1).mul h b11
  have b14 := (b8.frob h 2).mul h b13
  obtain ⟨r', e6, c0⟩ := a0.inv h hc
  have c16 := ((c0.mul h b9).frob h 3).mul h b14
  refine ⟨_, by simp only [bnFinalExponentiation, e0, e1, e2, e3, e4, e5, e6, Option.bind_eq_bind, Option.bind_some]; rfl, ?_⟩
  have := c16
  rw [At, hcdef, ← zpow_mul] at this
  convert this using 3
  rw [ex, eq]
  ring

/-- The exponent of the hard part of the BLS12 curves. -/
theorem bls_final (h : o.Implements R1 R2 R12 ι j w ξ p) (cfg : Config β)
    (hx : limbsVal cfg.x + 1 < 2 ^ (64 * cfg.x.length)) {a : γ} {u : Lˣ} (ha : R12 a u) {x q : ℤ}
    (ex : cfg.xInt = x) (eq : (p : ℤ) = q) :
    ∃ g, blsFinalExponentiation o cfg a = some g ∧ R12 g ((u ^ ((q ^ 6 - 1) * (q ^ 2 + 1) *
      ((x - 1) ^ 2 * (x + q) * (x ^ 2 + q ^ 2 - 1) + 3)) : Lˣ) : L) := by
  obtain ⟨r, e0, r0⟩ := h.easy ha
  set c : Lˣ := u ^ (((p : ℤ) ^ 6 - 1) * ((p : ℤ) ^ 2 + 1)) with hcdef
  have hc : c ^ ((p : ℤ) ^ 4 - (p : ℤ) ^ 2 + 1) = 1 := by
    rw [hcdef, ← zpow_mul, show ((p : ℤ) ^ 6 - 1) * ((p : ℤ) ^ 2 + 1) * ((p : ℤ) ^ 4 - (p : ℤ) ^ 2 + 1)
      = (p : ℤ) ^ 12 - 1 by ring, h.unit_fixed]
  have a0 : At R12 c r 1 := by simpa [At] using r0
  have a1 := a0.sq h hc
  obtain ⟨y1, e1, b1⟩ := a0.powX h hc cfg hx
  obtain ⟨y2, e2, b2⟩ := a0.inv h hc
  have b3 := b1.mul h b2
  obtain ⟨z2, e3, b4⟩ := b3.powX h hc cfg hx
  obtain ⟨z1, e4, b5⟩ := b3.inv h hc
  have b6 := b5.mul h b4
  obtain ⟨v2, e5, b7⟩ := b6.powX h hc cfg hx
  have b8 := (b6.frob h 1).mul h b7
  have b9 := a0.mul h a1
  obtain ⟨v0, e6, c1⟩ := b8.powX h hc cfg hx
  obtain ⟨t2, e7, c2⟩ := c1.powX h hc cfg hx
  obtain ⟨t1, e8, c3⟩ := b8.inv h hc
  have c4 := ((c3.mul h c2).mul h (b8.frob h 2))
  have c5 := b9.mul h c4
  refine ⟨_, by simp only [blsFinalExponentiation, e0, e1, e2, e3, e4, e5, e6, e7, e8, Option.bind_eq_bind, Option.bind_some]; rfl, ?_⟩
  have := c5
  rw [At, hcdef, ← zpow_mul] at this
  convert this using 3
  rw [ex, eq]
  ring

omit [Nontrivial L] in
/-- Zero makes the easy part fail. -/
theorem easy_zero (h : o.Implements R1 R2 R12 ι j w ξ p) {a : γ} (ha : R12 a 0) : easyPart o a = none := by
  simp [easyPart, h.cycInverse_none ha rfl]

end Tachyon.Pairing
