import Verif.Proofs.FrobTable
/-! Products with sparse operands in towers, multiplication by non-residues. -/
namespace Tachyon
open Polynomial

variable {α K : Type*} [CommRing K] {o : FieldOps α} {R : α → K → Prop} {q : K}

theorem ring034 {S : Type*} [CommRing S] {X Y Q : S} (hx : X ^ 3 = Q) (hy : Y ^ 2 = X)
    (z0 z1 z2 z3 z4 z5 w0 w3 w4 : S) :
    (z0 + z1 * X + z2 * X ^ 2 + (z3 + z4 * X + z5 * X ^ 2) * Y) * (w0 + (w3 + w4 * X) * Y)
      = z0 * w0 + z4 * (Q * w4) + z5 * (Q * w3) + (z1 * w0 + z3 * w3 + z5 * (Q * w4)) * X
          + (z2 * w0 + z3 * w4 + z4 * w3) * X ^ 2
        + (z0 * w3 + z2 * (Q * w4) + z3 * w0 + (z0 * w4 + z1 * w3 + z4 * w0) * X
          + (z1 * w4 + z2 * w3 + z5 * w0) * X ^ 2) * Y := by
  linear_combination (z3 + z4 * X + z5 * X ^ 2) * (w3 + w4 * X) * hy
    + (z4 * w4 + z5 * w3 + z5 * w4 * X) * hx + z2 * w4 * Y * hx

theorem ring014 {S : Type*} [CommRing S] {X Y Q : S} (hx : X ^ 3 = Q) (hy : Y ^ 2 = X)
    (z0 z1 z2 z3 z4 z5 w0 w1 w4 : S) :
    (z0 + z1 * X + z2 * X ^ 2 + (z3 + z4 * X + z5 * X ^ 2) * Y) * (w0 + w1 * X + w4 * X * Y)
      = z0 * w0 + z2 * (Q * w1) + z4 * (Q * w4) + (z0 * w1 + z1 * w0 + z5 * (Q * w4)) * X
          + (z1 * w1 + z2 * w0 + z3 * w4) * X ^ 2
        + (z2 * (Q * w4) + z3 * w0 + z5 * (Q * w1) + (z0 * w4 + z3 * w1 + z4 * w0) * X
          + (z1 * w4 + z4 * w1 + z5 * w0) * X ^ 2) * Y := by
  linear_combination (z3 + z4 * X + z5 * X ^ 2) * (w4 * X) * hy
    + (z4 * w4 + z5 * w4 * X) * hx + (z2 * w1 + z2 * w4 * Y + z5 * w1 * Y) * hx

namespace Fp6
variable {cfg : Ext3Config α}

theorem mulBy1_rel (h : o.Implements R) (hq : ∀ {a x}, R a x → R (cfg.mulByNonResidue a) (q * x))
    {a : Ext3 α} {x} {b1 : α} {y1 : K} (ha : Ext3.Rel R q a x) (h1 : R b1 y1) :
    Ext3.Rel R q (mulBy1 o cfg a b1) (x * (Ext.of 3 q y1 * Ext.x 3 q)) := by
  obtain ⟨x0, x1, x2, a0, a1, a2, rfl⟩ := ha
  refine ⟨_, _, _, hq (h.mul a2 h1), h.mul a0 h1, h.mul a1 h1, ?_⟩
  have hx := Ext.x_pow 3 q
  simp only [map_mul]
  linear_combination Ext.of 3 q x2 * Ext.of 3 q y1 * hx

theorem mulBy01_rel (h : o.Implements R) (hq : ∀ {a x}, R a x → R (cfg.mulByNonResidue a) (q * x))
    {a : Ext3 α} {x} {b0 b1 : α} {y0 y1 : K} (ha : Ext3.Rel R q a x) (h0 : R b0 y0) (h1 : R b1 y1) :
    Ext3.Rel R q (mulBy01 o cfg a b0 b1) (x * (Ext.of 3 q y0 + Ext.of 3 q y1 * Ext.x 3 q)) := by
  obtain ⟨x0, x1, x2, a0, a1, a2, rfl⟩ := ha
  refine ⟨_, _, _, h.add (hq (h.mul a2 h1)) (h.mul a0 h0), h.add (h.mul a0 h1) (h.mul a1 h0),
    h.add (h.mul a2 h0) (h.mul a1 h1), ?_⟩
  have hx := Ext.x_pow 3 q
  simp only [map_mul, map_add]
  linear_combination Ext.of 3 q x2 * Ext.of 3 q y1 * hx

theorem mulBy034_rel (h : o.Implements R)
    (hq : ∀ {a x}, R a x → R (cfg.mulByNonResidue a) (q * x))
    {a : Ext2 (Ext3 α)} {x} {b0 b3 b4 : α} {y0 y3 y4 : K}
    (ha : Ext2.Rel (Ext3.Rel R q) (Ext.x 3 q) a x) (h0 : R b0 y0) (h3 : R b3 y3) (h4 : R b4 y4) :
    Ext2.Rel (Ext3.Rel R q) (Ext.x 3 q) (mulBy034 o cfg a b0 b3 b4)
      (x * (Ext.of 2 _ (Ext.of 3 q y0)
        + Ext.of 2 _ (Ext.of 3 q y3 + Ext.of 3 q y4 * Ext.x 3 q) * Ext.x 2 (Ext.x 3 q))) := by
  obtain ⟨u, v, ⟨x0, x1, x2, a0, a1, a2, rfl⟩, ⟨x3, x4, x5, a3, a4, a5, rfl⟩, rfl⟩ := ha
  refine ⟨_, _,
    ⟨_, _, _, h.add (h.add (h.mul a0 h0) (h.mul a4 (hq h4))) (h.mul a5 (hq h3)),
      h.add (h.add (h.mul a1 h0) (h.mul a3 h3)) (h.mul a5 (hq h4)),
      h.add (h.add (h.mul a2 h0) (h.mul a3 h4)) (h.mul a4 h3), rfl⟩,
    ⟨_, _, _, h.add (h.add (h.mul a0 h3) (h.mul a2 (hq h4))) (h.mul a3 h0),
      h.add (h.add (h.mul a0 h4) (h.mul a1 h3)) (h.mul a4 h0),
      h.add (h.add (h.mul a1 h4) (h.mul a2 h3)) (h.mul a5 h0), rfl⟩, ?_⟩
  have hx : Ext.of 2 (Ext.x 3 q) (Ext.x 3 q) ^ 3 = Ext.of 2 (Ext.x 3 q) (Ext.of 3 q q) := by
    rw [← map_pow, Ext.x_pow]
  have hy := Ext.x_pow 2 (Ext.x 3 q)
  simp only [map_mul, map_add, map_pow]
  exact ring034 hx hy _ _ _ _ _ _ _ _ _


theorem mulBy014_rel (h : o.Implements R)
    (hq : ∀ {a x}, R a x → R (cfg.mulByNonResidue a) (q * x))
    {a : Ext2 (Ext3 α)} {x} {b0 b1 b4 : α} {y0 y1 y4 : K}
    (ha : Ext2.Rel (Ext3.Rel R q) (Ext.x 3 q) a x) (h0 : R b0 y0) (h1 : R b1 y1) (h4 : R b4 y4) :
    Ext2.Rel (Ext3.Rel R q) (Ext.x 3 q) (mulBy014 o cfg a b0 b1 b4)
      (x * (Ext.of 2 _ (Ext.of 3 q y0 + Ext.of 3 q y1 * Ext.x 3 q)
        + Ext.of 2 _ (Ext.of 3 q y4 * Ext.x 3 q) * Ext.x 2 (Ext.x 3 q))) := by
  obtain ⟨u, v, ⟨x0, x1, x2, a0, a1, a2, rfl⟩, ⟨x3, x4, x5, a3, a4, a5, rfl⟩, rfl⟩ := ha
  refine ⟨_, _,
    ⟨_, _, _, h.add (h.add (h.mul a0 h0) (h.mul a2 (hq h1))) (h.mul a4 (hq h4)),
      h.add (h.add (h.mul a0 h1) (h.mul a1 h0)) (h.mul a5 (hq h4)),
      h.add (h.add (h.mul a1 h1) (h.mul a2 h0)) (h.mul a3 h4), rfl⟩,
    ⟨_, _, _, h.add (h.add (h.mul a2 (hq h4)) (h.mul a3 h0)) (h.mul a5 (hq h1)),
      h.add (h.add (h.mul a0 h4) (h.mul a3 h1)) (h.mul a4 h0),
      h.add (h.add (h.mul a1 h4) (h.mul a4 h1)) (h.mul a5 h0), rfl⟩, ?_⟩
  have hx : Ext.of 2 (Ext.x 3 q) (Ext.x 3 q) ^ 3 = Ext.of 2 (Ext.x 3 q) (Ext.of 3 q q) := by
    rw [← map_pow, Ext.x_pow]
  have hy := Ext.x_pow 2 (Ext.x 3 q)
  simp only [map_mul, map_add, map_pow]
  exact ring014 hx hy _ _ _ _ _ _ _ _ _

end Fp6

namespace Fp12
variable {cfg6 : Ext3Config α}

theorem mulByX2_rel {cfg : Ext2Config α}
    (hq : ∀ {a x}, R a x → R (cfg.mulByNonResidue a) (q * x)) {a : Ext2 α} {x}
    (ha : Ext2.Rel R q a x) : Ext2.Rel R q (mulByX2 cfg a) (Ext.x 2 q * x) := by
  obtain ⟨x0, x1, a0, a1, rfl⟩ := ha
  refine ⟨_, _, hq a1, a0, ?_⟩
  have hx := Ext.x_pow 2 q
  simp only [map_mul]
  linear_combination Ext.of 2 q x1 * hx

theorem mulByX3_rel (hq : ∀ {a x}, R a x → R (cfg6.mulByNonResidue a) (q * x)) {a : Ext3 α} {x}
    (ha : Ext3.Rel R q a x) : Ext3.Rel R q (mulByX3 cfg6 a) (Ext.x 3 q * x) := by
  obtain ⟨x0, x1, x2, a0, a1, a2, rfl⟩ := ha
  refine ⟨_, _, _, hq a2, a0, a1, ?_⟩
  have hx := Ext.x_pow 3 q
  simp only [map_mul]
  linear_combination Ext.of 3 q x2 * hx

theorem mulBy034_rel [Nontrivial K] (h : o.Implements R)
    (hq : ∀ {a x}, R a x → R (cfg6.mulByNonResidue a) (q * x)) {Q : Ext 3 q}
    {nr : Ext3 α → Ext3 α} (hn : ∀ {a x}, Ext3.Rel R q a x → Ext3.Rel R q (nr a) (Q * x))
    {a : Ext2 (Ext3 α)} {x} {b0 b3 b4 : α} {y0 y3 y4 : K}
    (ha : Ext2.Rel (Ext3.Rel R q) Q a x) (h0 : R b0 y0) (h3 : R b3 y3) (h4 : R b4 y4) :
    Ext2.Rel (Ext3.Rel R q) Q (mulBy034 o cfg6 nr a b0 b3 b4)
      (x * (Ext.of 2 Q (Ext.of 3 q y0)
        + Ext.of 2 Q (Ext.of 3 q y3 + Ext.of 3 q y4 * Ext.x 3 q) * Ext.x 2 Q)) := by
  obtain ⟨u, v, hu, hv, rfl⟩ := ha
  have h' := Ext3.implements h hq
  have e1 := Ext3.mulBase_rel h hu h0
  have e2 := Fp6.mulBy01_rel h hq hv h3 h4
  have e3 := Fp6.mulBy01_rel h hq (h'.add hv hu) (h.add h0 h3) h4
  refine ⟨_, _, h'.add (hn e2) e1, h'.sub (h'.sub e3 e1) e2, ?_⟩
  have hy := Ext.x_pow 2 Q
  simp only [map_mul, map_add, map_sub] at *
  generalize Ext.x 2 Q = Y at *
  generalize Ext.of 2 Q Q = T at *
  linear_combination (Ext.of 2 Q v) *
    (Ext.of 2 Q (Ext.of 3 q y3) + Ext.of 2 Q (Ext.of 3 q y4) * Ext.of 2 Q (Ext.x 3 q)) * hy

theorem mulBy014_rel [Nontrivial K] (h : o.Implements R)
    (hq : ∀ {a x}, R a x → R (cfg6.mulByNonResidue a) (q * x)) {Q : Ext 3 q}
    {nr : Ext3 α → Ext3 α} (hn : ∀ {a x}, Ext3.Rel R q a x → Ext3.Rel R q (nr a) (Q * x))
    {a : Ext2 (Ext3 α)} {x} {b0 b1 b4 : α} {y0 y1 y4 : K}
    (ha : Ext2.Rel (Ext3.Rel R q) Q a x) (h0 : R b0 y0) (h1 : R b1 y1) (h4 : R b4 y4) :
    Ext2.Rel (Ext3.Rel R q) Q (mulBy014 o cfg6 nr a b0 b1 b4)
      (x * (Ext.of 2 Q (Ext.of 3 q y0 + Ext.of 3 q y1 * Ext.x 3 q)
        + Ext.of 2 Q (Ext.of 3 q y4 * Ext.x 3 q) * Ext.x 2 Q)) := by
  obtain ⟨u, v, hu, hv, rfl⟩ := ha
  have h' := Ext3.implements h hq
  have e1 := Fp6.mulBy01_rel h hq hu h0 h1
  have e2 := Fp6.mulBy1_rel h hq hv h4
  have e3 := Fp6.mulBy01_rel h hq (h'.add hv hu) h0 (h.add h1 h4)
  refine ⟨_, _, h'.add (hn e2) e1, h'.sub (h'.sub e3 e1) e2, ?_⟩
  have hy := Ext.x_pow 2 Q
  simp only [map_mul, map_add, map_sub] at *
  generalize Ext.x 2 Q = Y at *
  generalize Ext.of 2 Q Q = T at *
  linear_combination (Ext.of 2 Q v) *
    (Ext.of 2 Q (Ext.of 3 q y4) * Ext.of 2 Q (Ext.x 3 q)) * hy

end Fp12

/-! ## Multiplication by the non-residue -/

theorem fastMulBits_rel (h : o.Implements R) {v : α} {x : K} (hv : R v x) :
    ∀ (bs : List Bool) (acc : α) (n : ℕ), R acc (n * x) →
      R (fastMulBits o v bs acc) (((bs.foldl (fun m b => 2 * m + b.toNat) n : ℕ) : K) * x)
  | [], _, _, hacc => hacc
  | b :: bs, acc, n, hacc => by
    rw [fastMulBits, List.foldl_cons]
    apply fastMulBits_rel h hv bs
    cases b
    · have := h.double hacc
      rw [show (2 * n + false.toNat : ℕ) = n + n by simp; omega]
      push_cast
      rwa [add_mul]
    · have := h.add (h.double hacc) hv
      rw [show (2 * n + true.toNat : ℕ) = n + n + 1 by simp; omega]
      push_cast
      rwa [add_mul, add_mul, one_mul]

theorem foldl_bits (n : ℕ) : ∀ k m, m = n >>> k →
    (((List.range k).map n.testBit).reverse).foldl (fun m b => 2 * m + b.toNat) m = n
  | 0, m, hm => by simpa using hm
  | k + 1, m, hm => by
    rw [List.range_succ, List.map_append, List.reverse_append]
    simp only [List.map_cons, List.map_nil, List.reverse_cons, List.reverse_nil, List.nil_append,
      List.cons_append, List.foldl_cons]
    apply foldl_bits n k
    rw [hm, Nat.shiftRight_succ, Nat.toNat_testBit]
    rw [Nat.shiftRight_eq_div_pow]
    omega

theorem fastMul_rel (h : o.Implements R) {v : α} {x : K} (hv : R v x) {c : ℤ} (hc : c ≠ 0) :
    ∃ r, fastMul o c v = some r ∧ R r (c * x) := by
  unfold fastMul
  rw [if_neg hc]
  have hb : R (fastMulBits o v (bitsBelowTop c.natAbs) v) ((c.natAbs : K) * x) := by
    have h1 := fastMulBits_rel h hv (bitsBelowTop c.natAbs) v 1 (by simpa using hv)
    have h2 : (bitsBelowTop c.natAbs).foldl (fun m b => 2 * m + b.toNat) 1 = c.natAbs := by
      apply foldl_bits
      have hn : c.natAbs ≠ 0 := by omega
      rw [Nat.shiftRight_eq_div_pow]
      symm
      rw [Nat.div_eq_iff (by positivity)]
      have h3 := Nat.log2_self_le hn
      have h4 := Nat.lt_log2_self (n := c.natAbs)
      rw [pow_succ] at h4
      omega
    rwa [h2] at h1
  refine ⟨_, rfl, ?_⟩
  split
  · rename_i hneg
    have := h.neg hb
    have e : (c : K) = -(c.natAbs : K) := by
      rw [← Int.cast_natCast, ← Int.cast_neg]; congr 1; omega
    rwa [e, neg_mul]
  · rename_i hneg
    have e : (c : K) = (c.natAbs : K) := by
      rw [← Int.cast_natCast]; congr 1; omega
    rwa [e]

theorem bn254MulByNonResidue_rel (h : o.Implements R) {nr : α → α}
    (hq : ∀ {a x}, R a x → R (nr a) (q * x)) {a : Ext2 α} {x} (ha : Ext2.Rel R q a x) :
    Ext2.Rel R q (bn254MulByNonResidue o nr a) ((9 + Ext.x 2 q) * x) := by
  obtain ⟨x0, x1, a0, a1, rfl⟩ := ha
  have d0 := h.double (h.double (h.double a0))
  have d1 := h.double (h.double (h.double a1))
  refine ⟨_, _, h.add (h.add (hq a1) d0) a0, h.add (h.add d1 a1) a0, ?_⟩
  have hx := Ext.x_pow 2 q
  simp only [map_mul, map_add]
  linear_combination Ext.of 2 q x1 * hx

theorem bls12MulByNonResidue_rel (h : o.Implements R) (hq : q = -1) {a : Ext2 α} {x}
    (ha : Ext2.Rel R q a x) :
    Ext2.Rel R q (bls12MulByNonResidue o a) ((1 + Ext.x 2 q) * x) := by
  obtain ⟨x0, x1, a0, a1, rfl⟩ := ha
  refine ⟨_, _, h.sub a0 a1, h.add a0 a1, ?_⟩
  have hx := Ext.x_pow 2 q
  rw [hq] at hx ⊢
  simp only [map_add, map_sub, map_neg, map_one] at *
  linear_combination Ext.of 2 (-1) x1 * hx

end Tachyon
