import Verif.Proofs.Pow
/-!
# Properties C19 and C20: exponentiation and scalar multiplication
-/
namespace Tachyon.Props
open Tachyon.BigInt

variable {w : Nat} {α β : Type*}

/-- C19: `Pow(e)` on stored values denotes `y ^ e`, for every representation whose `One`, `Mul` and
`Square` denote the operations of a monoid, every limb width and count, every exponent. -/
theorem C19_pow_represented {M : Type*} [Monoid M] (o : MulOps α) (R : α → M → Prop)
    (hone : R o.one 1) (hmul : ∀ a b x y, R a x → R b y → R (o.mul a b) (x * y))
    (hsquare : ∀ a x, R a x → R (o.square a) (x * x))
    (hw : 0 < w) (g : α) (y : M) (hg : R g y) (e : List (BitVec w)) :
    R (doPow o g e) (y ^ limbsVal e) :=
  doPow_rel ⟨hone, @fun a b x y => hmul a b x y, @fun a x => hsquare a x⟩ hw hg e

/-- C19: `Pow(e)` in a monoid. -/
theorem C19_pow {M : Type*} [Monoid M] (hw : 0 < w) (g : M) (e : List (BitVec w)) :
    doPow ⟨1, (· * ·), fun x => x * x⟩ g e = g ^ limbsVal e :=
  doPow_rel (R := Eq) ⟨rfl, by rintro _ _ _ _ rfl rfl; rfl, by rintro _ _ rfl; rfl⟩ hw rfl e

-- 3 ^ (5 + 2^4 * 1) on two 4-bit limbs
example : doPow ⟨1, (· * ·), fun x => x * x⟩ 3 [5#4, 1#4] = 3 ^ 21 := by decide

/-- C19: `ConstPow<Power>` for every 32-bit power. -/
theorem C19_constPow {M : Type*} [Monoid M] (g : M) (p : BitVec 32) :
    constPow ⟨1, (· * ·), fun x => x * x⟩ p g = g ^ p.toNat :=
  constPow_rel (R := Eq) ⟨rfl, by rintro _ _ _ _ rfl rfl; rfl, by rintro _ _ rfl; rfl⟩ rfl p

example : constPow ⟨1, (· * ·), fun x => x * x⟩ 7#32 3 = 2187 ∧
    constPow ⟨1, (· * ·), fun x => x * x⟩ 11#32 2 = 2048 := by decide

/-- C19: `PowWithTable` with a table of successive squarings returns the power when the table
covers the exponent ... -/
theorem C19_powWithTable {M : Type*} [Monoid M] (hw : 0 < w) (g : M) (table : List M)
    (htable : ∀ (i : Nat) (h : i < table.length), table[i] = g ^ 2 ^ i) (e : List (BitVec w))
    (hlen : limbsVal e < 2 ^ table.length) :
    powWithTable ⟨1, (· * ·), fun x => x * x⟩ table e = some (g ^ limbsVal e) := by
  obtain ⟨r, h1, h2⟩ := powWithTable_rel (R := Eq) (y := g)
    (o := ⟨1, (· * ·), fun x => x * x⟩)
    ⟨rfl, by rintro _ _ _ _ rfl rfl; rfl, by rintro _ _ rfl; rfl⟩ hw e table (by
      intro j hj
      have h1 := Nat.ge_two_pow_of_testBit hj
      have hjl : j < table.length := (Nat.pow_lt_pow_iff_right (by omega : 1 < 2)).1
        (h1.trans_lt hlen)
      exact ⟨table[j], List.getElem?_eq_getElem hjl, htable j hjl⟩)
  rw [h1, h2]

/-- ... and otherwise reads past the end of the table: `e ≥ 2 ^ table.length` exactly characterises
the out-of-bounds access. -/
theorem C19_powWithTable_short {M : Type*} [Monoid M] (hw : 0 < w) (table : List M)
    (e : List (BitVec w)) (hlen : 2 ^ table.length ≤ limbsVal e) :
    powWithTable ⟨1, (· * ·), fun x => x * x⟩ table e = none := by
  obtain ⟨i, hi, hb⟩ := Nat.exists_ge_and_testBit_of_ge_two_pow hlen
  exact powWithTableGo_none hw e table _ 0 _ i hb (Nat.zero_le _)
    (by rw [Nat.zero_add]; exact (leEnd_spec hw e).2 i hb) (List.getElem?_eq_none hi)

example : powWithTable ⟨1, (· * ·), fun x => x * x⟩ [3, 9, 81] [5#64] = some (3 ^ 5) ∧
    powWithTable ⟨1, (· * ·), fun x => x * x⟩ [3, 9, 81] [9#64] = none := by decide

/-- C19: `ExpPowOfTwo`. -/
theorem C19_expPowOfTwo {M : Type*} [Monoid M] (g : M) (n : Nat) :
    expPowOfTwo ⟨1, (· * ·), fun x => x * x⟩ n g = g ^ 2 ^ n :=
  expPowOfTwo_rel (R := Eq) ⟨rfl, by rintro _ _ _ _ rfl rfl; rfl, by rintro _ _ rfl; rfl⟩ n g g rfl

/-- C19: the NAF-based `CyclotomicPow` returns `f ^ e` for every non-zero `f` whose powers are
squared correctly by the cyclotomic squaring and whose cyclotomic inverse is its inverse, for every
exponent other than the all-ones one. -/
theorem C19_cyclotomicPow {F : Type*} [GroupWithZero F] [DecidableEq F] (hw : 2 ≤ w)
    (cycSquare : F → F) (cycInverse : F → Option F) (f : F) (hf : f ≠ 0)
    (hsq : ∀ k : Int, cycSquare (f ^ k) = f ^ k * f ^ k) (hinv : cycInverse f = some f⁻¹)
    (e : List (BitVec w)) (he : limbsVal e + 1 < 2 ^ (w * e.length)) :
    cyclotomicPowNAF 0 1 (fun x => decide (x = 0)) (· * ·) cycSquare cycInverse f e =
      some (f ^ limbsVal e) := by
  obtain ⟨zs, h1, h2, h3, _⟩ := toNAFGo_spec hw (w * e.length + 1) e he
    (by rw [pow_succ]; have := limbsVal_lt e; omega)
  have hn : toNAF e = some zs := h1
  rw [cyclotomicPowNAF, hn, hinv]
  simp only [decide_eq_false hf, Bool.false_eq_true, if_false]
  have := doCyclotomicPowGo_rel (R := Eq) (mul := (· * ·)) (sq := cycSquare) (f := f) (y := f)
    (inv := some f⁻¹) hf rfl (by simp) (by rintro _ _ _ _ rfl rfl; rfl)
    (by rintro _ _ rfl ⟨k, rfl⟩; exact hsq k) zs.reverse false 0 1
    (by simpa using h3) (by simp) (by simp) (by simp)
  rw [this, List.reverse_reverse, h2]
  simp

/-- C19, disagreement: with the all-ones exponent `2^(w*N) - 1` the same function returns `f⁻¹`. -/
theorem C19_cyclotomicPow_all_ones {F : Type*} [GroupWithZero F] [DecidableEq F]
    (cycSquare : F → F) (cycInverse : F → Option F) (f : F) (hf : f ≠ 0)
    (hinv : cycInverse f = some f⁻¹) (e : List (BitVec w)) (hnaf : toNAF e = some [-1]) :
    cyclotomicPowNAF 0 1 (fun x => decide (x = 0)) (· * ·) cycSquare cycInverse f e =
      some f⁻¹ := by
  rw [cyclotomicPowNAF, hnaf, hinv]
  simp [decide_eq_false hf, doCyclotomicPowGo]

example : toNAF [0xffffffffffffffff#64] = some [-1] := by decide

/-- C19: the bit-based `CyclotomicPow` returns `f ^ e` for every non-zero `f`, every exponent. -/
theorem C19_cyclotomicPow_bits {F : Type*} [GroupWithZero F] [DecidableEq F] (hw : 0 < w)
    (cycSquare : F → F) (f : F) (hf : f ≠ 0)
    (hsq : ∀ k : Int, cycSquare (f ^ k) = f ^ k * f ^ k) (e : List (BitVec w)) :
    cyclotomicPowBits 0 1 (fun x => decide (x = 0)) (· * ·) cycSquare f e = f ^ limbsVal e := by
  rw [cyclotomicPowBits]
  simp only [decide_eq_false hf, Bool.false_eq_true, if_false]
  have := doCyclotomicPowGo_rel (R := Eq) (mul := (· * ·)) (sq := cycSquare) (f := f) (y := f)
    (inv := none) hf rfl (by simp) (by rintro _ _ _ _ rfl rfl; rfl)
    (by rintro _ _ rfl ⟨k, rfl⟩; exact hsq k) ((bitsBE e).map (fun b => if b then 1 else 0))
    false 0 1 (by intro v hv; simp only [List.mem_map] at hv; obtain ⟨b, _, rfl⟩ := hv
                  cases b <;> simp)
    (by intro _ v hv; simp only [List.mem_map] at hv; obtain ⟨b, _, rfl⟩ := hv
        cases b <;> simp)
    (by simp) (by simp)
  rw [this]
  have hv : digitsVal 2 ((bitsBE e).map (fun b => if b then (1 : Int) else 0)).reverse =
      (limbsVal e : Int) := by
    unfold bitsBE
    split
    · rename_i h
      rw [beBegin_none hw e h]; rfl
    · rename_i i h
      rw [← List.map_reverse, ← List.map_reverse, List.reverse_reverse, List.map_map]
      have := digitsVal_bits (limbsVal e) (i + 1)
      rw [Nat.mod_eq_of_lt (beBegin_some hw e i h).2] at this
      rw [← this]
      congr 1
      apply List.map_congr_left
      intro j _
      simp [testBit_spec hw]
  rw [hv]; simp

/-- C19, boundary: both `CyclotomicPow` variants return zero on a zero base, also for exponent 0
where `Pow` returns one. -/
theorem C19_cyclotomicPow_zero {F : Type*} [GroupWithZero F] [DecidableEq F]
    (cycSquare : F → F) (cycInverse : F → Option F) (e : List (BitVec w)) :
    cyclotomicPowNAF 0 1 (fun x => decide (x = 0)) (· * ·) cycSquare cycInverse (0 : F) e = some 0 ∧
    cyclotomicPowBits 0 1 (fun x => decide (x = 0)) (· * ·) cycSquare (0 : F) e = 0 := by
  simp [cyclotomicPowNAF, cyclotomicPowBits]

-- 2^7 in the rationals through the digits -1,0,0,1
example : cyclotomicPowNAF 0 1 (fun x => decide (x = 0)) (· * ·) (fun x => x * x)
    (fun x => some x⁻¹) (2 : ℚ) [7#64] = some 128 := by decide +kernel

/-- C20: `ScalarMul(k)` on stored values denotes `k • y`, for every representation whose `Zero`,
`Add` and `Double` denote those of an additive monoid; the accumulator type may differ from the
operand type (affine bases with Jacobian accumulators). -/
theorem C20_scalarMul_represented {M : Type*} [AddMonoid M] (o : AddOps β α) (S : β → M → Prop)
    (R : α → M → Prop) (hzero : S o.zero 0)
    (hadd : ∀ a b x y, S a x → R b y → S (o.add a b) (x + y))
    (hdouble : ∀ a x, S a x → S (o.double a) (x + x))
    (hw : 0 < w) (g : α) (y : M) (hg : R g y) (e : List (BitVec w)) :
    S (doScalarMul o g e) (limbsVal e • y) :=
  doScalarMul_rel ⟨hzero, @fun a b x y => hadd a b x y, @fun a x => hdouble a x⟩ hw hg e

/-- C20: `ScalarMul(k)` in an additive monoid. -/
theorem C20_scalarMul {M : Type*} [AddMonoid M] (hw : 0 < w) (g : M) (e : List (BitVec w)) :
    doScalarMul ⟨0, (· + ·), fun x => x + x⟩ g e = limbsVal e • g :=
  doScalarMul_rel (S := Eq) (R := Eq)
    ⟨rfl, by rintro _ _ _ _ rfl rfl; rfl, by rintro _ _ rfl; rfl⟩ hw rfl e

example : doScalarMul ⟨0, (· + ·), fun x => x + x⟩ (3 : Int) [5#4, 1#4] = 63 := by decide

/-- C20: leading zero limbs do not change the result (no additive structure assumed). -/
theorem C20_leading_zeros (o : AddOps β α) (hw : 0 < w) (g : α) (e e' : List (BitVec w))
    (h : limbsVal e = limbsVal e') : doScalarMul o g e = doScalarMul o g e' := by
  have hb : ∀ i, testBit e i = testBit e' i := fun i => by
    rw [testBit_spec hw, testBit_spec hw, h]
  have hgo : ∀ i r, doScalarMulGo o g e i r = doScalarMulGo o g e' i r := by
    intro i
    induction i with
    | zero => intro r; rfl
    | succ i ih => intro r; simp only [doScalarMulGo, hb, ih]
  have hbe : beBegin e = beBegin e' := by
    cases h1 : beBegin e with
    | none =>
      cases h2 : beBegin e' with
      | none => rfl
      | some j =>
        have := (beBegin_some hw e' j h2).1
        rw [← h, beBegin_none hw e h1] at this; simp at this
    | some i =>
      cases h2 : beBegin e' with
      | none =>
        have := (beBegin_some hw e i h1).1
        rw [h, beBegin_none hw e' h2] at this; simp at this
      | some j =>
        obtain ⟨a1, a2⟩ := beBegin_some hw e i h1
        obtain ⟨b1, b2⟩ := beBegin_some hw e' j h2
        rw [h] at a1 a2
        have ha := Nat.ge_two_pow_of_testBit a1
        have hb := Nat.ge_two_pow_of_testBit b1
        have h3 : i < j + 1 := (Nat.pow_lt_pow_iff_right (by omega : 1 < 2)).1 (ha.trans_lt b2)
        have h4 : j < i + 1 := (Nat.pow_lt_pow_iff_right (by omega : 1 < 2)).1 (hb.trans_lt a2)
        rw [show i = j by omega]
  unfold doScalarMul
  rw [hbe]
  split <;> simp [hgo]

/-- C20: `ConstScalarMul<k>` for every 64-bit scalar. -/
theorem C20_constScalarMul {M : Type*} [AddMonoid M] (g : M) (k : BitVec 64) :
    constScalarMul ⟨0, (· + ·), fun x => x + x⟩ k g = k.toNat • g :=
  constScalarMul_rel (R := Eq)
    ⟨rfl, by rintro _ _ _ _ rfl rfl; rfl, by rintro _ _ rfl; rfl⟩ rfl k

/-- C20: the three `MultiScalarMul` variants return all products, or fail exactly on mismatched
or zero sizes. -/
theorem C20_multiScalarMul {M : Type*} [AddMonoid M] (hw : 0 < w) (scalars : List (List (BitVec w)))
    (bases : List M) (n : Nat) (k : List (BitVec w)) (g : M) :
    let o : AddOps M M := ⟨0, (· + ·), fun x => x + x⟩
    multiScalarMulMSMB o scalars bases n =
      (if scalars.length = bases.length ∧ scalars.length = n ∧ n ≠ 0 then
        some (List.zipWith (fun b s => limbsVal s • b) bases scalars) else none) ∧
    multiScalarMulMSSB o scalars g n =
      (if scalars.length = n ∧ n ≠ 0 then some (scalars.map (fun s => limbsVal s • g)) else none) ∧
    multiScalarMulSSMB o k bases n =
      (if bases.length = n ∧ n ≠ 0 then some (bases.map (fun b => limbsVal k • b)) else none) := by
  intro o
  have h : ∀ (g : M) (s : List (BitVec w)), doScalarMul o g s = limbsVal s • g :=
    fun g s => C20_scalarMul hw g s
  have h1 : doScalarMul o (w := w) = fun g s => limbsVal s • g := by funext g s; exact h g s
  refine ⟨?_, ?_, ?_⟩
  · unfold multiScalarMulMSMB
    rw [h1]
    by_cases a : scalars.length = bases.length <;> by_cases b : scalars.length = n <;>
      by_cases c : n = 0 <;> simp_all
  · unfold multiScalarMulMSSB
    rw [h1]
    by_cases b : scalars.length = n <;> by_cases c : n = 0 <;> simp_all
  · unfold multiScalarMulSSMB
    rw [h1]
    by_cases b : bases.length = n <;> by_cases c : n = 0 <;> simp_all

example : multiScalarMulMSMB ⟨0, (· + ·), fun x => x + x⟩ [[3#64], [0#64]] [(5 : Int), 7] 2 =
    some [15, 0] := by decide

end Tachyon.Props
