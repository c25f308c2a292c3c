import Verif.Model.Pow
import Verif.Proofs.Divide
import Verif.Proofs.Serialize
import Verif.Spec.Digits
import Verif.Spec.Implements
import Mathlib.Algebra.GroupWithZero.Basic
import Mathlib.Algebra.Group.Units.Basic
import Mathlib.Algebra.BigOperators.Group.List.Basic
import Mathlib.Tactic.Ring
/-! # Lemmas about the exponentiation loops -/
namespace Tachyon
open Tachyon.BigInt

variable {w : Nat} {α β : Type*}

theorem mod_two_pow_succ (n i : Nat) :
    n % 2 ^ (i + 1) = (if n.testBit i then 2 ^ i else 0) + n % 2 ^ i := by
  rw [Nat.mod_pow_succ, Nat.testBit_eq_decide_div_mod_eq]
  rcases Nat.mod_two_eq_zero_or_one (n / 2 ^ i) with h | h
  · simp [h]
  · simp [h, Nat.add_comm]

theorem skipZerosDown_some (hw : 0 < w) (a : Limbs w) : ∀ (i j : Nat),
    skipZerosDown a i = some j → j < i ∧ (limbsVal a).testBit j = true ∧
      limbsVal a % 2 ^ i = limbsVal a % 2 ^ (j + 1)
  | 0, j, h => by simp [skipZerosDown] at h
  | i + 1, j, h => by
    rw [skipZerosDown, testBit_spec hw] at h
    by_cases hb : (limbsVal a).testBit i = true
    · rw [if_pos hb] at h
      obtain rfl := Option.some.inj h
      exact ⟨by omega, hb, rfl⟩
    · rw [if_neg hb] at h
      obtain ⟨h1, h2, h3⟩ := skipZerosDown_some hw a i j h
      refine ⟨by omega, h2, ?_⟩
      rw [mod_two_pow_succ, if_neg hb, h3]; simp

theorem skipZerosDown_none (hw : 0 < w) (a : Limbs w) : ∀ (i : Nat),
    skipZerosDown a i = none → limbsVal a % 2 ^ i = 0
  | 0, _ => by simp [Nat.mod_one]
  | i + 1, h => by
    rw [skipZerosDown, testBit_spec hw] at h
    by_cases hb : (limbsVal a).testBit i = true
    · rw [if_pos hb] at h; simp at h
    · rw [if_neg hb] at h
      rw [mod_two_pow_succ, if_neg hb, skipZerosDown_none hw a i h]

/-- Where the iteration starts: `none` iff the value is 0; otherwise the top bit. -/
theorem beBegin_none (hw : 0 < w) (a : Limbs w) (h : beBegin a = none) : limbsVal a = 0 := by
  have := skipZerosDown_none hw a _ h
  rwa [Nat.mod_eq_of_lt (limbsVal_lt a)] at this

theorem beBegin_some (hw : 0 < w) (a : Limbs w) (i : Nat) (h : beBegin a = some i) :
    (limbsVal a).testBit i = true ∧ limbsVal a < 2 ^ (i + 1) := by
  obtain ⟨_, h2, h3⟩ := skipZerosDown_some hw a _ _ h
  rw [Nat.mod_eq_of_lt (limbsVal_lt a)] at h3
  exact ⟨h2, by rw [h3]; exact Nat.mod_lt _ (by positivity)⟩

theorem leEnd_spec (hw : 0 < w) (a : Limbs w) : limbsVal a < 2 ^ leEnd a ∧
    (∀ i, (limbsVal a).testBit i = true → i < leEnd a) := by
  have hlt : limbsVal a < 2 ^ (w * a.length + 1) :=
    (limbsVal_lt a).trans_le (Nat.pow_le_pow_right (by omega) (by omega))
  have key : limbsVal a < 2 ^ leEnd a := by
    unfold leEnd
    split
    · rename_i h
      have := skipZerosDown_none hw a _ h
      rw [Nat.mod_eq_of_lt hlt] at this
      simp [this]
    · rename_i i h
      obtain ⟨_, h2, h3⟩ := skipZerosDown_some hw a _ _ h
      rw [Nat.mod_eq_of_lt hlt] at h3
      rw [h3]; exact Nat.mod_lt _ (by positivity)
  refine ⟨key, fun i hi => ?_⟩
  by_contra hc
  have h1 := Nat.ge_two_pow_of_testBit hi
  have h2 : 2 ^ leEnd a ≤ 2 ^ i := Nat.pow_le_pow_right (by omega) (by omega)
  omega

section mulRel
variable {M : Type*} [Monoid M]

variable {o : MulOps α} {R : α → M → Prop}

theorem doPowGo_rel (ho : o.Implements R) (hw : 0 < w) {g : α} {y : M} (hg : R g y) (e : Limbs w) :
    ∀ (i k : Nat) (ret : α), R ret (y ^ k) →
      R (doPowGo o g e i ret) (y ^ (k * 2 ^ i + limbsVal e % 2 ^ i))
  | 0, k, ret, h => by simpa [doPowGo, Nat.mod_one] using h
  | i + 1, k, ret, h => by
    rw [doPowGo, testBit_spec hw, mod_two_pow_succ]
    by_cases hb : (limbsVal e).testBit i = true
    · simp only [hb, if_true]
      have := doPowGo_rel ho hw hg e i (2 * k + 1) _
        (by simpa [pow_succ, two_mul, pow_add, mul_assoc] using ho.mul (ho.square h) hg)
      rwa [show (2 * k + 1) * 2 ^ i + limbsVal e % 2 ^ i =
        k * 2 ^ (i + 1) + (2 ^ i + limbsVal e % 2 ^ i) by ring] at this
    · simp only [hb, if_false, Bool.false_eq_true]
      have := doPowGo_rel ho hw hg e i (2 * k) _
        (by simpa [two_mul, pow_add] using ho.square h)
      rwa [show (2 * k) * 2 ^ i + limbsVal e % 2 ^ i =
        k * 2 ^ (i + 1) + (0 + limbsVal e % 2 ^ i) by ring] at this

theorem doPow_rel (ho : o.Implements R) (hw : 0 < w) {g : α} {y : M} (hg : R g y) (e : Limbs w) :
    R (doPow o g e) (y ^ limbsVal e) := by
  unfold doPow
  split
  · rename_i h
    rw [beBegin_none hw e h, pow_zero]; exact ho.one
  · rename_i i h
    have := doPowGo_rel ho hw hg e (i + 1) 0 o.one (by rw [pow_zero]; exact ho.one)
    rwa [Nat.mod_eq_of_lt (beBegin_some hw e i h).2, Nat.zero_mul, Nat.zero_add] at this

theorem constPow_rel (ho : o.Implements R) {g : α} {y : M} (hg : R g y) (p : BitVec 32) :
    R (constPow o p g) (y ^ p.toNat) := by
  have h2 : R (o.square g) (y ^ 2) := by rw [pow_two]; exact ho.square hg
  have h4 : R (o.square (o.square g)) (y ^ 4) := by
    rw [show 4 = 2 + 2 by rfl, pow_add]; exact ho.square h2
  have h6 : R (o.mul (o.square (o.square g)) (o.square g)) (y ^ 6) := by
    rw [show 6 = 4 + 2 by rfl, pow_add]; exact ho.mul h4 h2
  unfold constPow
  split
  · rename_i h; rw [h, pow_zero]; exact ho.one
  · rename_i h; rw [h, pow_one]; exact hg
  · rename_i h; rw [h]; exact h2
  · rename_i h; rw [h, pow_succ]; exact ho.mul h2 hg
  · rename_i h; rw [h]; exact h4
  · rename_i h; rw [h, pow_succ]; exact ho.mul h4 hg
  · rename_i h; rw [h]; exact h6
  · rename_i h; rw [h, pow_succ]; exact ho.mul h6 hg
  · have := doPow_rel ho (by omega) hg [p.setWidth 64]
    have hv : limbsVal [p.setWidth 64] = p.toNat := by
      simp only [limbsVal, BitVec.toNat_setWidth]
      have := p.isLt
      omega
    rwa [hv] at this

theorem powWithTableGo_rel (ho : o.Implements R) (hw : 0 < w) {y : M} (e : Limbs w)
    (table : List α) : ∀ (n i : Nat) (g : α),
      (∀ j, (limbsVal e).testBit j = true → i ≤ j → j < i + n →
        ∃ t, table[j]? = some t ∧ R t (y ^ 2 ^ j)) →
      R g (y ^ (limbsVal e % 2 ^ i)) →
      ∃ r, powWithTableGo o table e n i g = some r ∧ R r (y ^ (limbsVal e % 2 ^ (i + n)))
  | 0, i, g, _, h => ⟨g, rfl, h⟩
  | n + 1, i, g, ht, h => by
    rw [powWithTableGo, testBit_spec hw]
    by_cases hb : (limbsVal e).testBit i = true
    · simp only [hb, if_true]
      obtain ⟨t, h1, h2⟩ := ht i hb (le_refl _) (by omega)
      simp only [h1]
      obtain ⟨r, h3, h4⟩ := powWithTableGo_rel ho hw e table n (i + 1) (o.mul g t)
        (fun j hj a b => ht j hj (by omega) (by omega))
        (by rw [mod_two_pow_succ, if_pos hb, Nat.add_comm, pow_add]; exact ho.mul h h2)
      exact ⟨r, h3, by rwa [show i + (n + 1) = i + 1 + n by omega]⟩
    · simp only [hb, if_false, Bool.false_eq_true]
      obtain ⟨r, h3, h4⟩ := powWithTableGo_rel ho hw e table n (i + 1) g
        (fun j hj a b => ht j hj (by omega) (by omega))
        (by rw [mod_two_pow_succ, if_neg hb, Nat.zero_add]; exact h)
      exact ⟨r, h3, by rwa [show i + (n + 1) = i + 1 + n by omega]⟩

theorem powWithTable_rel (ho : o.Implements R) (hw : 0 < w) {y : M} (e : Limbs w)
    (table : List α)
    (ht : ∀ j, (limbsVal e).testBit j = true → ∃ t, table[j]? = some t ∧ R t (y ^ 2 ^ j)) :
    ∃ r, powWithTable o table e = some r ∧ R r (y ^ limbsVal e) := by
  obtain ⟨r, h1, h2⟩ := powWithTableGo_rel ho hw e table (leEnd e) 0 o.one
    (fun j hj _ _ => ht j hj) (by rw [Nat.pow_zero, Nat.mod_one, pow_zero]; exact ho.one)
  refine ⟨r, h1, ?_⟩
  rwa [Nat.zero_add, Nat.mod_eq_of_lt (leEnd_spec hw e).1] at h2

theorem powWithTableGo_none (hw : 0 < w) (e : Limbs w) (table : List α) :
    ∀ (n i : Nat) (g : α) (j : Nat), (limbsVal e).testBit j = true → i ≤ j → j < i + n →
      table[j]? = none → powWithTableGo o table e n i g = none
  | 0, i, g, j, _, h1, h2, _ => by omega
  | n + 1, i, g, j, hj, h1, h2, hn => by
    rw [powWithTableGo, testBit_spec hw]
    by_cases hij : i = j
    · subst hij
      simp only [hj, if_true, hn]
    · have ih : ∀ g, powWithTableGo o table e n (i + 1) g = none := fun g =>
        powWithTableGo_none hw e table n (i + 1) g j hj (by omega) (by omega) hn
      split
      · split
        · rfl
        · exact ih _
      · exact ih _

theorem expPowOfTwo_rel (ho : o.Implements R) : ∀ (n : Nat) (v : α) (y : M), R v y →
    R (expPowOfTwo o n v) (y ^ 2 ^ n)
  | 0, v, y, h => by simpa [expPowOfTwo] using h
  | n + 1, v, y, h => by
    have := expPowOfTwo_rel ho n _ _ (ho.square h)
    rw [expPowOfTwo, show y ^ 2 ^ (n + 1) = (y * y) ^ 2 ^ n by
      rw [← pow_two, ← pow_mul, ← pow_succ']]
    exact this

end mulRel

section addRel
variable {M : Type*} [AddMonoid M]

variable {o : AddOps β α} {S : β → M → Prop} {R : α → M → Prop}

theorem doScalarMulGo_rel (ho : o.Implements S R) (hw : 0 < w) {g : α} {y : M} (hg : R g y)
    (e : Limbs w) : ∀ (i k : Nat) (ret : β), S ret (k • y) →
      S (doScalarMulGo o g e i ret) ((k * 2 ^ i + limbsVal e % 2 ^ i) • y)
  | 0, k, ret, h => by simpa [doScalarMulGo, Nat.mod_one] using h
  | i + 1, k, ret, h => by
    rw [doScalarMulGo, testBit_spec hw, mod_two_pow_succ]
    by_cases hb : (limbsVal e).testBit i = true
    · simp only [hb, if_true]
      have := doScalarMulGo_rel ho hw hg e i (2 * k + 1) _
        (by simpa [succ_nsmul, two_mul, add_nsmul] using ho.add (ho.double h) hg)
      rwa [show (2 * k + 1) * 2 ^ i + limbsVal e % 2 ^ i =
        k * 2 ^ (i + 1) + (2 ^ i + limbsVal e % 2 ^ i) by ring] at this
    · simp only [hb, if_false, Bool.false_eq_true]
      have := doScalarMulGo_rel ho hw hg e i (2 * k) _
        (by simpa [two_mul, add_nsmul] using ho.double h)
      rwa [show (2 * k) * 2 ^ i + limbsVal e % 2 ^ i =
        k * 2 ^ (i + 1) + (0 + limbsVal e % 2 ^ i) by ring] at this

theorem doScalarMul_rel (ho : o.Implements S R) (hw : 0 < w) {g : α} {y : M} (hg : R g y)
    (e : Limbs w) : S (doScalarMul o g e) (limbsVal e • y) := by
  unfold doScalarMul
  split
  · rename_i h
    rw [beBegin_none hw e h, zero_nsmul]; exact ho.zero
  · rename_i i h
    have := doScalarMulGo_rel ho hw hg e (i + 1) 0 o.zero (by rw [zero_nsmul]; exact ho.zero)
    rwa [Nat.mod_eq_of_lt (beBegin_some hw e i h).2, Nat.zero_mul, Nat.zero_add] at this

theorem constScalarMul_rel {o : AddOps α α} (ho : o.Implements R R) {g : α} {y : M} (hg : R g y)
    (p : BitVec 64) : R (constScalarMul o p g) (p.toNat • y) := by
  have h2 : R (o.double g) (2 • y) := by rw [two_nsmul]; exact ho.double hg
  have h4 : R (o.double (o.double g)) (4 • y) := by
    rw [show 4 = 2 + 2 by rfl, add_nsmul]; exact ho.double h2
  have h6 : R (o.add (o.double (o.double g)) (o.double g)) (6 • y) := by
    rw [show 6 = 4 + 2 by rfl, add_nsmul]; exact ho.add h4 h2
  unfold constScalarMul
  split
  · rename_i h; rw [h, zero_nsmul]; exact ho.zero
  · rename_i h; rw [h, one_nsmul]; exact hg
  · rename_i h; rw [h]; exact h2
  · rename_i h; rw [h, succ_nsmul]; exact ho.add h2 hg
  · rename_i h; rw [h]; exact h4
  · rename_i h; rw [h, succ_nsmul]; exact ho.add h4 hg
  · rename_i h; rw [h]; exact h6
  · rename_i h; rw [h, succ_nsmul]; exact ho.add h6 hg
  · have := doScalarMul_rel ho (by omega) hg [p]
    simpa [limbsVal] using this

end addRel

section cyc
variable {M : Type*} [GroupWithZero M]

/-- Digits most significant first, read with leading value `k`. -/
theorem doCyclotomicPowGo_rel {R : α → M → Prop} {mul : α → α → α} {sq : α → α} {f : α} {y : M}
    {inv : Option α} (hy : y ≠ 0) (hf : R f y) (hinv : ∀ i ∈ inv, R i y⁻¹)
    (hmul : ∀ {a b x z}, R a x → R b z → R (mul a b) (x * z))
    (hsq : ∀ {a x}, R a x → (∃ k : Int, x = y ^ k) → R (sq a) (x * x)) :
    ∀ (vs : List Int) (found : Bool) (k : Int) (ret : α),
      (∀ v ∈ vs, v = -1 ∨ v = 0 ∨ v = 1) → (inv = none → ∀ v ∈ vs, 0 ≤ v) →
      (found = false → k = 0) → R ret (y ^ k) →
      R (doCyclotomicPowGo mul sq f inv vs found ret)
        (y ^ (k * 2 ^ vs.length + digitsVal 2 vs.reverse))
  | [], found, k, ret, _, _, _, h => by simpa [doCyclotomicPowGo, digitsVal] using h
  | v :: vs, found, k, ret, hd, hn, hfd, h => by
    have hd' : ∀ v ∈ vs, v = -1 ∨ v = 0 ∨ v = 1 := fun v hv => hd v (List.mem_cons_of_mem _ hv)
    have hn' : inv = none → ∀ v ∈ vs, 0 ≤ v := fun h v hv => hn h v (List.mem_cons_of_mem _ hv)
    have hret : R (if found then sq ret else ret) (y ^ (2 * k)) := by
      cases found with
      | true =>
        rw [if_pos rfl, two_mul, zpow_add₀ hy]; exact hsq h ⟨k, rfl⟩
      | false =>
        rw [hfd rfl] at h ⊢
        simpa using h
    have hval : ∀ (zs : List Int) (z : Int), digitsVal 2 (zs ++ [z]) =
        digitsVal 2 zs + z * 2 ^ zs.length := by
      intro zs z
      induction zs with
      | nil => simp [digitsVal]
      | cons a t ih => simp only [List.cons_append, digitsVal, ih, List.length_cons]; ring
    have hexp : k * 2 ^ (v :: vs).length + digitsVal 2 (v :: vs).reverse =
        (2 * k + v) * 2 ^ vs.length + digitsVal 2 vs.reverse := by
      rw [List.reverse_cons, hval, List.length_cons, List.length_reverse]; ring
    rw [hexp, doCyclotomicPowGo.eq_def]
    dsimp only
    rcases hd v (by simp) with hv | hv | hv
    · subst hv
      simp only [show ¬ ((-1 : Int) = 0) by decide, if_false, show ¬ ((-1 : Int) > 0) by decide]
      cases hi : inv with
      | none => have := hn hi (-1) (by simp); omega
      | some i =>
        simp only [hi] at *
        apply doCyclotomicPowGo_rel (inv := some i) hy hf hinv hmul hsq vs true (2 * k + -1) _ hd' hn'
          (by simp)
        rw [zpow_add₀ hy, zpow_neg_one]
        exact hmul hret (hinv i rfl)
    · subst hv
      simp only [if_true]
      apply doCyclotomicPowGo_rel hy hf hinv hmul hsq vs found (2 * k + 0) _ hd' hn'
        (fun h => by rw [hfd h]; rfl)
      rw [Int.add_zero]; exact hret
    · subst hv
      simp only [show ¬ ((1 : Int) = 0) by decide, if_false, show ((1 : Int) > 0) by decide, if_true]
      apply doCyclotomicPowGo_rel hy hf hinv hmul hsq vs true (2 * k + 1) _ hd' hn' (by simp)
      rw [zpow_add₀ hy, zpow_one]
      exact hmul hret hf

end cyc

theorem digitsVal_bits (n : Nat) : ∀ (k : Nat),
    digitsVal 2 ((List.range k).map (fun i => if n.testBit i then (1 : Int) else 0)) =
      ((n % 2 ^ k : Nat) : Int)
  | 0 => by simp [digitsVal, Nat.mod_one]
  | k + 1 => by
    have hval : ∀ (zs : List Int) (z : Int), digitsVal 2 (zs ++ [z]) =
        digitsVal 2 zs + z * 2 ^ zs.length := by
      intro zs z
      induction zs with
      | nil => simp [digitsVal]
      | cons a t ih => simp only [List.cons_append, digitsVal, ih, List.length_cons]; ring
    rw [List.range_succ, List.map_append, List.map_cons, List.map_nil, hval, digitsVal_bits n k,
      mod_two_pow_succ]
    simp only [List.length_map, List.length_range]
    split <;> push_cast <;> ring

end Tachyon
