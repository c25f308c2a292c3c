import Verif.Proofs.Montgomery
import Mathlib.Data.Nat.Totient
import Mathlib.FieldTheory.Finite.Basic

namespace Tachyon.BigInt

variable {w : Nat}

/-! ## Squaring -/

/-- Sum of the off-diagonal products, scaled down by one word. -/
def crossVal : Limbs w → Nat
  | [] => 0
  | x :: xs => x.toNat * limbsVal xs + 2 ^ w * (2 ^ w * crossVal xs)

/-- Sum of the diagonal products. -/
def diagVal : Limbs w → Nat
  | [] => 0
  | x :: xs => x.toNat * x.toNat + 2 ^ w * (2 ^ w * diagVal xs)

theorem sq_split (a : Limbs w) : diagVal a + 2 * (2 ^ w * crossVal a) = limbsVal a * limbsVal a := by
  induction a with
  | nil => simp [diagVal, crossVal]
  | cons x xs ih =>
    simp only [diagVal, crossVal, limbsVal_cons]
    linear_combination 2 ^ w * 2 ^ w * ih

theorem crossGo_spec : ∀ (a r : Limbs w), r.length + 1 = 2 * a.length →
    (∀ x ∈ r.drop (a.length - 1), x = 0#w) →
    limbsVal (crossGo a r) = limbsVal r + crossVal a ∧
    (crossGo a r).length = r.length ∧ (crossGo a r).getLast? = r.getLast?
  | [], r, h, _ => by simp at h
  | [x], r, h, hz => by simp [crossGo, crossVal]
  | x :: y :: ys, r, hl, hz => by
    have hl' : r.length = 2 * (y :: ys).length + 1 := by simp at hl ⊢; omega
    have hz' : ∀ z ∈ r.drop (y :: ys).length, z = 0#w := by simpa using hz
    have hvc : crossVal (x :: y :: ys) =
        x.toNat * limbsVal (y :: ys) + 2 ^ w * (2 ^ w * crossVal (y :: ys)) := rfl
    obtain ⟨h1, h2⟩ := mulAddRow_spec x (y :: ys) r 0#w (by omega)
    have hsplit : r = r.take (y :: ys).length ++ r.drop (y :: ys).length :=
      (List.take_append_drop _ _).symm
    have hval0 : limbsVal (r.drop (y :: ys).length) = 0 := (limbsVal_eq_zero_iff _).2 hz'
    have hval1 : limbsVal (r.drop ((y :: ys).length + 1)) = 0 := by
      rw [limbsVal_eq_zero_iff]
      intro z hz0; apply hz'
      rw [← List.drop_drop] at hz0
      exact List.mem_of_mem_drop hz0
    have hr : limbsVal r = limbsVal (r.take (y :: ys).length) := by
      conv_lhs => rw [hsplit, limbsVal_append, hval0]
      simp
    rw [crossGo]
    generalize hL : (mulAddRow x (y :: ys) r 0#w).1 ++
      (mulAddRow x (y :: ys) r 0#w).2 :: r.drop ((y :: ys).length + 1) = L
    have hLval : limbsVal L = limbsVal r + x.toNat * limbsVal (y :: ys) := by
      rw [← hL, limbsVal_append, h2, limbsVal_cons, hval1, hr]
      simp only [BitVec.toNat_ofNat, Nat.zero_mod] at h1
      linear_combination h1
    have hLlen : L.length = r.length := by
      have : (r.drop ((y :: ys).length + 1)).length = r.length - ((y :: ys).length + 1) :=
        List.length_drop
      rw [← hL, List.length_append, List.length_cons, h2, this]; omega
    have hlast : L.getLast? = r.getLast? := by
      have hne : r.drop ((y :: ys).length + 1) ≠ [] := by
        rw [Ne, List.drop_eq_nil_iff]
        simp only [List.length_cons] at hl' ⊢; omega
      rw [← hL, List.getLast?_append, List.getLast?_cons_of_ne_nil hne, List.getLast?_drop]
      rw [if_neg (by simp only [List.length_cons] at hl' ⊢; omega)]
      cases r with
      | nil => simp at hl'
      | cons => simp [List.getLast?_cons]
    match L, hL, hLval, hLlen, hlast with
    | [], _, _, h, _ => simp only [List.length_cons, List.length_nil] at h hl'; omega
    | [_], _, _, h, _ => simp only [List.length_cons, List.length_nil] at h hl'; omega
    | p :: q :: rest, hL, hLval, hLlen, hlast =>
      simp only [List.length_cons] at hLlen
      obtain ⟨h3, h4, h5⟩ := crossGo_spec (y :: ys) rest (by simp only [List.length_cons] at *; omega) (by
        intro z hz0
        have : rest.drop ((y :: ys).length - 1) = (p :: q :: rest).drop ((y :: ys).length + 1) := by
          simp
        rw [this, ← hL, List.drop_append, h2,
          List.drop_eq_nil_of_le (by rw [h2]; omega)] at hz0
        simp only [Nat.add_sub_cancel_left, List.drop_succ_cons, List.drop_zero,
          List.nil_append] at hz0
        apply hz'
        have h6 : r.drop ((ys.length + 1) + 1) = (r.drop (ys.length + 1)).drop 1 := by
          rw [List.drop_drop]
        simp only [List.length_cons] at hz0
        rw [h6] at hz0
        exact List.mem_of_mem_drop hz0)
      refine ⟨?_, by simp [h4]; omega, ?_⟩
      · simp only [hvc, limbsVal_cons] at hLval h3 ⊢
        linear_combination hLval + 2 ^ w * 2 ^ w * h3
      · rw [← hlast]
        have hrest : rest ≠ [] := by
          rintro rfl; simp only [List.length_cons, List.length_nil] at hLlen hl'; omega
        have hcr : crossGo (y :: ys) rest ≠ [] := by
          intro h; rw [h] at h4; simp at h4; exact hrest (List.length_eq_zero_iff.1 h4.symm)
        simp only
        rw [List.getLast?_cons_of_ne_nil (by simp), List.getLast?_cons_of_ne_nil hcr, h5,
          List.getLast?_cons_of_ne_nil (by simp), List.getLast?_cons_of_ne_nil hrest]

theorem shiftGo_spec (hw : 0 < w) : ∀ (r : Limbs w) (l p : BitVec w), p.toNat ≤ 1 →
    limbsVal (shiftGo p (r ++ [l])) = 2 * limbsVal r + p.toNat ∧
    (shiftGo p (r ++ [l])).length = (r ++ [l]).length
  | [], l, p, _ => by simp [shiftGo]
  | x :: xs, l, p, hp => by
    have h1 := shl_or_spec (n := 1) hw x p (by omega)
    have h1' := ushr_lt (n := 1) hw x
    obtain ⟨h2, h3⟩ := shiftGo_spec hw xs l (x >>> (w - 1)) (by omega)
    have : shiftGo p (x :: xs ++ [l]) = ((x <<< 1) ||| p) :: shiftGo (x >>> (w - 1)) (xs ++ [l]) := by
      cases xs <;> rfl
    rw [this]
    refine ⟨?_, by simp at h3; simp [h3]⟩
    simp only [limbsVal_cons]
    linear_combination h1 + 2 ^ w * h2

theorem diagGo_spec (hw : 0 < w) : ∀ (a r : Limbs w) (c : BitVec w), r.length = 2 * a.length →
    ∃ c', limbsVal (diagGo a r c) + 2 ^ (w * r.length) * c' = limbsVal r + diagVal a + c.toNat ∧
    (diagGo a r c).length = r.length
  | [], [], c, _ => ⟨c.toNat, by simp [diagGo, diagVal]⟩
  | [], _ :: _, _, h => by simp at h
  | _ :: _, [], _, h => by simp at h
  | _ :: _, [_], _, h => by simp at h; omega
  | x :: xs, r0 :: r1 :: rs, c, hl => by
    have e1 := mulAdd_spec r0 x x c
    obtain ⟨e2, e2'⟩ := addWithCarry_spec hw r1 (mulAddWithCarry r0 x x c).hi 0#w (by simp)
    obtain ⟨c', e3, e4⟩ := diagGo_spec hw xs rs
      (addWithCarry r1 (mulAddWithCarry r0 x x c).hi 0#w).carry (by simp at hl; omega)
    refine ⟨c', ?_, by simp [diagGo, e4]⟩
    simp only [diagGo, diagVal, limbsVal_cons, List.length_cons, Nat.mul_succ, pow_add,
      BitVec.toNat_ofNat, Nat.zero_mod, Nat.add_zero] at e2 ⊢
    linear_combination e1 + 2 ^ w * e2 + 2 ^ w * 2 ^ w * e3

theorem squareExtend_spec (hw : 0 < w) (a : Limbs w) (ha : a ≠ []) :
    limbsVal (squareExtend a) = limbsVal a * limbsVal a ∧
    (squareExtend a).length = 2 * a.length := by
  have hlen : 0 < a.length := List.length_pos_iff.2 ha
  obtain ⟨h1, h2, h3⟩ := crossGo_spec a (zero (2 * a.length - 1)) (by simp; omega) (by
    intro x hx
    exact List.eq_of_mem_replicate (List.mem_of_mem_drop hx))
  unfold squareExtend
  generalize crossGo a (zero (2 * a.length - 1)) = cr at *
  have hzl : (zero (2 * a.length - 1) : Limbs w).getLast? = some 0#w := by
    rw [zero, List.getLast?_replicate, if_neg (by omega)]
  rw [hzl] at h3
  obtain ⟨init, hinit⟩ : ∃ init, cr = init ++ [0#w] := by
    obtain ⟨h, h'⟩ := List.getLast?_eq_some_iff.1 h3
    exact ⟨h, h'⟩
  obtain ⟨g1, g2⟩ := shiftGo_spec hw init 0#w 0#w (by simp)
  rw [← hinit] at g1 g2
  have hcr : limbsVal init = crossVal a := by
    rw [hinit, limbsVal_append] at h1
    simpa using h1
  simp only [length_zero] at h2
  obtain ⟨c', k1, k2⟩ := diagGo_spec hw a (0#w :: shiftGo 0#w cr) 0#w (by
    simp only [List.length_cons, g2, h2]; omega)
  have hsq := sq_split a
  have hlt := limbsVal_lt a
  have hl2 : (0#w :: shiftGo 0#w cr).length = 2 * a.length := by
    simp only [List.length_cons, g2, h2]; omega
  rw [hl2] at k1 k2
  refine ⟨?_, k2⟩
  have e : limbsVal (diagGo a (0#w :: shiftGo 0#w cr) 0#w) + 2 ^ (w * (2 * a.length)) * c'
      = limbsVal a * limbsVal a := by
    simp only [limbsVal_cons, g1, hcr, BitVec.toNat_ofNat, Nat.zero_mod, Nat.add_zero] at k1
    linear_combination k1 + hsq
  have hb : limbsVal a * limbsVal a < 2 ^ (w * (2 * a.length)) := by
    rw [show w * (2 * a.length) = w * a.length + w * a.length by ring, pow_add]
    exact Nat.mul_lt_mul'' hlt hlt
  have hc' : c' = 0 := by
    by_contra hne
    have : 2 ^ (w * (2 * a.length)) * 1 ≤ 2 ^ (w * (2 * a.length)) * c' :=
      Nat.mul_le_mul_left _ (by omega)
    omega
  subst hc'; simpa using e

theorem squareImpl_spec (hw : 0 < w) (spare : Bool) (m0 : BitVec w) (ms : Limbs w) (inv : BitVec w)
    (a : Limbs w) (hinv : 2 ^ w ∣ m0.toNat * inv.toNat + 1)
    (hla : a.length = (m0 :: ms).length)
    (hspare : spare = true → 2 * limbsVal (m0 :: ms) ≤ 2 ^ (w * (m0 :: ms).length))
    (ha : limbsVal a < limbsVal (m0 :: ms)) :
    limbsVal (squareImpl spare (m0 :: ms) inv a) < limbsVal (m0 :: ms) ∧
    2 ^ (w * (m0 :: ms).length) * limbsVal (squareImpl spare (m0 :: ms) inv a)
      ≡ limbsVal a * limbsVal a [MOD limbsVal (m0 :: ms)] ∧
    (squareImpl spare (m0 :: ms) inv a).length = (m0 :: ms).length := by
  obtain ⟨h1, h2⟩ := squareExtend_spec hw a (by rintro rfl; simp at hla)
  have hb := limbsVal_lt a
  rw [hla] at hb
  have := montgomeryReduce_spec hw spare m0 ms inv (squareExtend a) hinv (by omega) hspare (by
    rw [h1]
    exact Nat.mul_lt_mul_of_lt_of_le hb ha.le (by omega))
  rw [h1] at this
  exact this

/-! ## `Modulus::Inverse` -/

theorem inverseGo_spec (m0 : BitVec w) : ∀ (n : Nat) (x : BitVec w),
    (inverseGo m0 n x).toNat ≡ x.toNat ^ 2 ^ n * m0.toNat ^ (2 ^ n - 1) [MOD 2 ^ w]
  | 0, x => by simp [inverseGo]; rfl
  | n + 1, x => by
    rw [inverseGo]
    refine (inverseGo_spec m0 n _).trans ?_
    have h1 : (x * x * m0).toNat ≡ x.toNat * x.toNat * m0.toNat [MOD 2 ^ w] := by
      rw [BitVec.toNat_mul, BitVec.toNat_mul]
      exact (Nat.mod_modEq _ _).trans ((Nat.mod_modEq _ _).mul_right _)
    refine ((h1.pow _).mul_right _).trans ?_
    have hp : 0 < 2 ^ n := Nat.two_pow_pos n
    have : (x.toNat * x.toNat * m0.toNat) ^ 2 ^ n * m0.toNat ^ (2 ^ n - 1) =
        x.toNat ^ 2 ^ (n + 1) * m0.toNat ^ (2 ^ (n + 1) - 1) := by
      rw [show 2 ^ (n + 1) - 1 = 2 ^ n + (2 ^ n - 1) by rw [pow_succ]; omega, pow_add (m0.toNat),
        mul_pow, mul_pow, pow_succ 2 n, Nat.mul_comm (2 ^ n) 2, pow_mul, sq, mul_pow]
      ring
    rw [this]

theorem modulusInverse_spec (hw : 0 < w) (m0 : BitVec w) (hodd : m0.toNat % 2 = 1) :
    2 ^ w ∣ m0.toNat * (modulusInverse m0).toNat + 1 := by
  have h1 := inverseGo_spec m0 (w - 1) 1#w
  have h2 : 2 ≤ 2 ^ w := by
    calc 2 = 2 ^ 1 := rfl
      _ ≤ 2 ^ w := Nat.pow_le_pow_right (by omega) hw
  rw [BitVec.toNat_ofNat, Nat.mod_eq_of_lt (by omega : 1 < 2 ^ w), one_pow, one_mul] at h1
  have hcop : Nat.Coprime m0.toNat (2 ^ w) := by
    apply Nat.Coprime.pow_right
    rw [Nat.coprime_comm]
    rw [Nat.coprime_two_left]; exact Nat.odd_iff.2 hodd
  have htot : m0.toNat ^ 2 ^ (w - 1) ≡ 1 [MOD 2 ^ w] := by
    have := Nat.ModEq.pow_totient hcop
    rwa [Nat.totient_prime_pow Nat.prime_two hw, Nat.mul_one] at this
  have h3 : m0.toNat * (inverseGo m0 (w - 1) 1#w).toNat ≡ 1 [MOD 2 ^ w] := by
    refine (h1.mul_left _).trans ?_
    rw [← pow_succ', Nat.sub_add_cancel (Nat.two_pow_pos _)]
    exact htot
  unfold modulusInverse
  generalize inverseGo m0 (w - 1) 1#w = v at *
  rw [BitVec.toNat_neg]
  have h4 : m0.toNat * ((2 ^ w - v.toNat) % 2 ^ w) + 1 ≡ m0.toNat * (2 ^ w - v.toNat) + 1 [MOD 2 ^ w] :=
    ((Nat.mod_modEq _ _).mul_left _).add_right _
  have h5 : m0.toNat * (2 ^ w - v.toNat) + 1 ≡ m0.toNat * (2 ^ w - v.toNat) + m0.toNat * v.toNat [MOD 2 ^ w] :=
    h3.symm.add_left _
  refine (Nat.modEq_zero_iff_dvd).1 ((h4.trans h5).trans ?_)
  rw [← Nat.mul_add, Nat.sub_add_cancel v.isLt.le]
  exact Nat.modEq_zero_iff_dvd.2 (Dvd.intro_left _ rfl)

end Tachyon.BigInt
