import Verif.Model.GpuMul
import Verif.Props.GpuDebug
/-! C113: the product of the prime field of the GPU on the CPU, with the even and the odd products in two accumulators, is the Montgomery product, and none of
its checks fails. -/
namespace Tachyon.Props

open Tachyon.BigInt Tachyon.GpuDebug

variable {w : Nat}

/-- The words at even places (`true`) or odd places (`false`) of a number, at their weights. -/
def halfVal : Bool → List (BitVec w) → Nat
  | _, [] => 0
  | true, x :: xs => x.toNat + 2 ^ w * halfVal false xs
  | false, _ :: xs => 2 ^ w * halfVal true xs

theorem halfVal_add (l : List (BitVec w)) : halfVal true l + halfVal false l = limbsVal l := by
  induction l with
  | nil => rfl
  | cons x xs ih => simp only [halfVal, limbsVal_cons, ← ih]; ring

theorem halfVal_drop (l : List (BitVec w)) : halfVal false l = 2 ^ w * halfVal true (l.drop 1) := by
  cases l <;> simp [halfVal]

theorem halfVal_tail (l : List (BitVec w)) : halfVal true l + 2 ^ w * halfVal true l.tail = limbsVal l := by
  rw [← halfVal_add, halfVal_drop, List.drop_one]

theorem mulLo_mulHi (hw : 0 < w) (x y : BitVec w) : (GpuDebug.mulLo x y).toNat + 2 ^ w * (GpuDebug.mulHi x y).toNat = x.toNat * y.toNat := by
  have := mulAdd_spec 0#w x y 0#w
  simp only [GpuDebug.mulLo, GpuDebug.mulHi]
  simpa using this

theorem mulN_spec (hw : 0 < w) (bi : BitVec w) : ∀ (a : Limbs w), limbsVal (mulN bi a) = halfVal true a * bi.toNat ∧
    (mulN bi a).length = 2 * ((a.length + 1) / 2)
  | [] => by simp [mulN, halfVal]
  | [x] => by
    have := mulLo_mulHi hw x bi
    simp [mulN, halfVal, this]
  | x :: y :: as => by
    have h1 := mulLo_mulHi hw x bi
    obtain ⟨h2, h3⟩ := mulN_spec hw bi as
    refine ⟨?_, by simp only [mulN, List.length_cons, h3]; omega⟩
    simp only [mulN, limbsVal_cons, halfVal, h2]
    linear_combination h1

theorem cMadN_spec (hw : 0 < w) (bi : BitVec w) : ∀ (k : Nat) (acc a : Limbs w) (c : BitVec w), acc.length = 2 * k →
    (a.length = 2 * k ∨ a.length + 1 = 2 * k) → c.toNat ≤ 1 →
    limbsVal (cMadN bi acc a c).1 + 2 ^ (w * (2 * k)) * (cMadN bi acc a c).2.toNat = limbsVal acc + halfVal true a * bi.toNat + c.toNat ∧
      (cMadN bi acc a c).2.toNat ≤ 1 ∧ (cMadN bi acc a c).1.length = 2 * k := by
  intro k
  induction k with
  | zero =>
    intro acc a c h1 h2 hc
    have h1' : acc = [] := List.eq_nil_of_length_eq_zero (by omega)
    have h2' : a = [] := List.eq_nil_of_length_eq_zero (by omega)
    subst h1' h2'
    simp [cMadN, halfVal, hc]
  | succ k ih =>
    intro acc a c h1 h2 hc
    match acc, a, h1, h2 with
    | x0 :: x1 :: acc, y :: as, h1, h2 =>
      simp only [List.length_cons] at h1 h2
      obtain ⟨g1, g1'⟩ := addWithCarry_spec hw (GpuDebug.mulLo y bi) x0 c hc
      obtain ⟨g2, g2'⟩ := addWithCarry_spec hw (GpuDebug.mulHi y bi) x1 _ g1'
      obtain ⟨g3, g4, g5⟩ := ih acc (as.drop 1) _ (by omega) (by rw [List.length_drop]; omega) g2'
      have gm := mulLo_mulHi hw y bi
      refine ⟨?_, g4, by simp only [cMadN, List.length_cons, g5]; omega⟩
      simp only [cMadN, limbsVal_cons, halfVal, halfVal_drop as]
      rw [show w * (2 * (k + 1)) = w + w + w * (2 * k) by ring, pow_add, pow_add]
      linear_combination g1 + 2 ^ w * g2 + 2 ^ w * 2 ^ w * g3 + gm
    | [], _, h1, _ => simp at h1
    | [_], _, h1, _ => simp at h1; omega
    | _ :: _ :: _, [], _, h2 => simp at h2; omega

theorem addLast_spec (hw : 0 < w) : ∀ (l : Limbs w) (c : BitVec w) (n : Nat), l.length = n + 1 → c.toNat ≤ 1 →
    limbsVal l + 2 ^ (w * n) * c.toNat < 2 ^ (w * (n + 1)) →
    limbsVal (addLast l c) = limbsVal l + 2 ^ (w * n) * c.toNat ∧ (addLast l c).length = n + 1
  | [], _, _, h, _, _ => by simp at h
  | [x], c, n, h, hc, hlt => by
    have hn : n = 0 := by simpa using h.symm
    subst hn
    obtain ⟨h1, h2⟩ := addWithCarry_spec hw x 0#w c hc
    simp only [limbsVal_cons, limbsVal_nil, Nat.mul_zero, Nat.pow_zero, Nat.one_mul, Nat.add_zero, Nat.zero_add, Nat.mul_one, BitVec.toNat_ofNat,
      Nat.zero_mod] at h1 hlt
    refine ⟨?_, by simp [addLast]⟩
    simp only [addLast, limbsVal_cons, limbsVal_nil, Nat.mul_zero, Nat.pow_zero, Nat.one_mul, Nat.add_zero]
    rcases Nat.eq_zero_or_pos (addWithCarry x 0#w c).carry.toNat with h0 | h0
    · rw [h0] at h1; omega
    · have := Nat.le_mul_of_pos_right (2 ^ w) h0; omega
  | x :: y :: xs, c, n, h, hc, hlt => by
    obtain ⟨n, rfl⟩ : ∃ k, n = k + 1 := ⟨n - 1, by simp at h; omega⟩
    simp only [List.length_cons, Nat.add_right_cancel_iff] at h
    have hp : 0 < 2 ^ w := Nat.two_pow_pos w
    rw [limbsVal_cons, Nat.mul_add w (n + 1) 1, Nat.mul_one, pow_add, Nat.mul_add w n 1, Nat.mul_one, pow_add] at hlt
    have hlt' : limbsVal (y :: xs) + 2 ^ (w * n) * c.toNat < 2 ^ (w * (n + 1)) := by
      rw [Nat.mul_add w n 1, Nat.mul_one, pow_add]
      refine Nat.lt_of_mul_lt_mul_left (a := 2 ^ w) ?_
      calc _ ≤ x.toNat + 2 ^ w * limbsVal (y :: xs) + 2 ^ (w * n) * 2 ^ w * c.toNat := by
            rw [Nat.mul_add]; nlinarith [Nat.zero_le x.toNat]
        _ < _ := hlt
        _ = _ := by ring
    obtain ⟨g1, g2⟩ := addLast_spec hw (y :: xs) c n (by simpa using h) hc hlt'
    refine ⟨?_, by rw [addLast, List.length_cons, g2]⟩
    rw [addLast, limbsVal_cons, g1, limbsVal_cons x, Nat.mul_add w n 1, Nat.mul_one, pow_add]
    ring

/-- The state between two halves: of `even` and `odd` the first word of `odd` is zero, and `B·S` is `odd + B·even`. -/
def GpuAcc (k S : Nat) (even odd : Limbs w) : Prop :=
  even.length = 2 * k ∧ odd.length = 2 * k ∧ odd.headD 0#w = 0#w ∧ limbsVal odd + 2 ^ w * limbsVal even = 2 ^ w * S

theorem gpu_madN_spec (hw : 0 < w) (k : Nat) (hk : 1 ≤ k) (a even odd : Limbs w) (bi : BitVec w) (S : Nat) (ha : a.length = 2 * k) (h : GpuAcc k S even odd)
    (hb : S + limbsVal a * bi.toNat < 2 ^ w * 2 ^ (w * (2 * k))) :
    limbsVal (madN even odd a bi false).1 + 2 ^ w * limbsVal (madN even odd a bi false).2 = S + limbsVal a * bi.toNat ∧
      (madN even odd a bi false).1.length = 2 * k ∧ (madN even odd a bi false).2.length = 2 * k := by
  obtain ⟨he, ho, hz, hS⟩ := h
  obtain ⟨e0, et, rfl⟩ : ∃ x l, even = x :: l := by
    cases even with
    | nil => simp at he; omega
    | cons x l => exact ⟨x, l, rfl⟩
  obtain ⟨o0, o1, ot, rfl⟩ : ∃ x y l, odd = x :: y :: l := by
    match odd, ho with
    | [], ho => simp at ho; omega
    | [_], ho => simp at ho; omega
    | x :: y :: l, _ => exact ⟨x, y, l, rfl⟩
  have hz' : o0 = 0#w := hz
  subst hz'
  simp only [List.length_cons] at he ho
  have hp : 0 < 2 ^ w := Nat.two_pow_pos w
  have hS' : o1.toNat + 2 ^ w * limbsVal ot + (e0.toNat + 2 ^ w * limbsVal et) = S := by
    apply Nat.eq_of_mul_eq_mul_left hp
    rw [← hS]
    simp only [limbsVal_cons, BitVec.toNat_ofNat, Nat.zero_mod]
    ring
  obtain ⟨r1, r2⟩ := addWithCarry_spec hw e0 o1 0#w (by simp)
  obtain ⟨s1, s2, s3⟩ := cMadN_spec hw bi k (ot ++ [0#w, 0#w]) a.tail (addWithCarry e0 o1 0#w).carry (by simp; omega) (by rw [List.length_tail]; omega) r2
  obtain ⟨t1, t2, t3⟩ := cMadN_spec hw bi k ((addWithCarry e0 o1 0#w).result :: et) a 0#w (by simp; omega) (.inl ha) (by simp)
  have happ : limbsVal (ot ++ [0#w, 0#w]) = limbsVal ot := by rw [limbsVal_append]; simp
  rw [happ] at s1
  have hd : madN (e0 :: et) (0#w :: o1 :: ot) a bi false = ((cMadN bi ((addWithCarry e0 o1 0#w).result :: et) a 0#w).1,
      addLast (cMadN bi (ot ++ [0#w, 0#w]) a.tail (addWithCarry e0 o1 0#w).carry).1 (cMadN bi ((addWithCarry e0 o1 0#w).result :: et) a 0#w).2) := rfl
  rw [hd]
  generalize cMadN bi (ot ++ [0#w, 0#w]) a.tail (addWithCarry e0 o1 0#w).carry = O at *
  generalize cMadN bi ((addWithCarry e0 o1 0#w).result :: et) a 0#w = E at *
  have hsum : limbsVal E.1 + 2 ^ (w * (2 * k)) * E.2.toNat + 2 ^ w * (limbsVal O.1 + 2 ^ (w * (2 * k)) * O.2.toNat) = S + limbsVal a * bi.toNat := by
    rw [t1, s1, ← halfVal_tail a, ← hS', limbsVal_cons]
    simp only [BitVec.toNat_ofNat, Nat.zero_mod] at r1 ⊢
    linear_combination r1
  have hB : 2 ^ (w * (2 * k)) = 2 ^ w * 2 ^ (w * (2 * k - 1)) := by rw [← pow_add]; congr 1; obtain ⟨j, rfl⟩ : ∃ j, k = j + 1 := ⟨k - 1, by omega⟩; rw [show 2 * (j + 1) - 1 = 2 * j + 1 by omega]; ring
  have hO0 : O.2.toNat = 0 := by
    by_contra hne
    have : O.2.toNat = 1 := by omega
    rw [this] at hsum
    rw [Nat.mul_add, Nat.mul_one] at hsum
    omega
  rw [hO0, Nat.mul_zero, Nat.add_zero] at hsum
  obtain ⟨l1, l2⟩ := addLast_spec hw O.1 E.2 (2 * k - 1) (by omega) t2 (by
    rw [show 2 * k - 1 + 1 = 2 * k by omega]
    refine Nat.lt_of_mul_lt_mul_left (a := 2 ^ w) ?_
    rw [Nat.mul_add, ← Nat.mul_assoc, ← hB]
    omega)
  dsimp only
  refine ⟨?_, t3, by omega⟩
  rw [l1, Nat.mul_add, ← Nat.mul_assoc, ← hB]
  omega

theorem gpu_redc_spec (hw : 0 < w) (k : Nat) (hk : 1 ≤ k) (m even odd : Limbs w) (inv : BitVec w) (T : Nat) (hm : m.length = 2 * k)
    (he : even.length = 2 * k) (ho : odd.length = 2 * k) (hT : limbsVal even + 2 ^ w * limbsVal odd = T)
    (hinv : ((m.headD 0#w).toNat * inv.toNat + 1) % 2 ^ w = 0) (hb : T + limbsVal m * (2 ^ w - 1) < 2 ^ w * 2 ^ (w * (2 * k))) :
    ∃ e o S q, redc m inv even odd = some (e, o) ∧ GpuAcc k S o e ∧ q < 2 ^ w ∧ 2 ^ w * S = T + limbsVal m * q := by
  have hp : 0 < 2 ^ w := Nat.two_pow_pos w
  obtain ⟨mi, hmi⟩ : ∃ mi, mi = even.headD 0#w * inv := ⟨_, rfl⟩
  obtain ⟨s1, s2, s3⟩ := cMadN_spec hw mi k odd m.tail 0#w ho (by rw [List.length_tail]; omega) (by simp)
  obtain ⟨t1, t2, t3⟩ := cMadN_spec hw mi k even m 0#w he (.inl hm) (by simp)
  have hmlt := mi.isLt
  have hd : redc m inv even odd = if (cMadN mi odd m.tail 0#w).2 ≠ 0#w then none
      else some ((cMadN mi even m 0#w).1, addLast (cMadN mi odd m.tail 0#w).1 (cMadN mi even m 0#w).2) := by rw [hmi]; rfl
  rw [hd]
  generalize cMadN mi odd m.tail 0#w = O at *
  generalize cMadN mi even m 0#w = E at *
  have hsum : limbsVal E.1 + 2 ^ (w * (2 * k)) * E.2.toNat + 2 ^ w * (limbsVal O.1 + 2 ^ (w * (2 * k)) * O.2.toNat) = T + limbsVal m * mi.toNat := by
    rw [t1, s1, ← halfVal_tail m, ← hT]
    simp only [BitVec.toNat_ofNat, Nat.zero_mod]
    ring
  have hle : limbsVal m * mi.toNat ≤ limbsVal m * (2 ^ w - 1) := Nat.mul_le_mul_left _ (by omega)
  have hB : 2 ^ (w * (2 * k)) = 2 ^ w * 2 ^ (w * (2 * k - 1)) := by rw [← pow_add]; congr 1; obtain ⟨j, rfl⟩ : ∃ j, k = j + 1 := ⟨k - 1, by omega⟩; rw [show 2 * (j + 1) - 1 = 2 * j + 1 by omega]; ring
  have hO0 : O.2.toNat = 0 := by
    by_contra hne
    have : O.2.toNat = 1 := by omega
    rw [this] at hsum
    rw [Nat.mul_add, Nat.mul_one] at hsum
    omega
  have hO0' : O.2 = 0#w := BitVec.eq_of_toNat_eq (by simpa using hO0)
  rw [if_neg (by simpa using hO0')]
  rw [hO0, Nat.mul_zero, Nat.add_zero] at hsum
  obtain ⟨l1, l2⟩ := addLast_spec hw O.1 E.2 (2 * k - 1) (by omega) t2 (by
    rw [show 2 * k - 1 + 1 = 2 * k by omega]
    refine Nat.lt_of_mul_lt_mul_left (a := 2 ^ w) ?_
    rw [Nat.mul_add, ← Nat.mul_assoc, ← hB]
    omega)
  have htot : limbsVal E.1 + 2 ^ w * limbsVal (addLast O.1 E.2) = T + limbsVal m * mi.toNat := by
    rw [l1, Nat.mul_add, ← Nat.mul_assoc, ← hB]
    omega
  -- the first word of the sum is zero
  have hdvd : 2 ^ w ∣ limbsVal even + limbsVal m * mi.toNat := by
    obtain ⟨e0, et, rfl⟩ : ∃ x l, even = x :: l := by
      cases even with
      | nil => simp at he; omega
      | cons x l => exact ⟨x, l, rfl⟩
    obtain ⟨m0, mt, rfl⟩ : ∃ x l, m = x :: l := by
      cases m with
      | nil => simp at hm; omega
      | cons x l => exact ⟨x, l, rfl⟩
    simp only [List.headD_cons] at hmi hinv
    obtain ⟨z, hzz⟩ := Nat.dvd_of_mod_eq_zero hinv
    have hmi' : ∃ t, mi.toNat + 2 ^ w * t = e0.toNat * inv.toNat := by
      rw [hmi, BitVec.toNat_mul]
      exact ⟨_, Nat.mod_add_div _ _⟩
    obtain ⟨t, ht⟩ := hmi'
    have h1 : 2 ^ w ∣ (e0.toNat + m0.toNat * mi.toNat) + 2 ^ w * (m0.toNat * t) := by
      refine ⟨e0.toNat * z, ?_⟩
      linear_combination e0.toNat * hzz + m0.toNat * ht
    have h2 : 2 ^ w ∣ e0.toNat + m0.toNat * mi.toNat := (Nat.dvd_add_left (Nat.dvd_mul_right _ _)).1 h1
    have h3 : limbsVal (e0 :: et) + limbsVal (m0 :: mt) * mi.toNat = (e0.toNat + m0.toNat * mi.toNat) + 2 ^ w * (limbsVal et + limbsVal mt * mi.toNat) := by
      simp only [limbsVal_cons]; ring
    rw [h3]
    exact Nat.dvd_add h2 (Nat.dvd_mul_right _ _)
  have hdvd' : 2 ^ w ∣ T + limbsVal m * mi.toNat := by
    rw [← hT, Nat.add_right_comm]
    exact Nat.dvd_add hdvd (Nat.dvd_mul_right _ _)
  obtain ⟨S, hS⟩ := hdvd'
  refine ⟨_, _, S, mi.toNat, rfl, ⟨by omega, t3, ?_, by omega⟩, hmlt, hS.symm⟩
  have hE : 2 ^ w ∣ limbsVal E.1 := by
    rw [hS] at htot
    exact (Nat.dvd_add_left (Nat.dvd_mul_right _ _)).1 ⟨S, htot⟩
  generalize E.1 = l at hE
  cases l with
  | nil => rfl
  | cons x xs =>
    rw [limbsVal_cons] at hE
    have hx := (Nat.dvd_add_left (Nat.dvd_mul_right _ _)).1 hE
    exact BitVec.eq_of_toNat_eq (by simpa using Nat.eq_zero_of_dvd_of_lt hx x.isLt)

theorem gpu_step_bound {B M S a b : Nat} (hB : 0 < B) (hS : S < 2 * M) (ha : a ≤ M) (hb : b < B) : S + a * b + M * (B - 1) < B * (2 * M) := by
  obtain ⟨c, rfl⟩ : ∃ c, B = c + 1 := ⟨B - 1, by omega⟩
  have h1 : a * b ≤ M * c := Nat.mul_le_mul ha (by omega)
  rw [Nat.add_sub_cancel]
  calc S + a * b + M * c < 2 * M + M * c + M * c := by omega
    _ = (c + 1) * (2 * M) := by ring

theorem gpu_madNRedc_spec (hw : 0 < w) (k : Nat) (hk : 1 ≤ k) (m a even odd : Limbs w) (inv bi : BitVec w) (S : Nat) (hm : m.length = 2 * k)
    (ha : a.length = 2 * k) (ham : limbsVal a ≤ limbsVal m) (hM : 2 * limbsVal m ≤ 2 ^ (w * (2 * k)))
    (hinv : ((m.headD 0#w).toNat * inv.toNat + 1) % 2 ^ w = 0) (first : Bool) (hS : S < 2 * limbsVal m)
    (h : if first then S = 0 else GpuAcc k S even odd) :
    ∃ e o S' q, madNRedc m inv even odd a bi first = some (e, o) ∧ GpuAcc k S' o e ∧ S' < 2 * limbsVal m ∧
      2 ^ w * S' = S + limbsVal a * bi.toNat + limbsVal m * q := by
  have hp : 0 < 2 ^ w := Nat.two_pow_pos w
  have hb := gpu_step_bound hp hS ham bi.isLt
  have hb' : 2 ^ w * (2 * limbsVal m) ≤ 2 ^ w * 2 ^ (w * (2 * k)) := Nat.mul_le_mul_left _ hM
  have key : limbsVal (madN even odd a bi first).1 + 2 ^ w * limbsVal (madN even odd a bi first).2 = S + limbsVal a * bi.toNat ∧
      (madN even odd a bi first).1.length = 2 * k ∧ (madN even odd a bi first).2.length = 2 * k := by
    cases first with
    | true =>
      have h0 : S = 0 := h
      obtain ⟨h1, h2⟩ := mulN_spec hw bi a
      obtain ⟨h3, h4⟩ := mulN_spec hw bi a.tail
      rw [List.length_tail] at h4
      simp only [madN, if_true]
      refine ⟨?_, by omega, by omega⟩
      rw [h1, h3, h0, ← halfVal_tail a]
      ring
    | false => exact gpu_madN_spec hw k hk a even odd bi S ha h (by omega)
  obtain ⟨h1, h2, h3⟩ := key
  obtain ⟨e, o, S', q, g1, g2, g3, g4⟩ := gpu_redc_spec hw k hk m _ _ inv _ hm h2 h3 h1 hinv (by omega)
  refine ⟨e, o, S', q, g1, g2, ?_, g4⟩
  refine Nat.lt_of_mul_lt_mul_left (a := 2 ^ w) ?_
  have : limbsVal m * q ≤ limbsVal m * (2 ^ w - 1) := Nat.mul_le_mul_left _ (by omega)
  omega

theorem gpu_mulLoop_spec (hw : 0 < w) (k : Nat) (hk : 1 ≤ k) (m x : Limbs w) (inv : BitVec w) (hm : m.length = 2 * k)
    (hx : x.length = 2 * k) (hxm : limbsVal x ≤ limbsVal m) (hM : 2 * limbsVal m ≤ 2 ^ (w * (2 * k)))
    (hinv : ((m.headD 0#w).toNat * inv.toNat + 1) % 2 ^ w = 0) :
    ∀ (j : Nat) (ys : Limbs w) (first : Bool) (even odd : Limbs w) (S : Nat), ys.length = 2 * j → (first = true → 1 ≤ j) → S < 2 * limbsVal m →
      (if first then S = 0 else GpuAcc k S even odd) →
      ∃ e o S', mulLoop m inv x ys first even odd = some (e, o) ∧ GpuAcc k S' e o ∧ S' < 2 * limbsVal m ∧
        2 ^ (w * (2 * j)) * S' ≡ S + limbsVal x * limbsVal ys [MOD limbsVal m] := by
  intro j
  induction j with
  | zero =>
    intro ys first even odd S hy hf hS h
    have hy' : ys = [] := List.eq_nil_of_length_eq_zero (by omega)
    subst hy'
    cases first with
    | true => exact absurd (hf rfl) (by omega)
    | false =>
      refine ⟨even, odd, S, rfl, h, hS, ?_⟩
      simp [Nat.ModEq]
  | succ j ih =>
    intro ys first even odd S hy _ hS h
    match ys, hy with
    | [], hy => simp at hy
    | [_], hy => simp at hy; omega
    | y0 :: y1 :: ys, hy =>
      simp only [List.length_cons] at hy
      obtain ⟨e1, o1, S1, q1, a1, a2, a3, a4⟩ := gpu_madNRedc_spec hw k hk m x even odd inv y0 S hm hx hxm hM hinv first hS h
      obtain ⟨o2, e2, S2, q2, b1, b2, b3, b4⟩ := gpu_madNRedc_spec hw k hk m x o1 e1 inv y1 S1 hm hx hxm hM hinv false a3 a2
      obtain ⟨e, o, S', c1, c2, c3, c4⟩ := ih ys false e2 o2 S2 (by omega) (by simp) b3 b2
      refine ⟨e, o, S', ?_, c2, c3, ?_⟩
      · simp only [mulLoop, a1, b1, Option.bind_some, c1]
      · rw [show w * (2 * (j + 1)) = w + w + w * (2 * j) by ring, pow_add, pow_add, Nat.mul_assoc]
        refine (c4.mul_left (2 ^ w * 2 ^ w)).trans ?_
        have : 2 ^ w * 2 ^ w * (S2 + limbsVal x * limbsVal ys) = S + limbsVal x * limbsVal (y0 :: y1 :: ys) + limbsVal m * (q1 + 2 ^ w * q2) := by
          simp only [limbsVal_cons]
          linear_combination a4 + 2 ^ w * b4
        rw [this]
        simp [Nat.ModEq]

/-- **C113 (the product before `Clamp`).** For every odd modulus of which twice fits in the words and factors of which the first is at most the modulus (the
second may be any number), no check fails, and the result is less than twice the modulus and the product over `R` modulo the modulus, whatever the memory
held before. -/
theorem C113_mulLimbs (hw : 0 < w) (k : Nat) (hk : 1 ≤ k) (m x y even : Limbs w) (inv : BitVec w) (hm : m.length = 2 * k)
    (hx : x.length = 2 * k) (hy : y.length = 2 * k) (hm0 : 0 < limbsVal m) (hxm : limbsVal x ≤ limbsVal m) (hM : 2 * limbsVal m ≤ 2 ^ (w * (2 * k)))
    (hinv : ((m.headD 0#w).toNat * inv.toNat + 1) % 2 ^ w = 0) :
    ∃ r, mulLimbs m inv x y even = some r ∧ r.length = 2 * k ∧ limbsVal r < 2 * limbsVal m ∧
      2 ^ (w * (2 * k)) * limbsVal r ≡ limbsVal x * limbsVal y [MOD limbsVal m] := by
  obtain ⟨e, o, S, h1, ⟨g1, g2, g3, g4⟩, h3, h4⟩ := gpu_mulLoop_spec hw k hk m x inv hm hx hxm hM hinv k y true even (zero x.length) 0 hy (fun _ => hk)
    (by omega) rfl
  rw [Nat.zero_add] at h4
  obtain ⟨z, ot, rfl⟩ : ∃ z l, o = z :: l := by
    cases o with
    | nil => simp at g2; omega
    | cons z l => exact ⟨z, l, rfl⟩
  have hz : z = 0#w := g3
  subst hz
  have hp : 0 < 2 ^ w := Nat.two_pow_pos w
  have hS : limbsVal ot + limbsVal e = S := by
    apply Nat.eq_of_mul_eq_mul_left hp
    rw [← g4, limbsVal_cons]
    simp only [BitVec.toNat_ofNat, Nat.zero_mod]
    ring
  simp only [List.length_cons] at g2
  obtain ⟨f1, f2, f3⟩ := addGo_spec hw e (ot ++ [0#w]) 0#w (by simp; omega) (by simp)
  have happ : limbsVal (ot ++ [0#w]) = limbsVal ot := by rw [limbsVal_append]; simp
  rw [happ, g1] at f1
  simp only [BitVec.toNat_ofNat, Nat.zero_mod, Nat.add_zero] at f1
  have hc : (addGo e (ot ++ [0#w]) 0#w).2.toNat = 0 := by
    by_contra hne
    have : (addGo e (ot ++ [0#w]) 0#w).2.toNat = 1 := by omega
    rw [this] at f1
    omega
  rw [hc, Nat.mul_zero, Nat.add_zero] at f1
  have hr : limbsVal (addGo e (ot ++ [0#w]) 0#w).1 = S := by omega
  refine ⟨(addGo e (ot ++ [0#w]) 0#w).1, ?_, by omega, by omega, by rw [hr]; exact h4⟩
  rw [mulLimbs, h1]
  rfl

/-- **C113 (products).** The product of elements is the element that times `R` is their product modulo the modulus. -/
theorem C113_mul (hw : 0 < w) (k : Nat) (hk : 1 ≤ k) (m x y : Limbs w) (inv : BitVec w) (hm : m.length = 2 * k)
    (hx : x.length = 2 * k) (hy : y.length = 2 * k) (hxm : limbsVal x < limbsVal m) (hM : 2 * limbsVal m ≤ 2 ^ (w * (2 * k)))
    (hinv : ((m.headD 0#w).toNat * inv.toNat + 1) % 2 ^ w = 0) :
    ∃ r, GpuDebug.mul m inv x y = some r ∧ r.length = 2 * k ∧ limbsVal r < limbsVal m ∧
      2 ^ (w * (2 * k)) * limbsVal r % limbsVal m = limbsVal x * limbsVal y % limbsVal m := by
  obtain ⟨r, h1, h2, h3, h4⟩ := C113_mulLimbs hw k hk m x y (zero x.length) inv hm hx hy (by omega) (Nat.le_of_lt hxm) hM hinv
  obtain ⟨g1, g2⟩ := gpu_clamp_spec hw m r (by omega)
  refine ⟨GpuDebug.clamp m r, by rw [GpuDebug.mul, h1]; rfl, by omega, ?_, ?_⟩
  · rw [g1]; split <;> omega
  · rw [g1]
    split
    · rename_i hle
      refine Eq.trans ?_ h4
      have : 2 ^ (w * (2 * k)) * limbsVal r = 2 ^ (w * (2 * k)) * (limbsVal r - limbsVal m) + limbsVal m * 2 ^ (w * (2 * k)) := by
        rw [Nat.mul_sub, Nat.mul_comm (limbsVal m), Nat.sub_add_cancel (Nat.mul_le_mul_left _ hle)]
      rw [this, Nat.add_mul_mod_self_left]
    · exact h4

/-- **C113 (the negative of zero).** A product with the negative of zero, which is the modulus, on the left is zero or the modulus before `Clamp`; the result is
zero. -/
theorem C113_mul_negate_zero (hw : 0 < w) (k : Nat) (hk : 1 ≤ k) (m y : Limbs w) (inv : BitVec w) (hm : m.length = 2 * k) (hy : y.length = 2 * k)
    (hm0 : 0 < limbsVal m) (hM : 2 * limbsVal m ≤ 2 ^ (w * (2 * k))) (hodd : limbsVal m % 2 = 1)
    (hinv : ((m.headD 0#w).toNat * inv.toNat + 1) % 2 ^ w = 0) :
    ∃ r, GpuDebug.mul m inv m y = some r ∧ limbsVal r = 0 := by
  obtain ⟨r, h1, h2, h3, h4⟩ := C113_mulLimbs hw k hk m m y (zero m.length) inv hm hm hy hm0 (Nat.le_refl _) hM hinv
  obtain ⟨g1, g2⟩ := gpu_clamp_spec hw m r (by omega)
  refine ⟨GpuDebug.clamp m r, by rw [GpuDebug.mul, h1]; rfl, ?_⟩
  have hd : limbsVal m ∣ 2 ^ (w * (2 * k)) * limbsVal r :=
    Nat.modEq_zero_iff_dvd.1 (h4.trans (Nat.modEq_zero_iff_dvd.2 (Nat.dvd_mul_right _ _)))
  have hcop : Nat.Coprime (limbsVal m) (2 ^ (w * (2 * k))) := by
    refine Nat.Coprime.pow_right _ ?_
    rw [Nat.Coprime, Nat.gcd_comm, Nat.gcd_rec, hodd]
    rfl
  obtain ⟨t, ht⟩ := hcop.dvd_of_dvd_mul_left hd
  have : t < 2 := Nat.lt_of_mul_lt_mul_left (a := limbsVal m) (by omega)
  rw [g1]
  rcases (by omega : t = 0 ∨ t = 1) with rfl | rfl
  · rw [ht]; split <;> omega
  · rw [ht]; split <;> omega

/-- **C113 (the product with the inverse).** An element coprime to the odd modulus times its inverse is the one, `R` modulo the modulus. -/
theorem C113_mul_inverse (hw : 0 < w) (k : Nat) (hk : 1 ≤ k) (m r2 x : Limbs w) (inv : BitVec w) (hm : m.length = 2 * k) (hx : x.length = 2 * k)
    (hr : r2.length = 2 * k) (hm1 : 1 < limbsVal m) (hodd : limbsVal m % 2 = 1) (hxm : limbsVal x < limbsVal m)
    (hco : Nat.Coprime (limbsVal x) (limbsVal m)) (hM : 2 * limbsVal m ≤ 2 ^ (w * (2 * k)))
    (hr2 : limbsVal r2 = (2 ^ (w * (2 * k))) ^ 2 % limbsVal m) (hinv : ((m.headD 0#w).toNat * inv.toNat + 1) % 2 ^ w = 0) :
    ∃ b r, GpuDebug.inverse m r2 (2 * limbsVal m) x = some (some b) ∧ GpuDebug.mul m inv x b = some r ∧ r.length = 2 * k ∧
      limbsVal r = 2 ^ (w * (2 * k)) % limbsVal m := by
  rw [← hm] at hM hr2
  obtain ⟨b, h1, h2, h3, h4⟩ := C112_inverse hw m r2 x hodd hm1 hM (by omega) hr2 (by omega) hxm hco _ (Nat.le_refl _)
  rw [hm] at hM h4
  obtain ⟨r, g1, g2, g3, g4⟩ := C113_mul hw k hk m x b inv hm hx (by omega) hxm hM hinv
  refine ⟨b, r, h1, g1, g2, ?_⟩
  have hcop : Nat.gcd (limbsVal m) (2 ^ (w * (2 * k))) = 1 := by
    refine Nat.Coprime.pow_right _ ?_
    rw [Nat.Coprime, Nat.gcd_comm, Nat.gcd_rec, hodd]
    rfl
  have he : limbsVal r ≡ 2 ^ (w * (2 * k)) [MOD limbsVal m] := by
    refine Nat.ModEq.cancel_left_of_coprime hcop ?_
    rw [← pow_two]
    exact g4.trans h4
  rw [← he, Nat.mod_eq_of_lt g3]

/-- Two words of four bits and the modulus 97: `5·6` over `2^8`. -/
example : GpuDebug.mul [1#4, 6#4] 15#4 [5#4, 0#4] [6#4, 0#4] = some [13#4, 0#4] := by decide

/-- The hypotheses hold for this modulus, and four words. -/
example : ∃ r, GpuDebug.mul [1#4, 6#4, 0#4, 1#4] 15#4 [5#4, 0#4, 15#4, 0#4] [6#4, 0#4, 15#4, 15#4] = some r ∧ r.length = 4 ∧ limbsVal r < 4193 ∧
    65536 * limbsVal r % 4193 = 3845 * 65286 % 4193 :=
  C113_mul (by decide) 2 (by decide) _ _ _ _ rfl rfl rfl (by decide) (by decide) (by decide)

end Tachyon.Props
