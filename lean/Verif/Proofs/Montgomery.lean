import Verif.Proofs.BigInt
import Verif.Model.Montgomery
import Mathlib.Data.Nat.ModEq
import Mathlib.Data.Int.ModEq

namespace Tachyon.BigInt

variable {w : Nat}

/-! ## Clamp -/

theorem clamp_spec (hw : 0 < w) (spare : Bool) (m v : Limbs w) (carry : Bool)
    (hlen : v.length = m.length)
    (hspare : spare = true → 2 * limbsVal m ≤ 2 ^ (w * m.length))
    (hS : limbsVal v + 2 ^ (w * m.length) * carry.toNat < 2 * limbsVal m) :
    limbsVal (clamp spare m v carry)
      = (limbsVal v + 2 ^ (w * m.length) * carry.toNat) % limbsVal m ∧
    (clamp spare m v carry).length = m.length := by
  have hv := limbsVal_lt v
  have hm := limbsVal_lt m
  rw [hlen] at hv
  -- the code's test is equivalent to "the full value is at least `m`"
  have hneeds : (if spare then ge v m else carry || ge v m) =
      decide (limbsVal m ≤ limbsVal v + 2 ^ (w * m.length) * carry.toNat) := by
    rw [ge_spec v m hlen]
    cases spare <;> cases carry <;> simp
    · omega
    · have := hspare rfl; simp at hS; omega
  unfold clamp
  simp only [hneeds, decide_eq_true_eq]
  split
  · rename_i h
    have hmod : (limbsVal v + 2 ^ (w * m.length) * carry.toNat) % limbsVal m
        = limbsVal v + 2 ^ (w * m.length) * carry.toNat - limbsVal m := by
      rw [Nat.mod_eq_sub_mod h, Nat.mod_eq_of_lt (by omega)]
    rw [hmod]
    refine ⟨?_, by rw [(sub_spec hw v m hlen).2.2, hlen]⟩
    by_cases hc : limbsVal m ≤ limbsVal v
    · rw [(sub_val_of_le hw v m hlen hc).1]
      cases carry with
      | false => simp
      | true => simp at hS; omega
    · rw [(sub_val_of_lt hw v m hlen (by omega)).1, hlen]
      cases carry with
      | false => simp at h; omega
      | true => simp; omega
  · rename_i h
    rw [Nat.mod_eq_of_lt (by omega)]
    cases carry with
    | false => exact ⟨by simp, hlen⟩
    | true => simp at h; omega

/-! ## The elimination step -/

theorem elim_dvd (r0 inv m0 : BitVec w) (hinv : 2 ^ w ∣ m0.toNat * inv.toNat + 1) :
    (mulAddWithCarry r0 (r0 * inv) m0 0#w).lo.toNat = 0 := by
  have h := mulAdd_spec r0 (r0 * inv) m0 0#w
  have hlt := (mulAddWithCarry r0 (r0 * inv) m0 0#w).lo.isLt
  have hd : 2 ^ w ∣ r0.toNat + (r0 * inv).toNat * m0.toNat := by
    rw [BitVec.toNat_mul]
    have h1 : (r0.toNat * inv.toNat % 2 ^ w) * m0.toNat ≡ r0.toNat * inv.toNat * m0.toNat [MOD 2 ^ w] :=
      (Nat.mod_modEq _ _).mul_right _
    have h2 : r0.toNat + r0.toNat * inv.toNat * m0.toNat ≡ 0 [MOD 2 ^ w] := by
      rw [Nat.modEq_zero_iff_dvd]
      have : r0.toNat + r0.toNat * inv.toNat * m0.toNat = (m0.toNat * inv.toNat + 1) * r0.toNat := by
        ring
      rw [this]; exact Dvd.dvd.mul_right hinv _
    exact (Nat.modEq_zero_iff_dvd).1 ((h1.add_left _).trans h2)
  simp only [BitVec.toNat_ofNat, Nat.zero_mod, Nat.add_zero] at h
  rw [← h] at hd
  exact Nat.eq_zero_of_dvd_of_lt ((Nat.dvd_add_left (Dvd.intro _ rfl)).1 hd) hlt

/-! ## MontgomeryReduce -/

theorem reduceGo_spec (hw : 0 < w) (m0 : BitVec w) (ms : Limbs w) (inv : BitVec w)
    (hinv : 2 ^ w ∣ m0.toNat * inv.toNat + 1) :
    ∀ (n : Nat) (r : Limbs w) (c : BitVec w), r.length = (m0 :: ms).length + n → c.toNat ≤ 1 →
    ∃ K < 2 ^ (w * n),
      2 ^ (w * n) * (limbsVal (reduceGo (m0 :: ms) inv n r c).1 +
        2 ^ (w * (m0 :: ms).length) * (reduceGo (m0 :: ms) inv n r c).2.toNat)
      = limbsVal r + 2 ^ (w * (m0 :: ms).length) * c.toNat + K * limbsVal (m0 :: ms) ∧
      (reduceGo (m0 :: ms) inv n r c).1.length = (m0 :: ms).length ∧
      (reduceGo (m0 :: ms) inv n r c).2.toNat ≤ 1
  | 0, r, c, hl, hc => ⟨0, by simp, by simp [reduceGo], by simpa [reduceGo] using hl,
      by simpa [reduceGo] using hc⟩
  | n + 1, [], c, hl, hc => by simp at hl
  | n + 1, r0 :: rs, c, hl, hc => by
    simp only [List.length_cons] at hl
    have hlo := elim_dvd r0 inv m0 hinv
    have h1 := mulAdd_spec r0 (r0 * inv) m0 0#w
    rw [hlo] at h1
    generalize htmp : r0 * inv = tmp at *
    obtain ⟨h2, h3⟩ := mulAddRow_spec tmp ms rs (mulAddWithCarry r0 tmp m0 0#w).hi (by omega)
    have hsplit : rs = rs.take ms.length ++ rs.drop ms.length := (List.take_append_drop _ _).symm
    have htl : (rs.take ms.length).length = ms.length := by simp; omega
    simp only [reduceGo, htmp]
    generalize hd : rs.drop ms.length = D at *
    match D, hd with
    | [], hd =>
      exfalso
      have := congrArg List.length hd
      simp at this; omega
    | top :: rest, hd =>
      simp only
      obtain ⟨h4, h4'⟩ := addWithCarry_spec hw top
        (mulAddRow tmp ms rs (mulAddWithCarry r0 tmp m0 0#w).hi).2 c hc
      have hlen : rs.length = ms.length + (rest.length + 1) := by
        conv_lhs => rw [hsplit]
        simp [htl]
      obtain ⟨K, hK, h5, h6, h7⟩ := reduceGo_spec hw m0 ms inv hinv n
        ((mulAddRow tmp ms rs (mulAddWithCarry r0 tmp m0 0#w).hi).1 ++
          (addWithCarry top (mulAddRow tmp ms rs (mulAddWithCarry r0 tmp m0 0#w).hi).2 c).result
            :: rest)
        (addWithCarry top (mulAddRow tmp ms rs (mulAddWithCarry r0 tmp m0 0#w).hi).2 c).carry
        (by simp [h3]; omega) h4'
      refine ⟨tmp.toNat + 2 ^ w * K, ?_, ?_, h6, h7⟩
      · have := tmp.isLt
        rw [Nat.mul_succ, pow_add, Nat.mul_comm (2 ^ (w * n))]
        have : 2 ^ w * K + 2 ^ w ≤ 2 ^ w * 2 ^ (w * n) := by
          rw [← Nat.mul_succ]; exact Nat.mul_le_mul_left _ hK
        omega
      · have hrs : limbsVal rs = limbsVal (rs.take ms.length) +
            2 ^ (w * ms.length) * (top.toNat + 2 ^ w * limbsVal rest) := by
          conv_lhs => rw [hsplit, limbsVal_append, htl, limbsVal_cons]
        rw [limbsVal_append, h3, limbsVal_cons] at h5
        simp only [limbsVal_cons, List.length_cons, Nat.mul_succ, pow_add, hrs,
          BitVec.toNat_ofNat, Nat.zero_mod, Nat.add_zero] at h1 h2 h5 ⊢
        linear_combination 2 ^ w * h5 + h1 + 2 ^ w * h2 + 2 ^ w * 2 ^ (w * ms.length) * h4

theorem bne_zero_toNat (c : BitVec w) (hc : c.toNat ≤ 1) : (c != 0#w).toNat = c.toNat := by
  by_cases h : c = 0#w
  · subst h; simp
  · have : c.toNat ≠ 0 := fun h0 => h (BitVec.eq_of_toNat_eq (by simpa using h0))
    rw [bne, beq_false_of_ne h]
    simp; omega

theorem montgomeryReduce_spec (hw : 0 < w) (spare : Bool) (m0 : BitVec w) (ms : Limbs w)
    (inv : BitVec w) (r : Limbs w) (hinv : 2 ^ w ∣ m0.toNat * inv.toNat + 1)
    (hlen : r.length = 2 * (m0 :: ms).length)
    (hspare : spare = true → 2 * limbsVal (m0 :: ms) ≤ 2 ^ (w * (m0 :: ms).length))
    (hr : limbsVal r < 2 ^ (w * (m0 :: ms).length) * limbsVal (m0 :: ms)) :
    limbsVal (montgomeryReduce spare (m0 :: ms) inv r) < limbsVal (m0 :: ms) ∧
    2 ^ (w * (m0 :: ms).length) * limbsVal (montgomeryReduce spare (m0 :: ms) inv r)
      ≡ limbsVal r [MOD limbsVal (m0 :: ms)] ∧
    (montgomeryReduce spare (m0 :: ms) inv r).length = (m0 :: ms).length := by
  obtain ⟨K, hK, h1, h2, h3⟩ :=
    reduceGo_spec hw m0 ms inv hinv (m0 :: ms).length r 0#w (by omega) (by simp)
  unfold montgomeryReduce
  generalize reduceGo (m0 :: ms) inv (m0 :: ms).length r 0#w = t at *
  generalize hM : limbsVal (m0 :: ms) = M at *
  generalize hR : 2 ^ (w * (m0 :: ms).length) = R at *
  have hMpos : 0 < M := by
    rcases Nat.eq_zero_or_pos M with h | h
    · subst h; simp at hr
    · exact h
  simp only [BitVec.toNat_ofNat, Nat.zero_mod, Nat.mul_zero, Nat.add_zero] at h1
  have hRpos : 0 < R := by rw [← hR]; exact Nat.two_pow_pos _
  have hS : limbsVal t.1 + R * t.2.toNat < 2 * M := by
    have h4 : R * (limbsVal t.1 + R * t.2.toNat) < R * (2 * M) := by
      rw [h1]
      have : K * M ≤ R * M := Nat.mul_le_mul_right _ hK.le
      nlinarith
    exact Nat.lt_of_mul_lt_mul_left h4
  have hcl := clamp_spec hw spare (m0 :: ms) t.1 (t.2 != 0#w) h2 (by rw [hM, hR]; exact hspare)
    (by rw [bne_zero_toNat _ h3, hM, hR]; exact hS)
  rw [bne_zero_toNat _ h3, hM, hR] at hcl
  refine ⟨by rw [hcl.1]; exact Nat.mod_lt _ hMpos, ?_, hcl.2⟩
  rw [hcl.1]
  have h5 : R * ((limbsVal t.1 + R * t.2.toNat) % M) ≡ R * (limbsVal t.1 + R * t.2.toNat) [MOD M] :=
    (Nat.mod_modEq _ _).mul_left _
  refine h5.trans ?_
  rw [h1]
  exact (Nat.ModEq.refl _).add (Nat.modEq_zero_iff_dvd.2 (Dvd.intro_left _ rfl)) |>.trans (by simp; rfl)

/-! ## FromMontgomery -/

theorem fromMontgomeryGo_spec (m0 : BitVec w) (ms : Limbs w) (inv : BitVec w)
    (hinv : 2 ^ w ∣ m0.toNat * inv.toNat + 1) :
    ∀ (n : Nat) (r : Limbs w), r.length = (m0 :: ms).length →
    ∃ K < 2 ^ (w * n),
      2 ^ (w * n) * limbsVal (fromMontgomeryGo (m0 :: ms) inv n r)
        = limbsVal r + K * limbsVal (m0 :: ms) ∧
      (fromMontgomeryGo (m0 :: ms) inv n r).length = (m0 :: ms).length
  | 0, r, hl => ⟨0, by simp, by simp [fromMontgomeryGo], by simpa [fromMontgomeryGo] using hl⟩
  | n + 1, [], hl => by simp at hl
  | n + 1, r0 :: rs, hl => by
    simp only [List.length_cons] at hl
    have hlo := elim_dvd r0 inv m0 hinv
    have h1 := mulAdd_spec r0 (r0 * inv) m0 0#w
    rw [hlo] at h1
    generalize htmp : r0 * inv = tmp at *
    obtain ⟨h2, h3⟩ := mulAddRow_spec tmp ms rs (mulAddWithCarry r0 tmp m0 0#w).hi (by omega)
    have htake : rs.take ms.length = rs := List.take_of_length_le (by omega)
    rw [htake] at h2
    simp only [fromMontgomeryGo, htmp]
    obtain ⟨K, hK, h5, h6⟩ := fromMontgomeryGo_spec m0 ms inv hinv n
      ((mulAddRow tmp ms rs (mulAddWithCarry r0 tmp m0 0#w).hi).1 ++
        [(mulAddRow tmp ms rs (mulAddWithCarry r0 tmp m0 0#w).hi).2]) (by simp [h3])
    refine ⟨tmp.toNat + 2 ^ w * K, ?_, ?_, h6⟩
    · have := tmp.isLt
      rw [Nat.mul_succ, pow_add, Nat.mul_comm (2 ^ (w * n))]
      have : 2 ^ w * K + 2 ^ w ≤ 2 ^ w * 2 ^ (w * n) := by
        rw [← Nat.mul_succ]; exact Nat.mul_le_mul_left _ hK
      omega
    · rw [limbsVal_append, h3, limbsVal_cons, limbsVal_nil] at h5
      simp only [limbsVal_cons, Nat.mul_succ, pow_add,
        BitVec.toNat_ofNat, Nat.zero_mod, Nat.add_zero] at h1 h2 h5 ⊢
      linear_combination 2 ^ w * h5 + h1 + 2 ^ w * h2

theorem fromMontgomery_spec (m0 : BitVec w) (ms : Limbs w) (inv : BitVec w) (v : Limbs w)
    (hinv : 2 ^ w ∣ m0.toNat * inv.toNat + 1) (hlen : v.length = (m0 :: ms).length)
    (hM : 0 < limbsVal (m0 :: ms)) :
    limbsVal (fromMontgomery (m0 :: ms) inv v) ≤ limbsVal (m0 :: ms) ∧
    (limbsVal v < limbsVal (m0 :: ms) →
      limbsVal (fromMontgomery (m0 :: ms) inv v) < limbsVal (m0 :: ms)) ∧
    2 ^ (w * (m0 :: ms).length) * limbsVal (fromMontgomery (m0 :: ms) inv v)
      ≡ limbsVal v [MOD limbsVal (m0 :: ms)] ∧
    (fromMontgomery (m0 :: ms) inv v).length = (m0 :: ms).length := by
  obtain ⟨K, hK, h1, h2⟩ := fromMontgomeryGo_spec m0 ms inv hinv (m0 :: ms).length v hlen
  have hv := limbsVal_lt v
  unfold fromMontgomery
  rw [hlen] at hv
  generalize fromMontgomeryGo (m0 :: ms) inv (m0 :: ms).length v = t at *
  generalize limbsVal (m0 :: ms) = M at *
  generalize 2 ^ (w * (m0 :: ms).length) = R at *
  have hKM : K * M + M ≤ R * M := by rw [← Nat.succ_mul]; exact Nat.mul_le_mul_right _ hK
  refine ⟨?_, fun hvM => ?_, ?_, h2⟩
  · by_contra hc
    have h3 : R * (M + 1) ≤ R * limbsVal t := Nat.mul_le_mul_left _ (by omega)
    rw [Nat.mul_succ] at h3
    omega
  · by_contra hc
    have h3 : R * M ≤ R * limbsVal t := Nat.mul_le_mul_left _ (by omega)
    omega
  · rw [h1]
    exact (Nat.ModEq.refl _).add (Nat.modEq_zero_iff_dvd.2 (Dvd.intro_left _ rfl)) |>.trans
      (by simp; rfl)

/-! ## Fast multiplication -/

theorem fastRow_spec (bi k : BitVec w) : ∀ (as ms rs : Limbs w) (h1 h2 : BitVec w),
    as.length = ms.length → as.length = rs.length →
    limbsVal (fastRow bi k as ms rs h1 h2).1 +
      2 ^ (w * as.length) * ((fastRow bi k as ms rs h1 h2).2.1.toNat +
        (fastRow bi k as ms rs h1 h2).2.2.toNat)
      = limbsVal rs + bi.toNat * limbsVal as + k.toNat * limbsVal ms + h1.toNat + h2.toNat ∧
    (fastRow bi k as ms rs h1 h2).1.length = as.length
  | [], [], [], h1, h2, _, _ => by simp [fastRow]
  | [], _ :: _, _, _, _, h, _ => by simp at h
  | [], [], _ :: _, _, _, _, h => by simp at h
  | _ :: _, [], _, _, _, h, _ => by simp at h
  | _ :: _, _ :: _, [], _, _, _, h => by simp at h
  | a :: as, m :: ms, r :: rs, h1, h2, hl1, hl2 => by
    have e1 := mulAdd_spec r a bi h1
    have e2 := mulAdd_spec (mulAddWithCarry r a bi h1).lo k m h2
    obtain ⟨e3, e4⟩ := fastRow_spec bi k as ms rs (mulAddWithCarry r a bi h1).hi
      (mulAddWithCarry (mulAddWithCarry r a bi h1).lo k m h2).hi (by simpa using hl1)
      (by simpa using hl2)
    refine ⟨?_, by simp [fastRow, e4]⟩
    simp only [fastRow, limbsVal_cons, List.length_cons, Nat.mul_succ, pow_add]
    linear_combination e1 + e2 + 2 ^ w * e3

theorem fastMulGo_spec (m0 : BitVec w) (ms : Limbs w) (inv a0 : BitVec w) (as : Limbs w)
    (hinv : 2 ^ w ∣ m0.toNat * inv.toNat + 1) (hla : as.length = ms.length)
    (hspare : 2 * limbsVal (m0 :: ms) ≤ 2 ^ (w * (m0 :: ms).length))
    (ha : limbsVal (a0 :: as) < limbsVal (m0 :: ms)) :
    ∀ (b r : Limbs w), r.length = (m0 :: ms).length → limbsVal r < 2 * limbsVal (m0 :: ms) →
    ∃ K,
      2 ^ (w * b.length) * limbsVal (fastMulGo (m0 :: ms) inv (a0 :: as) b r)
        = limbsVal r + limbsVal (a0 :: as) * limbsVal b + K * limbsVal (m0 :: ms) ∧
      limbsVal (fastMulGo (m0 :: ms) inv (a0 :: as) b r) < 2 * limbsVal (m0 :: ms) ∧
      (fastMulGo (m0 :: ms) inv (a0 :: as) b r).length = (m0 :: ms).length
  | [], r, hl, hr => ⟨0, by simp [fastMulGo], by simpa [fastMulGo] using hr,
      by simpa [fastMulGo] using hl⟩
  | bi :: bs, [], hl, hr => by simp at hl
  | bi :: bs, r0 :: rs, hl, hr => by
    simp only [List.length_cons] at hl
    have e1 := mulAdd_spec r0 a0 bi 0#w
    generalize ht1 : mulAddWithCarry r0 a0 bi 0#w = t1 at *
    have hlo := elim_dvd t1.lo inv m0 hinv
    have e2 := mulAdd_spec t1.lo (t1.lo * inv) m0 0#w
    rw [hlo] at e2
    generalize hk : t1.lo * inv = k at *
    obtain ⟨e3, e4⟩ := fastRow_spec bi k as ms rs t1.hi (mulAddWithCarry t1.lo k m0 0#w).hi hla
      (by omega)
    simp only [fastMulGo, ht1, hk]
    generalize hu : fastRow bi k as ms rs t1.hi (mulAddWithCarry t1.lo k m0 0#w).hi = u at *
    have hstep : 2 ^ w * (limbsVal u.1 + 2 ^ (w * as.length) * (u.2.1.toNat + u.2.2.toNat))
        = limbsVal (r0 :: rs) + bi.toNat * limbsVal (a0 :: as) + k.toNat * limbsVal (m0 :: ms) := by
      simp only [limbsVal_cons, BitVec.toNat_ofNat, Nat.zero_mod, Nat.add_zero] at e1 e2 ⊢
      linear_combination e1 + e2 + 2 ^ w * e3
    have hbi := bi.isLt
    have hkl := k.isLt
    generalize hM : limbsVal (m0 :: ms) = M at *
    generalize hA : limbsVal (a0 :: as) = A at *
    -- the exact new value stays below `2 * M`
    have hbound : limbsVal u.1 + 2 ^ (w * as.length) * (u.2.1.toNat + u.2.2.toNat) < 2 * M := by
      obtain ⟨B, hB⟩ : ∃ B, 2 ^ w = B + 1 := ⟨2 ^ w - 1, by have := Nat.two_pow_pos w; omega⟩
      have g1 : bi.toNat * A ≤ B * M := Nat.mul_le_mul (by omega) (by omega)
      have g2 : k.toNat * M ≤ B * M := Nat.mul_le_mul_right _ (by omega)
      have : 2 ^ w * (limbsVal u.1 + 2 ^ (w * as.length) * (u.2.1.toNat + u.2.2.toNat))
          < 2 ^ w * (2 * M) := by
        rw [hstep, hB]; nlinarith
      exact Nat.lt_of_mul_lt_mul_left this
    -- hence the top word addition does not overflow
    have htop : u.2.1.toNat + u.2.2.toNat < 2 ^ w := by
      have h1 : 2 ^ (w * as.length) * (u.2.1.toNat + u.2.2.toNat) < 2 ^ (w * as.length) * 2 ^ w := by
        rw [← pow_add, ← Nat.mul_succ, hla]
        simp only [List.length_cons] at hspare
        have : limbsVal u.1 + 2 ^ (w * as.length) * (u.2.1.toNat + u.2.2.toNat) <
          2 ^ (w * (ms.length + 1)) := lt_of_lt_of_le hbound hspare
        rw [hla] at this
        show _ < 2 ^ (w * (ms.length + 1))
        omega
      exact Nat.lt_of_mul_lt_mul_left h1
    have hsum : (u.2.1 + u.2.2).toNat = u.2.1.toNat + u.2.2.toNat := by
      rw [BitVec.toNat_add, Nat.mod_eq_of_lt htop]
    have hval : limbsVal (u.1 ++ [u.2.1 + u.2.2]) =
        limbsVal u.1 + 2 ^ (w * as.length) * (u.2.1.toNat + u.2.2.toNat) := by
      rw [limbsVal_append, e4, limbsVal_cons, limbsVal_nil, hsum]; simp
    obtain ⟨K, g1, g2, g3⟩ := fastMulGo_spec m0 ms inv a0 as hinv hla (by rw [hM]; exact hspare)
      (by rw [hM, hA]; exact ha) bs (u.1 ++ [u.2.1 + u.2.2]) (by simp [e4, hla])
      (by rw [hval, hM]; exact hbound)
    rw [hM] at g1 g2
    rw [hA] at g1
    refine ⟨k.toNat + 2 ^ w * K, ?_, g2, g3⟩
    rw [hval] at g1
    simp only [List.length_cons, Nat.mul_succ, pow_add, limbsVal_cons] at hstep ⊢
    linear_combination 2 ^ w * g1 + hstep

theorem fastMul_spec (hw : 0 < w) (spare : Bool) (m0 : BitVec w) (ms : Limbs w) (inv : BitVec w)
    (a b : Limbs w) (hinv : 2 ^ w ∣ m0.toNat * inv.toNat + 1)
    (hla : a.length = (m0 :: ms).length) (hlb : b.length = (m0 :: ms).length)
    (hspare : 2 * limbsVal (m0 :: ms) ≤ 2 ^ (w * (m0 :: ms).length))
    (ha : limbsVal a < limbsVal (m0 :: ms)) :
    limbsVal (fastMul spare (m0 :: ms) inv a b) < limbsVal (m0 :: ms) ∧
    2 ^ (w * (m0 :: ms).length) * limbsVal (fastMul spare (m0 :: ms) inv a b)
      ≡ limbsVal a * limbsVal b [MOD limbsVal (m0 :: ms)] ∧
    (fastMul spare (m0 :: ms) inv a b).length = (m0 :: ms).length := by
  match a, hla, ha with
  | [], hla, _ => simp at hla
  | a0 :: as, hla, ha =>
    have hMpos : 0 < limbsVal (m0 :: ms) := by omega
    obtain ⟨K, h1, h2, h3⟩ := fastMulGo_spec m0 ms inv a0 as hinv (by simpa using hla) hspare ha
      b (zero (a0 :: as).length) (by simpa using hla) (by simpa using hMpos)
    have hcl := clamp_spec hw spare (m0 :: ms)
      (fastMulGo (m0 :: ms) inv (a0 :: as) b (zero (a0 :: as).length)) false h3
      (fun _ => hspare) (by simpa using h2)
    unfold fastMul
    rw [hcl.1]
    refine ⟨Nat.mod_lt _ hMpos, ?_, hcl.2⟩
    simp only [Bool.toNat_false, Nat.mul_zero, Nat.add_zero, limbsVal_zero, Nat.zero_add] at h1 ⊢
    refine ((Nat.mod_modEq _ _).mul_left _).trans ?_
    rw [← hlb, h1]
    exact (Nat.ModEq.refl _).add (Nat.modEq_zero_iff_dvd.2 (Dvd.intro_left _ rfl)) |>.trans
      (by simp; rfl)

theorem slowMul_spec (hw : 0 < w) (spare : Bool) (m0 : BitVec w) (ms : Limbs w) (inv : BitVec w)
    (a b : Limbs w) (hinv : 2 ^ w ∣ m0.toNat * inv.toNat + 1)
    (hla : a.length = (m0 :: ms).length) (hlb : b.length = (m0 :: ms).length)
    (hspare : spare = true → 2 * limbsVal (m0 :: ms) ≤ 2 ^ (w * (m0 :: ms).length))
    (ha : limbsVal a < limbsVal (m0 :: ms)) :
    limbsVal (slowMul spare (m0 :: ms) inv a b) < limbsVal (m0 :: ms) ∧
    2 ^ (w * (m0 :: ms).length) * limbsVal (slowMul spare (m0 :: ms) inv a b)
      ≡ limbsVal a * limbsVal b [MOD limbsVal (m0 :: ms)] ∧
    (slowMul spare (m0 :: ms) inv a b).length = (m0 :: ms).length := by
  obtain ⟨h1, h2⟩ := mulExtend_spec a b (by omega)
  have hb := limbsVal_lt b
  rw [hlb] at hb
  have := montgomeryReduce_spec hw spare m0 ms inv (mulExtend a b) hinv (by omega) hspare (by
    rw [h1, Nat.mul_comm]
    exact Nat.mul_lt_mul_of_lt_of_le hb ha.le (by omega))
  rw [h1] at this
  exact this

end Tachyon.BigInt
