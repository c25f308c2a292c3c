import Verif.Proofs.Montgomery
import Verif.Proofs.Square

namespace Tachyon.BigInt

theorem limbsVal_split32 (xs : List (BitVec 64)) : limbsVal (split32 xs) = limbsVal xs := by
  induction xs with
  | nil => rfl
  | cons x xs ih =>
    have := x.isLt
    simp only [split32, limbsVal_cons, ih, BitVec.toNat_setWidth, BitVec.toNat_ushiftRight,
      Nat.shiftRight_eq_div_pow]
    omega

theorem length_split32 (xs : List (BitVec 64)) : (split32 xs).length = 2 * xs.length := by
  induction xs with
  | nil => rfl
  | cons x xs ih => simp [split32, ih]; omega

theorem limbsVal_join32 : ∀ (ys : List (BitVec 32)) (n : Nat), ys.length = 2 * n →
    limbsVal (join32 ys) = limbsVal ys ∧ (join32 ys).length = n
  | [], n, h => by simp at h; simp [join32, h]
  | [_], n, h => by simp at h; omega
  | x :: y :: ys, n, h => by
    obtain ⟨h1, h2⟩ := limbsVal_join32 ys (n - 1) (by simp at h; omega)
    have hx := x.isLt; have hy := y.isLt
    refine ⟨?_, by simp at h; simp [join32, h2]; omega⟩
    have hor : (x.setWidth 64 ||| (y.setWidth 64 <<< 32)).toNat = x.toNat + 2 ^ 32 * y.toNat := by
      rw [BitVec.toNat_or, BitVec.toNat_shiftLeft, BitVec.toNat_setWidth, BitVec.toNat_setWidth,
        Nat.shiftLeft_eq, Nat.mod_eq_of_lt (by omega), Nat.mod_eq_of_lt (by omega),
        Nat.mod_eq_of_lt (by omega), Nat.mul_comm, Nat.or_comm, or_eq_add_of_lt hx]
      omega
    simp only [join32, limbsVal_cons, h1, hor]
    ring

theorem montgomeryReduce32_spec (spare : Bool) (m : List (BitVec 64)) (inv : BitVec 32)
    (r : List (BitVec 64)) (hinv : 2 ^ 32 ∣ limbsVal m * inv.toNat + 1)
    (hm : m ≠ [])
    (hlen : r.length = 2 * m.length)
    (hspare : spare = true → 2 * limbsVal m ≤ 2 ^ (64 * m.length))
    (hr : limbsVal r < 2 ^ (64 * m.length) * limbsVal m) :
    limbsVal (montgomeryReduce32 spare m inv r) < limbsVal m ∧
    2 ^ (64 * m.length) * limbsVal (montgomeryReduce32 spare m inv r)
      ≡ limbsVal r [MOD limbsVal m] ∧
    (montgomeryReduce32 spare m inv r).length = m.length := by
  have hval := limbsVal_split32 m
  have hlen2 := length_split32 m
  match hs : split32 m, hval, hlen2 with
  | [], _, hlen2 => simp at hlen2; exact absurd hlen2 hm
  | m0 :: ms, hval, hlen2 =>
    have hinv' : 2 ^ 32 ∣ m0.toNat * inv.toNat + 1 := by
      rw [← hval, limbsVal_cons, Nat.add_mul, Nat.mul_assoc] at hinv
      have e : m0.toNat * inv.toNat + 2 ^ 32 * (limbsVal ms * inv.toNat) + 1 =
        2 ^ 32 * (limbsVal ms * inv.toNat) + (m0.toNat * inv.toNat + 1) := by ring
      rw [e] at hinv
      exact (Nat.dvd_add_right (Dvd.intro _ rfl)).1 hinv
    obtain ⟨K, hK, h1, h2, h3⟩ := reduceGo_spec (by omega) m0 ms inv hinv' (2 * m.length)
      (split32 r) 0#32 (by rw [length_split32, hlen2]; omega) (by simp)
    unfold montgomeryReduce32
    rw [hs]
    have hR : 2 ^ (32 * (2 * m.length)) = 2 ^ (64 * m.length) := by congr 1; ring
    rw [hval, hlen2, limbsVal_split32, hR] at h1
    rw [hR] at hK
    generalize reduceGo (m0 :: ms) inv (2 * m.length) (split32 r) 0#32 = t at *
    obtain ⟨j1, j2⟩ := limbsVal_join32 t.1 m.length (by omega)
    simp only [BitVec.toNat_ofNat, Nat.zero_mod, Nat.mul_zero, Nat.add_zero] at h1
    generalize hM : limbsVal m = M at *
    generalize hRR : 2 ^ (64 * m.length) = R at *
    have hMpos : 0 < M := by
      rcases Nat.eq_zero_or_pos M with h | h
      · subst h; simp at hr
      · exact h
    have hS : limbsVal t.1 + R * t.2.toNat < 2 * M := by
      have h4 : R * (limbsVal t.1 + R * t.2.toNat) < R * (2 * M) := by
        rw [h1]
        have : K * M ≤ R * M := Nat.mul_le_mul_right _ hK.le
        nlinarith
      exact Nat.lt_of_mul_lt_mul_left h4
    have hcl := clamp_spec (w := 64) (by omega) spare m (join32 t.1) (t.2 != 0#32) j2
      (by rw [hM, hRR]; exact hspare)
      (by rw [bne_zero_toNat _ h3, hM, hRR, j1]; exact hS)
    rw [bne_zero_toNat _ h3, hM, hRR, j1] at hcl
    refine ⟨by rw [hcl.1]; exact Nat.mod_lt _ hMpos, ?_, hcl.2⟩
    rw [hcl.1]
    refine ((Nat.mod_modEq _ _).mul_left _).trans ?_
    rw [h1]
    exact (Nat.ModEq.refl _).add (Nat.modEq_zero_iff_dvd.2 (Dvd.intro_left _ rfl)) |>.trans
      (by simp; rfl)

theorem fromMontgomery32_spec (m : List (BitVec 64)) (inv : BitVec 32)
    (v : List (BitVec 64)) (hinv : 2 ^ 32 ∣ limbsVal m * inv.toNat + 1)
    (hlen : v.length = m.length) (hv : limbsVal v < limbsVal m) :
    limbsVal (fromMontgomery32 m inv v) < limbsVal m ∧
    2 ^ (64 * m.length) * limbsVal (fromMontgomery32 m inv v)
      ≡ limbsVal v [MOD limbsVal m] ∧
    (fromMontgomery32 m inv v).length = m.length := by
  have hval := limbsVal_split32 m
  have hlen2 := length_split32 m
  match hs : split32 m, hval, hlen2 with
  | [], hval, hlen2 => simp at hval; omega
  | m0 :: ms, hval, hlen2 =>
    have hinv' : 2 ^ 32 ∣ m0.toNat * inv.toNat + 1 := by
      rw [← hval, limbsVal_cons, Nat.add_mul, Nat.mul_assoc] at hinv
      have e : m0.toNat * inv.toNat + 2 ^ 32 * (limbsVal ms * inv.toNat) + 1 =
        2 ^ 32 * (limbsVal ms * inv.toNat) + (m0.toNat * inv.toNat + 1) := by ring
      rw [e] at hinv
      exact (Nat.dvd_add_right (Dvd.intro _ rfl)).1 hinv
    obtain ⟨_, h1, h2, h3⟩ := fromMontgomery_spec m0 ms inv (split32 v) hinv'
      (by rw [length_split32, hlen2, hlen]) (by omega)
    unfold fromMontgomery32
    rw [hs]
    have hR : 2 ^ (32 * (2 * m.length)) = 2 ^ (64 * m.length) := by congr 1; ring
    rw [hlen2, hval, limbsVal_split32, hR] at h2
    rw [hval, limbsVal_split32] at h1
    obtain ⟨j1, j2⟩ := limbsVal_join32 (fromMontgomery (m0 :: ms) inv (split32 v)) m.length
      (by omega)
    rw [j1]
    exact ⟨h1 hv, h2, j2⟩

end Tachyon.BigInt
