import Verif.Model.GpuDebug
import Verif.Proofs.BigInt
import Mathlib.Data.Nat.Prime.Basic
import Mathlib.Data.Int.ModEq
/-! C112: the prime field of the GPU on the CPU adds, subtracts and inverts as it should, but the negative of zero is the modulus, which is not zero, and its
inversion never ends. -/
namespace Tachyon.Props

open Tachyon.BigInt Tachyon.GpuDebug

variable {w : Nat}

theorem gpu_addLoop_fst (ops : Nat) : ∀ (i : Nat) (x y : Limbs w) (c : BitVec w), x.length = y.length → i + x.length ≤ ops → (i = 0 → c = 0#w) →
    (addLoop ops i x y c).1 = (addGo x y c).1
  | _, [], [], _, _, _, _ => rfl
  | _, [], _ :: _, _, h, _, _ => by simp at h
  | _, _ :: _, [], _, h, _, _ => by simp at h
  | i, x :: xs, y :: ys, c, h, ho, hc => by
    simp only [List.length_cons, Nat.add_right_cancel_iff] at h ho
    have hr : (chainAdd ops (i + 1) x y c).result = (addWithCarry x y c).result := by
      unfold chainAdd
      by_cases h0 : i = 0
      · rw [hc h0]; split_ifs <;> first | rfl | omega
      · split_ifs <;> first | rfl | omega
    simp only [addLoop, addGo, hr]
    congr 1
    cases xs with
    | nil =>
      cases ys with
      | nil => rfl
      | cons _ _ => simp at h
    | cons a as =>
      have hcar : (chainAdd ops (i + 1) x y c).carry = (addWithCarry x y c).carry := by
        simp only [List.length_cons] at ho
        unfold chainAdd
        by_cases h0 : i = 0
        · rw [hc h0]; split_ifs <;> first | rfl | omega
        · split_ifs <;> first | rfl | omega
      rw [hcar]
      exact gpu_addLoop_fst ops (i + 1) (a :: as) ys _ h (by omega) (by omega)

theorem gpu_subLoop_fst (ops : Nat) : ∀ (i : Nat) (x y : Limbs w) (c : BitVec w), x.length = y.length → i + x.length ≤ ops → (i = 0 → c = 0#w) →
    (subLoop ops i x y c).1 = (subGo x y c).1
  | _, [], [], _, _, _, _ => rfl
  | _, [], _ :: _, _, h, _, _ => by simp at h
  | _, _ :: _, [], _, h, _, _ => by simp at h
  | i, x :: xs, y :: ys, c, h, ho, hc => by
    simp only [List.length_cons, Nat.add_right_cancel_iff] at h ho
    have hr : (chainSub ops (i + 1) x y c).result = (subWithBorrow x y c).result := by
      unfold chainSub
      by_cases h0 : i = 0
      · rw [hc h0]; split_ifs <;> first | rfl | omega
      · split_ifs <;> first | rfl | omega
    simp only [subLoop, subGo, hr]
    congr 1
    cases xs with
    | nil =>
      cases ys with
      | nil => rfl
      | cons _ _ => simp at h
    | cons a as =>
      have hcar : (chainSub ops (i + 1) x y c).borrow = (subWithBorrow x y c).borrow := by
        simp only [List.length_cons] at ho
        unfold chainSub
        by_cases h0 : i = 0
        · rw [hc h0]; split_ifs <;> first | rfl | omega
        · split_ifs <;> first | rfl | omega
      rw [hcar]
      exact gpu_subLoop_fst ops (i + 1) (a :: as) ys _ h (by omega) (by omega)

theorem gpu_subLoop_snd (ops : Nat) : ∀ (i : Nat) (x y : Limbs w) (c : BitVec w), x.length = y.length → i + x.length < ops → (i = 0 → c = 0#w) →
    (subLoop ops i x y c).2 = (subGo x y c).2
  | _, [], [], _, _, _, _ => rfl
  | _, [], _ :: _, _, h, _, _ => by simp at h
  | _, _ :: _, [], _, h, _, _ => by simp at h
  | i, x :: xs, y :: ys, c, h, ho, hc => by
    simp only [List.length_cons, Nat.add_right_cancel_iff] at h ho
    have hcar : (chainSub ops (i + 1) x y c).borrow = (subWithBorrow x y c).borrow := by
      unfold chainSub
      by_cases h0 : i = 0
      · rw [hc h0]; split_ifs <;> first | rfl | omega
      · split_ifs <;> first | rfl | omega
    simp only [subLoop, subGo, hcar]
    exact gpu_subLoop_snd ops (i + 1) xs ys _ h (by omega) (by omega)

theorem gpu_addLimbs_spec (hw : 0 < w) (x y : Limbs w) (h : x.length = y.length) (hlt : limbsVal x + limbsVal y < 2 ^ (w * x.length)) :
    limbsVal (addLimbs x y) = limbsVal x + limbsVal y ∧ (addLimbs x y).length = x.length := by
  rw [addLimbs, gpu_addLoop_fst _ 0 x y _ h (by omega) (fun _ => rfl)]
  obtain ⟨h1, h2, h3⟩ := add_spec hw x y h
  change limbsVal (BigInt.add x y).1 = _ ∧ (BigInt.add x y).1.length = _
  refine ⟨?_, h3⟩
  rcases Nat.eq_zero_or_pos (BigInt.add x y).2.toNat with h0 | h0
  · rw [h0] at h1; omega
  · have : (BigInt.add x y).2.toNat = 1 := by omega
    rw [this] at h1; omega

theorem gpu_addLimbs_wrap (hw : 0 < w) (x y : Limbs w) (h : x.length = y.length) :
    limbsVal (addLimbs x y) = (limbsVal x + limbsVal y) % 2 ^ (w * x.length) ∧ (addLimbs x y).length = x.length := by
  rw [addLimbs, gpu_addLoop_fst _ 0 x y _ h (by omega) (fun _ => rfl)]
  obtain ⟨h1, h2, h3⟩ := add_spec hw x y h
  change limbsVal (BigInt.add x y).1 = _ ∧ (BigInt.add x y).1.length = _
  refine ⟨?_, h3⟩
  rw [← h1, Nat.add_mul_mod_self_left, Nat.mod_eq_of_lt]
  rw [← h3]
  exact limbsVal_lt _

theorem gpu_subLimbs_spec (hw : 0 < w) (x y : Limbs w) (h : x.length = y.length) (hle : limbsVal y ≤ limbsVal x) :
    limbsVal (subLimbs x y) = limbsVal x - limbsVal y ∧ (subLimbs x y).length = x.length := by
  rw [subLimbs, gpu_subLoop_fst _ 0 x y _ h (by omega) (fun _ => rfl)]
  exact ⟨(sub_val_of_le hw x y h hle).1, (sub_spec hw x y h).2.2⟩

theorem gpu_subLimbsCarry_spec (hw : 0 < w) (x y : Limbs w) (h : x.length = y.length) :
    (subLimbsCarry x y).1 = (BigInt.sub x y).1 ∧ ((subLimbsCarry x y).2 = 0#w ↔ limbsVal y ≤ limbsVal x) := by
  simp only [subLimbsCarry]
  rw [gpu_subLoop_fst _ 0 x y _ h (by omega) (fun _ => rfl), gpu_subLoop_snd _ 0 x y _ h (by omega) (fun _ => rfl)]
  refine ⟨rfl, ?_⟩
  change (chainSub (x.length + 1) (x.length + 1) 0#w 0#w (BigInt.sub x y).2).result = 0#w ↔ _
  rcases Nat.lt_or_ge (limbsVal x) (limbsVal y) with hlt | hle
  · have hb := (sub_val_of_lt hw x y h hlt).2
    have hx : x.length ≠ 0 := by
      intro h0
      have h0' : y.length = 0 := by omega
      rw [List.length_eq_zero_iff] at h0 h0'
      subst h0 h0'
      exact absurd hlt (by simp)
    have he : (BigInt.sub x y).2 = 1#w := BitVec.eq_of_toNat_eq (by
      rw [hb, BitVec.toNat_ofNat, Nat.mod_eq_of_lt (Nat.one_lt_two_pow (by omega))])
    rw [he]
    have : (chainSub (x.length + 1) (x.length + 1) 0#w 0#w 1#w).result = 0#w - 0#w - 1#w := by
      unfold chainSub
      rw [if_neg (by omega), if_neg (by omega), if_neg (by omega)]
      rfl
    rw [this]
    constructor
    · intro hc
      exfalso
      have := (subWithBorrow_spec 0#w 0#w 1#w hw (by rw [BitVec.toNat_ofNat]; exact Nat.mod_le _ _)).1
      have h1 : (1#w).toNat = 1 := by rw [BitVec.toNat_ofNat, Nat.mod_eq_of_lt (Nat.one_lt_two_pow (by omega))]
      have hr : (subWithBorrow 0#w 0#w 1#w).result = 0#w := hc
      rw [hr, h1] at this
      have h2 : 2 ≤ 2 ^ w := by
        calc 2 = 2 ^ 1 := rfl
          _ ≤ 2 ^ w := Nat.pow_le_pow_right (by omega) hw
      have h3 : (0#w).toNat = 0 := by simp
      rw [h3] at this
      rcases Nat.eq_zero_or_pos (subWithBorrow 0#w 0#w 1#w).borrow.toNat with hz | hz
      · rw [hz] at this; omega
      · have := Nat.le_mul_of_pos_right (2 ^ w) hz
        omega
    · intro hc; omega
  · have hb := (sub_val_of_le hw x y h hle).2
    rw [hb]
    refine ⟨fun _ => hle, fun _ => ?_⟩
    unfold chainSub
    split_ifs <;> simp [subWithBorrow]

theorem gpu_clamp_spec (hw : 0 < w) (m x : Limbs w) (h : x.length = m.length) :
    limbsVal (GpuDebug.clamp m x) = (if limbsVal m ≤ limbsVal x then limbsVal x - limbsVal m else limbsVal x) ∧ (GpuDebug.clamp m x).length = m.length := by
  obtain ⟨h1, h2⟩ := gpu_subLimbsCarry_spec hw x m h
  simp only [GpuDebug.clamp]
  by_cases hle : limbsVal m ≤ limbsVal x
  · rw [if_neg (by simpa using h2.2 hle), if_pos hle, h1]
    exact ⟨(sub_val_of_le hw x m h hle).1, (sub_spec hw x m h).2.2.trans h⟩
  · rw [if_pos (fun hc => hle (h2.1 hc)), if_neg hle]
    exact ⟨rfl, h⟩

/-- **C112 (sums).** If twice the modulus fits in the limbs, the sum of elements is their sum modulo the modulus. -/
theorem C112_add (hw : 0 < w) (m x y : Limbs w) (hx : x.length = m.length) (hy : y.length = m.length) (hxm : limbsVal x < limbsVal m)
    (hym : limbsVal y < limbsVal m) (hm : 2 * limbsVal m ≤ 2 ^ (w * m.length)) :
    limbsVal (GpuDebug.add m x y) = (limbsVal x + limbsVal y) % limbsVal m ∧ (GpuDebug.add m x y).length = m.length := by
  obtain ⟨h1, h2⟩ := gpu_addLimbs_spec hw x y (by omega) (by rw [hx]; omega)
  obtain ⟨h3, h4⟩ := gpu_clamp_spec hw m (addLimbs x y) (by omega)
  refine ⟨?_, h4⟩
  rw [GpuDebug.add, h3, h1]
  split
  · rw [Nat.mod_eq_sub_mod (by assumption), Nat.mod_eq_of_lt (by omega)]
  · rw [Nat.mod_eq_of_lt (by omega)]

/-- **C112 (sums that do not fit).** Finding: for a modulus of which twice is more than the limbs hold (by two or more), `-1 + -1` is wrong. -/
theorem C112_add_overflow (hw : 0 < w) (m x : Limbs w) (hx : x.length = m.length) (hv : limbsVal x + 1 = limbsVal m)
    (hm : 2 ^ (w * m.length) + 2 ≤ 2 * limbsVal m) :
    limbsVal (GpuDebug.add m x x) ≠ (limbsVal x + limbsVal x) % limbsVal m := by
  obtain ⟨h1, h2⟩ := gpu_addLimbs_wrap hw x x rfl
  obtain ⟨h3, h4⟩ := gpu_clamp_spec hw m (addLimbs x x) (by omega)
  have hlt := limbsVal_lt m
  have hbig : 2 ≤ 2 ^ (w * m.length) := by
    rcases Nat.eq_zero_or_pos (w * m.length) with h0 | h0
    · rw [h0] at hlt hm; omega
    · calc 2 = 2 ^ 1 := rfl
        _ ≤ _ := Nat.pow_le_pow_right (by omega) h0
  rw [hx, Nat.mod_eq_sub_mod (by omega), Nat.mod_eq_of_lt (by omega)] at h1
  rw [GpuDebug.add, h3, h1, if_neg (by omega), Nat.mod_eq_sub_mod (by omega), Nat.mod_eq_of_lt (by omega)]
  omega

/-- **C112 (differences).** The difference of elements is their difference modulo the modulus, whatever the modulus. -/
theorem C112_sub (hw : 0 < w) (m x y : Limbs w) (hx : x.length = m.length) (hy : y.length = m.length) (hxm : limbsVal x < limbsVal m)
    (hym : limbsVal y < limbsVal m) :
    limbsVal (GpuDebug.sub m x y) = (limbsVal x + limbsVal m - limbsVal y) % limbsVal m ∧ (GpuDebug.sub m x y).length = m.length := by
  obtain ⟨h1, h2⟩ := gpu_subLimbsCarry_spec hw x y (by omega)
  have hl := (sub_spec hw x y (by omega)).2.2
  simp only [GpuDebug.sub]
  by_cases hle : limbsVal y ≤ limbsVal x
  · rw [if_pos (h2.2 hle), h1, (sub_val_of_le hw x y (by omega) hle).1, Nat.mod_eq_sub_mod (by omega), Nat.mod_eq_of_lt (by omega)]
    exact ⟨by omega, by omega⟩
  · rw [if_neg (fun hc => hle (h2.1 hc)), h1]
    obtain ⟨g1, g2⟩ := gpu_addLimbs_wrap hw (BigInt.sub x y).1 m (by omega)
    refine ⟨?_, by omega⟩
    have hlm := limbsVal_lt m
    rw [g1, (sub_val_of_lt hw x y (by omega) (by omega)).1, hl, hx]
    rw [show 2 ^ (w * m.length) + limbsVal x - limbsVal y + limbsVal m = 2 ^ (w * m.length) + (limbsVal x + limbsVal m - limbsVal y) by omega,
      Nat.add_mod_left, Nat.mod_eq_of_lt (by omega), Nat.mod_eq_of_lt (by omega)]

/-- **C112 (negatives).** The negative of an element is the modulus less it; so that of an element other than zero is an element. -/
theorem C112_negate (hw : 0 < w) (m x : Limbs w) (hx : x.length = m.length) (hxm : limbsVal x < limbsVal m) :
    limbsVal (negate m x) = limbsVal m - limbsVal x ∧ (negate m x).length = m.length :=
  gpu_subLimbs_spec hw m x hx.symm (by omega)

/-- **C112 (the negative of zero).** Finding: it is the modulus, which `IsZero` and `operator==` tell from zero. -/
theorem C112_negate_zero (hw : 0 < w) (m : Limbs w) (hm : limbsVal m ≠ 0) :
    negate m (zero m.length) = m ∧ isZero (negate m (zero m.length)) = false ∧ BigInt.eq (negate m (zero m.length)) (zero m.length) = false := by
  obtain ⟨h1, h2⟩ := C112_negate hw m (zero m.length) (length_zero _) (by rw [limbsVal_zero]; omega)
  rw [limbsVal_zero, Nat.sub_zero] at h1
  have he := limbsVal_inj h2 h1
  refine ⟨he, ?_, ?_⟩
  · rw [he, isZero_spec]; simpa using hm
  · rw [he, eq_spec _ _ (by simp)]
    simp only [decide_eq_false_iff_not]
    intro hc
    apply hm
    rw [hc, limbsVal_zero]

/-- **C112 (sums and differences with the negative of zero).** Added to or subtracted from an element it changes nothing. -/
theorem C112_negate_zero_add (hw : 0 < w) (m x : Limbs w) (hx : x.length = m.length) (hxm : limbsVal x < limbsVal m)
    (hm : 2 * limbsVal m ≤ 2 ^ (w * m.length)) :
    GpuDebug.add m x (negate m (zero m.length)) = x ∧ GpuDebug.add m (negate m (zero m.length)) x = x ∧
      GpuDebug.sub m x (negate m (zero m.length)) = x := by
  rw [(C112_negate_zero hw m (by omega)).1]
  refine ⟨?_, ?_, ?_⟩
  · obtain ⟨h1, h2⟩ := gpu_addLimbs_spec hw x m hx (by rw [hx]; omega)
    obtain ⟨h3, h4⟩ := gpu_clamp_spec hw m (addLimbs x m) (by omega)
    rw [h1, if_pos (by omega)] at h3
    exact limbsVal_inj (by rw [GpuDebug.add]; omega) (by rw [GpuDebug.add]; omega)
  · obtain ⟨h1, h2⟩ := gpu_addLimbs_spec hw m x hx.symm (by omega)
    obtain ⟨h3, h4⟩ := gpu_clamp_spec hw m (addLimbs m x) (by omega)
    rw [h1, if_pos (by omega)] at h3
    exact limbsVal_inj (by rw [GpuDebug.add]; omega) (by rw [GpuDebug.add]; omega)
  · obtain ⟨h1, h2⟩ := gpu_subLimbsCarry_spec hw x m hx
    have hl := (sub_spec hw x m hx).2.2
    obtain ⟨g1, g2⟩ := gpu_addLimbs_wrap hw (BigInt.sub x m).1 m (by omega)
    have hs : GpuDebug.sub m x m = addLimbs (BigInt.sub x m).1 m := by
      simp only [GpuDebug.sub]
      rw [if_neg (fun hc => absurd (h2.1 hc) (by omega)), h1]
    rw [hs]
    refine limbsVal_inj (by omega) ?_
    have hlx := limbsVal_lt x
    have hlm : limbsVal m < 2 ^ (w * x.length) := by rw [hx]; exact limbsVal_lt m
    rw [g1, (sub_val_of_lt hw x m hx hxm).1, hl, Nat.sub_add_cancel (by omega), Nat.add_mod_left, Nat.mod_eq_of_lt hlx]

theorem gpu_halve_spec (hw : 0 < w) (m : Limbs w) (hodd : limbsVal m % 2 = 1) (hm : 2 * limbsVal m ≤ 2 ^ (w * m.length)) (a r : Nat) :
    ∀ (k : Nat) (u c : Limbs w), u.length = m.length → c.length = m.length → limbsVal c < limbsVal m → 1 ≤ limbsVal u → limbsVal u ≤ k →
      a * limbsVal c ≡ limbsVal u * r [MOD limbsVal m] →
      ∃ u' c', halve m k u c = some (u', c') ∧ u'.length = m.length ∧ c'.length = m.length ∧ limbsVal c' < limbsVal m ∧ limbsVal u' % 2 = 1 ∧
        limbsVal u' ∣ limbsVal u ∧ limbsVal u' ≤ limbsVal u ∧ 1 ≤ limbsVal u' ∧ a * limbsVal c' ≡ limbsVal u' * r [MOD limbsVal m] := by
  intro k
  induction k with
  | zero => intro u c _ _ _ h1 h2; omega
  | succ k ih =>
    intro u c hu hc hcm h1 hk ha
    rw [halve, isEven_spec hw]
    by_cases he : limbsVal u % 2 = 0
    · rw [if_pos (by simpa using he)]
      obtain ⟨du, dl⟩ := divBy2_spec hw u
      have hx : ∃ x : Limbs w, x = (if isOdd c then addLimbs c m else c) ∧ x.length = m.length ∧
          limbsVal x = (if limbsVal c % 2 = 1 then limbsVal c + limbsVal m else limbsVal c) := by
        refine ⟨_, rfl, ?_⟩
        obtain ⟨g1, g2⟩ := gpu_addLimbs_spec hw c m hc (by rw [hc]; omega)
        rw [isOdd_spec hw]
        by_cases ho : limbsVal c % 2 = 1
        · rw [if_pos (by simpa using ho), if_pos ho]; exact ⟨by omega, g1⟩
        · rw [if_neg (by simpa using ho), if_neg ho]; exact ⟨hc, rfl⟩
      obtain ⟨x, hxe, hxl, hxv⟩ := hx
      rw [← hxe]
      obtain ⟨dc, dcl⟩ := divBy2_spec hw x
      have hxm : 2 * limbsVal (divBy2 x) ≡ limbsVal c [MOD limbsVal m] ∧ limbsVal (divBy2 x) < limbsVal m := by
        rw [dc, hxv]
        split
        · rw [show 2 * ((limbsVal c + limbsVal m) / 2) = limbsVal c + limbsVal m by omega]
          exact ⟨by simp [Nat.ModEq], by omega⟩
        · rw [show 2 * (limbsVal c / 2) = limbsVal c by omega]
          exact ⟨Nat.ModEq.refl _, by omega⟩
      have hcop : Nat.gcd (limbsVal m) 2 = 1 := by
        rw [Nat.gcd_comm, Nat.gcd_rec, hodd]
        rfl
      obtain ⟨u', c', e1, e2, e3, e4, e5, e6, e7, e8, e9⟩ := ih (divBy2 u) (divBy2 x) (by omega) (by omega) hxm.2 (by omega) (by omega) (by
        refine Nat.ModEq.cancel_left_of_coprime hcop ?_
        rw [show 2 * (a * limbsVal (divBy2 x)) = a * (2 * limbsVal (divBy2 x)) by ring,
          show 2 * (limbsVal (divBy2 u) * r) = (2 * limbsVal (divBy2 u)) * r by ring, du, show 2 * (limbsVal u / 2) = limbsVal u by omega]
        exact (hxm.1.mul_left a).trans ha)
      refine ⟨u', c', e1, e2, e3, e4, e5, ?_, by omega, e8, e9⟩
      rw [du] at e6
      exact e6.trans (Nat.div_dvd_of_dvd (Nat.dvd_of_mod_eq_zero he))
    · rw [if_neg (by simpa using he)]
      exact ⟨u, c, rfl, hu, hc, hcm, by omega, Nat.dvd_refl _, Nat.le_refl _, h1, ha⟩

theorem gpu_sub_mod (hw : 0 < w) (m c d : Limbs w) (hc : c.length = m.length) (hd : d.length = m.length) (hcm : limbsVal c < limbsVal m)
    (hdm : limbsVal d < limbsVal m) (a r u v : Nat) (hvu : v ≤ u) (ha : a * limbsVal c ≡ u * r [MOD limbsVal m]) (hb : a * limbsVal d ≡ v * r [MOD limbsVal m]) :
    a * limbsVal (GpuDebug.sub m c d) ≡ (u - v) * r [MOD limbsVal m] ∧ limbsVal (GpuDebug.sub m c d) < limbsVal m ∧ (GpuDebug.sub m c d).length = m.length := by
  obtain ⟨h1, h2⟩ := C112_sub hw m c d hc hd hcm hdm
  refine ⟨?_, by rw [h1]; exact Nat.mod_lt _ (by omega), h2⟩
  refine Nat.ModEq.add_right_cancel hb ?_
  rw [← Nat.add_mul, Nat.sub_add_cancel hvu, ← Nat.mul_add]
  refine Nat.ModEq.trans (Nat.ModEq.mul_left a ?_) ha
  rw [h1]
  refine ((Nat.mod_modEq _ _).add_right _).trans ?_
  rw [Nat.sub_add_cancel (by omega)]
  simp [Nat.ModEq]

theorem gpu_inverseLoop_spec (hw : 0 < w) (m : Limbs w) (hodd : limbsVal m % 2 = 1) (hm : 2 * limbsVal m ≤ 2 ^ (w * m.length)) (a r k : Nat) :
    ∀ (fuel : Nat) (u v c d : Limbs w), u.length = m.length → v.length = m.length → c.length = m.length → d.length = m.length →
      limbsVal c < limbsVal m → limbsVal d < limbsVal m → 1 ≤ limbsVal u → (1 ≤ limbsVal v ∨ limbsVal u = 1) →
      Nat.Coprime (limbsVal u) (limbsVal v) → limbsVal u + limbsVal v ≤ fuel → limbsVal u ≤ k → limbsVal v ≤ k →
      a * limbsVal c ≡ limbsVal u * r [MOD limbsVal m] → a * limbsVal d ≡ limbsVal v * r [MOD limbsVal m] →
      ∃ b, inverseLoop m k fuel u v c d = some b ∧ b.length = m.length ∧ limbsVal b < limbsVal m ∧ a * limbsVal b ≡ r [MOD limbsVal m] := by
  intro fuel
  induction fuel with
  | zero => intro u v c d _ _ _ _ _ _ h1 _ _ h2; omega
  | succ fuel ih =>
    intro u v c d hu hv hc hd hcm hdm h1 h2 hco hf hku hkv hac had
    rw [inverseLoop, isOne_spec hw, isOne_spec hw]
    by_cases hu1 : limbsVal u = 1
    · rw [if_pos (by simpa using hu1)]
      rw [hu1, Nat.one_mul] at hac
      exact ⟨c, rfl, hc, hcm, hac⟩
    rw [if_neg (by simpa using hu1)]
    by_cases hv1 : limbsVal v = 1
    · rw [if_pos (by simpa using hv1)]
      rw [hv1, Nat.one_mul] at had
      exact ⟨d, rfl, hd, hdm, had⟩
    rw [if_neg (by simpa using hv1)]
    obtain ⟨u', c', e1, e2, e3, e4, e5, e6, e7, e8, e9⟩ := gpu_halve_spec hw m hodd hm a r k u c hu hc hcm h1 hku hac
    obtain ⟨v', d', f1, f2, f3, f4, f5, f6, f7, f8, f9⟩ := gpu_halve_spec hw m hodd hm a r k v d hv hd hdm (by omega) hkv had
    have hco' : Nat.Coprime (limbsVal u') (limbsVal v') := (hco.coprime_dvd_left e6).coprime_dvd_right f6
    simp only [e1, f1, Option.bind_some]
    rw [lt_spec _ _ (by omega)]
    by_cases hlt : limbsVal v' < limbsVal u'
    · rw [if_pos (by simpa using hlt)]
      obtain ⟨s1, s2⟩ := gpu_subLimbs_spec hw u' v' (by omega) (by omega)
      obtain ⟨t1, t2, t3⟩ := gpu_sub_mod hw m c' d' e3 f3 e4 f4 a r _ _ (Nat.le_of_lt hlt) e9 f9
      refine ih _ _ _ _ (by omega) f2 t3 f3 t2 f4 (by omega) (.inl f8) ?_ (by omega) (by omega) (by omega) (by rw [s1]; exact t1) f9
      rw [s1]
      exact (Nat.coprime_sub_self_left (Nat.le_of_lt hlt)).2 hco'
    · rw [if_neg (by simpa using hlt)]
      obtain ⟨s1, s2⟩ := gpu_subLimbs_spec hw v' u' (by omega) (by omega)
      obtain ⟨t1, t2, t3⟩ := gpu_sub_mod hw m d' c' f3 e3 f4 e4 a r _ _ (by omega) f9 e9
      refine ih _ _ _ _ e2 (by omega) e3 t3 e4 t2 e8 ?_ ?_ (by omega) (by omega) (by omega) e9 (by rw [s1]; exact t1)
      · rcases Nat.eq_or_lt_of_le (Nat.le_of_not_lt hlt) with h | h
        · right
          rw [← h] at hco'
          exact (Nat.coprime_self _).1 hco'
        · left; omega
      · rw [s1]
        exact (Nat.coprime_sub_self_right (by omega)).2 hco'

/-- **C112 (inverses).** For an odd modulus of which twice fits in the limbs, the inversion of an element that is coprime to it (of any other than zero, if it is
a prime) ends, within twice the modulus rounds, and the Montgomery product of the element and what it gives is the one: `x·b = R²`. -/
theorem C112_inverse (hw : 0 < w) (m r2 x : Limbs w) (hodd : limbsVal m % 2 = 1) (hm1 : 1 < limbsVal m) (hm : 2 * limbsVal m ≤ 2 ^ (w * m.length))
    (hr : r2.length = m.length) (hr2 : limbsVal r2 = (2 ^ (w * m.length)) ^ 2 % limbsVal m) (hx : x.length = m.length) (hxm : limbsVal x < limbsVal m)
    (hco : Nat.Coprime (limbsVal x) (limbsVal m)) (fuel : Nat) (hf : 2 * limbsVal m ≤ fuel) :
    ∃ b, GpuDebug.inverse m r2 fuel x = some (some b) ∧ b.length = m.length ∧ limbsVal b < limbsVal m ∧
      limbsVal x * limbsVal b % limbsVal m = (2 ^ (w * m.length)) ^ 2 % limbsVal m := by
  have hx0 : limbsVal x ≠ 0 := by
    intro h0
    rw [h0, Nat.coprime_zero_left] at hco
    omega
  obtain ⟨b, h1, h2, h3, h4⟩ := gpu_inverseLoop_spec hw m hodd hm (limbsVal x) (limbsVal r2) fuel fuel x m r2 (zero x.length) hx rfl hr
    (by rw [length_zero]; exact hx) (by rw [hr2]; exact Nat.mod_lt _ (by omega)) (by rw [limbsVal_zero]; omega) (by omega) (.inl (by omega)) hco (by omega)
    (by omega) (by omega) (Nat.ModEq.refl _) (by rw [limbsVal_zero, Nat.mul_zero]; exact (Nat.modEq_zero_iff_dvd.2 (Nat.dvd_mul_right _ _)).symm)
  refine ⟨b, ?_, h2, h3, ?_⟩
  · rw [GpuDebug.inverse, isZero_spec, if_neg (by simpa using hx0), h1]
    rfl
  · have : limbsVal x * limbsVal b % limbsVal m = limbsVal r2 % limbsVal m := h4
    rw [this, hr2, Nat.mod_mod]

theorem C112_inverse_zero (m r2 : Limbs w) (fuel n : Nat) : GpuDebug.inverse m r2 fuel (zero n) = some none := by
  rw [GpuDebug.inverse, isZero_spec, if_pos (by simp)]

theorem gpu_halve_zero (hw : 0 < w) (m : Limbs w) : ∀ (k : Nat) (u c : Limbs w), limbsVal u = 0 → halve m k u c = none
  | 0, u, c, h => by rw [halve, isEven_spec hw, if_pos (by simp [h])]
  | k + 1, u, c, h => by
    rw [halve, isEven_spec hw, if_pos (by simp [h])]
    exact gpu_halve_zero hw m k _ _ (by rw [(divBy2_spec hw u).1, h])

theorem gpu_halve_odd (hw : 0 < w) (m : Limbs w) (k : Nat) (u c : Limbs w) (h : limbsVal u % 2 = 1) : halve m k u c = some (u, c) := by
  cases k <;> rw [halve, isEven_spec hw, if_neg (by simp [h])]

/-- **C112 (the inverse of the negative of zero).** Finding: the inversion of the negative of zero is not refused and never ends. -/
theorem C112_inverse_negate_zero (hw : 0 < w) (m r2 : Limbs w) (hodd : limbsVal m % 2 = 1) (hm1 : 1 < limbsVal m) (fuel : Nat) :
    GpuDebug.inverse m r2 fuel (negate m (zero m.length)) = none := by
  rw [(C112_negate_zero hw m (by omega)).1, GpuDebug.inverse, isZero_spec, if_neg (by simp; omega), Option.map_eq_none_iff]
  have hone : ¬ (isOne m = true) := by rw [isOne_spec hw]; simp; omega
  obtain ⟨s1, s2⟩ := gpu_subLimbs_spec hw m m rfl (Nat.le_refl _)
  rw [Nat.sub_self] at s1
  have hlt : ¬ (BigInt.lt m m = true) := by rw [lt_spec _ _ rfl]; simp
  have hone' : ¬ (isOne (subLimbs m m) = true) := by rw [isOne_spec hw]; simp [s1]
  cases fuel with
  | zero => rw [inverseLoop, if_neg hone, if_neg hone]
  | succ fuel =>
    rw [inverseLoop, if_neg hone, if_neg hone]
    simp only [gpu_halve_odd hw m _ m _ hodd, Option.bind_some]
    rw [if_neg hlt]
    cases fuel with
    | zero => rw [inverseLoop, if_neg hone, if_neg hone']
    | succ fuel =>
      rw [inverseLoop, if_neg hone, if_neg hone']
      simp only [gpu_halve_odd hw m _ m _ hodd, Option.bind_some, gpu_halve_zero hw m _ _ _ s1, Option.bind_none]

/-- Two limbs of four bits and the modulus 97: sums, differences, negatives, and an inverse, `5·b = 2^16` modulo 97. -/
example :
    GpuDebug.add [1#4, 6#4] [15#4, 5#4] [3#4, 0#4] = [1#4, 0#4] ∧ GpuDebug.sub [1#4, 6#4] [3#4, 0#4] [15#4, 5#4] = [5#4, 0#4] ∧
      negate [1#4, 6#4] [3#4, 0#4] = [14#4, 5#4] ∧ negate [1#4, 6#4] [0#4, 0#4] = [1#4, 6#4] ∧
      GpuDebug.inverse [1#4, 6#4] [13#4, 3#4] 200 [5#4, 0#4] = some (some [3#4, 3#4]) := by
  refine ⟨by decide, by decide, by decide, by decide, by rfl⟩

end Tachyon.Props
