import Verif.Model.Inverse
import Verif.Proofs.PrimeField

namespace Tachyon.BigInt

variable {w : Nat}

theorem setTopBit_spec (hw : 0 < w) (a : Limbs w) (h0 : 0 < a.length)
    (h : limbsVal a < 2 ^ (w * a.length - 1)) :
    limbsVal (setTopBit a) = limbsVal a + 2 ^ (w * a.length - 1) ∧
    (setTopBit a).length = a.length := by
  have hp : 0 < w * a.length := Nat.mul_pos hw h0
  refine ⟨?_, setBit1_length _ _⟩
  rw [setTopBit, setBit1_spec hw a _ (by omega), Nat.or_comm]
  have := or_eq_add_of_lt (x := 1) h
  rw [Nat.mul_one] at this
  rw [this, Nat.add_comm]

theorem halveMod_spec (hw : 0 < w) (spare : Bool) (m b : Limbs w) (hlen : b.length = m.length)
    (hodd : limbsVal m % 2 = 1) (hb : limbsVal b < limbsVal m)
    (hspare : spare = true → 2 * limbsVal m ≤ 2 ^ (w * m.length)) :
    (halveMod spare m b).length = m.length ∧ limbsVal (halveMod spare m b) < limbsVal m ∧
    2 * limbsVal (halveMod spare m b) ≡ limbsVal b [MOD limbsVal m] := by
  have hM := limbsVal_lt m
  have hml : 0 < m.length := by
    rcases Nat.eq_zero_or_pos m.length with h | h
    · rw [List.length_eq_zero_iff.1 h] at hodd; simp at hodd
    · exact h
  unfold halveMod
  rw [isEven_spec hw]
  by_cases he : limbsVal b % 2 = 0
  · simp only [he, decide_true, ↓reduceIte]
    obtain ⟨d1, d2⟩ := divBy2_spec hw b
    rw [d1, d2]
    refine ⟨hlen, by omega, ?_⟩
    rw [show 2 * (limbsVal b / 2) = limbsVal b by omega]
  · simp only [he, decide_false, Bool.false_eq_true, ↓reduceIte]
    obtain ⟨a1, a2, a3⟩ := add_spec hw b m hlen
    obtain ⟨d1, d2⟩ := divBy2_spec hw (add b m).1
    have hlt := limbsVal_lt (add b m).1
    rw [a3, hlen] at hlt
    rw [hlen] at a1
    have hev : (2:ℕ) ∣ 2 ^ (w * m.length) := dvd_pow_self _ (by positivity)
    by_cases hc : (add b m).2.toNat = 0
    · have hz : ((add b m).2 != 0#w) = false := by
        simp only [bne_eq_false_iff_eq]
        exact BitVec.eq_of_toNat_eq (by simpa using hc)
      rw [hc] at a1
      simp only [hz, Bool.and_false, Bool.false_eq_true, ↓reduceIte]
      rw [d1, d2, a3]
      refine ⟨hlen, by omega, ?_⟩
      rw [show 2 * (limbsVal (add b m).1 / 2) = limbsVal b + limbsVal m by omega]
      simp [Nat.ModEq]
    · have hc1 : (add b m).2.toNat = 1 := by omega
      have hz : ((add b m).2 != 0#w) = true := by
        simp only [bne_iff_ne, ne_eq]
        intro h; rw [h] at hc; simp at hc
      rw [hc1] at a1
      have hs : spare = false := by
        by_contra hs
        have := hspare (by simpa using hs)
        omega
      subst hs
      simp only [hz, Bool.not_false, Bool.and_self, ↓reduceIte]
      have hP : 2 ^ (w * m.length) = 2 * 2 ^ (w * m.length - 1) := by
        rw [← pow_succ']; congr 1
        have : 0 < w * m.length := Nat.mul_pos hw hml
        omega
      have hlen' : (divBy2 (add b m).1).length = m.length := by rw [d2, a3, hlen]
      obtain ⟨t1, t2⟩ := setTopBit_spec hw (divBy2 (add b m).1) (by omega)
        (by rw [d1, hlen']; omega)
      rw [t2, t1, hlen', d1]
      refine ⟨rfl, by omega, ?_⟩
      rw [show 2 * (limbsVal (add b m).1 / 2 + 2 ^ (w * m.length - 1)) =
        limbsVal b + limbsVal m by omega]
      simp [Nat.ModEq]

/-- The relation kept between a pair `(u, b)`: `a * b ≡ u * r2 (mod m)`. -/
def Cof (m a r2 : Nat) (u b : Nat) : Prop := a * b ≡ u * r2 [MOD m]

theorem halveLoop_spec (hw : 0 < w) (spare : Bool) (m : Limbs w) (a r2 : Nat)
    (hodd : limbsVal m % 2 = 1)
    (hspare : spare = true → 2 * limbsVal m ≤ 2 ^ (w * m.length)) :
    ∀ (fuel : Nat) (u b : Limbs w), u.length = m.length → b.length = m.length →
    limbsVal b < limbsVal m → 0 < limbsVal u → limbsVal u < 2 ^ fuel →
    Cof (limbsVal m) a r2 (limbsVal u) (limbsVal b) →
    ∃ u' b', halveLoop spare m (fuel + 1) u b = some (u', b') ∧ u'.length = m.length ∧
      b'.length = m.length ∧ limbsVal b' < limbsVal m ∧ limbsVal u' % 2 = 1 ∧
      Cof (limbsVal m) a r2 (limbsVal u') (limbsVal b') ∧
      ∃ i, limbsVal u = limbsVal u' * 2 ^ i := by
  intro fuel
  induction fuel with
  | zero => intro u b _ _ _ h1 h2; simp at h2; omega
  | succ fuel ih =>
    intro u b hu hb hbm h0 hf hc
    rw [halveLoop, isEven_spec hw]
    by_cases he : limbsVal u % 2 = 0
    · obtain ⟨d1, d2⟩ := divBy2_spec hw u
      obtain ⟨h1, h2, h3⟩ := halveMod_spec hw spare m b hb hodd hbm hspare
      have hcof : Cof (limbsVal m) a r2 (limbsVal (divBy2 u)) (limbsVal (halveMod spare m b)) := by
        unfold Cof at hc ⊢
        have : 2 * (a * limbsVal (halveMod spare m b)) ≡ 2 * (limbsVal (divBy2 u) * r2)
            [MOD limbsVal m] := by
          calc 2 * (a * limbsVal (halveMod spare m b))
              = a * (2 * limbsVal (halveMod spare m b)) := by ring
            _ ≡ a * limbsVal b [MOD limbsVal m] := h3.mul_left _
            _ ≡ limbsVal u * r2 [MOD limbsVal m] := hc
            _ = 2 * (limbsVal (divBy2 u) * r2) := by
              rw [d1, ← Nat.mul_assoc]; congr 1; omega
        refine Nat.ModEq.cancel_left_of_coprime ?_ this
        exact (Nat.odd_iff.2 hodd).coprime_two_right
      obtain ⟨u', b', e1, e2, e3, e4, e5, e6, i, e7⟩ := ih (divBy2 u) (halveMod spare m b)
        (by omega) h1 h2 (by rw [d1]; omega) (by rw [d1]; rw [pow_succ] at hf; omega) hcof
      simp only [he, decide_true, ↓reduceIte]
      refine ⟨u', b', e1, e2, e3, e4, e5, e6, i + 1, ?_⟩
      rw [pow_succ, ← Nat.mul_assoc, ← e7, d1]; omega
    · simp only [he, decide_false, Bool.false_eq_true, ↓reduceIte]
      exact ⟨u, b, rfl, hu, hb, hbm, by omega, hc, 0, by simp⟩

theorem cofactorSub_spec (hw : 0 < w) (m b c : Limbs w) (hb : b.length = m.length)
    (hc : c.length = m.length) (hbm : limbsVal b < limbsVal m) (hcm : limbsVal c < limbsVal m) :
    (cofactorSub m b c).length = m.length ∧ limbsVal (cofactorSub m b c) < limbsVal m ∧
    limbsVal (cofactorSub m b c) + limbsVal c ≡ limbsVal b [MOD limbsVal m] := by
  unfold cofactorSub
  rw [ge_spec b c (by omega)]
  by_cases h : limbsVal b ≥ limbsVal c
  · simp only [h, decide_true, ↓reduceIte]
    have s1 := sub_val_of_le hw b c (by omega) h
    have s2 := (sub_spec hw b c (by omega)).2.2
    rw [s1.1, s2]
    refine ⟨hb, by omega, ?_⟩
    rw [Nat.sub_add_cancel h]
  · simp only [h, decide_false, Bool.false_eq_true, ↓reduceIte]
    have s1 := sub_val_of_le hw m c (by omega) hcm.le
    have s2 := (sub_spec hw m c (by omega)).2.2
    obtain ⟨a1, a2, a3⟩ := add_spec hw b (sub m c).1 (by omega)
    have hM := limbsVal_lt m
    rw [s1.1, hb] at a1
    have hc0 : (add b (sub m c).1).2.toNat = 0 := by
      by_contra hne
      have : (add b (sub m c).1).2.toNat = 1 := by omega
      rw [this] at a1; omega
    rw [hc0] at a1
    refine ⟨by omega, by omega, ?_⟩
    rw [show limbsVal (add b (sub m c).1).1 + limbsVal c = limbsVal b + limbsVal m by omega]
    simp [Nat.ModEq]

theorem inverseLoop_spec (hw : 0 < w) (spare : Bool) (m : Limbs w) (a r2 : Nat)
    (hodd : limbsVal m % 2 = 1)
    (hspare : spare = true → 2 * limbsVal m ≤ 2 ^ (w * m.length)) :
    ∀ (fuel : Nat) (u v b c : Limbs w), u.length = m.length → v.length = m.length →
    b.length = m.length → c.length = m.length →
    limbsVal b < limbsVal m → limbsVal c < limbsVal m → 
    0 < limbsVal u → 0 < limbsVal v → Nat.Coprime (limbsVal u) (limbsVal v) →
    Cof (limbsVal m) a r2 (limbsVal u) (limbsVal b) →
    Cof (limbsVal m) a r2 (limbsVal v) (limbsVal c) →
    (limbsVal u * limbsVal v < 2 ^ fuel ∨
      (limbsVal u * limbsVal v < 2 ^ (fuel + 1) ∧ (limbsVal u % 2 = 0 ∨ limbsVal v % 2 = 0))) →
    ∃ r, inverseLoop spare m fuel u v b c = some r ∧ r.length = m.length ∧
      limbsVal r < limbsVal m ∧ Cof (limbsVal m) a r2 1 (limbsVal r) := by
  intro fuel
  induction fuel with
  | zero =>
    intro u v b c hu hv hb hc hbm hcm hu0 hv0 hcop hcu hcv hf
    have hone : limbsVal u = 1 ∨ limbsVal v = 1 := by
      have hpos : 0 < limbsVal u * limbsVal v := Nat.mul_pos hu0 hv0
      rcases hf with h | ⟨h, _⟩
      · simp at h; omega
      · have : limbsVal u * limbsVal v = 1 := by simp at h; omega
        exact Or.inl (Nat.eq_one_of_mul_eq_one_right this)
    rw [inverseLoop, isOne_spec hw, isOne_spec hw]
    by_cases h1 : limbsVal u = 1
    · simp only [h1, decide_true, ↓reduceIte]
      exact ⟨b, rfl, hb, hbm, h1 ▸ hcu⟩
    · have h2 : limbsVal v = 1 := by tauto
      simp only [h1, h2, decide_true, decide_false, Bool.false_eq_true, ↓reduceIte]
      exact ⟨c, rfl, hc, hcm, h2 ▸ hcv⟩
  | succ fuel ih =>
    intro u v b c hu hv hb hc hbm hcm hu0 hv0 hcop hcu hcv hf
    rw [inverseLoop, isOne_spec hw, isOne_spec hw]
    by_cases h1 : limbsVal u = 1
    · simp only [h1, decide_true, ↓reduceIte]
      exact ⟨b, rfl, hb, hbm, h1 ▸ hcu⟩
    by_cases h2 : limbsVal v = 1
    · simp only [h1, h2, decide_true, decide_false, Bool.false_eq_true, ↓reduceIte]
      exact ⟨c, rfl, hc, hcm, h2 ▸ hcv⟩
    simp only [h1, h2, decide_false, Bool.false_eq_true, ↓reduceIte]
    obtain ⟨u', b', e1, e2, e3, e4, e5, e6, i, e7⟩ := halveLoop_spec hw spare m a r2 hodd hspare
      (w * m.length) u b hu hb hbm hu0 (by rw [← hu]; exact limbsVal_lt u) hcu
    obtain ⟨v', c', f1, f2, f3, f4, f5, f6, j, f7⟩ := halveLoop_spec hw spare m a r2 hodd hspare
      (w * m.length) v c hv hc hcm hv0 (by rw [← hv]; exact limbsVal_lt v) hcv
    rw [e1, f1]
    simp only [Option.bind_eq_bind, Option.bind_some]
    have hcop' : Nat.Coprime (limbsVal u') (limbsVal v') :=
      Nat.Coprime.coprime_dvd_left (Dvd.intro _ e7.symm)
        (Nat.Coprime.coprime_dvd_right (Dvd.intro _ f7.symm) hcop)
    -- the product after halving
    have hprod : limbsVal u' * limbsVal v' < 2 ^ (fuel + 1) := by
      have hU : limbsVal u' * limbsVal v' * 2 ^ (i + j) = limbsVal u * limbsVal v := by
        rw [e7, f7, pow_add]; ring
      rcases hf with h | ⟨h, hev⟩
      · calc limbsVal u' * limbsVal v' ≤ limbsVal u' * limbsVal v' * 2 ^ (i + j) :=
            Nat.le_mul_of_pos_right _ (by positivity)
          _ < _ := by rw [hU]; exact h
      · have hij : 1 ≤ i + j := by
          by_contra hlt
          have hi0 : i = 0 := by omega
          have hj0 : j = 0 := by omega
          subst hi0; subst hj0
          simp at e7 f7
          omega
        have : limbsVal u' * limbsVal v' * 2 ≤ limbsVal u' * limbsVal v' * 2 ^ (i + j) :=
          Nat.mul_le_mul_left _ (by
            calc 2 = 2 ^ 1 := rfl
              _ ≤ 2 ^ (i + j) := Nat.pow_le_pow_right (by omega) hij)
        rw [hU] at this
        rw [pow_succ] at h
        omega
    have hne : limbsVal u' ≠ limbsVal v' := by
      intro heq
      have hu1 : limbsVal u' = 1 := by
        rw [← heq, Nat.coprime_self] at hcop'; exact hcop'
      have hv1 : limbsVal v' = 1 := by omega
      rw [hu1, Nat.one_mul] at e7
      rw [hv1, Nat.one_mul] at f7
      have hi : 1 ≤ i := by
        by_contra h; have : i = 0 := by omega
        subst this; simp at e7; exact h1 e7
      have hj : 1 ≤ j := by
        by_contra h; have : j = 0 := by omega
        subst this; simp at f7; exact h2 f7
      have d1 : 2 ∣ limbsVal u := by rw [e7]; exact dvd_pow_self _ (by omega)
      have d2 : 2 ∣ limbsVal v := by rw [f7]; exact dvd_pow_self _ (by omega)
      have := Nat.dvd_gcd d1 d2
      rw [Nat.Coprime] at hcop
      rw [hcop] at this
      omega
    rw [lt_spec v' u' (by omega)]
    by_cases hlt : limbsVal v' < limbsVal u'
    · simp only [hlt, decide_true, ↓reduceIte]
      have s1 := (sub_val_of_le hw u' v' (by omega) hlt.le).1
      have s2 := (sub_spec hw u' v' (by omega)).2.2
      obtain ⟨k1, k2, k3⟩ := cofactorSub_spec hw m b' c' e3 f3 e4 f4
      apply ih (sub u' v').1 v' (cofactorSub m b' c') c' (by omega) f2 k1 f3 k2 f4
        (by omega) (by omega)
      · rw [s1]
        exact (Nat.coprime_sub_self_left hlt.le).2 hcop'
      · unfold Cof at *
        have hh : a * limbsVal (cofactorSub m b' c') + a * limbsVal c' ≡
            limbsVal (sub u' v').1 * r2 + limbsVal v' * r2 [MOD limbsVal m] := by
          rw [← Nat.mul_add, ← Nat.add_mul, s1, Nat.sub_add_cancel hlt.le]
          exact (k3.mul_left a).trans e6
        exact Nat.ModEq.add_right_cancel f6 hh
      · exact f6
      · right
        rw [s1]
        refine ⟨lt_of_le_of_lt ?_ hprod, by left; omega⟩
        exact Nat.mul_le_mul_right _ (Nat.sub_le _ _)
    · simp only [hlt, decide_false, Bool.false_eq_true, ↓reduceIte]
      have s1 := (sub_val_of_le hw v' u' (by omega) (by omega)).1
      have s2 := (sub_spec hw v' u' (by omega)).2.2
      obtain ⟨k1, k2, k3⟩ := cofactorSub_spec hw m c' b' f3 e3 f4 e4
      apply ih u' (sub v' u').1 b' (cofactorSub m c' b') e2 (by omega) e3 k1 e4 k2
        (by omega) (by omega)
      · rw [s1]
        exact ((Nat.coprime_sub_self_left (by omega)).2 hcop'.symm).symm
      · exact e6
      · unfold Cof at *
        have hh : a * limbsVal (cofactorSub m c' b') + a * limbsVal b' ≡
            limbsVal (sub v' u').1 * r2 + limbsVal u' * r2 [MOD limbsVal m] := by
          rw [← Nat.mul_add, ← Nat.add_mul, s1, Nat.sub_add_cancel (by omega)]
          exact (k3.mul_left a).trans f6
        exact Nat.ModEq.add_right_cancel e6 hh
      · right
        rw [s1]
        refine ⟨lt_of_le_of_lt ?_ hprod, by right; omega⟩
        exact Nat.mul_le_mul_left _ (Nat.sub_le _ _)

theorem montgomeryInverse_spec (hw : 0 < w) (spare : Bool) (m r2 x : Limbs w)
    (hodd : limbsVal m % 2 = 1)
    (hspare : spare = true → 2 * limbsVal m ≤ 2 ^ (w * m.length))
    (hx : x.length = m.length) (hr2 : r2.length = m.length) (hr2m : limbsVal r2 < limbsVal m)
    (h0 : 0 < limbsVal x) (hcop : Nat.Coprime (limbsVal x) (limbsVal m)) :
    ∃ r, montgomeryInverse spare m r2 x = some (some r) ∧ r.length = m.length ∧
      limbsVal r < limbsVal m ∧ limbsVal x * limbsVal r ≡ limbsVal r2 [MOD limbsVal m] := by
  have hM := limbsVal_lt m
  have hX := limbsVal_lt x
  rw [hx] at hX
  obtain ⟨r, e1, e2, e3, e4⟩ := inverseLoop_spec hw spare m (limbsVal x) (limbsVal r2) hodd hspare
    (2 * (w * m.length) + 1) x m r2 (zero m.length) hx rfl hr2 (by simp [zero]) hr2m
    (by rw [limbsVal_zero]; omega) h0 (by omega) hcop
    (by rw [Cof]) (by rw [Cof, limbsVal_zero]; simp [Nat.ModEq])
    (by
      left
      rw [pow_succ, show 2 * (w * m.length) = w * m.length + w * m.length by ring, pow_add]
      have := Nat.mul_lt_mul'' hX hM
      omega)
  refine ⟨r, ?_, e2, e3, by simpa [Cof] using e4⟩
  rw [montgomeryInverse, isZero_spec]
  simp [show limbsVal x ≠ 0 by omega, e1]

/-! ### Operands with a common divisor -/

theorem halveLoop_some (hw : 0 < w) (spare : Bool) (m : Limbs w) : ∀ (fuel : Nat) (u b u' b' : Limbs w),
    halveLoop spare m fuel u b = some (u', b') → u'.length = u.length ∧ ∃ i, limbsVal u = limbsVal u' * 2 ^ i
  | 0, u, b, u', b', h => by simp [halveLoop] at h
  | fuel + 1, u, b, u', b', h => by
    rw [halveLoop, isEven_spec hw] at h
    by_cases he : limbsVal u % 2 = 0
    · simp only [he, decide_true, ↓reduceIte] at h
      obtain ⟨d1, d2⟩ := divBy2_spec hw u
      obtain ⟨h1, i, h2⟩ := halveLoop_some hw spare m fuel _ _ _ _ h
      refine ⟨by omega, i + 1, ?_⟩
      rw [pow_succ, ← Nat.mul_assoc, ← h2, d1]; omega
    · simp only [he, decide_false, Bool.false_eq_true, ↓reduceIte, Option.some.injEq, Prod.mk.injEq] at h
      obtain ⟨rfl, rfl⟩ := h
      exact ⟨rfl, 0, by simp⟩

theorem inverseLoop_none (hw : 0 < w) (spare : Bool) (m : Limbs w) {p : Nat} (hp : p ≠ 1) (hodd : p % 2 = 1) :
    ∀ (fuel : Nat) (u v b c : Limbs w), u.length = v.length → p ∣ limbsVal u → p ∣ limbsVal v →
    inverseLoop spare m fuel u v b c = none := by
  have hne : ∀ {x : Limbs w}, p ∣ limbsVal x → limbsVal x ≠ 1 := fun h h1 => hp (Nat.dvd_one.1 (h1 ▸ h))
  have hcop : ∀ i, Nat.Coprime p (2 ^ i) := fun i => Nat.Coprime.pow_right _ (Nat.odd_iff.2 hodd).coprime_two_right
  intro fuel
  induction fuel with
  | zero =>
    intro u v b c _ hu hv
    rw [inverseLoop, isOne_spec hw, isOne_spec hw]
    simp [hne hu, hne hv]
  | succ fuel ih =>
    intro u v b c hl hu hv
    rw [inverseLoop, isOne_spec hw, isOne_spec hw]
    simp only [hne hu, hne hv, decide_false, Bool.false_eq_true, ↓reduceIte]
    cases h1 : halveLoop spare m (w * m.length + 1) u b with
    | none => rfl
    | some r1 =>
      obtain ⟨u', b'⟩ := r1
      cases h2 : halveLoop spare m (w * m.length + 1) v c with
      | none => rfl
      | some r2 =>
        obtain ⟨v', c'⟩ := r2
        obtain ⟨l1, i, e1⟩ := halveLoop_some hw spare m _ _ _ _ _ h1
        obtain ⟨l2, j, e2⟩ := halveLoop_some hw spare m _ _ _ _ _ h2
        have hu' : p ∣ limbsVal u' := (hcop i).dvd_of_dvd_mul_right (e1 ▸ hu)
        have hv' : p ∣ limbsVal v' := (hcop j).dvd_of_dvd_mul_right (e2 ▸ hv)
        simp only [Option.bind_eq_bind, Option.bind_some]
        rw [lt_spec v' u' (by omega)]
        by_cases hlt : limbsVal v' < limbsVal u'
        · simp only [hlt, decide_true, ↓reduceIte]
          have s1 := (sub_val_of_le hw u' v' (by omega) hlt.le).1
          have s2 := (sub_spec hw u' v' (by omega)).2.2
          exact ih _ _ _ _ (by omega) (by rw [s1]; exact Nat.dvd_sub hu' hv') hv'
        · simp only [hlt, decide_false, Bool.false_eq_true, ↓reduceIte]
          have s1 := (sub_val_of_le hw v' u' (by omega) (by omega)).1
          have s2 := (sub_spec hw v' u' (by omega)).2.2
          exact ih _ _ _ _ (by omega) hu' (by rw [s1]; exact Nat.dvd_sub hv' hu')

end Tachyon.BigInt
