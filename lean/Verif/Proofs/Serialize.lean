import Verif.Model.Serialize
import Verif.Proofs.Divide
import Verif.Spec.Digits

namespace Tachyon.BigInt

variable {w d : Nat}

theorem setDigit_spec {k idx : Nat} (hw : w = d * k) (hidx : idx < k) (limb : BitVec w)
    (hl : limb.toNat < 2 ^ (d * idx)) (x : BitVec d) :
    (setDigit limb idx x).toNat = limb.toNat + 2 ^ (d * idx) * x.toNat := by
  have hle : d * idx + d ≤ w := by rw [hw, ← Nat.mul_succ]; exact Nat.mul_le_mul_left _ hidx
  have hx := x.isLt
  have hxs : ((x.setWidth w) <<< (d * idx)).toNat = 2 ^ (d * idx) * x.toNat := by
    rw [BitVec.toNat_shiftLeft, BitVec.toNat_setWidth, Nat.shiftLeft_eq,
      Nat.mod_eq_of_lt (lt_of_lt_of_le hx (Nat.pow_le_pow_right (by omega) (by omega))),
      Nat.mod_eq_of_lt, Nat.mul_comm]
    calc x.toNat * 2 ^ (d * idx) < 2 ^ d * 2 ^ (d * idx) :=
          Nat.mul_lt_mul_of_pos_right hx (by positivity)
      _ = 2 ^ (d * idx + d) := by rw [← Nat.pow_add, Nat.add_comm]
      _ ≤ 2 ^ w := Nat.pow_le_pow_right (by omega) hle
  have hmask : limb &&& ~~~((BitVec.allOnes d).setWidth w <<< (d * idx)) = limb := by
    apply BitVec.eq_of_getLsbD_eq
    intro i hi
    rw [BitVec.getLsbD_and, BitVec.getLsbD_not, BitVec.getLsbD_shiftLeft]
    by_cases h : i < d * idx
    · simp [h, hi]
    · have : limb.getLsbD i = false := by
        rw [BitVec.getLsbD]
        exact Nat.testBit_lt_two_pow (lt_of_lt_of_le hl (Nat.pow_le_pow_right (by omega) (by omega)))
      simp [this]
  rw [setDigit, hmask, BitVec.toNat_or, hxs, Nat.or_comm, or_eq_add_of_lt hl]
  omega

theorem packGo_spec {k : Nat} (hw : w = d * k) :
    ∀ (xs : List (BitVec d)) (idx : Nat) (limb : BitVec w),
    idx < k → limb.toNat < 2 ^ (d * idx) → (xs = [] → limb = 0#w) →
    limbsVal (packGo k xs idx limb) = limb.toNat + 2 ^ (d * idx) * limbsVal xs
  | [], idx, limb, _, _, h => by simp [packGo, h rfl]
  | x :: xs, idx, limb, hidx, hl, _ => by
    have hs := setDigit_spec hw hidx limb hl x
    have hx := x.isLt
    rw [packGo]
    split
    · rename_i h
      rw [limbsVal_cons, packGo_spec hw xs 0 0#w (by omega) (by simp) (fun _ => rfl), hs, limbsVal_cons]
      rcases h with h | h
      · have : 2 ^ w = 2 ^ (d * idx) * 2 ^ d := by
          rw [hw, ← h, Nat.mul_succ, Nat.pow_add]
        rw [this]; simp; ring
      · subst h; simp
    · rename_i h
      push Not at h
      rw [packGo_spec hw xs (idx + 1) _ (by omega) ?_ (fun e => absurd e h.2), hs, limbsVal_cons,
        Nat.mul_succ, Nat.pow_add]
      · ring
      · rw [hs, Nat.mul_succ, Nat.pow_add]
        have : 2 ^ (d * idx) * x.toNat + 2 ^ (d * idx) ≤ 2 ^ (d * idx) * 2 ^ d := by
          rw [← Nat.mul_succ]; exact Nat.mul_le_mul_left _ hx
        omega

theorem packGo_length {k : Nat} : ∀ (xs : List (BitVec d)) (idx : Nat) (limb : BitVec w),
    idx < k → (packGo k xs idx limb).length =
      if xs = [] then 0 else (idx + xs.length + k - 1) / k
  | [], idx, limb, _ => by simp [packGo]
  | x :: xs, idx, limb, hidx => by
    have hk : 0 < k := by omega
    rw [packGo]
    split
    · rename_i h
      rw [List.length_cons, packGo_length xs 0 _ hk]
      by_cases hx : xs = []
      · subst hx
        simp only [↓reduceIte, List.length_nil, reduceCtorEq, List.length_cons]
        symm
        rw [Nat.div_eq_iff hk]
        constructor <;> omega
      · have h' : idx + 1 = k := by tauto
        simp only [hx, ↓reduceIte, reduceCtorEq, List.length_cons]
        rw [show idx + (xs.length + 1) + k - 1 = (0 + xs.length + k - 1) + k by omega,
          Nat.add_div_right _ hk]
    · rename_i h
      push Not at h
      rw [packGo_length xs (idx + 1) _ (by omega)]
      simp only [h.2, ↓reduceIte, reduceCtorEq, List.length_cons]
      congr 2
      omega

theorem packGo_length_le {k n : Nat} (hk : 0 < k) (xs : List (BitVec d)) :
    (packGo k xs 0 (0#w)).length ≤ n ↔ xs.length ≤ k * n := by
  rw [packGo_length xs 0 _ hk]
  by_cases hx : xs = []
  · simp [hx]
  · have : 0 < xs.length := List.length_pos_iff.2 hx
    simp only [hx, ↓reduceIte]
    rw [← Nat.lt_succ_iff, Nat.div_lt_iff_lt_mul hk, Nat.succ_mul, Nat.mul_comm]
    omega

theorem fromDigits_spec {k : Nat} (hk : 0 < k) (hw : w = d * k) (n : Nat) (xs : List (BitVec d))
    (h : xs.length ≤ k * n) :
    ∃ a : Limbs w, fromDigits k n xs = some a ∧ a.length = n ∧ limbsVal a = limbsVal xs := by
  have hl := (packGo_length_le (w := w) (n := n) hk xs).2 h
  refine ⟨_, by rw [fromDigits]; exact if_pos hl, ?_, ?_⟩
  · simp [zero]; omega
  · rw [limbsVal_append, packGo_spec hw xs 0 0#w hk (by simp) (fun _ => rfl)]
    simp [zero, limbsVal_replicate_zero]

theorem fromDigits_none {k : Nat} (hk : 0 < k) (n : Nat) (xs : List (BitVec d))
    (h : k * n < xs.length) : fromDigits (w := w) k n xs = none := by
  have hl := (packGo_length_le (w := w) (n := n) hk xs)
  rw [fromDigits]
  exact if_neg (by rw [hl]; omega)

/-- Digits of a limb list: digit `i` is `value / 2^(d i) mod 2^d`. -/
theorem getDigit_spec {k : Nat} (hw : w = d * k) (hd : 0 < d) (a : Limbs w) (i : Nat)
    (hi : i < k * a.length) :
    (getDigit d (a.getD (i / k) 0#w) (i % k)).toNat = limbsVal a / 2 ^ (d * i) % 2 ^ d := by
  have hk : 0 < k := by
    rcases Nat.eq_zero_or_pos k with h | h
    · simp [h] at hi
    · exact h
  rw [getDigit, BitVec.toNat_setWidth, BitVec.toNat_ushiftRight, Nat.shiftRight_eq_div_pow]
  have hw0 : 0 < w := by rw [hw]; positivity
  apply Nat.eq_of_testBit_eq
  intro j
  rw [Nat.testBit_mod_two_pow, Nat.testBit_mod_two_pow, Nat.testBit_div_two_pow,
    Nat.testBit_div_two_pow]
  by_cases hj : j < d
  · simp only [hj, decide_true, Bool.true_and]
    rw [limbsVal_testBit a _ hw0]
    have h1 : (d * (i % k) + j) < w := by
      have : i % k + 1 ≤ k := Nat.mod_lt _ hk
      calc d * (i % k) + j < d * (i % k) + d := by omega
        _ = d * (i % k + 1) := by ring
        _ ≤ w := by rw [hw]; exact Nat.mul_le_mul_left _ this
    have h2 : j + d * i = w * (i / k) + (d * (i % k) + j) := by
      rw [hw]
      conv_lhs => rw [← Nat.div_add_mod i k]
      ring
    have h3 : (j + d * i) / w = i / k := by
      rw [h2, Nat.mul_add_div hw0, Nat.div_eq_of_lt h1]; rfl
    have h4 : (j + d * i) % w = d * (i % k) + j := by
      rw [h2, Nat.mul_add_mod, Nat.mod_eq_of_lt h1]
    have h5 : i / k < a.length := Nat.div_lt_of_lt_mul hi
    rw [h3, h4, Nat.add_comm j]
    simp [List.getD, h5, BitVec.getLsbD]
  · simp [hj]

theorem limbsVal_digits (v : Nat) (f : Nat → BitVec d) (n : Nat)
    (hf : ∀ i < n, (f i).toNat = v / 2 ^ (d * i) % 2 ^ d) :
    limbsVal ((List.range n).map f) = v % 2 ^ (d * n) := by
  induction n with
  | zero => simp [Nat.mod_one]
  | succ n ih =>
    rw [List.range_succ, List.map_append, limbsVal_append, ih (fun i hi => hf i (by omega))]
    simp only [List.map_cons, List.map_nil, limbsVal_cons, limbsVal_nil, List.length_map,
      List.length_range, hf n (by omega)]
    rw [Nat.mul_succ, Nat.pow_add, Nat.mod_mul]
    ring

theorem bitAt_spec (a : Limbs 64) (i : Nat) : bitAt a i = (limbsVal a).testBit i := by
  rw [limbsVal_testBit a i (by omega), bitAt]
  generalize hl : a.getD (i / 64) 0#64 = l
  have hl' : a[i / 64]?.getD 0#64 = l := by rw [← hl]; rfl
  rw [hl']
  have hk : i % 64 < 64 := Nat.mod_lt _ (by omega)
  generalize i % 64 = k at hk
  cases hb : l.getLsbD k
  · have : l &&& (1#64 <<< k) = 0#64 := by
      apply BitVec.eq_of_getLsbD_eq
      intro j hj
      rw [BitVec.getLsbD_and, one_shl_getLsbD k j hk]
      by_cases e : j = k
      · subst e; simp [hb]
      · simp [e]
    rw [this]; simp
  · have : l &&& (1#64 <<< k) = 1#64 <<< k := by
      have := and_one_shl l k hk
      rw [hb] at this; simpa using this
    rw [this]
    have h2 : ((1#64 <<< k) >>> k).getLsbD 0 = true := by
      rw [BitVec.getLsbD_ushiftRight, one_shl_getLsbD _ _ hk]; simp
    simp only [bne_iff_ne, ne_eq]
    intro h0
    rw [h0] at h2; simp at h2

theorem ofBool_digit (v i : Nat) : (BitVec.ofBool (v.testBit i)).toNat = v / 2 ^ (1 * i) % 2 ^ 1 := by
  rw [BitVec.toNat_ofBool, Nat.one_mul, pow_one, Nat.toNat_testBit]

/-! ## NAF -/

theorem isChain_cons' {α : Type*} {R : α → α → Prop} {x : α} {xs : List α} :
    (x :: xs).IsChain R ↔ (∀ y, xs.head? = some y → R x y) ∧ xs.IsChain R := by
  cases xs with
  | nil => simp
  | cons y ys => simp [List.isChain_cons_cons]

theorem chain_getD : ∀ {zs : List Int}, zs.IsChain (fun x y => x = 0 ∨ y = 0) → ∀ i,
    zs.getD i 0 = 0 ∨ zs.getD (i + 1) 0 = 0
  | [], _, i => by simp
  | z :: zs, h, i => by
    rw [isChain_cons'] at h
    cases i with
    | succ i => simpa using chain_getD h.2 i
    | zero =>
      cases zs with
      | nil => simp
      | cons y ys => simpa using h.1 y rfl

theorem toNAFGo_spec (hw : 2 ≤ w) : ∀ (fuel : Nat) (v : Limbs w),
    limbsVal v + 1 < 2 ^ (w * v.length) → 2 * limbsVal v ≤ 2 ^ fuel →
    ∃ zs, toNAFGo fuel v = some zs ∧ digitsVal 2 zs = limbsVal v ∧
      (∀ z ∈ zs, z = -1 ∨ z = 0 ∨ z = 1) ∧ zs.IsChain (fun x y => x = 0 ∨ y = 0) ∧
      (limbsVal v % 2 = 0 → zs.head? = some 0 ∨ zs = []) := by
  intro fuel
  induction fuel with
  | zero =>
    intro v hv hf
    have h0 : limbsVal v = 0 := by simp at hf; omega
    refine ⟨[], ?_, by simp [digitsVal, h0], by simp, List.IsChain.nil, by simp⟩
    simp [toNAFGo, isZero_spec, h0]
  | succ fuel ih =>
    intro v hv hf
    by_cases h0 : limbsVal v = 0
    · refine ⟨[], ?_, by simp [digitsVal, h0], by simp, List.IsChain.nil, by simp⟩
      simp [toNAFGo, isZero_spec, h0]
    rw [toNAFGo, isZero_spec]
    simp only [h0, decide_false, Bool.false_eq_true, ↓reduceIte, isOdd_spec (by omega : 0 < w)]
    cases v with
    | nil => simp at h0
    | cons x xs =>
      have hmod4 : x.toNat % 4 = limbsVal (x :: xs) % 4 := by
        rw [limbsVal_cons]
        obtain ⟨j, rfl⟩ : ∃ j, w = j + 2 := ⟨w - 2, by omega⟩
        rw [Nat.pow_add, show x.toNat + 2 ^ j * 2 ^ 2 * limbsVal xs = x.toNat + 4 * (2 ^ j * limbsVal xs) by ring]
        omega
      have hlen1 : (1#w :: zero (w := w) ((x :: xs).length - 1)).length = (x :: xs).length := by
        simp [zero]
      have hone : limbsVal (1#w :: zero (w := w) ((x :: xs).length - 1)) = 1 := by
        rw [limbsVal_cons, limbsVal_zero, BitVec.toNat_ofNat, Nat.mod_eq_of_lt]
        · simp
        · exact Nat.one_lt_two_pow (by omega)
      simp only [List.headD_cons, hmod4]
      generalize hV : x :: xs = v at *
      generalize hO : (1#w :: zero (w := w) (v.length - 1)) = o at *
      have hP4 : 4 ≤ 2 ^ (w * v.length) := by
        rw [← hV]
        calc 4 = 2 ^ 2 := rfl
          _ ≤ _ := Nat.pow_le_pow_right (by omega) (by
            simp only [List.length_cons]; nlinarith)
      have hPpos : 2 ^ fuel * 2 = 2 ^ (fuel + 1) := (pow_succ 2 fuel).symm
      -- the state after one step
      have key : ∀ (v' : Limbs w) (z : Int), v'.length = v.length → 
          (limbsVal v : Int) = z + 2 * (limbsVal v' / 2 : Nat) →
          (z = -1 ∨ z = 0 ∨ z = 1) →
          (z ≠ 0 → (limbsVal v' / 2) % 2 = 0) → (limbsVal v % 2 = 0 → z = 0) →
          ∃ zs, Option.map (z :: ·) (toNAFGo fuel (divBy2 v')) = some zs ∧
            digitsVal 2 zs = limbsVal v ∧
            (∀ z ∈ zs, z = -1 ∨ z = 0 ∨ z = 1) ∧ zs.IsChain (fun x y => x = 0 ∨ y = 0) ∧
            (limbsVal v % 2 = 0 → zs.head? = some 0 ∨ zs = []) := by
        intro v' z hl' hz hz1 hz2 hz3
        obtain ⟨d1, d2⟩ := divBy2_spec (by omega : 0 < w) v'
        obtain ⟨zs, e1, e2, e3, e4, e5⟩ := ih (divBy2 v') (by rw [d1, d2, hl']; omega)
          (by
            rw [d1]
            rcases Nat.eq_zero_or_pos fuel with hf0 | hf0
            · subst hf0; simp at hf ⊢; omega
            · have : 2 ∣ 2 ^ fuel := dvd_pow_self _ (by omega)
              omega)
        refine ⟨z :: zs, by rw [e1]; rfl, by rw [digitsVal, e2, d1, hz], ?_, ?_, ?_⟩
        · intro y hy
          rcases List.mem_cons.1 hy with rfl | hy
          · exact hz1
          · exact e3 y hy
        · rw [isChain_cons']
          refine ⟨?_, e4⟩
          intro y hy
          by_cases hzz : z = 0
          · exact Or.inl hzz
          · right
            rcases e5 (by rw [d1]; exact hz2 hzz) with h | h
            · rw [h] at hy; simpa using hy.symm
            · rw [h] at hy; simp at hy
        · intro he; left; simp [hz3 he]
      by_cases hodd : limbsVal v % 2 = 1
      · have h4 : limbsVal v % 4 = 1 ∨ limbsVal v % 4 = 3 := by omega
        rcases h4 with h4 | h4
        · simp only [decide_eq_true hodd, ↓reduceIte, h4]
          rw [if_neg (by decide), if_pos (by decide)]
          have hs := sub_val_of_le (by omega : 0 < w) v o hlen1.symm (by rw [hone]; omega)
          apply key
          · exact (sub_spec (by omega) v o hlen1.symm).2.2
          · rw [hs.1, hone]; push_cast; omega
          · simp
          · intro _; rw [hs.1, hone]; omega
          · intro; omega
        · simp only [decide_eq_true hodd, ↓reduceIte, h4]
          rw [if_neg (by decide), if_neg (by decide)]
          have hs := add_spec (by omega : 0 < w) v o hlen1.symm
          have hlt := limbsVal_lt (add v o).1
          have ha : limbsVal (add v o).1 = limbsVal v + 1 := by
            rw [hs.2.2] at hlt
            have h1 := hs.1
            rw [hone] at h1
            have : (add v o).2.toNat = 0 := by
              by_contra hc
              have : (add v o).2.toNat = 1 := by omega
              rw [this] at h1; omega
            rw [this] at h1; omega
          apply key
          · exact hs.2.2
          · rw [ha]; push_cast; omega
          · simp
          · intro _; rw [ha]; omega
          · intro; omega
      · simp only [hodd, decide_false, Bool.false_eq_true, ↓reduceIte]
        apply key
        · rfl
        · push_cast; omega
        · simp
        · simp
        · simp

end Tachyon.BigInt
