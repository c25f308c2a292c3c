import Verif.Proofs.CInt
import Mathlib.Tactic.IntervalCases
/-! # `Convert` of `byinverter.h` and the functions that use it -/
namespace Tachyon.BY
open Tachyon.BigInt (Limbs)

/-- Bit `p` of the number given by chunks of `w` bits. -/
def cbit (w : ℕ) (l : List ℕ) (p : ℕ) : Bool := (l.getD (p / w) 0).testBit (p % w)

/-- The state of the loop of `Convert`. -/
def ConvInv (I O : ℕ) (input : List ℕ) (osize bits : ℕ) (out : List ℕ) : Prop :=
  out.length = osize ∧ ∀ j < osize, ∀ b < O,
    (out.getD j 0).testBit b = (decide (j * O + b < bits) && cbit I input (j * O + b))

theorem step_le {I O total bits : ℕ} (hI : 0 < I) (hO : 0 < O) (ht : I ∣ total ∨ O ∣ total) (h : bits < total) :
    bits + min (I - bits % I) (O - bits % O) ≤ total := by
  have key : ∀ w, 0 < w → w ∣ total → bits + (w - bits % w) ≤ total := by
    intro w hw hd
    obtain ⟨k, rfl⟩ := hd
    have h1 := Nat.div_add_mod bits w
    have h2 := Nat.mod_lt bits hw
    have h3 : bits / w < k := Nat.div_lt_of_lt_mul h
    have h4 := Nat.mul_le_mul_left w (Nat.succ_le_of_lt h3)
    rw [Nat.mul_succ] at h4
    omega
  rcases ht with ht | ht
  · exact le_trans (Nat.add_le_add_left (min_le_left _ _) _) (key I hI ht)
  · exact le_trans (Nat.add_le_add_left (min_le_right _ _) _) (key O hO ht)

theorem conv_step {I O : ℕ} {input : List ℕ} {osize bits : ℕ} {out : List ℕ} (hI : 0 < I) (hO : 0 < O) (hO64 : O ≤ 64)
    (hin : Chunky I input) (h : ConvInv I O input osize bits out) :
    ConvInv I O input osize (bits + min (I - bits % I) (O - bits % O))
      (out.modify (bits / O) fun o => o ||| ((input.getD (bits / I) 0 >>> (bits % I)) <<< (bits % O)) % 2 ^ 64) := by
  obtain ⟨hl, h⟩ := h
  refine ⟨by simp [hl], ?_⟩
  intro j hj b hb
  have hi := Nat.mod_lt bits hI
  have ho := Nat.mod_lt bits hO
  have hbo := Nat.div_add_mod bits O
  have hbi := Nat.div_add_mod bits I
  have hstep : min (I - bits % I) (O - bits % O) ≤ O - bits % O := min_le_right _ _
  have hx : input.getD (bits / I) 0 < 2 ^ I := by
    rw [List.getD_eq_getElem?_getD]
    cases hg : input[bits / I]? with
    | none => simp
    | some x => exact hin x (List.mem_of_getElem? hg)
  by_cases hjb : j = bits / O
  · subst hjb
    have e : (out.modify (bits / O) fun o => o ||| ((input.getD (bits / I) 0 >>> (bits % I)) <<< (bits % O)) % 2 ^ 64).getD
        (bits / O) 0 = out.getD (bits / O) 0 ||| ((input.getD (bits / I) 0 >>> (bits % I)) <<< (bits % O)) % 2 ^ 64 := by
      have hjl : bits / O < out.length := by rw [hl]; exact hj
      generalize ((input.getD (bits / I) 0 >>> (bits % I)) <<< (bits % O)) % 2 ^ 64 = y
      rw [List.getD_eq_getElem?_getD, List.getElem?_modify_eq, List.getD_eq_getElem?_getD, List.getElem?_eq_getElem hjl]
      rfl
    rw [e, Nat.testBit_or, h _ hj b hb, Nat.testBit_mod_two_pow, Nat.testBit_shiftLeft, Nat.testBit_shiftRight]
    have hb64 : b < 64 := by omega
    have hmul : bits / O * O + b = bits + b - bits % O := by
      have : bits / O * O = O * (bits / O) := Nat.mul_comm _ _
      omega
    by_cases hbl : b < bits % O
    · have h1 : bits / O * O + b < bits := by omega
      have h2 : ¬ b ≥ bits % O := by omega
      have h3 : bits / O * O + b < bits + min (I - bits % I) (O - bits % O) := by omega
      simp [h1, h2, h3]
    · have hbl : bits % O ≤ b := by omega
      have h1 : ¬ bits / O * O + b < bits := by omega
      obtain ⟨c, rfl⟩ := Nat.exists_eq_add_of_le hbl
      have e2 : bits / O * O + (bits % O + c) = bits + c := by omega
      rw [e2]
      have h1 : ¬ bits + c < bits := by omega
      have h2 : bits % O + c ≥ bits % O := by omega
      simp only [hb64, h1, h2, decide_false, decide_true, Bool.false_and, Bool.false_or, Bool.true_and, Nat.add_sub_cancel_left]
      by_cases hc : c < I - bits % I
      · have h3 : bits + c < bits + min (I - bits % I) (O - bits % O) := by omega
        have h4 : (bits + c) / I = bits / I := by
          rw [← hbi, Nat.add_assoc, Nat.mul_add_div hI, Nat.mul_add_div hI, Nat.div_eq_of_lt (show bits % I + c < I by omega),
            Nat.div_eq_of_lt hi]
        have h5 : (bits + c) % I = bits % I + c := by
          rw [← hbi, Nat.add_assoc, Nat.mul_add_mod, Nat.mul_add_mod, Nat.mod_eq_of_lt (show bits % I + c < I by omega),
            Nat.mod_eq_of_lt hi]
        simp only [h3, decide_true, Bool.true_and, cbit, h4, h5]
      · have h3 : ¬ bits + c < bits + min (I - bits % I) (O - bits % O) := by omega
        simp only [h3, decide_false, Bool.false_and]
        exact Nat.testBit_lt_two_pow (lt_of_lt_of_le hx (Nat.pow_le_pow_right (by norm_num) (by omega)))
  · have e : (out.modify (bits / O) fun o => o ||| ((input.getD (bits / I) 0 >>> (bits % I)) <<< (bits % O)) % 2 ^ 64).getD
        j 0 = out.getD j 0 := by
      rw [List.getD_eq_getElem?_getD, List.getElem?_modify_ne _ _ (fun h => hjb h.symm), List.getD_eq_getElem?_getD]
    rw [e, h j hj b hb]
    congr 1
    have : (j * O + b < bits) ↔ (j * O + b < bits + min (I - bits % I) (O - bits % O)) := by
      have hm : bits / O * O = O * (bits / O) := Nat.mul_comm _ _
      rcases lt_or_gt_of_ne hjb with hlt | hgt
      · have := Nat.mul_le_mul_right O (Nat.succ_le_of_lt hlt)
        rw [Nat.succ_mul] at this
        constructor <;> intro <;> omega
      · have := Nat.mul_le_mul_right O (Nat.succ_le_of_lt hgt)
        rw [Nat.succ_mul] at this
        constructor <;> intro <;> omega
    simp only [this]

theorem convertGo_spec {I O : ℕ} {input : List ℕ} {osize total : ℕ} (hI : 0 < I) (hO : 0 < O) (hO64 : O ≤ 64)
    (hin : Chunky I input) (ht : I ∣ total ∨ O ∣ total) : ∀ {fuel bits : ℕ} {out : List ℕ},
    ConvInv I O input osize bits out → bits ≤ total → total ≤ bits + fuel →
      ConvInv I O input osize total (convertGo I O input total fuel bits out)
  | 0, bits, out, h, h1, h2 => by
    have : bits = total := by omega
    subst this
    exact h
  | fuel + 1, bits, out, h, h1, h2 => by
    rw [convertGo]
    split
    · rename_i hlt
      have hi := Nat.mod_lt bits hI
      have ho := Nat.mod_lt bits hO
      exact convertGo_spec hI hO hO64 hin ht (conv_step hI hO hO64 hin h) (step_le hI hO ht hlt) (by omega)
    · have : bits = total := by omega
      subst this
      exact h

theorem convert_spec {I O : ℕ} {input : List ℕ} {osize : ℕ} (hI : 0 < I) (hO : 0 < O) (hO64 : O ≤ 64)
    (hin : Chunky I input) :
    (convert I O input osize).length = osize ∧ Chunky O (convert I O input osize) ∧
      cval O (convert I O input osize) = cval I input % 2 ^ (min (input.length * I) (osize * O)) := by
  have ht : I ∣ min (input.length * I) (osize * O) ∨ O ∣ min (input.length * I) (osize * O) := by
    rcases min_choice (input.length * I) (osize * O) with h | h <;> rw [h]
    · exact .inl (dvd_mul_left _ _)
    · exact .inr (dvd_mul_left _ _)
  have htl : min (input.length * I) (osize * O) ≤ osize * O := min_le_right _ _
  generalize htot : min (input.length * I) (osize * O) = total at ht htl
  have h0 : ConvInv I O input osize 0 (List.replicate osize 0) := by
    refine ⟨by simp, fun j hj b hb => ?_⟩
    simp [List.getD_eq_getElem?_getD, hj]
  have h := convertGo_spec hI hO hO64 hin ht h0 (Nat.zero_le _) (by omega : total ≤ 0 + total)
  have hmask : (2 ^ 64 - 1) >>> (64 - O) = 2 ^ O - 1 := by
    rw [Nat.shiftRight_eq_div_pow]
    have e : 2 ^ 64 = 2 ^ O * 2 ^ (64 - O) := by rw [← pow_add]; congr 1; omega
    have hp : 0 < 2 ^ (64 - O) := by positivity
    have hq : 0 < 2 ^ O := by positivity
    apply Nat.div_eq_of_lt_le
    · rw [Nat.sub_mul, e]; omega
    · rw [show 2 ^ O - 1 + 1 = 2 ^ O by omega, ← e]; omega
  have hlen : (convert I O input osize).length = osize := by
    simp only [convert, htot, List.length_mapIdx, h.1]
  have hget : ∀ j < osize, (convert I O input osize).getD j 0 =
      (if j < (total + O - 1) / O then (convertGo I O input total total 0 (List.replicate osize 0)).getD j 0 % 2 ^ O
       else (convertGo I O input total total 0 (List.replicate osize 0)).getD j 0) := by
    intro j hj
    have hj' : j < (convertGo I O input total total 0 (List.replicate osize 0)).length := by rw [h.1]; exact hj
    simp only [convert, htot, List.getD_eq_getElem?_getD, List.getElem?_mapIdx, hmask, Nat.and_two_pow_sub_one_eq_mod,
      List.getElem?_eq_getElem hj', Option.map_some, Option.getD_some]
  have huntouched : ∀ {fuel bits : ℕ} {out : List ℕ}, bits ≤ total → ∀ j, total ≤ j * O → 
      (convertGo I O input total fuel bits out).getD j 0 = out.getD j 0 := by
    intro fuel
    induction fuel with
    | zero => intro bits out _ j _; rfl
    | succ fuel ih =>
      intro bits out hb j hj
      rw [convertGo]
      split
      · rename_i hlt
        rw [ih (step_le hI hO ht hlt) j hj, List.getD_eq_getElem?_getD, List.getElem?_modify_ne, List.getD_eq_getElem?_getD]
        intro he
        have := Nat.div_mul_le_self bits O
        rw [he] at this
        omega
      · rfl
  have hfill : ∀ j, ¬ j < (total + O - 1) / O → total ≤ j * O := by
    intro j hj
    have h1 : (total + O - 1) / O < j + 1 := by omega
    rw [Nat.div_lt_iff_lt_mul hO, Nat.succ_mul] at h1
    omega
  have hlt : ∀ j < osize, (convert I O input osize).getD j 0 < 2 ^ O := by
    intro j hj
    rw [hget j hj]
    split
    · exact Nat.mod_lt _ (by positivity)
    · rename_i hn
      rw [huntouched (Nat.zero_le _) j (hfill j hn)]
      simp [List.getD_eq_getElem?_getD, hj]
  have hch : Chunky O (convert I O input osize) := by
    intro x hx
    obtain ⟨j, hj, rfl⟩ := List.getElem_of_mem hx
    have := hlt j (by rw [← hlen]; exact hj)
    rwa [List.getD_eq_getElem?_getD, List.getElem?_eq_getElem hj, Option.getD_some] at this
  refine ⟨hlen, hch, ?_⟩
  apply Nat.eq_of_testBit_eq
  intro p
  rw [Nat.testBit_mod_two_pow, cval_testBit hO hch, cval_testBit hI hin]
  have hp := Nat.div_add_mod p O
  have hpm := Nat.mod_lt p hO
  by_cases hj : p / O < osize
  · have e : (convert I O input osize).getD (p / O) 0 = (convert I O input osize).getD (p / O) 0 % 2 ^ O :=
      (Nat.mod_eq_of_lt (hlt _ hj)).symm
    have e2 : ((convert I O input osize).getD (p / O) 0).testBit (p % O)
        = ((convertGo I O input total total 0 (List.replicate osize 0)).getD (p / O) 0).testBit (p % O) := by
      rw [hget _ hj]
      split
      · rw [Nat.testBit_mod_two_pow]; simp [hpm]
      · rfl
    rw [e2, h.2 _ hj _ hpm]
    have : p / O * O + p % O = p := by rw [Nat.mul_comm]; exact hp
    rw [this]
    rfl
  · have h1 : ¬ p < total := by
      have := Nat.mul_le_mul_left O (Nat.le_of_not_lt hj)
      have : O * osize = osize * O := Nat.mul_comm _ _
      omega
    have h2 : (convert I O input osize)[p / O]? = none := List.getElem?_eq_none (by rw [hlen]; omega)
    simp [h1, List.getD_eq_getElem?_getD, h2]

theorem chunks_bound (n : ℕ) : 64 * (n + 1) ≤ 62 * chunks n ∧ 62 * chunks n < 64 * (n + 1) + 62 := by
  rw [chunks]; omega

theorem cval_limbs : ∀ x : Limbs 64, cval 64 (x.map BitVec.toNat) = limbsVal x
  | [] => rfl
  | a :: as => by simp [cval, limbsVal, cval_limbs as]

theorem chunky_limbs (x : Limbs 64) : Chunky 64 (x.map BitVec.toNat) := by
  intro y hy
  obtain ⟨a, _, rfl⟩ := List.mem_map.mp hy
  exact a.isLt

theorem limbs_lt (x : Limbs 64) : limbsVal x < 2 ^ (64 * x.length) := by
  have := cval_lt (chunky_limbs x)
  rwa [cval_limbs, List.length_map] at this

theorem loadBig_spec {n : ℕ} {x : Limbs 64} (hx : x.length = n) : Cong (chunks n) (loadBig (chunks n) x false) (limbsVal x) := by
  obtain ⟨h1, h2, h3⟩ := convert_spec (I := 64) (O := 62) (osize := chunks n) (by norm_num) (by norm_num) (by norm_num)
    (chunky_limbs x)
  have hb := chunks_bound n
  rw [List.length_map, hx, min_eq_left (by omega), cval_limbs, Nat.mod_eq_of_lt] at h3
  · exact ⟨h1, h2, 0, by simp [loadBig, h3]⟩
  · have := limbs_lt x
    rwa [hx, Nat.mul_comm] at this

theorem load64_spec {L : ℕ} (hL : 2 ≤ L) {z : ℤ} (h0 : -2 ^ 63 ≤ z) (h1 : z < 2 ^ 63) : Cong L (load64 L z) z := by
  have hin : Chunky 64 [(z % 2 ^ 64).toNat] := by
    intro x hx
    rw [List.mem_singleton.mp hx]
    omega
  obtain ⟨c1, c2, c3⟩ := convert_spec (I := 64) (O := 62) (osize := L) (by norm_num) (by norm_num) (by norm_num) hin
  rw [List.length_singleton, min_eq_left (by omega)] at c3
  simp only [cval, Nat.mul_zero, Nat.add_zero, Nat.one_mul] at c3
  rw [Nat.mod_eq_of_lt (by omega)] at c3
  rw [load64]
  by_cases hz : z < 0
  · rw [if_pos ⟨by omega, hz⟩]
    simp only [show (64 : ℕ) / 62 = 1 from rfl]
    have hm : ((2 ^ 64 - 1) <<< (64 % 62)) % 2 ^ 64 &&& mask62 = 2 ^ 62 - 4 := by decide
    rw [hm]
    generalize convert 64 62 [(z % 2 ^ 64).toNat] L = r at c1 c2 c3
    match r, c1, c2, c3 with
    | [], c1, _, _ => simp at c1; omega
    | [a], c1, _, _ => simp at c1; omega
    | a :: b :: rest, c1, c2, c3 =>
      have ha := c2 a (by simp)
      have hb := c2 b (by simp)
      have hr : Chunky 62 rest := fun x hx => c2 x (by simp [hx])
      simp only [cval] at c3
      have hb4 : b < 4 := by omega
      have hv : cval 62 rest = 0 := by omega
      have hrest : ∀ (k : ℕ), 2 ≤ k → ∀ l : List ℕ, (l.mapIdx fun i x =>
          if i + k = 1 then x ||| (2 ^ 62 - 4) else if 1 < i + k then mask62 else x) = List.replicate l.length mask62 := by
        intro k hk l
        apply List.ext_getElem
        · simp
        · intro i h1 h2
          simp only [List.getElem_mapIdx, List.getElem_replicate]
          rw [if_neg (by omega), if_pos (by omega)]
      have e : (a :: b :: rest).mapIdx (fun i x => if i = 1 then x ||| (2 ^ 62 - 4) else if 1 < i then mask62 else x)
          = a :: (b ||| (2 ^ 62 - 4)) :: List.replicate rest.length mask62 := by
        rw [List.mapIdx_cons, List.mapIdx_cons]
        simp only [Nat.zero_add, zero_ne_one, if_false, not_lt_zero, if_true]
        rw [hrest 2 (le_refl 2)]
      rw [e]
      have hor : b ||| (2 ^ 62 - 4) = b + (2 ^ 62 - 4) := by
        interval_cases b <;> decide
      rw [hor]
      have hrv : ∀ n, cval 62 (List.replicate n mask62) + 1 = 2 ^ (62 * n) := by
        intro n
        induction n with
        | zero => rfl
        | succ n ih =>
          rw [List.replicate_succ, cval, show 62 * (n + 1) = 62 + 62 * n by ring, pow_add, ← ih]
          simp only [mask62]; omega
      refine ⟨by simpa using c1, ?_, 1, ?_⟩
      · intro x hx
        simp only [List.mem_cons, List.mem_replicate] at hx
        rcases hx with rfl | rfl | ⟨_, rfl⟩
        · exact ha
        · omega
        · simp [mask62]
      · simp only [cval]
        have hl : rest.length + 2 = L := by simpa using c1
        have h := hrv rest.length
        rw [← hl, show 62 * (rest.length + 2) = 124 + 62 * rest.length by ring, pow_add]
        have h : (cval 62 (List.replicate rest.length mask62) : ℤ) + 1 = 2 ^ (62 * rest.length) := by exact_mod_cast h
        rw [← h]
        rw [hv] at c3
        push_cast
        have : (a : ℤ) + 2 ^ 62 * b = z + 2 ^ 64 := by omega
        linear_combination this
  · rw [if_neg (by omega)]
    refine ⟨c1, c2, 0, ?_⟩
    rw [c3]
    omega

theorem saveBig_spec {n : ℕ} {a : List ℕ} {z : ℤ} (ha : Cong (chunks n) a z) (h0 : 0 ≤ z) (h1 : z < 2 ^ (64 * n)) :
    (saveBig n a).length = n ∧ (limbsVal (saveBig n a) : ℤ) = z := by
  have hb := chunks_bound n
  have hL : 0 < chunks n := by omega
  have hr : InRange (chunks n) z := by
    have : (2 : ℤ) ^ (64 * n) ≤ 2 ^ (62 * chunks n - 1) := pow_le_pow_right₀ (by norm_num) (by omega)
    have h3 : (0 : ℤ) < 2 ^ (62 * chunks n - 1) := by positivity
    constructor <;> linarith
  have hn := ha.isNegative hL hr
  have hv := ha.nonneg hL hr h0
  rw [decide_eq_false (by omega)] at hn
  obtain ⟨c1, c2, c3⟩ := convert_spec (I := 62) (O := 64) (osize := n) (by norm_num) (by norm_num) (by norm_num) ha.chunky
  rw [ha.len, min_eq_right (by omega), Nat.mod_eq_of_lt] at c3
  · rw [saveBig, hn]
    refine ⟨by simp [c1], ?_⟩
    rw [← hv, ← c3, ← cval_limbs, List.map_map]
    congr 2
    conv_rhs => rw [← List.map_id (convert 62 64 a n)]
    apply List.map_congr_left
    intro x hx
    simpa using c2 x hx
  · have : (cval 62 a : ℤ) < 2 ^ (n * 64) := by rw [hv, Nat.mul_comm]; exact h1
    exact_mod_cast this

end Tachyon.BY
