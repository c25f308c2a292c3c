import Verif.Proofs.MSM
import Verif.Proofs.Bits
/-! Lemmas for the fixed-base multi-scalar multiplication. -/
namespace Tachyon.MSM
open Tachyon.BigInt

variable {α β M : Type*} [AddCommGroup M] {o : Ops β α} {S : β → M → Prop} {R : α → M → Prop}

theorem windowBases_rel (h : o.Implements S R) (w : ℕ) : ∀ (n : ℕ) {b : β} {x : M}, S b x →
    List.Forall₂ S (windowBases o w n b) ((List.range n).map fun i => 2 ^ (w * i) • x)
  | 0, _, _, _ => .nil
  | n + 1, b, x, hb => by
    rw [List.range_succ_eq_map, List.map_cons, List.map_map]
    refine .cons (by simpa using hb) ?_
    have := windowBases_rel h w n (doubleTimes_rel h w hb)
    have e : (fun i => 2 ^ (w * i) • 2 ^ w • x) = (fun i => 2 ^ (w * i) • x) ∘ Nat.succ := by
      funext i
      simp only [Function.comp, smul_smul, ← pow_add, Nat.succ_eq_add_one, Nat.mul_add, Nat.mul_one]
    rw [e] at this
    exact this

theorem multiplesGo_rel (h : o.Implements S R) {b : β} {x : M} (hb : S b x) : ∀ (n : ℕ) {c : β} {z : M},
    S c z → List.Forall₂ S (multiplesGo o b n c) ((List.range n).map fun j => z + j • x)
  | 0, _, _, _ => .nil
  | n + 1, c, z, hc => by
    rw [List.range_succ_eq_map, List.map_cons, List.map_map]
    refine .cons (by simpa using hc) ?_
    have := multiplesGo_rel h hb n (h.add hc hb)
    have e : (fun j => z + x + j • x) = (fun j : ℕ => z + j • x) ∘ Nat.succ := by
      funext i
      simp only [Function.comp, Nat.succ_eq_add_one, succ_nsmul]; abel
    rw [e] at this
    exact this

theorem forall₂_getElem? {γ δ : Type*} {P : γ → δ → Prop} {xs : List γ} {ys : List δ}
    (h : List.Forall₂ P xs ys) {i : ℕ} {x : γ} (hx : xs[i]? = some x) : ∃ y, ys[i]? = some y ∧ P x y := by
  induction h generalizing i with
  | nil => simp at hx
  | cons hxy _ ih =>
    cases i with
    | zero =>
      simp only [List.getElem?_cons_zero, Option.some.injEq] at hx ⊢
      subst hx; exact ⟨_, rfl, hxy⟩
    | succ i => rw [List.getElem?_cons_succ] at hx ⊢; exact ih hx

theorem windowTable_rel (h : o.Implements S R) {b : β} {x : M} (hb : S b x) {w n modulusBits : ℕ}
    (hw' : w < 32) (hn : 0 < n) (h1 : w * (n - 1) < modulusBits)
    (h2 : modulusBits ≤ w * n) :
    ∃ t, windowTable o modulusBits w n b = some t ∧ t.length = n ∧ ∀ i < n,
      ∃ row, t[i]? = some row ∧ ∀ j < 2 ^ (min w (modulusBits - w * i)),
        ∃ c, row[j]? = some c ∧ S c ((j * 2 ^ (w * i)) • x) := by
  have hwb := windowBases_rel h w n hb
  have hwl := hwb.length_eq
  have hsz : 2 ^ w % 2 ^ 32 = 2 ^ w := Nat.mod_eq_of_lt (Nat.pow_lt_pow_right (by omega) hw')
  have hexp : modulusBits - (n - 1) * w ≤ w := by
    have : w * n = (n - 1) * w + w := by
      obtain ⟨m, rfl⟩ : ∃ m, n = m + 1 := ⟨n - 1, by omega⟩
      simp; ring
    omega
  have hlast : 2 ^ (modulusBits - (n - 1) * w) % 2 ^ 32 = 2 ^ (modulusBits - (n - 1) * w) :=
    Nat.mod_eq_of_lt (Nat.pow_lt_pow_right (by omega) (by omega))
  have hminw : ∀ i, i < n → i ≠ n - 1 → min w (modulusBits - w * i) = w := by
    intro i hi hne
    have : w * (i + 1) ≤ w * (n - 1) := Nat.mul_le_mul_left _ (by omega)
    have e : w * (i + 1) = w * i + w := by ring
    omega
  have hminl : min w (modulusBits - w * (n - 1)) = modulusBits - (n - 1) * w := by
    rw [Nat.mul_comm w (n - 1)]; omega
  obtain ⟨t, et, ht⟩ := sequence_rel (xs := (windowBases o w n b).zipIdx)
    (f := fun p => (fun i b =>
      if (if i = n - 1 then 2 ^ (modulusBits - (n - 1) * w) else 2 ^ w) ≤ 2 ^ w then
        some (multiplesGo o b (if i = n - 1 then 2 ^ (modulusBits - (n - 1) * w) else 2 ^ w) o.zero ++
          List.replicate (2 ^ w - (if i = n - 1 then 2 ^ (modulusBits - (n - 1) * w) else 2 ^ w)) o.zero)
      else none) p.2 p.1)
    (P := fun p row => ∀ j < 2 ^ (min w (modulusBits - w * p.2)),
        ∃ c, row[j]? = some c ∧ S c ((j * 2 ^ (w * p.2)) • x)) (by
      rintro ⟨c, i⟩ hmem
      have hge : (windowBases o w n b)[i]? = some c := List.mem_zipIdx_iff_getElem?.1 hmem
      have hi : i < n := by
        have := (List.getElem?_eq_some_iff.1 hge).1
        rw [hwl] at this; simpa using this
      obtain ⟨y, ey, hcy⟩ := forall₂_getElem? hwb hge
      rw [List.getElem?_map, List.getElem?_range hi, Option.map_some, Option.some.injEq] at ey
      subst ey
      have hcur : (if i = n - 1 then 2 ^ (modulusBits - (n - 1) * w) else 2 ^ w) =
          2 ^ (min w (modulusBits - w * i)) := by
        split
        · next e => subst e; rw [hminl]
        · next e => rw [hminw i hi e]
      simp only [hcur]
      rw [if_pos (Nat.pow_le_pow_right (by omega) (by omega))]
      refine ⟨_, rfl, fun j hj => ?_⟩
      have hmr := multiplesGo_rel h hcy (2 ^ (min w (modulusBits - w * i))) h.zero
      have hml := hmr.length_eq
      simp only [List.length_map, List.length_range] at hml
      rw [List.getElem?_append_left (by omega)]
      obtain ⟨d, ed⟩ : ∃ d, (multiplesGo o c (2 ^ (min w (modulusBits - w * i))) o.zero)[j]? = some d :=
        ⟨_, List.getElem?_eq_getElem (by omega)⟩
      obtain ⟨y, ey, hdy⟩ := forall₂_getElem? hmr ed
      rw [List.getElem?_map, List.getElem?_range hj, Option.map_some, Option.some.injEq] at ey
      subst ey
      refine ⟨d, ed, ?_⟩
      rw [zero_add, smul_smul] at hdy
      exact hdy)
  have htl : t.length = n := by
    have := ht.length_eq
    rw [List.length_zipIdx, hwl] at this
    simpa using this.symm
  refine ⟨t, ?_, htl, fun i hi => ?_⟩
  · rw [← et]
    simp only [windowTable, hsz, hlast, List.mapIdx_eq_zipIdx_map]
  · have hil : i < (windowBases o w n b).zipIdx.length := by
      rw [List.length_zipIdx, hwl]; simpa using hi
    obtain ⟨row, er, hr⟩ := forall₂_getElem? ht (List.getElem?_eq_getElem hil)
    refine ⟨row, er, ?_⟩
    simpa using hr

theorem mod_two_pow_succ (x n : ℕ) : x % 2 ^ (n + 1) = x % 2 ^ n + 2 ^ n * (x.testBit n).toNat := by
  rw [pow_succ, Nat.mod_mul, Nat.testBit_eq_decide_div_mod_eq]
  rcases Nat.mod_two_eq_zero_or_one (x / 2 ^ n) with h | h <;> simp [h]

theorem windowIndex_spec (a : Limbs 64) {mb bb : ℕ} (hv : limbsVal a < 2 ^ mb) : ∀ (n off : ℕ),
    windowIndex a mb bb n off (min (bb + off) mb) (limbsVal a / 2 ^ bb % 2 ^ off) =
      (limbsVal a / 2 ^ bb % 2 ^ (off + n), min (bb + (off + n)) mb)
  | 0, off => by simp [windowIndex]
  | n + 1, off => by
    have ih := windowIndex_spec a (bb := bb) hv n (off + 1)
    have e : off + 1 + n = off + (n + 1) := by omega
    rw [e] at ih
    rw [windowIndex]
    have hbit : (limbsVal a / 2 ^ bb).testBit off = (limbsVal a).testBit (bb + off) := by
      rw [Nat.testBit_div_two_pow, Nat.add_comm]
    have hs := mod_two_pow_succ (limbsVal a / 2 ^ bb) off
    rw [hbit] at hs
    have hlt : limbsVal a / 2 ^ bb % 2 ^ off < 2 ^ off := Nat.mod_lt _ (Nat.two_pow_pos _)
    by_cases hlt' : bb + off < mb
    · rw [if_pos hlt', show min (bb + off) mb = bb + off by omega, ← ih, hs, testBit_spec (by omega)]
      rw [show bb + off + 1 = min (bb + (off + 1)) mb by omega]
      congr 1
      cases (limbsVal a).testBit (bb + off) with
      | true =>
        simp only [if_true, Bool.toNat_true, Nat.mul_one]
        have := Nat.two_pow_add_eq_or_of_lt hlt 1
        rw [Nat.mul_one] at this
        rw [Nat.or_comm, ← this, Nat.add_comm]
      | false => simp
    · rw [if_neg hlt', ← ih, hs]
      have : (limbsVal a).testBit (bb + off) = false := by
        apply Nat.testBit_eq_false_of_lt
        exact lt_of_lt_of_le hv (Nat.pow_le_pow_right (by omega) (by omega))
      rw [this, show min (bb + off) mb = min (bb + (off + 1)) mb by omega]
      simp

theorem fixedMulGo_rel (h : o.Implements S R) {x : M} {w N mb : ℕ} {t : List (List β)}
    (ht : ∀ i < N, ∃ row, t[i]? = some row ∧ ∀ j < 2 ^ (min w (mb - w * i)),
        ∃ c, row[j]? = some c ∧ S c ((j * 2 ^ (w * i)) • x))
    (a : Limbs 64) (hv : limbsVal a < 2 ^ mb) : ∀ (n i : ℕ) (b : β), i + n = N →
    S b ((limbsVal a % 2 ^ (w * i)) • x) →
    ∃ r, fixedMulGo o t mb w a n i (min (i * w) mb) b = some r ∧ S r ((limbsVal a % 2 ^ (w * N)) • x)
  | 0, i, b, hi, hb => ⟨b, rfl, by rw [← hi]; simpa using hb⟩
  | n + 1, i, b, hi, hb => by
    obtain ⟨row, er, hrow⟩ := ht i (by omega)
    have hidx := windowIndex_spec (bb := i * w) a hv w 0
    simp only [Nat.add_zero, pow_zero, Nat.mod_one, Nat.zero_add] at hidx
    have hj : limbsVal a / 2 ^ (i * w) % 2 ^ w < 2 ^ (min w (mb - w * i)) := by
      rcases le_total w (mb - w * i) with hle | hle
      · rw [min_eq_left hle]; exact Nat.mod_lt _ (Nat.two_pow_pos _)
      · rw [min_eq_right hle]
        refine lt_of_le_of_lt (Nat.mod_le _ _) ?_
        rw [Nat.div_lt_iff_lt_mul (Nat.two_pow_pos _), ← pow_add]
        refine lt_of_lt_of_le hv (Nat.pow_le_pow_right (by omega) ?_)
        rw [Nat.mul_comm i w]; omega
    obtain ⟨c, ec, hc⟩ := hrow _ hj
    have hstep := h.add hb hc
    have e : (limbsVal a % 2 ^ (w * i)) • x + (limbsVal a / 2 ^ (i * w) % 2 ^ w * 2 ^ (w * i)) • x =
        (limbsVal a % 2 ^ (w * (i + 1))) • x := by
      rw [← add_smul, show w * (i + 1) = w * i + w by ring, pow_add, Nat.mod_mul, Nat.mul_comm i w,
        Nat.mul_comm (2 ^ (w * i))]
    rw [e] at hstep
    obtain ⟨r, e1, e2⟩ := fixedMulGo_rel h ht a hv n (i + 1) _ (by omega) hstep
    refine ⟨r, ?_, e2⟩
    simp only [fixedMulGo, hidx, er, ec]
    rw [← e1, show i * w + w = (i + 1) * w by ring]

end Tachyon.MSM
