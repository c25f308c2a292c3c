import Verif.Model.Multilinear
import Verif.Spec.Multilinear
import Verif.Proofs.FFTTop
open Finset
namespace Tachyon.Multilinear
open Tachyon.Spec Tachyon.FFT

variable {F : Type*} [Field F] [DecidableEq F]

omit [DecidableEq F] in
theorem sum_range_two_mul (f : ℕ → F) : ∀ m : ℕ,
    ∑ i ∈ range (2 * m), f i = ∑ i ∈ range m, (f (2 * i) + f (2 * i + 1))
  | 0 => by simp
  | m + 1 => by
    rw [show 2 * (m + 1) = 2 * m + 1 + 1 by ring, sum_range_succ, sum_range_succ, sum_range_two_mul f m,
      sum_range_succ]
    ring

omit [DecidableEq F] in
theorem eqPoly_succ (n : ℕ) (x : ℕ → F) (i : ℕ) :
    eqPoly (n + 1) x i = eqPoly n (fun j => x (j + 1)) (i / 2) * if i % 2 = 1 then x 0 else 1 - x 0 := by
  unfold eqPoly
  rw [prod_range_succ']
  congr 1
  · refine prod_congr rfl fun j _ => ?_
    rw [Nat.testBit_succ]
  · rw [Nat.testBit_zero]; simp

/-- One variable fixed. -/
def fold1 (r : F) (t : ℕ → F) (b : ℕ) : F := t (2 * b) + r * (t (2 * b + 1) - t (2 * b))

/-- Several variables fixed, one after the other. -/
def foldAll : List F → (ℕ → F) → ℕ → F
  | [], t => t
  | r :: pt, t => foldAll pt (fold1 r t)

omit [DecidableEq F] in
theorem foldAll_append (p q : List F) (t : ℕ → F) : foldAll (p ++ q) t = foldAll q (foldAll p t) := by
  induction p generalizing t with
  | nil => rfl
  | cons r p ih => exact ih _

omit [DecidableEq F] in
theorem mle_succ (n : ℕ) (t x : ℕ → F) :
    mle (n + 1) t x = mle n (fold1 (x 0) t) fun j => x (j + 1) := by
  unfold mle fold1
  rw [Nat.pow_succ, Nat.mul_comm, sum_range_two_mul]
  refine sum_congr rfl fun i _ => ?_
  rw [eqPoly_succ, eqPoly_succ, show 2 * i / 2 = i by omega, show (2 * i + 1) / 2 = i by omega,
    if_neg (by omega), if_pos (by omega)]
  ring

omit [DecidableEq F] in
theorem foldAll_eq : ∀ (pt : List F) (t : ℕ → F) (b : ℕ),
    foldAll pt t b = mle pt.length (fun i => t (2 ^ pt.length * b + i)) fun j => pt.getD j 0
  | [], t, b => by simp [foldAll, mle, eqPoly]
  | r :: pt, t, b => by
    rw [foldAll, foldAll_eq pt, List.length_cons, mle_succ]
    congr 1
    funext i
    simp only [fold1, List.getD_cons_zero]
    rw [show 2 * (2 ^ pt.length * b + i) = 2 ^ (pt.length + 1) * b + 2 * i by ring]
    rfl

omit [DecidableEq F] in
theorem foldVar_eq (r : F) : ∀ (m : ℕ) (e : List F), 2 * m ≤ e.length →
    ∃ e', foldVar r m e = some e' ∧ e'.length = e.length ∧
      (∀ b < m, e'.getD b 0 = fold1 r (fun i => e.getD i 0) b) ∧ ∀ b, m ≤ b → e'.getD b 0 = e.getD b 0
  | 0, e, _ => ⟨e, rfl, rfl, fun b hb => absurd hb (by omega), fun _ _ => rfl⟩
  | m + 1, e, h => by
    obtain ⟨e1, h1, h2, h3, h4⟩ := foldVar_eq r m e (by omega)
    have hl : 2 * m < e1.length := by omega
    have hr : 2 * m + 1 < e1.length := by omega
    refine ⟨e1.set m (fold1 r (fun i => e.getD i 0) m), ?_, by rw [List.length_set, h2], ?_, ?_⟩
    · unfold foldVar at h1 ⊢
      rw [List.range_succ, List.foldlM_append, h1]
      have a1 := h4 (2 * m) (by omega)
      have a2 := h4 (2 * m + 1) (by omega)
      rw [List.getD_eq_getElem _ _ hl] at a1
      rw [List.getD_eq_getElem _ _ hr] at a2
      simp only [List.foldlM_cons, List.foldlM_nil, Option.bind_eq_bind, Option.bind_some, foldStep,
        List.getElem?_eq_getElem hl, List.getElem?_eq_getElem hr, a1, a2]
      rfl
    · intro b hb
      rw [List.getD_eq_getElem?_getD, List.getElem?_set]
      by_cases hbm : m = b
      · subst hbm
        rw [if_pos rfl, if_pos (by omega)]; rfl
      · rw [if_neg hbm, ← List.getD_eq_getElem?_getD, h3 b (by omega)]
    · intro b hb
      rw [List.getD_eq_getElem?_getD, List.getElem?_set, if_neg (by omega),
        ← List.getD_eq_getElem?_getD, h4 b (by omega)]

omit [DecidableEq F] in
theorem fold1_congr {r : F} {t t' : ℕ → F} {m : ℕ} (h : ∀ b < 2 * m, t b = t' b) :
    ∀ b < m, fold1 r t b = fold1 r t' b := by
  intro b hb
  unfold fold1
  rw [h (2 * b) (by omega), h (2 * b + 1) (by omega)]

omit [DecidableEq F] in
theorem foldAll_congr : ∀ (pt : List F) {t t' : ℕ → F} {m : ℕ}, (∀ b < 2 ^ pt.length * m, t b = t' b) →
    ∀ b < m, foldAll pt t b = foldAll pt t' b
  | [], t, t', m, h => by simpa [foldAll] using h
  | r :: pt, t, t', m, h =>
    foldAll_congr pt (t := fold1 r t) (t' := fold1 r t') (m := m)
      (fold1_congr (m := 2 ^ pt.length * m) fun b hb => h b (by
        rw [List.length_cons, Nat.pow_succ]
        calc b < 2 * (2 ^ pt.length * m) := hb
          _ = _ := by ring))

omit [DecidableEq F] in
theorem fixGo_eq {n : ℕ} : ∀ (pt : List F) (i : ℕ) (e : List F), i + pt.length ≤ n → e.length = 2 ^ n →
    ∃ e', fixGo n (i + 1) pt e = some e' ∧ e'.length = 2 ^ n ∧
      ∀ b < 2 ^ (n - (i + pt.length)), e'.getD b 0 = foldAll pt (fun j => e.getD j 0) b
  | [], i, e, _, he => ⟨e, rfl, he, fun _ _ => rfl⟩
  | r :: pt, i, e, h, he => by
    rw [List.length_cons] at h
    have hp : 2 * 2 ^ (n - (i + 1)) ≤ e.length := by
      rw [he, ← Nat.pow_succ']
      exact Nat.pow_le_pow_right (by omega) (by omega)
    obtain ⟨e1, h1, h2, h3, h4⟩ := foldVar_eq r (2 ^ (n - (i + 1))) e hp
    obtain ⟨e2, g1, g2, g3⟩ := fixGo_eq (n := n) pt (i + 1) e1 (by omega) (by omega)
    refine ⟨e2, ?_, g2, ?_⟩
    · unfold fixGo
      rw [h1]
      exact g1
    · intro b hb
      rw [List.length_cons, show i + (pt.length + 1) = i + 1 + pt.length by omega] at hb
      rw [g3 b hb, foldAll]
      refine foldAll_congr pt (m := 2 ^ (n - (i + 1 + pt.length))) (fun c hc => ?_) b hb
      refine h3 c ?_
      rwa [← Nat.pow_add, show pt.length + (n - (i + 1 + pt.length)) = n - (i + 1) by omega] at hc

omit [Field F] [DecidableEq F] in
theorem degree_eq {e : List F} {n : ℕ} (hn : n ≤ 63) (he : e.length = 2 ^ n) : degree e = n := by
  unfold degree
  rw [he]
  obtain ⟨k, hk, -, h1, h2, h3⟩ := bitCeil_spec (n := 2 ^ n) (Nat.pow_le_pow_right (by omega) hn)
  rw [h1]
  exact le_antisymm (h3 n le_rfl) ((Nat.pow_le_pow_iff_right (by norm_num)).1 h2)

omit [DecidableEq F] in
theorem fixVariables_eq {e pt : List F} {n : ℕ} (hn : n ≤ 63) (he : e.length = 2 ^ n)
    (hpt : pt.length ≤ n) :
    fixVariables e pt = some ((List.range (2 ^ (n - pt.length))).map (foldAll pt fun j => e.getD j 0)) := by
  unfold fixVariables
  rw [degree_eq hn he, if_pos hpt]
  obtain ⟨e', h1, h2, h3⟩ := fixGo_eq (n := n) pt 0 e (by omega) he
  rw [h1, Option.map_some]
  congr 1
  rw [Nat.zero_add] at h3
  have hle : 2 ^ (n - pt.length) ≤ 2 ^ n := Nat.pow_le_pow_right (by omega) (by omega)
  unfold resizeZero
  rw [h2, Nat.sub_eq_zero_of_le hle, List.replicate_zero, List.append_nil]
  apply List.ext_getElem
  · rw [List.length_take, List.length_map, List.length_range]; omega
  · intro i hi1 hi2
    rw [List.length_map, List.length_range] at hi2
    rw [List.getElem_take, List.getElem_map, List.getElem_range, ← h3 i hi2, List.getD_eq_getElem]

theorem evaluate_eq {e pt : List F} {n : ℕ} (hn : n ≤ 63) (he : e.length = 2 ^ n)
    (hpt : pt.length = n) : evaluate e pt = some (foldAll pt (fun j => e.getD j 0) 0) := by
  unfold evaluate
  rw [degree_eq hn he, if_neg (by omega), fixVariables_eq hn he (by omega), hpt, Nat.sub_self, Nat.pow_zero,
    show List.range 1 = [0] from rfl, List.map_cons, List.map_nil]
  dsimp only
  unfold isZero
  simp only [List.isEmpty_cons, Bool.false_eq_true, if_false, List.all_cons, List.all_nil, Bool.and_true,
    decide_eq_true_iff, List.getElem?_cons_zero]
  split
  · next h => rw [h]
  · rfl

/-- The coordinates of vertex `i`, from the lowest bit. -/
def bits (n i : ℕ) : List F := (List.range n).map fun j => if i.testBit j then 1 else 0

omit [DecidableEq F] in
theorem bits_succ (n i : ℕ) : bits (F := F) (n + 1) i = (if i % 2 = 1 then 1 else 0) :: bits n (i / 2) := by
  unfold bits
  rw [List.range_succ_eq_map, List.map_cons, List.map_map]
  congr 1
  · rw [Nat.testBit_zero]; simp
  · refine List.map_congr_left fun j _ => ?_
    simp only [Function.comp, Nat.succ_eq_add_one]
    rw [Nat.testBit_succ]

omit [DecidableEq F] in
theorem bits_length (n i : ℕ) : (bits (F := F) n i).length = n := by simp [bits]

omit [DecidableEq F] in
theorem foldAll_bits : ∀ (n i : ℕ) (t : ℕ → F) (b : ℕ), i < 2 ^ n →
    foldAll (bits n i) t b = t (2 ^ n * b + i)
  | 0, i, t, b, h => by
    obtain rfl : i = 0 := by simpa using h
    simp [bits, foldAll]
  | n + 1, i, t, b, h => by
    rw [Nat.pow_succ] at h
    rw [bits_succ, foldAll, foldAll_bits n (i / 2) _ b (by omega), fold1]
    rcases Nat.mod_two_eq_zero_or_one i with h0 | h0
    · rw [if_neg (by omega), zero_mul, add_zero]
      congr 1
      have : i = 2 * (i / 2) := by omega
      rw [Nat.pow_succ]
      linear_combination -this
    · rw [if_pos h0, one_mul, add_sub_cancel]
      congr 1
      have : i = 2 * (i / 2) + 1 := by omega
      rw [Nat.pow_succ]
      linear_combination -this

omit [DecidableEq F] in
/-- A function that is affine in every variable is determined by its values on the hypercube. -/
theorem affine_eq : ∀ (n : ℕ) (g : List F → F),
    (∀ p c q, p.length + 1 + q.length = n →
      g (p ++ c :: q) = (1 - c) * g (p ++ 0 :: q) + c * g (p ++ 1 :: q)) →
    ∀ pt : List F, pt.length = n → g pt = foldAll pt (fun i => g (bits n i)) 0
  | 0, g, _, [], _ => by simp [foldAll, bits]
  | n + 1, g, hg, r :: pt, hpt => by
    have ih := affine_eq n (fun q => g (r :: q)) (fun p c q h => by
      simpa using hg (r :: p) c q (by rw [List.length_cons]; omega)) pt (by simpa using hpt)
    rw [ih, foldAll]
    congr 1
    funext i
    have := hg [] r (bits n i) (by rw [bits_length]; simp; omega)
    simp only [List.nil_append] at this
    rw [this, fold1, bits_succ, bits_succ, if_neg (by omega), if_pos (by omega),
      show 2 * i / 2 = i by omega, show (2 * i + 1) / 2 = i by omega]
    ring

omit [DecidableEq F] in
theorem foldVar_none (r : F) : ∀ (m : ℕ) (e : List F), e.length < 2 * m → foldVar r m e = none
  | 0, e, h => absurd h (by omega)
  | m + 1, e, h => by
    have hstep : foldVar r (m + 1) e = (foldVar r m e).bind fun e => foldStep r e m := by
      unfold foldVar
      rw [List.range_succ, List.foldlM_append]
      cases (List.range m).foldlM (foldStep r) e with
      | none => rfl
      | some e1 =>
        simp only [Option.bind_eq_bind, Option.bind_some, List.foldlM_cons, List.foldlM_nil]
        cases foldStep r e1 m <;> rfl
    rw [hstep]
    by_cases hl : e.length < 2 * m
    · rw [foldVar_none r m e hl]; rfl
    · obtain ⟨e1, h1, h2, -⟩ := foldVar_eq r m e (by omega)
      rw [h1, Option.bind_some, foldStep, List.getElem?_eq_none (i := 2 * m + 1) (by omega)]
      split
      · next h => cases h
      · rfl

end Tachyon.Multilinear
