import Verif.Proofs.SumcheckInterp
import Mathlib.Algebra.BigOperators.Fin
import Mathlib.Algebra.Polynomial.Roots
/-! The prover, the protocol and soundness for C42. -/
namespace Tachyon.Sumcheck
open Tachyon.Parallel Tachyon.Multilinear

variable {F : Type*} [Field F]

/-! ### The prover's messages -/

theorem mulRun_eq (g : ℕ → F) (step : F) : ∀ (k a : ℕ) (s : F),
    mulRun ((List.range' a k).map g) s step =
      (List.range' a k).map fun j => g j * (s + ((j : F) - a) * step)
  | 0, _, _ => rfl
  | k + 1, a, s => by
    rw [List.range'_succ, List.map_cons, mulRun, mulRun_eq g step k, List.map_cons, sub_self, zero_mul, add_zero]
    congr 1
    refine List.map_congr_left fun j _ => ?_
    push_cast
    ring

theorem get_eq (t : List F) (i : ℕ) : Multilinear.get t i = t.getD i 0 := by
  unfold Multilinear.get
  split
  · rfl
  · next h => rw [List.getD_eq_default _ _ (by omega)]

theorem evalTerm_eq {tabs : List (List F)} {k j : ℕ} : ∀ (indexes : List ℕ) (g : ℕ → F),
    (∀ ix ∈ indexes, ix < tabs.length) →
    evalTerm tabs j ((List.range k).map g) indexes =
      some ((List.range k).map fun q => g q * (indexes.map fun ix => foldT (q : F) (tab tabs) ix j).prod)
  | [], g, _ => by simp [evalTerm]
  | ix :: indexes, g, h => by
    have h1 := h ix (by simp)
    have ih := evalTerm_eq (k := k) (j := j) indexes (fun q => g q * foldT (q : F) (tab tabs) ix j)
      (fun ix' hix' => h ix' (by simp [hix']))
    unfold evalTerm at ih ⊢
    rw [List.foldlM_cons, List.getElem?_eq_getElem h1]
    rw [Option.map_some, Option.bind_eq_bind, Option.bind_some, get_eq, get_eq]
    rw [List.range_eq_range', mulRun_eq, ← List.range_eq_range']
    have hstep : ((List.range k).map fun q : ℕ => g q * (tabs[ix].getD (2 * j) 0 +
        ((q : F) - ((0 : ℕ) : F)) * (tabs[ix].getD (2 * j + 1) 0 - tabs[ix].getD (2 * j) 0))) =
        (List.range k).map fun q => g q * foldT (q : F) (tab tabs) ix j := by
      refine List.map_congr_left fun q _ => ?_
      simp only [foldT, fold1, tab, List.getD_eq_getElem tabs _ h1, Nat.cast_zero, sub_zero]
    rw [hstep, ih]
    simp only [List.map_cons, List.prod_cons, mul_assoc]

theorem zipWith_vec (k : ℕ) (g h : ℕ → F) :
    List.zipWith (· + ·) ((List.range k).map g) ((List.range k).map h) = (List.range k).map fun j => g j + h j := by
  rw [List.zipWith_map, List.zipWith_self]

theorem roundVertex_eq {p : Prover F} {i : ℕ} (h : ∀ t ∈ p.terms, ∀ ix ∈ t.indexes, ix < p.tabs.length)
    (g : ℕ → F) : roundVertex p ((List.range (p.maxEvals + 1)).map g) i =
      some ((List.range (p.maxEvals + 1)).map fun j : ℕ =>
        g j + (p.terms.map (termVal (foldT (j : F) (tab p.tabs)) i)).sum) := by
  unfold roundVertex
  generalize p.terms = ts at *
  induction ts generalizing g with
  | nil => simp
  | cons t ts ih =>
    rw [List.foldlM_cons]
    have : List.replicate (p.maxEvals + 1) t.coeff = (List.range (p.maxEvals + 1)).map fun _ => t.coeff := by simp
    rw [this, evalTerm_eq _ _ (h t (by simp)), Option.map_some, Option.bind_eq_bind, Option.bind_some, zipWith_vec,
      ih _ fun t' ht' => h t' (by simp [ht'])]
    congr 1
    refine List.map_congr_left fun j _ => ?_
    simp only [List.map_cons, List.sum_cons, termVal]
    ring

theorem roundChunk_eq {p : Prover F} (h : ∀ t ∈ p.terms, ∀ ix ∈ t.indexes, ix < p.tabs.length) :
    ∀ (l : List ℕ) (g : ℕ → F), l.foldlM (roundVertex p) ((List.range (p.maxEvals + 1)).map g) =
      some ((List.range (p.maxEvals + 1)).map fun j : ℕ =>
        g j + (l.map fun i => (p.terms.map (termVal (foldT (j : F) (tab p.tabs)) i)).sum).sum)
  | [], g => by simp
  | i :: l, g => by
    rw [List.foldlM_cons, roundVertex_eq h, Option.bind_eq_bind, Option.bind_some, roundChunk_eq h l]
    congr 1
    refine List.map_congr_left fun j _ => ?_
    rw [List.map_cons, List.sum_cons]
    ring

theorem merge_vec (k : ℕ) : ∀ (l : List (ℕ → F)) (g : ℕ → F),
    (l.map fun g => (List.range k).map g).foldl (fun acc x => List.zipWith (· + ·) acc x) ((List.range k).map g) =
      (List.range k).map fun j => g j + (l.map fun g => g j).sum
  | [], g => by simp
  | h :: l, g => by
    rw [List.map_cons, List.foldl_cons, zipWith_vec, merge_vec k l]
    refine List.map_congr_left fun j _ => ?_
    rw [List.map_cons, List.sum_cons]
    ring

/-- The message a prover with tables `T` has to send when `m` variables remain after the current one. -/
def message (ts : List (Term F)) (d m : ℕ) (T : ℕ → ℕ → F) : List F :=
  (List.range (d + 1)).map fun j : ℕ => gsum ts m (foldT (j : F) T)

theorem message_congr {ts : List (Term F)} {d m : ℕ} {T T' : ℕ → ℕ → F}
    (h : ∀ t ∈ ts, ∀ ix ∈ t.indexes, ∀ i < 2 ^ (m + 1), T ix i = T' ix i) :
    message ts d m T = message ts d m T' := by
  unfold message
  refine List.map_congr_left fun j _ => gsum_congr fun t ht ix hix i hi => ?_
  rw [Nat.pow_succ] at h
  simp only [foldT, fold1]
  rw [h t ht ix hix (2 * i) (by omega), h t ht ix hix (2 * i + 1) (by omega)]

theorem send_eq {threads maxDegree m : ℕ} {p : Prover F} (ht : 0 < threads) (hth : threads ≤ 2 ^ 62) (hm : m ≤ 62)
    (hr : p.numVars = p.round + 1 + m) (hdeg : p.maxEvals ≤ maxDegree)
    (h : ∀ t ∈ p.terms, ∀ ix ∈ t.indexes, ix < p.tabs.length) :
    p.send threads maxDegree = some (message p.terms p.maxEvals m (tab p.tabs), { p with round := p.round + 1 }) := by
  have hp : 2 ^ m ≤ 2 ^ 62 := Nat.pow_le_pow_right (by omega) hm
  have hpos : 0 < 2 ^ m := by positivity
  unfold Prover.send
  rw [if_pos (by omega), show p.numVars - (p.round + 1) = m by omega]
  obtain ⟨l, h1, h2⟩ := mapSize_eq (th := 16 * threads) (size := 2 ^ m) (threads := threads)
    (f := fun len offset size => (List.range' (offset * size) len).foldlM (roundVertex p)
      (List.replicate (p.maxEvals + 1) 0))
    (fun c => c.foldlM (roundVertex p) (List.replicate (p.maxEvals + 1) 0)) ht (by omega) (by omega)
    (fun _ _ _ => rfl)
  have hrep : List.replicate (p.maxEvals + 1) (0 : F) = (List.range (p.maxEvals + 1)).map fun _ => 0 := by simp
  rw [mapM_some' (w := fun c => (List.range (p.maxEvals + 1)).map fun j : ℕ =>
    (c.map fun i => (p.terms.map (termVal (foldT (j : F) (tab p.tabs)) i)).sum).sum) fun c _ => by
      rw [hrep, roundChunk_eq h]; simp only [zero_add]] at h2
  rw [h2]
  obtain ⟨c, l, rfl⟩ : ∃ c l', l = c :: l' := by
    cases l with
    | nil =>
      have := congrArg List.length h1
      simp at this
      omega
    | cons c l => exact ⟨c, l, rfl⟩
  rw [List.map_cons]
  simp only
  rw [if_pos hdeg]
  congr 2
  have := merge_vec (p.maxEvals + 1) (l.map fun c (j : ℕ) =>
    (c.map fun i => (p.terms.map (termVal (foldT (j : F) (tab p.tabs)) i)).sum).sum)
    (fun j : ℕ => (c.map fun i => (p.terms.map (termVal (foldT (j : F) (tab p.tabs)) i)).sum).sum)
  rw [List.map_map] at this
  refine this.trans ?_
  unfold message gsum
  refine List.map_congr_left fun j _ => ?_
  rw [← sum_range_list, ← h1, ← sum_flatten, List.map_map, List.map_cons, List.sum_cons]
  rfl

theorem tab_fix {tabs : List (List F)} {m ix i : ℕ} {r : F} (hix : ix < tabs.length) (hi : i < 2 ^ m) :
    tab (tabs.map fun e => (List.range (2 ^ m)).map (foldAll [r] fun j => e.getD j 0)) ix i =
      foldT r (tab tabs) ix i := by
  simp only [tab, foldT, foldAll]
  rw [List.getD_eq_getElem (List.map _ tabs) _ (by simpa using hix), List.getElem_map,
    List.getD_eq_getElem (List.map _ (List.range _)) _ (by simpa using hi), List.getElem_map, List.getElem_range]
  congr 1
  funext j
  rw [tab, List.getD_eq_getElem tabs _ hix]

variable [DecidableEq F]

omit [DecidableEq F] in
theorem receive_eq {threads maxDegree m : ℕ} {p : Prover F} (r : F) (ht : 0 < threads) (hth : threads ≤ 2 ^ 62)
    (hm : m ≤ 61) (hr0 : p.round ≠ 0) (hr : p.numVars = p.round + 1 + m) (hdeg : p.maxEvals ≤ maxDegree)
    (hl : ∀ e ∈ p.tabs, e.length = 2 ^ (m + 2))
    (h : ∀ t ∈ p.terms, ∀ ix ∈ t.indexes, ix < p.tabs.length) :
    ∃ p', p.receive threads maxDegree r = some (message p.terms p.maxEvals m (foldT r (tab p.tabs)), p') ∧
      p'.round = p.round + 1 ∧ p'.numVars = p.numVars ∧ p'.maxEvals = p.maxEvals ∧ p'.terms = p.terms ∧
      p'.tabs.length = p.tabs.length ∧ (∀ e ∈ p'.tabs, e.length = 2 ^ (m + 1)) ∧
      ∀ ix < p.tabs.length, ∀ i < 2 ^ (m + 1), tab p'.tabs ix i = foldT r (tab p.tabs) ix i := by
  unfold Prover.receive
  rw [if_neg hr0, mapM_some' (w := fun e => (List.range (2 ^ (m + 1))).map (foldAll [r] fun j => e.getD j 0))
    fun e he => by
      rw [fixVariables_eq (n := m + 2) (by omega) (hl e he) (by simp)]
      rfl]
  simp only
  have hs := send_eq (maxDegree := maxDegree) (m := m) (p := { p with
    randomness := p.randomness ++ [r],
    tabs := p.tabs.map fun e => (List.range (2 ^ (m + 1))).map (foldAll [r] fun j => e.getD j 0) })
    ht hth (by omega) hr hdeg (by simpa using h)
  rw [hs]
  refine ⟨⟨p.round + 1, p.numVars, p.maxEvals, p.randomness ++ [r], p.terms,
    p.tabs.map fun e => (List.range (2 ^ (m + 1))).map (foldAll [r] fun j => e.getD j 0)⟩, ?_, rfl, rfl, rfl, rfl, by simp, by simp, fun ix hix i hi => tab_fix hix hi⟩
  congr 2
  exact message_congr fun t ht ix hix i hi => tab_fix (h t ht ix hix) hi

/-- All messages. -/
def honest (ts : List (Term F)) (d : ℕ) : (ℕ → ℕ → F) → List F → List (List F)
  | _, [] => []
  | T, r :: rs => message ts d rs.length T :: honest ts d (foldT r T) rs

omit [DecidableEq F] in
theorem honest_congr {ts : List (Term F)} {d : ℕ} : ∀ (rs : List F) {T T' : ℕ → ℕ → F},
    (∀ t ∈ ts, ∀ ix ∈ t.indexes, ∀ i < 2 ^ rs.length, T ix i = T' ix i) → honest ts d T rs = honest ts d T' rs
  | [], _, _, _ => rfl
  | r :: rs, T, T', h => by
    rw [honest, honest, message_congr h]
    congr 1
    refine honest_congr rs fun t ht ix hix i hi => ?_
    rw [List.length_cons, Nat.pow_succ] at h
    simp only [foldT, fold1]
    rw [h t ht ix hix (2 * i) (by omega), h t ht ix hix (2 * i + 1) (by omega)]

omit [DecidableEq F] in
theorem protocolGo_eq {threads maxDegree : ℕ} (ht : 0 < threads) (hth : threads ≤ 2 ^ 62) :
    ∀ (rs : List F) (p : Prover F) (v : Verifier F) (r : F), rs.length ≤ 62 → p.round ≠ 0 →
    p.numVars = p.round + rs.length → p.maxEvals ≤ maxDegree → (∀ e ∈ p.tabs, e.length = 2 ^ (rs.length + 1)) →
    (∀ t ∈ p.terms, ∀ ix ∈ t.indexes, ix < p.tabs.length) →
    v.polys.length + rs.length ≤ v.numVars →
    ∃ v', protocolGo threads maxDegree p v r rs = some v' ∧ v'.numVars = v.numVars ∧ v'.maxEvals = v.maxEvals ∧
      v'.randomness = v.randomness ++ rs ∧ v'.polys = v.polys ++ honest p.terms p.maxEvals (foldT r (tab p.tabs)) rs
  | [], p, v, r, _, _, _, _, _, _, _ => ⟨v, rfl, rfl, rfl, by simp, by simp [honest]⟩
  | r' :: rs, p, v, r, hl, h0, hn, hd, htab, hix, hv => by
    rw [List.length_cons] at hl hn htab hv
    obtain ⟨p', h1, h2, h3, h4, h5, h6, h7, h8⟩ := receive_eq (m := rs.length) (maxDegree := maxDegree) r ht hth
      (by omega) h0 (by omega) hd htab hix
    have hv' : v.receive (message p.terms p.maxEvals rs.length (foldT r (tab p.tabs))) r' =
        some ⟨v.numVars, v.maxEvals, v.randomness ++ [r'],
          v.polys ++ [message p.terms p.maxEvals rs.length (foldT r (tab p.tabs))]⟩ := by
      unfold Verifier.receive
      rw [if_pos (by omega)]
    obtain ⟨v', g1, g2, g3, g4, g5⟩ := protocolGo_eq (maxDegree := maxDegree) ht hth rs p'
      ⟨v.numVars, v.maxEvals, v.randomness ++ [r'],
          v.polys ++ [message p.terms p.maxEvals rs.length (foldT r (tab p.tabs))]⟩ r' (by omega) (by omega)
      (by omega) (by omega) h7 (by rw [h5, h6]; exact hix) (by simp; omega)
    refine ⟨v', ?_, g2, g3, by rw [g4]; simp, ?_⟩
    · unfold protocolGo
      rw [h1]
      simp only
      rw [hv']
      exact g1
    · rw [g5, h5, h4, honest]
      simp only [List.append_assoc, List.singleton_append]
      congr 2
      refine honest_congr rs fun t ht ix hx i hi => ?_
      have hb := h8 ix (hix t ht ix hx)
      rw [Nat.pow_succ] at hb
      simp only [foldT, fold1] at hb ⊢
      rw [hb (2 * i) (by omega), hb (2 * i + 1) (by omega)]

/-! ### The verifier -/

section verifier
variable {p : ℕ} [CharP F p] {canon : F → ℕ} (hcan : ∀ x, ((canon x : ℕ) : F) = x) (hlt : ∀ x, canon x < p)
  {threads : ℕ} (ht : 0 < threads) (ht' : threads < 128)
include hcan hlt ht ht'

theorem interpolate_message {ts : List (Term F)} {d m : ℕ} (hd : ∀ t ∈ ts, t.indexes.length ≤ d) (hd' : d < 2 ^ 62)
    (T : ℕ → ℕ → F) (r : F) : interpolate canon threads (message ts d m T) r = some (gsum ts m (foldT r T)) := by
  rw [← rpoly_eval]
  have hl : (message ts d m T).length = d + 1 := by simp [message]
  refine interpolate_eq hcan hlt ht ht' (by rw [← List.length_pos_iff]; omega) (by omega) _ ?_ ?_ r
  · rw [hl]
    exact lt_of_le_of_lt Polynomial.degree_le_natDegree
      (by exact_mod_cast Nat.lt_succ_of_le (rpoly_degree ts m T hd))
  · intro i hi
    rw [hl] at hi
    rw [rpoly_eval, message, List.getD_eq_getElem _ _ (by simpa using hi), List.getElem_map, List.getElem_range]

theorem checkLoop_honest {ts : List (Term F)} {d : ℕ} (hd : ∀ t ∈ ts, t.indexes.length ≤ d) (hd' : d < 2 ^ 62)
    (hd1 : 1 ≤ d) : ∀ (rs : List F) (T : ℕ → ℕ → F),
    checkLoop canon threads d (gsum ts rs.length T) (honest ts d T rs) rs =
      some (some (gsum ts 0 fun ix => foldAll rs (T ix)))
  | [], T => rfl
  | r :: rs, T => by
    rw [honest]
    unfold checkLoop
    have hl : (message ts d rs.length T).length = d + 1 := by simp [message]
    rw [if_pos hl]
    have h0 : (message ts d rs.length T)[0]? = some (gsum ts rs.length (foldT 0 T)) := by
      rw [message, List.getElem?_map, List.getElem?_range (by omega)]; simp
    have h1 : (message ts d rs.length T)[1]? = some (gsum ts rs.length (foldT 1 T)) := by
      rw [message, List.getElem?_map, List.getElem?_range (by omega)]; simp
    rw [h0, h1]
    simp only
    rw [if_neg (by rw [List.length_cons, gsum_succ]; simp),
      interpolate_message hcan hlt ht ht' hd hd']
    exact checkLoop_honest hd hd' hd1 rs (foldT r T)

/-! ### Soundness -/

/-- The messages of a strategy against the challenges. -/
def play (σ : List F → List F) : List F → List (List F)
  | [] => []
  | r :: rs => σ [] :: play (fun l => σ (r :: l)) rs

omit [Field F] [DecidableEq F] [CharP F p] hcan hlt ht ht' in
theorem play_eq (σ : List F → List F) (rs : List F) :
    play σ rs = (List.range rs.length).map fun i => σ (rs.take i) := by
  induction rs generalizing σ with
  | nil => rfl
  | cons r rs ih =>
    rw [play, ih, List.length_cons, List.range_succ_eq_map, List.map_cons, List.map_map]
    rfl

omit hcan hlt ht ht' [CharP F p] [DecidableEq F] in
theorem exists_poly [CharP F p] {d : ℕ} (hp : d < p) {e : List F} (hl : e.length = d + 1) :
    ∃ Q : Polynomial F, Q.degree < (d + 1 : ℕ) ∧ ∀ i < d + 1, Q.eval (i : F) = e.getD i 0 := by
  have hinj : Set.InjOn (fun i : ℕ => (i : F)) (Finset.range (d + 1)) := by
    intro a ha b hb hab
    have ha := Finset.mem_range.1 ha
    have hb := Finset.mem_range.1 hb
    exact CharP.natCast_injOn_Iio F p (by simp; omega) (by simp; omega) hab
  refine ⟨Lagrange.interpolate (Finset.range (d + 1)) (fun i : ℕ => (i : F)) fun i => e.getD i 0, ?_, ?_⟩
  · have := Lagrange.degree_interpolate_lt (fun i => e.getD i 0) hinj
    rwa [Finset.card_range] at this
  · intro i hi
    exact Lagrange.eval_interpolate_at_node _ hinj (Finset.mem_range.2 hi)

variable [Fintype F]

open Classical in
omit hcan hlt ht ht' [Field F] [DecidableEq F] [CharP F p] in
/-- The number of vectors of length `n` with a property. -/
noncomputable def count (n : ℕ) (P : List F → Prop) : ℕ :=
  (Finset.univ.filter fun rs : Fin n → F => P (List.ofFn rs)).card

omit [Field F] [CharP F p] hcan hlt ht ht' [DecidableEq F] in
theorem count_zero {n : ℕ} {P : List F → Prop} (h : ∀ rs, ¬ P rs) : count n P = 0 := by
  classical
  unfold count
  rw [Finset.card_eq_zero, Finset.filter_eq_empty_iff]
  exact fun rs _ => h _

omit [Field F] [CharP F p] hcan hlt ht ht' [DecidableEq F] in
theorem count_le (n : ℕ) (P : List F → Prop) : count n P ≤ Fintype.card F ^ n := by
  classical
  unfold count
  refine (Finset.card_filter_le _ _).trans (le_of_eq ?_)
  rw [Finset.card_univ, Fintype.card_fun, Fintype.card_fin]

omit [Field F] [CharP F p] hcan hlt ht ht' [DecidableEq F] in
theorem count_succ (n : ℕ) (P : List F → Prop) : count (n + 1) P = ∑ r : F, count n fun rs => P (r :: rs) := by
  classical
  unfold count
  simp only [Finset.card_filter]
  rw [← Fintype.sum_prod_type' (f := fun (r : F) (rs : Fin n → F) => if P (r :: List.ofFn rs) then 1 else 0)]
  refine (Fintype.sum_equiv (Fin.consEquiv fun _ => F) _ _ fun x => ?_).symm
  simp [Fin.consEquiv, List.ofFn_succ]

theorem soundness {ts : List (Term F)} {d : ℕ} (hd : ∀ t ∈ ts, t.indexes.length ≤ d) (hd' : d < 2 ^ 62) (hp : d < p) :
    ∀ (n : ℕ) (T : ℕ → ℕ → F) (σ : List F → List F) (claim : F), claim ≠ gsum ts n T →
    count n (fun rs => checkLoop canon threads d claim (play σ rs) rs =
        some (some (gsum ts 0 fun ix => foldAll rs (T ix)))) ≤ n * d * Fintype.card F ^ (n - 1)
  | 0, T, σ, claim, hne => by
    unfold count
    simp only [List.ofFn_zero, play, checkLoop, foldAll, Option.some.injEq]
    rw [Finset.filter_false_of_mem (fun _ _ => hne)]
    simp
  | n + 1, T, σ, claim, hne => by
    rw [count_succ]
    simp only [play]
    rw [Nat.add_sub_cancel]
    by_cases hl : (σ []).length = d + 1
    swap
    · refine le_trans (le_of_eq ?_) (Nat.zero_le _)
      refine Finset.sum_eq_zero fun r _ => ?_
      refine count_zero fun rs => ?_
      unfold checkLoop
      rw [if_neg hl]
      simp
    obtain ⟨Q, hQ, hQv⟩ := exists_poly hp hl
    cases h1 : (σ [])[1]? with
    | none =>
      refine le_trans (le_of_eq ?_) (Nat.zero_le _)
      refine Finset.sum_eq_zero fun r _ => ?_
      refine count_zero fun rs => ?_
      unfold checkLoop
      rw [if_pos hl, h1]
      split
      · next h => cases h
      · simp
    | some b =>
      obtain ⟨a, h0⟩ : ∃ a, (σ [])[0]? = some a := ⟨_, List.getElem?_eq_getElem (by omega)⟩
      by_cases hs : a + b ≠ claim
      · refine le_trans (le_of_eq ?_) (Nat.zero_le _)
        refine Finset.sum_eq_zero fun r _ => ?_
        refine count_zero fun rs => ?_
        unfold checkLoop
        rw [if_pos hl, h1, h0]
        simp only
        rw [if_pos hs]
        simp
      have hd1 : 1 < d + 1 := by rw [← hl]; exact (List.getElem?_eq_some_iff.1 h1).1
      have hstep : ∀ (r : F) (rs : List F),
          checkLoop canon threads d claim (σ [] :: play (fun l => σ (r :: l)) rs) (r :: rs) =
          checkLoop canon threads d (Q.eval r) (play (fun l => σ (r :: l)) rs) rs := by
        intro r rs
        conv_lhs => unfold checkLoop
        rw [if_pos hl, h1, h0]
        simp only
        rw [if_neg hs, interpolate_eq hcan hlt ht ht' (by rw [← List.length_pos_iff]; omega) (by omega) Q
          (by rw [hl]; exact hQ) (fun i hi => hQv i (by omega)) r]
      have hQP : Q ≠ rpoly ts n T := by
        intro he
        apply hne
        rw [gsum_succ, ← rpoly_eval, ← rpoly_eval, ← he]
        have e0 := hQv 0 (by omega)
        have e1 := hQv 1 (by omega)
        rw [List.getD_eq_getElem?_getD, h0, Nat.cast_zero, Option.getD_some] at e0
        rw [List.getD_eq_getElem?_getD, h1, Nat.cast_one, Option.getD_some] at e1
        rw [e0, e1]
        exact (not_not.1 hs).symm
      have hbound : ∀ r : F, count n (fun rs =>
          checkLoop canon threads d claim (σ [] :: play (fun l => σ (r :: l)) rs) (r :: rs) =
            some (some (gsum ts 0 fun ix => foldAll (r :: rs) (T ix)))) ≤
          (if r ∈ (Q - rpoly ts n T).roots.toFinset then Fintype.card F ^ n else 0) +
            n * d * Fintype.card F ^ (n - 1) := by
        intro r
        simp only [hstep]
        by_cases hr : r ∈ (Q - rpoly ts n T).roots.toFinset
        · rw [if_pos hr]
          exact (count_le n _).trans (Nat.le_add_right _ _)
        · rw [if_neg hr, Nat.zero_add]
          refine soundness hd hd' hp n (foldT r T) (fun l => σ (r :: l)) (Q.eval r) fun he => hr ?_
          rw [Multiset.mem_toFinset, Polynomial.mem_roots (sub_ne_zero.2 hQP), Polynomial.IsRoot,
            Polynomial.eval_sub, rpoly_eval, he, sub_self]
      have hroots : (Q - rpoly ts n T).roots.toFinset.card ≤ d := by
        refine (Multiset.toFinset_card_le _).trans ((Polynomial.card_roots' _).trans ?_)
        refine (Polynomial.natDegree_sub_le _ _).trans (max_le ?_ (rpoly_degree ts n T hd))
        rcases eq_or_ne Q 0 with rfl | hQ0
        · simp
        · have := (Polynomial.natDegree_lt_iff_degree_lt hQ0).2 hQ
          omega
      refine (Finset.sum_le_sum fun r _ => hbound r).trans ?_
      rw [Finset.sum_add_distrib, Finset.sum_const, Finset.card_univ, ← Finset.sum_filter, Finset.sum_const,
        Finset.filter_mem_eq_inter, Finset.univ_inter, smul_eq_mul, smul_eq_mul]
      have h1 : (Q - rpoly ts n T).roots.toFinset.card * Fintype.card F ^ n ≤ d * Fintype.card F ^ n :=
        Nat.mul_le_mul_right _ hroots
      have h2 : Fintype.card F * (n * d * Fintype.card F ^ (n - 1)) = n * d * Fintype.card F ^ n := by
        cases n with
        | zero => simp
        | succ n => rw [Nat.add_sub_cancel, pow_succ]; ring
      rw [h2]
      calc _ ≤ d * Fintype.card F ^ n + n * d * Fintype.card F ^ n := Nat.add_le_add_right h1 _
        _ = (n + 1) * d * Fintype.card F ^ n := by ring

end verifier
end Tachyon.Sumcheck
