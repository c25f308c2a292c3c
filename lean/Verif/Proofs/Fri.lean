import Mathlib.Tactic
import Mathlib.Algebra.Polynomial.Expand
import Verif.Spec.Fri
import Verif.Props.Group
import Verif.Proofs.BatchFFT
/-! Lemmas about the FRI protocol. -/
namespace Tachyon.Fri
open Spec Tachyon.Group

variable {K Com Data Prf Inp W S : Type} [Field K] [DecidableEq K]

/-! ### Bit-reversed powers -/

theorem getBitRevPowers_rv {M : Type} [CommMonoid M] [DecidableEq M] {threads k : ℕ} (g c : M)
    {order : List (ℕ × ℕ) → List (ℕ × ℕ)} (horder : ∀ l, (order l).Perm l)
    (ht : 0 < threads ∧ threads ≤ 2 ^ 63) (hk : 0 < k) (hk' : k ≤ 63) :
    getBitRevPowers threads (2 ^ k) g c order =
      some ((List.range (2 ^ k)).map fun i => c * g ^ FFT.rv k i) := by
  obtain ⟨ret, e, hl, hv⟩ := Props.C23_bitRev threads k g c order horder ht.1 ht.2 hk hk'
  rw [e, Option.some.injEq]
  apply List.ext_getElem? 
  intro j
  by_cases hj : j < 2 ^ k
  · obtain ⟨j', hj', hb, e'⟩ := hv (FFT.rv k j) (FFT.rv_lt k j)
    have : j' = j := by
      apply Nat.eq_of_testBit_eq
      intro b
      by_cases hbk : b < k
      · rw [hb b hbk, FFT.testBit_rv, show k - 1 - (k - 1 - b) = b by omega]
        simp [show k - 1 - b < k by omega]
      · rw [Nat.testBit_lt_two_pow (lt_of_lt_of_le hj' (Nat.pow_le_pow_right (by norm_num) (by omega))),
          Nat.testBit_lt_two_pow (lt_of_lt_of_le hj (Nat.pow_le_pow_right (by norm_num) (by omega)))]
    rw [this] at e'
    rw [e']
    simp [hj]
  · rw [List.getElem?_eq_none (by omega), List.getElem?_eq_none (by simp; omega)]

omit [DecidableEq K] in
theorem Env.Good.two_ne {env : Env K} {A : ℕ} {W : K} (h : env.Good A W) (hA : 0 < A) : (2 : K) ≠ 0 := by
  intro h2
  have hp := h.prim.pow_ne_one_of_pos_of_lt (l := 2 ^ (A - 1)) (by positivity)
    (Nat.pow_lt_pow_right (by norm_num) (by omega))
  have h1 := h.prim.pow_eq_one
  rw [show A = A - 1 + 1 by omega, pow_succ, pow_mul] at h1
  have : (W ^ 2 ^ (A - 1) - 1) ^ 2 = 0 := by linear_combination h1 + (1 - W ^ 2 ^ (A - 1)) * h2
  exact hp (sub_eq_zero.1 (pow_eq_zero_iff (by norm_num) |>.1 this))

omit [DecidableEq K] in
theorem Env.Good.ne {env : Env K} {A : ℕ} {W : K} (h : env.Good A W) : W ≠ 0 :=
  h.prim.ne_zero (by positivity)

omit [DecidableEq K] in
theorem foldPair_eq (w b lo hi : K) (w0 : w ≠ 0) (h2 : (2 : K) ≠ 0) :
    foldPair (b * 2⁻¹ * w⁻¹) [lo, hi] = some ((lo + hi) / 2 + b * ((lo - hi) / (2 * w))) := by
  simp only [foldPair, List.getElem?_cons_zero, List.getElem?_cons_succ, Option.bind_some,
    Option.map_some, Option.some.injEq]
  field_simp
  ring

theorem mapM_map_some {α β : Type} (g : α → Option β) (h : α → β) (l : List α)
    (e : ∀ a ∈ l, g a = some (h a)) : l.mapM g = some (l.map h) := by
  induction l with
  | nil => rfl
  | cons a l ih =>
    rw [List.mapM_cons, e a (by simp), ih fun x hx => e x (by simp [hx])]
    rfl

theorem checkedLog2_pow {k : ℕ} (hk : k ≤ 63) : Bits.checkedLog2 (BitVec.ofNat 64 (2 ^ k)) = some k := by
  have h64 : (2 : ℕ) ^ k ≤ 2 ^ 63 := Nat.pow_le_pow_right (by omega) hk
  rw [Props.C53_checkedLog2, BitVec.toNat_ofNat]
  exact Nat.mod_eq_of_lt (by omega)

/-- `FoldMatrix` on the pairs of neighbours of a vector. -/
theorem foldMatrix_eq {env : Env K} {A : ℕ} {W : K} (h : env.Good A W) {k : ℕ} (hk : 0 < k)
    (hkA : k + 1 ≤ A) (b : K) (f : ℕ → K) :
    foldMatrix env b ((List.range (2 ^ k)).map fun r => [f (2 * r), f (2 * r + 1)]) =
      some (vec k (fold (W ^ 2 ^ (A - (k + 1))) k b f)) := by
  have hle := h.le
  have hw : W ^ 2 ^ (A - (k + 1)) ≠ 0 := pow_ne_zero _ h.ne
  rw [foldMatrix, List.length_map, List.length_range, checkedLog2_pow (by omega), Option.bind_some,
    h.root _ hkA, Option.bind_some, if_neg hw,
    getBitRevPowers_rv _ _ h.order h.threads hk (by omega), Option.bind_some,
    List.zip_map', vec, List.mapM_map]
  refine mapM_map_some _ _ _ fun r _ => ?_
  have := foldPair_eq ((W ^ 2 ^ (A - (k + 1))) ^ FFT.rv k r) b (f (2 * r)) (f (2 * r + 1))
    (pow_ne_zero _ hw) (h.two_ne (by omega))
  rw [Function.comp_apply, fold, ← this, inv_pow]

/-- `FoldRow` on a pair of neighbours. -/
theorem foldRow_eq {env : Env K} {A : ℕ} {W : K} (h : env.Good A W) {k : ℕ} (hk : 0 < k)
    (hkA : k + 1 ≤ A) (b : K) (f : ℕ → K) {r : ℕ} (hr : r < 2 ^ k) :
    foldRow env r k b [f (2 * r), f (2 * r + 1)] = some (fold (W ^ 2 ^ (A - (k + 1))) k b f r) := by
  have hle := h.le
  have hw : W ^ 2 ^ (A - (k + 1)) ≠ 0 := pow_ne_zero _ h.ne
  obtain ⟨x, e, hx⟩ := FFT.reverseBitsLen_rv hk (by omega : k ≤ 64) hr
  have := foldPair_eq ((W ^ 2 ^ (A - (k + 1))) ^ FFT.rv k r) b (f (2 * r)) (f (2 * r + 1))
    (pow_ne_zero _ hw) (h.two_ne (by omega))
  rw [foldRow, h.root _ hkA, Option.bind_some, if_neg hw, e, Option.bind_some, hx, fold, ← this, inv_pow,
    mul_comm]

omit [Field K] [DecidableEq K] in
theorem pairs_eq (m : ℕ) (f : ℕ → K) :
    pairs ((List.range (2 * m)).map f) = some ((List.range m).map fun r => [f (2 * r), f (2 * r + 1)]) := by
  induction m generalizing f with
  | zero => rfl
  | succ m ih =>
    rw [show 2 * (m + 1) = 2 * m + 1 + 1 by ring, List.range_succ_eq_map, List.range_succ_eq_map,
      List.map_cons, List.map_map, List.map_cons, List.map_map, pairs]
    have := ih (fun x => f (x + 2))
    rw [show ((f ∘ Nat.succ) ∘ Nat.succ) = fun x => f (x + 2) from rfl, this, Option.map_some,
      List.range_succ_eq_map, List.map_cons, List.map_map]
    rfl

omit [Field K] [DecidableEq K] in
theorem vec_pairs (n : ℕ) (f : ℕ → K) :
    pairs (vec (n + 1) f) = some ((List.range (2 ^ n)).map fun r => [f (2 * r), f (2 * r + 1)]) := by
  rw [vec, pow_succ, mul_comm, pairs_eq]

omit [Field K] [DecidableEq K] in
theorem length_vec (n : ℕ) (f : ℕ → K) : (vec n f).length = 2 ^ n := by simp [vec]

omit [DecidableEq K] in
theorem addInputs_eq (inputs : List (ℕ × (ℕ → K))) (k : ℕ) (f : ℕ → K) :
    addInputs (inputs.map fun p => vec p.1 p.2) (vec k f) = vec k fun i => f i + inputAt inputs k i := by
  induction inputs generalizing f with
  | nil => simp [addInputs, inputAt]
  | cons p l ih =>
    rw [addInputs, List.map_cons, List.foldl_cons, ← addInputs]
    by_cases hp : p.1 = k
    · rw [if_pos (by rw [length_vec, length_vec, hp])]
      have : List.zipWith (· + ·) (vec k f) (vec p.1 p.2) = vec k fun i => f i + p.2 i := by
        rw [hp, vec, vec, vec, List.zipWith_map]
        simp
      rw [this, ih]
      congr 1
      funext i
      simp [inputAt, hp]
      ring
    · rw [if_neg, ih]
      · congr 1
        funext i
        simp [inputAt, hp]
      · rw [length_vec, length_vec]
        exact fun e => hp (Nat.pow_right_injective (le_refl 2) e)

/-! ### The prover -/

/-- The commitments and the prover data of an honest run from the vector `f` of `2^n` values. -/
inductive Run (mmcs : Mmcs K Com Data Prf) (A : ℕ) (W : K) (inputs : List (ℕ × (ℕ → K))) :
    ℕ → (ℕ → K) → List K → List Com → List Data → Prop
  | nil (n : ℕ) (f : ℕ → K) : Run mmcs A W inputs n f [] [] []
  | cons {n : ℕ} {f : ℕ → K} {b : K} {bs : List K} {c : Com} {cs : List Com} {d : Data} {ds : List Data}
      (h : ∀ r < 2 ^ n, ∃ p, mmcs.openAt r d = some ([[f (2 * r), f (2 * r + 1)]], p) ∧
        mmcs.verify c [2 ^ n] r [[f (2 * r), f (2 * r + 1)]] p = true)
      (t : Run mmcs A W inputs n (fun i => fold (W ^ 2 ^ (A - (n + 1))) n b f i + inputAt inputs n i)
        bs cs ds) : Run mmcs A W inputs (n + 1) f (b :: bs) (c :: cs) (d :: ds)

theorem commitLoop_eq {env : Env K} {A : ℕ} {W' : K} (h : env.Good A W') {mmcs : Mmcs K Com Data Prf}
    (hm : mmcs.Lawful) (ch : Chal K Com W S) {b : ℕ} (hb : 0 < b) (inputs : List (ℕ × (ℕ → K)))
    (j : ℕ) : ∀ (fuel : ℕ) (_ : j < fuel) (_ : b + j ≤ A) (f : ℕ → K) (s : S),
    ∃ cs ds, commitLoop env mmcs ch (2 ^ b) (inputs.map fun p => vec p.1 p.2) fuel (vec (b + j) f) s =
        some (⟨cs, ds, vec b (rounds A W' inputs (b + j) f (sampleBetas ch cs s).1)⟩,
          (sampleBetas ch cs s).2) ∧ cs.length = j ∧
      Run mmcs A W' inputs (b + j) f (sampleBetas ch cs s).1 cs ds := by
  induction j with
  | zero =>
    rintro (_ | fuel) hf hA f s
    · omega
    refine ⟨[], [], ?_, rfl, .nil _ _⟩
    rw [commitLoop, if_pos (by rw [length_vec]; rfl)]
    rfl
  | succ j ih =>
    rintro (_ | fuel) hf hA f s
    · omega
    have hle := h.le
    obtain ⟨c, d, e1, e2, e3⟩ := hm.commit (b + j)
      ((List.range (2 ^ (b + j))).map fun r => [f (2 * r), f (2 * r + 1)]) (by omega) (by simp) (by
        intro r hr
        obtain ⟨x, -, rfl⟩ := List.mem_map.1 hr
        rfl)
    obtain ⟨cs, ds, i1, i2, i3⟩ := ih fuel (by omega) (by omega)
      (fun i => fold (W' ^ 2 ^ (A - (b + j + 1))) (b + j) (ch.sampleExt (ch.observeCom c s)).1 f i +
        inputAt inputs (b + j) i) (ch.sampleExt (ch.observeCom c s)).2
    refine ⟨c :: cs, d :: ds, ?_, by rw [List.length_cons, i2], ?_⟩
    · have hlt : (2 : ℕ) ^ b < 2 ^ (b + (j + 1)) := Nat.pow_lt_pow_right (by norm_num) (by omega)
      rw [commitLoop, if_neg (by rw [length_vec]; omega), ← Nat.add_assoc, vec_pairs, Option.bind_some, e1,
        Option.bind_some, e2]
      simp only [List.getLast?_singleton, Option.bind_some]
      rw [foldMatrix_eq h (by omega) (by omega), Option.bind_some, addInputs_eq, i1]
      rfl
    · exact .cons (fun r hr => by
        obtain ⟨p, h1, h2⟩ := e3 r (by simpa using hr)
        simp only [List.getElem_map, List.getElem_range] at h1 h2
        exact ⟨p, h1, h2⟩) i3

/-! ### The verifier -/

theorem xor_one_mod_two (i : ℕ) : (i ^^^ 1) % 2 = 1 - i % 2 := by
  have h := Nat.xor_mod_two_pow (a := i) (b := 1) (n := 1)
  rw [pow_one] at h
  rw [h]
  rcases Nat.mod_two_eq_zero_or_one i with h | h <;> rw [h] <;> rfl

omit [Field K] [DecidableEq K] in
theorem evalsAt_eq (f : ℕ → K) (i : ℕ) (x : K)
    (h : [f (2 * (i / 2)), f (2 * (i / 2) + 1)][(i ^^^ 1) % 2]? = some x) :
    evalsAt i (f i) x = [f (2 * (i / 2)), f (2 * (i / 2) + 1)] := by
  rw [xor_one_mod_two] at h
  rw [evalsAt, xor_one_mod_two]
  rcases Nat.mod_two_eq_zero_or_one i with e | e
  · rw [e] at h ⊢
    have : 2 * (i / 2) = i := by omega
    rw [this] at h ⊢
    simp at h
    simp [h]
  · rw [e] at h ⊢
    have : 2 * (i / 2) + 1 = i := by omega
    rw [this] at h ⊢
    simp at h
    simp [h]

/-- Heights in strictly decreasing order. -/
def Desc (l : List (ℕ × (ℕ → K))) : Prop := l.Pairwise fun p q => q.1 < p.1

/-- The reduced openings at place `i` of a vector of `2^n` values. -/
def openings (n i : ℕ) (l : List (ℕ × (ℕ → K))) : List (ℕ × K) :=
  l.map fun p => (p.1, p.2 (i / 2 ^ (n - p.1)))

omit [DecidableEq K] in
theorem inputAt_zero {l : List (ℕ × (ℕ → K))} {k : ℕ} (h : ∀ p ∈ l, p.1 ≠ k) (i : ℕ) :
    inputAt l k i = 0 := by
  rw [inputAt, List.filter_eq_nil_iff.2]
  · rfl
  · intro p hp
    simpa using h p hp

/-- The inputs below a height. -/
def low (n : ℕ) (l : List (ℕ × (ℕ → K))) : List (ℕ × (ℕ → K)) := l.filter fun p => p.1 < n

omit [Field K] [DecidableEq K] in
theorem mem_low {n : ℕ} {l : List (ℕ × (ℕ → K))} {p : ℕ × (ℕ → K)} :
    p ∈ low n l ↔ p ∈ l ∧ p.1 < n := by
  simp [low]

omit [Field K] [DecidableEq K] in
theorem desc_low {l : List (ℕ × (ℕ → K))} (h : Desc l) (n : ℕ) : Desc (low n l) :=
  List.Pairwise.filter _ h

omit [DecidableEq K] in
theorem inputAt_low {k n : ℕ} (h : k < n) (l : List (ℕ × (ℕ → K))) : inputAt l k = inputAt (low n l) k := by
  funext i
  rw [inputAt, inputAt, low, List.filter_filter]
  congr 2
  refine List.filter_congr fun p _ => ?_
  by_cases hp : p.1 = k <;> simp [hp, h]

omit [DecidableEq K] in
theorem takeOpening_eq {n i : ℕ} {rem : List (ℕ × (ℕ → K))} (hd : Desc rem) (hle : ∀ p ∈ rem, p.1 ≤ n)
    (x : K) : takeOpening n x (openings n i rem) =
        (x + inputAt rem n i, openings (n - 1) (i / 2) (low n rem)) := by
  have key : ∀ l : List (ℕ × (ℕ → K)), (∀ p ∈ l, p.1 < n) →
      openings n i l = openings (n - 1) (i / 2) (low n l) := by
    intro l hl
    rw [low, List.filter_eq_self.2 fun p hp => by simpa using hl p hp]
    refine List.map_congr_left fun p hp => ?_
    have := hl p hp
    rw [Nat.div_div_eq_div_mul, ← pow_succ', show n - 1 - p.1 + 1 = n - p.1 by omega]
  cases rem with
  | nil => simp [openings, takeOpening, inputAt, low]
  | cons p l =>
    obtain ⟨h1, h2⟩ := List.pairwise_cons.1 hd
    by_cases hp : p.1 = n
    · have hl : ∀ q ∈ l, q.1 < n := fun q hq => hp ▸ h1 q hq
      have hlow : low n (p :: l) = low n l := by
        rw [low, List.filter_cons_of_neg (by simp; omega), low]
      rw [hlow, ← key l hl]
      have : inputAt (p :: l) n i = p.2 i := by
        have := inputAt_zero (l := l) (k := n) (fun q hq => (hl q hq).ne) i
        rw [inputAt] at this ⊢
        rw [List.filter_cons_of_pos (by simpa using hp), List.map_cons, List.sum_cons, this, add_zero]
      rw [this, openings, List.map_cons, takeOpening, if_pos hp, hp]
      simp [openings]
    · have hlt : ∀ q ∈ p :: l, q.1 < n := by
        intro q hq
        have := hle p (by simp)
        rcases List.mem_cons.1 hq with rfl | hq
        · omega
        · have := h1 q hq
          omega
      rw [← key _ hlt, inputAt_zero (fun q hq => (hlt q hq).ne), add_zero, openings, List.map_cons,
        takeOpening, if_neg hp]

/-- The verifier follows an honest run. -/
theorem verifySteps_honest {env : Env K} {A : ℕ} {W' : K} (h : env.Good A W')
    {mmcs : Mmcs K Com Data Prf} {b : ℕ} (hb : 0 < b) {inputs : List (ℕ × (ℕ → K))} {n : ℕ} {f : ℕ → K}
    {bs : List K} {cs : List Com} {ds : List Data} (hrun : Run mmcs A W' inputs n f bs cs ds) :
    ∀ (_ : n = b + cs.length) (_ : n ≤ A) (j index : ℕ) (_ : index / 2 ^ j < 2 ^ n) (g : ℕ → K)
      (rem : List (ℕ × (ℕ → K))) (_ : Desc rem) (_ : ∀ p ∈ rem, p.1 ≤ n ∧ b < p.1)
      (_ : ∀ i < 2 ^ n, f i = g i + inputAt rem n i) (_ : ∀ k < n, inputAt inputs k = inputAt rem k),
    ∃ as, (ds.zipIdx j).mapM (fun d => answerStep mmcs index d.2 d.1) = some as ∧
      ∃ steps, mkSteps bs cs as = some steps ∧
        verifySteps env mmcs (2 ^ b) (n + j) steps j (index / 2 ^ j) (g (index / 2 ^ j))
          (openings n (index / 2 ^ j) rem) =
        some (rounds A W' inputs n f bs (index / 2 ^ j / 2 ^ (n - b))) := by
  induction hrun with
  | nil n f =>
    intro hn hA j index hi g rem hd hrem hf hin
    obtain rfl : n = b := by simpa using hn
    have : rem = [] := List.eq_nil_iff_forall_not_mem.2 fun p hp => by
      have := hrem p hp
      omega
    subst this
    refine ⟨[], rfl, [], rfl, ?_⟩
    rw [verifySteps, if_pos ⟨hi, rfl⟩, rounds, Nat.sub_self, pow_zero, Nat.div_one, hf _ hi]
    simp [inputAt]
  | @cons n f b' bs c cs d ds hrow t ih =>
    intro hn hA j index hi g rem hd hrem hf hin
    rw [List.length_cons] at hn
    have e1 := takeOpening_eq (i := index / 2 ^ j) hd (fun p hp => (hrem p hp).1) (g (index / 2 ^ j))
    have hi2 : index / 2 ^ j / 2 < 2 ^ n := by
      rw [Nat.div_lt_iff_lt_mul (by norm_num), ← pow_succ]
      exact hi
    have hdd : index / 2 ^ j / 2 = index / 2 ^ (j + 1) := by
      rw [Nat.div_div_eq_div_mul, ← pow_succ]
    obtain ⟨p, o1, o2⟩ := hrow _ hi2
    obtain ⟨x, hx⟩ : ∃ x, [f (2 * (index / 2 ^ j / 2)), f (2 * (index / 2 ^ j / 2) + 1)][
        (index / 2 ^ j ^^^ 1) % 2]? = some x := by
      rw [xor_one_mod_two]
      rcases Nat.mod_two_eq_zero_or_one (index / 2 ^ j) with h | h <;> rw [h] <;> simp
    obtain ⟨as, a1, steps, a2, a3⟩ := ih (by omega) (by omega) (j + 1) index (by rw [← hdd]; exact hi2)
      (fold (W' ^ 2 ^ (A - (n + 1))) n b' f) (low (n + 1) rem) (desc_low hd _)
      (fun q hq => ⟨by have := (mem_low.1 hq).2; omega, (hrem q (mem_low.1 hq).1).2⟩)
      (fun i _ => by rw [hin n (by omega), inputAt_low (n := n + 1) (by omega)])
      (fun k hk => by rw [hin k (by omega), inputAt_low (n := n + 1) (by omega)])
    refine ⟨(x, p) :: as, ?_, ⟨b', c, x, p⟩ :: steps, ?_, ?_⟩
    · rw [List.zipIdx_cons, List.mapM_cons]
      have : answerStep mmcs index j d = some (x, p) := by
        rw [answerStep, o1]
        simp only [Option.bind_some, List.length_cons, List.length_nil, ne_eq]
        rw [if_neg (by simp), hx]
        rfl
      simp only [this, a1]
      rfl
    · rw [mkSteps, a2]
      rfl
    · rw [verifySteps]
      simp only
      rw [show n + 1 + j - j - 1 = n by omega, e1]
      simp only
      rw [← hf _ hi, evalsAt_eq f _ _ hx, if_pos o2, foldRow_eq h (by omega) (by omega) _ _ hi2,
        Option.bind_some, hdd, show n + 1 + j = n + (j + 1) by ring]
      rw [show n + 1 - 1 = n by omega, a3, rounds]
      congr 2
      rw [← hdd, Nat.div_div_eq_div_mul, ← pow_succ', show n - b + 1 = n + 1 - b by omega]

/-- The queries of an honest run, and the verifier's loop over them. -/
theorem queryLoop_honest {env : Env K} {A : ℕ} {W' : K} (h : env.Good A W')
    {mmcs : Mmcs K Com Data Prf} {ch : Chal K Com W S} (hch : ch.Lawful) {cfg : Config}
    (hb : 0 < cfg.logBlowup) {inputs : List (ℕ × (ℕ → K))} {n : ℕ} {f : ℕ → K}
    {bs : List K} {cs : List Com} {ds : List Data} (hrun : Run mmcs A W' inputs n f bs cs ds)
    (hn : n = cfg.logBlowup + cs.length) (hbn : cfg.logBlowup < n) (hnA : n ≤ A) (h32 : n ≤ 32)
    (hd : Desc ((n, f) :: inputs)) (hlow : ∀ p ∈ inputs, cfg.logBlowup < p.1) (dchecks : Bool)
    {openInput : ℕ → Option Inp} {openInput' : ℕ → Inp → Option (List (ℕ × K))}
    (hopen : ∀ i < 2 ^ n, ∃ x, openInput i = some x ∧
      openInput' i x = some (openings n i ((n, f) :: inputs))) (q : ℕ) (s : S) :
    ∃ qs s', queryLoop mmcs ch openInput n ds q s = some (qs, s') ∧ qs.length = q ∧
      verifyLoop env mmcs ch cfg dchecks openInput' n bs cs
          (rounds A W' inputs n f bs 0) qs s =
        some (decide (∀ i ∈ queries ch n q s,
          rounds A W' inputs n f bs (i / 2 ^ (n - cfg.logBlowup)) = rounds A W' inputs n f bs 0)) := by
  induction q generalizing s with
  | zero => exact ⟨[], s, rfl, rfl, by simp [verifyLoop, queries]⟩
  | succ q ih =>
    have hi := hch.bits n s
    obtain ⟨x, x1, x2⟩ := hopen _ hi
    have h32' : (2 : ℕ) ^ n ≤ 2 ^ 32 := Nat.pow_le_pow_right (by norm_num) h32
    obtain ⟨as, a1, steps, a2, a3⟩ := verifySteps_honest h hb hrun hn hnA 0 (ch.sampleBits n s).1
      (by simpa using hi) (fun _ => 0) ((n, f) :: inputs) hd (by
        intro p hp
        rcases List.mem_cons.1 hp with rfl | hp
        · exact ⟨le_refl _, hbn⟩
        · exact ⟨((List.pairwise_cons.1 hd).1 p hp).le, hlow p hp⟩) (by
        intro i _
        have := inputAt_zero (l := inputs) (k := n)
          (fun q hq => ((List.pairwise_cons.1 hd).1 q hq).ne) i
        rw [inputAt] at this ⊢
        rw [List.filter_cons_of_pos (by simp), List.map_cons, List.sum_cons, this]
        simp) (by
        intro k hk
        funext i
        rw [inputAt, inputAt, List.filter_cons_of_neg (by simp; omega)])
    obtain ⟨qs, s', q1, q2, q3⟩ := ih (ch.sampleBits n s).2
    refine ⟨(x, as) :: qs, s', ?_, by rw [List.length_cons, q2], ?_⟩
    · rw [queryLoop, x1, Option.bind_some, answerQuery, a1, Option.bind_some, q1]
      rfl
    · rw [verifyLoop]
      simp only
      have hs : sortedHeights (openings n (ch.sampleBits n s).1 ((n, f) :: inputs)) = true := by
        clear * - hd
        generalize (n, f) :: inputs = l at hd
        induction l with
        | nil => rfl
        | cons p l ih =>
          cases l with
          | nil => rfl
          | cons p' l =>
            obtain ⟨h1, h2⟩ := List.pairwise_cons.1 hd
            have := ih h2
            simp only [openings, List.map_cons, sortedHeights] at this ⊢
            rw [this, Bool.and_true, decide_eq_true_eq]
            exact (h1 p' (by simp)).le
      rw [x2, Option.bind_some, hs, if_neg (by simp), a2, Option.bind_some, verifyQuery,
        Nat.mod_eq_of_lt (by omega)]
      simp only [pow_zero, Nat.div_one, add_zero] at a3
      rw [Config.blowup, a3, Option.bind_some, q3]
      simp only [queries, List.mem_cons, forall_eq_or_imp]
      split
      · next hne =>
        rw [Option.some.injEq, eq_comm, decide_eq_false_iff_not]
        exact fun hh => hne hh.1
      · next hne =>
        rw [not_not] at hne
        simp [hne]

/-! ### Codewords -/

omit [DecidableEq K] in
theorem coeff_parts (p : Polynomial K) : p = Polynomial.expand K 2 (p.contract 2) +
    Polynomial.X * Polynomial.expand K 2 (p.divX.contract 2) := by
  ext n
  rw [Polynomial.coeff_add]
  cases n with
  | zero => simp [Polynomial.coeff_expand, Polynomial.coeff_contract]
  | succ n =>
    rw [Polynomial.coeff_X_mul, Polynomial.coeff_expand (by norm_num), Polynomial.coeff_expand (by norm_num),
      Polynomial.coeff_contract (by norm_num), Polynomial.coeff_contract (by norm_num),
      Polynomial.coeff_divX]
    rcases Nat.even_or_odd n with ⟨m, rfl⟩ | ⟨m, rfl⟩
    · rw [if_neg (by omega), if_pos (by omega), zero_add]
      congr 1
      omega
    · rw [if_pos (by omega), if_neg (by omega), add_zero]
      congr 1
      omega

omit [DecidableEq K] in
theorem eval_parts (p : Polynomial K) (x : K) :
    p.eval x = (p.contract 2).eval (x ^ 2) + x * (p.divX.contract 2).eval (x ^ 2) := by
  conv_lhs => rw [coeff_parts p]
  simp [Polynomial.expand_eval]

omit [DecidableEq K] in
theorem codeword_add {w : K} {n d : ℕ} {f g : ℕ → K} (hf : Codeword w n d f) (hg : Codeword w n d g) :
    Codeword w n d fun i => f i + g i := by
  obtain ⟨p, p1, p2⟩ := hf
  obtain ⟨q, q1, q2⟩ := hg
  exact ⟨p + q, lt_of_le_of_lt (Polynomial.degree_add_le _ _) (max_lt p1 q1), fun i hi => by
    simp only [p2 i hi, q2 i hi, Polynomial.eval_add]⟩

omit [DecidableEq K] in
theorem codeword_smul {w : K} {n d : ℕ} {f : ℕ → K} (hf : Codeword w n d f) (c : K) :
    Codeword w n d fun i => c * f i := by
  obtain ⟨p, p1, p2⟩ := hf
  refine ⟨Polynomial.C c * p, lt_of_le_of_lt ?_ p1, fun i hi => by simp [p2 i hi]⟩
  rw [← Polynomial.smul_eq_C_mul]
  exact Polynomial.degree_smul_le _ _

omit [DecidableEq K] in
theorem codeword_congr {w : K} {n d : ℕ} {f g : ℕ → K} (hf : Codeword w n d f)
    (h : ∀ i < 2 ^ n, f i = g i) : Codeword w n d g := by
  obtain ⟨p, p1, p2⟩ := hf
  exact ⟨p, p1, fun i hi => by rw [← h i hi, p2 i hi]⟩

omit [DecidableEq K] in
theorem degree_contract {p : Polynomial K} {m : ℕ} (hp : p.degree < ((2 * m : ℕ) : WithBot ℕ)) :
    (p.contract 2).degree < m ∧ (p.divX.contract 2).degree < m := by
  rw [Polynomial.degree_lt_iff_coeff_zero] at hp
  constructor <;> rw [Polynomial.degree_lt_iff_coeff_zero] <;> intro i hi <;>
    rw [Polynomial.coeff_contract (by norm_num)]
  · exact hp _ (by omega)
  · rw [Polynomial.coeff_divX]
    exact hp _ (by omega)

omit [DecidableEq K] in
theorem neg_one_of_prim {w : K} {k : ℕ} (hw : IsPrimitiveRoot w (2 ^ (k + 1))) : w ^ 2 ^ k = -1 := by
  have h1 := hw.pow_eq_one
  have h2 := hw.pow_ne_one_of_pos_of_lt (l := 2 ^ k) (by positivity)
    (Nat.pow_lt_pow_right (by norm_num) (by omega))
  rw [pow_succ, pow_mul] at h1
  have : (w ^ 2 ^ k - 1) * (w ^ 2 ^ k + 1) = 0 := by linear_combination h1
  rcases mul_eq_zero.1 this with h | h
  · exact absurd (sub_eq_zero.1 h) h2
  · exact eq_neg_of_add_eq_zero_left h

omit [DecidableEq K] in
theorem codeword_fold {w : K} {k m : ℕ} (hw : IsPrimitiveRoot w (2 ^ (k + 1))) (h2 : (2 : K) ≠ 0)
    {f : ℕ → K} (hf : Codeword w (k + 1) (2 * m) f) (b : K) : Codeword (w ^ 2) k m (fold w k b f) := by
  obtain ⟨p, p1, p2⟩ := hf
  obtain ⟨d1, d2⟩ := degree_contract p1
  refine ⟨p.contract 2 + Polynomial.C b * p.divX.contract 2, ?_, fun r hr => ?_⟩
  · refine lt_of_le_of_lt (Polynomial.degree_add_le _ _) (max_lt d1 (lt_of_le_of_lt ?_ d2))
    rw [← Polynomial.smul_eq_C_mul]
    exact Polynomial.degree_smul_le _ _
  · have w0 : w ^ FFT.rv k r ≠ 0 := pow_ne_zero _ (hw.ne_zero (by positivity))
    have e1 := p2 (2 * r) (by rw [pow_succ]; omega)
    have e2 := p2 (2 * r + 1) (by rw [pow_succ]; omega)
    rw [FFT.rv_even, eval_parts] at e1
    rw [FFT.rv_odd, pow_add, neg_one_of_prim hw, eval_parts] at e2
    rw [fold, e1, e2, Polynomial.eval_add, Polynomial.eval_mul, Polynomial.eval_C,
      pow_right_comm w 2]
    have e3 : (-1 * w ^ FFT.rv k r) ^ 2 = (w ^ FFT.rv k r) ^ 2 := by ring
    rw [e3]
    field_simp
    ring

omit [DecidableEq K] in
theorem codeword_parts {w : K} {k m : ℕ} (hw : IsPrimitiveRoot w (2 ^ (k + 1))) (h2 : (2 : K) ≠ 0)
    {f : ℕ → K} {b b' : K} (hb : b ≠ b') (h : Codeword (w ^ 2) k m (fold w k b f))
    (h' : Codeword (w ^ 2) k m (fold w k b' f)) : Codeword w (k + 1) (2 * m) f := by
  have hs : b - b' ≠ 0 := sub_ne_zero.2 hb
  obtain ⟨o, o1, o2⟩ := codeword_smul (codeword_add h (codeword_smul h' (-1))) (b - b')⁻¹
  obtain ⟨e, e1, e2⟩ := codeword_smul (codeword_add (codeword_smul h' b) (codeword_smul h (-b')))
    (b - b')⁻¹
  refine ⟨Polynomial.expand K 2 e + Polynomial.X * Polynomial.expand K 2 o, ?_, fun i hi => ?_⟩
  · rw [Polynomial.degree_lt_iff_coeff_zero] at *
    intro i hi
    rw [Polynomial.coeff_add, Polynomial.coeff_expand (by norm_num)]
    have : (Polynomial.X * Polynomial.expand K 2 o).coeff i = 0 := by
      cases i with
      | zero => simp
      | succ i =>
        rw [Polynomial.coeff_X_mul, Polynomial.coeff_expand (by norm_num)]
        split
        · exact o1 _ (by omega)
        · rfl
    rw [this, add_zero]
    split
    · exact e1 _ (by omega)
    · rfl
  · have hr : i / 2 < 2 ^ k := by rw [Nat.div_lt_iff_lt_mul (by norm_num), ← pow_succ]; exact hi
    have w0 : w ^ FFT.rv k (i / 2) ≠ 0 := pow_ne_zero _ (hw.ne_zero (by positivity))
    have ho := o2 _ hr
    have he := e2 _ hr
    simp only [fold] at ho he
    rw [pow_right_comm w 2] at ho he
    have ho' : o.eval ((w ^ FFT.rv k (i / 2)) ^ 2) =
        (f (2 * (i / 2)) - f (2 * (i / 2) + 1)) / (2 * w ^ FFT.rv k (i / 2)) := by
      rw [← ho]
      field_simp
      ring
    have he' : e.eval ((w ^ FFT.rv k (i / 2)) ^ 2) = (f (2 * (i / 2)) + f (2 * (i / 2) + 1)) / 2 := by
      rw [← he]
      field_simp
      ring
    simp only [Polynomial.eval_add, Polynomial.eval_mul, Polynomial.eval_X, Polynomial.expand_eval]
    rcases Nat.mod_two_eq_zero_or_one i with hp | hp
    · have e3 : i = 2 * (i / 2) := by omega
      rw [show FFT.rv (k + 1) i = FFT.rv k (i / 2) by conv_lhs => rw [e3, FFT.rv_even], ho', he',
        ← e3]
      field_simp
      ring
    · have e3 : i = 2 * (i / 2) + 1 := by omega
      rw [show FFT.rv (k + 1) i = 2 ^ k + FFT.rv k (i / 2) by conv_lhs => rw [e3, FFT.rv_odd], pow_add,
        neg_one_of_prim hw, show (-1 * w ^ FFT.rv k (i / 2)) ^ 2 = (w ^ FFT.rv k (i / 2)) ^ 2 by ring, ho',
        he', ← e3]
      field_simp
      ring

/-! ### Soundness -/

omit [DecidableEq K] in
theorem codeword_one {w : K} {n : ℕ} {f : ℕ → K} :
    Codeword w n 1 f ↔ ∀ i < 2 ^ n, f i = f 0 := by
  constructor
  · rintro ⟨p, p1, p2⟩ i hi
    rw [Polynomial.eq_C_of_degree_le_zero (p := p) (Nat.WithBot.lt_one_iff_le_zero.1 (by simpa using p1))] at p2
    rw [p2 i hi, p2 0 (by positivity), Polynomial.eval_C, Polynomial.eval_C]
  · intro h
    exact ⟨Polynomial.C (f 0), lt_of_le_of_lt Polynomial.degree_C_le (by norm_num), fun i hi => by
      rw [h i hi, Polynomial.eval_C]⟩

omit [DecidableEq K] in
theorem codeword_inputAt {w : K} {n d : ℕ} {l : List (ℕ × (ℕ → K))}
    (h : ∀ p ∈ l, p.1 = n → Codeword w n d p.2) : Codeword w n d (inputAt l n) := by
  induction l with
  | nil => exact ⟨0, by simp, fun i _ => by simp [inputAt]⟩
  | cons p l ih =>
    have ih := ih fun q hq => h q (by simp [hq])
    by_cases hp : p.1 = n
    · refine codeword_congr (codeword_add (h p (by simp) hp) ih) fun i _ => ?_
      simp [inputAt, hp]
    · refine codeword_congr ih fun i _ => ?_
      simp [inputAt, hp]

omit [DecidableEq K] in
theorem prim_pow {A n : ℕ} {W : K} (h : IsPrimitiveRoot W (2 ^ A)) (hn : n ≤ A) :
    IsPrimitiveRoot (W ^ 2 ^ (A - n)) (2 ^ n) :=
  h.pow (by positivity) (by rw [← pow_add, Nat.sub_add_cancel hn])

omit [DecidableEq K] in
theorem pow_next {A n : ℕ} (W : K) (hn : n + 1 ≤ A) :
    (W ^ 2 ^ (A - (n + 1))) ^ 2 = W ^ 2 ^ (A - n) := by
  rw [← pow_mul, ← pow_succ, show A - (n + 1) + 1 = A - n by omega]

omit [DecidableEq K] in
/-- Codewords fold to codewords. -/
theorem rounds_codeword {A : ℕ} {W : K} (hW : IsPrimitiveRoot W (2 ^ A)) (h2 : (2 : K) ≠ 0) {b : ℕ}
    (inputs : List (ℕ × (ℕ → K)))
    (hin : ∀ p ∈ inputs, b ≤ p.1 → Codeword (W ^ 2 ^ (A - p.1)) p.1 (2 ^ (p.1 - b)) p.2) (bs : List K) :
    ∀ (n : ℕ) (_ : n = b + bs.length) (_ : n ≤ A) (f : ℕ → K)
      (_ : Codeword (W ^ 2 ^ (A - n)) n (2 ^ (n - b)) f),
    Codeword (W ^ 2 ^ (A - b)) b 1 (rounds A W inputs n f bs) := by
  induction bs with
  | nil =>
    rintro n hn hA f hf
    obtain rfl : n = b := by simpa using hn
    simpa [rounds] using hf
  | cons c bs ih =>
    rintro n hn hA f hf
    obtain ⟨k, rfl⟩ : ∃ k, n = k + 1 := ⟨b + bs.length, by rw [hn, List.length_cons]; ring⟩
    rw [List.length_cons] at hn
    rw [rounds, Nat.add_sub_cancel]
    refine ih k (by omega) (by omega) _ (codeword_add ?_ (codeword_inputAt fun p hp e => ?_))
    · rw [show k + 1 - b = k - b + 1 by omega, pow_succ, mul_comm] at hf
      have := codeword_fold (prim_pow hW hA) h2 hf c
      rwa [pow_next W hA] at this
    · obtain rfl := e
      exact hin p hp (by omega)

omit [DecidableEq K] in
/-- Few challenges turn a vector that is no codeword into a constant. -/
theorem card_bad [Fintype K] {A : ℕ} {W : K} (hW : IsPrimitiveRoot W (2 ^ A)) (h2 : (2 : K) ≠ 0) {b : ℕ}
    (j : ℕ) : ∀ (_ : b + j ≤ A) (f : ℕ → K)
      (_ : ¬ Codeword (W ^ 2 ^ (A - (b + j))) (b + j) (2 ^ j) f),
    Nat.card {bs : Fin j → K // ∀ i < 2 ^ b, rounds A W [] (b + j) f (List.ofFn bs) i =
      rounds A W [] (b + j) f (List.ofFn bs) 0} ≤ j * Fintype.card K ^ (j - 1) := by
  classical
  induction j with
  | zero =>
    intro hA f hf
    have : IsEmpty {bs : Fin 0 → K // ∀ i < 2 ^ b, rounds A W [] (b + 0) f (List.ofFn bs) i =
      rounds A W [] (b + 0) f (List.ofFn bs) 0} := ⟨fun ⟨bs, h⟩ => hf (by
        rw [pow_zero, codeword_one]
        simpa [rounds] using h)⟩
    rw [Nat.card_of_isEmpty]
    simp
  | succ j ih =>
    intro hA f hf
    set g : K → ℕ → K := fun c => fold (W ^ 2 ^ (A - (b + j + 1))) (b + j) c f with hg
    set N : K → ℕ := fun c => Nat.card {bs : Fin j → K // ∀ i < 2 ^ b,
      rounds A W [] (b + j) (g c) (List.ofFn bs) i = rounds A W [] (b + j) (g c) (List.ofFn bs) 0} with hN
    have hcard : Nat.card {bs : Fin (j + 1) → K // ∀ i < 2 ^ b,
        rounds A W [] (b + (j + 1)) f (List.ofFn bs) i = rounds A W [] (b + (j + 1)) f (List.ofFn bs) 0} =
        ∑ c, N c := by
      rw [hN]
      simp only
      rw [← Nat.card_sigma]
      refine Nat.card_congr ⟨fun x => ⟨x.1 0, fun i => x.1 i.succ, ?_⟩,
        fun x => ⟨Fin.cons x.1 x.2.1, ?_⟩, ?_, ?_⟩
      · have := x.2
        rw [List.ofFn_succ] at this
        simp only [rounds, inputAt, List.filter_nil, List.map_nil, List.sum_nil, add_zero] at this
        exact this
      · have := x.2.2
        rw [List.ofFn_succ]
        simp only [rounds, inputAt, List.filter_nil, List.map_nil, List.sum_nil, add_zero, Fin.cons_zero,
          Fin.cons_succ]
        exact this
      · intro x
        apply Subtype.ext
        funext i
        refine Fin.cases rfl (fun _ => rfl) i
      · intro x
        rfl
    rw [hcard, Nat.add_sub_cancel]
    set q := Fintype.card K with hq
    have hall : ∀ c, N c ≤ q ^ j := by
      intro c
      refine (Nat.card_le_card_of_injective _ Subtype.val_injective).trans (le_of_eq ?_)
      rw [Nat.card_eq_fintype_card, Fintype.card_fun, Fintype.card_fin]
    have hgood : ∀ c, ¬ Codeword (W ^ 2 ^ (A - (b + j))) (b + j) (2 ^ j) (g c) →
        N c ≤ j * q ^ (j - 1) := fun c hc => ih (by omega) (g c) hc
    by_cases hex : ∃ c, Codeword (W ^ 2 ^ (A - (b + j))) (b + j) (2 ^ j) (g c)
    · obtain ⟨c, hc⟩ := hex
      have hother : ∀ c' ∈ Finset.univ.erase c, N c' ≤ j * q ^ (j - 1) := by
        intro c' hc'
        refine hgood c' fun h => hf ?_
        have hp := pow_next W (by omega : b + j + 1 ≤ A)
        rw [← hp] at h hc
        rw [pow_succ, mul_comm (2 ^ j)]
        exact codeword_parts (prim_pow hW hA) h2 (Finset.ne_of_mem_erase hc') h hc
      rw [← Finset.add_sum_erase _ _ (Finset.mem_univ c)]
      have h1 := Finset.sum_le_card_nsmul _ _ _ hother
      rw [Finset.card_erase_of_mem (Finset.mem_univ c), Finset.card_univ, smul_eq_mul, ← hq] at h1
      have h3 : (q - 1) * (j * q ^ (j - 1)) ≤ j * q ^ j := by
        cases j with
        | zero => simp
        | succ j =>
          rw [Nat.add_sub_cancel, pow_succ]
          calc (q - 1) * ((j + 1) * q ^ j) ≤ q * ((j + 1) * q ^ j) :=
                Nat.mul_le_mul_right _ (Nat.sub_le _ _)
            _ = (j + 1) * (q ^ j * q) := by ring
      calc N c + ∑ x ∈ Finset.univ.erase c, N x ≤ q ^ j + j * q ^ j := by
            exact Nat.add_le_add (hall c) (h1.trans h3)
        _ = (j + 1) * q ^ j := by ring
    · push Not at hex
      have h1 := Finset.sum_le_card_nsmul Finset.univ N _ fun c _ => hgood c (hex c)
      rw [Finset.card_univ, smul_eq_mul, ← hq] at h1
      refine h1.trans ?_
      cases j with
      | zero => simp
      | succ j =>
        rw [Nat.add_sub_cancel, pow_succ]
        calc q * ((j + 1) * q ^ j) = (j + 1) * (q ^ j * q) := by ring
          _ ≤ (j + 1 + 1) * (q ^ j * q) := Nat.mul_le_mul_right _ (by omega)

/-- If the verifier accepts at every place, the rounds end in the constant that it was given. -/
theorem verifySteps_sound {env : Env K} {A : ℕ} {W' : K} (h : env.Good A W')
    {mmcs : Mmcs K Com Data Prf} (hbind : mmcs.Binding) {b : ℕ} (hb : 0 < b)
    {inputs : List (ℕ × (ℕ → K))} {final : K} (bs : List K) :
    ∀ (cs : List Com) (_ : cs.length = bs.length) (n : ℕ) (_ : n = b + cs.length) (_ : n ≤ A) (j : ℕ)
      (f g : ℕ → K) (rem : List (ℕ × (ℕ → K))) (_ : Desc rem) (_ : ∀ p ∈ rem, p.1 ≤ n)
      (_ : ∀ i < 2 ^ n, f i = g i + inputAt rem n i) (_ : ∀ k < n, inputAt inputs k = inputAt rem k)
      (_ : ∀ i < 2 ^ n, ∃ os steps, mkSteps bs cs os = some steps ∧
        verifySteps env mmcs (2 ^ b) (n + j) steps j i (g i) (openings n i rem) = some final),
    ∀ i < 2 ^ b, rounds A W' inputs n f bs i = final := by
  induction bs with
  | nil =>
    intro cs hcs n hn hA j f g rem hd hle hf hin hacc i hi
    obtain rfl := List.length_eq_zero_iff.1 hcs
    obtain rfl : n = b := by simpa using hn
    obtain ⟨os, steps, e1, e2⟩ := hacc i hi
    rw [mkSteps] at e1
    · simp only [Option.some.injEq] at e1
      subst e1
      rw [verifySteps] at e2
      split at e2
      · next hc =>
        have : rem = [] := by simpa [openings] using hc.2
        subst this
        rw [rounds, hf i hi]
        simpa [inputAt] using e2
      · cases e2
    all_goals simp
  | cons β bs ih =>
    intro cs hcs n hn hA j f g rem hd hle hf hin hacc
    obtain ⟨c, cs, rfl⟩ : ∃ c cs', cs = c :: cs' := by
      cases cs with
      | nil => simp at hcs
      | cons c cs => exact ⟨c, cs, rfl⟩
    rw [List.length_cons, List.length_cons] at hcs
    rw [List.length_cons] at hn
    obtain ⟨k, rfl⟩ : ∃ k, n = k + 1 := ⟨b + cs.length, by omega⟩
    have hstep : ∀ i < 2 ^ (k + 1), ∃ x p os steps, mkSteps bs cs os = some steps ∧
        mmcs.verify c [2 ^ k] (i / 2) [evalsAt i (f i) x] p = true ∧
        ∃ v, foldRow env (i / 2) k β (evalsAt i (f i) x) = some v ∧
          verifySteps env mmcs (2 ^ b) (k + (j + 1)) steps (j + 1) (i / 2) v
            (openings k (i / 2) (low (k + 1) rem)) = some final := by
      intro i hi
      obtain ⟨os, steps, e1, e2⟩ := hacc i hi
      cases os with
      | nil => simp [mkSteps] at e1
      | cons o os =>
        rw [mkSteps, Option.map_eq_some_iff] at e1
        obtain ⟨steps', e1, rfl⟩ := e1
        rw [verifySteps] at e2
        simp only at e2
        rw [show k + 1 + j - j - 1 = k by omega, takeOpening_eq hd hle] at e2
        simp only at e2
        rw [← hf i hi] at e2
        split at e2
        · next hv =>
          rw [Option.bind_eq_some_iff] at e2
          obtain ⟨v, v1, v2⟩ := e2
          exact ⟨o.1, o.2, os, steps', e1, hv, v, v1, by
            rw [show k + (j + 1) = k + 1 + j by ring]
            exact v2⟩
        · cases e2
    have hrow : ∀ r < 2 ^ k, ∀ x p, mmcs.verify c [2 ^ k] r [evalsAt (2 * r) (f (2 * r)) x] p = true →
        evalsAt (2 * r) (f (2 * r)) x = [f (2 * r), f (2 * r + 1)] := by
      intro r hr x p hv
      obtain ⟨y, p', -, -, -, hv', -⟩ := hstep (2 * r + 1) (by rw [pow_succ]; omega)
      rw [show (2 * r + 1) / 2 = r by omega] at hv'
      have e1 : evalsAt (2 * r) (f (2 * r)) x = [f (2 * r), x] := by
        rw [evalsAt, xor_one_mod_two, if_neg (by omega)]
      have e2 : evalsAt (2 * r + 1) (f (2 * r + 1)) y = [y, f (2 * r + 1)] := by
        rw [evalsAt, xor_one_mod_two, if_pos (by omega)]
      rw [e1] at hv ⊢
      rw [e2] at hv'
      have := hbind _ _ _ _ _ _ _ hv hv' rfl
      simp only [List.cons.injEq, and_true] at this
      rw [this.2]
    rw [rounds, Nat.add_sub_cancel]
    refine ih cs (by omega) k (by omega) (by omega) (j + 1) _ (fold (W' ^ 2 ^ (A - (k + 1))) k β f)
      (low (k + 1) rem) (desc_low hd _) (fun p hp => by have := (mem_low.1 hp).2; omega)
      (fun i _ => by rw [hin k (by omega), inputAt_low (n := k + 1) (by omega)])
      (fun m hm => by rw [hin m (by omega), inputAt_low (n := k + 1) (by omega)]) fun r hr => ?_
    have hi : 2 * r < 2 ^ (k + 1) := by rw [pow_succ]; omega
    obtain ⟨x, p, os, steps, h1, h3, v, h4, h5⟩ := hstep (2 * r) hi
    rw [show 2 * r / 2 = r by omega] at h3 h4 h5
    rw [hrow r hr x p h3, foldRow_eq h (by omega) hA _ _ hr, Option.some.injEq] at h4
    exact ⟨os, steps, h1, by rw [h4]; exact h5⟩

/-! ### The whole protocol -/

omit [Field K] [DecidableEq K] in
theorem sortedSizes_desc {l : List (ℕ × (ℕ → K))} (h : Desc l) :
    sortedSizes (l.map fun p => vec p.1 p.2) = true := by
  induction l with
  | nil => rfl
  | cons p l ih =>
    cases l with
    | nil => rfl
    | cons p' l =>
      obtain ⟨h1, h2⟩ := List.pairwise_cons.1 h
      have := ih h2
      simp only [List.map_cons, sortedSizes] at this ⊢
      rw [this, Bool.and_true, decide_eq_true_eq, length_vec, length_vec]
      exact Nat.pow_le_pow_right (by norm_num) (h1 p' (by simp)).le

/-- The whole honest run. -/
theorem prove_verify {env : Env K} {A : ℕ} {W' : K} (h : env.Good A W') {mmcs : Mmcs K Com Data Prf}
    (hm : mmcs.Lawful) {ch : Chal K Com W S} (hch : ch.Lawful) {cfg : Config}
    (hgrind : ∀ s, ∃ w s', ch.grind cfg.powBits s = some (w, s')) (hb : 0 < cfg.logBlowup) {n : ℕ}
    {f : ℕ → K} {inputs : List (ℕ × (ℕ → K))} (hbn : cfg.logBlowup < n) (hnA : n ≤ A) (h32 : n ≤ 32)
    (hd : Desc ((n, f) :: inputs)) (hlow : ∀ p ∈ inputs, cfg.logBlowup < p.1)
    {openInput : ℕ → Option Inp} {openInput' : ℕ → Inp → Option (List (ℕ × K))}
    (hopen : ∀ i < 2 ^ n, ∃ x, openInput i = some x ∧
      openInput' i x = some (openings n i ((n, f) :: inputs))) (s : S) (dchecks dchecks' : Bool)
    (hdc : dchecks = true → ∀ bs : List K, bs.length = n - cfg.logBlowup →
      ∀ i < 2 ^ cfg.logBlowup, rounds A W' inputs n f bs i = rounds A W' inputs n f bs 0) :
    ∃ proof s', prove env mmcs ch cfg dchecks (((n, f) :: inputs).map fun p => vec p.1 p.2) openInput s =
        some (proof, s') ∧ proof.commits.length = n - cfg.logBlowup ∧
      proof.final = rounds A W' inputs n f (sampleBetas ch proof.commits s).1 0 ∧
      verify env mmcs ch cfg dchecks' openInput' proof s =
        some (decide (∀ i ∈ queries ch n cfg.numQueries
            (ch.checkWitness cfg.powBits proof.pow
              (ch.observeElem proof.final (sampleBetas ch proof.commits s).2)).2,
          rounds A W' inputs n f (sampleBetas ch proof.commits s).1 (i / 2 ^ (n - cfg.logBlowup)) =
            proof.final)) := by
  have hle := h.le
  obtain ⟨cs, ds, c1, c2, c3⟩ := commitLoop_eq h hm ch hb inputs (n - cfg.logBlowup) 65 (by omega)
    (by omega) f s
  rw [show cfg.logBlowup + (n - cfg.logBlowup) = n by omega] at c1 c3
  have hlen : ∀ (cs : List Com) (s : S), (sampleBetas ch cs s).1.length = cs.length := by
    intro cs
    induction cs with
    | nil => intro s; rfl
    | cons c cs ih => intro s; simp [sampleBetas, ih]
  set bs := (sampleBetas ch cs s).1 with hbs
  obtain ⟨w, t, g1⟩ := hgrind (ch.observeElem (rounds A W' inputs n f bs 0) (sampleBetas ch cs s).2)
  have g2 := hch.grind _ _ _ _ g1
  obtain ⟨qs, s', q1, q2, q3⟩ := queryLoop_honest h hch hb c3 (by omega) hbn hnA h32 hd hlow dchecks'
    hopen cfg.numQueries t
  refine ⟨⟨cs, qs, rounds A W' inputs n f bs 0, w⟩, s', ?_, c2, rfl, ?_⟩
  · have hphase : commitPhase env mmcs ch cfg dchecks (((n, f) :: inputs).map fun p => vec p.1 p.2) s =
        some ((cs, ds, rounds A W' inputs n f bs 0),
          ch.observeElem (rounds A W' inputs n f bs 0) (sampleBetas ch cs s).2) := by
      rw [List.map_cons, commitPhase]
      simp only
      rw [length_vec, checkedLog2_pow (by omega), Option.bind_some, Config.blowup, c1, Option.bind_some,
        if_neg (by simp [length_vec])]
      have h0 : (vec cfg.logBlowup (rounds A W' inputs n f bs))[0]? =
          some (rounds A W' inputs n f bs 0) := by
        rw [vec, List.getElem?_map, List.getElem?_range (by positivity)]
        rfl
      rw [h0, Option.bind_some, if_neg]
      rw [Bool.and_eq_true, not_and]
      intro hdd
      have := hdc hdd bs (by rw [hbs, hlen, c2])
      simpa [vec] using this
    rw [prove, sortedSizes_desc hd, if_neg (by simp)]
    simp only [List.map_cons, List.head?_cons, Option.bind_some]
    rw [length_vec, checkedLog2_pow (by omega), Option.bind_some, ← List.map_cons (f := fun p : ℕ × (ℕ → K) =>
      vec p.1 p.2) (a := (n, f)), hphase, Option.bind_some, g1, Option.bind_some, q1]
    rfl
  · rw [verify]
    simp only
    rw [if_neg (by simp [q2]), g2, if_pos rfl, c2, show n - cfg.logBlowup + cfg.logBlowup = n by omega, q3]

end Tachyon.Fri
