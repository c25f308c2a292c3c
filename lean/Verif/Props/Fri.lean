import Verif.Proofs.Fri
import Verif.Props.MMCS
import Verif.Props.FFT
/-! # C76: the FRI protocol -/
namespace Tachyon.Props
open Tachyon.Fri Tachyon.Fri.Spec

variable {K Com Data Prf Inp W S : Type} [Field K] [DecidableEq K]

/-! ### Folding -/

/-- C76: `FoldMatrix` of the values of a polynomial on a coset in bit-reversed order gives the values of
`p_even + s β p_odd` on the coset of the squares, `s` being the shift of the coset. -/
theorem C76_foldMatrix {env : Env K} {A : ℕ} {W : K} (h : env.Good A W) {k : ℕ} (hk : 0 < k)
    (hkA : k + 1 ≤ A) (beta s : K) (p : Polynomial K) :
    foldMatrix env beta ((List.range (2 ^ k)).map fun r =>
        [p.eval (s * (W ^ 2 ^ (A - (k + 1))) ^ FFT.rv (k + 1) (2 * r)),
          p.eval (s * (W ^ 2 ^ (A - (k + 1))) ^ FFT.rv (k + 1) (2 * r + 1))]) =
      some ((List.range (2 ^ k)).map fun r =>
        (p.contract 2 + Polynomial.C (s * beta) * p.divX.contract 2).eval
          (s ^ 2 * (W ^ 2 ^ (A - k)) ^ FFT.rv k r)) := by
  refine (foldMatrix_eq h hk hkA beta fun i =>
    p.eval (s * (W ^ 2 ^ (A - (k + 1))) ^ FFT.rv (k + 1) i)).trans ?_
  rw [vec, Option.some.injEq]
  refine List.map_congr_left fun r hr => ?_
  have h2 := h.two_ne (by omega)
  have hw := prim_pow h.prim hkA
  have w0 : (W ^ 2 ^ (A - (k + 1))) ^ FFT.rv k r ≠ 0 := pow_ne_zero _ (hw.ne_zero (by positivity))
  rw [Spec.fold, FFT.rv_even, FFT.rv_odd, pow_add, neg_one_of_prim hw, eval_parts p, eval_parts p,
    ← pow_next W hkA, pow_right_comm _ 2, ← mul_pow, Polynomial.eval_add, Polynomial.eval_mul,
    Polynomial.eval_C, show (s * (-1 * (W ^ 2 ^ (A - (k + 1))) ^ FFT.rv k r)) ^ 2 =
      (s * (W ^ 2 ^ (A - (k + 1))) ^ FFT.rv k r) ^ 2 by ring]
  field_simp
  ring

/-- C76: the verifier's `FoldRow` computes the entries of the prover's `FoldMatrix`. -/
theorem C76_foldRow {env : Env K} {A : ℕ} {W : K} (h : env.Good A W) {k : ℕ} (hk : 0 < k)
    (hkA : k + 1 ≤ A) (beta : K) {mat : List (List K)} (hl : mat.length = 2 ^ k)
    (hw : ∀ r ∈ mat, r.length = 2) : ∃ out, foldMatrix env beta mat = some out ∧ out.length = 2 ^ k ∧
      ∀ r (hr : r < mat.length), foldRow env r k beta mat[r] = out[r]? := by
  set f : ℕ → K := fun i => (mat.getD (i / 2) []).getD (i % 2) 0 with hf
  have hrow : ∀ r (hr : r < mat.length), mat[r] = [f (2 * r), f (2 * r + 1)] := by
    intro r hr
    have h2 := hw _ (List.getElem_mem hr)
    obtain ⟨a, b, e⟩ := List.length_eq_two.1 h2
    simp only [hf]
    rw [show 2 * r / 2 = r by omega, show (2 * r + 1) / 2 = r by omega, show 2 * r % 2 = 0 by omega,
      show (2 * r + 1) % 2 = 1 by omega]
    simp [List.getD_eq_getElem?_getD, List.getElem?_eq_getElem hr, e]
  have hmat : mat = (List.range (2 ^ k)).map fun r => [f (2 * r), f (2 * r + 1)] := by
    apply List.ext_getElem (by simp [hl])
    intro r h1 h2
    rw [hrow r h1]
    simp
  refine ⟨vec k (Spec.fold (W ^ 2 ^ (A - (k + 1))) k beta f), ?_, length_vec _ _, fun r hr => ?_⟩
  · conv_lhs => rw [hmat]
    exact foldMatrix_eq h hk hkA beta f
  · rw [hrow r hr, foldRow_eq h hk hkA beta f (by omega), vec, List.getElem?_map,
      List.getElem?_range (by omega)]
    rfl

/-- C76 (finding): a single row cannot be folded, since `ReverseBitsLen` then shifts by the width of its
argument. With `log_blowup = 0` the last round is of this kind. -/
theorem C76_one_row (env : Env K) (horder : ∀ l, (env.order l).Perm l)
    (hthreads : 0 < env.threads ∧ env.threads ≤ 2 ^ 63) (beta : K) (index : ℕ) (row : List K) :
    foldMatrix env beta [row] = none ∧ foldRow env index 0 beta row = none := by
  have hrev : ∀ x : BitVec 64, Bits.reverseBitsLen x 0 = none := fun x => by simp [Bits.reverseBitsLen]
  constructor
  · rw [foldMatrix, List.length_singleton, show Bits.checkedLog2 (BitVec.ofNat 64 1) = some 0 by
      decide +kernel, Option.bind_some]
    cases env.root (0 + 1) with
    | none => rfl
    | some w =>
      rw [Option.bind_some]
      split
      · rfl
      · have hp : ∀ g c : K, Group.getBitRevPowers env.threads 1 g c env.order = none := by
          intro g c
          obtain ⟨hp, hle, -⟩ := Parallel.sizePerThread_bounds hthreads.1 (total := 1) (by omega) none
          have hcs := hp.2 one_pos
          have hinv : Parallel.invocations 1 (Parallel.numElementsPerThread env.threads 1 none) =
              [(0, 1)] := by
            have : Parallel.numElementsPerThread env.threads 1 none = 1 := le_antisymm hle hcs
            rw [this]
            decide +kernel
          have hord : env.order [(0, 1)] = [(0, 1)] := List.perm_singleton.1 (horder _)
          rw [Group.getBitRevPowers, show Bits.checkedLog2 (BitVec.ofNat 64 1) = some 0 by decide +kernel]
          simp only
          rw [hinv, hord]
          simp [Group.bitRevChunks, Group.bitRevLoop, hrev]
        rw [hp]
        rfl
  · rw [foldRow, hrev]
    cases env.root (0 + 1) with
    | none => rfl
    | some w =>
      rw [Option.bind_some]
      split <;> rfl

/-! ### Completeness -/

/-- C76: an honest proof is accepted exactly if the last vector, after all rounds of folding and adding,
has at each queried place the value that it has at place 0. The inputs are vectors of different sizes
above the blowup factor, the tallest one first. -/
theorem C76_honest {env : Env K} {A : ℕ} {W' : K} (h : env.Good A W') {mmcs : Mmcs K Com Data Prf}
    (hm : mmcs.Lawful) {ch : Chal K Com W S} (hch : ch.Lawful) {cfg : Config}
    (hgrind : ∀ s, ∃ w s', ch.grind cfg.powBits s = some (w, s')) (hb : 0 < cfg.logBlowup) {n : ℕ}
    {f : ℕ → K} {inputs : List (ℕ × (ℕ → K))} (hbn : cfg.logBlowup < n) (hnA : n ≤ A) (h32 : n ≤ 32)
    (hd : ((n, f) :: inputs).Pairwise fun p q => q.1 < p.1)
    (hlow : ∀ p ∈ inputs, cfg.logBlowup < p.1)
    {openInput : ℕ → Option Inp} {openInput' : ℕ → Inp → Option (List (ℕ × K))}
    (hopen : ∀ i < 2 ^ n, ∃ x, openInput i = some x ∧
      openInput' i x = some (((n, f) :: inputs).map fun p => (p.1, p.2 (i / 2 ^ (n - p.1)))))
    (s : S) (dchecks : Bool) :
    ∃ proof s', prove env mmcs ch cfg false (((n, f) :: inputs).map fun p => vec p.1 p.2) openInput s =
        some (proof, s') ∧ proof.commits.length = n - cfg.logBlowup ∧
      proof.final = rounds A W' inputs n f (sampleBetas ch proof.commits s).1 0 ∧
      verify env mmcs ch cfg dchecks openInput' proof s =
        some (decide (∀ i ∈ queries ch n cfg.numQueries
            (ch.checkWitness cfg.powBits proof.pow
              (ch.observeElem proof.final (sampleBetas ch proof.commits s).2)).2,
          rounds A W' inputs n f (sampleBetas ch proof.commits s).1 (i / 2 ^ (n - cfg.logBlowup)) =
            proof.final)) :=
  prove_verify h hm hch hgrind hb hbn hnA h32 hd hlow hopen s false dchecks (by simp)

/-- C76: completeness. If every input of `2^h` values consists of the values of a polynomial with fewer
than `2^h / blowup` coefficients, the prover succeeds, with or without debug checks, and the verifier
accepts. -/
theorem C76_complete {env : Env K} {A : ℕ} {W' : K} (h : env.Good A W') {mmcs : Mmcs K Com Data Prf}
    (hm : mmcs.Lawful) {ch : Chal K Com W S} (hch : ch.Lawful) {cfg : Config}
    (hgrind : ∀ s, ∃ w s', ch.grind cfg.powBits s = some (w, s')) (hb : 0 < cfg.logBlowup) {n : ℕ}
    {f : ℕ → K} {inputs : List (ℕ × (ℕ → K))} (hbn : cfg.logBlowup < n) (hnA : n ≤ A) (h32 : n ≤ 32)
    (hd : ((n, f) :: inputs).Pairwise fun p q => q.1 < p.1)
    (hlow : ∀ p ∈ inputs, cfg.logBlowup < p.1)
    (hcode : ∀ p ∈ (n, f) :: inputs,
      Codeword (W' ^ 2 ^ (A - p.1)) p.1 (2 ^ (p.1 - cfg.logBlowup)) p.2)
    {openInput : ℕ → Option Inp} {openInput' : ℕ → Inp → Option (List (ℕ × K))}
    (hopen : ∀ i < 2 ^ n, ∃ x, openInput i = some x ∧
      openInput' i x = some (((n, f) :: inputs).map fun p => (p.1, p.2 (i / 2 ^ (n - p.1)))))
    (s : S) (dchecks dchecks' : Bool) :
    ∃ proof s', prove env mmcs ch cfg dchecks (((n, f) :: inputs).map fun p => vec p.1 p.2) openInput s =
        some (proof, s') ∧ proof.commits.length = n - cfg.logBlowup ∧
      verify env mmcs ch cfg dchecks' openInput' proof s = some true := by
  have hconst : ∀ bs : List K, bs.length = n - cfg.logBlowup → ∀ i < 2 ^ cfg.logBlowup,
      rounds A W' inputs n f bs i = rounds A W' inputs n f bs 0 := by
    intro bs hbs
    exact codeword_one.1 (rounds_codeword h.prim (h.two_ne (by omega)) inputs
      (fun p hp _ => hcode p (by simp [hp])) bs n (by omega) hnA f (hcode (n, f) (by simp)))
  obtain ⟨proof, s', e1, e2, e3, e4⟩ := prove_verify h hm hch hgrind hb hbn hnA h32 hd hlow hopen s dchecks
    dchecks' fun _ => hconst
  refine ⟨proof, s', e1, e2, e4.trans ?_⟩
  rw [Option.some.injEq, decide_eq_true_eq]
  intro i hi
  have hq : ∀ (q : ℕ) (t : S), ∀ i ∈ queries ch n q t, i < 2 ^ n := by
    intro q
    induction q with
    | zero => intro t i hi; simp [queries] at hi
    | succ q ih =>
      intro t i hi
      rw [queries, List.mem_cons] at hi
      rcases hi with rfl | hi
      · exact hch.bits _ _
      · exact ih _ i hi
  have hlen : ∀ (cs : List Com) (s : S), (sampleBetas ch cs s).1.length = cs.length := by
    intro cs
    induction cs with
    | nil => intro s; rfl
    | cons c cs ih => intro s; simp [sampleBetas, ih]
  rw [e3]
  refine hconst _ (by rw [hlen, e2]) _ ?_
  rw [Nat.div_lt_iff_lt_mul (by positivity), ← pow_add, show cfg.logBlowup + (n - cfg.logBlowup) = n by omega]
  exact hq _ _ _ hi

/-- C76 (finding): an input whose size is exactly the blowup factor, the values of a constant, is added by
the prover, but the verifier never takes its reduced opening and ends in a failing `CHECK`. -/
theorem C76_constant_input (env : Env K) (mmcs : Mmcs K Com Data Prf) (b logMax : ℕ)
    (v : K) (steps : List (Step K Com Prf)) (hs : steps.length + b = logMax) (index : ℕ)
    (ros : List (ℕ × K)) (hr : (b, v) ∈ ros) :
    verifyQuery env mmcs (2 ^ b) index logMax steps ros = none := by
  have key : ∀ (steps : List (Step K Com Prf)) (i : ℕ), steps.length + b + i = logMax →
      ∀ (idx : ℕ) (x : K) (ros : List (ℕ × K)), (b, v) ∈ ros →
      verifySteps env mmcs (2 ^ b) logMax steps i idx x ros = none := by
    intro steps
    induction steps with
    | nil =>
      intro i hi idx x ros hr
      rw [verifySteps, if_neg]
      rintro ⟨-, rfl⟩
      simp at hr
    | cons st steps ih =>
      intro i hi idx x ros hr
      rw [List.length_cons] at hi
      unfold verifySteps
      dsimp only
      split
      · have hmem : (b, v) ∈ (takeOpening (logMax - i - 1 + 1) x ros).2 := by
          cases ros with
          | nil => simp at hr
          | cons o ros =>
            rw [takeOpening]
            split
            · next ho =>
              rcases List.mem_cons.1 hr with rfl | hr
              · simp only at ho
                omega
              · exact hr
            · exact hr
        cases foldRow env (idx / 2) (logMax - i - 1) st.beta
            (evalsAt idx (takeOpening (logMax - i - 1 + 1) x ros).1 st.sibling) with
        | none => rfl
        | some y => exact ih (i + 1) (by omega) _ y _ hmem
      · rfl
  exact key steps 0 (by omega) _ _ ros hr

/-! ### Soundness -/

/-- C76: an accepted proof has the required number of queries and a witness of work that checks, and every query
folds to the claimed value at some index with the openings in the proof. -/
theorem C76_accepted {env : Env K} {mmcs : Mmcs K Com Data Prf} {ch : Chal K Com W S} {cfg : Config} {dchecks : Bool}
    {openInput : ℕ → Inp → Option (List (ℕ × K))} {proof : Proof K Com Prf Inp W} {s : S}
    (h : verify env mmcs ch cfg dchecks openInput proof s = some true) :
    proof.queries.length = cfg.numQueries ∧
      (ch.checkWitness cfg.powBits proof.pow (ch.observeElem proof.final (sampleBetas ch proof.commits s).2)).1 = true ∧
      ∀ q ∈ proof.queries, ∃ i ros steps, openInput i q.1 = some ros ∧
        mkSteps (sampleBetas ch proof.commits s).1 proof.commits q.2 = some steps ∧
        verifyQuery env mmcs cfg.blowup i (proof.commits.length + cfg.logBlowup) steps ros = some proof.final := by
  rw [verify] at h
  dsimp only at h
  split at h
  · cases h
  next h1 =>
  split at h
  next h2 =>
    refine ⟨not_not.1 h1, h2, ?_⟩
    generalize (ch.checkWitness cfg.powBits proof.pow
      (ch.observeElem proof.final (sampleBetas ch proof.commits s).2)).2 = s' at h
    revert h
    generalize proof.queries = qs
    induction qs generalizing s' with
    | nil => intro _ q hq; cases hq
    | cons q qs ih =>
      intro h r hr
      rw [verifyLoop] at h
      obtain ⟨ros, e1, h⟩ := Option.bind_eq_some_iff.1 h
      split at h
      · cases h
      obtain ⟨steps, e2, h⟩ := Option.bind_eq_some_iff.1 h
      obtain ⟨folded, e3, h⟩ := Option.bind_eq_some_iff.1 h
      split at h
      · cases h
      next h3 =>
      rcases List.mem_cons.1 hr with rfl | hr
      · exact ⟨_, ros, steps, e1, e2, by rw [e3, not_not.1 h3]⟩
      · exact ih _ h r hr
  · cases h

/-- C76: if the queries of all places are accepted, with whatever openings, and no commitment can be opened
in two ways, then folding the inputs with the challenges gives the constant vector of the claimed value. -/
theorem C76_accept {env : Env K} {A : ℕ} {W' : K} (h : env.Good A W') {mmcs : Mmcs K Com Data Prf}
    (hbind : mmcs.Binding) {b : ℕ} (hb : 0 < b) {n : ℕ} (hnA : n ≤ A) (h32 : n ≤ 32) {f : ℕ → K}
    {inputs : List (ℕ × (ℕ → K))} (hd : ((n, f) :: inputs).Pairwise fun p q => q.1 < p.1)
    {final : K} {betas : List K} {commits : List Com} (hl : commits.length = betas.length)
    (hn : n = b + commits.length)
    (hacc : ∀ i < 2 ^ n, ∃ os steps, mkSteps betas commits os = some steps ∧
      verifyQuery env mmcs (2 ^ b) i n steps
        (((n, f) :: inputs).map fun p => (p.1, p.2 (i / 2 ^ (n - p.1)))) = some final) :
    ∀ i < 2 ^ b, rounds A W' inputs n f betas i = final := by
  have h32' : (2 : ℕ) ^ n ≤ 2 ^ 32 := Nat.pow_le_pow_right (by norm_num) h32
  refine verifySteps_sound h hbind hb betas commits hl n hn hnA 0 f (fun _ => 0) ((n, f) :: inputs) hd ?_ ?_
    ?_ ?_
  · intro p hp
    rcases List.mem_cons.1 hp with rfl | hp
    · exact le_refl _
    · exact ((List.pairwise_cons.1 hd).1 p hp).le
  · intro i _
    have := inputAt_zero (l := inputs) (k := n) (fun q hq => ((List.pairwise_cons.1 hd).1 q hq).ne) i
    rw [inputAt] at this ⊢
    rw [List.filter_cons_of_pos (by simp), List.map_cons, List.sum_cons, this]
    simp
  · intro k hk
    funext i
    rw [inputAt, inputAt, List.filter_cons_of_neg (by simp; omega)]
  · intro i hi
    obtain ⟨os, steps, e1, e2⟩ := hacc i hi
    rw [verifyQuery, Nat.mod_eq_of_lt (by omega)] at e2
    exact ⟨os, steps, e1, e2⟩

omit [DecidableEq K] in
/-- C76: a single vector of `2^n` values that is not made of the values of a polynomial with fewer than
`2^n / blowup` coefficients is folded to a constant by at most `k |K|^(k-1)` of the `|K|^k` sequences of
challenges, `k` being the number of rounds. -/
theorem C76_count [Fintype K] {A : ℕ} {W : K} (hW : IsPrimitiveRoot W (2 ^ A)) {b k : ℕ}
    (hA : b + k ≤ A) (hA' : 0 < A) (f : ℕ → K)
    (hf : ¬ Codeword (W ^ 2 ^ (A - (b + k))) (b + k) (2 ^ k) f) :
    Nat.card {bs : Fin k → K // ∀ i < 2 ^ b, rounds A W [] (b + k) f (List.ofFn bs) i =
      rounds A W [] (b + k) f (List.ofFn bs) 0} ≤ k * Fintype.card K ^ (k - 1) := by
  have h2 : (2 : K) ≠ 0 := by
    intro h2
    have hp := hW.pow_ne_one_of_pos_of_lt (l := 2 ^ (A - 1)) (by positivity)
      (Nat.pow_lt_pow_right (by norm_num) (by omega))
    have h1 := hW.pow_eq_one
    rw [show A = A - 1 + 1 by omega, pow_succ, pow_mul] at h1
    have : (W ^ 2 ^ (A - 1) - 1) ^ 2 = 0 := by linear_combination h1 + (1 - W ^ 2 ^ (A - 1)) * h2
    exact hp (sub_eq_zero.1 (pow_eq_zero_iff (by norm_num) |>.1 this))
  exact card_bad hW h2 k hA f hf

/-- C76: soundness with all places queried. For a single vector that is not made of the values of a
polynomial with fewer than `2^n / blowup` coefficients there are at most `k |K|^(k-1)` sequences of
challenges for which any commitments, openings and final value are accepted. -/
theorem C76_sound [Fintype K] {env : Env K} {A : ℕ} {W' : K} (h : env.Good A W')
    {mmcs : Mmcs K Com Data Prf} (hbind : mmcs.Binding) {b k : ℕ} (hb : 0 < b) (hnA : b + k ≤ A)
    (h32 : b + k ≤ 32) {f : ℕ → K} (hf : ¬ Codeword (W' ^ 2 ^ (A - (b + k))) (b + k) (2 ^ k) f) :
    Nat.card {bs : Fin k → K // ∃ (final : K) (commits : List Com), commits.length = k ∧
      ∀ i < 2 ^ (b + k), ∃ os steps, mkSteps (List.ofFn bs) commits os = some steps ∧
        verifyQuery env mmcs (2 ^ b) i (b + k) steps [(b + k, f i)] = some final} ≤
      k * Fintype.card K ^ (k - 1) := by
  refine le_trans ?_ (C76_count h.prim hnA (by omega) f hf)
  refine Nat.card_le_card_of_injective (fun x => ⟨x.1, ?_⟩) fun x y e => Subtype.ext (congrArg Subtype.val e :)
  obtain ⟨final, commits, hl, hacc⟩ := x.2
  have := C76_accept h hbind hb hnA h32 (inputs := []) (List.pairwise_singleton _ _)
    (final := final) (betas := List.ofFn x.1) (commits := commits) (by simp [hl]) (by rw [hl])
    (by simpa using hacc)
  intro i hi
  rw [this i hi, this 0 (by positivity)]

/-- C76 (finding): an input that joins after some rounds is added without a challenge of its own, so a
taller input can cancel it. Whatever vector `g` of `2^h` values is proved, together with the vector of
`2^n` values that repeats each entry of `-g`, the honest prover convinces the verifier, also if `g` is not
made of the values of a polynomial of the right degree. -/
theorem C76_cancel {env : Env K} {A : ℕ} {W' : K} (h : env.Good A W') {mmcs : Mmcs K Com Data Prf}
    (hm : mmcs.Lawful) {ch : Chal K Com W S} (hch : ch.Lawful) {cfg : Config}
    (hgrind : ∀ s, ∃ w s', ch.grind cfg.powBits s = some (w, s')) (hb : 0 < cfg.logBlowup) {n m : ℕ}
    (hmn : m < n) (hbm : cfg.logBlowup < m) (hnA : n ≤ A) (h32 : n ≤ 32) (g : ℕ → K)
    {openInput : ℕ → Option Inp} {openInput' : ℕ → Inp → Option (List (ℕ × K))}
    (hopen : ∀ i < 2 ^ n, ∃ x, openInput i = some x ∧
      openInput' i x = some [(n, -g (i / 2 ^ (n - m))), (m, g (i / 2 ^ (n - m)))])
    (s : S) (dchecks dchecks' : Bool) :
    ∃ proof s', prove env mmcs ch cfg dchecks [vec n fun i => -g (i / 2 ^ (n - m)), vec m g] openInput s =
        some (proof, s') ∧ verify env mmcs ch cfg dchecks' openInput' proof s = some true := by
  have h2 := h.two_ne (by omega)
  have hz : ∀ (bs : List K) (k : ℕ) (f : ℕ → K), k ≤ m → (∀ i, f i = 0) →
      ∀ i, rounds A W' [(m, g)] k f bs i = 0 := by
    intro bs
    induction bs with
    | nil => intro k f _ hf i; exact hf i
    | cons c bs ih =>
      intro k f hk hf i
      rw [rounds]
      refine ih _ _ (by omega) (fun i => ?_) i
      simp [Spec.fold, hf, inputAt, show m ≠ k - 1 by omega]
  have hr : ∀ (bs : List K) (k : ℕ), m < k → k ≤ m + bs.length → ∀ i,
      rounds A W' [(m, g)] k (fun i => -g (i / 2 ^ (k - m))) bs i = 0 := by
    intro bs
    induction bs with
    | nil => intro k hk hk' i; simp at hk'; omega
    | cons c bs ih =>
      intro k hk hk' i
      have hfold : ∀ i, Spec.fold (W' ^ 2 ^ (A - k)) (k - 1) c (fun i => -g (i / 2 ^ (k - m))) i =
          -g (i / 2 ^ (k - 1 - m)) := by
        intro i
        have e1 : 2 * i / 2 ^ (k - m) = i / 2 ^ (k - 1 - m) := by
          rw [show k - m = k - 1 - m + 1 by omega, pow_succ', ← Nat.div_div_eq_div_mul,
            show 2 * i / 2 = i by omega]
        have e2 : (2 * i + 1) / 2 ^ (k - m) = i / 2 ^ (k - 1 - m) := by
          rw [show k - m = k - 1 - m + 1 by omega, pow_succ', ← Nat.div_div_eq_div_mul,
            show (2 * i + 1) / 2 = i by omega]
        rw [Spec.fold, e1, e2, sub_self, zero_div, mul_zero, add_zero]
        field_simp
        ring
      rw [rounds]
      rw [List.length_cons] at hk'
      by_cases hkm : k - 1 = m
      · have hz' : ∀ i, Spec.fold (W' ^ 2 ^ (A - k)) (k - 1) c (fun i => -g (i / 2 ^ (k - m))) i +
            inputAt [(m, g)] (k - 1) i = 0 := by
          intro i
          rw [hfold, hkm]
          simp [inputAt]
        exact hz bs (k - 1) _ (by omega) hz' i
      · have : (fun i => Spec.fold (W' ^ 2 ^ (A - k)) (k - 1) c (fun i => -g (i / 2 ^ (k - m))) i +
            inputAt [(m, g)] (k - 1) i) = fun i => -g (i / 2 ^ (k - 1 - m)) := by
          funext i
          rw [hfold, inputAt_zero (by simpa using Ne.symm hkm), add_zero]
        rw [this]
        exact ih (k - 1) (by omega) (by omega) i
  have hd : ([(n, fun i => -g (i / 2 ^ (n - m))), (m, g)] : List (ℕ × (ℕ → K))).Pairwise
      fun p q => q.1 < p.1 := by simpa using hmn
  have hopen' : ∀ i < 2 ^ n, ∃ x, openInput i = some x ∧ openInput' i x =
      some (([(n, fun i => -g (i / 2 ^ (n - m))), (m, g)] : List (ℕ × (ℕ → K))).map
        fun p => (p.1, p.2 (i / 2 ^ (n - p.1)))) := by
    intro i hi
    obtain ⟨x, x1, x2⟩ := hopen i hi
    exact ⟨x, x1, by simp [x2]⟩
  obtain ⟨proof, s', e1, e2, e3, e4⟩ := prove_verify h hm hch hgrind hb (by omega) hnA h32 hd
    (by simpa using hbm) hopen' s dchecks dchecks' (fun _ bs hbs i _ => by
      rw [hr bs n hmn (by omega), hr bs n hmn (by omega)])
  have hlen : ∀ (cs : List Com) (s : S), (sampleBetas ch cs s).1.length = cs.length := by
    intro cs
    induction cs with
    | nil => intro s; rfl
    | cons c cs ih => intro s; simp [sampleBetas, ih]
  refine ⟨proof, s', e1, e4.trans ?_⟩
  rw [Option.some.injEq, decide_eq_true_eq]
  intro i _
  rw [e3, hr _ n hmn (by rw [hlen, e2]; omega), hr _ n hmn (by rw [hlen, e2]; omega)]

/-! ### The records -/

omit [DecidableEq K] in
/-- C76: the roots of a field with a valid configuration (C59), sent to an extension field. -/
theorem C76_roots {F : Type} [Field F] [DecidableEq F] {cfg : FFT.RootConfig F} (hc : cfg.Valid)
    (hl : cfg.large = none) (ha : cfg.twoAdicity ≤ 63) (φ : F →+* K) (env : Env K)
    (henv : ∀ k, env.root k = (FFT.getRootOfUnity cfg (2 ^ k)).join.map φ)
    (hthreads : 0 < env.threads ∧ env.threads ≤ 2 ^ 63) (horder : ∀ l, (env.order l).Perm l) :
    env.Good cfg.twoAdicity (φ cfg.twoAdicRoot) := by
  have hp : IsPrimitiveRoot cfg.twoAdicRoot (2 ^ cfg.twoAdicity) := by
    rw [FFT.RootConfig.Valid, hl] at hc
    exact hc
  refine ⟨hp.map_of_injective φ.injective, fun k hk => ?_, ha, hthreads, horder⟩
  have hlog : Bits.log2Ceiling (BitVec.ofNat 64 (2 ^ k)) = k := by
    have h63 : (2 : ℕ) ^ k ≤ 2 ^ 63 := Nat.pow_le_pow_right (by norm_num) (by omega)
    obtain ⟨i, h1, -, -, h4, h5⟩ := FFT.log2Ceiling_ofNat (Nat.two_pow_pos k) h63
    rw [h1, le_antisymm (h5 k le_rfl) ((Nat.pow_le_pow_iff_right (by norm_num)).1 h4)]
  rw [henv, FFT.getRootOfUnity, hl]
  simp only [hlog]
  rw [if_neg (by omega), Int.toNat_natCast, if_neg (by simp; omega), Group.squareTimes_eq]
  simp

/-- C76: the Merkle tree scheme of C65 satisfies the law of an honest run. -/
theorem C76_merkle {F P D : Type} [DecidableEq D] {o : MMCS.Ops F P D} {lanes : ℕ}
    (ho : o.Implements lanes) (hl : 0 < lanes) (hl2 : lanes ≤ 2 ^ 62) (dchecks : Bool) :
    (merkle o lanes dchecks).Lawful := by
  refine ⟨fun k mat hk hlen hw => ?_⟩
  have hclog : Nat.clog 2 mat.length = k := by rw [hlen, Nat.clog_pow 2 k (by norm_num)]
  have hh : MMCS.IsHeight [mat] k := ⟨⟨mat, by simp, hclog⟩, by simp [hclog]⟩
  have hv : MMCS.Valid [mat] := by
    refine ⟨by simp, ?_, ?_, ?_, ?_⟩
    · simp [hlen]
    · intro m hm r hr r' hr'
      obtain rfl : m = mat := by simpa using hm
      rw [hw r hr, hw r' hr']
    · intro a ha b hb _
      rw [show a = mat by simpa using ha, show b = mat by simpa using hb]
    · intro m hm
      rw [show m = mat by simpa using hm, hlen]
      exact Nat.pow_le_pow_right (by norm_num) hk
  have hc := C65_commit ho hv hl hl2 hh dchecks
  refine ⟨_, _, by rw [merkle]; simp only; rw [hc]; rfl, rfl, fun i hi => ?_⟩
  obtain ⟨p, p1, -, p3⟩ := C65_open ho hv hl hl2 hh hc (index := i) (by rw [← hlen]; exact hi) (by
    intro m hm
    rw [show m = mat by simpa using hm, hclog]
    simpa using hi)
  have hrow : ([mat].map fun m => m.getD (i / 2 ^ (k - Nat.clog 2 m.length)) []) = [mat[i]] := by
    simp [hclog, List.getD_eq_getElem?_getD, List.getElem?_eq_getElem hi]
  rw [hrow] at p1 p3
  refine ⟨p, p1, ?_⟩
  rw [merkle]
  simp only
  rw [← hlen, show [mat.length] = [mat].map List.length from rfl, p3]
  rfl

/-- A scheme that also compares the length of a proof with the height of the tree. -/
def lengthChecked {E Com Data P : Type} (m : Mmcs E Com Data (List P)) : Mmcs E Com Data (List P) :=
  { m with verify := fun c hs i rows p =>
      hs.all (fun h => decide (p.length = Nat.clog 2 h)) && m.verify c hs i rows p }

/-- C76: with a check of the length of the proofs, the Merkle tree scheme would be binding unless there is
a collision. -/
theorem C76_merkle_binding {F P D : Type} [DecidableEq D] (o : MMCS.Ops F P D) (lanes : ℕ)
    (dchecks : Bool) (hf : ∀ x y, (o.flat x).length = (o.flat y).length)
    (hinj : ∀ x y, o.flat x = o.flat y → x = y) (hn : ¬ MMCS.Spec.Collision o.hash o.compress) :
    (lengthChecked (merkle o lanes dchecks)).Binding := by
  intro c h i rows rows' p p' hv hv' hlen
  simp only [lengthChecked, merkle, List.all_cons, List.all_nil, Bool.and_true, Bool.and_eq_true,
    decide_eq_true_eq, beq_iff_eq] at hv hv'
  rcases C65_bind o hf hinj (by simpa using hlen) (hv.1.trans hv'.1.symm)
    (by simpa [hv.1] using Nat.le_pow_clog (by norm_num) h) hv.2 hv'.2 with ⟨e, -⟩ | hcol
  · simpa using e
  · exact absurd hcol hn

/-- C76 (finding): without that check (C65_length_unchecked) it is not, even if hash and compression are
injective and have nothing in common: the commitment below opens at place 2 to `[1, 2]` and to `[3, 4]`,
with proofs of length one and two. So the commitments of the rounds do not fix the folded vectors. -/
theorem C76_merkle_not_binding (lanes : ℕ) (dchecks : Bool) :
    ¬ (merkle exMM lanes dchecks).Binding := by
  intro h
  have := h (.node (.leaf [1, 2]) (.node (.leaf [3, 4]) .dflt)) 4 2 [1, 2] [3, 4]
    [.node (.leaf [3, 4]) .dflt] [.dflt, .leaf [1, 2]] (by simp only [merkle]; decide +kernel)
    (by simp only [merkle]; decide +kernel) rfl
  simp at this

/-! ### Examples over the field with 17 elements -/

/-- The commitment is the matrix. -/
def exMmcs : Mmcs F17 (List (List (List F17))) (List (List (List F17))) Unit where
  commit ms := some (ms, ms)
  matrices d := d
  openAt i d := some (d.map fun m => m.getD i [], ())
  verify c _ i rows _ := decide (rows = c.map fun m => m.getD i [])

/-- The state is a counter; samples are made from it. -/
def exChal : Chal F17 (List (List (List F17))) Unit ℕ where
  observeCom _ s := s + 3
  observeElem _ s := s + 1
  sampleExt s := ((s : ZMod 17), s + 1)
  sampleBits k s := (5 * s % 2 ^ k, s + 1)
  grind _ s := some ((), s)
  checkWitness _ _ s := (true, s)

/-- Two threads, the chunks in reverse order. -/
def exEnv : Env F17 where
  root k := (FFT.getRootOfUnity exConfig (2 ^ k)).join
  threads := 2
  order := List.reverse

/-- Blowup factor two, three queries. -/
def exCfg : Config := ⟨1, 3, 0⟩

theorem exEnv_good : exEnv.Good 4 3 :=
  C76_roots exConfig_valid rfl (by decide) (RingHom.id F17) exEnv (fun k => by simp [exEnv]) (by decide)
    fun l => List.reverse_perm l

theorem exMmcs_lawful : exMmcs.Lawful :=
  ⟨fun k mat _ _ _ => ⟨[mat], [mat], rfl, rfl, fun i hi => ⟨(), by
    simp [exMmcs, List.getD_eq_getElem?_getD, List.getElem?_eq_getElem hi], by
    simp [exMmcs, List.getD_eq_getElem?_getD, List.getElem?_eq_getElem hi]⟩⟩⟩

theorem exMmcs_binding : exMmcs.Binding := by
  intro c h i rows rows' p p' hv hv' _
  simp only [exMmcs, decide_eq_true_eq] at hv hv'
  simpa using hv.trans hv'.symm

theorem exChal_lawful : exChal.Lawful :=
  ⟨fun k s => Nat.mod_lt _ (by positivity), fun k s w s' e => by
    simp only [exChal, Option.some.injEq, Prod.mk.injEq] at e ⊢
    exact ⟨trivial, e.2⟩⟩

/-- The values of `1 + 2 X + 3 X^2 + 4 X^3` at the powers of 9 and of `5 + 6 X` at the powers of 13. -/
def exIn : List (List F17) :=
  [(List.range 8).map fun i => 1 + 2 * 9 ^ FFT.rv 3 i + 3 * (9 ^ FFT.rv 3 i) ^ 2 + 4 * (9 ^ FFT.rv 3 i) ^ 3,
    (List.range 4).map fun i => 5 + 6 * 13 ^ FFT.rv 2 i]

/-- The reduced openings of the example. -/
def exOpen (ins : List (List F17)) (i : ℕ) (_ : Unit) : Option (List (ℕ × F17)) :=
  match ins with
  | [a, b] => some [(3, a.getD i 0), (2, b.getD (i / 2) 0)]
  | [a] => some [(3, a.getD i 0)]
  | _ => none

example : ((prove exEnv exMmcs exChal exCfg true exIn (fun _ => some ()) 0).bind fun p =>
    verify exEnv exMmcs exChal exCfg true (exOpen exIn) p.1 0) = some true := by decide +kernel

-- not the values of a polynomial with four coefficients
example : ((prove exEnv exMmcs exChal exCfg false [[1, 2, 3, 4, 5, 6, 7, 8]] (fun _ => some ()) 0).bind
    fun p => verify exEnv exMmcs exChal exCfg true (exOpen [[1, 2, 3, 4, 5, 6, 7, 8]]) p.1 0) =
    some false := by decide +kernel

-- the same with four values that are no codeword, cancelled by eight others
example : ((prove exEnv exMmcs exChal exCfg true [[-1, -1, -2, -2, -3, -3, -5, -5], [1, 2, 3, 5]]
    (fun _ => some ()) 0).bind fun p => verify exEnv exMmcs exChal exCfg true
      (exOpen [[-1, -1, -2, -2, -3, -3, -5, -5], [1, 2, 3, 5]]) p.1 0) = some true := by decide +kernel

end Tachyon.Props
