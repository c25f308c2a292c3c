import Mathlib.Data.Matrix.Mul
import Mathlib.LinearAlgebra.Matrix.NonsingularInverse
import Mathlib.LinearAlgebra.Matrix.ToLinearEquiv
import Verif.Proofs.Lfsr
/-!
# C74: the generator of Poseidon's constants
-/
namespace Tachyon.Props
open Tachyon.Lfsr BigInt

/-- C74: there is exactly one bit stream for a configuration. -/
theorem C74_stream (inverse : Bool) (n t rf rp : ℕ) : ∃! b, Spec.Stream inverse n t rf rp b := by
  have hs := stream_iff ⟨inverse, n, t, rf, rp⟩
  refine ⟨ofSeed (seed ⟨inverse, n, t, rf, rp⟩).state, (hs _).2 ⟨fun i hi => ofSeed_lt _ hi, ofSeed_rec _⟩, ?_⟩
  intro b hb
  obtain ⟨h1, h2⟩ := (hs b).1 hb
  funext i
  induction i using Nat.strongRecOn with
  | ind i ih =>
    by_cases hi : i < 80
    · rw [h1 i hi, ofSeed_lt _ hi]
    · obtain ⟨j, rfl⟩ : ∃ j, i = j + 80 := ⟨i - 80, by omega⟩
      rw [h2, ofSeed_rec, ih, ih, ih, ih, ih, ih] <;> omega

example : ∀ b, Spec.Stream false 254 3 8 57 b → b 17 = false ∧ b 16 = true ∧ b 10 = true ∧ b 9 = false ∧ b 36 = true := by
  intro b h
  exact ⟨h.bits 11 (by omega), h.bits 10 (by omega), h.bits 4 (by omega), h.bits 3 (by omega), h.full 6 (by omega)⟩

/-- C74: call `k` of `Update` after construction returns bit `240 + k` of the stream, and `head` stays in bounds. -/
theorem C74_update (c : Config) (b : ℕ → Bool)
    (hb : Spec.Stream c.inverse c.primeNumBits c.stateLen c.fullRounds c.partialRounds b) (k : ℕ) :
    (update ((fun g => (update g).2)^[k] (create c))).1 = b (240 + k) ∧
      ((fun g => (update g).2)^[k] (create c)).head < 80 := by
  have h : ∀ k, At b (160 + k) ((fun g => (update g).2)^[k] (create c)) := by
    intro k
    induction k with
    | zero => exact create_at c hb
    | succ k ih =>
      rw [Function.iterate_succ_apply']
      exact (update_at hb.step ih).2
  refine ⟨?_, ?_⟩
  · rw [(update_at hb.step (h k)).1]
    congr 1
    omega
  · rw [(h k).1]; omega

example (b : ℕ → Bool) (hb : Spec.Stream false 254 3 8 57 b) :
    (update (update (create ⟨false, 254, 3, 8, 57⟩)).2).1 = b 241 := (C74_update ⟨false, 254, 3, 8, 57⟩ b hb 1).1

/-- C74: of any 80 bits at distance two at least one is set, so of any 80 pairs at least one gives an output and the
inner loop of `GetBits` ends after at most 79 rounds. -/
theorem C74_live (inverse : Bool) (n t rf rp : ℕ) (b : ℕ → Bool) (hb : Spec.Stream inverse n t rf rp b) (i : ℕ) :
    ∃ j < 80, b (i + 2 * j) = true := exists_one hb.step (stream_one hb) i

example (b : ℕ → Bool) (hb : Spec.Stream false 31 16 8 13 b) : ∃ j < 80, b (240 + 2 * j) = true :=
  C74_live _ _ _ _ _ b hb 240

/-- C74: `GetBits` always ends and gives the outputs of the stream in order. -/
theorem C74_bits (c : Config) (b : ℕ → Bool)
    (hb : Spec.Stream c.inverse c.primeNumBits c.stateLen c.fullRounds c.partialRounds b) (f : ℕ) (hf : 79 ≤ f) (n : ℕ) :
    ∃ g, getBits f n (create c) = some ((List.range n).map (Spec.out b), g) := by
  obtain ⟨g, e, _⟩ := getBits_inv hb.step (stream_one hb) hf n 0 _ (create_inv c hb)
  simp only [Nat.zero_add] at e
  exact ⟨g, e⟩

/-- C74: two calls of `GetBits` are one. -/
theorem C74_bits_append (f n k : ℕ) (g : Gen) : getBits f (n + k) g =
    (getBits f n g).bind fun r => (getBits f k r.2).map fun q => (r.1 ++ q.1, q.2) := getBits_add f n k g

example (b : ℕ → Bool) (hb : Spec.Stream false 255 3 8 31 b) :
    ∃ g, getBits 79 3 (create ⟨false, 255, 3, 8, 31⟩) = some ([Spec.out b 0, Spec.out b 1, Spec.out b 2], g) :=
  C74_bits ⟨false, 255, 3, 8, 31⟩ b hb 79 (le_refl _) 3

/-- C74: after `m` bits, `GetFieldElementsModP` always ends and gives the next candidates reduced. -/
theorem C74_modP (c : Config) (b : ℕ → Bool)
    (hb : Spec.Stream c.inverse c.primeNumBits c.stateLen c.fullRounds c.partialRounds b) (f : ℕ) (hf : 79 ≤ f)
    (m : ℕ) (pre : List Bool) (g : Gen) (hg : getBits f m (create c) = some (pre, g)) (bits : ℕ) (p : List (BitVec 64))
    (hp : bits ≤ 64 * p.length) (h0 : limbsVal p ≠ 0) (n : ℕ) :
    ∃ l g', modP f bits p n g = some (l, g') ∧
      l.map limbsVal = (List.range n).map (fun i => Spec.candidate b bits m i % limbsVal p) ∧
        ∃ all, getBits f (m + bits * n) (create c) = some (all, g') := by
  obtain ⟨l, g', h1, _, h2, h3⟩ := modP_inv (outputs_drawn c hb hf) hp h0 n m 0 g ⟨pre, hg⟩
  simp only [Nat.zero_add] at h2 h3
  exact ⟨l, g', h1, h2, h3⟩

/-- Candidate `k` is below the modulus. -/
def Accepted (b : ℕ → Bool) (bits m p k : ℕ) : Prop := Spec.candidate b bits m k < p

noncomputable instance instAccepted (b : ℕ → Bool) (bits m p : ℕ) : DecidablePred (Accepted b bits m p) :=
  fun _ => inferInstanceAs (Decidable (_ < _))

/-- C74: after `m` bits, `GetFieldElementsRejectionSampling` gives the first `n` candidates below the modulus, in
order, and nothing is left out or used twice: afterwards the generator stands behind the last candidate used. It ends if
there are enough candidates below the modulus. -/
theorem C74_reject (c : Config) (b : ℕ → Bool)
    (hb : Spec.Stream c.inverse c.primeNumBits c.stateLen c.fullRounds c.partialRounds b) (f : ℕ) (hf : 79 ≤ f)
    (m : ℕ) (pre : List Bool) (g : Gen) (hg : getBits f m (create c) = some (pre, g)) (bits : ℕ) (p : List (BitVec 64))
    (hp : bits ≤ 64 * p.length) (n f' : ℕ) :
    (∀ l g', reject f f' bits p n g = some (l, g') →
      l.map limbsVal =
        (List.range n).map (fun i => Spec.candidate b bits m (Nat.nth (Accepted b bits m (limbsVal p)) i)) ∧
      (∀ a ∈ l, limbsVal a < limbsVal p) ∧
      ∃ k, Nat.count (Accepted b bits m (limbsVal p)) k = n ∧ (k = 0 ∨ Accepted b bits m (limbsVal p) (k - 1)) ∧
        ∃ all, getBits f (m + bits * k) (create c) = some (all, g')) ∧
    (∀ k, n ≤ Nat.count (Accepted b bits m (limbsVal p)) k → k ≤ f' → ∃ r, reject f f' bits p n g = some r) := by
  obtain ⟨h1, h2⟩ := reject_inv (outputs_drawn c hb hf) hp f' n m 0 0 g ⟨pre, hg⟩ (Nat.count_zero _)
  simp only [Nat.zero_add] at h1 h2
  refine ⟨fun l g' e => ?_, h2⟩
  obtain ⟨t1, t2, k, _, t4, t5, t6⟩ := h1 l g' e
  refine ⟨t2, fun a ha => ?_, k, t4, ?_, t6⟩
  · obtain ⟨i, hi, hv⟩ := List.mem_map.1 (t2 ▸ List.mem_map_of_mem ha : limbsVal a ∈ _)
    rw [← hv]
    have : i < Nat.count (Acc b bits m p) k := by rw [t4]; exact List.mem_range.1 hi
    exact Nat.nth_mem i fun hfin => lt_of_lt_of_le this (Nat.count_le_card hfin k)
  · rcases t5 with t5 | t5
    · exact Or.inl t5
    · exact Or.inr t5.2

/-- C74: `FindPoseidon2ARK`: one row per round, full rounds have a constant for each element of the state, partial rounds
one; read row by row, the constants are the accepted candidates. -/
theorem C74_ark2 (c : Config) (b : ℕ → Bool)
    (hb : Spec.Stream c.inverse c.primeNumBits c.stateLen c.fullRounds c.partialRounds b) (f : ℕ) (hf : 79 ≤ f)
    (kBits : ℕ) (p : List (BitVec 64)) (hp : kBits ≤ 64 * p.length) (f' : ℕ) :
    (∀ r, findArk2 f f' kBits p c = some r → kBits = c.primeNumBits ∧
      r.map List.length = (List.range (c.fullRounds + c.partialRounds)).map (fun i =>
        if c.fullRounds / 2 ≤ i ∧ i < c.fullRounds / 2 + c.partialRounds then 1 else c.stateLen) ∧
      r.flatten.map limbsVal = (List.range (c.fullRounds * c.stateLen + c.partialRounds)).map
        (fun i => Spec.candidate b kBits 0 (Nat.nth (Accepted b kBits 0 (limbsVal p)) i))) ∧
    (kBits = c.primeNumBits → ∀ k,
      c.fullRounds * c.stateLen + c.partialRounds ≤ Nat.count (Accepted b kBits 0 (limbsVal p)) k →
        k ≤ f' → ∃ r, findArk2 f f' kBits p c = some r) := by
  obtain ⟨h1, h2⟩ := rows_inv (outputs_drawn c hb hf) hp f'
    (fun i => if i < c.fullRounds / 2 ∨ c.fullRounds / 2 + c.partialRounds ≤ i then c.stateLen else 1)
    (c.fullRounds + c.partialRounds) 0 0 0 0 (create c) ⟨[], rfl⟩ (Nat.count_zero _)
  have hfun : (fun i => if i < c.fullRounds / 2 ∨ c.fullRounds / 2 + c.partialRounds ≤ 0 + i then c.stateLen else 1) =
      fun i => if c.fullRounds / 2 ≤ i ∧ i < c.fullRounds / 2 + c.partialRounds then 1 else c.stateLen := by
    funext i
    by_cases hi : c.fullRounds / 2 ≤ i ∧ i < c.fullRounds / 2 + c.partialRounds
    · rw [if_neg (by omega), if_pos hi]
    · rw [if_pos (by omega), if_neg hi]
  simp only [Nat.zero_add] at h1 h2 hfun
  rw [hfun] at h1 h2
  have hsum : ((List.range (c.fullRounds + c.partialRounds)).map fun i =>
      if c.fullRounds / 2 ≤ i ∧ i < c.fullRounds / 2 + c.partialRounds then 1 else c.stateLen).sum =
        c.fullRounds * c.stateLen + c.partialRounds := by
    have e : c.fullRounds + c.partialRounds =
        c.fullRounds / 2 + (c.partialRounds + (c.fullRounds - c.fullRounds / 2)) := by omega
    have s1 : ∀ n, ∀ g : ℕ → ℕ, ∀ v, (∀ i < n, g i = v) → ((List.range n).map g).sum = n * v := by
      intro n g v h
      rw [List.map_congr_left fun i hi => h i (List.mem_range.1 hi)]
      simp
    rw [e, List.range_add, List.map_append, List.sum_append, List.range_add, List.map_append, List.map_append,
      List.sum_append, List.map_map, List.map_map, List.map_map, s1 _ _ c.stateLen (fun i hi => if_neg (by omega)),
      s1 c.partialRounds _ 1 (fun i hi => by
        simp only [Function.comp]; exact if_pos (by omega)),
      s1 (c.fullRounds - c.fullRounds / 2) _ c.stateLen (fun i hi => by
        simp only [Function.comp]; exact if_neg (by omega))]
    have : c.fullRounds = c.fullRounds / 2 + (c.fullRounds - c.fullRounds / 2) := by omega
    conv_rhs => rw [this]
    ring
  rw [hsum] at h2
  refine ⟨fun r e => ?_, fun hk k hk1 hk2 => ?_⟩
  · unfold findArk2 at e
    by_cases hk : kBits = c.primeNumBits
    · rw [if_pos hk, hfun] at e
      obtain ⟨⟨r', g'⟩, hr, rfl⟩ := Option.map_eq_some_iff.1 e
      obtain ⟨_, t1, t2, _⟩ := h1 r' g' hr
      refine ⟨hk, t1, ?_⟩
      rw [t2, List.length_flatten, t1, hsum]
      rfl
    · rw [if_neg hk] at e; exact absurd e (by simp)
  · obtain ⟨r, hr⟩ := h2 k hk1 hk2
    exact ⟨r.1, by unfold findArk2; rw [if_pos hk, hfun, hr]; rfl⟩

example : (List.range (8 + 13)).map (fun i => if 8 / 2 ≤ i ∧ i < 8 / 2 + 13 then 1 else 16) =
    [16, 16, 16, 16, 1, 1, 1, 1, 1, 1, 1, 1, 1, 1, 1, 1, 1, 16, 16, 16, 16] := by decide

/-- C74: `FindPoseidonARKAndMDS`: the constants are the accepted candidates in order, `state_len` for each round; with
`q` the number of candidates looked at for them and `skip_matrices` pairs of vectors skipped, `xs` and `ys` are the next
candidates reduced. -/
theorem C74_ark (c : Config) (b : ℕ → Bool)
    (hb : Spec.Stream c.inverse c.primeNumBits c.stateLen c.fullRounds c.partialRounds b) (f : ℕ) (hf : 79 ≤ f)
    (kBits : ℕ) (p : List (BitVec 64)) (hp : kBits ≤ 64 * p.length) (h0 : limbsVal p ≠ 0) (f' skip : ℕ) :
    (∀ r xs ys, findArk f f' kBits p c skip = some (r, xs, ys) → kBits = c.primeNumBits ∧
      r.map List.length = List.replicate (c.fullRounds + c.partialRounds) c.stateLen ∧
      r.flatten.map limbsVal = (List.range ((c.fullRounds + c.partialRounds) * c.stateLen)).map
        (fun i => Spec.candidate b kBits 0 (Nat.nth (Accepted b kBits 0 (limbsVal p)) i)) ∧
      ∃ q, Nat.count (Accepted b kBits 0 (limbsVal p)) q = (c.fullRounds + c.partialRounds) * c.stateLen ∧
        (q = 0 ∨ Accepted b kBits 0 (limbsVal p) (q - 1)) ∧
        xs.map limbsVal = (List.range c.stateLen).map
          (fun i => Spec.candidate b kBits 0 (q + skip * (2 * c.stateLen) + i) % limbsVal p) ∧
        ys.map limbsVal = (List.range c.stateLen).map
          (fun i => Spec.candidate b kBits 0 (q + skip * (2 * c.stateLen) + c.stateLen + i) % limbsVal p)) ∧
    (kBits = c.primeNumBits → ∀ k,
      (c.fullRounds + c.partialRounds) * c.stateLen ≤ Nat.count (Accepted b kBits 0 (limbsVal p)) k →
        k ≤ f' → ∃ r, findArk f f' kBits p c skip = some r) := by
  have hI := outputs_drawn c hb hf
  obtain ⟨h1, h2⟩ := rows_inv hI hp f' (fun _ => c.stateLen)
    (c.fullRounds + c.partialRounds) 0 0 0 0 (create c) ⟨[], rfl⟩ (Nat.count_zero _)
  have hrep : ((List.range (c.fullRounds + c.partialRounds)).map fun _ => c.stateLen) =
      List.replicate (c.fullRounds + c.partialRounds) c.stateLen := by simp
  rw [hrep] at h1 h2
  rw [List.sum_replicate, smul_eq_mul] at h2
  have rest : ∀ r g', rows f f' kBits p (fun _ => c.stateLen) (c.fullRounds + c.partialRounds) 0 (create c) = some (r, g') →
      ∀ q, Drawn f c (0 + kBits * q) g' → ∃ g2 xs ys g3 g4, skipMatrices f kBits p c.stateLen skip g' = some g2 ∧
        modP f kBits p c.stateLen g2 = some (xs, g3) ∧ modP f kBits p c.stateLen g3 = some (ys, g4) ∧
        xs.map limbsVal = (List.range c.stateLen).map
          (fun i => Spec.candidate b kBits 0 (q + skip * (2 * c.stateLen) + i) % limbsVal p) ∧
        ys.map limbsVal = (List.range c.stateLen).map
          (fun i => Spec.candidate b kBits 0 (q + skip * (2 * c.stateLen) + c.stateLen + i) % limbsVal p) := by
    intro r g' _ q hq
    obtain ⟨g2, e2, i2⟩ := skipMatrices_inv hI hp h0 c.stateLen skip 0 q g' hq
    obtain ⟨xs, g3, e3, _, v3, i3⟩ := modP_inv hI hp h0 c.stateLen 0 _ g2 i2
    obtain ⟨ys, g4, e4, _, v4, _⟩ := modP_inv hI hp h0 c.stateLen 0 _ g3 i3
    exact ⟨g2, xs, ys, g3, g4, e2, e3, e4, v3, v4⟩
  refine ⟨fun r xs ys e => ?_, fun hk k hk1 hk2 => ?_⟩
  · unfold findArk at e
    by_cases hk : kBits = c.primeNumBits
    · rw [if_pos hk] at e
      cases hr : rows f f' kBits p (fun _ => c.stateLen) (c.fullRounds + c.partialRounds) 0 (create c) with
      | none => rw [hr] at e; exact absurd e (by simp)
      | some r' =>
        obtain ⟨r', g'⟩ := r'
        obtain ⟨_, t1, t2, q, _, t4, t5, t6⟩ := h1 r' g' hr
        have hlen : r'.flatten.length = (c.fullRounds + c.partialRounds) * c.stateLen := by
          rw [List.length_flatten, t1, List.sum_replicate, smul_eq_mul]
        obtain ⟨g2, xs', ys', g3, g4, e2, e3, e4, v3, v4⟩ := rest r' g' hr q t6
        rw [hr, Option.bind_some, e2, Option.bind_some, e3, Option.bind_some, e4, Option.map_some, Option.some.injEq,
          Prod.mk.injEq, Prod.mk.injEq] at e
        obtain ⟨rfl, rfl, rfl⟩ := e
        refine ⟨hk, t1, ?_, q, ?_, ?_, v3, v4⟩
        · rw [t2, hlen]
          simp only [Nat.zero_add]
          rfl
        · rw [← hlen]
          rw [Nat.zero_add] at t4
          exact t4
        · rcases t5 with t5 | t5
          · exact Or.inl t5
          · exact Or.inr t5.2
    · rw [if_neg hk] at e; exact absurd e (by simp)
  · obtain ⟨⟨r, g'⟩, hr⟩ := h2 k (by rw [Nat.zero_add]; exact hk1) hk2
    obtain ⟨_, _, _, q, _, _, _, t6⟩ := h1 r g' hr
    obtain ⟨g2, xs', ys', g3, g4, e2, e3, e4, _, _⟩ := rest r g' hr q t6
    exact ⟨(r, xs', ys'), by
      unfold findArk
      rw [if_pos hk, hr, Option.bind_some, e2, Option.bind_some, e3, Option.bind_some, e4, Option.map_some]⟩

/-- C74: a configuration for another modulus size stops the program. -/
theorem C74_check (f f' kBits : ℕ) (p : List (BitVec 64)) (c : Config) (skip : ℕ) (h : kBits ≠ c.primeNumBits) :
    findArk f f' kBits p c skip = none ∧ findArk2 f f' kBits p c = none := by
  unfold findArk findArk2
  rw [if_neg h, if_neg h]
  exact ⟨rfl, rfl⟩

/-- C74: parameters are written without a check of their size: only the low 12, 12, 10 and 10 bits count. -/
theorem C74_truncated (c d : Config) (h : c.inverse = d.inverse)
    (hn : c.primeNumBits % 2 ^ 12 = d.primeNumBits % 2 ^ 12) (ht : c.stateLen % 2 ^ 12 = d.stateLen % 2 ^ 12)
    (hf : c.fullRounds % 2 ^ 10 = d.fullRounds % 2 ^ 10) (hp : c.partialRounds % 2 ^ 10 = d.partialRounds % 2 ^ 10) :
    create c = create d := by
  have tb : ∀ {a a' k i : ℕ}, a % 2 ^ k = a' % 2 ^ k → i < k → a.testBit i = a'.testBit i := by
    intro a a' k i h hi
    have h1 := Nat.testBit_mod_two_pow a k i
    have h2 := Nat.testBit_mod_two_pow a' k i
    rw [h] at h1
    rw [h1] at h2
    simpa [hi] using h2
  have : seed c = seed d := by
    have hh : (seed c).head = (seed d).head := rfl
    have hs : (seed c).state = (seed d).state := by
      funext i
      by_cases hi : i < 80
      · rw [seed_cells c i hi, seed_cells d i hi, h]
        split_ifs
        · rfl
        · exact tb hp (by omega)
        · exact tb hf (by omega)
        · exact tb ht (by omega)
        · exact tb hn (by omega)
        · rfl
        · rfl
      · simp only [seed, fillState_get, setCell]
        rw [if_neg (by omega), if_neg (by omega), if_neg (by omega), if_neg (by omega), if_neg (by omega),
          if_neg (by omega), if_neg (by omega), if_neg (by omega), if_neg (by omega), if_neg (by omega), if_neg (by omega),
          if_neg (by omega), if_neg (by omega)]
    cases hc : seed c
    cases hd : seed d
    rw [hc, hd] at hh hs
    simp only at hh hs
    rw [hh, hs]
  unfold create
  rw [this]

/-- C74: a finding: a state of 4099 elements has the generator of a state of three. -/
theorem C74_truncated_witness : create ⟨false, 254, 4099, 8, 57⟩ = create ⟨false, 254, 3, 8, 57⟩ :=
  C74_truncated _ _ rfl rfl rfl rfl rfl

/-- C74: a finding: `ToPoseidonGrainLFSRConfig` takes one for the capacity; what is generated is valid for no other. -/
theorem C74_capacity (f f' kBits rate full part : ℕ) (p : List (BitVec 64)) (hf : 79 ≤ f) (hp : kBits ≤ 64 * p.length)
    (h0 : limbsVal p ≠ 0) (hr : 0 < full + part) (skip : ℕ) (r : List (List (List (BitVec 64)))) (xs ys : List (List (BitVec 64)))
    (e : findArk f f' kBits p (entryConfig kBits rate full part) skip = some (r, xs, ys)) (capacity : ℕ) :
    isValid full part rate capacity r.length (r.headD []).length = true ↔ capacity = 1 := by
  obtain ⟨b, hb, _⟩ := C74_stream false kBits (rate + 1) full part
  obtain ⟨_, h1, _⟩ := (C74_ark (entryConfig kBits rate full part) b hb f hf kBits p hp h0 f' skip).1 r xs ys e
  have hl : r.length = full + part := by
    have := congrArg List.length h1
    rw [List.length_map, List.length_replicate] at this
    exact this
  have hh : (r.headD []).length = rate + 1 := by
    cases r with
    | nil => simp at hl; omega
    | cons a r =>
      rw [List.map_cons] at h1
      exact List.eq_of_mem_replicate (h1 ▸ List.mem_cons_self)
  simp only [isValid, hl, hh, Bool.and_eq_true, beq_iff_eq, true_and]
  omega

section
variable {F : Type} [Field F] [DecidableEq F]

/-- C74: the matrix has the entries `1 / (x + y)`; a sum that is zero stops the program. -/
theorem C74_mds (xs ys : List F) :
    (∀ r, mdsRows xs ys = some r → r.length = xs.length ∧ ∀ (i : ℕ) (hi : i < xs.length) (hr : i < r.length),
      r[i].length = ys.length ∧ ∀ (j : ℕ) (hj : j < ys.length) (hr' : j < r[i].length),
        xs[i] + ys[j] ≠ 0 ∧ r[i][j] = (xs[i] + ys[j])⁻¹) ∧
    (mdsRows xs ys = none ↔ ∃ x ∈ xs, ∃ y ∈ ys, x + y = 0) := mdsRows_spec xs ys

/-- C74: if no element of `xs` and no element of `ys` is repeated, every square submatrix is invertible: the matrix is
maximum distance separable. -/
theorem C74_mds_minors (xs ys : List F) (hx : xs.Nodup) (hy : ys.Nodup) (r : List (List F)) (h : mdsRows xs ys = some r)
    (n : ℕ) (row : Fin n → Fin xs.length) (col : Fin n → Fin ys.length) (hrow : Function.Injective row)
    (hcol : Function.Injective col) :
    (Matrix.of fun i j : Fin n => (r.getD (row i) []).getD (col j) 0).det ≠ 0 := by
  obtain ⟨h1, h2⟩ := (mdsRows_spec xs ys).1 r h
  have ent : ∀ (i : Fin xs.length) (j : Fin ys.length), xs[i] + ys[j] ≠ 0 ∧
      (r.getD i []).getD j 0 = (xs[i] + ys[j])⁻¹ := by
    intro i j
    obtain ⟨h3, h4⟩ := h2 i i.2 (by rw [h1]; exact i.2)
    obtain ⟨h5, h6⟩ := h4 j j.2 (by rw [h3]; exact j.2)
    refine ⟨h5, ?_⟩
    rw [List.getD_eq_getElem r [] (by rw [h1]; exact i.2), List.getD_eq_getElem _ 0 (by rw [h3]; exact j.2)]
    exact h6
  intro hdet
  obtain ⟨v, hv, hm⟩ := Matrix.exists_mulVec_eq_zero_iff.2 hdet
  refine hv (cauchy_ker (fun i => xs[row i]) (fun j => ys[col j]) ?_ ?_ (fun i j => (ent _ _).1) v fun i => ?_)
  · intro i j hij
    exact hrow (Fin.ext ((List.Nodup.getElem_inj_iff hx).1 hij))
  · intro i j hij
    exact hcol (Fin.ext ((List.Nodup.getElem_inj_iff hy).1 hij))
  · have := congrFun hm i
    rw [Matrix.mulVec, dotProduct] at this
    rw [Pi.zero_apply] at this
    rw [← this]
    refine Finset.sum_congr rfl fun j _ => ?_
    rw [Matrix.of_apply, (ent _ _).2]

/-- C74: a finding: repeated elements are not rejected although the comment asks for it (poseidon_config.h:54-57); two
rows of the matrix are then equal. -/
theorem C74_mds_repeated (xs ys : List F) (r : List (List F)) (h : mdsRows xs ys = some r) (i j : ℕ) (hi : i < xs.length)
    (hj : j < xs.length) (e : xs[i] = xs[j]) : r[i]? = r[j]? := by
  obtain ⟨h1, h2⟩ := (mdsRows_spec xs ys).1 r h
  rw [List.getElem?_eq_getElem (by rw [h1]; exact hi), List.getElem?_eq_getElem (by rw [h1]; exact hj)]
  obtain ⟨a1, a2⟩ := h2 i hi (by rw [h1]; exact hi)
  obtain ⟨b1, b2⟩ := h2 j hj (by rw [h1]; exact hj)
  congr 1
  refine List.ext_getElem (by rw [a1, b1]) fun k hk hk' => ?_
  rw [(a2 k (by rw [← a1]; exact hk) hk).2, (b2 k (by rw [← b1]; exact hk') hk').2, e]

end

example : mdsRows [(1 : ℚ), 1] [1, 2] = some [[1 / 2, 1 / 3], [1 / 2, 1 / 3]] ∧ mdsRows [(1 : ℚ), 2] [3, -2] = none := by
  constructor <;> norm_num [mdsRows]

/-- C74: the outputs can be computed with a register in a number: of `n` pairs the outputs are the first ones of the
stream. -/
theorem C74_compute (b : ℕ → Bool) (inverse : Bool) (k t rf rp : ℕ) (hb : Spec.Stream inverse k t rf rp b) (r : ℕ)
    (hr : ∀ i, r.testBit i = (decide (i < 80) && b i)) (n : ℕ) : ∃ m,
      shrink ((regBits (160 + 2 * n) r).drop 160) = (List.range m).map (Spec.out b) := by
  refine ⟨Nat.count (fun i => Spec.first b (0 + i)) n, ?_⟩
  rw [regBits_spec hb.step (160 + 2 * n) 0 r (by simpa using hr), ← List.map_drop]
  have := shrink_spec b n 0
  simp only [Nat.mul_zero, Nat.add_zero, Nat.count_zero, Nat.zero_add] at this ⊢
  rw [← this]
  congr 1
  refine List.ext_getElem (by simp) fun i _ _ => ?_
  simp only [List.getElem_map, List.getElem_drop, List.getElem_range]
  congr 1
  omega

/-- The first constant of Poseidon for the scalar field of BN254, width three, 8 full and 57 partial rounds. -/
example (b : ℕ → Bool) (hb : Spec.Stream false 254 3 8 57 b) : Spec.candidate b 254 0 0 =
    0x0ee9a592ba9a9518d05986d656f40c2114c4993c11bb29938d21d47304cd8e6e := by
  have hs := ((stream_iff ⟨false, 254, 3, 8, 57⟩ b).1 hb).1
  have hr : ∀ i, Nat.testBit 0xfffffffe70103001fc02 i = (decide (i < 80) && b i) := by
    intro i
    by_cases hi : i < 80
    · have : ∀ i < 80, Nat.testBit 0xfffffffe70103001fc02 i = (seed ⟨false, 254, 3, 8, 57⟩).state i := by decide +kernel
      rw [this i hi, hs i hi, decide_eq_true hi, Bool.true_and]
    · rw [decide_eq_false hi, Bool.false_and]
      refine Nat.testBit_lt_two_pow (lt_of_lt_of_le (show _ < 2 ^ 80 by norm_num) (Nat.pow_le_pow_right (by omega) (by omega)))
  obtain ⟨m, hm⟩ := C74_compute b _ _ _ _ _ hb _ hr 600
  have hl : 254 ≤ (shrink ((regBits (160 + 2 * 600) 0xfffffffe70103001fc02).drop 160)).length := by decide +kernel
  have hv : Spec.number ((shrink ((regBits (160 + 2 * 600) 0xfffffffe70103001fc02).drop 160)).take 254) =
    0x0ee9a592ba9a9518d05986d656f40c2114c4993c11bb29938d21d47304cd8e6e := by decide +kernel
  rw [hm, List.length_map, List.length_range] at hl
  rw [hm, ← List.map_take, List.take_range, Nat.min_eq_left hl] at hv
  rw [← hv, Spec.candidate]
  simp only [Nat.zero_add, Nat.mul_zero]

end Tachyon.Props
