import Verif.Model.Pedersen
import Verif.Spec.F17
import Mathlib.Algebra.BigOperators.Fin
import Mathlib.Algebra.Module.BigOperators
import Mathlib.Algebra.NoZeroSMulDivisors.Basic
import Mathlib.Tactic.Abel
import Mathlib.Tactic.FieldSimp
import Mathlib.Tactic.Ring
import Mathlib.Tactic.Module
/-! C102: Pedersen commitments. -/
namespace Tachyon.Props
open Tachyon.Pedersen Tachyon.Kzg

section
variable {F G : Type} [Field F] [DecidableEq F] [AddCommGroup G] [Module F G]

/-- The sum of the multiples of the generators. -/
def vectorSum {n : ℕ} (g : Fin n → G) (v : Fin n → F) : G := ∑ i, v i • g i

theorem msm_ofFn {n : ℕ} (g : Fin n → G) (v : Fin n → F) : msm (List.ofFn g) (List.ofFn v) = some (vectorSum g v) := by
  rw [msm, if_neg (by simp), vectorSum, ← List.sum_ofFn]
  congr 2
  refine List.ext_getElem (by simp) fun i h1 h2 => ?_
  simp

/-- C102: `Commit` gives `r h + v₀ g₀ + … + vₙ₋₁ gₙ₋₁` for all vectors as long as the generators. -/
theorem C102_commit {n : ℕ} (s : State G) (g : Fin n → G) (hg : s.generators = List.ofFn g) (v : Fin n → F) (r : F) :
    s.commit (List.ofFn v) r = some (r • s.h + ∑ i, v i • g i) := by
  rw [State.commit, hg, msm_ofFn]
  rfl

/-- C102: a vector of another length is refused. -/
theorem C102_refuse (s : State G) (v : List F) (r : F) (h : v.length ≠ s.generators.length) : s.commit v r = none := by
  rw [State.commit, msm, if_pos (Ne.symm h)]
  rfl

/-- C102: commitments of vectors can be added and multiplied instead of the vectors. -/
theorem C102_linear {n : ℕ} (s : State G) (hs : s.generators.length = n) (v w : Fin n → F) (r t a b : F) (c d : G)
    (hc : s.commit (List.ofFn v) r = some c) (hd : s.commit (List.ofFn w) t = some d) :
    s.commit (List.ofFn fun i => a * v i + b * w i) (a * r + b * t) = some (a • c + b • d) := by
  subst hs
  have hg : s.generators = List.ofFn (fun i : Fin s.generators.length => s.generators[i]) := by simp
  rw [C102_commit s _ hg, Option.some.injEq] at hc hd ⊢
  subst hc hd
  simp only [add_smul, mul_smul, Finset.sum_add_distrib, smul_add, ← Finset.smul_sum]
  abel

/-- C102: perfect hiding: if `h` is not zero and generates the group, then every element of the group is for every vector its commitment, with
exactly one blinding factor. -/
theorem C102_hiding (s : State G) (h0 : s.h ≠ 0) (hgen : ∀ c : G, ∃ r : F, r • s.h = c) (v : List F) (hv : v.length = s.generators.length)
    (c : G) : ∃! r : F, s.commit v r = some c := by
  have hm : ∃ m, msm s.generators v = some m := ⟨_, by rw [msm, if_neg (not_not.2 hv.symm)]⟩
  obtain ⟨m, hm⟩ := hm
  obtain ⟨r, hr⟩ := hgen (c - m)
  refine ⟨r, by simp [State.commit, hm, hr], fun t ht => ?_⟩
  simp only [State.commit, hm, Option.map_some, Option.some.injEq] at ht
  have : t • s.h = r • s.h := by rw [hr, ← ht]; abel
  have h1 : (t - r) • s.h = 0 := by rw [sub_smul, this, sub_self]
  rcases smul_eq_zero.1 h1 with h | h
  · exact sub_eq_zero.1 h
  · exact absurd h h0

/-- C102: binding: who opens a commitment in two ways knows a relation between `h` and the generators that is not trivial. -/
theorem C102_binding {n : ℕ} (s : State G) (g : Fin n → G) (hg : s.generators = List.ofFn g) (v w : Fin n → F) (r t : F) (c : G)
    (h1 : s.commit (List.ofFn v) r = some c) (h2 : s.commit (List.ofFn w) t = some c) (hne : v ≠ w ∨ r ≠ t) :
    ∃ (a : F) (b : Fin n → F), a • s.h + ∑ i, b i • g i = 0 ∧ (a ≠ 0 ∨ ∃ i, b i ≠ 0) ∧ (s.h ≠ 0 → ∃ i, b i ≠ 0) := by
  rw [C102_commit s g hg, Option.some.injEq] at h1 h2
  have key : (r - t) • s.h + ∑ i, (v i - w i) • g i = 0 := by
    simp only [sub_smul, Finset.sum_sub_distrib]
    have : r • s.h + ∑ i, v i • g i - (t • s.h + ∑ i, w i • g i) = 0 := by rw [h1, h2, sub_self]
    rw [← this]
    abel
  have hv : v ≠ w → ∃ i, v i - w i ≠ 0 := fun h => by
    obtain ⟨i, hi⟩ := Function.ne_iff.1 h
    exact ⟨i, sub_ne_zero.2 hi⟩
  refine ⟨r - t, fun i => v i - w i, key, ?_, fun h0 => ?_⟩
  · rcases hne with h | h
    · exact Or.inr (hv h)
    · exact Or.inl (sub_ne_zero.2 h)
  · rcases hne with h | h
    · exact hv h
    · refine hv fun e => ?_
      subst e
      simp only [sub_self, zero_smul, Finset.sum_const_zero, add_zero] at key
      rcases smul_eq_zero.1 key with h' | h'
      · exact h (sub_eq_zero.1 h')
      · exact h0 h'

/-- C102: for one generator this is its discrete logarithm. -/
theorem C102_binding_log (s : State G) (g : G) (hg : s.generators = [g]) (v w r t : F) (c : G) (h1 : s.commit [v] r = some c)
    (h2 : s.commit [w] t = some c) (hne : v ≠ w) : g = ((t - r) / (v - w)) • s.h := by
  have e1 := C102_commit s (fun _ : Fin 1 => g) (by simpa using hg) (fun _ => v) r
  have e2 := C102_commit s (fun _ : Fin 1 => g) (by simpa using hg) (fun _ => w) t
  simp only [List.ofFn_succ, List.ofFn_zero, h1, h2, Finset.univ_unique, Finset.sum_const, Finset.card_singleton, one_smul,
    Option.some.injEq] at e1 e2
  have hd : v - w ≠ 0 := sub_ne_zero.2 hne
  have key : (v - w) • g = (t - r) • s.h := by
    rw [sub_smul, sub_smul, sub_eq_sub_iff_add_eq_add, add_comm, ← e1, e2]
  rw [div_eq_inv_mul, mul_smul, ← key, inv_smul_smul₀ hd]

/-! ## Batches -/

theorem commitAll_eq {n : ℕ} (g : Fin n → G) (m : ℕ) (vs : ℕ → Fin n → F) (rs : ℕ → F) : ∀ (order : List ℕ) (s : State G),
    s.generators = List.ofFn g → s.batchMode = true → s.batchCount = m → s.batch.length = m → (∀ i ∈ order, i < m) →
    ∃ t : State G, s.commitAll (order.map fun i => (i, List.ofFn (vs i), rs i)) = some t ∧ t.h = s.h ∧ t.generators = s.generators ∧
      t.batch.length = m ∧ ∀ i < m, t.batch[i]? = if i ∈ order then some (∑ k, vs i k • g k) else s.batch[i]?
  | [], s, _, _, _, hb, _ => ⟨s, rfl, rfl, rfl, hb, fun i _ => by simp⟩
  | j :: order, s, hg, hm, hc, hb, ho => by
    have hj : j < m := ho j (List.mem_cons_self ..)
    have hstep : s.commitAt (List.ofFn (vs j)) (rs j) j = some (true, { s with batch := s.batch.set j (∑ k, vs j k • g k) }) := by
      rw [State.commitAt, if_neg (by rw [hm]; decide), if_neg (not_not.2 (hb.trans hc.symm))]
      simp only
      rw [if_neg (by omega), show msm s.generators (List.ofFn (vs j)) = some (∑ k, vs j k • g k) by rw [hg, msm_ofFn]; rfl]
    obtain ⟨t, h1, h2, h3, h4, h5⟩ := commitAll_eq g m vs rs order { s with batch := s.batch.set j (∑ k, vs j k • g k) } hg hm hc
      (by simpa using hb) (fun i hi => ho i (List.mem_cons_of_mem _ hi))
    refine ⟨t, ?_, h2, h3, h4, fun i hi => ?_⟩
    · rw [List.map_cons, State.commitAll, hstep, Option.bind_some]
      exact h1
    · rw [h5 i hi]
      by_cases e : i = j
      · subst e
        simp [hb, hj]
      · simp [e, List.getElem?_set_ne (Ne.symm e)]

/-- C102: a batch: after `SetBatchMode` the vectors may be committed to in any order; `GetBatchCommitments` gives their sums in the order of
the indices, and leaves the state as it was before, ready for the next batch. Finding: the sums do not have the blinding factors in them. -/
theorem C102_batch {n m : ℕ} (hm : m ≠ 0) (s : State G) (g : Fin n → G) (hg : s.generators = List.ofFn g) (hs : s.batchCount = 0)
    (hb : s.batch = []) (hmode : s.batchMode = false) (vs : ℕ → Fin n → F) (rs : ℕ → F) (order : List ℕ) (ho : ∀ i, i ∈ order ↔ i < m) :
    ∃ t u, s.setBatchMode m = some t ∧ t.commitAll (order.map fun i => (i, List.ofFn (vs i), rs i)) = some u ∧
      u.getBatch = ((List.range m).map fun i => ∑ k, vs i k • g k, s) := by
  obtain ⟨h, gs, b, bm, bc⟩ := s
  simp only at hg hs hb hmode
  subst hg hs hb hmode
  refine ⟨⟨h, List.ofFn g, List.replicate m 0, true, m⟩, ?_⟩
  obtain ⟨u, h1, h2, h3, h4, h5⟩ := commitAll_eq g m vs rs order ⟨h, List.ofFn g, List.replicate m 0, true, m⟩ rfl rfl rfl (by simp)
    (fun i hi => (ho i).1 hi)
  refine ⟨u, by simp [State.setBatchMode, hm, resize], h1, ?_⟩
  rw [State.getBatch, h2, h3]
  simp only [Prod.mk.injEq, and_true]
  refine List.ext_getElem? fun i => ?_
  by_cases hi : i < m
  · rw [h5 i hi, if_pos ((ho i).2 hi)]
    simp [hi]
  · rw [List.getElem?_eq_none (by omega), List.getElem?_eq_none (by simp; omega)]

/-- C102: finding: so a commitment made in a batch is not that made alone, unless the blinding factor or `h` is zero; and it shows the vector to
who can guess it. -/
theorem C102_unblinded (s : State G) (v : List F) (r : F) (c : G) (hc : s.commit v r = some c) (hb : s.batchMode = true)
    (hl : s.batch.length = s.batchCount) (i : ℕ) (hi : i < s.batchCount) : ∃ t c', s.commitAt v r i = some (true, t) ∧ t.batch[i]? = some c' ∧
      s.commit v 0 = some c' ∧ (c' = c ↔ r = 0 ∨ s.h = 0) := by
  rw [State.commit, Option.map_eq_some_iff] at hc
  obtain ⟨m, hm, rfl⟩ := hc
  refine ⟨{ s with batch := s.batch.set i m }, m, ?_, ?_, by rw [State.commit, hm]; simp, ?_⟩
  · rw [State.commitAt, if_neg (by rw [hb]; decide), if_neg (not_not.2 hl)]
    simp only
    rw [if_neg (by omega), hm]
  · simp [hl, hi]
  · rw [right_eq_add, smul_eq_zero]

/-- C102: a batch cannot be started within a batch, and there are no commitments at an index without a batch or outside of it. -/
theorem C102_batch_checks (s : State G) (v : List F) (r : F) (i m : ℕ) :
    (s.batchCount ≠ 0 → m ≠ 0 → s.setBatchMode m = none) ∧ (s.batchMode = false → s.commitAt v r i = none) ∧
    (s.batchCount ≤ i → s.commitAt v r i = none) := by
  refine ⟨fun h hm => by rw [State.setBatchMode, if_neg hm, if_pos h], fun h => by rw [State.commitAt, h]; rfl, fun h => ?_⟩
  rw [State.commitAt]
  split
  · rfl
  · have : (resize s.batch s.batchCount).length = s.batchCount := by simp [resize]; omega
    by_cases hl : s.batch.length = s.batchCount
    · simp [hl, h]
    · simp [hl, h, this]

/-- C102: finding: a batch of no vectors is no batch, and `Commit` after it fails. -/
theorem C102_batch_zero (s : State G) : s.setBatchMode 0 = some s := rfl

/-! ## Parameters -/

/-- C102: `Setup` gives as many generators as asked for. Finding: it does not compare with `MaxSize`, though what was written can be read only
up to it. -/
theorem C102_setup (s : State G) (random : ℕ → G) (size maxSize : ℕ) : (s.setup random size).n = size ∧
    ((∃ t, (s.setup random size).copy maxSize = some t) ↔ size ≤ maxSize) := by
  have h : (s.setup random size).generators.length = size := by simp [State.setup]
  refine ⟨h, ?_⟩
  rw [State.copy, new, h]
  by_cases hs : maxSize < size
  · rw [if_pos hs]
    simp
    omega
  · rw [if_neg hs]
    simp
    omega

/-- C102: what was read commits like what was written. -/
theorem C102_copy (s t : State G) (maxSize : ℕ) (h : s.copy maxSize = some t) (v : List F) (r : F) : t.commit v r = s.commit v r := by
  rw [State.copy, new] at h
  split at h
  · simp at h
  · rw [Option.some.injEq] at h
    subst h
    rfl

end

/-- Two generators in the integers modulo 17. -/
def ex102 : State F17 := ⟨5, [2, 3], [], false, 0⟩

example : ex102.commit [4, 6] (7 : F17) = some 10 ∧ ex102.commit [4] (7 : F17) = none := by decide

/-- The batch has 26 = 9 in it where the commitment is 10. -/
example : ((ex102.setBatchMode 2).bind fun t => (t.commitAll [(1, [4, 6], (7 : F17)), (0, [1, 1], 2)]).map State.getBatch) = some ([5, 9], ex102) := by
  decide

example : (ex102.setup (fun i => i) 5).copy 4 = none := by decide

end Tachyon.Props
