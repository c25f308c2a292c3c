import Verif.Proofs.SumcheckRun
import Verif.Spec.F7
/-! C42: the sumcheck protocol for sums of products of multilinear polynomials. -/
namespace Tachyon.Props
open Tachyon.Sumcheck Tachyon.Multilinear Tachyon.Spec

variable {F : Type*} [Field F] [DecidableEq F]

/-- The sum over the hypercube of `∑ c ∏ table`, for terms given by coefficients and pointers to tables. -/
def cubeSum (heap : ℕ → List F) (n : ℕ) (ts : List (F × List ℕ)) : F :=
  ∑ i ∈ Finset.range (2 ^ n), (ts.map fun t => t.1 * (t.2.map fun p => (heap p).getD i 0).prod).sum

/-- The value of the same polynomial at a point. -/
def polyAt (heap : ℕ → List F) (n : ℕ) (ts : List (F × List ℕ)) (pt : ℕ → F) : F :=
  (ts.map fun t => t.1 * (t.2.map fun p => mle n (fun i => (heap p).getD i 0) pt).prod).sum

/-- The terms without the empty products, which `AddTerm` ignores. -/
def proper (ts : List (F × List ℕ)) : List (F × List ℕ) := ts.filter fun t => !t.2.isEmpty

omit [DecidableEq F] in
theorem gsum_eq_cubeSum {heap : ℕ → List F} {P : ℕ → Prop} {lc : LinComb F} (hg : Good P lc) (n : ℕ) :
    gsum lc.terms n (tab (lc.tables heap)) = cubeSum heap n lc.mean := by
  unfold gsum cubeSum
  refine Finset.sum_congr rfl fun i _ => ?_
  have := mean_val (heap := heap) hg fun e => e.getD i 0
  rw [← this]
  rfl

omit [DecidableEq F] in
theorem gsum_eq_polyAt {heap : ℕ → List F} {P : ℕ → Prop} {lc : LinComb F} (hg : Good P lc) (pt : List F) :
    (gsum lc.terms 0 fun ix => foldAll pt (tab (lc.tables heap) ix)) =
      polyAt heap pt.length lc.mean fun j => pt.getD j 0 := by
  unfold gsum polyAt
  rw [Nat.pow_zero, Finset.sum_range_one]
  have := mean_val (heap := heap) hg fun e => foldAll pt (fun i => e.getD i 0) 0
  simp only [foldAll_eq, Nat.mul_zero, Nat.zero_add] at this
  rw [← this]
  unfold termVal
  congr 1
  refine List.map_congr_left fun t _ => ?_
  congr 2
  refine List.map_congr_left fun ix _ => ?_
  beta_reduce
  rw [foldAll_eq]
  simp only [Nat.mul_zero, Nat.zero_add]
  rfl

section
variable {heap : ℕ → List F} {n : ℕ} {ts : List (F × List ℕ)}

omit [Field F] [DecidableEq F] in
theorem good_build (hn : n ≤ 62) (hlen : ∀ t ∈ ts, ∀ p ∈ t.2, (heap p).length = 2 ^ n) :
    ∃ lc, build heap n ts = some lc ∧ Good (fun p => (heap p).length = 2 ^ n) lc ∧ lc.numVars = n ∧
      (∀ e ∈ lc.tables heap, e.length = 2 ^ n) ∧
      lc.maxEvals = (ts.map fun t => t.2.length).foldl max 0 ∧ lc.mean = proper ts ∧
      lc.terms.length = (proper ts).length ∧ ∀ t ∈ lc.terms, t.indexes ≠ [] := by
  obtain ⟨lc, h1, h2, h3, h4, h5⟩ := build_spec (heap := heap) (n := n) (ts := ts)
    (P := fun p => (heap p).length = 2 ^ n) fun t ht p hp =>
    ⟨degree_eq (by omega) (hlen t ht p hp), hlen t ht p hp⟩
  have hmem : ∀ t ∈ lc.terms, (t.coeff, t.indexes.map fun ix => lc.flattened.getD ix 0) ∈ proper ts := by
    intro t ht
    rw [proper, ← h5]
    exact List.mem_map_of_mem ht
  refine ⟨lc, h1, h2, h3, ?_, h4, h5, ?_, ?_⟩
  · intro e he
    obtain ⟨p, hp, rfl⟩ := List.mem_map.1 he
    exact h2.src p hp
  · rw [proper, ← h5, LinComb.mean, List.length_map]
  · intro t ht he
    have := hmem t ht
    rw [proper, List.mem_filter, he] at this
    simp at this

omit [DecidableEq F] in
/-- C42: `AddTerm` accepts tables with the right number of variables, and `Combine` is the sum over the
hypercube, for every number of threads. -/
theorem C42_combine (hn : n ≤ 62) (hlen : ∀ t ∈ ts, ∀ p ∈ t.2, (heap p).length = 2 ^ n)
    {threads : ℕ} (ht : 0 < threads) (hth : threads ≤ 2 ^ 62) (hts : ts.length ≤ 2 ^ 62) :
    ∃ lc, build heap n ts = some lc ∧ lc.combine threads heap = some (cubeSum heap n (proper ts)) := by
  obtain ⟨lc, h1, h2, h3, h4, h5, h6, h7, h8⟩ := good_build hn hlen
  refine ⟨lc, h1, ?_⟩
  have hpl : (proper ts).length ≤ ts.length := List.length_filter_le _ _
  rw [← h6, ← gsum_eq_cubeSum h2]
  unfold LinComb.combine
  have hix : ∀ t ∈ lc.terms, ∀ ix ∈ t.indexes, ix < (lc.tables heap).length := by
    simpa [LinComb.tables] using h2.index
  rw [parallelizeMap_sum (w := fun t => ∑ i ∈ Finset.range (2 ^ n), termVal (tab (lc.tables heap)) i t) ht (by omega)
    (by omega) fun l hl => sumTerms_eq fun t ht' => by
      rw [h3]; exact combine_term ht hn hth h4 (h8 t (hl t ht')) (hix t (hl t ht'))]
  congr 1
  unfold gsum
  generalize lc.terms = l
  induction l with
  | nil => simp
  | cons t l ih => simp only [List.map_cons, List.sum_cons, ih, Finset.sum_add_distrib]

/-- C42: `Evaluate` is the value of the polynomial, for every number of threads. -/
theorem C42_evaluate (hn : n ≤ 62) (hlen : ∀ t ∈ ts, ∀ p ∈ t.2, (heap p).length = 2 ^ n)
    {threads : ℕ} (ht : 0 < threads) (hth : threads ≤ 2 ^ 62) (hts : ts.length ≤ 2 ^ 62)
    (hps : ∀ t ∈ ts, t.2.length ≤ 2 ^ 62) (pt : List F) (hpt : pt.length = n) :
    ∃ lc, build heap n ts = some lc ∧
      lc.evaluate threads heap pt = some (polyAt heap n (proper ts) fun j => pt.getD j 0) := by
  obtain ⟨lc, h1, h2, h3, h4, h5, h6, h7, h8⟩ := good_build hn hlen
  refine ⟨lc, h1, ?_⟩
  have hpl : (proper ts).length ≤ ts.length := List.length_filter_le _ _
  rw [← h6, ← hpt, ← gsum_eq_polyAt h2]
  unfold LinComb.evaluate
  rw [if_neg (by rw [h3, hpt]; simp)]
  have hix : ∀ t ∈ lc.terms, ∀ ix ∈ t.indexes, ix < (lc.tables heap).length := by
    simpa [LinComb.tables] using h2.index
  have hl62 : ∀ t ∈ lc.terms, t.indexes.length ≤ 2 ^ 62 := by
    intro t ht
    have : (t.coeff, t.indexes.map fun ix => lc.flattened.getD ix 0) ∈ lc.mean := List.mem_map_of_mem ht
    rw [h6, proper, List.mem_filter] at this
    simpa using hps _ this.1
  rw [parallelizeMap_sum (w := fun t => t.coeff * (t.indexes.map fun ix => foldAll pt (tab (lc.tables heap) ix) 0).prod)
    ht (by omega) (by omega) fun l hl => sumTerms_eq fun t ht' =>
      evaluate_term ht hn hth (hl62 t (hl t ht')) h4 hpt (hix t (hl t ht'))]
  unfold gsum
  rw [Nat.pow_zero, Finset.sum_range_one]
  rfl

/-- C42: `Evaluate` refuses points with another number of coordinates. -/
theorem C42_evaluate_checks (hn : n ≤ 62) (hlen : ∀ t ∈ ts, ∀ p ∈ t.2, (heap p).length = 2 ^ n) {threads : ℕ}
    (pt : List F) (hpt : pt.length ≠ n) :
    ∃ lc, build heap n ts = some lc ∧ lc.evaluate threads heap pt = none := by
  obtain ⟨lc, h1, h2, h3, _⟩ := good_build hn hlen
  refine ⟨lc, h1, ?_⟩
  unfold LinComb.evaluate
  rw [if_pos (by rw [h3]; exact hpt)]

/-- C42: `InterpolateUniPoly` evaluates every polynomial of degree less than the number of values that has these
values at `0, 1, …`; `canon` is `ToBigInt`. The number of values may exceed the characteristic. -/
theorem C42_interpolate {p : ℕ} [CharP F p] {canon : F → ℕ} (hcan : ∀ x, ((canon x : ℕ) : F) = x)
    (hlt : ∀ x, canon x < p) {threads : ℕ} (ht : 0 < threads) (ht' : threads < 128) {poly : List F}
    (h0 : poly ≠ []) (hlen : poly.length ≤ 2 ^ 62) (Q : Polynomial F) (hdeg : Q.degree < poly.length)
    (hQ : ∀ i < poly.length, Q.eval (i : F) = poly.getD i 0) (x : F) :
    interpolate canon threads poly x = some (Q.eval x) :=
  interpolate_eq hcan hlt ht ht' h0 hlen Q hdeg hQ x

/-- The largest number of factors. -/
def maxFactors (ts : List (F × List ℕ)) : ℕ := (ts.map fun t => t.2.length).foldl max 0

omit [Field F] [DecidableEq F] in
theorem maxFactors_pos (h : proper ts ≠ []) : 1 ≤ maxFactors ts := by
  obtain ⟨t, ht⟩ := List.exists_mem_of_ne_nil _ h
  obtain ⟨h1, h2⟩ := List.mem_filter.1 ht
  have h3 : 1 ≤ t.2.length := by
    cases h : t.2 with
    | nil => rw [h] at h2; simp at h2
    | cons => simp
  refine h3.trans ?_
  have key : ∀ (l : List ℕ) (a b : ℕ), (b ∈ l ∨ b ≤ a) → b ≤ l.foldl max a := by
    intro l
    induction l with
    | nil => intro a b h; simpa using h
    | cons x l ih =>
      intro a b h
      rw [List.foldl_cons]
      refine ih _ _ ?_
      rcases h with h | h
      · rcases List.mem_cons.1 h with rfl | h
        · exact .inr (le_max_right _ _)
        · exact .inl h
      · exact .inr (h.trans (le_max_left _ _))
  exact key _ _ _ (.inl (List.mem_map_of_mem h1))

/-- C42, completeness: with the honest prover the verifier accepts for all challenges, and the subclaim is the
value of the polynomial at the challenges. -/
theorem C42_complete {p : ℕ} [CharP F p] {canon : F → ℕ} (hcan : ∀ x, ((canon x : ℕ) : F) = x)
    (hlt : ∀ x, canon x < p) {threads maxDegree : ℕ} (ht : 0 < threads) (ht' : threads < 128)
    (hn : n ≤ 62) (hlen : ∀ t ∈ ts, ∀ p ∈ t.2, (heap p).length = 2 ^ n) (hts : ts.length ≤ 2 ^ 62)
    (hne : proper ts ≠ []) (hmd : maxFactors ts ≤ maxDegree) (hmd' : maxFactors ts < 2 ^ 62) (r : F) (rs : List F)
    (hrs : rs.length + 1 = n) :
    ∃ lc, build heap n ts = some lc ∧ runProtocol canon threads maxDegree heap lc r rs = some true := by
  obtain ⟨lc, h1, h2, h3, h4, h5, h6, h7, h8⟩ := good_build hn hlen
  have hix : ∀ t ∈ lc.terms, ∀ ix ∈ t.indexes, ix < (lc.tables heap).length := by
    simpa [LinComb.tables] using h2.index
  have h5' : lc.maxEvals = maxFactors ts := h5
  have hps : ∀ t ∈ ts, t.2.length ≤ 2 ^ 62 := by
    intro t ht
    by_cases he : t.2 = []
    · simp [he]
    · have hm : t ∈ lc.mean := by
        rw [h6]; exact List.mem_filter.2 ⟨ht, by cases h : t.2 <;> simp_all⟩
      obtain ⟨t', h', rfl⟩ := List.mem_map.1 hm
      have := h2.le t' h'
      simp; omega
  obtain ⟨lc1, g1, g2⟩ := C42_combine hn hlen ht (by omega) hts
  obtain ⟨lc2, g3, g4⟩ := C42_evaluate hn hlen ht (by omega) hts hps (r :: rs) (by simpa using hrs)
  rw [h1] at g1 g3
  cases g1; cases g3
  refine ⟨lc, h1, ?_⟩
  unfold runProtocol Prover.new
  rw [if_neg (by omega), Option.bind_some]
  rw [send_eq ht (by omega) (m := rs.length) (by omega) (by show lc.numVars = 0 + 1 + rs.length; omega)
    (by show lc.maxEvals ≤ maxDegree; omega) hix, Option.bind_some]
  simp only
  unfold Verifier.receive Verifier.new
  rw [if_pos (by rw [h3]; simp; omega), Option.bind_some]
  obtain ⟨v', k1, k2, k3, k4, k5⟩ := protocolGo_eq (maxDegree := maxDegree) ht (by omega) rs
    ⟨0 + 1, lc.numVars, lc.maxEvals, [], lc.terms, lc.tables heap⟩
    ⟨lc.numVars, lc.maxEvals, [] ++ [r], [] ++ [message lc.terms lc.maxEvals rs.length (tab (lc.tables heap))]⟩ r
    (by omega) (by simp) (by simp; omega) (by show lc.maxEvals ≤ maxDegree; omega) (by rw [hrs]; exact h4) hix (by simp; omega)
  simp only at k1 k2 k3 k4 k5
  rw [k1, Option.bind_some, g2, Option.bind_some]
  have hpolys : v'.polys = honest lc.terms lc.maxEvals (tab (lc.tables heap)) (r :: rs) := by rw [k5]; rfl
  have hrand : v'.randomness = r :: rs := by rw [k4]; rfl
  have hlenp : v'.polys.length = v'.numVars := by
    rw [hpolys, k2, h3, ← hrs]
    generalize tab (lc.tables heap) = T
    have : ∀ (l : List F) (T : ℕ → ℕ → F), (honest lc.terms lc.maxEvals T l).length = l.length := by
      intro l
      induction l with
      | nil => intro T; rfl
      | cons a l ih => intro T; rw [honest, List.length_cons, ih, List.length_cons]
    rw [this]; rfl
  unfold Verifier.check
  rw [if_pos hlenp, k3, hpolys, hrand]
  have hsum : cubeSum heap n (proper ts) = gsum lc.terms (r :: rs).length (tab (lc.tables heap)) := by
    rw [gsum_eq_cubeSum h2, h6, ← hrs]; rfl
  rw [hsum, checkLoop_honest hcan hlt ht ht' h2.le (by omega) (by rw [h5']; exact maxFactors_pos hne),
    Option.map_some, Option.map_some, Option.bind_some]
  simp only
  rw [g4, Option.map_some, gsum_eq_polyAt h2, h6, List.length_cons, hrs]
  simp

/-- C42, soundness: against any prover strategy `σ`, which maps the challenges received so far to the next
message, and any wrong sum, the verifier accepts with a true subclaim for at most `n d |F|^(n-1)` of the `|F|^n`
challenge vectors, `d` being the largest number of factors. -/
theorem C42_sound [Fintype F] {p : ℕ} [CharP F p] {canon : F → ℕ} (hcan : ∀ x, ((canon x : ℕ) : F) = x)
    (hlt : ∀ x, canon x < p) {threads : ℕ} (ht : 0 < threads) (ht' : threads < 128)
    (hn : n ≤ 62) (hlen : ∀ t ∈ ts, ∀ p ∈ t.2, (heap p).length = 2 ^ n) (hmd : maxFactors ts < p)
    (hmd' : maxFactors ts < 2 ^ 62) (σ : List F → List F) (claim : F) (hclaim : claim ≠ cubeSum heap n (proper ts)) :
    ∃ lc, build heap n ts = some lc ∧
      (Finset.univ.filter fun rs : Fin n → F =>
        (⟨lc.numVars, lc.maxEvals, List.ofFn rs,
          (List.range n).map fun i => σ ((List.ofFn rs).take i)⟩ : Verifier F).check canon threads claim =
          some (some (List.ofFn rs, polyAt heap n (proper ts) fun j => (List.ofFn rs).getD j 0))).card ≤
        n * maxFactors ts * Fintype.card F ^ (n - 1) := by
  obtain ⟨lc, h1, h2, h3, h4, h5, h6, h7, h8⟩ := good_build hn hlen
  have h5' : lc.maxEvals = maxFactors ts := h5
  refine ⟨lc, h1, ?_⟩
  have key := soundness hcan hlt ht ht' (ts := lc.terms) (d := lc.maxEvals) h2.le (by omega) (by omega) n
    (tab (lc.tables heap)) σ claim (by rw [gsum_eq_cubeSum h2, h6]; exact hclaim)
  rw [h5'] at key
  unfold count at key
  refine le_trans (Finset.card_le_card fun rs => ?_) key
  simp only [Finset.mem_filter, Finset.mem_univ, true_and]
  intro h
  unfold Verifier.check at h
  rw [if_pos (by simp [h3]), Option.map_eq_some_iff] at h
  obtain ⟨y, hy1, hy2⟩ := h
  rw [Option.map_eq_some_iff] at hy2
  obtain ⟨z, rfl, hz⟩ := hy2
  rw [Prod.mk.injEq] at hz
  rw [play_eq, List.length_ofFn, gsum_eq_polyAt h2, h6, List.length_ofFn, ← hz.2, ← h5']
  exact hy1

omit [Field F] [DecidableEq F] in
/-- C42 (finding): `AddTerm` drops a term without factors, so a constant does not count. -/
theorem C42_constant_dropped (lc : LinComb F) (c : F) : addTerm heap lc c [] = some lc := rfl

omit [Field F] [DecidableEq F] in
/-- C42: a table with another number of variables fails a `CHECK`. -/
theorem C42_addTerm_check (lc : LinComb F) (c : F) {ptrs : List ℕ} {q : ℕ} (hq : q ∈ ptrs)
    (h : Multilinear.degree (heap q) ≠ lc.numVars) : addTerm heap lc c ptrs = none := by
  unfold addTerm
  rw [if_neg (by rw [List.isEmpty_iff]; rintro rfl; simp at hq)]
  have key : ∀ (l : List ℕ) (acc : LinComb F × List ℕ), acc.1.numVars = lc.numVars → q ∈ l →
      l.foldlM (addIndex heap) acc = none := by
    intro l
    induction l with
    | nil => intro acc _ h; simp at h
    | cons x l ih =>
      intro acc hv hm
      rw [List.foldlM_cons]
      by_cases hx : Multilinear.degree (heap x) ≠ acc.1.numVars
      · unfold addIndex; rw [if_pos hx]; rfl
      · rcases List.mem_cons.1 hm with rfl | hm
        · exact absurd h (by rw [← hv]; exact hx)
        · unfold addIndex
          rw [if_neg hx]
          cases acc.1.lookup.lookup x <;> exact ih _ hv hm
  rw [key ptrs _ rfl hq]
  rfl

/-- C42 (finding): a linear combination without terms makes the verifier read the second of one value. -/
theorem C42_no_terms {canon : F → ℕ} {threads : ℕ} {e r asserted : F} {polys : List (List F)} {rs : List F} :
    checkLoop canon threads 0 asserted ([e] :: polys) (r :: rs) = none := rfl

/-- C42: a message with the wrong number of values fails a `CHECK`. -/
theorem C42_message_check {canon : F → ℕ} {threads d : ℕ} {r asserted : F} {e : List F} {polys : List (List F)}
    {rs : List F} (h : e.length ≠ d + 1) : checkLoop canon threads d asserted (e :: polys) (r :: rs) = none := by
  unfold checkLoop
  rw [if_neg h]

/-- C42: the verifier checks the number of rounds. -/
theorem C42_rounds_check {canon : F → ℕ} {threads : ℕ} {v : Verifier F} {asserted : F} :
    (v.polys.length ≠ v.numVars → v.check canon threads asserted = none) ∧
    (v.numVars ≤ v.polys.length → ∀ msg r, v.receive msg r = none) :=
  ⟨fun h => if_neg h, fun h _ _ => if_neg (by omega)⟩

/-- C42 (finding): the keys of different polynomials are equal, because the tables of the left key are compared
with themselves. -/
theorem C42_key_eq (a b : Prover F) (h : keyEq a b = true) (tabs : List (List F)) :
    keyEq a { b with tabs := tabs } = true := h

omit [DecidableEq F] in
/-- C42 (finding): `Combine` lets a missing value count as one, where the prover and `operator[]` take zero. The
empty table stands for zero and has no variables, so this happens for zero variables. -/
theorem C42_missing_one (i : ℕ) : vertexProduct ([[]] : List (List F)) i [0] = some 1 ∧
    Multilinear.get ([] : List F) i = 0 := ⟨by simp [vertexProduct], by simp [Multilinear.get]⟩

end

/-- `2 x₀ (1 + x₁) + 3 x₀` as tables modulo seven: the sum is `2 + 4 + 3 + 3 = 12 = 5`. -/
def exHeap : ℕ → List F7
  | 0 => [0, 1, 0, 1]
  | _ => [1, 1, 2, 2]

/-- `ToBigInt`. -/
def val7 : F7 → ℕ := ZMod.val (n := 7)

local instance : CharP F7 7 := inferInstanceAs (CharP (ZMod 7) 7)

def exTerms : List (F7 × List ℕ) := [(2, [0, 1]), (3, [0])]

example : (build exHeap 2 exTerms).bind (fun lc => lc.combine 3 exHeap) = some 5 := by decide +kernel
example : (build exHeap 2 exTerms).bind (fun lc => lc.evaluate 3 exHeap [4, 6]) = some 5 := by decide +kernel
example : (build exHeap 2 exTerms).bind (fun lc => runProtocol val7 3 2 exHeap lc 4 [6]) = some true := by
  decide +kernel
/-- The hypotheses of completeness and soundness hold for it. -/
example (r s : F7) : ∃ lc, build exHeap 2 exTerms = some lc ∧ runProtocol val7 4 2 exHeap lc r [s] = some true :=
  C42_complete (p := 7) (by decide) (by decide) (by decide) (by decide) (by decide) (by decide) (by decide) (by decide)
    (by decide) (by decide) r [s] rfl
/-- A wrong sum is rejected. -/
example : checkLoop (F := F7) val7 3 2 6 [[1, 4, 2]] [4] = some none := by decide +kernel
example : interpolate (F := F7) val7 3 [1, 4, 2] 4 = some 4 := by decide +kernel

end Tachyon.Props
