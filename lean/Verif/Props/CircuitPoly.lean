import Verif.Proofs.CircuitPolyRows
import Verif.Proofs.PolyEval
import Verif.Props.Vanishing
/-! C88: the circuit polynomial of the prover and the value that the verifier expects of its quotient. -/
universe u
namespace Tachyon.Props
open CircuitPoly Plonk FFT Parallel Vanishing Tachyon.Group Polynomial Poly Poly.Dense

section
variable {F : Type u} [Field F] [DecidableEq F]

/-- C88: the polynomials of the proving key that select rows: one in the first row, one in row `u`, one in the rows
before `u`, and zero in the other rows. -/
theorem C88_select {threads : ℕ} (o : Sched) {d : Domain F} (hd : d.Radix2) (h1 : d.offset = 1) {item : Item F}
    (hi : item.For d) (ht : 0 < threads) (ht' : threads ≤ 2 ^ 63) (u : ℕ) (sigmas : List (List F)) :
    (u < d.size → ∃ f l a, lagrangePolys threads o d item u = some (f, l, a) ∧ f.length ≤ d.size ∧ l.length ≤ d.size ∧
      a.length ≤ d.size ∧ ProvingKey.Selects d.gen d.size u ⟨sigmas, f, l, a⟩) ∧
    (d.size ≤ u → lagrangePolys threads o d item u = none) :=
  ⟨fun hu => lagrangePolys_eq o hd h1 hi ht ht' hu sigmas, fun hu => by rw [lagrangePolys, if_pos hu]⟩

/-- C88: the column that the prover computes over the extended domain, part by part, circuit by circuit and chunk by chunk,
holds the values of the constraints of all circuits combined by powers of `y`. At most one shuffle: see
`C88_shuffles_fail`. -/
theorem C88_column {threads : ℕ} (o : Sched) {d ext : Domain F} (hd : d.Radix2) (hext : ext.Radix2)
    (hle : d.logSize ≤ ext.logSize) (hgen : ext.gen ^ 2 ^ (ext.logSize - d.logSize) = d.gen) {item : Item F}
    (hi : item.For d) (ht : 0 < threads) (ht' : threads ≤ 2 ^ 63) (hsz : d.size ≤ 2 ^ 30) {s : System F} {degree : ℕ}
    (hs : computeDegree s = some degree) (h1 : s.shuffles.length ≤ 1) {key : ProvingKey F} (hk : key.Fits s d.size)
    {circuits : List (Circuit F)} (hf : ∀ c ∈ circuits, c.Fits s d.size degree) (h0 : circuits ≠ [])
    {blinding : ℕ} (hb : blinding + 1 ≤ 2 ^ 30) {zeta : F} (hz : zeta ≠ 0) (delta : F) (ch : Challenges F) :
    buildColumn threads o d ext item s key blinding delta zeta ch circuits = some ((List.range ext.size).map fun k =>
      (numerator s key d.gen delta blinding degree ch circuits).eval (zeta * ext.gen ^ k)) := by
  obtain ⟨c, hc⟩ := List.exists_mem_of_ne_nil _ h0
  obtain ⟨g, hg⟩ := createGraphs_total (s := s) fun e he =>
    Legal.mono (fun _ _ _ => trivial) (fun _ _ => trivial) e ((hf c hc).exprs e he)
  have h3 := (computeDegree_le hs).1
  have hm : ext.size / 2 ^ d.logSize = 2 ^ (ext.logSize - d.logSize) := by
    rw [hext.2, Nat.pow_div hle (by norm_num)]
  have hne : ext.gen ≠ 0 := hext.1.gen_ne
  rw [buildColumn, hg, Option.bind_some, hs, Option.bind_some, hm]
  rw [buildParts_eq (b := ⟨d.size, degree - 2, -((blinding : ℤ) + 1), d.gen, delta, ch.beta * zeta, ch, 1, [], [], [],
        ⟨[], [], [], []⟩⟩) hd hi ht ht' hsz hf hk h1 hg blinding hb hz hne (by omega) _ rfl rfl rfl rfl one_ne_zero rfl,
    Option.bind_some]
  have := C87_parts (fun x => (numerator s key d.gen delta blinding degree ch circuits).eval x) zeta ext.gen
    (m := 2 ^ (ext.logSize - d.logSize)) (n := d.size) (by positivity)
  rw [hgen] at this
  simp only [one_mul]
  rw [this, hd.2, ← pow_add, Nat.sub_add_cancel hle, hext.2]

/-- C88: with two or more shuffles the prover reads behind the end of the grand products of the shuffles. -/
theorem C88_shuffles_fail {threads : ℕ} (o : Sched) {d ext : Domain F} (hd : d.Radix2) (hext : ext.Radix2)
    (hle : d.logSize ≤ ext.logSize) (item : Item F) (ht : 0 < threads) (ht' : threads ≤ 2 ^ 63) {s : System F}
    (h2 : 2 ≤ s.shuffles.length) (key : ProvingKey F) {circuits : List (Circuit F)}
    (hf : ∀ c ∈ circuits, c.shuffles.length = s.shuffles.length) (h0 : circuits ≠ []) (blinding : ℕ) (zeta delta : F)
    (ch : Challenges F) : buildColumn threads o d ext item s key blinding delta zeta ch circuits = none := by
  obtain ⟨c, cs, rfl⟩ := List.exists_cons_of_ne_nil h0
  have hm : ext.size / 2 ^ d.logSize = 2 ^ (ext.logSize - d.logSize) := by
    rw [hext.2, Nat.pow_div hle (by norm_num)]
  obtain ⟨m, hm'⟩ : ∃ m, 2 ^ (ext.logSize - d.logSize) = m + 1 :=
    ⟨_, (Nat.succ_pred_eq_of_pos (by positivity : 0 < 2 ^ (ext.logSize - d.logSize))).symm⟩
  rw [buildColumn]
  refine Option.bind_eq_none_iff.2 fun g hg => Option.bind_eq_none_iff.2 fun degree _ => ?_
  rw [hm, hm', buildParts]
  suffices h : ∀ b : Builder F, b.n = d.size →
      buildPart threads o d item g s.columns key zeta b (c :: cs) = none by
    rw [h _ rfl]; rfl
  intro b hbn
  rw [buildPart]
  refine Option.bind_eq_none_iff.2 fun cd _ => Option.bind_eq_none_iff.2 fun lF _ =>
    Option.bind_eq_none_iff.2 fun lL _ => Option.bind_eq_none_iff.2 fun lA _ => ?_
  rw [List.foldlM_cons]
  refine Option.bind_eq_none_iff.2 fun v hv => ?_
  exfalso
  rw [evalCircuit] at hv
  obtain ⟨table, -, hv⟩ := Option.bind_eq_some_iff.1 hv
  obtain ⟨products, -, hv⟩ := Option.bind_eq_some_iff.1 hv
  obtain ⟨sigmas, -, hv⟩ := Option.bind_eq_some_iff.1 hv
  obtain ⟨lookups, -, hv⟩ := Option.bind_eq_some_iff.1 hv
  obtain ⟨shuffles, hsh, hv⟩ := Option.bind_eq_some_iff.1 hv
  obtain ⟨l, hl, -⟩ := Option.map_eq_some_iff.1 hv
  have hpos : 0 < (List.replicate b.n (0 : F)).length := by rw [List.length_replicate, hbn]; exact hd.1.pos
  have hle64 : (List.replicate b.n (0 : F)).length ≤ 2 ^ 63 := by rw [List.length_replicate, hbn]; exact hd.1.le
  obtain ⟨q1, q2, -⟩ := sizePerThread_bounds (threads := threads) (total := (List.replicate b.n (0 : F)).length) ht
    (by omega) none
  have hcs : 0 < numElementsPerThread threads (List.replicate b.n (0 : F)).length none := q1.2 hpos
  have hcs' : numElementsPerThread threads (List.replicate b.n (0 : F)).length none ≤ _ := q2
  have hfl := flatMap_chunkOf (List.replicate b.n (0 : F)) hcs (by omega)
  obtain ⟨i, hi⟩ : ∃ i, i ∈ invocations (List.replicate b.n (0 : F)).length
      (numElementsPerThread threads (List.replicate b.n (0 : F)).length none) := by
    refine List.exists_mem_of_ne_nil _ fun h => ?_
    rw [h, List.flatMap_nil] at hfl
    rw [← hfl] at hpos
    simp at hpos
  obtain ⟨k, hk, hik⟩ := List.getElem_of_mem hi
  have hget := Plonk.mapM_get hl k i (by rw [List.getElem?_eq_getElem hk, hik])
  have hlen := Plonk.mapM_length hl
  rw [List.getElem?_eq_getElem (by omega), evalChunk] at hget
  obtain ⟨_, -, hget⟩ := Option.bind_eq_some_iff.1 hget.symm
  obtain ⟨_, -, hget⟩ := Option.bind_eq_some_iff.1 hget
  obtain ⟨_, -, hget⟩ := Option.bind_eq_some_iff.1 hget
  rw [createGraphs] at hg
  obtain ⟨gg, -, hg⟩ := Option.bind_eq_some_iff.1 hg
  obtain ⟨gl, -, hg⟩ := Option.bind_eq_some_iff.1 hg
  obtain ⟨gs, hgs, rfl⟩ := Option.map_eq_some_iff.1 hg
  have e1 := Plonk.mapM_length hgs
  have e2 := Plonk.mapM_length hsh
  have e3 := hf c (by simp)
  rw [shuffleChunk_none (fun g hg => ?_) (by omega) (by omega)] at hget
  · cases hget
  · obtain ⟨j, hj, rfl⟩ := List.getElem_of_mem hg
    have h4 := Plonk.mapM_get hgs j _ (List.getElem?_eq_getElem (by omega))
    rw [List.getElem?_eq_getElem hj] at h4
    obtain ⟨_, -, h4⟩ := Option.bind_eq_some_iff.1 h4.symm
    obtain ⟨_, -, h4⟩ := Option.map_eq_some_iff.1 h4
    rw [← h4]; rfl

/-- C88: the value that the verifier expects, from the evaluations in the proof, is that of the numerator at `x` over the
value of the vanishing polynomial. -/
theorem C88_expected {threads : ℕ} (ht : 0 < threads) (ht' : threads < 128) {d : Domain F} (hd : d.Radix2)
    (hd1 : d.offset = 1) {s : System F} {degree : ℕ} (hs : computeDegree s = some degree) (hq : s.Queried)
    (hcols : s.columns.length < 2 ^ 64) {blinding : ℕ} (hb : blinding + 2 ≤ d.size) (hb' : blinding + 1 ≤ 2 ^ 30)
    {key : ProvingKey F} (hk : key.Fits s d.size) (hsel : key.Selects d.gen d.size (d.size - (blinding + 1)))
    {circuits : List (Circuit F)} (hf : ∀ c ∈ circuits, c.Fits s d.size degree) (x delta : F) (ch : Challenges F)
    {vs : List (CircuitEvals F)}
    (hv : List.Forall₂ (fun c v => CircuitEvals.Of s d.gen x (-((blinding : ℤ) + 1)) c v) circuits vs) :
    (x ^ d.size ≠ 1 → evaluateH threads d s blinding x delta ch (key.sigmas.map fun p => (dpoly p).eval x) vs =
      some ((numerator s key d.gen delta blinding degree ch circuits).eval x / (x ^ d.size - 1))) ∧
    (x ^ d.size = 1 → evaluateH threads d s blinding x delta ch (key.sigmas.map fun p => (dpoly p).eval x) vs = none) := by
  obtain ⟨l, hl, l1, l2, l3⟩ := lValues_key ht ht' hd.1 hd1 x hb (by omega) hk hsel
  have h3 := (computeDegree_le hs).1
  have hm : vs.mapM (verifierCircuit s l x delta ch (degree - 2) (key.sigmas.map fun p => (dpoly p).eval x)) =
      some (circuits.map fun c => constraints ch.beta ch.gamma delta (degree - 2)
        (rowEnv s key c d.gen ch.theta (-((blinding : ℤ) + 1)) x)) := by
    clear hl
    induction hv with
    | nil => rfl
    | @cons c v cs vs hcv _ ih =>
      rw [List.mapM_cons, verifierCircuit_eq hcv (hf c (by simp)) hk hq (by omega) hcols l1 l2 l3,
        ih fun c hc => hf c (by simp [hc])]
      rfl
  have hev : evaluateH threads d s blinding x delta ch (key.sigmas.map fun p => (dpoly p).eval x) vs =
      expectedH ch.y (x ^ d.size) (circuits.flatMap fun c => constraints ch.beta ch.gamma delta (degree - 2)
        (rowEnv s key c d.gen ch.theta (-((blinding : ℤ) + 1)) x)) := by
    rw [evaluateH, hl, Option.bind_some, hs, Option.bind_some, hm, Option.bind_some, squareTimes_eq, ← hd.2,
      List.flatMap_def]
  obtain ⟨e1, e2⟩ := C87_expected ch.y (x ^ d.size) (circuits.flatMap fun c => constraints ch.beta ch.gamma delta (degree - 2)
        (rowEnv s key c d.gen ch.theta (-((blinding : ℤ) + 1)) x))
  refine ⟨fun h => ?_, fun h => by rw [hev]; exact e2 h⟩
  rw [hev, e1 h, numerator_eval]
  rfl

omit [DecidableEq F] in
/-- C88: the numerator has at most the degree that the pieces of the quotient are sized for. -/
theorem C88_degree {s : System F} {degree n : ℕ} (hs : computeDegree s = some degree) {key : ProvingKey F}
    (hk : key.Fits s n) {circuits : List (Circuit F)} (hf : ∀ c ∈ circuits, c.Fits s n degree) (hn : 2 ≤ n) (ω delta : F)
    (blinding : ℕ) (ch : Challenges F) :
    (numerator s key ω delta blinding degree ch circuits).natDegree ≤ degree * (n - 1) := by
  refine DegLe.combination (fun p hp => ?_) ch.y
  obtain ⟨c, hc, hp⟩ := List.mem_flatMap.1 hp
  exact constraints_degree hs (hf c hc) hk hn delta blinding ch p hp

/-- C88: if all constraints of all circuits hold in all rows, the prover gets pieces of the quotient, and at every point
outside of the rows the value of the combined pieces is the one that the verifier expects. -/
theorem C88_complete {threads threads' : ℕ} (o o' : Sched) {d ext : Domain F} (hd : d.Radix2) (hd1 : d.offset = 1)
    (hext : ext.Radix2) (hext1 : ext.offset = 1) (hgen : ext.gen ^ 2 ^ (ext.logSize - d.logSize) = d.gen)
    {item item' : Item F} (hi : item.For d) (hi' : item'.For ext) (ht : 0 < threads) (ht' : threads ≤ 2 ^ 63)
    (htv : 0 < threads') (htv' : threads' < 128) (hsz : d.size ≤ 2 ^ 30) {s : System F} {degree : ℕ}
    (hs : computeDegree s = some degree)
    (hke : extendedK degree d.logSize = some ext.logSize) (hbd : d.size * degree ≤ 2 ^ 63) (hq : s.Queried)
    (h1 : s.shuffles.length ≤ 1) (hcols : s.columns.length < 2 ^ 64) {blinding : ℕ} (hb : blinding + 2 ≤ d.size)
    {key : ProvingKey F} (hk : key.Fits s d.size) (hsel : key.Selects d.gen d.size (d.size - (blinding + 1)))
    {circuits : List (Circuit F)} (hf : ∀ c ∈ circuits, c.Fits s d.size degree) (h0 : circuits ≠ [])
    {zeta : F} (hz : IsPrimitiveRoot zeta 3) (delta : F) (ch : Challenges F)
    {G : Type*} [AddCommGroup G] [Module F G] (commit : List F → G) (φ : F[X] →ₗ[F] G)
    (hφ : ∀ l : List F, l.length ≤ d.size → commit l = φ (dpoly l))
    (hv : ∀ c ∈ circuits, ∀ p ∈ c.constraints s key d.gen delta blinding degree ch, ∀ i < d.size,
      p.eval (d.gen ^ i) = 0) :
    ∃ column h coeffs, buildColumn threads o d ext item s key blinding delta zeta ch circuits = some column ∧
      finalH threads o' d ext item' zeta column = some h ∧ truncateH d.size degree h = some coeffs ∧
      ∀ x, x ^ d.size ≠ 1 → ∃ comb, combinedH d.size (x ^ d.size) coeffs = some comb ∧
        verifierH (x ^ d.size) (commitH commit d.size coeffs) = commit comb ∧
        ∀ vs, List.Forall₂ (fun c v => CircuitEvals.Of s d.gen x (-((blinding : ℤ) + 1)) c v) circuits vs →
          evaluateH threads' d s blinding x delta ch (key.sigmas.map fun p => (dpoly p).eval x) vs =
            some ((dpoly comb).eval x) := by
  have hN := C88_degree hs hk hf (by omega) d.gen delta blinding ch
  have hle : d.logSize ≤ ext.logSize := by
    have h := hke
    rw [extendedK] at h
    split at h
    · cases h
    · rw [Option.some_inj] at h; omega
  have hv' : ∀ i < d.size, (numerator s key d.gen delta blinding degree ch circuits).eval (d.gen ^ i) = 0 := by
    intro i hi
    rw [numerator, combination, eval_finsetSum]
    refine Finset.sum_eq_zero fun j hj => ?_
    rw [Finset.mem_range] at hj
    obtain ⟨c, hc, hp⟩ := List.mem_flatMap.1 (List.getElem_mem hj)
    rw [eval_mul, List.getD_eq_getElem _ _ hj, hv c hc _ hp i hi, zero_mul]
  obtain ⟨h, coeffs, e1, e2, e3⟩ := C87_complete o' hd hd1 hext hext1 hke hbd hi' hz commit φ hφ _ hN hv' ht ht'
  refine ⟨_, h, coeffs, C88_column o hd hext hle hgen hi ht ht' hsz hs h1 hk hf h0 (by omega)
    (hz.ne_zero (by norm_num)) delta ch, e1, e2, fun x hx => ?_⟩
  obtain ⟨comb, c1, c2, c3⟩ := e3 x hx
  refine ⟨comb, c1, c2, fun vs hvs => ?_⟩
  rw [(C88_expected htv htv' hd hd1 hs hq hcols hb (by omega) hk hsel hf x delta ch hvs).1 hx]
  have := c3 0 [(numerator s key d.gen delta blinding degree ch circuits).eval x] (by simp)
  rw [(C87_expected 0 (x ^ d.size) _).1 hx] at this
  simpa using this

omit [DecidableEq F] in
/-- C88: if a constraint fails in a row, then for all but fewer challenges `y` than there are constraints, the numerator
does not vanish in all rows. -/
theorem C88_challenge {s : System F} {key : ProvingKey F} {ω delta : F} {blinding degree n : ℕ} {ch : Challenges F}
    {circuits : List (Circuit F)} {c : Circuit F} (hc : c ∈ circuits) {p : F[X]}
    (hp : p ∈ c.constraints s key ω delta blinding degree ch) {i : ℕ} (hi : i < n) (hne : p.eval (ω ^ i) ≠ 0) :
    {y : F | ∀ j < n, (numerator s key ω delta blinding degree { ch with y := y } circuits).eval (ω ^ j) = 0}.Finite ∧
    {y : F | ∀ j < n, (numerator s key ω delta blinding degree { ch with y := y } circuits).eval (ω ^ j) = 0}.ncard <
      (circuits.flatMap (Circuit.constraints s key ω delta blinding degree ch)).length := by
  classical
  obtain ⟨L, hL⟩ : ∃ L, L = circuits.flatMap (Circuit.constraints s key ω delta blinding degree ch) := ⟨_, rfl⟩
  rw [← hL]
  have hpL : p ∈ L := by rw [hL]; exact List.mem_flatMap.2 ⟨c, hc, hp⟩
  obtain ⟨k, hk, hkp⟩ := List.getElem_of_mem hpL
  set Q : F[X] := ∑ j ∈ Finset.range L.length, C ((L.getD j 0).eval (ω ^ i)) * X ^ (L.length - 1 - j) with hQ
  have hdeg : Q.natDegree ≤ L.length - 1 := by
    refine natDegree_sum_le_of_forall_le _ _ fun j _ => ?_
    exact (natDegree_C_mul_X_pow_le _ _).trans (by omega)
  have hcoeff : Q.coeff (L.length - 1 - k) = p.eval (ω ^ i) := by
    rw [hQ, finsetSum_coeff, Finset.sum_eq_single k]
    · rw [coeff_C_mul_X_pow, if_pos rfl, List.getD_eq_getElem _ _ hk, hkp]
    · intro j hj hjk
      rw [Finset.mem_range] at hj
      rw [coeff_C_mul_X_pow, if_neg (by omega)]
    · intro h
      exact absurd (Finset.mem_range.2 hk) h
  have hQ0 : Q ≠ 0 := fun h => hne (by rw [← hcoeff, h, coeff_zero])
  have hsub : {y : F | ∀ j < n, (numerator s key ω delta blinding degree { ch with y := y } circuits).eval (ω ^ j) = 0} ⊆
      (Q.roots.toFinset : Set F) := by
    intro y hy
    rw [Finset.mem_coe, Multiset.mem_toFinset, mem_roots hQ0, IsRoot.def]
    have h := hy i hi
    rw [numerator, show circuits.flatMap (Circuit.constraints s key ω delta blinding degree { ch with y := y }) = L from
      hL.symm, combination, eval_finsetSum] at h
    rw [hQ, eval_finsetSum, ← h]
    refine Finset.sum_congr rfl fun j _ => ?_
    simp only [eval_mul, eval_C, eval_pow, eval_X]
  refine ⟨(Finset.finite_toSet _).subset hsub, ?_⟩
  have h1 := Set.ncard_le_ncard hsub (Finset.finite_toSet _)
  rw [Set.ncard_coe_finset] at h1
  have h2 := Multiset.toFinset_card_le Q.roots
  have h3 := card_roots' Q
  omega

omit [DecidableEq F] in
/-- C88: the constraints of a circuit vanish in all rows exactly if, in the table of the values of the columns, the gates
vanish and the permutation, lookup and shuffle arguments hold (`C66_sound`, `C67_sound`, `C68_sound` tell what follows
from these). -/
theorem C88_rows {d : Domain F} (hd : d.Radix2) (hsz : d.size ≤ 2 ^ 30) {s : System F} {degree : ℕ}
    (hs : computeDegree s = some degree) (hcols : s.columns.length < 2 ^ 64) {blinding : ℕ} (hb : blinding + 2 ≤ d.size)
    {key : ProvingKey F} (hk : key.Fits s d.size) (hsel : key.Selects d.gen d.size (d.size - (blinding + 1)))
    {c : Circuit F} (hf : c.Fits s d.size degree) (delta : F) (ch : Challenges F) :
    (∀ p ∈ c.constraints s key d.gen delta blinding degree ch, ∀ i < d.size, p.eval (d.gen ^ i) = 0) ↔
      (∀ e ∈ s.gates.flatten, ∀ i < d.size, rowValue (rowTable d.gen d.size c.polys) (i : ℕ) 1 d.size e = 0) ∧
      (c.products ≠ [] → GrandProduct.PermHolds d.size (d.size - (blinding + 1)) (degree - 2) d.gen delta ch.beta ch.gamma
        (s.columns.map fun k => ((rowTable d.gen d.size c.polys).columns k.kind.1).getD k.kind.2 [])
        (key.sigmas.map (onRows d.gen d.size)) (c.products.map (onRows d.gen d.size))) ∧
      (∀ (i : ℕ) a l, s.lookups[i]? = some a → c.lookups[i]? = some l →
        GrandProduct.LookupHolds d.size (d.size - (blinding + 1)) ch.beta ch.gamma
          (compressRows (rowTable d.gen d.size c.polys) d.size ch.theta a.inputs)
          (compressRows (rowTable d.gen d.size c.polys) d.size ch.theta a.targets) (onRows d.gen d.size l.input)
          (onRows d.gen d.size l.table) (onRows d.gen d.size l.product)) ∧
      ∀ (i : ℕ) a z, s.shuffles[i]? = some a → c.shuffles[i]? = some z →
        GrandProduct.ShuffleHolds d.size (d.size - (blinding + 1)) ch.gamma
          (compressRows (rowTable d.gen d.size c.polys) d.size ch.theta a.inputs)
          (compressRows (rowTable d.gen d.size c.polys) d.size ch.theta a.targets) (onRows d.gen d.size z) := by
  have h3 := (computeDegree_le hs).1
  exact rows_iff hd.1.prim.pow_eq_one hb hsz hf hk hsel (by omega) hcols delta ch

/-- C88: if the numerator does not vanish in all rows, then whatever quotient the prover has committed to, only few points
`x` let the verifier accept. -/
theorem C88_sound {threads : ℕ} (ht : 0 < threads) (ht' : threads < 128) {d : Domain F} (hd : d.Radix2)
    (hd1 : d.offset = 1) {s : System F} {degree : ℕ} (hs : computeDegree s = some degree) (hq : s.Queried)
    (hcols : s.columns.length < 2 ^ 64) {blinding : ℕ} (hb : blinding + 2 ≤ d.size) (hb' : blinding + 1 ≤ 2 ^ 30)
    {key : ProvingKey F} (hk : key.Fits s d.size) (hsel : key.Selects d.gen d.size (d.size - (blinding + 1)))
    {circuits : List (Circuit F)} (hf : ∀ c ∈ circuits, c.Fits s d.size degree) (delta : F) (ch : Challenges F)
    (hv : ¬ ∀ i < d.size, (numerator s key d.gen delta blinding degree ch circuits).eval (d.gen ^ i) = 0) (h : F[X]) :
    {x : F | ∃ vs, List.Forall₂ (fun c v => CircuitEvals.Of s d.gen x (-((blinding : ℤ) + 1)) c v) circuits vs ∧
      evaluateH threads d s blinding x delta ch (key.sigmas.map fun p => (dpoly p).eval x) vs =
        some (h.eval x)}.Finite ∧
    {x : F | ∃ vs, List.Forall₂ (fun c v => CircuitEvals.Of s d.gen x (-((blinding : ℤ) + 1)) c v) circuits vs ∧
      evaluateH threads d s blinding x delta ch (key.sigmas.map fun p => (dpoly p).eval x) vs =
        some (h.eval x)}.ncard ≤ max (degree * (d.size - 1)) (h.natDegree + d.size) := by
  obtain ⟨f1, f2⟩ := C87_sound hd hd1 (numerator s key d.gen delta blinding degree ch circuits) h hv
  have hsub : {x : F | ∃ vs, List.Forall₂ (fun c v => CircuitEvals.Of s d.gen x (-((blinding : ℤ) + 1)) c v) circuits vs ∧
      evaluateH threads d s blinding x delta ch (key.sigmas.map fun p => (dpoly p).eval x) vs = some (h.eval x)} ⊆
      {x : F | ∃ (y : F) (evals : List F),
        (∑ i ∈ Finset.range evals.length, evals.getD i 0 * y ^ (evals.length - 1 - i)) =
          (numerator s key d.gen delta blinding degree ch circuits).eval x ∧
        expectedH y (x ^ d.size) evals = some (h.eval x)} := by
    rintro x ⟨vs, hvs, e⟩
    obtain ⟨e1, e2⟩ := C88_expected ht ht' hd hd1 hs hq hcols hb hb' hk hsel hf x delta ch hvs
    by_cases hx : x ^ d.size = 1
    · rw [e2 hx] at e; cases e
    · refine ⟨0, [(numerator s key d.gen delta blinding degree ch circuits).eval x], by simp, ?_⟩
      rw [← e, e1 hx, (C87_expected 0 (x ^ d.size) _).1 hx]
      simp
  refine ⟨f1.subset hsub, (Set.ncard_le_ncard hsub f1).trans (f2.trans (max_le_max_right _ ?_))⟩
  exact C88_degree hs hk hf (by omega) d.gen delta blinding ch

end

/-! ### Examples: four rows, two of them usable, with a gate, a permutation over two columns, a lookup and a shuffle -/

/-- Sixteen points. -/
def exExt16 : Domain F97 := ⟨16, 4, 16, 91, 8, 85, 1, 1, 1⟩

/-- The roots for four points. -/
def exItem4 : Item F97 := ⟨[[1], [1, 22]], [[1, 75], [1]], [], [], [], [], some false⟩

/-- The roots for sixteen points. -/
def exItem16 : Item F97 :=
  ⟨[[1], [1, 22], [1, 64, 22, 50], [1, 8, 64, 27, 22, 79, 50, 12]],
    [[1, 85, 47, 18, 75, 70, 33, 89], [1, 47, 75, 33], [1, 75], [1]], [], [], [], [], some false⟩

theorem exExt16_radix2 : exExt16.Radix2 :=
  ⟨⟨by decide, by decide, by decide +kernel, by decide +kernel, exPrim97 (w := 8) (k := 3) (by decide +kernel),
    by decide +kernel, by decide +kernel, by decide +kernel, by decide +kernel⟩, rfl⟩

theorem exItem4_for : exItem4.For exRows := by
  constructor
  · intro s hs
    have : s < 2 := hs
    interval_cases s
    · exact ⟨[1], rfl, by decide, by decide +kernel⟩
    · exact ⟨[1, 22], rfl, by decide, by decide +kernel⟩
  · intro s hs
    have : s < 2 := hs
    interval_cases s
    · exact ⟨[1, 75], rfl, by decide, by decide +kernel⟩
    · exact ⟨[1], rfl, by decide, by decide +kernel⟩

theorem exItem16_for : exItem16.For exExt16 := by
  constructor
  · intro s hs
    have : s < 4 := hs
    interval_cases s
    · exact ⟨[1], rfl, by decide, by decide +kernel⟩
    · exact ⟨[1, 22], rfl, by decide, by decide +kernel⟩
    · exact ⟨[1, 64, 22, 50], rfl, by decide, by decide +kernel⟩
    · exact ⟨[1, 8, 64, 27, 22, 79, 50, 12], rfl, by decide, by decide +kernel⟩
  · intro s hs
    have : s < 4 := hs
    interval_cases s
    · exact ⟨[1, 85, 47, 18, 75, 70, 33, 89], rfl, by decide, by decide +kernel⟩
    · exact ⟨[1, 47, 75, 33], rfl, by decide, by decide +kernel⟩
    · exact ⟨[1, 75], rfl, by decide, by decide +kernel⟩
    · exact ⟨[1], rfl, by decide, by decide +kernel⟩

/-- The gate: where the fixed column 0 is one, the advice column goes up by two. The advice column is copied from the fixed
column 1, looked up in the fixed column 2 and shuffled to the fixed column 1. -/
def exSystem88 : System F97 where
  gates := [[.prod (.fixed ⟨some 0, 0, 0⟩)
    (.sum (.advice ⟨some 1, 1, 0⟩) (.neg (.sum (.advice ⟨some 0, 0, 0⟩) (.constant 2))))]]
  columns := [.advice 0, .fixed 1]
  lookups := [⟨[.advice ⟨some 0, 0, 0⟩], [.fixed ⟨some 2, 0, 2⟩]⟩]
  shuffles := [⟨[.advice ⟨some 0, 0, 0⟩], [.fixed ⟨some 1, 0, 1⟩]⟩]
  fixedQueries := [(0, 0), (1, 0), (2, 0)]
  adviceQueries := [(0, 0), (0, 1)]
  instQueries := []
  minimumDegree := none

/-- The key: row 0 of the one column is copied to row 1 of the other. -/
def exKey88 : ProvingKey F97 :=
  ⟨[[23, 49, 80, 55], [74, 51, 80, 11]], [73, 73, 73, 73], [73, 24, 73, 24], [49, 19, 0, 30]⟩

/-- The advice column 5, 7, 9, 11, the fixed columns 1, 1, 0, 0 and 7, 5, 3, 2 and 7, 5, 0, 0, and the columns of the
arguments for the challenges below. -/
def exCircuit88 : Circuit F97 where
  polys := ⟨[[49, 19, 0, 30], [77, 33, 25, 66], [3, 47, 49, 5]], [[8, 21, 96, 74]], [], []⟩
  products := [[69, 20, 29, 77]]
  lookups := [⟨[14, 90, 84, 7], [28, 22, 72, 77], [5, 8, 48, 41]⟩]
  shuffles := [[7, 74, 91, 23]]

def exCh88 : Challenges F97 := ⟨3, 4, 6, 10⟩

theorem exSystem88_degree : computeDegree exSystem88 = some 4 := by decide +kernel

theorem exKey88_fits : exKey88.Fits exSystem88 4 :=
  ⟨by decide, by decide, by decide, by decide, by decide⟩

theorem exKey88_selects : exKey88.Selects (22 : F97) 4 2 := by
  refine ⟨fun i hi => ?_, fun i hi => ?_, fun i hi => ?_⟩ <;> rw [← horner_eq] <;> interval_cases i <;> decide +kernel

theorem exCircuit88_fits : exCircuit88.Fits exSystem88 4 4 where
  exprs := by
    intro e he
    simp only [System.exprs, exSystem88, List.flatten_cons, List.flatten_nil, List.append_nil, List.flatMap_cons,
      List.flatMap_nil, List.cons_append, List.nil_append, List.mem_cons, List.not_mem_nil, or_false] at he
    rcases he with rfl | rfl | rfl | rfl | rfl <;> simp [Legal, exCircuit88, Table.columns]
  keys := by decide
  columns := by intro k; cases k <;> decide
  sets := by decide +kernel
  products := by decide
  numLookups := rfl
  lookups := by decide
  numShuffles := rfl
  shuffles := by decide

theorem exSystem88_queried : exSystem88.Queried where
  exprs := by
    intro e he
    simp only [System.exprs, exSystem88, List.flatten_cons, List.flatten_nil, List.append_nil, List.flatMap_cons,
      List.flatMap_nil, List.cons_append, List.nil_append, List.mem_cons, List.not_mem_nil, or_false] at he
    rcases he with rfl | rfl | rfl | rfl | rfl <;> simp [Legal, exSystem88, System.queries]
  keys := by
    intro k hk
    simp only [exSystem88, List.mem_cons, List.not_mem_nil, or_false] at hk
    rcases hk with rfl | rfl <;> decide

/-- The evaluations of the circuit at `x`. -/
def exEvals88 (c : Circuit F97) (x : F97) : CircuitEvals F97 where
  evals := ⟨exSystem88.fixedQueries.map fun q => horner (c.polys.fixed.getD q.1 []) (22 ^ q.2 * x),
    exSystem88.adviceQueries.map fun q => horner (c.polys.advice.getD q.1 []) (22 ^ q.2 * x), [], c.polys.challenges⟩
  products := c.products.map fun p => horner p x
  productsNext := c.products.map fun p => horner p (22 * x)
  productsLast := c.products.map fun p => some (horner p (22 ^ (-2 : ℤ) * x))
  lookups := c.lookups.map fun l => ⟨horner l.product x, horner l.product (22 * x), horner l.input x,
    horner l.input (22⁻¹ * x), horner l.table x⟩
  shuffles := c.shuffles.map fun p => (horner p x, horner p (22 * x))

theorem exEvals88_of (c : Circuit F97) (x : F97) : CircuitEvals.Of exSystem88 22 x (-((1 : ℕ) + 1)) c (exEvals88 c x) where
  columns := by
    intro k
    cases k <;> simp [exEvals88, Evaluations.of, System.queries, exSystem88, horner_eq, colPolys, Table.columns]
  challenges := rfl
  products := by simp [exEvals88, horner_eq]
  productsNext := by simp [exEvals88, horner_eq]
  productsLast := by
    intro i hi
    have h : i < c.products.length := by omega
    simp [exEvals88, horner_eq, h]
  lookups := by simp [exEvals88, horner_eq]
  shuffles := by simp [exEvals88, horner_eq]

/-- The values of the constraints in a row. -/
def exRow88 (c : Circuit F97) (i : ℕ) : Option (List F97) :=
  verifierCircuit exSystem88 ⟨if i = 0 then 1 else 0, if i < 2 then 0 else if i = 2 then 0 else 1,
    if i = 2 then 1 else 0⟩ (22 ^ i) 5 exCh88 (4 - 2) (exKey88.sigmas.map fun p => horner p (22 ^ i)) (exEvals88 c (22 ^ i))

theorem exRow88_eq {c : Circuit F97} (hc : c.Fits exSystem88 4 4) {i : ℕ} (hi : i < 4) :
    exRow88 c i = some (constraints exCh88.beta exCh88.gamma 5 (4 - 2)
      (rowEnv exSystem88 exKey88 c 22 exCh88.theta (-((1 : ℕ) + 1)) (22 ^ i))) := by
  have h := verifierCircuit_eq (exEvals88_of c (22 ^ i)) hc exKey88_fits exSystem88_queried
    (by norm_num) (by decide) (l := ⟨if i = 0 then 1 else 0, if i < 2 then 0 else if i = 2 then 0 else 1,
      if i = 2 then 1 else 0⟩) (exKey88_selects.first i hi).symm (exKey88_selects.last i hi).symm
    (by rw [exKey88_selects.active i hi]; interval_cases i <;> decide +kernel) 5 exCh88
  rw [← h, exRow88]
  simp only [horner_eq]

/-- The constraints hold in all rows. -/
theorem exCircuit88_rows : ∀ p ∈ exCircuit88.constraints exSystem88 exKey88 22 5 1 4 exCh88, ∀ i < 4,
    p.eval ((22 : F97) ^ i) = 0 := by
  refine (constraints_rows (s := exSystem88) (key := exKey88) (c := exCircuit88) (ω := 22) (b := 1) (degree := 4) 5
    exCh88 4).2 fun i hi v hv => ?_
  have h : (exRow88 exCircuit88 i).all (fun l => l.all fun v => decide (v = 0)) = true := by
    interval_cases i <;> decide +kernel
  rw [exRow88_eq exCircuit88_fits hi] at h
  exact of_decide_eq_true (List.all_eq_true.1 h v hv)

/-- The same circuit with the advice column 5, 8, 9, 11. -/
def exWrong88 : Circuit F97 := { exCircuit88 with polys := ⟨exCircuit88.polys.fixed, [[81, 64, 23, 31]], [], []⟩ }

theorem exWrong88_fits : exWrong88.Fits exSystem88 4 4 where
  exprs := by
    intro e he
    simp only [System.exprs, exSystem88, List.flatten_cons, List.flatten_nil, List.append_nil, List.flatMap_cons,
      List.flatMap_nil, List.cons_append, List.nil_append, List.mem_cons, List.not_mem_nil, or_false] at he
    rcases he with rfl | rfl | rfl | rfl | rfl <;> simp [Legal, exWrong88, exCircuit88, Table.columns]
  keys := by decide
  columns := by intro k; cases k <;> decide
  sets := by decide +kernel
  products := by decide
  numLookups := rfl
  lookups := by decide
  numShuffles := rfl
  shuffles := by decide

/-- The numerator does not vanish in row 0. -/
theorem exWrong88_row : (numerator exSystem88 exKey88 22 5 1 4 exCh88 [exWrong88]).eval ((22 : F97) ^ 0) ≠ 0 := by
  rw [numerator_eval]
  have h := exRow88_eq exWrong88_fits (i := 0) (by norm_num)
  have h' : (exRow88 exWrong88 0).map (combination exCh88.y) ≠ some 0 := by decide +kernel
  rw [h, Option.map_some] at h'
  simp only [List.flatMap_cons, List.flatMap_nil, List.append_nil]
  exact fun h0 => h' (congrArg some h0)

-- the polynomials of the key are those that the code computes
example : lagrangePolys 2 Sched.rev exRows exItem4 2 = some (exKey88.lFirst, exKey88.lLast, exKey88.lActive) ∧
    lagrangePolys 2 Sched.rev exRows exItem4 4 = none := by decide +kernel

example : ∃ f l a, lagrangePolys 2 Sched.rev exRows exItem4 2 = some (f, l, a) ∧ f.length ≤ 4 ∧ l.length ≤ 4 ∧
    a.length ≤ 4 ∧ ProvingKey.Selects (22 : F97) 4 2 ⟨exKey88.sigmas, f, l, a⟩ :=
  (C88_select (threads := 2) Sched.rev exRows_radix2 rfl exItem4_for (by norm_num) (by norm_num) 2 _).1 (by decide)

-- the pieces of the quotient of this circuit, and the value that the verifier expects at 2
example : ∃ column h coeffs, buildColumn 3 Sched.rev exRows exExt16 exItem4 exSystem88 exKey88 1 5 35 exCh88 [exCircuit88] =
      some column ∧ finalH 3 Sched.seq exRows exExt16 exItem16 35 column = some h ∧
      truncateH 4 4 h = some coeffs ∧ ∃ comb, combinedH 4 (2 ^ 4) coeffs = some comb ∧
        evaluateH 2 exRows exSystem88 1 2 5 exCh88 (exKey88.sigmas.map fun p => (dpoly p).eval 2)
          [exEvals88 exCircuit88 2] = some ((dpoly comb).eval 2) := by
  obtain ⟨column, h, coeffs, e1, e2, e3, e4⟩ := C88_complete (threads := 3) (threads' := 2) Sched.rev Sched.seq
    exRows_radix2 rfl exExt16_radix2 rfl (by decide +kernel) exItem4_for exItem16_for (by norm_num) (by norm_num)
    (by norm_num) (by norm_num) (by decide) exSystem88_degree (by decide +kernel) (by decide) exSystem88_queried (by decide)
    (by decide) (blinding := 1) (by decide) exKey88_fits exKey88_selects (circuits := [exCircuit88])
    (fun c hc => by rw [List.mem_singleton.1 hc]; exact exCircuit88_fits) (by simp) exZeta 5 exCh88
    (fun l => (dpoly l).eval 2) exCommitAt (fun _ _ => rfl)
    (fun c hc => by rw [List.mem_singleton.1 hc]; exact exCircuit88_rows)
  obtain ⟨comb, c1, -, c3⟩ := e4 2 (by decide +kernel)
  exact ⟨column, h, coeffs, e1, e2, e3, comb, c1, c3 _ (.cons (exEvals88_of _ _) .nil)⟩

-- the value that the verifier expects at 2 is 4; in a row there is none
example : evaluateH 2 exRows exSystem88 1 2 5 exCh88 (exKey88.sigmas.map fun p => horner p 2) [exEvals88 exCircuit88 2] =
      some 4 ∧
    evaluateH 2 exRows exSystem88 1 1 5 exCh88 (exKey88.sigmas.map fun p => horner p 1) [exEvals88 exCircuit88 1] = none := by
  decide +kernel

-- with the advice column 5, 8, 9, 11, whatever the quotient of degree 11, few points let the verifier accept
example (h : F97[X]) (hh : h.natDegree ≤ 11) :
    {x : F97 | ∃ vs, List.Forall₂ (fun c v => CircuitEvals.Of exSystem88 22 x (-((1 : ℕ) + 1)) c v) [exWrong88] vs ∧
      evaluateH 2 exRows exSystem88 1 x 5 exCh88 (exKey88.sigmas.map fun p => (dpoly p).eval x) vs =
        some (h.eval x)}.ncard ≤ 15 := by
  have := (C88_sound (threads := 2) (by norm_num) (by norm_num) exRows_radix2 rfl exSystem88_degree exSystem88_queried
    (by decide) (blinding := 1) (by decide) (by decide) exKey88_fits exKey88_selects (circuits := [exWrong88])
    (fun c hc => by rw [List.mem_singleton.1 hc]; exact exWrong88_fits) 5 exCh88
    (fun hv => exWrong88_row (hv 0 (by decide))) h).2
  refine this.trans ?_
  have e : exRows.size = 4 := rfl
  rw [e]
  omega

-- the column with four threads, and with two shuffles
example : (buildColumn 4 Sched.seq exRows exExt16 exItem4 exSystem88 exKey88 1 5 35 exCh88 [exCircuit88]).isSome ∧
    buildColumn 4 Sched.seq exRows exExt16 exItem4 { exSystem88 with shuffles := exSystem88.shuffles ++ exSystem88.shuffles }
      exKey88 1 5 35 exCh88 [{ exCircuit88 with shuffles := exCircuit88.shuffles ++ exCircuit88.shuffles }] = none :=
  ⟨by
    rw [C88_column Sched.seq exRows_radix2 exExt16_radix2 (by decide) (by decide +kernel) exItem4_for (by norm_num)
      (by norm_num) (by decide) exSystem88_degree (by decide) exKey88_fits
      (fun c hc => by rw [List.mem_singleton.1 hc]; exact exCircuit88_fits) (by simp) (by norm_num) (by decide +kernel)]
    rfl,
  C88_shuffles_fail Sched.seq exRows_radix2 exExt16_radix2 (by decide) exItem4 (by norm_num) (by norm_num) (by decide) _
    (fun c hc => by rw [List.mem_singleton.1 hc]; rfl) (by simp) _ _ _ _⟩

end Tachyon.Props
