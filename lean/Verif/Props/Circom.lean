import Verif.Proofs.CircomCircuit
import Verif.Spec.F17
/-! C97: the Groth16 prover and the circuits of circom. -/
namespace Tachyon.Props
open Polynomial Tachyon.R1cs Tachyon.FFT Tachyon.Poly Tachyon.Groth16 Tachyon.Circom

variable {F G1 G2 GT : Type} [Field F] [DecidableEq F] [AddCommGroup G1] [Module F G1] [AddCommGroup G2] [Module F G2]
  [AddCommGroup GT] [Module F GT] [DecidableEq GT]

/-- C97: the vectors `a` and `b` hold the products of the rows with the values of the wires, in whatever order the
coefficients are added up. An index out of range is not checked. -/
theorem C97_ab (o : Sched) (size : ℕ) (cs : List (Coeff F)) (full : List F) :
    ((∀ c ∈ cs, c.constraint < size ∧ c.signal < full.length) → abValues o size cs full =
      some ((List.range size).map (rowSum cs full true), (List.range size).map (rowSum cs full false))) ∧
    ((∃ c ∈ cs, size ≤ c.constraint ∨ full.length ≤ c.signal) → abValues o size cs full = none) := by
  refine ⟨fun h => abValues_spec o h, fun ⟨c, hc, h⟩ => abValues_none o ⟨c, hc, by omega⟩⟩

/-- The domain of `2 ^ k` elements and the root of unity of twice that order. -/
structure Roots (cfg : RootConfig F) (k : ℕ) (d : Domain F) (w : F) : Prop where
  create : Domain.create cfg (2 ^ k) = some d
  radix2 : d.Radix2
  size : d.size = 2 ^ k
  offset : d.offset = 1
  root : getRootOfUnity cfg (2 * 2 ^ k) = some (some w)
  prim : IsPrimitiveRoot w (2 * 2 ^ k)
  gen : d.gen = w ^ 2

/-- C97: they exist for all sizes but the largest one, and the generator of the domain is the square of the root. -/
theorem C97_domain {cfg : RootConfig F} (hc : cfg.Valid) {k : ℕ} (h62 : k ≤ 62) (hk : k + 1 ≤ cfg.twoAdicity) :
    ∃ d w, Roots cfg k d w := by
  obtain ⟨d, w, h1, h2, h3, h4, h5, h6, h7⟩ := create_pow hc h62 hk
  exact ⟨d, w, h1, h2, h3, h4, h5, h6, h7⟩

/-- C97, finding: a domain of the largest size is created, but the check of `GetRootOfUnity` fails. -/
theorem C97_largest {cfg : RootConfig F} (hc : cfg.Valid) (h62 : cfg.twoAdicity ≤ 62) :
    (∃ d, Domain.create cfg (2 ^ cfg.twoAdicity) = some d ∧ d.Radix2) ∧
    ∀ {threads : ℕ} (o : Sched) (d : Domain F), d.size = 2 ^ cfg.twoAdicity → ∀ item cs full,
      Circom.witnessMapFromMatrices threads o cfg d item cs full = none := by
  constructor
  · obtain ⟨k, -, -, h1, -, h2, -⟩ := C59_create hc (n := 2 ^ cfg.twoAdicity) (Nat.pow_le_pow_right (by norm_num) (by omega))
    obtain ⟨d, e, hd, -⟩ := h2 (h1 _ le_rfl)
    exact ⟨d, e, hd⟩
  · intro threads o d hd item cs full
    have h := (getRootOfUnity_pow hc (show cfg.twoAdicity + 1 ≤ 63 by omega)).2 (Nat.lt_succ_self _)
    rw [show 2 ^ (cfg.twoAdicity + 1) = 2 * 2 ^ cfg.twoAdicity by ring] at h
    rw [Circom.witnessMapFromMatrices, hd, h]
    cases abValues o (2 ^ cfg.twoAdicity) cs full <;> rfl

variable {cfg : RootConfig F} {k : ℕ} {d : Domain F} {w : F}

/-- C97: `WitnessMapFromMatrices`. `A`, `B` are the polynomials with the values of the products of the rows, and `D` the
one with the products of those: the result are the values of `A * B - D` at the odd powers of the root of unity. -/
theorem C97_witness (hR : Roots cfg k d w) {threads : ℕ} (ht : 0 < threads) (ht' : threads ≤ 2 ^ 63) (o : Sched)
    {item : Item F} (hi : item.For d) {cs : List (Coeff F)} {full : List F}
    (h : ∀ c ∈ cs, c.constraint < 2 ^ k ∧ c.signal < full.length) {A B D : F[X]} (hA : Interp d (rowSum cs full true) A)
    (hB : Interp d (rowSum cs full false) B)
    (hD : Interp d (fun i => rowSum cs full true i * rowSum cs full false i) D) (h0 : ∃ i < 2 ^ k, rowSum cs full true i ≠ 0) :
    Circom.witnessMapFromMatrices threads o cfg d item cs full =
      some ((List.range (2 ^ k)).map fun i => (A * B - D).eval (w ^ (2 * i + 1))) := by
  have hne : A ≠ 0 := by
    rintro rfl
    obtain ⟨i, h1, h2⟩ := h0
    exact h2 (by rw [← hA.eval i (by rw [hR.size]; exact h1), eval_zero])
  have hz : List.zipWith (· * ·) (vec d.size (rowSum cs full true)) (vec d.size (rowSum cs full false)) =
      vec d.size fun i => rowSum cs full true i * rowSum cs full false i := by
    rw [vec, vec, vec, List.zipWith_map, List.zipWith_self]
  rw [Circom.witnessMapFromMatrices, abValues_spec o (by rw [hR.size]; exact h), Option.bind_some, hz]
  simp only [hR.size ▸ hR.root, Option.bind_some, id]
  rw [shiftEvals_spec o hR.radix2 hi ht ht' w hA, shiftEvals_spec o hR.radix2 hi ht ht' w hB,
    shiftEvals_spec o hR.radix2 hi ht ht' w hD]
  simp only [Option.bind_some]
  rw [hEvals_spec hne fun i => w * (d.offset * d.gen ^ i), hR.size, vec]
  refine congrArg some (List.map_congr_left fun i _ => ?_)
  rw [hR.offset, hR.gen, one_mul, ← pow_mul, pow_succ']

/-- C97, finding: if all products of the rows of the first matrix are zero, its polynomial has no coefficients, so there
are no values and the check of `at` fails. -/
theorem C97_witness_zero (hR : Roots cfg k d w) {threads : ℕ} (ht : 0 < threads) (ht' : threads ≤ 2 ^ 63) (o : Sched)
    {item : Item F} (hi : item.For d) {cs : List (Coeff F)} {full : List F}
    (h : ∀ c ∈ cs, c.constraint < 2 ^ k ∧ c.signal < full.length) (h0 : ∀ i < 2 ^ k, rowSum cs full true i = 0) :
    Circom.witnessMapFromMatrices threads o cfg d item cs full = none := by
  have hA : Interp d (rowSum cs full true) 0 := ⟨by rw [degree_zero]; exact WithBot.bot_lt_coe _, fun i hi => by
    rw [eval_zero, h0 i (by rw [← hR.size]; exact hi)]⟩
  obtain ⟨B, hB, -⟩ := C83_interp hR.radix2.1 (rowSum cs full false)
  obtain ⟨D, hD, -⟩ := C83_interp hR.radix2.1 fun i => rowSum cs full true i * rowSum cs full false i
  have hz : List.zipWith (· * ·) (vec d.size (rowSum cs full true)) (vec d.size (rowSum cs full false)) =
      vec d.size fun i => rowSum cs full true i * rowSum cs full false i := by
    rw [vec, vec, vec, List.zipWith_map, List.zipWith_self]
  rw [Circom.witnessMapFromMatrices, abValues_spec o (by rw [hR.size]; exact h), Option.bind_some, hz]
  simp only [hR.size ▸ hR.root, Option.bind_some, id]
  rw [shiftEvals_spec o hR.radix2 hi ht ht' w hA, shiftEvals_spec o hR.radix2 hi ht ht' w hB,
    shiftEvals_spec o hR.radix2 hi ht ht' w hD]
  simp only [Option.bind_some, if_true]
  exact hEvals_none hR.radix2.1.pos _ _

/-- C97: the odd powers of the root are not in the domain: the vanishing polynomial has the value `-2` there, so the
result is the quotient's value times `-2`. -/
theorem C97_quotient (hR : Roots cfg k d w) {P H : F[X]} (h : P = H * R1cs.vanish d) (i : ℕ) :
    P.eval (w ^ (2 * i + 1)) = -2 * H.eval (w ^ (2 * i + 1)) := by
  have h1 : w ^ 2 ^ k = -1 := by
    have hp := hR.prim
    have h2 : (w ^ 2 ^ k) ^ 2 = 1 := by rw [← pow_mul, mul_comm, hp.pow_eq_one]
    rcases sq_eq_one_iff.1 h2 with h | h
    · have := hp.dvd_of_pow_eq_one _ h
      have := Nat.le_of_dvd (Nat.two_pow_pos k) this
      have := Nat.two_pow_pos k
      omega
    · exact h
  rw [h, eval_mul, vanish_eval hR.radix2.1, hR.size, hR.offset, one_pow, ← pow_mul, mul_comm _ (2 ^ k), pow_mul, h1,
    Odd.neg_one_pow ⟨i, rfl⟩]
  ring

omit [DecidableEq F] in
theorem degree_lt_two_mul {n : ℕ} (hn : 0 < n) {A B D : F[X]} (hA : A.degree < n) (hB : B.degree < n) (hD : D.degree < n) :
    (A * B - D).degree < (2 * n : ℕ) := by
  have nb : ∀ {p : F[X]}, p.degree < n → p.natDegree ≤ n - 1 := fun {p} hp => by
    by_cases h0 : p = 0
    · rw [h0, natDegree_zero]; omega
    · have := (natDegree_lt_iff_degree_lt h0).2 hp; omega
  refine (degree_le_natDegree).trans_lt ?_
  have h1 : (A * B - D).natDegree ≤ 2 * (n - 1) := by
    refine (natDegree_sub_le _ _).trans (max_le ?_ ?_)
    · refine natDegree_mul_le.trans ?_
      have h1 := nb hA
      have h2 := nb hB
      omega
    · have h3 := nb hD
      omega
  exact_mod_cast (show (A * B - D).natDegree < 2 * n by omega)

/-- C97: with the points of the key, which are those of the polynomials of degree below `2 ^ (k + 1)` that are one at an
odd power of the root and zero at all other powers, the result combines to the value of `A * B - D` at the secret
point. -/
theorem C97_lagrange (hR : Roots cfg k d w) {u v : ℕ → F} {A B D : F[X]} (hA : Interp d u A) (hB : Interp d v B)
    (hD : Interp d (fun i => u i * v i) D) (x : F) :
    ∑ i ∈ Finset.range (2 ^ k), (A * B - D).eval (w ^ (2 * i + 1)) * (oddBasis w (2 ^ k) i).eval x = (A * B - D).eval x := by
  have hs := hR.size
  refine eval_odd hR.prim (degree_lt_two_mul (Nat.two_pow_pos k) (hs ▸ hA.degree) (hs ▸ hB.degree) (hs ▸ hD.degree)) ?_ x
  intro i hi
  have e : w ^ (2 * i) = d.offset * d.gen ^ i := by rw [hR.offset, hR.gen, one_mul, pow_mul]
  rw [e, eval_sub, eval_mul, hA.eval i (hs ▸ hi), hB.eval i (hs ▸ hi), hD.eval i (hs ▸ hi), sub_self]

/-- The key of circom for the secret point `x`. -/
noncomputable def zkeyAt (tw : Toxic F G1 G2) (m : Matrices F) (k : ℕ) (w : F) (cs : List (Coeff F)) (a b c : ℕ → F[X])
    (x : F) : ZKey F G1 G2 where
  pk := theZKey tw m.numInst m.numWit (2 ^ k) (fun j => (a j).eval x) (fun j => (b j).eval x) (fun j => (c j).eval x)
    fun i => (oddBasis w (2 ^ k) i).eval x
  coefficients := cs
  domainSize := 2 ^ k
  numInst := m.numInst

/-- What the theorems about the prover need: a constraint system that fits into the domain, its coefficients and the
polynomials of its columns. -/
structure ZSetting (cfg : RootConfig F) (k : ℕ) (d : Domain F) (w : F) (m : Matrices F) (cs : List (Coeff F))
    (a b c : ℕ → F[X]) : Prop where
  roots : Roots cfg k d w
  ok : MatOk m
  pos : 0 < m.numInst
  fits : m.numCons + m.numInst ≤ 2 ^ k
  coeffs : Represents (2 ^ k) m cs
  columns : Columns d m a b c

variable {m : Matrices F} {cs : List (Coeff F)} {a b c : ℕ → F[X]}

/-- C97: for all values of the wires, the prover makes a proof with the key, and its check comes down to one equation: the
products of the rows and the rows of the third matrix have polynomials with the same value at the secret point. -/
theorem C97_check (hS : ZSetting cfg k d w m cs a b c) {threads : ℕ} (ht : 0 < threads) (ht' : threads ≤ 2 ^ 63) (o : Sched)
    (small : Bool) (e : G1 →ₗ[F] G2 →ₗ[F] GT) (tw : Toxic F G1 G2) (hgm : tw.gamma ≠ 0) (hdl : tw.delta ≠ 0) (x r s : F)
    {z : List F} (hz : z.length = m.numInst + m.numWit) (h1 : z[0]? = some 1) {C D : F[X]}
    (hC : Interp d (val m.c m.numCons z) C) (hD : Interp d (fun i => valA m z i * val m.b m.numCons z i) D) :
    ∃ proof v, Circom.prove threads o small cfg (zkeyAt tw m k w cs a b c x) r s z = some proof ∧
      checkProof (fun u v => e u v) (zkeyAt tw m k w cs a b c x) proof z = some v ∧
      (v = true ↔ (D.eval x - C.eval x) • e tw.g1 tw.g2 = 0) := by
  have hR := hS.roots
  have hpos := hS.pos
  obtain ⟨A, hA, -⟩ := C83_interp hR.radix2.1 (valA m z)
  obtain ⟨B, hB, -⟩ := C83_interp hR.radix2.1 (val m.b m.numCons z)
  have hsum : ∀ i < d.size, rowSum cs z true i = valA m z i ∧ rowSum cs z false i = val m.b m.numCons z i :=
    fun i hi => hS.coeffs.sums hS.ok z (by rw [← hR.size]; exact hi)
  obtain ⟨item, ei, hi⟩ := C60_item o small hR.radix2 ht ht'
  have hwm := C97_witness hR ht ht' o hi (cs := cs) (full := z) (A := A) (B := B) (D := D)
    (fun c hc => ⟨hS.coeffs.row c hc, by rw [hz]; exact hS.coeffs.col c hc⟩)
    (Interp.congr hA fun i hi => (hsum i hi).1.symm) (Interp.congr hB fun i hi => (hsum i hi).2.symm)
    (Interp.congr hD fun i hi => by rw [(hsum i hi).1, (hsum i hi).2])
    ⟨m.numCons, by have := hS.fits; omega, by
      rw [(hsum _ (by rw [hR.size]; have := hS.fits; omega)).1, valA, if_pos (by omega), Nat.sub_self,
        List.getD_eq_getElem?_getD, h1]
      simp⟩
  generalize hh : ((List.range (2 ^ k)).map fun i => (A * B - D).eval (w ^ (2 * i + 1))) = h at hwm
  have hlen : h.length = 2 ^ k := by rw [← hh]; simp
  have hget : ∀ i < 2 ^ k, h.getD i 0 = (A * B - D).eval (w ^ (2 * i + 1)) := fun i hi => by
    rw [← hh, List.getD_eq_getElem?_getD]; simp [hi]
  obtain ⟨proof, v, p1, p2, p3⟩ := check_z e tw hgm hdl (nw := m.numWit) hpos a b c x
    (fun i => (oddBasis w (2 ^ k) i).eval x) r s (h := h) hz h1
  rw [hlen] at p1 p2 p3
  refine ⟨proof, v, ?_, ?_, p3.trans ?_⟩
  · rw [Circom.prove]
    simp only [zkeyAt]
    rw [hR.create, Option.bind_some, ei, Option.bind_some, hwm, Option.bind_some, subspan, if_pos (by omega),
      Option.bind_some, subspan, if_pos (by omega), Option.bind_some]
    exact p1
  · rw [checkProof, publicInputs, subspan, if_pos (by omega), Option.map_some, Option.bind_some]
    simp only [zkeyAt]
    rw [← p2, List.drop_take]
  · have hc := C83_combine hR.radix2.1 hS.ok hS.columns.a hS.columns.b hS.columns.c hA hB hC x
    rw [← hc.1, ← hc.2.1, ← hc.2.2, Finset.sum_congr rfl fun i hi => by rw [hget i (Finset.mem_range.1 hi)],
      C97_lagrange hR hA hB hD x, eval_sub, eval_mul]
    refine iff_of_eq (congrArg (· • e tw.g1 tw.g2 = 0) ?_)
    ring

theorem matSat_iff (hR : Roots cfg k d w) (hok : MatOk m) (hfit : m.numCons + m.numInst ≤ 2 ^ k) {z : List F} {C D : F[X]}
    (hC : Interp d (val m.c m.numCons z) C) (hD : Interp d (fun i => valA m z i * val m.b m.numCons z i) D) :
    MatSat m z ↔ D = C := by
  have hs := hR.size
  constructor
  · intro hsat
    refine hD.unique hR.radix2.1 (Interp.congr hC fun i _ => ?_)
    by_cases h : i < m.numCons
    · rw [valA, if_neg (by omega), val, if_pos h, val, if_pos h, val, if_pos h]
      refine (hsat i _ _ _ ?_ ?_ ?_).symm <;>
        rw [List.getD_eq_getElem?_getD, List.getElem?_eq_getElem (by have := hok.a; have := hok.b; have := hok.c; omega),
          Option.getD_some]
    · rw [val, if_neg h, val, if_neg h, mul_zero]
  · rintro rfl i ra rb rc h1 h2 h3
    have hin : i < m.numCons := by rw [← hok.a]; exact (List.getElem?_eq_some_iff.1 h1).1
    have h := (hD.eval i (by omega)).symm.trans (hC.eval i (by omega))
    rw [valA, if_neg (by omega), val, if_pos hin, val, if_pos hin, val, if_pos hin] at h
    simpa [List.getD_eq_getElem?_getD, h1, h2, h3] using h

/-- C97, completeness: when the values satisfy the constraints, the proof is accepted, for every secret point and all
other secrets with `γ` and `δ` not zero, and all random values. -/
theorem C97_complete (hS : ZSetting cfg k d w m cs a b c) {threads : ℕ} (ht : 0 < threads) (ht' : threads ≤ 2 ^ 63)
    (o : Sched) (small : Bool) (e : G1 →ₗ[F] G2 →ₗ[F] GT) (tw : Toxic F G1 G2) (hgm : tw.gamma ≠ 0) (hdl : tw.delta ≠ 0)
    (x r s : F) {z : List F} (hz : z.length = m.numInst + m.numWit) (h1 : z[0]? = some 1) (hsat : MatSat m z) :
    ∃ proof, Circom.prove threads o small cfg (zkeyAt tw m k w cs a b c x) r s z = some proof ∧
      checkProof (fun u v => e u v) (zkeyAt tw m k w cs a b c x) proof z = some true := by
  obtain ⟨C, hC, -⟩ := C83_interp hS.roots.radix2.1 (val m.c m.numCons z)
  obtain ⟨D, hD, -⟩ := C83_interp hS.roots.radix2.1 fun i => valA m z i * val m.b m.numCons z i
  obtain ⟨proof, v, h2, h3, h4⟩ := C97_check hS ht ht' o small e tw hgm hdl x r s hz h1 hC hD
  rw [(matSat_iff hS.roots hS.ok hS.fits hC hD).1 hsat, sub_self, zero_smul] at h4
  exact ⟨proof, h2, by rw [h3, h4.2 rfl]⟩

/-- C97, soundness of this prover: when the values do not satisfy the constraints, its proof is accepted for at most
`2 ^ k - 1` secret points, whatever the other secrets and the random values are. -/
theorem C97_sound (hS : ZSetting cfg k d w m cs a b c) {threads : ℕ} (ht : 0 < threads) (ht' : threads ≤ 2 ^ 63)
    (o : Sched) (small : Bool) (e : G1 →ₗ[F] G2 →ₗ[F] GT) {z : List F} (hz : z.length = m.numInst + m.numWit)
    (h1 : z[0]? = some 1) (hsat : ¬ MatSat m z) (S : Finset F)
    (hacc : ∀ x ∈ S, ∃ (tw : Toxic F G1 G2) (r s : F) (proof : Groth16.Proof G1 G2), tw.gamma ≠ 0 ∧ tw.delta ≠ 0 ∧
      e tw.g1 tw.g2 ≠ 0 ∧ Circom.prove threads o small cfg (zkeyAt tw m k w cs a b c x) r s z = some proof ∧
      checkProof (fun u v => e u v) (zkeyAt tw m k w cs a b c x) proof z = some true) : S.card ≤ 2 ^ k - 1 := by
  obtain ⟨C, hC, -⟩ := C83_interp hS.roots.radix2.1 (val m.c m.numCons z)
  obtain ⟨D, hD, -⟩ := C83_interp hS.roots.radix2.1 fun i => valA m z i * val m.b m.numCons z i
  have hne : D - C ≠ 0 := fun h => hsat ((matSat_iff hS.roots hS.ok hS.fits hC hD).2 (sub_eq_zero.1 h))
  have hdeg : (D - C).natDegree < 2 ^ k := by
    rw [natDegree_lt_iff_degree_lt hne]
    have hs := hS.roots.size
    exact (degree_sub_le _ _).trans_lt (max_lt (hs ▸ hD.degree) (hs ▸ hC.degree))
  have hroot : ∀ x ∈ S, (D - C).IsRoot x := fun x hx => by
    obtain ⟨tw, r, s, proof, g1, g2, g3, g4, g5⟩ := hacc x hx
    obtain ⟨proof', v, h2, h3, h4⟩ := C97_check hS ht ht' o small e tw g1 g2 x r s hz h1 hC hD
    obtain rfl := Option.some.inj (g4.symm.trans h2)
    obtain rfl := Option.some.inj (h3.symm.trans g5)
    rw [IsRoot, eval_sub]
    exact (smul_eq_zero.1 (h4.1 rfl)).resolve_right g3
  have : S.card ≤ (D - C).roots.toFinset.card := Finset.card_le_card fun x hx => by
    rw [Multiset.mem_toFinset, mem_roots hne]; exact hroot x hx
  have := (this.trans (Multiset.toFinset_card_le _)).trans (card_roots' _)
  omega

/-! ### The circuit -/

omit [DecidableEq F] in
/-- C97: the circuit made from a constraint system uses only its own variables, its constraint system has those numbers of
variables and constraints, the values of the wires, and no references between linear combinations; and values of the
wires satisfy it exactly if they satisfy the constraints. -/
theorem C97_circuit (st : Sorter F) {r : R1CS F} (hr : r.Ok) {full : List F} (hl : full.length = r.numVars)
    (h1 : full[0]? = some 1) :
    (Circom.synthesize st r full).Closed ∧
    ∃ cs : CS F, (Circom.synthesize st r full).run {} = some cs ∧ cs.numInst = r.numInst ∧
      cs.numWit = r.numVars - r.numInst ∧ cs.numCons = r.constraints.length ∧ cs.inst ++ cs.wit = full ∧
      (∀ j, refs cs.lcMap j = 0) ∧
      ∀ x y, x.length = cs.numInst → y.length = cs.numWit → (Sat cs x y ↔ r.Holds (x ++ y)) := by
  obtain ⟨n, hn⟩ : ∃ n, r.numInst = n + 1 := ⟨r.numInst - 1, by have := hr.pos; omega⟩
  have hle := hr.le
  obtain ⟨z, rfl⟩ : ∃ z, full = 1 :: z := by
    cases full with
    | nil => simp at h1
    | cons v z => exact ⟨z, by rw [Option.some.inj h1]⟩
  rw [List.length_cons] at hl
  have e1 : (((1 : F) :: z).take r.numInst).drop 1 = z.take n := by rw [hn]; rfl
  have e2 : (((1 : F) :: z).take r.numVars).drop (max 1 r.numInst) = z.drop n := by
    rw [List.take_of_length_le (by rw [List.length_cons]; omega), hn, Nat.max_eq_right (by omega)]; rfl
  have l1 : (z.take n).length = n := by rw [List.length_take]; omega
  have l2 : (z.drop n).length = r.numVars - r.numInst := by rw [List.length_drop]; omega
  constructor
  · rw [Prog.Closed, Circom.synthesize, e1, e2]
    refine scoped_instances _ fun K hK hi => scoped_witnesses _ fun K' hK' hw => ?_
    have hv : ∀ t : CTerm F, t.wire < r.numVars → K' (wireVar r.numInst t.wire) := fun t ht => by
      rw [wireVar]
      split
      · next h =>
        refine hK' _ ?_
        by_cases h0 : t.wire = 0
        · rw [h0]; exact hK _ (Or.inr rfl)
        · exact hi _ (by omega) (by omega)
      · exact hw _ (by omega) (by omega)
    exact scoped_enforceAll st _ _ _ _ fun c hc => ⟨fun t ht => hv t ((hr.wires c hc).1 t ht),
      fun t ht => hv t ((hr.wires c hc).2.1 t ht), fun t ht => hv t ((hr.wires c hc).2.2 t ht)⟩
  · obtain ⟨c0, q1, q2, q3, q4, q5, q6, q7, q8, q9, q10⟩ := run_variables (z.take n) (z.drop n)
    have hi : c0.numInst = r.numInst := by omega
    have hw : c0.numInst + c0.numWit = r.numVars := by omega
    obtain ⟨cs, p1, p2, p3, p4, p5, p6, p7, p8, p9⟩ := run_enforceAll st r.constraints q2 q3 q4 (by rw [hw]; exact hr.wires)
    rw [hi] at p1
    refine ⟨cs, by rw [Circom.synthesize, e1, e2, q1, p1], p4.trans hi, by omega, by omega, ?_, p3.refs, fun x y hx hy => ?_⟩
    · rw [p7, p8, q8, q9, List.cons_append, List.take_append_drop]
    · rw [p9 x y (hx.trans p4) (hy.trans p5)]
      exact ⟨fun h => h.2, fun h => ⟨q10 x y, h⟩⟩

omit [DecidableEq F] in
/-- C97: other values of the wires give the same circuit, and the public values are those of the instance variables but
the constant one. -/
theorem C97_circuit_same (st : Sorter F) (r : R1CS F) {full full' : List F} (h : full.length = full'.length) :
    Same (Circom.synthesize st r full) (Circom.synthesize st r full') ∧
    (r.numInst ≤ full.length → getPublicInputs r full = some ((full.take r.numInst).drop 1)) := by
  refine ⟨same_instances _ _ (by simp [h]) (same_witnesses _ _ (by simp [h]) (same_refl _)), fun hl => ?_⟩
  rw [getPublicInputs, Poly.mapM_some (g := fun i => full.getD (i + 1) 0) fun i hi => ?_]
  · refine congrArg some (List.ext_getElem? fun i => ?_)
    rw [List.getElem?_drop, List.getElem?_map]
    by_cases h : i < r.numInst - 1
    · rw [List.getElem?_range h, Option.map_some, List.getElem?_take_of_lt (by omega), List.getD_eq_getElem?_getD,
        Nat.add_comm 1, List.getElem?_eq_getElem (by omega), Option.getD_some]
    · rw [List.getElem?_eq_none (by simp; omega), List.getElem?_eq_none (by simp; omega), Option.map_none]
  · have := List.mem_range.1 hi
    rw [List.getD_eq_getElem?_getD, List.getElem?_eq_getElem (by omega), Option.getD_some]

/-! ### The product of two numbers modulo 17: wires one, c, a, b with `a * b = c` for a public `c` -/

/-- The coefficients as snarkjs writes them: one constraint, and the two rows for the instance variables. -/
def exZCoeffs : List (Coeff F17) := [⟨0, 0, 2, 1⟩, ⟨1, 0, 3, 1⟩, ⟨0, 1, 0, 1⟩, ⟨0, 2, 1, 1⟩]

/-- The matrices that they stand for. -/
def exZMatrices : Matrices F17 := ⟨2, 2, 1, 1, 1, 1, [[⟨1, 2⟩]], [[⟨1, 3⟩]], [[⟨1, 1⟩]]⟩

example : Represents 4 exZMatrices exZCoeffs := ⟨by decide, by decide, by decide, by decide⟩

example : MatOk exZMatrices ∧ MatSat exZMatrices [1, 15, 3, 5] ∧ ¬ MatSat exZMatrices [1, 14, 3, 5] := by
  refine ⟨⟨rfl, rfl, rfl, by unfold CellsOk; decide, by unfold CellsOk; decide, by unfold CellsOk; decide⟩, ?_, fun h => ?_⟩
  · rintro (_ | i) a b c h1 h2 h3
    · obtain rfl := Option.some.inj h1
      obtain rfl := Option.some.inj h2
      obtain rfl := Option.some.inj h3
      decide
    · simp [exZMatrices] at h1
  · exact absurd (h 0 _ _ _ rfl rfl rfl) (by decide)

example : abValues Sched.rev 4 exZCoeffs [1, 15, 3, 5] = some ([3, 1, 15, 0], [5, 0, 0, 0]) ∧
    abValues Sched.seq 4 exZCoeffs [1, 15, 3] = none := by decide +kernel

/-- The values of the columns at 5, and those of the polynomials for the odd powers of the root. -/
def exZLagrange (n : ℕ) (g x : F17) (i : ℕ) : F17 := ((List.range n).filter (· ≠ i)).foldl
  (fun acc j => acc * (x - g ^ j) * (g ^ i - g ^ j)⁻¹) 1

/-- Without the row for the constant one the values are not defined; neither are they for the largest domain. -/
example : (Domain.create exConfig 4).bind (fun d => (Item.new 1 Sched.seq true d false).bind fun item =>
      Circom.witnessMapFromMatrices 1 Sched.seq exConfig d item exZCoeffs [1, 15, 3, 5]) = some [14, 1, 4, 7] ∧
    (Domain.create exConfig 4).bind (fun d => (Item.new 1 Sched.seq true d false).bind fun item =>
      Circom.witnessMapFromMatrices 1 Sched.seq exConfig d item (exZCoeffs.take 2) [1, 0, 0, 5]) = none ∧
    (Domain.create exConfig 16).bind (fun d => (Item.new 1 Sched.seq true d false).bind fun item =>
      Circom.witnessMapFromMatrices 1 Sched.seq exConfig d item exZCoeffs [1, 15, 3, 5]) = none := by decide +kernel

def exZKey (w : F17) : ZKey F17 F17 F17 where
  pk :=
    let l := exZLagrange 4 (w ^ 2) 5
    theZKey exToxic 2 2 4 (fun j => [l 1, l 2, l 0, 0].getD j 0) (fun j => [0, 0, 0, l 0].getD j 0)
      (fun j => [0, l 0, 0, 0].getD j 0) fun i => exZLagrange 8 w 5 (2 * i + 1)
  coefficients := exZCoeffs
  domainSize := 4
  numInst := 2

example : ((getRootOfUnity exConfig 8).bind id).bind (fun w =>
    (Circom.prove 1 Sched.seq true exConfig (exZKey w) 4 6 [1, 15, 3, 5]).bind fun proof =>
      (checkProof (fun u v : F17 => u * v) (exZKey w) proof [1, 15, 3, 5]).bind fun r =>
        (checkProof (fun u v : F17 => u * v) (exZKey w) proof [1, 14, 3, 5]).map fun r' => (r, r')) =
    some (true, false) := by decide +kernel

example : ((getRootOfUnity exConfig 8).bind id).bind (fun w =>
    (Circom.prove 1 Sched.seq true exConfig (exZKey w) 4 6 [1, 14, 3, 5]).bind fun proof =>
      checkProof (fun u v : F17 => u * v) (exZKey w) proof [1, 14, 3, 5]) = some false := by decide +kernel

/-- The same constraint as a circuit. -/
def exZR1cs : R1CS F17 := ⟨2, 4, [⟨[⟨2, 1⟩], [⟨3, 1⟩], [⟨1, 1⟩]⟩]⟩

example : exZR1cs.Ok ∧ exZR1cs.Holds [1, 15, 3, 5] ∧ ¬ exZR1cs.Holds [1, 14, 3, 5] :=
  ⟨⟨by decide, by decide, by decide⟩, by unfold R1CS.Holds; decide, by unfold R1CS.Holds; decide⟩

example : ((Circom.synthesize exSorter exZR1cs [1, 15, 3, 5]).run {}).map (fun cs => (cs.numInst, cs.numWit, cs.inst, cs.wit,
    (cs.isSatisfied).map (·.1))) = some (2, 2, [1, 15], [3, 5], some true) ∧
    getPublicInputs exZR1cs [1, 15, 3, 5] = some [15] := by decide +kernel

end Tachyon.Props
