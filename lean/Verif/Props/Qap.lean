import Verif.Proofs.Qap
import Verif.Props.R1cs
/-! C83: quadratic arithmetic programs. -/
namespace Tachyon.Props
open Polynomial Tachyon.R1cs Tachyon.FFT Tachyon.Poly

variable {F : Type} [Field F] [DecidableEq F]

/-- C83: `InstanceMap` gives the values at `x` of the polynomials that interpolate the columns of the matrices,
and of the polynomial that vanishes on the domain, for every `x`, on the domain or not. -/
theorem C83_instance {threads : ℕ} {d : Domain F} (hd : d.Valid) {cs : CS F} (hf : Finalized cs) (hz : cs.ZeroFree)
    (hc : cs.shouldConstruct = true) (hs : cs.numCons + cs.numInst ≤ d.size) (x : F) (ht : 0 < threads)
    (ht' : threads < 128) :
    ∃ m q, cs.toMatrices = some (some m) ∧ instanceMap threads d cs x = some q ∧
      q.tx = (∏ i ∈ Finset.range d.size, (X - C (d.offset * d.gen ^ i))).eval x ∧ q.numCons = cs.numCons ∧
      q.numInst = cs.numInst ∧ q.numWit = cs.numWit ∧ q.numQap + 1 = cs.numInst + cs.numWit ∧
      q.a.length = cs.numInst + cs.numWit ∧ q.b.length = cs.numInst + cs.numWit ∧
      q.c.length = cs.numInst + cs.numWit ∧
      ∀ j < cs.numInst + cs.numWit,
        (∃ p, Interp d (colA m j) p ∧ q.a[j]? = some (p.eval x)) ∧
        (∃ p, Interp d (col m.b m.numCons j) p ∧ q.b[j]? = some (p.eval x)) ∧
        ∃ p, Interp d (col m.c m.numCons j) p ∧ q.c[j]? = some (p.eval x) := by
  obtain ⟨m, e, h1, h2, h3, h4, h5, h6, -, -, -, h7, h8, h9, -⟩ := C82_matrices hf hz hc
  rw [← h1, ← h2] at h7 h8 h9
  obtain ⟨q, eq, h⟩ := instanceMap_spec hd e ⟨h4.trans h3.symm, h5.trans h3.symm, h6.trans h3.symm, h7, h8, h9⟩ h1 h2 h3
    hf.pos hs x ht ht'
  exact ⟨m, q, e, eq, h⟩

omit [DecidableEq F] in
/-- C83: there is exactly one polynomial of small degree with given values on the domain. -/
theorem C83_interp {d : Domain F} (hd : d.Valid) (v : ℕ → F) : ∃! p, Interp d v p := by
  obtain ⟨p, hp, -⟩ := Interp.of_basis hd v
  exact ⟨p, hp, fun q hq => hq.unique hd hp⟩

omit [DecidableEq F] in
/-- C83: the values of the columns combine to the values of the products with a vector. -/
theorem C83_combine {d : Domain F} (hd : d.Valid) {m : Matrices F} (hok : MatOk m) {z : List F} {pa pb pc : ℕ → F[X]}
    (ha : ∀ j < m.numInst + m.numWit, Interp d (colA m j) (pa j))
    (hb : ∀ j < m.numInst + m.numWit, Interp d (col m.b m.numCons j) (pb j))
    (hc : ∀ j < m.numInst + m.numWit, Interp d (col m.c m.numCons j) (pc j)) {A B D : F[X]}
    (hA : Interp d (valA m z) A) (hB : Interp d (val m.b m.numCons z) B) (hD : Interp d (val m.c m.numCons z) D) (x : F) :
    A.eval x = ∑ j ∈ Finset.range (m.numInst + m.numWit), z.getD j 0 * (pa j).eval x ∧
      B.eval x = ∑ j ∈ Finset.range (m.numInst + m.numWit), z.getD j 0 * (pb j).eval x ∧
      D.eval x = ∑ j ∈ Finset.range (m.numInst + m.numWit), z.getD j 0 * (pc j).eval x := by
  have ev : ∀ p : ℕ → F[X], (∑ j ∈ Finset.range (m.numInst + m.numWit), C (z.getD j 0) * p j).eval x =
      ∑ j ∈ Finset.range (m.numInst + m.numWit), z.getD j 0 * (p j).eval x := fun p => by
    rw [eval_finsetSum]; exact Finset.sum_congr rfl fun j _ => by rw [eval_mul, eval_C]
  refine ⟨?_, ?_, ?_⟩
  · have h := Interp.sum (fun j => z.getD j 0) ha
    rw [← funext (valA_eq_sum (Nat.le_add_right _ _) z fun row hr c hc => (hok.ca row hr c hc).2)] at h
    rw [hA.unique hd h, ev]
  · have h := Interp.sum (fun j => z.getD j 0) hb
    rw [← funext (val_eq_sum z fun row hr c hc => (hok.cb row hr c hc).2)] at h
    rw [hB.unique hd h, ev]
  · have h := Interp.sum (fun j => z.getD j 0) hc
    rw [← funext (val_eq_sum z fun row hr c hc => (hok.cc row hr c hc).2)] at h
    rw [hD.unique hd h, ev]

/-- C83: `WitnessMap` finds the quotient of `A B - C` by the vanishing polynomial exactly if the values of the
variables satisfy the system, and it then has at most `size - 1` coefficients. -/
theorem C83_witness {threads : ℕ} (o : Sched) {d : Domain F} (hd : d.Radix2) {item : Item F} (hi : item.For d) {g : F}
    (hg : g ≠ 0) (hg' : ∀ i < d.size, g ≠ d.offset * d.gen ^ i) {cs : CS F} (hf : Finalized cs) (hz : cs.ZeroFree)
    (hc : cs.shouldConstruct = true) (hset : cs.setup = false) (hs : cs.numCons + cs.numInst ≤ d.size)
    (ht : 0 < threads) (ht' : threads ≤ 2 ^ 63) :
    ∃ m h A B D, cs.toMatrices = some (some m) ∧
      witnessMap threads o g d item cs = some (h, cs.inst ++ cs.wit) ∧ DClean h ∧ h.length ≤ d.size ∧
      Interp d (valA m (cs.inst ++ cs.wit)) A ∧ Interp d (val m.b m.numCons (cs.inst ++ cs.wit)) B ∧
      Interp d (val m.c m.numCons (cs.inst ++ cs.wit)) D ∧
      (Sat cs cs.inst cs.wit ↔ A * B - D = dpoly h * ∏ i ∈ Finset.range d.size, (X - C (d.offset * d.gen ^ i))) ∧
      (Sat cs cs.inst cs.wit → h.length ≤ d.size - 1) := by
  obtain ⟨m, e, h1, h2, h3, h4, h5, h6, -, -, -, h7, h8, h9, hsat⟩ := C82_matrices hf hz hc
  rw [← h1, ← h2] at h7 h8 h9
  have hv : (vanish d).eval g ≠ 0 := by
    rw [vanish, eval_prod, Finset.prod_ne_zero_iff]
    intro i hi
    rw [eval_sub, eval_X, eval_C]
    exact sub_ne_zero.2 (hg' i (Finset.mem_range.1 hi))
  obtain ⟨h, A, B, D, eh, q1, q2, q3, q4, q5, q6, q7⟩ := witnessMapFromMatrices_spec o hd hi hg hv
    ⟨h4.trans h3.symm, h5.trans h3.symm, h6.trans h3.symm, h7, h8, h9⟩ (by omega) (z := cs.inst ++ cs.wit)
    (by rw [List.length_append, hf.inst hset, hf.wit hset, h1, h2]) (h1 ▸ hf.pos)
    (by rw [List.getElem?_append_left (by rw [hf.inst hset]; exact hf.pos)]; exact hf.one) ht ht'
  have hs' := hsat cs.inst cs.wit (hf.inst hset) (hf.wit hset) hf.one
  exact ⟨m, h, A, B, D, e, by rw [witnessMap, e, Option.bind_some, Option.bind_some, eh, Option.map_some], q1, q2, q3, q4,
    q5, ⟨fun hh => (q6 (hs'.2 hh)).1, fun hh => hs'.1 (q7 hh)⟩, fun hh => (q6 (hs'.2 hh)).2⟩

/-- C83: when a vector does not satisfy the matrices, then whatever quotient a prover takes, at most
`2 size - 2` points make the equation of the program true. -/
theorem C83_sound {d : Domain F} (hd : d.Valid) {m : Matrices F} (hok : MatOk m) (hs : m.numCons + m.numInst ≤ d.size)
    {z : List F} {A B D H : F[X]} (hA : Interp d (valA m z) A) (hB : Interp d (val m.b m.numCons z) B)
    (hD : Interp d (val m.c m.numCons z) D) (hH : H.degree < (d.size - 1 : ℕ)) (hn : ¬ MatSat m z) (S : Finset F)
    (hS : ∀ x ∈ S, A.eval x * B.eval x - D.eval x =
      H.eval x * (∏ i ∈ Finset.range d.size, (X - C (d.offset * d.gen ^ i))).eval x) : S.card ≤ 2 * d.size - 2 := by
  have hpos := hd.pos
  by_contra hcard
  have nb : ∀ {p : F[X]}, p.degree < d.size → p.natDegree ≤ d.size - 1 := fun {p} hp => by
    by_cases h0 : p = 0
    · rw [h0, natDegree_zero]; omega
    · have := (natDegree_lt_iff_degree_lt h0).2 hp; omega
  have hz : A * B - D - H * vanish d = 0 := by
    refine eq_zero_of_natDegree_lt_card_of_eval_eq_zero' _ S (fun x hx => ?_) ?_
    · rw [eval_sub, eval_sub, eval_mul, eval_mul, hS x hx]; exact sub_self _
    · have h1 := nb hA.degree
      have h2 := nb hB.degree
      have h3 := nb hD.degree
      refine lt_of_le_of_lt (natDegree_sub_le _ _) (max_lt (lt_of_le_of_lt (natDegree_sub_le _ _) (max_lt ?_ ?_)) ?_)
      · refine lt_of_le_of_lt natDegree_mul_le ?_
        omega
      · omega
      · by_cases h0 : H = 0
        · rw [h0, zero_mul, natDegree_zero]; omega
        · refine lt_of_le_of_lt natDegree_mul_le ?_
          have := (natDegree_lt_iff_degree_lt h0).2 hH
          rw [(vanish_degree d).1]
          omega
  refine hn fun i ra rb rc h1 h2 h3 => ?_
  have hin : i < m.numCons := by rw [← hok.a]; exact (List.getElem?_eq_some_iff.1 h1).1
  have h := congrArg (eval (d.offset * d.gen ^ i)) hz
  have hv : (vanish d).eval (d.offset * d.gen ^ i) = 0 := by
    rw [vanish, eval_prod]
    exact Finset.prod_eq_zero (Finset.mem_range.2 (show i < d.size by omega)) (by simp)
  rw [eval_sub, eval_sub, eval_mul, eval_mul, hv, mul_zero, sub_zero, hA.eval i (by omega), hB.eval i (by omega),
    hD.eval i (by omega), valA, if_neg (by omega), val, if_pos hin, val, if_pos hin, val, if_pos hin, eval_zero,
    sub_eq_zero] at h
  simpa [List.getD_eq_getElem?_getD, h1, h2, h3] using h

omit [DecidableEq F] in
/-- C83: `ComputeHQuery` gives `x^i t(x) / δ` for `i < size - 1`, for any number of threads, and with it the value of
a quotient. -/
theorem C83_hQuery {threads : ℕ} (d : Domain F) (hd : d.size ≤ 2 ^ 63) (tx x deltaInv : F) (ht : 0 < threads)
    (ht' : threads ≤ 2 ^ 63) :
    computeHQuery threads d tx x deltaInv = (List.range (d.size - 1)).map (fun i => x ^ i * tx * deltaInv) :=
  computeHQuery_spec d hd tx x deltaInv ht ht'

/-- C83, finding: both maps only check that the domain has as many elements as there are constraints. If it has
fewer than constraints and instance variables, they access vectors out of bounds. -/
theorem C83_small {threads : ℕ} (o : Sched) {d : Domain F} (hd : d.Valid) {cs : CS F} (hf : Finalized cs)
    (hz : cs.ZeroFree) (hc : cs.shouldConstruct = true) (h1 : cs.numCons ≤ d.size)
    (h2 : d.size < cs.numCons + cs.numInst) (x g : F) (item : Item F) (ht : 0 < threads) (ht' : threads < 128) :
    instanceMap threads d cs x = none ∧ (cs.setup = false → witnessMap threads o g d item cs = none) := by
  obtain ⟨m, e, i1, i2, i3, i4, i5, i6, -, -, -, i7, i8, i9, -⟩ := C82_matrices hf hz hc
  refine ⟨?_, fun hset => ?_⟩
  · rw [instanceMap, if_neg (by omega), e, Option.bind_some, C39_all hd x ht ht', Option.bind_some]
    simp only
    rw [placeInst_none (by simpa using h2) (by simpa using h1)]
    rfl
  · have hlen : (cs.inst ++ cs.wit).length = cs.numInst + cs.numWit := by
      rw [List.length_append, hf.inst hset, hf.wit hset]
    have hcell : ∀ rows : List (List (Cell F)), CellsOk rows (cs.numInst + cs.numWit) →
        ∀ row ∈ rows, ∀ c ∈ row, c.index < (cs.inst ++ cs.wit).length := fun rows h row hr c hc => by
      rw [hlen]; exact (h row hr c hc).2
    have key : ∀ (k : ℕ) (v : List F), v.length = d.size → k ≤ (cs.inst ++ cs.wit).length → d.size < cs.numCons + k →
        placeFull (cs.inst ++ cs.wit) cs.numCons k v = none := by
      intro k v hv hk hlt
      induction k with
      | zero => omega
      | succ k ih =>
        rw [placeFull, foldlM_range_succ]
        rcases Nat.lt_or_ge d.size (cs.numCons + k) with h | h
        · have := ih (by omega) h
          rw [placeFull] at this
          rw [this]; rfl
        · have hs := placeFull_spec (full := cs.inst ++ cs.wit) (k := k) (m := cs.numCons) (size := d.size) (by omega) h
            (fun i => v.getD i 0)
          have hvv : v = vec d.size fun i => v.getD i 0 := eq_vec hv fun i hi => by
            rw [List.getD_eq_getElem?_getD, List.getElem?_eq_getElem (by omega), Option.getD_some]
          rw [← hvv, placeFull] at hs
          rw [hs, Option.bind_some, List.getElem?_eq_getElem (by omega), Option.bind_some, setAt,
            vec_get_none _ (by omega)]
          rfl
    rw [witnessMap, e, Option.bind_some, Option.bind_some, witnessMapFromMatrices, if_neg (by omega), i3, i1,
      rowValues_spec h1 i4 (hcell _ i7), Option.bind_some, rowValues_spec h1 i5 (hcell _ i8), Option.bind_some,
      rowValues_spec h1 i6 (hcell _ i9), Option.bind_some, key _ _ (vec_length _ _) (by omega) h2]
    rfl

/-! ### The circuit of simple_circuit.h:20-31 modulo 17 -/

/-- `a * b = c` with the witnesses `a = 3`, `b = 5` and the instance value `v`. -/
def exCircuit (v : F17) : CS F17 :=
  { numInst := 2, numWit := 2, numCons := 1, numLC := 3, inst := [1, v], wit := [3, 5],
    lcMap := [(0, [⟨1, .wit 0⟩]), (1, [⟨1, .wit 1⟩]), (2, [⟨1, .inst 1⟩])], aCons := [0], bCons := [1], cCons := [2] }

/-- The domain of four elements. -/
def exQuad : Domain F17 := ⟨4, 2, 4, 13, 13, 4, 1, 1, 1⟩

example : Domain.create exConfig 3 = some exQuad := by decide +kernel

example : (instanceMap 1 exQuad (exCircuit 15) 5).map (fun q => (q.a, q.b, q.c, q.tx)) =
    some ([10, 8, 5, 0], [0, 0, 0, 5], [0, 5, 0, 0], 12) := by decide +kernel

-- the quotient exists for 15 but not for 14
example : ((Item.new 1 Sched.seq true exQuad false).bind fun item =>
      (witnessMap 1 Sched.seq 3 exQuad item (exCircuit 15)).map (·.1)) = some [1, 12, 12] ∧
    ((Item.new 1 Sched.seq true exQuad false).bind fun item =>
      (witnessMap 1 Sched.seq 3 exQuad item (exCircuit 14)).map (fun r => r.1.length)) = some 4 := by decide +kernel

example : computeHQuery 2 exQuad 12 5 2 = [7, 1, 5] := by decide +kernel

end Tachyon.Props
