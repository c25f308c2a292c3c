import Verif.Proofs.Groth16
/-! C84: Groth16. -/
namespace Tachyon.Props
open Polynomial Tachyon.R1cs Tachyon.FFT Tachyon.Poly Tachyon.Kzg Tachyon.Group Tachyon.Groth16

variable {F G1 G2 GT : Type} [Field F] [DecidableEq F] [AddCommGroup G1] [Module F G1] [AddCommGroup G2] [Module F G2]
  [AddCommGroup GT] [Module F GT] [DecidableEq GT]

omit [DecidableEq F] in
/-- C84: a circuit that uses only the constant one and the variables that it has created can be synthesized. -/
theorem C84_run {p : Prog F} (hp : p.Closed) : ∃ cs, p.run {} = some cs ∧ Built cs := by
  obtain ⟨r, e, hb, -⟩ := run_closed hp false true rfl
  exact ⟨r, e, hb⟩

omit [DecidableEq F] in
/-- C84: for other values of the variables the circuit makes the same constraints. -/
theorem C84_same {p q : Prog F} (h : Same p q) {cs : CS F} (hrun : p.run {} = some cs) :
    ∃ cs', q.run {} = some cs' ∧ cs'.numInst = cs.numInst ∧ cs'.numWit = cs.numWit ∧ cs'.numCons = cs.numCons ∧
      ∀ x w, Sat cs' x w ↔ Sat cs x w := by
  obtain ⟨r, e, sh, -⟩ := run_shape h (Shape.refl ({} : CS F)) rfl rfl hrun
  exact ⟨r, e, sh.numInst.symm, sh.numWit.symm, sh.numCons.symm, fun x w => (sat_shape sh x w).symm⟩

/-- What all the theorems below are about: the circuit `p`, its constraint system `cs`, the domain `d` of size
`2 ^ k`, the matrices `m` and the polynomials `a`, `b`, `c` of their columns. -/
structure Setting (cfg : RootConfig F) (st : Sorter F) (p : Prog F) (cs : CS F) (k : ℕ) (d : Domain F) (m : Matrices F)
    (a b c : ℕ → F[X]) : Prop where
  inScope : p.Closed
  run : p.run {} = some cs
  fits : Fits cfg cs k
  domain : Domain.create cfg (cs.numCons + cs.numInst) = some d
  radix2 : d.Radix2
  size : d.size = 2 ^ k
  offset : d.offset = 1
  ok : MatOk m
  numInst : m.numInst = cs.numInst
  numWit : m.numWit = cs.numWit
  numCons : m.numCons = cs.numCons
  sat : ∀ x w, x.length = cs.numInst → w.length = cs.numWit → x[0]? = some 1 → (MatSat m (x ++ w) ↔ Sat cs x w)
  synth : ∀ q, Same p q → ∀ setup, ∃ cs', synthesize st q setup = some cs' ∧ Finalized cs' ∧ cs'.ZeroFree ∧
    cs'.shouldConstruct = true ∧ cs'.setup = setup ∧ cs'.toMatrices = some (some m) ∧ cs'.numInst = cs.numInst ∧
    cs'.numWit = cs.numWit ∧ cs'.numCons = cs.numCons ∧
    (setup = false → ∃ csq, q.run {} = some csq ∧ cs'.inst = csq.inst ∧ cs'.wit = csq.wit ∧
      Built csq ∧ csq.numInst = cs.numInst ∧ csq.numWit = cs.numWit ∧ ∀ x w, (Sat csq x w ↔ Sat cs x w))
  columns : Columns d m a b c

/-- C84: every circuit that fits into a domain of the field has all that. -/
theorem C84_setting {cfg : RootConfig F} (hcfg : cfg.Valid) (st : Sorter F) {p : Prog F} (hp : p.Closed)
    {cs : CS F} (hrun : p.run {} = some cs) {k : ℕ} (hfit : Fits cfg cs k) :
    ∃ d m a b c, Setting cfg st p cs k d m a b c := by
  obtain ⟨m, hok, h1, h2, h3, h4, h5⟩ := synth (s := st) hp hrun hfit.refs
  obtain ⟨k', hk1, hk2, hk3, -, hk4, -⟩ := C59_create hcfg
    (hfit.le.trans (Nat.pow_le_pow_right (by norm_num) hfit.k63))
  obtain rfl : k = k' := le_antisymm (hfit.least _ hk2) (hk3 _ hfit.le)
  obtain ⟨d, d1, d2, d3, d4⟩ := hk4 hfit.adicity
  choose f hf _ using fun v => C83_interp d2.1 v
  exact ⟨d, m, fun j => f (colA m j), fun j => f (col m.b m.numCons j), fun j => f (col m.c m.numCons j), hp, hrun, hfit, d1,
    d2, by rw [d2.2, d3], d4, hok, h1, h2, h3, h4, h5, fun j _ => hf _, fun j _ => hf _, fun j _ => hf _⟩

variable {cfg : RootConfig F} {st : Sorter F} {p : Prog F} {cs : CS F} {k : ℕ} {d : Domain F} {m : Matrices F}
  {a b c : ℕ → F[X]}

/-- The key for the point `x`. -/
noncomputable def keyAt (tw : Toxic F G1 G2) (cs : CS F) (k : ℕ) (a b c : ℕ → F[X]) (x : F) : ProvingKey G1 G2 :=
  theKey tw cs.numInst cs.numWit (2 ^ k) (fun j => (a j).eval x) (fun j => (b j).eval x) (fun j => (c j).eval x) x
    (x ^ 2 ^ k - 1)

/-- C84: the keys are those of Groth16, for the first random point outside the domain. The key of the verifier alone
needs `γ ≠ 0`. -/
theorem C84_keys (hS : Setting cfg st p cs k d m a b c) {threads : ℕ} (ht : 0 < threads) (ht' : threads < 128)
    (tw : Toxic F G1 G2) (pre post : List F) (x : F) (hpre : ∀ y ∈ pre, y ^ 2 ^ k = 1) (hx : x ^ 2 ^ k ≠ 1) :
    loadProving threads cfg st tw p (pre ++ x :: post) = some (keyAt tw cs k a b c x) ∧
      loadVerifying threads cfg st tw p (pre ++ x :: post) =
        if tw.gamma = 0 then none else some (keyAt tw cs k a b c x).vk := by
  have hd := hS.radix2.1
  have hv : ∀ y, d.vanishingAt y = y ^ 2 ^ k - 1 := fun y => by
    rw [(C39_vanishing hd y).2.2, (C39_vanishing hd y).1]
    show (R1cs.vanish d).eval y = _
    rw [vanish_eval hd, hS.size, hS.offset, one_pow]
  obtain ⟨cs', e1, f1, f2, f3, f4, f5, n1, n2, n3, -⟩ := hS.synth p (same_refl p) true
  have hfind : sampleX d (pre ++ x :: post) = some x := by
    rw [sampleX, List.find?_append, List.find?_eq_none.2 (fun y hy => by
      rw [hv, hpre y hy]; simp), Option.none_or, List.find?_cons_of_pos]
    rw [hv]; simpa [sub_eq_zero] using hx
  obtain ⟨m', q, em, eq, q1, q2, q3, q4, q5, q6, q7, q8, q9⟩ := C83_instance hd f1 f2 f3
    (by rw [n1, n3, hS.size]; exact hS.fits.le) x ht ht'
  obtain rfl : m = m' := Option.some.inj (Option.some.inj (f5.symm.trans em))
  have hpl : preLoad threads cfg st p (pre ++ x :: post) = some ⟨d, x, q⟩ := by
    rw [preLoad, e1, Option.bind_some, n1, n3, hS.domain, Option.bind_some, hfind, Option.bind_some, eq, Option.map_some]
  have htx : q.tx = x ^ 2 ^ k - 1 := by
    rw [q1]
    show (R1cs.vanish d).eval x = _
    rw [vanish_eval hd, hS.size, hS.offset, one_pow]
  rw [n1, n2] at q6 q7 q8 q9
  have hcol : ∀ j < cs.numInst + cs.numWit, j < m.numInst + m.numWit := by rw [hS.numInst, hS.numWit]; exact fun _ h => h
  obtain ⟨hl, hp⟩ := loadProvingWith_eq (threads := threads) ht (by omega) (tw := tw) (r := ⟨d, x, q⟩)
    (by rw [hS.size]; exact Nat.pow_le_pow_right (by norm_num) hS.fits.k63) (ni := cs.numInst) (nw := cs.numWit)
    (a := fun j => (a j).eval x) (b := fun j => (b j).eval x) (c := fun j => (c j).eval x) (q3.trans n1) (q4.trans n2)
    (eq_vec q6 fun j hj => by
      obtain ⟨⟨P, hP, e⟩, -⟩ := q9 j hj
      rw [e, hP.unique hd (hS.columns.a j (hcol j hj))])
    (eq_vec q7 fun j hj => by
      obtain ⟨-, ⟨P, hP, e⟩, -⟩ := q9 j hj
      rw [e, hP.unique hd (hS.columns.b j (hcol j hj))])
    (eq_vec q8 fun j hj => by
      obtain ⟨-, -, P, hP, e⟩ := q9 j hj
      rw [e, hP.unique hd (hS.columns.c j (hcol j hj))])
  have hinv : ∀ y : F, (if y = 0 then 0 else 1 * y⁻¹) = y⁻¹ := fun y => by
    split
    · next h => rw [h, inv_zero]
    · rw [one_mul]
  have hb : batchInverse threads [tw.gamma, tw.delta] 2 1 = some [tw.gamma⁻¹, tw.delta⁻¹] := by
    rw [show 2 = [tw.gamma, tw.delta].length from rfl, C22_batchInverse threads _ 1 ht ht' (by simp)]
    simp only [List.map_cons, List.map_nil, hinv]
  simp only [hS.size, htx] at hl hp
  refine ⟨?_, ?_⟩
  · rw [loadProving, hb, Option.bind_some, hpl, Option.bind_some]
    exact hp
  · rw [loadVerifying, hpl, Option.bind_some, inv?]
    split
    · rfl
    · exact hl

/-- C84: if no random value lies outside the domain, the keys are never made. -/
theorem C84_no_point (hS : Setting cfg st p cs k d m a b c) {threads : ℕ} (tw : Toxic F G1 G2) (draws : List F)
    (h : ∀ y ∈ draws, y ^ 2 ^ k = 1) :
    loadProving threads cfg st tw p draws = none ∧ loadVerifying threads cfg st tw p draws = none := by
  have hd := hS.radix2.1
  obtain ⟨cs', e1, f1, f2, f3, f4, f5, n1, n2, n3, -⟩ := hS.synth p (same_refl p) true
  have hpl : preLoad threads cfg st p draws = none := by
    rw [preLoad, e1, Option.bind_some, n1, n3, hS.domain, Option.bind_some, sampleX, List.find?_eq_none.2 (fun y hy => by
      rw [(C39_vanishing hd y).2.2, (C39_vanishing hd y).1]
      have : (R1cs.vanish d).eval y = 0 := by rw [vanish_eval hd, hS.size, hS.offset, one_pow, h y hy, sub_self]
      rw [R1cs.vanish] at this
      simp only [this]
      simp)]
    rfl
  rw [loadProving, loadVerifying, hpl]
  exact ⟨by cases batchInverse threads [tw.gamma, tw.delta] 2 1 <;> rfl, rfl⟩

omit [DecidableEq F] in
/-- C84: `VerifyProof` checks the equation of Groth16 and the number of public inputs. -/
theorem C84_equation (e : G1 →ₗ[F] G2 →ₗ[F] GT) (vk : VerifyingKey G1 G2) (proof : Groth16.Proof G1 G2)
    (inputs : List F) :
    (vk.l = [] → verify (fun u v => e u v) (vk.prepare fun u v => e u v) proof inputs = none) ∧
    ∀ l ls, vk.l = l :: ls → ∃ r, verify (fun u v => e u v) (vk.prepare fun u v => e u v) proof inputs = some r ∧
      (r = true ↔ ls.length = inputs.length ∧ e proof.a proof.b = e vk.alphaG1 vk.betaG2 +
        e (l + (List.zipWith (fun (s : F) b => s • b) inputs ls).sum) vk.gammaG2 + e proof.c vk.deltaG2) := by
  refine ⟨fun h => by rw [verify, prepareInputs]; simp [VerifyingKey.prepare, h], fun l ls h => ?_⟩
  have hp : prepareInputs (vk.prepare fun u v => e u v) inputs = some ((msm ls inputs).map (· + l)) := by
    rw [prepareInputs]; simp [VerifyingKey.prepare, h]
  rw [verify, hp, Option.map_some]
  by_cases hne : ls.length = inputs.length
  swap
  · rw [msm, if_pos hne]
    exact ⟨false, rfl, by simp [hne]⟩
  · rw [msm, if_neg (by simp [hne])]
    refine ⟨_, rfl, ?_⟩
    rw [Option.map_some]
    simp only [verifyPrepared, VerifyingKey.prepare, decide_eq_true_eq, hne, true_and, map_neg]
    rw [add_comm (List.sum _) l, ← sub_eq_add_neg, ← sub_eq_add_neg, sub_eq_iff_eq_add, sub_eq_iff_eq_add, add_right_comm]

omit [DecidableEq F] [DecidableEq GT] in
theorem smul_pairing (e : G1 →ₗ[F] G2 →ₗ[F] GT) (u v : F) (g1 : G1) (g2 : G2) : e (u • g1) (v • g2) = (u * v) • e g1 g2 := by
  rw [map_smul, map_smul, LinearMap.smul_apply, smul_smul, mul_comm]

omit [DecidableEq F] in
/-- C84: what `VerifyProof` checks about a proof made of multiples of the generators. -/
theorem C84_verify (e : G1 →ₗ[F] G2 →ₗ[F] GT) (tw : Toxic F G1 G2) {x : F} {z : List F} (hz : cs.numInst ≤ z.length)
    (h1 : z[0]? = some 1) (hpos : 0 < cs.numInst) (A B D : F) :
    ∃ r, verify (fun u v => e u v) ((keyAt tw cs k a b c x).vk.prepare fun u v => e u v) ⟨A • tw.g1, B • tw.g2, D • tw.g1⟩
        ((z.take cs.numInst).drop 1) = some r ∧
      (r = true ↔ (A * B - tw.alpha * tw.beta - tw.gamma * (∑ j ∈ Finset.range cs.numInst, z.getD j 0 *
        ((tw.beta * (a j).eval x + tw.alpha * (b j).eval x + (c j).eval x) / tw.gamma)) - tw.delta * D) •
          e tw.g1 tw.g2 = 0) := by
  obtain ⟨n, hn⟩ : ∃ n, cs.numInst = n + 1 := ⟨cs.numInst - 1, by omega⟩
  obtain ⟨z, rfl⟩ : ∃ z', z = 1 :: z' := by
    cases z with
    | nil => simp at h1
    | cons v z => exact ⟨z, by simpa using h1⟩
  obtain ⟨r, e1, e2⟩ := (C84_equation e (keyAt tw cs k a b c x).vk ⟨A • tw.g1, B • tw.g2, D • tw.g1⟩
    (((1 : F) :: z).take cs.numInst |>.drop 1)).2 _ _ (by
      show (List.range cs.numInst).map _ = _
      rw [hn, List.range_succ_eq_map, List.map_cons, List.map_map])
  refine ⟨r, e1, e2.trans ?_⟩
  rw [List.length_cons, hn] at hz
  have hlen : (z.take n).length = n := by rw [List.length_take]; omega
  have hsum := msm_smul' tw.g1 hlen fun j =>
    (tw.beta * (a (j + 1)).eval x + tw.alpha * (b (j + 1)).eval x + (c (j + 1)).eval x) / tw.gamma
  rw [msm, if_neg (by simp [hlen])] at hsum
  rw [hn, List.take_succ_cons, List.drop_one, List.tail_cons, List.length_map, List.length_range, hlen]
  simp only [true_and]
  have hsum := Option.some.inj hsum
  rw [show ((fun j => ((tw.beta * (a j).eval x + tw.alpha * (b j).eval x + (c j).eval x) / tw.gamma) • tw.g1) ∘ Nat.succ) =
    fun j => ((tw.beta * (a (j + 1)).eval x + tw.alpha * (b (j + 1)).eval x + (c (j + 1)).eval x) / tw.gamma) • tw.g1 from rfl,
    hsum]
  simp only [keyAt, theKey]
  rw [← add_smul, smul_pairing, smul_pairing, smul_pairing, smul_pairing, ← add_smul, ← add_smul, ← sub_eq_zero, ← sub_smul,
    Finset.sum_range_succ']
  simp only [List.getD_cons_succ, List.getD_cons_zero, one_mul]
  rw [Finset.sum_congr rfl fun j hj => by
    rw [List.getD_eq_getElem?_getD, List.getElem?_take_of_lt (Finset.mem_range.1 hj), ← List.getD_eq_getElem?_getD]]
  refine iff_of_eq (congrArg (· • e tw.g1 tw.g2 = 0) ?_)
  ring

/-- C84: `CreateProof`, for any values of the same circuit: the proof is made of the multiples of the generators that
Groth16 asks for, with a quotient `h` that does not depend on the key. -/
theorem C84_prove (hS : Setting cfg st p cs k d m a b c) {threads : ℕ} (ht : 0 < threads) (ht' : threads < 128)
    (o : Sched) (small : Bool) {g : F} (hg : g ≠ 0) (hg' : g ^ 2 ^ k ≠ 1) {q : Prog F} (hq : Same p q) :
    ∃ csq h, q.run {} = some csq ∧ csq.inst.length = cs.numInst ∧ csq.wit.length = cs.numWit ∧
      csq.inst[0]? = some 1 ∧ h.length ≤ 2 ^ k ∧
      (Sat csq csq.inst csq.wit → ∀ x,
        (∑ j ∈ Finset.range (cs.numInst + cs.numWit), (csq.inst ++ csq.wit).getD j 0 * (a j).eval x) *
            (∑ j ∈ Finset.range (cs.numInst + cs.numWit), (csq.inst ++ csq.wit).getD j 0 * (b j).eval x) -
          (∑ j ∈ Finset.range (cs.numInst + cs.numWit), (csq.inst ++ csq.wit).getD j 0 * (c j).eval x) =
          (dpoly (h.take (2 ^ k - 1))).eval x * (x ^ 2 ^ k - 1)) ∧
      ∀ (pk : ProvingKey G1 G2) (r s : F), prove threads o small cfg g st q pk r s =
        createProof pk r s h csq.wit ((csq.inst ++ csq.wit).drop 1) := by
  have hd := hS.radix2
  obtain ⟨cs', e1, f1, f2, f3, f4, f5, n1, n2, n3, hcsq⟩ := hS.synth q hq false
  obtain ⟨csq, e2, i1, i2, hb, i3, i4, i5⟩ := hcsq rfl
  obtain ⟨item, e3, hi⟩ := C60_item o small hd ht (by omega)
  obtain ⟨m', h, A, B, D, e4, e5, h1, h2, h3, h4, h5, h6, h7⟩ := C83_witness o hd hi hg
    (fun i hi e => hg' (by
      have h0 : (R1cs.vanish d).eval g = 0 := by
        rw [R1cs.vanish, Polynomial.eval_prod]
        exact Finset.prod_eq_zero (Finset.mem_range.2 hi) (by rw [eval_sub, eval_X, eval_C, e, sub_self])
      rw [vanish_eval hd.1, hS.size, hS.offset, one_pow, sub_eq_zero] at h0
      exact h0)) f1 f2 f3 f4 (by rw [n1, n3, hS.size]; exact hS.fits.le) ht (by omega)
  obtain rfl : m = m' := Option.some.inj (Option.some.inj (f5.symm.trans e4))
  rw [i1, i2] at h3 h4 h5 h6 h7
  have hl1 : csq.inst.length = cs.numInst := by rw [← i1, f1.inst f4, n1]
  have hl2 : csq.wit.length = cs.numWit := by rw [← i2, f1.wit f4, n2]
  have h01 : csq.inst[0]? = some 1 := i1 ▸ f1.one
  have hss : Sat csq csq.inst csq.wit ↔ Sat cs' csq.inst csq.wit := by
    obtain ⟨m'', em, -, -, -, -, -, -, -, -, -, -, -, -, hms⟩ := C82_matrices f1 f2 f3
    obtain rfl : m = m'' := Option.some.inj (Option.some.inj (f5.symm.trans em))
    rw [i5, ← hS.sat _ _ hl1 hl2 h01, hms _ _ (hl1.trans n1.symm) (hl2.trans n2.symm) h01]
  refine ⟨csq, h, e2, hl1, hl2, h01, hS.size ▸ h2, fun hsat x => ?_, fun pk r s => ?_⟩
  · have hE := congrArg (eval x) (h6.1 (hss.1 hsat))
    have hc := C83_combine hd.1 hS.ok hS.columns.a hS.columns.b hS.columns.c h3 h4 h5 x
    rw [hS.numInst, hS.numWit] at hc
    rw [eval_sub, eval_mul, eval_mul, hc.1, hc.2.1, hc.2.2] at hE
    have hv : (∏ i ∈ Finset.range d.size, (X - C (d.offset * d.gen ^ i))).eval x = x ^ 2 ^ k - 1 := by
      show (R1cs.vanish d).eval x = _
      rw [vanish_eval hd.1, hS.size, hS.offset, one_pow]
    rw [hv] at hE
    rw [hE, List.take_of_length_le (hS.size ▸ h7 (hss.1 hsat))]
  · rw [prove, e1, Option.bind_some, n1, n3, hS.domain, Option.bind_some, e3, Option.bind_some, e5, Option.bind_some, i1, i2]

/-- C84, completeness: when the values satisfy the circuit, the proof is accepted with the public values, for all
secrets with `γ` and `δ` not zero and all random values. -/
theorem C84_complete (hS : Setting cfg st p cs k d m a b c) {threads : ℕ} (ht : 0 < threads) (ht' : threads < 128)
    (o : Sched) (small : Bool) {g : F} (hg : g ≠ 0) (hg' : g ^ 2 ^ k ≠ 1) {q : Prog F} (hq : Same p q) {csq : CS F}
    (hrun : q.run {} = some csq) (hsat : Sat csq csq.inst csq.wit) (e : G1 →ₗ[F] G2 →ₗ[F] GT) (tw : Toxic F G1 G2)
    (hgm : tw.gamma ≠ 0) (hdl : tw.delta ≠ 0) (pre post : List F) (x : F) (hpre : ∀ y ∈ pre, y ^ 2 ^ k = 1)
    (hx : x ^ 2 ^ k ≠ 1) (r s : F) :
    ∃ pk proof, loadProving threads cfg st tw p (pre ++ x :: post) = some pk ∧
      loadVerifying threads cfg st tw p (pre ++ x :: post) = some pk.vk ∧
      prove threads o small cfg g st q pk r s = some proof ∧
      verify (fun u v => e u v) (pk.vk.prepare fun u v => e u v) proof (csq.inst.drop 1) = some true := by
  obtain ⟨k1, k2⟩ := C84_keys hS ht ht' tw pre post x hpre hx
  obtain ⟨csq', h, e1, l1, l2, h0, hl, hE, hP⟩ := C84_prove (G1 := G1) (G2 := G2) hS ht ht' o small hg hg' hq
  obtain rfl := Option.some.inj (hrun.symm.trans e1)
  have hz : (csq.inst ++ csq.wit).length = cs.numInst + cs.numWit := by rw [List.length_append, l1, l2]
  have hpos : 0 < cs.numInst := by
    rw [← l1]; exact (List.getElem?_eq_some_iff.1 h0).1
  have hz0 : (csq.inst ++ csq.wit)[0]? = some 1 := by rw [List.getElem?_append_left (by omega)]; exact h0
  have ht1 : (csq.inst ++ csq.wit).take cs.numInst = csq.inst := by rw [← l1, List.take_left]
  have ht2 : (csq.inst ++ csq.wit).drop cs.numInst = csq.wit := by rw [← l1, List.drop_left]
  have hcp := createProof_eq tw (ni := cs.numInst) (nw := cs.numWit) (Nat.two_pow_pos k) (fun j => (a j).eval x)
    (fun j => (b j).eval x) (fun j => (c j).eval x) x (x ^ 2 ^ k - 1) r s hl hz hz0
  rw [ht2] at hcp
  obtain ⟨v, v1, v2⟩ := C84_verify (a := a) (b := b) (c := c) (k := k) e tw (x := x) (by rw [hz]; omega) hz0 hpos
    (scalars tw cs.numInst cs.numWit (2 ^ k) (fun j => (a j).eval x) (fun j => (b j).eval x) (fun j => (c j).eval x) x
      (x ^ 2 ^ k - 1) r s h (csq.inst ++ csq.wit)).1
    (scalars tw cs.numInst cs.numWit (2 ^ k) (fun j => (a j).eval x) (fun j => (b j).eval x) (fun j => (c j).eval x) x
      (x ^ 2 ^ k - 1) r s h (csq.inst ++ csq.wit)).2.1
    (scalars tw cs.numInst cs.numWit (2 ^ k) (fun j => (a j).eval x) (fun j => (b j).eval x) (fun j => (c j).eval x) x
      (x ^ 2 ^ k - 1) r s h (csq.inst ++ csq.wit)).2.2
  rw [scalars_eq tw hgm hdl, hE hsat x, sub_self, zero_smul] at v2
  rw [ht1] at v1
  refine ⟨keyAt tw cs k a b c x, _, k1, by rw [k2, if_neg hgm], (hP _ r s).trans hcp, ?_⟩
  rw [v1, v2.2 rfl]

/-- C84, soundness for the provers that follow `CreateProofWithAssignment` with any values `z` and any quotient `h`: when
`z` does not satisfy the circuit, at most `2 ^ (k + 1) - 2` of the secret points lead to an accepted proof. -/
theorem C84_sound (hS : Setting cfg st p cs k d m a b c) (e : G1 →ₗ[F] G2 →ₗ[F] GT) {x w : List F}
    (hx : x.length = cs.numInst) (hw : w.length = cs.numWit) (h0 : x[0]? = some 1) (hns : ¬ Sat cs x w) {h : List F}
    (hh : h.length ≤ 2 ^ k) (S : Finset F)
    (hacc : ∀ y ∈ S, ∃ (tw : Toxic F G1 G2) (r s : F) (proof : Groth16.Proof G1 G2), tw.gamma ≠ 0 ∧ tw.delta ≠ 0 ∧
      e tw.g1 tw.g2 ≠ 0 ∧ createProof (keyAt tw cs k a b c y) r s h w ((x ++ w).drop 1) = some proof ∧
      verify (fun u v => e u v) ((keyAt tw cs k a b c y).vk.prepare fun u v => e u v) proof (x.drop 1) = some true) :
    S.card ≤ 2 * 2 ^ k - 2 := by
  have hd := hS.radix2.1
  have hz : (x ++ w).length = cs.numInst + cs.numWit := by rw [List.length_append, hx, hw]
  have hpos : 0 < cs.numInst := by
    rw [← hx]; exact (List.getElem?_eq_some_iff.1 h0).1
  have hz0 : (x ++ w)[0]? = some 1 := by rw [List.getElem?_append_left (by omega)]; exact h0
  have ht1 : (x ++ w).take cs.numInst = x := by rw [← hx, List.take_left]
  have ht2 : (x ++ w).drop cs.numInst = w := by rw [← hx, List.drop_left]
  obtain ⟨A, hA, -⟩ := C83_interp hd (valA m (x ++ w))
  obtain ⟨B, hB, -⟩ := C83_interp hd (val m.b m.numCons (x ++ w))
  obtain ⟨D, hD, -⟩ := C83_interp hd (val m.c m.numCons (x ++ w))
  rw [← hS.size]
  refine C83_sound hd hS.ok (by rw [hS.numCons, hS.numInst, hS.size]; exact hS.fits.le) hA hB hD
    (H := dpoly (h.take (2 ^ k - 1))) ?_ (fun hm => hns ((hS.sat x w hx hw h0).1 hm)) S fun y hy => ?_
  · rw [hS.size]
    exact degree_dpoly_lt (by rw [List.length_take]; exact Nat.min_le_left _ _)
  · obtain ⟨tw, r, s, proof, hgm, hdl, hne, hp, hv⟩ := hacc y hy
    have hcp := createProof_eq tw (ni := cs.numInst) (nw := cs.numWit) (Nat.two_pow_pos k) (fun j => (a j).eval y)
      (fun j => (b j).eval y) (fun j => (c j).eval y) y (y ^ 2 ^ k - 1) r s hh hz hz0
    rw [ht2] at hcp
    obtain rfl := Option.some.inj (hp.symm.trans hcp)
    obtain ⟨v, v1, v2⟩ := C84_verify (a := a) (b := b) (c := c) (k := k) e tw (x := y) (by rw [hz]; omega) hz0 hpos
      (scalars tw cs.numInst cs.numWit (2 ^ k) (fun j => (a j).eval y) (fun j => (b j).eval y) (fun j => (c j).eval y) y
        (y ^ 2 ^ k - 1) r s h (x ++ w)).1
      (scalars tw cs.numInst cs.numWit (2 ^ k) (fun j => (a j).eval y) (fun j => (b j).eval y) (fun j => (c j).eval y) y
        (y ^ 2 ^ k - 1) r s h (x ++ w)).2.1
      (scalars tw cs.numInst cs.numWit (2 ^ k) (fun j => (a j).eval y) (fun j => (b j).eval y) (fun j => (c j).eval y) y
        (y ^ 2 ^ k - 1) r s h (x ++ w)).2.2
    rw [ht1] at v1
    obtain rfl := Option.some.inj (v1.symm.trans hv)
    have hz' := (smul_eq_zero.1 (v2.1 rfl)).resolve_right hne
    rw [scalars_eq tw hgm hdl, sub_eq_zero] at hz'
    have hc := C83_combine hd hS.ok hS.columns.a hS.columns.b hS.columns.c hA hB hD y
    rw [hS.numInst, hS.numWit] at hc
    rw [hc.1, hc.2.1, hc.2.2, hz']
    congr 1
    show _ = (R1cs.vanish d).eval y
    rw [vanish_eval hd, hS.size, hS.offset, one_pow]

/-- C84, zero knowledge: two witnesses for the same public values lead to the same proofs, up to a permutation of the
random values `r` and `s`, for each key. So with random `r` and `s` the proofs have the same distribution. -/
theorem C84_zero_knowledge (hS : Setting cfg st p cs k d m a b c) {threads : ℕ} (ht : 0 < threads) (ht' : threads < 128)
    (o : Sched) (small : Bool) {g : F} (hg : g ≠ 0) (hg' : g ^ 2 ^ k ≠ 1) {q q' : Prog F} (hq : Same p q) (hq' : Same p q')
    {csq csq' : CS F} (hrun : q.run {} = some csq) (hrun' : q'.run {} = some csq') (hsat : Sat csq csq.inst csq.wit)
    (hsat' : Sat csq' csq'.inst csq'.wit) (hpub : csq.inst = csq'.inst) (tw : Toxic F G1 G2)
    (hgm : tw.gamma ≠ 0) (hdl : tw.delta ≠ 0) (x : F) :
    ∃ σ : F × F ≃ F × F, ∀ r s,
      (prove threads o small cfg g st q (keyAt tw cs k a b c x) r s).isSome = true ∧
      prove threads o small cfg g st q (keyAt tw cs k a b c x) r s =
        prove threads o small cfg g st q' (keyAt tw cs k a b c x) (σ (r, s)).1 (σ (r, s)).2 := by
  obtain ⟨cq, h, e1, l1, l2, h0, hl, hE, hP⟩ := C84_prove (G1 := G1) (G2 := G2) hS ht ht' o small hg hg' hq
  obtain rfl := Option.some.inj (hrun.symm.trans e1)
  obtain ⟨cq', h', e1', l1', l2', h0', hl', hE', hP'⟩ := C84_prove (G1 := G1) (G2 := G2) hS ht ht' o small hg hg' hq'
  obtain rfl := Option.some.inj (hrun'.symm.trans e1')
  have hz : (csq.inst ++ csq.wit).length = cs.numInst + cs.numWit := by rw [List.length_append, l1, l2]
  have hz' : (csq'.inst ++ csq'.wit).length = cs.numInst + cs.numWit := by rw [List.length_append, l1', l2']
  have hpos : 0 < cs.numInst := by
    rw [← l1]; exact (List.getElem?_eq_some_iff.1 h0).1
  have hz0 : (csq.inst ++ csq.wit)[0]? = some 1 := by rw [List.getElem?_append_left (by omega)]; exact h0
  have hz0' : (csq'.inst ++ csq'.wit)[0]? = some 1 := by rw [List.getElem?_append_left (by omega)]; exact h0'
  have ht2 : (csq.inst ++ csq.wit).drop cs.numInst = csq.wit := by rw [← l1, List.drop_left]
  have ht2' : (csq'.inst ++ csq'.wit).drop cs.numInst = csq'.wit := by rw [← l1', List.drop_left]
  have hcp := fun r s => createProof_eq tw (ni := cs.numInst) (nw := cs.numWit) (Nat.two_pow_pos k) (fun j => (a j).eval x)
    (fun j => (b j).eval x) (fun j => (c j).eval x) x (x ^ 2 ^ k - 1) r s hl hz hz0
  have hcp' := fun r s => createProof_eq tw (ni := cs.numInst) (nw := cs.numWit) (Nat.two_pow_pos k) (fun j => (a j).eval x)
    (fun j => (b j).eval x) (fun j => (c j).eval x) x (x ^ 2 ^ k - 1) r s hl' hz' hz0'
  rw [ht2] at hcp
  rw [ht2'] at hcp'
  set az := ∑ j ∈ Finset.range (cs.numInst + cs.numWit), (csq.inst ++ csq.wit).getD j 0 * (a j).eval x with haz
  set bz := ∑ j ∈ Finset.range (cs.numInst + cs.numWit), (csq.inst ++ csq.wit).getD j 0 * (b j).eval x with hbz
  set az' := ∑ j ∈ Finset.range (cs.numInst + cs.numWit), (csq'.inst ++ csq'.wit).getD j 0 * (a j).eval x with haz'
  set bz' := ∑ j ∈ Finset.range (cs.numInst + cs.numWit), (csq'.inst ++ csq'.wit).getD j 0 * (b j).eval x with hbz'
  refine ⟨Equiv.prodCongr (Equiv.addRight ((az - az') / tw.delta)) (Equiv.addRight ((bz - bz') / tw.delta)), fun r s => ?_⟩
  have hA : (scalars tw cs.numInst cs.numWit (2 ^ k) (fun j => (a j).eval x) (fun j => (b j).eval x)
      (fun j => (c j).eval x) x (x ^ 2 ^ k - 1) r s h (csq.inst ++ csq.wit)).1 =
      (scalars tw cs.numInst cs.numWit (2 ^ k) (fun j => (a j).eval x) (fun j => (b j).eval x)
      (fun j => (c j).eval x) x (x ^ 2 ^ k - 1) (r + (az - az') / tw.delta) (s + (bz - bz') / tw.delta) h'
        (csq'.inst ++ csq'.wit)).1 := by
    simp only [scalars, ← haz, ← haz']
    field_simp
    ring
  have hB : (scalars tw cs.numInst cs.numWit (2 ^ k) (fun j => (a j).eval x) (fun j => (b j).eval x)
      (fun j => (c j).eval x) x (x ^ 2 ^ k - 1) r s h (csq.inst ++ csq.wit)).2.1 =
      (scalars tw cs.numInst cs.numWit (2 ^ k) (fun j => (a j).eval x) (fun j => (b j).eval x)
      (fun j => (c j).eval x) x (x ^ 2 ^ k - 1) (r + (az - az') / tw.delta) (s + (bz - bz') / tw.delta) h'
        (csq'.inst ++ csq'.wit)).2.1 := by
    simp only [scalars, ← hbz, ← hbz']
    field_simp
    ring
  have hq1 := scalars_eq tw hgm hdl (ni := cs.numInst) (nw := cs.numWit) (size := 2 ^ k) (fun j => (a j).eval x)
    (fun j => (b j).eval x) (fun j => (c j).eval x) x (x ^ 2 ^ k - 1) r s h (csq.inst ++ csq.wit)
  have hq2 := scalars_eq tw hgm hdl (ni := cs.numInst) (nw := cs.numWit) (size := 2 ^ k) (fun j => (a j).eval x)
    (fun j => (b j).eval x) (fun j => (c j).eval x) x (x ^ 2 ^ k - 1) (r + (az - az') / tw.delta)
    (s + (bz - bz') / tw.delta) h' (csq'.inst ++ csq'.wit)
  have hL : ∀ j ∈ Finset.range cs.numInst, (csq.inst ++ csq.wit).getD j 0 = (csq'.inst ++ csq'.wit).getD j 0 := by
    intro j hj
    have hj := Finset.mem_range.1 hj
    rw [List.getD_eq_getElem?_getD, List.getD_eq_getElem?_getD, List.getElem?_append_left (by omega),
      List.getElem?_append_left (by omega), hpub]
  rw [hE hsat x, sub_self] at hq1
  rw [hE' hsat' x, sub_self] at hq2
  rw [Finset.sum_congr rfl fun j hj => by rw [hL j hj], hA, hB] at hq1
  have hC : (scalars tw cs.numInst cs.numWit (2 ^ k) (fun j => (a j).eval x) (fun j => (b j).eval x)
      (fun j => (c j).eval x) x (x ^ 2 ^ k - 1) r s h (csq.inst ++ csq.wit)).2.2 =
      (scalars tw cs.numInst cs.numWit (2 ^ k) (fun j => (a j).eval x) (fun j => (b j).eval x)
      (fun j => (c j).eval x) x (x ^ 2 ^ k - 1) (r + (az - az') / tw.delta) (s + (bz - bz') / tw.delta) h'
        (csq'.inst ++ csq'.wit)).2.2 := by
    refine mul_left_cancel₀ hdl ?_
    linear_combination hq2 - hq1
  refine ⟨by rw [hP]; exact (congrArg Option.isSome (hcp r s)).trans rfl, ?_⟩
  rw [hP, hP']
  refine (hcp r s).trans (Eq.trans ?_ (hcp' _ _).symm)
  rw [hA, hB, hC]
  rfl

/-- C84: a proof that has been randomized again is accepted exactly if the proof itself is, when the first random value
is not zero. -/
theorem C84_rerandomize (e : G1 →ₗ[F] G2 →ₗ[F] GT) (vk : VerifyingKey G1 G2) (proof : Groth16.Proof G1 G2)
    (inputs : List F) (n : ℕ) (r1 r2 : F) (h1 : r1 ≠ 0) (draws : List (F × F)) :
    ∃ proof', reRandomize vk proof (List.replicate n (0, 0) ++ (r1, r2) :: draws) = some proof' ∧
      proof'.a = r1⁻¹ • proof.a ∧
      verify (fun u v => e u v) (vk.prepare fun u v => e u v) proof' inputs =
        verify (fun u v => e u v) (vk.prepare fun u v => e u v) proof inputs := by
  refine ⟨⟨r1⁻¹ • proof.a, r1 • (r2 • vk.deltaG2 + proof.b), r2 • proof.a + proof.c⟩, ?_, rfl, ?_⟩
  · rw [reRandomize, List.find?_append, List.find?_eq_none.2 (fun y hy => by
      rw [(List.mem_replicate.1 hy).2]; simp), Option.none_or, List.find?_cons_of_pos (by simp [h1]), Option.bind_some, inv?,
      if_neg h1, Option.map_some]
  · cases hl : vk.l with
    | nil => rw [(C84_equation e vk _ inputs).1 hl, (C84_equation e vk _ inputs).1 hl]
    | cons l ls =>
      obtain ⟨v, v1, v2⟩ := (C84_equation e vk ⟨r1⁻¹ • proof.a, r1 • (r2 • vk.deltaG2 + proof.b), r2 • proof.a + proof.c⟩
        inputs).2 l ls hl
      obtain ⟨v', v1', v2'⟩ := (C84_equation e vk proof inputs).2 l ls hl
      rw [v1, v1']
      congr 1
      rw [Bool.eq_iff_iff, v2, v2']
      refine and_congr_right fun _ => ?_
      simp only [map_add, map_smul, LinearMap.add_apply, LinearMap.smul_apply, smul_add, smul_smul]
      rw [mul_inv_cancel₀ h1, one_smul, show r1 * r2 * r1⁻¹ = r2 by field_simp]
      constructor
      · intro h
        refine add_left_cancel (a := r2 • e proof.a vk.deltaG2) ?_
        rw [h]; abel
      · intro h
        rw [h]; abel

/-- C84, finding: when the first random value is zero and the second is not, `ReRandomizeProof` aborts; it only
draws again when both are zero. -/
theorem C84_rerandomize_abort (vk : VerifyingKey G1 G2) (proof : Groth16.Proof G1 G2) (n : ℕ) (r2 : F) (h2 : r2 ≠ 0)
    (draws : List (F × F)) : reRandomize vk proof (List.replicate n (0, 0) ++ (0, r2) :: draws) = none := by
  rw [reRandomize, List.find?_append, List.find?_eq_none.2 (fun y hy => by
    rw [(List.mem_replicate.1 hy).2]; simp), Option.none_or, List.find?_cons_of_pos (by simp [h2]), Option.bind_some, inv?,
    if_pos rfl, Option.map_none]

/-- C84, finding: with `γ = 0` the key of the verifier alone is not made, but the one inside a `ProvingKey` is, and a
verifier who has it gives the same answer for all public inputs: proofs are not bound to them. -/
theorem C84_gamma (hS : Setting cfg st p cs k d m a b c) {threads : ℕ} (ht : 0 < threads) (ht' : threads < 128)
    (tw : Toxic F G1 G2) (hgm : tw.gamma = 0) (x : F) (hx : x ^ 2 ^ k ≠ 1) (e : G1 →ₗ[F] G2 →ₗ[F] GT) :
    loadVerifying threads cfg st tw p [x] = none ∧ ∃ pk, loadProving threads cfg st tw p [x] = some pk ∧
      ∀ proof (i i' : List F), i.length = i'.length → verify (fun u v => e u v) (pk.vk.prepare fun u v => e u v) proof i =
        verify (fun u v => e u v) (pk.vk.prepare fun u v => e u v) proof i' := by
  obtain ⟨k1, k2⟩ := C84_keys hS ht ht' tw [] [] x (by simp) hx
  rw [List.nil_append] at k1 k2
  refine ⟨by rw [k2, if_pos hgm], _, k1, fun proof i i' hi => ?_⟩
  cases hl : (keyAt tw cs k a b c x).vk.l with
  | nil => rw [(C84_equation e _ _ i).1 hl, (C84_equation e _ _ i').1 hl]
  | cons l ls =>
    obtain ⟨v, v1, v2⟩ := (C84_equation e _ proof i).2 l ls hl
    obtain ⟨v', v1', v2'⟩ := (C84_equation e _ proof i').2 l ls hl
    rw [v1, v1']
    congr 1
    rw [Bool.eq_iff_iff, v2, v2', hi]
    have hg : (keyAt tw cs k a b c x).vk.gammaG2 = 0 := by
      show tw.gamma • tw.g2 = 0
      rw [hgm, zero_smul]
    rw [hg, map_zero, map_zero]

/-! ### The circuit of simple_circuit.h:20-31 modulo 17 -/

/-- `a * b = c` for a public `c`. -/
def exProduct (a b c : F17) : Prog F17 :=
  .createWitness a fun va => .createWitness b fun vb => .createInstance c fun vc =>
    .enforce [⟨1, va⟩] [⟨1, vb⟩] [⟨1, vc⟩] .done

def exToxic : Toxic F17 F17 F17 := ⟨2, 3, 5, 7, 1, 1⟩

example (a b c : F17) : (exProduct a b c).Closed := by
  refine ⟨?_, ?_, ?_, trivial⟩ <;> simp

example (a b c : F17) : Same (exProduct 0 0 0) (exProduct a b c) :=
  .createWitness fun _ => .createWitness fun _ => .createInstance fun _ => .enforce .done

example : ((loadProving 1 exConfig exSorter exToxic (exProduct 0 0 0) [1, 5]).bind fun pk =>
    (prove 1 Sched.seq true exConfig 3 exSorter (exProduct 3 5 15) pk 4 6).bind fun proof =>
      (verify (fun u v : F17 => u * v) (pk.vk.prepare fun u v => u * v) proof [(15 : F17)]).bind fun r =>
        (verify (fun u v : F17 => u * v) (pk.vk.prepare fun u v => u * v) proof [(14 : F17)]).map fun r' => (r, r')) =
    some (true, false) := by decide +kernel

example : ((loadProving 1 exConfig exSorter exToxic (exProduct 0 0 0) [1, 5]).bind fun pk =>
    (prove 1 Sched.seq true exConfig 3 exSorter (exProduct 3 5 14) pk 4 6).bind fun proof =>
      verify (fun u v : F17 => u * v) (pk.vk.prepare fun u v => u * v) proof [(14 : F17)]) = some false := by decide +kernel

end Tachyon.Props
