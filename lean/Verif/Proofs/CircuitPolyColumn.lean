import Verif.Proofs.CircuitPolyChunk
/-! Lemmas about the circuit polynomial: the column over the extended domain. -/
universe u
namespace Tachyon.CircuitPoly
open Plonk FFT Parallel Vanishing Tachyon.Group Polynomial Poly Props

section
variable {F : Type u} [Field F]

omit [Field F] in
/-- A parallel loop whose callbacks may fail. -/
theorem mapM_chunks {threads : ℕ} {xs ys : List F} (f : ℕ → List F → Option (List F)) (ht : 0 < threads)
    (h : xs.length + threads ≤ 2 ^ 64) (h2 : 2 * xs.length ≤ 2 ^ 64) (hl : ys.length = xs.length)
    (hf : ∀ i cs len, 0 < len → i * cs + len ≤ xs.length →
      f (i * cs) (chunkOf xs cs (i, len)) = some (chunkOf ys cs (i, len))) :
    ((invocations xs.length (numElementsPerThread threads xs.length none)).mapM fun i =>
      f (i.1 * numElementsPerThread threads xs.length none)
        (chunkOf xs (numElementsPerThread threads xs.length none) i)).map List.flatten = some ys := by
  obtain ⟨hp, hle, -⟩ := sizePerThread_bounds ht h none
  rcases Nat.eq_zero_or_pos (numElementsPerThread threads xs.length none) with h0 | h0
  · have hp' : 0 < numElementsPerThread threads xs.length none ↔ 0 < xs.length := hp
    have hy : ys = [] := List.eq_nil_of_length_eq_zero (by omega)
    rw [invocations, if_pos h0, hy]; rfl
  · have hle' : numElementsPerThread threads xs.length none ≤ xs.length := hle
    generalize numElementsPerThread threads xs.length none = cs at h0 hle'
    rw [mapM_some (g := fun i => chunkOf ys cs i)]
    · show some _ = _
      rw [← List.flatMap_def]
      have := flatMap_chunkOf ys h0 (by omega)
      rw [hl] at this
      rw [this]
    · intro i hi
      obtain ⟨h3, h4⟩ := (mem_invocations h0).1 hi
      obtain ⟨h5, h6, h7, h8⟩ := chunk_bounds h0 (by omega) h3
      rw [← h4] at h6 h7
      exact hf i.1 cs i.2 h7 (by omega)

omit [Field F] in
theorem chunkOf_mapIdx (f : ℕ → F → F) (xs : List F) (cs i len : ℕ) :
    chunkOf (xs.mapIdx f) cs (i, len) = (chunkOf xs cs (i, len)).mapIdx fun j v => f (i * cs + j) v := by
  refine List.ext_getElem (by simp [chunkOf]) fun j h1 h2 => ?_
  simp [chunkOf]

variable [DecidableEq F]

section
variable {threads : ℕ} {o : Sched} {cd : Domain F} {item : Item F}

theorem fft_vals (hd : cd.Radix2) (hi : item.For cd) (ht : 0 < threads) (ht' : threads ≤ 2 ^ 63) {p : List F}
    (hp : p.length ≤ cd.size) :
    ∃ e, fft threads o cd item p = some e ∧ Vals cd.offset cd.gen cd.size (dpoly p) e := by
  refine ⟨_, C38_fft o hd hi p hp ht ht', fun j hj => ?_⟩
  split
  · next h => subst h; simp [dpoly]
  · rw [getD_map_range, if_pos hj]

omit [Field F] [DecidableEq F] in
theorem mapM_vals {α β : Type u} {f : α → Option β} {R : α → β → Prop} : ∀ (l : List α),
    (∀ a ∈ l, ∃ b, f a = some b ∧ R a b) → ∃ l', l.mapM f = some l' ∧ l'.length = l.length ∧
      ∀ (i : ℕ) a, l[i]? = some a → ∃ b, l'[i]? = some b ∧ R a b
  | [], _ => ⟨[], rfl, rfl, by simp⟩
  | a :: l, h => by
    obtain ⟨b, hb, hr⟩ := h a (by simp)
    obtain ⟨l', h1, h2, h3⟩ := mapM_vals l fun a ha => h a (by simp [ha])
    refine ⟨b :: l', ?_, by simp [h2], ?_⟩
    · rw [List.mapM_cons, hb, h1]; rfl
    · rintro (_ | i) a' ha'
      · simp only [List.getElem?_cons_zero, Option.some.injEq] at ha' ⊢
        subst ha'; exact ⟨b, rfl, hr⟩
      · simp only [List.getElem?_cons_succ] at ha' ⊢
        exact h3 i a' ha'

theorem ffts_vals (hd : cd.Radix2) (hi : item.For cd) (ht : 0 < threads) (ht' : threads ≤ 2 ^ 63) {l : List (List F)}
    (hp : ∀ p ∈ l, p.length ≤ cd.size) :
    ∃ es, l.mapM (fft threads o cd item) = some es ∧ es.length = l.length ∧
      ∀ i < es.length, Vals cd.offset cd.gen cd.size (dpoly (l.getD i [])) (es.getD i []) := by
  obtain ⟨es, h1, h2, h3⟩ := mapM_vals (R := fun p e => Vals cd.offset cd.gen cd.size (dpoly p) e) l fun p h =>
    fft_vals (o := o) hd hi ht ht' (hp p h)
  refine ⟨es, h1, h2, fun i hi => ?_⟩
  obtain ⟨e, he, hv⟩ := h3 i l[i] (List.getElem?_eq_getElem (by omega))
  rw [List.getD_eq_getElem _ _ (by omega), List.getD_eq_getElem?_getD, he]
  exact hv

/-- A circuit: every entry is combined with the values of its constraints. -/
theorem evalCircuit_eq (hd : cd.Radix2) (hi : item.For cd) (ht : 0 < threads) (ht' : threads ≤ 2 ^ 63)
    (hsz : cd.size ≤ 2 ^ 30) {s : System F} {key : ProvingKey F} {c : Circuit F} {degree : ℕ}
    (hf : c.Fits s cd.size degree) (hk : key.Fits s cd.size) (h1 : s.shuffles.length ≤ 1) {g : Graphs F}
    (hg : createGraphs s = some g) {b : Builder F} (hn : b.n = cd.size) (hdeg : b.chunkLen = degree - 2)
    (hlen : 0 < b.chunkLen) (hom : b.omega = cd.gen) (hrot : -2 ^ 30 ≤ b.lastRotation ∧ b.lastRotation ≤ 2 ^ 30)
    (hst : b.deltaStart * b.current = b.ch.beta * cd.offset)
    (hfirst : Vals cd.offset cd.gen cd.size (dpoly key.lFirst) b.lFirst)
    (hlast : Vals cd.offset cd.gen cd.size (dpoly key.lLast) b.lLast)
    (hact : Vals cd.offset cd.gen cd.size (dpoly key.lActive) b.lActive) (values : List F)
    (hv : values.length = cd.size) :
    evalCircuit threads o cd item g s.columns key b c values = some (values.mapIdx fun i v =>
      fold b.ch.y (constraints b.ch.beta b.ch.gamma b.delta (degree - 2)
        (rowEnv s key c cd.gen b.ch.theta b.lastRotation (cd.offset * cd.gen ^ i))) v) := by
  obtain ⟨fixed, f1, f2, f3⟩ := ffts_vals (o := o) hd hi ht ht' (hf.columns .fixed)
  obtain ⟨advice, a1, a2, a3⟩ := ffts_vals (o := o) hd hi ht ht' (hf.columns .advice)
  obtain ⟨inst, i1, i2, i3⟩ := ffts_vals (o := o) hd hi ht ht' (hf.columns .inst)
  obtain ⟨products, p1, p2, p3⟩ := ffts_vals (o := o) hd hi ht ht' hf.products
  obtain ⟨sigmas, s1, s2, s3⟩ := ffts_vals (o := o) hd hi ht ht' hk.sigmas
  obtain ⟨lookups, l1, l2, l3⟩ := mapM_vals (f := lookupCosets threads o cd item)
      (R := fun l e => Vals cd.offset cd.gen cd.size (dpoly l.product) e.product ∧
        Vals cd.offset cd.gen cd.size (dpoly l.input) e.input ∧
        Vals cd.offset cd.gen cd.size (dpoly l.table) e.table) c.lookups fun l hl => by
    obtain ⟨q1, q2, q3⟩ := hf.lookups l hl
    obtain ⟨e1, h1, v1⟩ := fft_vals (o := o) hd hi ht ht' q1
    obtain ⟨e2, h2, v2⟩ := fft_vals (o := o) hd hi ht ht' q2
    obtain ⟨e3, h3, v3⟩ := fft_vals (o := o) hd hi ht ht' q3
    exact ⟨⟨e1, e2, e3⟩, by rw [lookupCosets, h1, Option.bind_some, h2, Option.bind_some, h3]; rfl, v1, v2, v3⟩
  obtain ⟨shuffles, h1', h2', h3'⟩ := mapM_vals (f := fft threads o cd item)
      (R := fun p e => Vals cd.offset cd.gen cd.size (dpoly p) e) c.shuffles fun p h =>
    fft_vals (o := o) hd hi ht ht' (hf.shuffles p h)
  have htab : tableCosets threads o cd item c.polys = some ⟨fixed, advice, inst, c.polys.challenges⟩ := by
    have f1' : c.polys.fixed.mapM (fft threads o cd item) = some fixed := f1
    have a1' : c.polys.advice.mapM (fft threads o cd item) = some advice := a1
    have i1' : c.polys.inst.mapM (fft threads o cd item) = some inst := i1
    rw [tableCosets, f1', Option.bind_some, a1', Option.bind_some, i1']; rfl
  have hr : Ready key c cd.size cd.gen cd.offset { b with table := ⟨fixed, advice, inst, c.polys.challenges⟩ } products
      sigmas lookups shuffles :=
    { pos := hd.1.pos
      le := hsz
      root := hd.1.prim.pow_eq_one
      n_eq := hn
      omega_eq := hom
      rot := hrot
      start := hst
      first := hfirst
      last := hlast
      active := hact
      num := by rintro (_ | _ | _); exacts [f2, a2, i2]
      cols := by rintro (_ | _ | _); exacts [f3, a3, i3]
      chs := rfl
      products_length := p2
      products := p3
      sigmas_length := s2
      sigmas := s3
      lookups := l3
      shuffles := h3' }
  rw [evalCircuit, htab, Option.bind_some, p1, Option.bind_some, s1, Option.bind_some, l1, Option.bind_some, h1',
    Option.bind_some]
  refine mapM_chunks (fun start chunk => evalChunk g { b with table := ⟨fixed, advice, inst, c.polys.challenges⟩ }
    s.columns products sigmas lookups shuffles start chunk) ht (by omega) (by omega) (by simp) fun i cs len h0 h2 => ?_
  rw [hr.chunk hf hk hdeg hlen h1 hg (i * cs) _ (by simp only [chunkOf, List.length_take, List.length_drop]; omega),
    chunkOf_mapIdx]

omit [DecidableEq F] in
/-- The circuits one after another. -/
theorem evalCircuits_eq (y : F) (f : Circuit F → List F → Option (List F)) (L : Circuit F → ℕ → List F) (n : ℕ) :
    ∀ (circuits : List (Circuit F)), (∀ c ∈ circuits, ∀ values : List F, values.length = n →
      f c values = some (values.mapIdx fun i v => fold y (L c i) v)) → ∀ values : List F, values.length = n →
      circuits.foldlM (fun values c => f c values) values =
        some (values.mapIdx fun i v => fold y (circuits.flatMap fun c => L c i) v)
  | [], _, values, _ => by
    simp only [List.foldlM_nil, List.flatMap_nil, fold_nil]
    show some values = _
    congr 1
    exact (List.ext_getElem (by simp) fun i h1 h2 => by rw [List.getElem_mapIdx])
  | c :: l, h, values, hv => by
    rw [List.foldlM_cons, h c (by simp) values hv]
    show List.foldlM _ _ l = _
    rw [evalCircuits_eq y f L n l (fun c hc => h c (by simp [hc])) _ (by simpa using hv), mapIdx_fold]
    simp only [List.flatMap_cons]

omit [DecidableEq F] in
theorem numerator_eval (s : System F) (key : ProvingKey F) (ω δ : F) (blinding degree : ℕ) (ch : Challenges F)
    (circuits : List (Circuit F)) (x : F) : (numerator s key ω δ blinding degree ch circuits).eval x =
      combination ch.y (circuits.flatMap fun c => constraints ch.beta ch.gamma δ (degree - 2)
        (rowEnv s key c ω ch.theta (-((blinding : ℤ) + 1)) x)) := by
  have h := map_combination (evalRingHom x) (C ch.y)
    (circuits.flatMap (Circuit.constraints s key ω δ blinding degree ch))
  rw [numerator, combination]
  rw [coe_evalRingHom] at h
  rw [h, combination, eval_C, List.map_flatMap]
  have : ∀ c, (Circuit.constraints s key ω δ blinding degree ch c).map (eval x) =
      constraints ch.beta ch.gamma δ (degree - 2) (rowEnv s key c ω ch.theta (-((blinding : ℤ) + 1)) x) := by
    intro c
    have h := map_constraints (evalRingHom x) (C ch.beta) (C ch.gamma) (C δ) (degree - 2)
      (c.env s key ω ch.theta (-((blinding : ℤ) + 1)))
    simp only [coe_evalRingHom, eval_C] at h
    exact h
  simp only [this]

end

/-- A part of the column. -/
theorem buildPart_eq {threads : ℕ} {o : Sched} {d : Domain F} {item : Item F} (hd : d.Radix2) (hi : item.For d)
    (ht : 0 < threads) (ht' : threads ≤ 2 ^ 63)
    (hsz : d.size ≤ 2 ^ 30) {s : System F} {key : ProvingKey F} {circuits : List (Circuit F)} {degree : ℕ}
    (hf : ∀ c ∈ circuits, c.Fits s d.size degree) (hk : key.Fits s d.size) (h1 : s.shuffles.length ≤ 1) {g : Graphs F}
    (hg : createGraphs s = some g) {b : Builder F} (hn : b.n = d.size) (hdeg : b.chunkLen = degree - 2)
    (hlen : 0 < b.chunkLen) (hom : b.omega = d.gen) (blinding : ℕ) (hb : blinding + 1 ≤ 2 ^ 30)
    (hrot : b.lastRotation = -((blinding : ℤ) + 1)) {zeta : F} (hz : zeta ≠ 0) (hcur : b.current ≠ 0)
    (hst : b.deltaStart = b.ch.beta * zeta) :
    buildPart threads o d item g s.columns key zeta b circuits = some ((List.range d.size).map fun j =>
      (numerator s key d.gen b.delta blinding degree b.ch circuits).eval (zeta * b.current * d.gen ^ j)) := by
  obtain ⟨cd, hcd, hval, e1, e2, e3, e4⟩ := (C59_coset hd.1 (zeta * b.current)).1 (mul_ne_zero hz hcur)
  have hcd2 : cd.Radix2 := ⟨hval, by rw [e1, e2]; exact hd.2⟩
  have hic : item.For cd := by
    rw [Item.For, e2, e3]; exact hi
  obtain ⟨lF, hF, vF⟩ := fft_vals (o := o) hcd2 hic ht ht' (p := key.lFirst) (by rw [e1]; exact hk.first)
  obtain ⟨lL, hL, vL⟩ := fft_vals (o := o) hcd2 hic ht ht' (p := key.lLast) (by rw [e1]; exact hk.last)
  obtain ⟨lA, hA, vA⟩ := fft_vals (o := o) hcd2 hic ht ht' (p := key.lActive) (by rw [e1]; exact hk.active)
  rw [buildPart, hcd, Option.bind_some, hF, Option.bind_some, hL, Option.bind_some, hA, Option.bind_some]
  rw [evalCircuits_eq b.ch.y (fun c values => evalCircuit threads o cd item g s.columns key
          { b with lFirst := lF, lLast := lL, lActive := lA } c values)
    (fun c i => constraints b.ch.beta b.ch.gamma b.delta (degree - 2)
        (rowEnv s key c d.gen b.ch.theta (-((blinding : ℤ) + 1)) (zeta * b.current * d.gen ^ i))) d.size circuits
    (fun c hc values hv => ?_) _ (by simp [hn])]
  · congr 1
    refine List.ext_getElem (by simp [hn]) fun i h1 h2 => ?_
    rw [List.getElem_mapIdx, List.getElem_replicate, fold_zero, List.getElem_map, List.getElem_range, numerator_eval]
  · have := evalCircuit_eq (o := o) (b := { b with lFirst := lF, lLast := lL, lActive := lA }) (c := c) (degree := degree)
      hcd2 hic ht ht' (by omega) (by rw [e1]; exact hf c hc) (by rw [e1]; exact hk) h1 hg (by rw [e1]; exact hn) hdeg hlen
      (by rw [e3]; exact hom) (by rw [hrot]; omega) (by rw [e4, hst]; ring) vF vL vA values (by omega)
    rw [this]
    simp only [e3, e4, hrot]

/-- The parts of the column. -/
theorem buildParts_eq {threads : ℕ} {o : Sched} {d : Domain F} {item : Item F} (hd : d.Radix2) (hi : item.For d)
    (ht : 0 < threads) (ht' : threads ≤ 2 ^ 63)
    (hsz : d.size ≤ 2 ^ 30) {s : System F} {key : ProvingKey F} {circuits : List (Circuit F)} {degree : ℕ}
    (hf : ∀ c ∈ circuits, c.Fits s d.size degree) (hk : key.Fits s d.size) (h1 : s.shuffles.length ≤ 1) {g : Graphs F}
    (hg : createGraphs s = some g) (blinding : ℕ) (hb : blinding + 1 ≤ 2 ^ 30) {zeta w : F} (hz : zeta ≠ 0) (hw : w ≠ 0)
    (hlen : 0 < degree - 2) : ∀ (m : ℕ) (b : Builder F), b.n = d.size → b.chunkLen = degree - 2 → b.omega = d.gen →
      b.lastRotation = -((blinding : ℤ) + 1) → b.current ≠ 0 → b.deltaStart = b.ch.beta * zeta →
    buildParts threads o d item g s.columns key zeta w circuits m b = some ((List.range m).map fun i =>
      (List.range d.size).map fun j => (numerator s key d.gen b.delta blinding degree b.ch circuits).eval
        (zeta * (b.current * w ^ i) * d.gen ^ j))
  | 0, _, _, _, _, _, _, _ => rfl
  | m + 1, b, q1, q2, q3, q4, q5, q6 => by
    rw [buildParts, buildPart_eq hd hi ht ht' hsz hf hk h1 hg q1 q2 (by omega) q3 blinding hb q4 hz q5 q6,
      Option.bind_some, buildParts_eq hd hi ht ht' hsz hf hk h1 hg blinding hb hz hw hlen m
        { b with current := b.current * w } q1 q2 q3 q4 (mul_ne_zero q5 hw) q6, Option.map_some,
      List.range_succ_eq_map (n := m), List.map_cons, List.map_map]
    congr 2
    · simp
    · refine List.map_congr_left fun i _ => ?_
      refine List.map_congr_left fun j _ => ?_
      simp only [pow_succ]
      congr 1
      ring

end
end Tachyon.CircuitPoly
