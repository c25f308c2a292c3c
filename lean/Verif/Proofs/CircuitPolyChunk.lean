import Verif.Proofs.CircuitPoly
/-! Lemmas about the circuit polynomial: a chunk of rows. -/
universe u
namespace Tachyon.CircuitPoly
open Plonk FFT Parallel Vanishing Tachyon.Group Polynomial Poly

section
variable {F : Type u} [Field F]

/-- The evaluators hold the values of the polynomials of a circuit on the coset `x·⟨ω⟩`. -/
structure Ready (key : ProvingKey F) (c : Circuit F) (n : ℕ) (ω x : F) (b : Builder F)
    (products sigmas : List (List F)) (lookups : List (LookupCosets F)) (shuffles : List (List F)) : Prop where
  pos : 0 < n
  le : n ≤ 2 ^ 30
  root : ω ^ n = 1
  n_eq : b.n = n
  omega_eq : b.omega = ω
  rot : -2 ^ 30 ≤ b.lastRotation ∧ b.lastRotation ≤ 2 ^ 30
  start : b.deltaStart * b.current = b.ch.beta * x
  first : Vals x ω n (dpoly key.lFirst) b.lFirst
  last : Vals x ω n (dpoly key.lLast) b.lLast
  active : Vals x ω n (dpoly key.lActive) b.lActive
  num : ∀ k, (b.table.columns k).length = (c.polys.columns k).length
  cols : ∀ k, ∀ i < (b.table.columns k).length, Vals x ω n (colPolys c.polys k i) ((b.table.columns k).getD i [])
  chs : b.table.challenges = c.polys.challenges
  products_length : products.length = c.products.length
  products : ∀ i < products.length, Vals x ω n (dpoly (c.products.getD i [])) (products.getD i [])
  sigmas_length : sigmas.length = key.sigmas.length
  sigmas : ∀ i < sigmas.length, Vals x ω n (dpoly (key.sigmas.getD i [])) (sigmas.getD i [])
  lookups : ∀ (i : ℕ) l, c.lookups[i]? = some l → ∃ e, lookups[i]? = some e ∧ Vals x ω n (dpoly l.product) e.product ∧
    Vals x ω n (dpoly l.input) e.input ∧ Vals x ω n (dpoly l.table) e.table
  shuffles : ∀ (i : ℕ) l, c.shuffles[i]? = some l → ∃ e, shuffles[i]? = some e ∧ Vals x ω n (dpoly l) e

variable {s : System F} {key : ProvingKey F} {c : Circuit F} {n degree : ℕ} {ω x : F} {b : Builder F}
  {products sigmas : List (List F)} {lookups : List (LookupCosets F)} {shuffles : List (List F)}

/-- The values of the constraints in a row. -/
noncomputable def rowEnv (s : System F) (key : ProvingKey F) (c : Circuit F) (ω θ : F) (r : ℤ) (x : F) : Env F :=
  (c.env s key ω θ r).map (evalRingHom x)

omit [Field F] in
theorem exprs_gates {s : System F} {e : Expr F} (h : e ∈ s.gates.flatten) : e ∈ s.exprs := by
  simp only [System.exprs, List.mem_append]; exact Or.inl (Or.inl h)

omit [Field F] in
theorem exprs_lookup {s : System F} {a : Argument F} (ha : a ∈ s.lookups) {e : Expr F}
    (h : e ∈ a.inputs ++ a.targets) : e ∈ s.exprs := by
  simp only [System.exprs, List.mem_append]; exact Or.inl (Or.inr (List.mem_flatMap.2 ⟨a, ha, h⟩))

omit [Field F] in
theorem exprs_shuffle {s : System F} {a : Argument F} (ha : a ∈ s.shuffles) {e : Expr F}
    (h : e ∈ a.inputs ++ a.targets) : e ∈ s.exprs := by
  simp only [System.exprs, List.mem_append]; exact Or.inr (List.mem_flatMap.2 ⟨a, ha, h⟩)

theorem Ready.fits (h : Ready key c n ω x b products sigmas lookups shuffles) (hf : c.Fits s n degree) {idx : ℕ}
    (hi : idx < n) {e : Expr F} (he : e ∈ s.exprs) : Plonk.Fits b.table idx 1 e := by
  classical
  refine Legal.mono (fun k q hq => ?_) (fun i hi => ?_) e (hf.exprs e he)
  · have := h.le
    refine ⟨by rw [h.num]; exact hq.1, ?_, ?_⟩ <;> omega
  · rw [h.chs]; exact hi

theorem Ready.value (h : Ready key c n ω x b products sigmas lookups shuffles) (hf : c.Fits s n degree) {idx : ℕ}
    (hi : idx < n) {e : Expr F} (he : e ∈ s.exprs) :
    rowValue b.table idx 1 n e = (exprPoly ω c.polys e).eval (x * ω ^ idx) := by
  rw [Props.C70_polynomial b.table n h.pos ω x h.root (colPolys c.polys) h.cols idx e (h.fits hf hi he), exprPoly, h.chs,
    zpow_natCast]

theorem Ready.values (h : Ready key c n ω x b products sigmas lookups shuffles) (hf : c.Fits s n degree) {idx : ℕ}
    (hi : idx < n) {es : List (Expr F)} (he : ∀ e ∈ es, e ∈ s.exprs) :
    es.mapM (evalProving b.table idx 1 n) = some (es.map fun e => (exprPoly ω c.polys e).eval (x * ω ^ idx)) := by
  classical
  rw [mapM_evalProving b.table h.pos es fun e h' => h.fits hf hi (he e h')]
  congr 1
  exact List.map_congr_left fun e h' => h.value hf hi (he e h')

theorem eval_compress (ω θ x : F) (t : Table F) (es : List (Expr F)) :
    (compressPoly ω θ t es).eval x = (es.map fun e => (exprPoly ω t e).eval x).foldl (fun acc v => acc * θ + v) 0 := by
  have := map_combination (evalRingHom x) (C θ) (es.map (exprPoly ω t))
  rw [compressPoly, combination, ← coe_evalRingHom, this, coe_evalRingHom, eval_C, List.map_map]
  exact (fold_zero θ _).symm

theorem at_eq {P : F[X]} {e : List F} (h : Vals x ω n P e) {idx : ℕ} (hi : idx < n) :
    at' e idx = evalRingHom (x * ω ^ idx) P := h idx hi

theorem at_next {p : List F} {e : List F} (h : Vals x ω n (dpoly p) e) (hn : 0 < n) (hω : ω ^ n = 1) (idx : ℕ) (r : ℤ) :
    at' e (((idx : ℤ) + r) % n).toNat = evalRingHom (x * ω ^ idx) (rotated ω r p) := h.rotate hn hω idx r

variable [DecidableEq F]

/-- The gates. -/
theorem Ready.gates (h : Ready key c n ω x b products sigmas lookups shuffles) (hf : c.Fits s n degree) {g : Graph F}
    (hg : constructGates s.gates = some g) (start : ℕ) (chunk : List F) (hc : start + chunk.length ≤ n) (θ : F) (r : ℤ) :
    g.chunk b.table b.ch b.n start chunk = some (chunk.mapIdx fun i v =>
      fold b.ch.y (rowEnv s key c ω θ r (x * ω ^ (start + i))).gates v) := by
  rw [h.n_eq]
  refine (rows_spec b.table b.ch n (fun idx prev => fold b.ch.y
    (s.gates.flatten.map (fun e => rowValue b.table idx 1 n e)) prev) _ ?_ _ (by simp)).trans ?_
  · intro p hp ims hl
    obtain ⟨i, hi, rfl⟩ := List.mem_iff_getElem.1 hp
    simp only [List.length_mapIdx] at hi
    rw [List.getElem_mapIdx]
    exact gates_spec b.table b.ch _ _ 1 n s.gates hg (mapM_evalProving b.table h.pos _
      fun e he => h.fits hf (by omega) (exprs_gates he)) ims hl
  · congr 1
    refine List.ext_getElem (by simp) fun i h1 h2 => ?_
    simp only [List.getElem_map, List.getElem_mapIdx]
    congr 1
    simp only [List.length_mapIdx] at h2
    simp only [rowEnv, Env.map, Circuit.env, List.map_map]
    refine List.map_congr_left fun e he => ?_
    exact h.value hf (by omega) (exprs_gates he)

omit [DecidableEq F] in
/-- The permutation argument. -/
theorem Ready.perm (h : Ready key c n ω x b products sigmas lookups shuffles) (hf : c.Fits s n degree)
    (hk : key.Fits s n) (hd : b.chunkLen = degree - 2) (hlen : 0 < b.chunkLen) (start : ℕ) (chunk : List F)
    (hc : start + chunk.length ≤ n) (θ : F) :
    permChunk b s.columns products sigmas start chunk = some (chunk.mapIdx fun i v =>
      fold b.ch.y (permConstraints b.ch.beta b.ch.gamma b.delta b.chunkLen
        (rowEnv s key c ω θ b.lastRotation (x * ω ^ (start + i)))) v) := by
  have hcol : ∀ k ∈ s.columns, Key.column b.table k = some ((b.table.columns k.kind.1).getD k.kind.2 []) := by
    intro k hk
    have := hf.keys k hk
    rw [← h.num] at this
    cases k <;> simp only [Key.column, Key.kind, Table.columns] at this ⊢ <;>
      rw [List.getD_eq_getElem?_getD, List.getElem?_eq_getElem this] <;> rfl
  have hsig : sigmas.length = s.columns.length := by rw [h.sigmas_length, hk.numSigmas]
  have hle := h.le
  refine permChunk_eq b s.columns products sigmas _ (fun idx => permConstraints b.ch.beta b.ch.gamma b.delta b.chunkLen
        (rowEnv s key c ω θ b.lastRotation (x * ω ^ idx))) start chunk (mapM_some hcol) hlen ?_ ?_ (by omega)
  · rintro rfl i _
    have := h.products_length
    rw [permConstraints, if_pos]
    show c.products.length = 0
    rw [← this]; rfl
  · intro h0 i hi v
    have hidx : start + i < n := by omega
    refine permRow_eq b products _ sigmas (by simpa using hsig) hlen
      (by rw [List.length_map, h.products_length, hf.sets, hd]) h0
      (by rw [h.n_eq]; exact getIndex_some h.pos h.le hidx h.rot.1 h.rot.2)
      (by rw [h.n_eq]; exact getIndex_some h.pos h.le hidx (by omega) (by omega)) _ v _ (at_eq h.first hidx)
      (at_eq h.last hidx) (at_eq h.active hidx) (by simp [rowEnv, Env.map, Circuit.env]) h.products_length.symm ?_ ?_ ?_ ?_ ?_ ?_
    · rw [h.omega_eq]
      have := h.start
      simp only [rowEnv, Env.map, Circuit.env, coe_evalRingHom, eval_X]
      linear_combination ω ^ (start + i) * this
    · intro j hj
      exact at_eq (h.products j hj) hidx
    · intro j hj
      exact at_next (h.products j hj) h.pos h.root _ 1
    · intro j hj
      exact at_next (h.products j hj) h.pos h.root _ _
    · intro j hj
      rw [List.length_map] at hj
      rw [List.getD_eq_getElem _ _ (by simpa using hj), List.getElem_map]
      have hm := hf.keys _ (List.getElem_mem hj)
      rw [← h.num] at hm
      rw [at_eq (h.cols _ _ hm) hidx]
      simp only [rowEnv, Env.map, Circuit.env]
      rw [List.getD_eq_getElem _ _ hj]
    · intro j hj
      rw [List.length_map, ← hsig] at hj
      exact at_eq (h.sigmas j hj) hidx

omit [Field F] [DecidableEq F] in
theorem flatMap_getElem? {α β : Type*} (f : α → List β) : ∀ l : List α,
    (List.range l.length).flatMap (fun j => (l[j]?.map f).getD []) = l.flatMap f
  | [] => rfl
  | a :: l => by
    rw [List.length_cons, List.range_succ_eq_map, List.flatMap_cons, List.flatMap_map, List.flatMap_cons,
      ← flatMap_getElem? f l]
    rfl

omit [DecidableEq F] in
theorem rowEnv_lookup {j : ℕ} {a : Argument F} {l : LookupCosets F} (ha : s.lookups[j]? = some a)
    (hl : c.lookups[j]? = some l) (θ : F) (r : ℤ) (p : F) : (rowEnv s key c ω θ r p).lookups[j]? =
      some ⟨(dpoly l.product).eval p, (rotated ω 1 l.product).eval p, (dpoly l.input).eval p,
        (rotated ω (-1) l.input).eval p, (dpoly l.table).eval p, (compressPoly ω θ c.polys a.inputs).eval p,
        (compressPoly ω θ c.polys a.targets).eval p⟩ := by
  simp only [rowEnv, Env.map, Circuit.env, List.getElem?_map, List.getElem?_zipWith, ha, hl, Option.map_some,
    LookupEnv.map, coe_evalRingHom]

omit [DecidableEq F] in
theorem rowEnv_shuffle {j : ℕ} {a : Argument F} {l : List F} (ha : s.shuffles[j]? = some a)
    (hl : c.shuffles[j]? = some l) (θ : F) (r : ℤ) (p : F) : (rowEnv s key c ω θ r p).shuffles[j]? =
      some ⟨(dpoly l).eval p, (rotated ω 1 l).eval p, (compressPoly ω θ c.polys a.inputs).eval p,
        (compressPoly ω θ c.polys a.targets).eval p⟩ := by
  simp only [rowEnv, Env.map, Circuit.env, List.getElem?_map, List.getElem?_zipWith, ha, hl, Option.map_some,
    ShuffleEnv.map, coe_evalRingHom]

theorem lookupGraph (h : Ready key c n ω x b products sigmas lookups shuffles) (hf : c.Fits s n degree)
    {a : Argument F} (ha : a ∈ s.lookups) {g : Graph F} (hg : constructLookup a.inputs a.targets = some g) {idx : ℕ}
    (hi : idx < n) (ims : List F) (hl : ims.length = g.num) : ∃ ims' : List F, ims'.length = g.num ∧
      g.evaluate b.table b.ch b.n ims idx 1 0 = some
        (((compressPoly ω b.ch.theta c.polys a.inputs).eval (x * ω ^ idx) + b.ch.beta) *
          ((compressPoly ω b.ch.theta c.polys a.targets).eval (x * ω ^ idx) + b.ch.gamma), ims') := by
  rw [h.n_eq, eval_compress, eval_compress]
  exact lookup_spec b.table b.ch 0 idx 1 n a.inputs a.targets hg
    (h.values hf hi fun e he => exprs_lookup ha (by simp [he]))
    (h.values hf hi fun e he => exprs_lookup ha (by simp [he])) ims hl

theorem shuffleGraph (h : Ready key c n ω x b products sigmas lookups shuffles) (hf : c.Fits s n degree)
    {es : List (Expr F)} (ha : ∀ e ∈ es, e ∈ s.exprs) {g : Graph F} (hg : constructShift .gamma es = some g) {idx : ℕ}
    (hi : idx < n) (ims : List F) (hl : ims.length = g.num) : ∃ ims' : List F, ims'.length = g.num ∧
      g.evaluate b.table b.ch b.n ims idx 1 0 = some
        ((compressPoly ω b.ch.theta c.polys es).eval (x * ω ^ idx) + b.ch.gamma, ims') := by
  rw [h.n_eq, eval_compress]
  exact shift_spec b.table b.ch 0 idx 1 n es (Or.inr ⟨rfl, rfl⟩) hg (h.values hf hi ha) ims hl

/-- The lookups. -/
theorem Ready.lookup (h : Ready key c n ω x b products sigmas lookups shuffles) (hf : c.Fits s n degree)
    {gs : List (Graph F)} (hg : s.lookups.mapM (fun a => constructLookup a.inputs a.targets) = some gs) (start : ℕ)
    (chunk : List F) (hc : start + chunk.length ≤ n) (r : ℤ) :
    lookupChunk b gs lookups start chunk = some (chunk.mapIdx fun i v => fold b.ch.y
      ((rowEnv s key c ω b.ch.theta r (x * ω ^ (start + i))).lookups.flatMap
        (lookupConstraints b.ch.beta b.ch.gamma (rowEnv s key c ω b.ch.theta r (x * ω ^ (start + i))))) v) := by
  have hlen : gs.length = s.lookups.length := Plonk.mapM_length hg
  have hlen2 := hf.numLookups
  set LE : ℕ → ℕ → List F := fun j idx =>
    ((rowEnv s key c ω b.ch.theta r (x * ω ^ idx)).lookups[j]?.map
      (lookupConstraints b.ch.beta b.ch.gamma (rowEnv s key c ω b.ch.theta r (x * ω ^ idx)))).getD [] with hLE
  rw [lookupChunk, foldlM_chunk b.ch.y _ (fun g i => LE g.2 (start + i)) chunk.length _ _ rfl]
  · congr 1
    refine List.ext_getElem (by simp) fun i h1 h2 => ?_
    simp only [List.getElem_mapIdx]
    congr 1
    have hL : (rowEnv s key c ω b.ch.theta r (x * ω ^ (start + i))).lookups.length = gs.length := by
      simp [rowEnv, Env.map, Circuit.env, hlen, hlen2]
    rw [← List.flatMap_map (f := Prod.snd) (g := fun j => LE j (start + i)), List.zipIdx_map_snd, ← List.range_eq_range',
      ← hL]
    exact flatMap_getElem? _ _
  · rintro ⟨g, j⟩ hgj ch hch
    rw [List.mem_zipIdx_iff_getElem?] at hgj
    simp only at hgj ⊢
    have hj : j < gs.length := (List.getElem?_eq_some_iff.1 hgj).1
    obtain ⟨a, ha⟩ : ∃ a, s.lookups[j]? = some a := ⟨_, List.getElem?_eq_getElem (by omega)⟩
    obtain ⟨l, hl⟩ : ∃ a, c.lookups[j]? = some a := ⟨_, List.getElem?_eq_getElem (by omega)⟩
    have hg' := Plonk.mapM_get hg j a ha
    rw [hgj] at hg'
    have ham : a ∈ s.lookups := List.mem_of_getElem? ha
    obtain ⟨e, he, hv1, hv2, hv3⟩ := h.lookups j l hl
    rw [he, Option.bind_some]
    refine lookupRows_eq b g e (LE j) (fun idx =>
        ((compressPoly ω b.ch.theta c.polys a.inputs).eval (x * ω ^ idx) + b.ch.beta) *
          ((compressPoly ω b.ch.theta c.polys a.targets).eval (x * ω ^ idx) + b.ch.gamma)) ch _ start (by simp) ?_ ?_
    · intro i hi ims hims
      exact lookupGraph h hf ham hg'.symm (by omega) ims hims
    · intro i hi v
      have hidx : start + i < n := by omega
      rw [hLE]
      simp only [rowEnv_lookup ha hl, Option.map_some, Option.getD_some]
      exact lookupRow_eq b e (by rw [h.n_eq]; exact getIndex_some h.pos h.le hidx (by omega) (by omega))
        (by rw [h.n_eq]; exact getIndex_some h.pos h.le hidx (by omega) (by omega))
        (rowEnv s key c ω b.ch.theta r (x * ω ^ (start + i))) ⟨_, _, _, _, _, _, _⟩ (at_eq h.first hidx)
        (at_eq h.last hidx) (at_eq h.active hidx) (at_eq hv1 hidx) (at_next hv1 h.pos h.root _ 1) (at_eq hv2 hidx)
        (at_next hv2 h.pos h.root _ (-1)) (at_eq hv3 hidx) v

/-- At most one shuffle. -/
theorem Ready.shuffle (h : Ready key c n ω x b products sigmas lookups shuffles) (hf : c.Fits s n degree)
    (h1 : s.shuffles.length ≤ 1) {gs : List (List (Graph F))}
    (hg : s.shuffles.mapM (fun a => (constructShift .gamma a.inputs).bind fun i =>
        (constructShift .gamma a.targets).map fun t => [i, t]) = some gs) (start : ℕ)
    (chunk : List F) (hc : start + chunk.length ≤ n) (r : ℤ) :
    shuffleChunk b gs.flatten shuffles start chunk = some (chunk.mapIdx fun i v => fold b.ch.y
      ((rowEnv s key c ω b.ch.theta r (x * ω ^ (start + i))).shuffles.flatMap
        (shuffleConstraints b.ch.gamma (rowEnv s key c ω b.ch.theta r (x * ω ^ (start + i))))) v) := by
  have hlen := hf.numShuffles
  have hlen2 : gs.length = s.shuffles.length := Plonk.mapM_length hg
  rcases Nat.eq_zero_or_pos s.shuffles.length with h0 | h0
  · obtain rfl : gs = [] := List.eq_nil_of_length_eq_zero (by omega)
    have hE : ∀ p, (rowEnv s key c ω b.ch.theta r p).shuffles = [] := by
      intro p
      apply List.eq_nil_of_length_eq_zero
      simp [rowEnv, Env.map, Circuit.env, h0]
    simp only [hE, List.flatMap_nil, fold_nil]
    rw [shuffleChunk]
    simp only [List.flatten_nil, List.length_nil]
    rw [show List.range ((0 + 1) / 2) = [] from rfl, List.foldlM_nil]
    show some chunk = _
    congr 1
    refine List.ext_getElem (by simp) fun i h1 h2 => ?_
    rw [List.getElem_mapIdx]
  · obtain ⟨a, ha⟩ : ∃ a, s.shuffles[0]? = some a := ⟨_, List.getElem?_eq_getElem h0⟩
    obtain ⟨l, hl⟩ : ∃ a, c.shuffles[0]? = some a := ⟨_, List.getElem?_eq_getElem (by omega)⟩
    have ham : a ∈ s.shuffles := List.mem_of_getElem? ha
    obtain ⟨e, he, hv⟩ := h.shuffles 0 l hl
    have hg' := Plonk.mapM_get hg 0 a ha
    obtain ⟨g, rfl⟩ : ∃ g, gs = [g] := by
      match gs, (show gs.length = 1 by omega) with
      | [g], _ => exact ⟨g, rfl⟩
    simp only [List.getElem?_cons_zero] at hg'
    obtain ⟨gi, hgi, hg2⟩ := Option.bind_eq_some_iff.1 hg'.symm
    obtain ⟨gt, hgt, rfl⟩ := Option.map_eq_some_iff.1 hg2
    rw [shuffleChunk]
    simp only [List.flatten_cons, List.flatten_nil, List.append_nil, List.length_cons, List.length_nil]
    rw [show List.range ((0 + 1 + 1 + 1) / 2) = [0] from rfl, List.foldlM_cons]
    simp only [Nat.mul_zero, Nat.zero_add, List.getElem?_cons_zero, List.getElem?_cons_succ, Option.bind_some, he]
    rw [shuffleRows_eq b gi gt e (fun idx => ((rowEnv s key c ω b.ch.theta r (x * ω ^ idx)).shuffles.flatMap
        (shuffleConstraints b.ch.gamma (rowEnv s key c ω b.ch.theta r (x * ω ^ idx)))))
        (fun idx => (compressPoly ω b.ch.theta c.polys a.inputs).eval (x * ω ^ idx) + b.ch.gamma)
        (fun idx => (compressPoly ω b.ch.theta c.polys a.targets).eval (x * ω ^ idx) + b.ch.gamma) chunk _ _ start
        (by simp) (by simp)]
    · rfl
    · intro i hi ims hims
      exact shuffleGraph h hf (fun e he => exprs_shuffle ham (by simp [he])) hgi (by omega) ims hims
    · intro i hi ims hims
      exact shuffleGraph h hf (fun e he => exprs_shuffle ham (by simp [he])) hgt (by omega) ims hims
    · intro i hi v
      have hidx : start + i < n := by omega
      have hE : (rowEnv s key c ω b.ch.theta r (x * ω ^ (start + i))).shuffles =
          [⟨(dpoly l).eval (x * ω ^ (start + i)), (rotated ω 1 l).eval (x * ω ^ (start + i)),
            (compressPoly ω b.ch.theta c.polys a.inputs).eval (x * ω ^ (start + i)),
            (compressPoly ω b.ch.theta c.polys a.targets).eval (x * ω ^ (start + i))⟩] := by
        have hL : (rowEnv s key c ω b.ch.theta r (x * ω ^ (start + i))).shuffles.length = 1 := by
          simp only [rowEnv, Env.map, Circuit.env, List.length_map, List.length_zipWith]; omega
        have := rowEnv_shuffle (key := key) (ω := ω) ha hl b.ch.theta r (x * ω ^ (start + i))
        obtain ⟨u, hu⟩ := List.length_eq_one_iff.1 hL
        rw [hu] at this ⊢
        simpa using this
      simp only [hE, List.flatMap_cons, List.flatMap_nil, List.append_nil]
      exact shuffleRow_eq b e (by rw [h.n_eq]; exact getIndex_some h.pos h.le hidx (by omega) (by omega))
        (rowEnv s key c ω b.ch.theta r (x * ω ^ (start + i))) ⟨_, _, _, _⟩ (at_eq h.first hidx)
        (at_eq h.last hidx) (at_eq h.active hidx) (at_eq hv hidx) (at_next hv h.pos h.root _ 1) v

omit [DecidableEq F] in
theorem mapIdx_fold (y : F) (L L' : ℕ → List F) (chunk : List F) :
    (chunk.mapIdx fun i v => fold y (L i) v).mapIdx (fun i v => fold y (L' i) v) =
      chunk.mapIdx fun i v => fold y (L i ++ L' i) v := by
  refine List.ext_getElem (by simp) fun i h1 h2 => ?_
  simp only [List.getElem_mapIdx, fold_append]

/-- A chunk of rows: every entry is combined with the values of the constraints in its row. -/
theorem Ready.chunk (h : Ready key c n ω x b products sigmas lookups shuffles) (hf : c.Fits s n degree)
    (hk : key.Fits s n) (hd : b.chunkLen = degree - 2) (hlen : 0 < b.chunkLen) (h1 : s.shuffles.length ≤ 1)
    {g : Graphs F} (hg : createGraphs s = some g) (start : ℕ) (chunk : List F) (hc : start + chunk.length ≤ n) :
    evalChunk g b s.columns products sigmas lookups shuffles start chunk = some (chunk.mapIdx fun i v =>
      fold b.ch.y (constraints b.ch.beta b.ch.gamma b.delta (degree - 2)
        (rowEnv s key c ω b.ch.theta b.lastRotation (x * ω ^ (start + i)))) v) := by
  unfold createGraphs at hg
  obtain ⟨gg, hgg, hg⟩ := Option.bind_eq_some_iff.1 hg
  obtain ⟨gl, hgl, hg⟩ := Option.bind_eq_some_iff.1 hg
  obtain ⟨gs, hgs, rfl⟩ := Option.map_eq_some_iff.1 hg
  rw [evalChunk]
  simp only
  rw [h.gates hf hgg start chunk hc b.ch.theta b.lastRotation, Option.bind_some,
    h.perm hf hk hd hlen start _ (by simpa using hc) b.ch.theta, Option.bind_some, mapIdx_fold,
    h.lookup hf hgl start _ (by simpa using hc) b.lastRotation, Option.bind_some, mapIdx_fold,
    h.shuffle hf h1 hgs start _ (by simpa using hc) b.lastRotation, mapIdx_fold, hd]
  rfl

/-- The graphs exist. -/
theorem createGraphs_total (hs : ∀ e ∈ s.exprs, NoSelector e) : ∃ g, createGraphs s = some g := by
  obtain ⟨g, hg⟩ := constructGates_total (gates := s.gates) fun e he => hs e (exprs_gates he)
  have hl : ∃ gl, s.lookups.mapM (fun a => constructLookup a.inputs a.targets) = some gl := by
    have hex : ∀ a ∈ s.lookups, ∃ g, constructLookup a.inputs a.targets = some g := fun a ha =>
      constructLookup_total (fun e he => hs e (exprs_lookup ha (by simp [he])))
        (fun e he => hs e (exprs_lookup ha (by simp [he])))
    have : Nonempty (Graph F) := ⟨g⟩
    choose! f hf using hex
    exact ⟨_, mapM_some hf⟩
  have hsh : ∃ gs, s.shuffles.mapM (fun a => (constructShift .gamma a.inputs).bind fun i =>
        (constructShift .gamma a.targets).map fun t => [i, t]) = some gs := by
    have : ∀ a ∈ s.shuffles, ∃ g, ((constructShift .gamma a.inputs).bind fun i =>
        (constructShift .gamma a.targets).map fun t => [i, t]) = some g := by
      intro a ha
      obtain ⟨i, hi⟩ := constructShift_total (es := a.inputs)
        (fun e he => hs e (exprs_shuffle ha (by simp [he]))) .gamma
      obtain ⟨t, ht⟩ := constructShift_total (es := a.targets)
        (fun e he => hs e (exprs_shuffle ha (by simp [he]))) .gamma
      exact ⟨[i, t], by rw [hi, ht]; rfl⟩
    choose! f hf using this
    exact ⟨_, mapM_some hf⟩
  obtain ⟨gl, hl⟩ := hl
  obtain ⟨gs, hsh⟩ := hsh
  exact ⟨_, by rw [createGraphs, hg, Option.bind_some, hl, Option.bind_some, hsh]; rfl⟩

omit [DecidableEq F] in
/-- With two or more shuffles the index of the products is out of bounds. -/
theorem shuffleChunk_none {gs : List (List (Graph F))} (hg : ∀ g ∈ gs, g.length = 2) (h2 : 2 ≤ gs.length)
    (hp : shuffles.length = gs.length) (start : ℕ) (chunk : List F) :
    shuffleChunk b gs.flatten shuffles start chunk = none := by
  have hl : gs.flatten.length = 2 * gs.length := by
    clear h2 hp
    induction gs with
    | nil => rfl
    | cons g gs ih =>
      rw [List.flatten_cons, List.length_append, ih fun x hx => hg x (by simp [hx]), hg g (by simp), List.length_cons]
      omega
  obtain ⟨k, hk⟩ : ∃ k, gs.length = k + 1 := ⟨gs.length - 1, by omega⟩
  rw [shuffleChunk, hl, show (2 * gs.length + 1) / 2 = k + 1 by omega, List.range_succ, List.foldlM_append]
  refine Option.bind_eq_none_iff.2 fun v _ => ?_
  rw [List.foldlM_cons]
  have : shuffles[2 * k]? = none := List.getElem?_eq_none (by omega)
  simp [this]

end
end Tachyon.CircuitPoly
