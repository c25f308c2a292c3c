import Verif.Proofs.CircuitPolyDegree
/-! Lemmas about the circuit polynomial: the constraints in the rows of the tables. -/
universe u
namespace Tachyon.CircuitPoly
open Plonk FFT Vanishing Tachyon.Group Polynomial Poly Props GrandProduct

section
variable {F : Type u} [Field F]

theorem onRows_get {ω : F} {n : ℕ} (p : List F) {j : ℕ} (hj : j < n) :
    (onRows ω n p)[j]? = some ((dpoly p).eval (ω ^ j)) := by
  rw [onRows, List.getElem?_map, List.getElem?_range hj]; rfl

theorem pow_mod {ω : F} {n : ℕ} (hω : ω ^ n = 1) (k : ℕ) : ω ^ (k % n) = ω ^ k := by
  conv_rhs => rw [← Nat.mod_add_div k n, pow_add, pow_mul, hω, one_pow, mul_one]

theorem rowTable_columns (ω : F) (n : ℕ) (t : Table F) (k : Kind) :
    (rowTable ω n t).columns k = (t.columns k).map (onRows ω n) := by cases k <;> rfl

variable {s : System F} {key : ProvingKey F} {c : Circuit F} {n degree b : ℕ} {ω : F}

theorem rowTable_value (hω : ω ^ n = 1) (hn : 0 < n) (hn' : n ≤ 2 ^ 30) (hf : c.Fits s n degree) {e : Expr F}
    (he : e ∈ s.exprs) {j : ℕ} (hj : j < n) :
    rowValue (rowTable ω n c.polys) j 1 n e = (exprPoly ω c.polys e).eval (ω ^ j) := by
  have h := C70_polynomial (rowTable ω n c.polys) n hn ω 1 hω (colPolys c.polys) (fun k i hi j hj => by
      rw [rowTable_columns, List.length_map] at hi
      rw [rowTable_columns, List.getD_eq_getElem ((c.polys.columns k).map (onRows ω n)) _ (by simpa using hi),
        List.getElem_map, List.getD_eq_getElem?_getD, onRows_get _ hj, Option.getD_some, one_mul, colPolys,
        List.getD_eq_getElem _ _ hi]) j e (by
      classical
      refine Legal.mono (fun k q hq => ?_) (fun i hi => hi) e (hf.exprs e he)
      refine ⟨by rw [rowTable_columns, List.length_map]; exact hq.1, ?_, ?_⟩ <;> omega)
  rw [h, one_mul, zpow_natCast]; rfl

theorem compressRows_get (hω : ω ^ n = 1) (hn : 0 < n) (hn' : n ≤ 2 ^ 30) (hf : c.Fits s n degree) {es : List (Expr F)}
    (hes : ∀ e ∈ es, e ∈ s.exprs) (θ : F) {j : ℕ} (hj : j < n) :
    (compressRows (rowTable ω n c.polys) n θ es)[j]? = some ((compressPoly ω θ c.polys es).eval (ω ^ j)) := by
  rw [compressRows, List.getElem?_map, List.getElem?_range hj, Option.map_some]
  have h := map_combination (evalRingHom (ω ^ j)) (C θ) (es.map (exprPoly ω c.polys))
  rw [coe_evalRingHom, List.map_map, eval_C] at h
  have hm : es.map (rowValue (rowTable ω n c.polys) (j : ℕ) 1 n) = es.map (eval (ω ^ j) ∘ exprPoly ω c.polys) :=
    List.map_congr_left fun e he => rowTable_value hω hn hn' hf (hes e he) hj
  rw [compressPoly, combination, combination, h, hm]

theorem constraints_rows (δ : F) (ch : Challenges F) (n : ℕ) :
    (∀ p ∈ c.constraints s key ω δ b degree ch, ∀ i < n, p.eval (ω ^ i) = 0) ↔ ∀ i < n,
      ∀ v ∈ constraints ch.beta ch.gamma δ (degree - 2) (rowEnv s key c ω ch.theta (-((b : ℤ) + 1)) (ω ^ i)), v = 0 := by
  have h : ∀ i, (c.constraints s key ω δ b degree ch).map (eval (ω ^ i)) =
      constraints ch.beta ch.gamma δ (degree - 2) (rowEnv s key c ω ch.theta (-((b : ℤ) + 1)) (ω ^ i)) := by
    intro i
    have h := map_constraints (evalRingHom (ω ^ i)) (C ch.beta) (C ch.gamma) (C δ) (degree - 2)
      (c.env s key ω ch.theta (-((b : ℤ) + 1)))
    simp only [coe_evalRingHom, eval_C] at h
    exact h
  simp only [← h, List.mem_map, forall_exists_index, and_imp, forall_apply_eq_imp_iff₂]
  exact ⟨fun H i hi p hp => H p hp i hi, fun H p hp i hi => H i hi p hp⟩

theorem rowL_key {u : ℕ} (hsel : key.Selects ω n u) {j : ℕ} (hj : j < n) :
    (rowL u j : LValues F).first = (dpoly key.lFirst).eval (ω ^ j) ∧ (rowL u j : LValues F).last = (dpoly key.lLast).eval (ω ^ j) ∧
      (rowL u j : LValues F).active = (dpoly key.lActive).eval (ω ^ j) := by
  refine ⟨(hsel.first j hj).symm, (hsel.last j hj).symm, ?_⟩
  rw [hsel.active j hj, LValues.active, rowL]
  simp only
  rcases lt_trichotomy j u with h | h | h
  · rw [if_neg (by omega), if_neg (by omega), if_pos h]; ring
  · rw [if_pos h, if_neg (by omega), if_neg (by omega)]; ring
  · rw [if_neg (by omega), if_pos h, if_neg (by omega)]; ring

omit [Field F] in
theorem rowOf_map {α : Type*} (l : List α) (f : α → List F) (g : α → F) {j : ℕ} (h : ∀ a ∈ l, (f a)[j]? = some (g a)) :
    rowOf (l.map f) j = some (l.map g) := by
  rw [rowOf]
  induction l with
  | nil => rfl
  | cons a l ih =>
    rw [List.map_cons, List.mapM_cons, h a (by simp), ih fun a ha => h a (by simp [ha])]; rfl

/-- The permutation argument in the rows. -/
theorem perm_rows (hω : ω ^ n = 1) (hb : b + 2 ≤ n) (hf : c.Fits s n degree) (hk : key.Fits s n)
    (hsel : key.Selects ω n (n - (b + 1))) (h0 : c.products ≠ []) (hlen : 0 < degree - 2)
    (hcols : s.columns.length < 2 ^ 64) (β γ δ θ : F) :
    (∀ j < n, ∀ v ∈ permConstraints β γ δ (degree - 2) (rowEnv s key c ω θ (-((b : ℤ) + 1)) (ω ^ j)), v = 0) ↔
      PermHolds n (n - (b + 1)) (degree - 2) ω δ β γ
        (s.columns.map fun k => ((rowTable ω n c.polys).columns k.kind.1).getD k.kind.2 []) (key.sigmas.map (onRows ω n))
        (c.products.map (onRows ω n)) := by
  have hω0 : ω ≠ 0 := by
    rintro rfl
    rw [zero_pow (by omega)] at hω
    exact zero_ne_one hω
  refine forall_congr' fun j => forall_congr' fun hj => ?_
  obtain ⟨l1, l2, l3⟩ := rowL_key hsel hj
  have r1 : rowOf (s.columns.map fun k => ((rowTable ω n c.polys).columns k.kind.1).getD k.kind.2 []) j =
      some (s.columns.map fun k => (colPolys c.polys k.kind.1 k.kind.2).eval (ω ^ j)) := by
    refine rowOf_map _ _ _ fun k hk => ?_
    have hk' := hf.keys k hk
    rw [rowTable_columns, List.getD_eq_getElem?_getD, List.getElem?_map, List.getElem?_eq_getElem hk', Option.map_some,
      Option.getD_some, onRows_get _ hj, colPolys, List.getD_eq_getElem _ _ hk']
  have r2 : rowOf (key.sigmas.map (onRows ω n)) j = some (key.sigmas.map fun p => (dpoly p).eval (ω ^ j)) :=
    rowOf_map _ _ _ fun k hk => onRows_get _ hj
  have r3 : ∀ i, rowOf (c.products.map (onRows ω n)) (i % n) = some (c.products.map fun p => (dpoly p).eval (ω ^ i)) :=
    fun i => rowOf_map _ _ _ fun k hk => by rw [onRows_get _ (Nat.mod_lt _ (by omega)), pow_mod hω]
  have r3' : rowOf (c.products.map (onRows ω n)) j = some (c.products.map fun p => (dpoly p).eval (ω ^ j)) :=
    rowOf_map _ _ _ fun k hk => onRows_get _ hj
  have hr : ω ^ (-((b : ℤ) + 1)) * ω ^ j = ω ^ (j + (n - (b + 1))) := by
    rw [← zpow_natCast ω j, ← zpow_add₀ hω0, ← zpow_natCast, Nat.cast_add, Nat.cast_sub (by omega), zpow_add₀ hω0 _ (j : ℤ),
      zpow_add₀ hω0, zpow_sub₀ hω0, zpow_natCast ω n, hω, zpow_neg]
    push_cast
    ring
  have hp := perm_core (ω := ω) (x := ω ^ j) (r := -((b : ℤ) + 1)) (l := rowL (n - (b + 1)) j) hf hk h0 hlen hcols l1 l2 l3
    β γ δ θ
    (zLast := ((c.products.map fun p => (dpoly p).eval (ω ^ (j + (n - (b + 1))))).dropLast).map some ++ [none]) (by
      intro i hi
      rw [List.getElem?_append_left (by simp; omega), List.getElem?_map, List.getElem?_dropLast, if_pos (by simp; omega),
        List.getElem?_map, List.getElem?_eq_getElem (by omega), hr, List.getD_eq_getElem _ _ (by omega)]
      rfl)
  rw [show ω * ω ^ j = ω ^ (j + 1) by rw [pow_succ]; ring] at hp
  constructor
  · intro h
    exact ⟨_, _, _, _, _, _, r1, r2, r3', r3 _, r3 _, hp, h⟩
  · rintro ⟨v, s', z, zn, zl, es, e1, e2, e3, e4, e5, e6, e7⟩
    rw [r1] at e1; rw [r2] at e2; rw [r3'] at e3; rw [r3] at e4 e5
    cases e1; cases e2; cases e3; cases e4; cases e5
    rw [hp] at e6
    cases e6
    exact e7

/-- All constraints in the rows. -/
theorem rows_iff (hω : ω ^ n = 1) (hb : b + 2 ≤ n) (hn' : n ≤ 2 ^ 30) (hf : c.Fits s n degree) (hk : key.Fits s n)
    (hsel : key.Selects ω n (n - (b + 1))) (hlen : 0 < degree - 2)
    (hcols : s.columns.length < 2 ^ 64) (δ : F) (ch : Challenges F) :
    (∀ p ∈ c.constraints s key ω δ b degree ch, ∀ i < n, p.eval (ω ^ i) = 0) ↔
      (∀ e ∈ s.gates.flatten, ∀ i < n, rowValue (rowTable ω n c.polys) (i : ℕ) 1 n e = 0) ∧
      (c.products ≠ [] → PermHolds n (n - (b + 1)) (degree - 2) ω δ ch.beta ch.gamma
        (s.columns.map fun k => ((rowTable ω n c.polys).columns k.kind.1).getD k.kind.2 []) (key.sigmas.map (onRows ω n))
        (c.products.map (onRows ω n))) ∧
      (∀ (i : ℕ) a l, s.lookups[i]? = some a → c.lookups[i]? = some l →
        LookupHolds n (n - (b + 1)) ch.beta ch.gamma (compressRows (rowTable ω n c.polys) n ch.theta a.inputs)
          (compressRows (rowTable ω n c.polys) n ch.theta a.targets) (onRows ω n l.input) (onRows ω n l.table)
          (onRows ω n l.product)) ∧
      ∀ (i : ℕ) a z, s.shuffles[i]? = some a → c.shuffles[i]? = some z →
        ShuffleHolds n (n - (b + 1)) ch.gamma (compressRows (rowTable ω n c.polys) n ch.theta a.inputs)
          (compressRows (rowTable ω n c.polys) n ch.theta a.targets) (onRows ω n z) := by
  have hn : 0 < n := by omega
  have hω0 : ω ≠ 0 := by
    rintro rfl
    rw [zero_pow (by omega)] at hω
    exact zero_ne_one hω
  rw [constraints_rows]
  have hsplit : ∀ E : Env F, (∀ v ∈ constraints ch.beta ch.gamma δ (degree - 2) E, v = 0) ↔
      (∀ v ∈ E.gates, v = 0) ∧ (∀ v ∈ permConstraints ch.beta ch.gamma δ (degree - 2) E, v = 0) ∧
      (∀ l ∈ E.lookups, ∀ v ∈ lookupConstraints ch.beta ch.gamma E l, v = 0) ∧
      ∀ l ∈ E.shuffles, ∀ v ∈ shuffleConstraints ch.gamma E l, v = 0 := by
    intro E
    simp only [constraints, List.mem_append, List.mem_flatMap]
    constructor
    · exact fun h => ⟨fun v hv => h v (Or.inl (Or.inl (Or.inl hv))), fun v hv => h v (Or.inl (Or.inl (Or.inr hv))),
        fun l hl v hv => h v (Or.inl (Or.inr ⟨l, hl, hv⟩)), fun l hl v hv => h v (Or.inr ⟨l, hl, hv⟩)⟩
    · rintro ⟨h1, h2, h3, h4⟩ v (((hv | hv) | ⟨l, hl, hv⟩) | ⟨l, hl, hv⟩)
      exacts [h1 v hv, h2 v hv, h3 l hl v hv, h4 l hl v hv]
  simp only [hsplit]
  have hprev : ∀ j < n, ω⁻¹ * ω ^ j = ω ^ ((j + n - 1) % n) := by
    intro j hj
    rw [pow_mod hω, inv_mul_eq_iff_eq_mul₀ hω0, ← pow_succ', show j + n - 1 + 1 = j + n by omega, pow_add, hω, mul_one]
  have hgates : (∀ j < n, ∀ v ∈ (rowEnv s key c ω ch.theta (-((b : ℤ) + 1)) (ω ^ j)).gates, v = 0) ↔
      ∀ e ∈ s.gates.flatten, ∀ i < n, rowValue (rowTable ω n c.polys) (i : ℕ) 1 n e = 0 := by
    have : ∀ j, (rowEnv s key c ω ch.theta (-((b : ℤ) + 1)) (ω ^ j)).gates =
        s.gates.flatten.map fun e => (exprPoly ω c.polys e).eval (ω ^ j) := by
      intro j; simp [rowEnv, Env.map, Circuit.env, Function.comp_def]
    simp only [this, List.mem_map, forall_exists_index, and_imp, forall_apply_eq_imp_iff₂]
    constructor
    · intro h e he i hi
      rw [rowTable_value hω hn hn' hf (exprs_gates he) hi]; exact h i hi e he
    · intro h j hj e he
      rw [← rowTable_value hω hn hn' hf (exprs_gates he) hj]; exact h e he j hj
  have hperm : (∀ j < n, ∀ v ∈ permConstraints ch.beta ch.gamma δ (degree - 2)
        (rowEnv s key c ω ch.theta (-((b : ℤ) + 1)) (ω ^ j)), v = 0) ↔
      (c.products ≠ [] → PermHolds n (n - (b + 1)) (degree - 2) ω δ ch.beta ch.gamma
        (s.columns.map fun k => ((rowTable ω n c.polys).columns k.kind.1).getD k.kind.2 []) (key.sigmas.map (onRows ω n))
        (c.products.map (onRows ω n))) := by
    by_cases h0 : c.products = []
    · refine ⟨fun _ h => absurd h0 h, fun _ j _ v hv => ?_⟩
      rw [permConstraints, if_pos (show (rowEnv s key c ω ch.theta (-((b : ℤ) + 1)) (ω ^ j)).sets = 0 by
        show c.products.length = 0; rw [h0]; rfl)] at hv
      simp at hv
    · rw [perm_rows hω hb hf hk hsel h0 hlen hcols]
      exact ⟨fun h _ => h, fun h => h h0⟩
  have hlook : (∀ j < n, ∀ l ∈ (rowEnv s key c ω ch.theta (-((b : ℤ) + 1)) (ω ^ j)).lookups, ∀ v ∈
        lookupConstraints ch.beta ch.gamma (rowEnv s key c ω ch.theta (-((b : ℤ) + 1)) (ω ^ j)) l, v = 0) ↔
      (∀ (i : ℕ) a l, s.lookups[i]? = some a → c.lookups[i]? = some l →
        LookupHolds n (n - (b + 1)) ch.beta ch.gamma (compressRows (rowTable ω n c.polys) n ch.theta a.inputs)
          (compressRows (rowTable ω n c.polys) n ch.theta a.targets) (onRows ω n l.input) (onRows ω n l.table)
          (onRows ω n l.product)) := by
    have key1 : ∀ (i : ℕ) a l, s.lookups[i]? = some a → c.lookups[i]? = some l → ∀ j < n,
        (rowEnv s key c ω ch.theta (-((b : ℤ) + 1)) (ω ^ j)).lookups[i]? = some
          ⟨(dpoly l.product).eval (ω ^ j), (dpoly l.product).eval (ω ^ ((j + 1) % n)), (dpoly l.input).eval (ω ^ j),
            (dpoly l.input).eval (ω ^ ((j + n - 1) % n)), (dpoly l.table).eval (ω ^ j),
            (compressPoly ω ch.theta c.polys a.inputs).eval (ω ^ j),
            (compressPoly ω ch.theta c.polys a.targets).eval (ω ^ j)⟩ := by
      intro i a l ha hl j hj
      rw [rowEnv_lookup ha hl, eval_rotated, eval_rotated, zpow_one, zpow_neg, zpow_one, hprev j hj, pow_mod hω (j + 1),
        pow_succ']
    have key2 : ∀ (a : Argument F) (l : LookupCosets F) (j : ℕ), j < n →
        lookupConstraints ch.beta ch.gamma (rowEnv s key c ω ch.theta (-((b : ℤ) + 1)) (ω ^ j))
          ⟨(dpoly l.product).eval (ω ^ j), (dpoly l.product).eval (ω ^ ((j + 1) % n)), (dpoly l.input).eval (ω ^ j),
            (dpoly l.input).eval (ω ^ ((j + n - 1) % n)), (dpoly l.table).eval (ω ^ j),
            (compressPoly ω ch.theta c.polys a.inputs).eval (ω ^ j),
            (compressPoly ω ch.theta c.polys a.targets).eval (ω ^ j)⟩ =
        lookupEvaluate (rowL (n - (b + 1)) j) ch.beta ch.gamma ((compressPoly ω ch.theta c.polys a.inputs).eval (ω ^ j))
          ((compressPoly ω ch.theta c.polys a.targets).eval (ω ^ j)) ((dpoly l.input).eval (ω ^ j))
          ((dpoly l.table).eval (ω ^ j)) ((dpoly l.input).eval (ω ^ ((j + n - 1) % n))) ((dpoly l.product).eval (ω ^ j))
          ((dpoly l.product).eval (ω ^ ((j + 1) % n))) := by
      intro a l j hj
      obtain ⟨l1, l2, l3⟩ := rowL_key hsel hj
      rw [lookupEvaluate, l1, l2, l3]
      rfl
    constructor
    · intro h i a l ha hl j hj
      have ham := List.mem_of_getElem? ha
      refine ⟨_, _, _, _, _, _, _, compressRows_get hω hn hn' hf (fun e he => exprs_lookup ham (by simp [he])) ch.theta hj,
        compressRows_get hω hn hn' hf (fun e he => exprs_lookup ham (by simp [he])) ch.theta hj, onRows_get _ hj,
        onRows_get _ hj, onRows_get _ (Nat.mod_lt _ hn), onRows_get _ hj, onRows_get _ (Nat.mod_lt _ hn), ?_⟩
      rw [← key2 a l j hj]
      exact h j hj _ (List.mem_of_getElem? (key1 i a l ha hl j hj))
    · intro h j hj l' hl'
      obtain ⟨i, hi, rfl⟩ := List.getElem_of_mem hl'
      have hi' : i < s.lookups.length ∧ i < c.lookups.length := by simpa [rowEnv, Env.map, Circuit.env] using hi
      have ha : s.lookups[i]? = some s.lookups[i] := List.getElem?_eq_getElem hi'.1
      have hl : c.lookups[i]? = some c.lookups[i] := List.getElem?_eq_getElem hi'.2
      have ham := List.mem_of_getElem? ha
      have e := key1 i _ _ ha hl j hj
      rw [List.getElem?_eq_getElem hi, Option.some_inj] at e
      rw [e, key2 _ _ j hj]
      obtain ⟨a, s', a', s'', ap, zc, zn, h1, h2, h3, h4, h5, h6, h7, h8⟩ := h i _ _ ha hl j hj
      rw [compressRows_get hω hn hn' hf (fun e he => exprs_lookup ham (by simp [he])) ch.theta hj] at h1 h2
      rw [onRows_get _ hj] at h3 h4 h6
      rw [onRows_get _ (Nat.mod_lt _ hn)] at h5 h7
      cases h1; cases h2; cases h3; cases h4; cases h5; cases h6; cases h7
      exact h8
  have hshuf : (∀ j < n, ∀ l ∈ (rowEnv s key c ω ch.theta (-((b : ℤ) + 1)) (ω ^ j)).shuffles, ∀ v ∈
        shuffleConstraints ch.gamma (rowEnv s key c ω ch.theta (-((b : ℤ) + 1)) (ω ^ j)) l, v = 0) ↔
      ∀ (i : ℕ) a z, s.shuffles[i]? = some a → c.shuffles[i]? = some z →
        ShuffleHolds n (n - (b + 1)) ch.gamma (compressRows (rowTable ω n c.polys) n ch.theta a.inputs)
          (compressRows (rowTable ω n c.polys) n ch.theta a.targets) (onRows ω n z) := by
    have key1 : ∀ (i : ℕ) a l, s.shuffles[i]? = some a → c.shuffles[i]? = some l → ∀ j < n,
        (rowEnv s key c ω ch.theta (-((b : ℤ) + 1)) (ω ^ j)).shuffles[i]? = some
          ⟨(dpoly l).eval (ω ^ j), (dpoly l).eval (ω ^ ((j + 1) % n)),
            (compressPoly ω ch.theta c.polys a.inputs).eval (ω ^ j),
            (compressPoly ω ch.theta c.polys a.targets).eval (ω ^ j)⟩ := by
      intro i a l ha hl j hj
      rw [rowEnv_shuffle ha hl, eval_rotated, zpow_one, pow_mod hω (j + 1), pow_succ']
    have key2 : ∀ (a : Argument F) (l : List F) (j : ℕ), j < n →
        shuffleConstraints ch.gamma (rowEnv s key c ω ch.theta (-((b : ℤ) + 1)) (ω ^ j))
          ⟨(dpoly l).eval (ω ^ j), (dpoly l).eval (ω ^ ((j + 1) % n)),
            (compressPoly ω ch.theta c.polys a.inputs).eval (ω ^ j),
            (compressPoly ω ch.theta c.polys a.targets).eval (ω ^ j)⟩ =
        shuffleEvaluate (rowL (n - (b + 1)) j) ch.gamma ((compressPoly ω ch.theta c.polys a.inputs).eval (ω ^ j))
          ((compressPoly ω ch.theta c.polys a.targets).eval (ω ^ j)) ((dpoly l).eval (ω ^ j))
          ((dpoly l).eval (ω ^ ((j + 1) % n))) := by
      intro a l j hj
      obtain ⟨l1, l2, l3⟩ := rowL_key hsel hj
      rw [shuffleEvaluate, l1, l2, l3]
      rfl
    constructor
    · intro h i a l ha hl j hj
      have ham := List.mem_of_getElem? ha
      refine ⟨_, _, _, _, compressRows_get hω hn hn' hf (fun e he => exprs_shuffle ham (by simp [he])) ch.theta hj,
        compressRows_get hω hn hn' hf (fun e he => exprs_shuffle ham (by simp [he])) ch.theta hj, onRows_get _ hj,
        onRows_get _ (Nat.mod_lt _ hn), ?_⟩
      rw [← key2 a l j hj]
      exact h j hj _ (List.mem_of_getElem? (key1 i a l ha hl j hj))
    · intro h j hj l' hl'
      obtain ⟨i, hi, rfl⟩ := List.getElem_of_mem hl'
      have hi' : i < s.shuffles.length ∧ i < c.shuffles.length := by simpa [rowEnv, Env.map, Circuit.env] using hi
      have ha : s.shuffles[i]? = some s.shuffles[i] := List.getElem?_eq_getElem hi'.1
      have hl : c.shuffles[i]? = some c.shuffles[i] := List.getElem?_eq_getElem hi'.2
      have ham := List.mem_of_getElem? ha
      have e := key1 i _ _ ha hl j hj
      rw [List.getElem?_eq_getElem hi, Option.some_inj] at e
      rw [e, key2 _ _ j hj]
      obtain ⟨a, s', zc, zn, h1, h2, h3, h4, h5⟩ := h i _ _ ha hl j hj
      rw [compressRows_get hω hn hn' hf (fun e he => exprs_shuffle ham (by simp [he])) ch.theta hj] at h1 h2
      rw [onRows_get _ hj] at h3
      rw [onRows_get _ (Nat.mod_lt _ hn)] at h4
      cases h1; cases h2; cases h3; cases h4
      exact h5
  rw [← hgates, ← hperm, ← hlook, ← hshuf]
  constructor
  · exact fun h => ⟨fun j hj => (h j hj).1, fun j hj => (h j hj).2.1, fun j hj => (h j hj).2.2.1, fun j hj => (h j hj).2.2.2⟩
  · exact fun h j hj => ⟨h.1 j hj, h.2.1 j hj, h.2.2.1 j hj, h.2.2.2 j hj⟩

end
end Tachyon.CircuitPoly
