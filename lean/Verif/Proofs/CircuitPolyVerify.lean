import Verif.Proofs.CircuitPolyColumn
import Verif.Proofs.GrandProduct
/-! Lemmas about the circuit polynomial: the side of the verifier. -/
universe u
namespace Tachyon.CircuitPoly
open Plonk FFT Vanishing Tachyon.Group Polynomial Poly Props

theorem mapM_congr' {α β : Type*} {f g : α → Option β} : ∀ {l : List α}, (∀ a ∈ l, f a = g a) → l.mapM f = l.mapM g
  | [], _ => rfl
  | a :: l, h => by
    rw [List.mapM_cons, List.mapM_cons, h a (by simp), mapM_congr' (l := l) fun a ha => h a (by simp [ha])]

theorem mapM_of_get {α β : Type*} {f : α → Option β} : ∀ {l : List α} {l' : List β}, l.length = l'.length →
    (∀ i < l.length, ∃ a, l[i]? = some a ∧ f a = l'[i]?) → l.mapM f = some l'
  | [], [], _, _ => rfl
  | [], _ :: _, h, _ => by simp at h
  | _ :: _, [], h, _ => by simp at h
  | a :: l, b :: l', h, hf => by
    obtain ⟨a', h1, h2⟩ := hf 0 (by simp)
    simp only [List.getElem?_cons_zero, Option.some.injEq] at h1 h2
    subst h1
    rw [List.mapM_cons, h2, mapM_of_get (l := l) (l' := l') (by simpa using h) fun i hi => by
      simpa using hf (i + 1) (by simpa using hi)]
    rfl

section
variable {F : Type u} [Field F]

theorem permEvaluate_congr (l : GrandProduct.LValues F) (x beta gamma delta : F) (len : ℕ) (cols subst z zNext : List F)
    {zLast zLast' : List (Option F)} (h : ∀ i < z.length - 1, zLast[i]? = zLast'[i]?) :
    GrandProduct.permEvaluate l x beta gamma delta len cols subst z zNext zLast =
      GrandProduct.permEvaluate l x beta gamma delta len cols subst z zNext zLast' := by
  have : (List.range (z.length - 1)).mapM (GrandProduct.linkEvaluate l z zLast) =
      (List.range (z.length - 1)).mapM (GrandProduct.linkEvaluate l z zLast') := by
    refine mapM_congr' fun i hi => ?_
    rw [List.mem_range] at hi
    rw [GrandProduct.linkEvaluate, GrandProduct.linkEvaluate, h i hi]
  rw [GrandProduct.permEvaluate, GrandProduct.permEvaluate, this]

theorem queryIndex_eq {queries : List (ℕ × ℤ)} {q : ℕ × ℤ} (h : q ∈ queries) :
    ∃ j, queryIndex queries q.1 q.2 = some j ∧ queries[j]? = some q := by
  rw [queryIndex]
  cases hj : queries.findIdx? fun p => decide (p = (q.1, q.2)) with
  | none =>
    rw [List.findIdx?_eq_none_iff] at hj
    simpa using hj q h
  | some j =>
    obtain ⟨h1, h2, -⟩ := List.findIdx?_eq_some_iff_getElem.1 hj
    refine ⟨j, rfl, ?_⟩
    rw [List.getElem?_eq_getElem h1]
    simpa using h2

variable {s : System F} {key : ProvingKey F} {c : Circuit F} {n degree : ℕ} {ω x : F} {r : ℤ} {v : CircuitEvals F}

/-- The evaluation of an expression. -/
theorem CircuitEvals.Of.expr (hv : v.Of s ω x r c) (hf : c.Fits s n degree) (hq : s.Queried) {e : Expr F} (he : e ∈ s.exprs) :
    evalVerifying v.evals e = some ((exprPoly ω c.polys e).eval x) := by
  refine C70_verifying v.evals (colPolys c.polys) (fun i => c.polys.challenges.getD i 0) ω x e ?_
  have h : Legal (fun k q => ∃ i, q.index = some i ∧ (s.queries k)[i]? = some (q.column, q.rotation))
      (fun i => i < c.polys.challenges.length) e := by
    have h1 := hf.exprs e he
    have h2 := hq.exprs e he
    revert h1 h2
    generalize he' : e = e'
    clear he' he
    induction e' with
    | constant => exact fun _ _ => trivial
    | selector => exact fun h _ => h
    | fixed | advice | inst => exact fun _ h => h
    | challenge => exact fun h _ => h
    | neg e ih => exact ih
    | sum a b iha ihb => exact fun h h' => ⟨iha h.1 h'.1, ihb h.2 h'.2⟩
    | prod a b iha ihb => exact fun h h' => ⟨iha h.1 h'.1, ihb h.2 h'.2⟩
    | scaled e _ ih => exact ih
  classical
  refine Legal.mono (fun k q hq => ?_) (fun i hi => ?_) e h
  · obtain ⟨i, h1, h2⟩ := hq
    exact ⟨i, _, h1, by rw [hv.columns, List.getElem?_map, h2]; rfl, rfl⟩
  · rw [hv.challenges, List.getElem?_eq_getElem hi, List.getD_eq_getElem _ _ hi]

theorem CircuitEvals.Of.getEval (hv : v.Of s ω x r c) (hq : s.Queried) {k : Key} (hk : k ∈ s.columns) :
    getEval s v.evals k = some ((colPolys c.polys k.kind.1 k.kind.2).eval x) := by
  obtain ⟨j, h1, h2⟩ := queryIndex_eq (hq.keys k hk)
  have h3 : (v.evals.of k.kind.1)[j]? = some ((colPolys c.polys k.kind.1 k.kind.2).eval x) := by
    rw [hv.columns, List.getElem?_map, h2, Option.map_some, zpow_zero, one_mul]
  cases k with
  | fixed i | advice i | inst i =>
    exact (Option.bind_eq_some_iff.2 ⟨j, h1, h3⟩)

theorem eval_rotated (ω : F) (r : ℤ) (p : List F) (x : F) : (rotated ω r p).eval x = (dpoly p).eval (ω ^ r * x) := by
  rw [rotated, eval_comp, eval_mul, eval_C, eval_X]

/-- The gates. -/
theorem verifier_gates (hv : v.Of s ω x r c) (hf : c.Fits s n degree) (hq : s.Queried) (θ : F) (r' : ℤ) :
    (s.gates.flatten).mapM (evalVerifying v.evals) = some (rowEnv s key c ω θ r' x).gates := by
  rw [mapM_some (g := fun e => (exprPoly ω c.polys e).eval x) fun e he => hv.expr hf hq (exprs_gates he)]
  simp [rowEnv, Env.map, Circuit.env, Function.comp_def]

theorem verifier_compressed (hv : v.Of s ω x r c) (hf : c.Fits s n degree) (hq : s.Queried) (θ : F) {es : List (Expr F)}
    (hes : ∀ e ∈ es, e ∈ s.exprs) : compressed v.evals θ es = some ((compressPoly ω θ c.polys es).eval x) := by
  rw [compressed, mapM_some (g := fun e => (exprPoly ω c.polys e).eval x) fun e he => hv.expr hf hq (hes e he)]
  have h := map_combination (evalRingHom x) (C θ) (es.map (exprPoly ω c.polys))
  rw [coe_evalRingHom, List.map_map, eval_C] at h
  rw [compressPoly, combination, h]
  exact congrArg some (fold_zero θ (es.map fun e => (exprPoly ω c.polys e).eval x))

/-- The permutation argument. -/
theorem perm_core (hf : c.Fits s n degree) (hk : key.Fits s n) (h0 : c.products ≠ [])
    (hlen : 0 < degree - 2) (hcols : s.columns.length < 2 ^ 64) {l : GrandProduct.LValues F}
    (h1 : l.first = (dpoly key.lFirst).eval x) (h2 : l.last = (dpoly key.lLast).eval x)
    (h3 : l.active = (dpoly key.lActive).eval x) (β γ δ θ : F) {zLast : List (Option F)}
    (hz : ∀ i, i + 1 < c.products.length →
      zLast[i]? = some (some ((dpoly (c.products.getD i [])).eval (ω ^ r * x)))) :
    GrandProduct.permEvaluate l x β γ δ (degree - 2)
        (s.columns.map fun k => (colPolys c.polys k.kind.1 k.kind.2).eval x) (key.sigmas.map fun p => (dpoly p).eval x)
        (c.products.map fun p => (dpoly p).eval x) (c.products.map fun p => (dpoly p).eval (ω * x)) zLast =
      some (permConstraints β γ δ (degree - 2) (rowEnv s key c ω θ r x)) := by
  classical
  set E := rowEnv s key c ω θ r x with hE
  have hsets : E.sets = c.products.length := rfl
  have hpos : 0 < c.products.length := List.length_pos_iff.2 h0
  rw [permConstraints, if_neg (by omega)]
  have hc0 : 0 < s.columns.length := by
    have := hf.sets
    rcases Nat.eq_zero_or_pos s.columns.length with h | h
    · rw [h, GrandProduct.chunkNum, Nat.div_eq_of_lt (by omega)] at this; omega
    · exact h
  have e1 : s.columns.map (fun k => (colPolys c.polys k.kind.1 k.kind.2).eval x) = (List.range s.columns.length).map E.cols := by
    refine List.ext_getElem (by simp) fun i hi _ => ?_
    simp only [List.length_map] at hi
    simp [hE, rowEnv, Env.map, Circuit.env, List.getElem?_eq_getElem hi]
  have e2 : key.sigmas.map (fun p => (dpoly p).eval x) = (List.range s.columns.length).map E.sigmas := by
    refine List.ext_getElem (by simp [hk.numSigmas]) fun i hi _ => ?_
    simp only [List.length_map] at hi
    simp [hE, rowEnv, Env.map, Circuit.env, List.getElem?_eq_getElem hi]
  have e3 : (c.products.map fun p => (dpoly p).eval x) = (List.range c.products.length).map E.z := by
    refine List.ext_getElem (by simp) fun i hi _ => ?_
    simp only [List.length_map] at hi
    simp [hE, rowEnv, Env.map, Circuit.env, List.getElem?_eq_getElem hi]
  have e4 : (c.products.map fun p => (dpoly p).eval (ω * x)) = (List.range c.products.length).map E.zNext := by
    refine List.ext_getElem (by simp) fun i hi _ => ?_
    simp only [List.length_map] at hi
    simp [hE, rowEnv, Env.map, Circuit.env, List.getElem?_eq_getElem hi, eval_rotated]
  rw [permEvaluate_congr (zLast' := (((List.range c.products.length).map E.zLast).dropLast).map some ++ [none]), e1, e2, e3,
    e4, GrandProduct.permEvaluate_eq hlen hc0 hcols l x β γ δ E.cols E.sigmas E.z E.zNext E.zLast _ hf.sets]
  · have hprod : ∀ (f : ℕ → F) (t : ℕ), ∏ i ∈ Finset.range (GrandProduct.width s.columns.length (degree - 2) t),
        f (t * (degree - 2) + i) = ∏ j ∈ Finset.Ico (t * (degree - 2)) (min ((t + 1) * (degree - 2)) s.columns.length), f j := by
      intro f t
      rw [Finset.prod_Ico_eq_prod_range]
      congr 2
      have : (t + 1) * (degree - 2) = t * (degree - 2) + (degree - 2) := by ring
      rw [GrandProduct.width]
      omega
    congr 2
    · rw [h1, h2]; rfl
    · refine List.map_congr_left fun t _ => ?_
      rw [hprod (fun j => E.cols j + β * E.sigmas j + γ), hprod (fun j => E.cols j + β * (δ ^ j * x) + γ), h3]
      have hx : E.x = x := by simp [hE, rowEnv, Env.map, Circuit.env]
      simp only [hx, mul_assoc]
      rfl
  · intro i hi
    rw [List.length_map] at hi
    rw [hz i (by omega), List.getElem?_append_left (by simp; omega),
      List.getElem?_map, List.getElem?_dropLast, if_pos (by simp; omega), List.getElem?_map,
      List.getElem?_range (by omega)]
    simp [hE, rowEnv, Env.map, Circuit.env, eval_rotated]

theorem verifier_perm (hv : v.Of s ω x r c) (hf : c.Fits s n degree) (hk : key.Fits s n) (hq : s.Queried)
    (hlen : 0 < degree - 2) (hcols : s.columns.length < 2 ^ 64) {l : GrandProduct.LValues F}
    (h1 : l.first = (dpoly key.lFirst).eval x) (h2 : l.last = (dpoly key.lLast).eval x)
    (h3 : l.active = (dpoly key.lActive).eval x) (β γ δ θ : F) :
    (if v.products.isEmpty then some [] else (s.columns.mapM (getEval s v.evals)).bind fun cols =>
      GrandProduct.permEvaluate l x β γ δ (degree - 2) cols (key.sigmas.map fun p => (dpoly p).eval x) v.products
        v.productsNext v.productsLast) = some (permConstraints β γ δ (degree - 2) (rowEnv s key c ω θ r x)) := by
  by_cases h0 : c.products = []
  · rw [if_pos (by rw [hv.products, h0]; rfl), permConstraints,
      if_pos (show (rowEnv s key c ω θ r x).sets = 0 by show c.products.length = 0; rw [h0]; rfl)]
  rw [if_neg (by rw [hv.products]; simpa using h0),
    mapM_some (g := fun k => (colPolys c.polys k.kind.1 k.kind.2).eval x) fun k hk => hv.getEval hq hk,
    Option.bind_some, hv.products, hv.productsNext]
  exact perm_core hf hk h0 hlen hcols h1 h2 h3 β γ δ θ hv.productsLast

/-- The lookups. -/
theorem verifier_lookups (hv : v.Of s ω x r c) (hf : c.Fits s n degree) (hq : s.Queried) {l : GrandProduct.LValues F}
    (h1 : l.first = (dpoly key.lFirst).eval x) (h2 : l.last = (dpoly key.lLast).eval x)
    (h3 : l.active = (dpoly key.lActive).eval x) (β γ θ : F) :
    (v.lookups.zipIdx.mapM fun p => (s.lookups[p.2]?).bind fun a =>
        (compressed v.evals θ a.inputs).bind fun input => (compressed v.evals θ a.targets).map fun table =>
          GrandProduct.lookupEvaluate l β γ input table p.1.input p.1.table p.1.inputPrev p.1.product
            p.1.productNext) =
      some ((rowEnv s key c ω θ r x).lookups.map (lookupConstraints β γ (rowEnv s key c ω θ r x))) := by
  have hnum := hf.numLookups
  refine mapM_of_get (by simp [rowEnv, Env.map, Circuit.env, hv.lookups, hnum]) fun i hi => ?_
  have hi' : i < c.lookups.length := by simpa [hv.lookups] using hi
  have ha : s.lookups[i]? = some s.lookups[i] := List.getElem?_eq_getElem (by omega)
  have hl : c.lookups[i]? = some c.lookups[i] := List.getElem?_eq_getElem hi'
  have ham : s.lookups[i] ∈ s.lookups := List.getElem_mem _
  refine ⟨(⟨(dpoly c.lookups[i].product).eval x, (dpoly c.lookups[i].product).eval (ω * x),
    (dpoly c.lookups[i].input).eval x, (dpoly c.lookups[i].input).eval (ω⁻¹ * x), (dpoly c.lookups[i].table).eval x⟩, i), ?_, ?_⟩
  · simp [List.getElem?_zipIdx, hv.lookups, hl]
  · rw [List.getElem?_map, rowEnv_lookup ha hl, ha, Option.bind_some,
      verifier_compressed hv hf hq θ fun e he => exprs_lookup ham (by simp [he]), Option.bind_some,
      verifier_compressed hv hf hq θ fun e he => exprs_lookup ham (by simp [he])]
    simp only [Option.map_some, GrandProduct.lookupEvaluate, lookupConstraints, h1, h2, h3, eval_rotated, zpow_one,
      zpow_neg]
    rfl

/-- The shuffles. -/
theorem verifier_shuffles (hv : v.Of s ω x r c) (hf : c.Fits s n degree) (hq : s.Queried) {l : GrandProduct.LValues F}
    (h1 : l.first = (dpoly key.lFirst).eval x) (h2 : l.last = (dpoly key.lLast).eval x)
    (h3 : l.active = (dpoly key.lActive).eval x) (γ θ : F) :
    (v.shuffles.zipIdx.mapM fun p => (s.shuffles[p.2]?).bind fun a =>
        (compressed v.evals θ a.inputs).bind fun input => (compressed v.evals θ a.targets).map fun shuffle =>
          GrandProduct.shuffleEvaluate l γ input shuffle p.1.1 p.1.2) =
      some ((rowEnv s key c ω θ r x).shuffles.map (shuffleConstraints γ (rowEnv s key c ω θ r x))) := by
  have hnum := hf.numShuffles
  refine mapM_of_get (by simp [rowEnv, Env.map, Circuit.env, hv.shuffles, hnum]) fun i hi => ?_
  have hi' : i < c.shuffles.length := by simpa [hv.shuffles] using hi
  have ha : s.shuffles[i]? = some s.shuffles[i] := List.getElem?_eq_getElem (by omega)
  have hl : c.shuffles[i]? = some c.shuffles[i] := List.getElem?_eq_getElem hi'
  have ham : s.shuffles[i] ∈ s.shuffles := List.getElem_mem _
  refine ⟨(((dpoly c.shuffles[i]).eval x, (dpoly c.shuffles[i]).eval (ω * x)), i), ?_, ?_⟩
  · simp [List.getElem?_zipIdx, hv.shuffles, hl]
  · rw [List.getElem?_map, rowEnv_shuffle ha hl, ha, Option.bind_some,
      verifier_compressed hv hf hq θ fun e he => exprs_shuffle ham (by simp [he]), Option.bind_some,
      verifier_compressed hv hf hq θ fun e he => exprs_shuffle ham (by simp [he])]
    simp only [Option.map_some, GrandProduct.shuffleEvaluate, shuffleConstraints, h1, h2, h3, eval_rotated, zpow_one]
    rfl

/-- The constraints of a circuit. -/
theorem verifierCircuit_eq (hv : v.Of s ω x r c) (hf : c.Fits s n degree) (hk : key.Fits s n) (hq : s.Queried)
    (hlen : 0 < degree - 2) (hcols : s.columns.length < 2 ^ 64) {l : GrandProduct.LValues F}
    (h1 : l.first = (dpoly key.lFirst).eval x) (h2 : l.last = (dpoly key.lLast).eval x)
    (h3 : l.active = (dpoly key.lActive).eval x) (δ : F) (ch : Challenges F) :
    verifierCircuit s l x δ ch (degree - 2) (key.sigmas.map fun p => (dpoly p).eval x) v =
      some (constraints ch.beta ch.gamma δ (degree - 2) (rowEnv s key c ω ch.theta r x)) := by
  rw [verifierCircuit, verifier_gates (key := key) hv hf hq ch.theta r, Option.bind_some,
    verifier_perm hv hf hk hq hlen hcols h1 h2 h3 ch.beta ch.gamma δ ch.theta, Option.bind_some,
    verifier_lookups hv hf hq h1 h2 h3, Option.bind_some, verifier_shuffles hv hf hq h1 h2 h3]
  rfl

end
end Tachyon.CircuitPoly
