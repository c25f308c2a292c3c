import Verif.Proofs.CircuitPolyVerify
import Verif.Props.GrandProduct
/-! Lemmas about the circuit polynomial: degrees, and the polynomials that select rows. -/
universe u
namespace Tachyon.CircuitPoly
open Plonk FFT Vanishing Tachyon.Group Polynomial Poly Props

section
variable {F : Type u} [Field F]

/-- The degree of a polynomial is at most `k` times that of a column. -/
def DegLe (D k : ℕ) (p : F[X]) : Prop := p.natDegree ≤ k * D

theorem DegLe.mono {D a b : ℕ} {p : F[X]} (h : DegLe D a p) (hab : a ≤ b) : DegLe D b p :=
  le_trans h (Nat.mul_le_mul_right _ hab)

theorem DegLe.mul {D a b : ℕ} {p q : F[X]} (hp : DegLe D a p) (hq : DegLe D b q) : DegLe D (a + b) (p * q) := by
  refine natDegree_mul_le.trans ?_
  rw [add_mul]
  exact Nat.add_le_add hp hq

theorem DegLe.add {D a : ℕ} {p q : F[X]} (hp : DegLe D a p) (hq : DegLe D a q) : DegLe D a (p + q) :=
  (natDegree_add_le _ _).trans (max_le hp hq)

theorem DegLe.sub {D a : ℕ} {p q : F[X]} (hp : DegLe D a p) (hq : DegLe D a q) : DegLe D a (p - q) :=
  (natDegree_sub_le _ _).trans (max_le hp hq)

theorem DegLe.const {D a : ℕ} (c : F) : DegLe D a (C c) := by rw [DegLe, natDegree_C]; omega

theorem DegLe.one {D a : ℕ} : DegLe D a (1 : F[X]) := by rw [DegLe, natDegree_one]; omega

theorem DegLe.prod {D : ℕ} {s : Finset ℕ} {f : ℕ → F[X]} (h : ∀ j ∈ s, DegLe D 1 (f j)) :
    DegLe D s.card (∏ j ∈ s, f j) := by
  classical
  induction s using Finset.induction_on with
  | empty => simpa using DegLe.one
  | insert j s hj ih =>
    rw [Finset.prod_insert hj, Finset.card_insert_of_notMem hj, add_comm]
    exact (h j (by simp)).mul (ih fun i hi => h i (by simp [hi]))

theorem DegLe.sum {D a : ℕ} {s : Finset ℕ} {f : ℕ → F[X]} (h : ∀ j ∈ s, DegLe D a (f j)) :
    DegLe D a (∑ j ∈ s, f j) := natDegree_sum_le_of_forall_le s f h

theorem DegLe.combination {D a : ℕ} {l : List F[X]} (h : ∀ p ∈ l, DegLe D a p) (y : F) :
    DegLe D a (combination (C y) l) := by
  refine DegLe.sum fun j hj => ?_
  rw [Finset.mem_range] at hj
  rw [List.getD_eq_getElem _ _ hj, ← C_pow]
  exact (DegLe.mul (h _ (List.getElem_mem hj)) (DegLe.const (a := 0) _))

theorem DegLe.list {n : ℕ} {p : List F} (h : p.length ≤ n) : DegLe (n - 1) 1 (dpoly p) := by
  rw [DegLe, one_mul]
  refine natDegree_le_iff_coeff_eq_zero.2 fun k hk => ?_
  rw [coeff_dpoly, List.getD_eq_getElem?_getD, List.getElem?_eq_none (by omega)]; rfl

theorem DegLe.rotated {n : ℕ} {p : List F} (h : p.length ≤ n) (ω : F) (r : ℤ) : DegLe (n - 1) 1 (rotated ω r p) := by
  rw [CircuitPoly.rotated, DegLe]
  refine natDegree_comp_le.trans ?_
  have h1 : (C (ω ^ r) * X : F[X]).natDegree ≤ 1 := (natDegree_C_mul_le _ _).trans natDegree_X_le
  have h2 : (dpoly p).natDegree ≤ 1 * (n - 1) := DegLe.list h
  calc _ ≤ (1 * (n - 1)) * 1 := Nat.mul_le_mul h2 h1
    _ = _ := by ring

variable {s : System F} {key : ProvingKey F} {c : Circuit F} {n d : ℕ} {ω : F}

theorem DegLe.column (hf : c.Fits s n d) (k : Kind) (i : ℕ) : DegLe (n - 1) 1 (colPolys c.polys k i) := by
  rw [colPolys, List.getD_eq_getElem?_getD]
  cases h : (c.polys.columns k)[i]? with
  | none => exact DegLe.list (by simp)
  | some p => exact DegLe.list (hf.columns k p (List.mem_of_getElem? h))

theorem DegLe.expr (hf : c.Fits s n d) (e : Expr F) : DegLe (n - 1) (Plonk.degree e) (exprPoly ω c.polys e) :=
  C70_degree _ _ _ _ (fun k i => by have := DegLe.column hf k i; rwa [DegLe, one_mul] at this) e

omit [Field F] in
theorem maxExprDegree_le : ∀ (es : List (Expr F)) (m : ℕ), m ≤ es.foldl (fun d e => max d (Plonk.degree e)) m ∧
    ∀ e ∈ es, Plonk.degree e ≤ es.foldl (fun d e => max d (Plonk.degree e)) m
  | [], m => ⟨le_rfl, by simp⟩
  | e :: es, m => by
    obtain ⟨h1, h2⟩ := maxExprDegree_le es (max m (Plonk.degree e))
    refine ⟨le_trans (le_max_left _ _) h1, fun e' he' => ?_⟩
    rcases List.mem_cons.1 he' with rfl | he'
    · exact le_trans (le_max_right _ _) h1
    · exact h2 e' he'

theorem DegLe.compress (hf : c.Fits s n d) (θ : F) (es : List (Expr F)) :
    DegLe (n - 1) (maxExprDegree es) (compressPoly ω θ c.polys es) := by
  refine DegLe.combination (fun p hp => ?_) θ
  obtain ⟨e, he, rfl⟩ := List.mem_map.1 hp
  exact (DegLe.expr hf e).mono ((maxExprDegree_le es 1).2 e he)

theorem le_maxOr {m : ℕ} {l : List ℕ} {a : ℕ} (h : a ∈ l) : a ≤ maxOr m l := by
  rw [maxOr]
  cases hm : l.max? with
  | none => rw [List.max?_eq_none_iff] at hm; rw [hm] at h; simp at h
  | some b => exact (List.max?_eq_some_iff.1 hm).2 a h

omit [Field F] in
/-- What the degree of the constraint system bounds. -/
theorem computeDegree_le {s : System F} {d : ℕ} (h : computeDegree s = some d) : 3 ≤ d ∧
    (∀ e ∈ s.gates.flatten, Plonk.degree e ≤ d) ∧
    (∀ a ∈ s.lookups, a.inputs.length = a.targets.length ∧ 4 ≤ d ∧
      2 + maxExprDegree a.inputs + maxExprDegree a.targets ≤ d) ∧
    ∀ a ∈ s.shuffles, 2 + max (maxExprDegree a.targets) (maxExprDegree a.inputs) ≤ d := by
  obtain ⟨ls, h1, rfl⟩ := Option.map_eq_some_iff.1 h
  refine ⟨by omega, fun e he => ?_, fun a ha => ?_, fun a ha => ?_⟩
  · have := le_maxOr (m := 0) (List.mem_map_of_mem (f := Plonk.degree) he)
    omega
  · obtain ⟨i, hi, rfl⟩ := List.getElem_of_mem ha
    have h2 := Plonk.mapM_get h1 i _ (List.getElem?_eq_getElem hi)
    rw [lookupDegree] at h2
    split at h2
    · exact absurd h2 (by
        have hl := Plonk.mapM_length h1
        rw [List.getElem?_eq_getElem (by omega)]; simp)
    · next hne =>
      have := le_maxOr (m := 1) (List.mem_of_getElem? h2)
      refine ⟨by simpa using hne, by omega, by omega⟩
  · have := le_maxOr (m := 1) (List.mem_map_of_mem (f := shuffleDegree) ha)
    rw [shuffleDegree] at this
    omega

/-- Every constraint has at most the degree of the constraint system. -/
theorem constraints_degree (hd : computeDegree s = some d) (hf : c.Fits s n d) (hk : key.Fits s n) (hn : 2 ≤ n) (δ : F)
    (blinding : ℕ) (ch : Challenges F) : ∀ p ∈ c.constraints s key ω δ blinding d ch, DegLe (n - 1) d p := by
  obtain ⟨h3, hg, hl, hs⟩ := computeDegree_le hd
  have hfirst : DegLe (n - 1) 1 (dpoly key.lFirst) := DegLe.list hk.first
  have hlast : DegLe (n - 1) 1 (dpoly key.lLast) := DegLe.list hk.last
  have hact : DegLe (n - 1) 1 (dpoly key.lActive) := DegLe.list hk.active
  have hX : DegLe (n - 1) 1 (X : F[X]) := by rw [DegLe, natDegree_X]; omega
  have hsq : ∀ {p : F[X]}, DegLe (n - 1) 1 p → DegLe (n - 1) 2 (p ^ 2 - p) := fun h => by
    rw [sq]; exact (h.mul h).sub (h.mono (by norm_num))
  intro p hp
  rw [Circuit.constraints, constraints, List.mem_append, List.mem_append, List.mem_append] at hp
  rcases hp with ((hp | hp) | hp) | hp
  · obtain ⟨e, he, rfl⟩ := List.mem_map.1 hp
    exact (DegLe.expr hf e).mono (hg e he)
  · have hz : ∀ i, DegLe (n - 1) 1 (dpoly (c.products.getD i [])) := fun i => by
      rw [List.getD_eq_getElem?_getD]
      cases h : c.products[i]? with
      | none => exact DegLe.list (by simp)
      | some p => exact DegLe.list (hf.products p (List.mem_of_getElem? h))
    have hzr : ∀ i r, DegLe (n - 1) 1 (rotated ω r (c.products.getD i [])) := fun i r => by
      rw [List.getD_eq_getElem?_getD]
      cases h : c.products[i]? with
      | none => exact DegLe.rotated (by simp) _ _
      | some p => exact DegLe.rotated (hf.products p (List.mem_of_getElem? h)) _ _
    have hsig : ∀ i, DegLe (n - 1) 1 (dpoly (key.sigmas.getD i [])) := fun i => by
      rw [List.getD_eq_getElem?_getD]
      cases h : key.sigmas[i]? with
      | none => exact DegLe.list (by simp)
      | some p => exact DegLe.list (hk.sigmas p (List.mem_of_getElem? h))
    rw [permConstraints] at hp
    split at hp
    · simp at hp
    · simp only [List.mem_append, List.mem_cons, List.not_mem_nil, or_false, List.mem_map, List.mem_range] at hp
      rcases hp with ((rfl | rfl) | ⟨i, -, rfl⟩) | ⟨k, -, rfl⟩
      · exact (hfirst.mul (DegLe.one.sub (hz 0))).mono (by omega)
      · exact (hlast.mul (hsq (hz _))).mono (by omega)
      · exact (hfirst.mul ((hz _).sub (hzr _ _))).mono (by omega)
      · have hcard : (Finset.Ico (k * (d - 2)) (min ((k + 1) * (d - 2)) s.columns.length)).card ≤ d - 2 := by
          have : (k + 1) * (d - 2) = k * (d - 2) + (d - 2) := by ring
          rw [Nat.card_Ico]; omega
        refine (hact.mul (b := d - 1) (DegLe.sub ?_ ?_)).mono (by omega)
        · refine ((hzr _ _).mul (DegLe.prod fun j _ => ?_)).mono (b := d - 1) ?_
          · exact ((DegLe.column hf _ _).add ((DegLe.const (a := 0) _).mul (hsig _))).add (DegLe.const _)
          · show 1 + (Finset.Ico (k * (d - 2)) (min ((k + 1) * (d - 2)) s.columns.length)).card ≤ d - 1
            omega
        · refine ((hz _).mul (DegLe.prod fun j _ => ?_)).mono (b := d - 1) ?_
          · refine ((DegLe.column hf _ _).add (?_ : DegLe (n - 1) 1 _)).add (DegLe.const _)
            rw [← C_pow, ← C_mul]
            exact (DegLe.const (a := 0) _).mul hX
          · show 1 + (Finset.Ico (k * (d - 2)) (min ((k + 1) * (d - 2)) s.columns.length)).card ≤ d - 1
            omega
  · obtain ⟨l, hl', hp⟩ := List.mem_flatMap.1 hp
    obtain ⟨i, hi, rfl⟩ := List.getElem_of_mem hl'
    have hi' : i < s.lookups.length ∧ i < c.lookups.length := by
      simpa [Circuit.env] using hi
    obtain ⟨-, h4, h5⟩ := hl _ (List.getElem_mem hi'.1)
    obtain ⟨q1, q2, q3⟩ := hf.lookups _ (List.getElem_mem hi'.2)
    simp only [Circuit.env, List.getElem_zipWith, lookupConstraints, List.mem_cons, List.not_mem_nil, or_false] at hp
    have d1 := DegLe.list q1
    have d2 := DegLe.list q2
    have d3 := DegLe.list q3
    have d4 := DegLe.compress (ω := ω) hf ch.theta s.lookups[i].inputs
    have d5 := DegLe.compress (ω := ω) hf ch.theta s.lookups[i].targets
    rcases hp with rfl | rfl | rfl | rfl | rfl
    · exact (hfirst.mul (DegLe.one.sub d1)).mono (by omega)
    · exact (hlast.mul (hsq d1)).mono (by omega)
    · refine (hact.mul (b := d - 1) (DegLe.sub ?_ ?_)).mono (by omega)
      · exact (((DegLe.rotated q1 ω 1).mul (d2.add (DegLe.const _))).mul (d3.add (DegLe.const _))).mono (by omega)
      · exact ((d1.mul (d4.add (DegLe.const _))).mul (d5.add (DegLe.const _))).mono (by omega)
    · exact (hfirst.mul (d2.sub d3)).mono (by omega)
    · exact ((hact.mul (d2.sub d3)).mul (d2.sub (DegLe.rotated q2 ω (-1)))).mono (by omega)
  · obtain ⟨l, hl', hp⟩ := List.mem_flatMap.1 hp
    obtain ⟨i, hi, rfl⟩ := List.getElem_of_mem hl'
    have hi' : i < s.shuffles.length ∧ i < c.shuffles.length := by
      simpa [Circuit.env] using hi
    have h5 := hs _ (List.getElem_mem hi'.1)
    have q1 := hf.shuffles _ (List.getElem_mem hi'.2)
    simp only [Circuit.env, List.getElem_zipWith, shuffleConstraints, List.mem_cons, List.not_mem_nil, or_false] at hp
    have d1 := DegLe.list q1
    have d4 := DegLe.compress (ω := ω) hf ch.theta s.shuffles[i].inputs
    have d5 := DegLe.compress (ω := ω) hf ch.theta s.shuffles[i].targets
    rcases hp with rfl | rfl | rfl
    · exact (hfirst.mul (DegLe.one.sub d1)).mono (by omega)
    · exact (hlast.mul (hsq d1)).mono (by omega)
    · refine (hact.mul (b := d - 1) (DegLe.sub ?_ ?_)).mono (by omega)
      · exact ((DegLe.rotated q1 ω 1).mul (d5.add (DegLe.const _))).mono (by omega)
      · exact (d1.mul (d4.add (DegLe.const _))).mono (by omega)

/-! ### The polynomials that select rows -/

variable [DecidableEq F]

omit [DecidableEq F] in
theorem eval_of_rows {d : Domain F} (hd : d.Valid) (h1 : d.offset = 1) {p : List F} (hp : p.length ≤ d.size) (r : ℕ → F)
    (h : ∀ i < d.size, (dpoly p).eval (d.gen ^ i) = r i) (x : F) :
    (dpoly p).eval x = ∑ i ∈ Finset.range d.size, r i *
      (Lagrange.basis (Finset.range d.size) (fun j => d.offset * d.gen ^ j) i).eval x := by
  have hinj : Set.InjOn (fun j => d.offset * d.gen ^ j) (Finset.range d.size : Finset ℕ) := fun a ha b hb e =>
    hd.elem_inj (by simpa using ha) (by simpa using hb) e
  have hp : dpoly p = Lagrange.interpolate (Finset.range d.size) (fun j => d.offset * d.gen ^ j) r := by
    refine Lagrange.eq_interpolate_of_eval_eq _ hinj ?_ fun i hi => ?_
    · rw [Finset.card_range]; exact degree_dpoly_lt hp
    · rw [h1, one_mul]; exact h i (by simpa using hi)
  rw [hp, Lagrange.interpolate_apply, eval_finsetSum]
  simp only [eval_mul, eval_C]

/-- The values that the verifier computes are those of the polynomials of the key. -/
theorem lValues_key {threads : ℕ} (ht : 0 < threads) (ht' : threads < 128) {d : Domain F} (hd : d.Valid)
    (h1 : d.offset = 1) (x : F) {b : ℕ} (hb : b + 2 ≤ d.size) (hb' : b + 1 < 2 ^ 31) {s : System F} {key : ProvingKey F}
    (hk : key.Fits s d.size) (hs : key.Selects d.gen d.size (d.size - (b + 1))) :
    ∃ l, GrandProduct.lValues threads d x b = some l ∧ l.first = (dpoly key.lFirst).eval x ∧
      l.last = (dpoly key.lLast).eval x ∧ l.active = (dpoly key.lActive).eval x := by
  have hinj : Set.InjOn (fun j => d.offset * d.gen ^ j) (Finset.range d.size : Finset ℕ) := fun a ha b hb e =>
    hd.elem_inj (by simpa using ha) (by simpa using hb) e
  refine ⟨_, C66_lvalues threads ht ht' d hd x b hb hb', ?_, ?_, ?_⟩
  · rw [eval_of_rows hd h1 hk.first _ hs.first]
    simp only [ite_mul, one_mul, zero_mul]
    rw [Finset.sum_ite_eq' , if_pos (Finset.mem_range.2 (by omega))]
  · rw [eval_of_rows hd h1 hk.last _ hs.last]
    simp only [ite_mul, one_mul, zero_mul]
    rw [Finset.sum_ite_eq' , if_pos (Finset.mem_range.2 (by omega))]
  · rw [eval_of_rows hd h1 hk.active _ hs.active, GrandProduct.LValues.active]
    simp only [ite_mul, one_mul, zero_mul]
    have hsum : ∑ i ∈ Finset.range d.size,
        (Lagrange.basis (Finset.range d.size) (fun j => d.offset * d.gen ^ j) i).eval x = 1 := by
      have := Lagrange.sum_basis hinj ⟨0, Finset.mem_range.2 hd.pos⟩
      rw [← eval_finsetSum, this, eval_one]
    obtain ⟨u, hu⟩ : ∃ u, d.size = u + (b + 1) := ⟨d.size - (b + 1), by omega⟩
    rw [← Finset.sum_filter, show (Finset.range d.size).filter (· < d.size - (b + 1)) = Finset.range u by
      ext i; simp only [Finset.mem_filter, Finset.mem_range]; omega]
    have e : ∀ f : ℕ → F, ∑ i ∈ Finset.range d.size, f i = ∑ i ∈ Finset.range u, f i + (f u + ∑ i ∈ Finset.range b, f (d.size - b + i)) := by
      intro f
      rw [hu, Finset.sum_range_add, Finset.sum_range_succ' , add_comm (∑ i ∈ Finset.range b, f (u + (i + 1)))]
      congr 2
      refine Finset.sum_congr rfl fun i _ => ?_
      congr 1; omega
    rw [e] at hsum
    rw [show d.size - (b + 1) = u by omega]
    linear_combination -hsum

/-- The polynomials of the key. -/
theorem lagrangePolys_eq {threads : ℕ} (o : Sched) {d : Domain F} (hd : d.Radix2) (h1 : d.offset = 1) {item : Item F}
    (hi : item.For d) (ht : 0 < threads) (ht' : threads ≤ 2 ^ 63) {u : ℕ} (hu : u < d.size) (sigmas : List (List F)) :
    ∃ f l a, lagrangePolys threads o d item u = some (f, l, a) ∧ f.length ≤ d.size ∧ l.length ≤ d.size ∧
      a.length ≤ d.size ∧ ProvingKey.Selects d.gen d.size u ⟨sigmas, f, l, a⟩ := by
  obtain ⟨f, f1, -, f2, f3⟩ := C38_ifft o hd hi ((List.replicate d.size 0).set 0 1) ht ht'
  obtain ⟨l, l1, -, l2, l3⟩ := C38_ifft o hd hi ((List.replicate d.size 0).set u 1) ht ht'
  obtain ⟨a, a1, -, a2, a3⟩ := C38_ifft o hd hi ((List.range d.size).map fun i => if i < u then 1 else 0) ht ht'
  have hset : ∀ u i, i < d.size → u < d.size →
      ((List.replicate d.size (0 : F)).set u 1).getD i 0 = if i = u then 1 else 0 := by
    intro u i hi hu
    rw [List.getD_eq_getElem _ _ (by simpa using hi), List.getElem_set]
    by_cases h : u = i
    · rw [if_pos h, if_pos h.symm]
    · rw [if_neg h, if_neg (Ne.symm h), List.getElem_replicate]
  rw [h1] at f3 l3 a3
  simp only [one_mul] at f3 l3 a3
  refine ⟨f, l, a, ?_, f2, l2, a2, ?_, ?_, ?_⟩
  · rw [lagrangePolys, if_neg (by omega), f1, Option.bind_some, l1, Option.bind_some, a1]; rfl
  · exact fun i hi => by rw [f3 i hi, hset 0 i hi hd.1.pos]
  · exact fun i hi => by rw [l3 i hi, hset u i hi hu]
  · exact fun i hi => by rw [a3 i hi, getD_map_range, if_pos hi]

end
end Tachyon.CircuitPoly
