import Verif.Proofs.GrandProduct
import Verif.Proofs.GrandProductCount
import Verif.Proofs.DomainLagrange
import Verif.Props.Cycle
import Verif.Props.FFT
import Verif.Spec.F17
/-! C66: the permutation argument (`zk/plonk/permutation`). -/
universe u
namespace Tachyon.Props
open Tachyon.GrandProduct Tachyon.Cycle Finset

section
variable {F : Type u} [Field F] [DecidableEq F]

/-- The columns of the prover: the product of `(v + β δ^i ω^j + γ) / (v + β s + γ)` over the cells of the chunks
before and the rows of the chunk before, where division by zero gives zero; the rest of the rows is random. -/
theorem C66_create (threads n b c len : ℕ) (ht : 0 < threads) (ht' : threads ≤ 2 ^ 63) (hb : b + 1 ≤ n)
    (hn : n < 2 ^ 32) (hl : 0 < len) (rnd : ℕ → F) (k : ℕ) (omega delta beta gamma : F)
    (values permuted : List (List F)) (hv : IsTable c n values) (hp : IsTable c n permuted) :
    ∃ zs z, permCreate threads n b rnd k values permuted (unpermuted threads c n omega delta) len beta gamma =
        some (zs, z, k + zs.length * (b + 1)) ∧ IsTable ((c + len - 1) / len) n zs ∧
      (∀ i, (c + len - 1) / len ≤ i → ∀ j, cell zs i j = none) ∧
      ∃ R : ℕ → ℕ → F, (∀ t < (c + len - 1) / len, ∀ j < n, ∃ V P : ℕ → F,
          (∀ i < c, cell values i j = some (V i) ∧ cell permuted i j = some (P i)) ∧
          R t j = (∏ i ∈ range (min len (c - t * len)),
              (V (t * len + i) + beta * (delta ^ (t * len + i) * omega ^ j) + gamma)) /
            ∏ i ∈ range (min len (c - t * len)), (V (t * len + i) + beta * P (t * len + i) + gamma)) ∧
        (∀ t < (c + len - 1) / len, ∀ j < n - b, cell zs t j =
          some ((∏ s ∈ range t, ∏ j ∈ range (n - (b + 1)), R s j) * ∏ j ∈ range j, R t j)) ∧
        (∀ t < (c + len - 1) / len, ∀ j < b, cell zs t (n - b + j) = some (rnd (k + t * (b + 1) + j))) ∧
        z = ∏ s ∈ range ((c + len - 1) / len), ∏ j ∈ range (n - (b + 1)), R s j := by
  have hU : ∀ i < c, ∀ j < n, cell (unpermuted threads c n omega delta) i j = some (delta ^ i * omega ^ j) :=
    fun i hi j hj => C47_unpermuted threads c n ht ht' (by omega) omega delta (⟨i, hi⟩, ⟨j, hj⟩)
  have e := permLoop_eq (U := fun i j => delta ^ i * omega ^ j) ht ht' hb hn hl rnd values permuted _
    (val values) (val permuted) hv.1 (fun i hi j hj => cell_val hv hi hj) (fun i hi j hj => cell_val hp hi hj) hU
    beta gamma (chunkNum c len) 0 1 k (by omega)
  simp only [Nat.zero_add, one_mul] at e
  set zs := (List.range (chunkNum c len)).map (fun t =>
          (List.range (n - b)).map (fun i => (∏ s ∈ range t, ∏ j ∈ range (n - (b + 1)),
            permRatio (val values) (val permuted) (fun i j => delta ^ i * omega ^ j) c len beta gamma s j) *
            ∏ j ∈ range i, permRatio (val values) (val permuted) (fun i j => delta ^ i * omega ^ j) c len beta gamma t j) ++
          (List.range b).map (fun i => rnd (k + t * (b + 1) + i))) with hzs
  have hlen : zs.length = chunkNum c len := by simp [zs]
  have hget : ∀ t < chunkNum c len, zs[t]? = some ((List.range (n - b)).map (fun i => (∏ s ∈ range t,
      ∏ j ∈ range (n - (b + 1)),
      permRatio (val values) (val permuted) (fun i j => delta ^ i * omega ^ j) c len beta gamma s j) *
      ∏ j ∈ range i, permRatio (val values) (val permuted) (fun i j => delta ^ i * omega ^ j) c len beta gamma t j) ++
      (List.range b).map (fun i => rnd (k + t * (b + 1) + i))) := by
    intro t ht
    rw [hzs, List.getElem?_map, List.getElem?_range ht]; rfl
  refine ⟨zs, _, ?_, ⟨hlen, ?_⟩, ?_, permRatio (val values) (val permuted) (fun i j => delta ^ i * omega ^ j) c len
    beta gamma, ?_, ?_, ?_, rfl⟩
  · unfold permCreate
    rw [if_neg (by omega), hv.1, e, hlen]; rfl
  · intro col hcol
    rw [hzs, List.mem_map] at hcol
    obtain ⟨t, _, rfl⟩ := hcol
    simp; omega
  · intro i hi j
    unfold cell
    rw [List.getElem?_eq_none (by rw [hlen]; exact hi)]; rfl
  · intro t ht j hj
    refine ⟨fun i => val values i j, fun i => val permuted i j, fun i hi => ⟨cell_val hv hi hj, cell_val hp hi hj⟩, ?_⟩
    rw [permRatio, ratio, div_eq_mul_inv]; rfl
  · intro t ht j hj
    unfold cell
    rw [hget t ht, Option.bind_some, List.getElem?_append_left (by simpa using hj), List.getElem?_map,
      List.getElem?_range hj]; rfl
  · intro t ht j hj
    unfold cell
    rw [hget t ht, Option.bind_some, List.getElem?_append_right (by simp), List.getElem?_map]
    simp [List.getElem?_range hj]

private theorem gen_usable {c n u : ℕ} {ps : List ((Fin c × Fin n) × (Fin c × Fin n))}
    (hps : ∀ p ∈ ps, p.1.2.val < u ∧ p.2.2.val < u) {x y : Fin c × Fin n} (h : Gen ps x y) :
    x = y ∨ (x.2.val < u ∧ y.2.val < u) := by
  induction h with
  | rel x y h => exact Or.inr (hps _ h)
  | refl x => exact Or.inl rfl
  | symm x y _ ih =>
    rcases ih with h | h
    · exact Or.inl h.symm
    · exact Or.inr ⟨h.2, h.1⟩
  | trans x y z _ _ ih1 ih2 =>
    rcases ih1 with rfl | h1
    · exact ih2
    · rcases ih2 with rfl | h2
      · exact Or.inr h1
      · exact Or.inr ⟨h1.1, h2.2⟩

private theorem gen_value {T : Type*} {V : Type*} {ps : List (T × T)} {v : T → V} (hv : ∀ p ∈ ps, v p.1 = v p.2)
    {x y : T} (h : Gen ps x y) : v x = v y := by
  induction h with
  | rel x y h => exact hv _ h
  | refl x => rfl
  | symm x y _ ih => exact ih.symm
  | trans x y z _ _ ih1 ih2 => exact ih1.trans ih2

/-- The usable cells. -/
private def usableCells (c u : ℕ) : Finset (ℕ × ℕ) := range c ×ˢ range u

omit [DecidableEq F] in
private theorem prod_usableCells (c u : ℕ) (f : ℕ → ℕ → F) :
    ∏ i ∈ range c, ∏ j ∈ range u, f i j = ∏ x ∈ usableCells c u, f x.1 x.2 := by
  rw [usableCells, prod_product]

/-- Completeness: if the values satisfy the copies, the columns of the prover satisfy the constraints of the
verifier in all rows, for all challenges for which the factors of the usable cells do not vanish. -/
theorem C66_complete (threads n b c len : ℕ) (ht : 0 < threads) (ht' : threads ≤ 2 ^ 63) (hb : b + 1 ≤ n)
    (hn : n < 2 ^ 32) (hl : 0 < len) (hc0 : 0 < c) (hc : c < 2 ^ 64) (rnd : ℕ → F) (k : ℕ)
    (omega delta beta gamma : F) (ps : List ((Fin c × Fin n) × (Fin c × Fin n)))
    (hps : ∀ p ∈ ps, p.1.2.val < n - (b + 1) ∧ p.2.2.val < n - (b + 1)) (values : List (List F))
    (hv : IsTable c n values)
    (hcopy : ∀ p ∈ ps, cell values p.1.1 p.1.2 = cell values p.2.1 p.2.2)
    (hne : ∀ i < c, ∀ j < n - (b + 1), ∀ v, cell values i j = some v →
      v + beta * (delta ^ i * omega ^ j) + gamma ≠ 0) :
    ∃ s P zs k', run (Store.new c n) (ps.map fun p => (lab p.1, lab p.2)) = some s ∧
      generate threads c n n omega delta s = some P ∧
      permCreate threads n b rnd k values P (unpermuted threads c n omega delta) len beta gamma =
        some (zs, 1, k') ∧
      PermHolds n (n - (b + 1)) len omega delta beta gamma values P zs := by
  obtain ⟨s, P, σ, h1, h2, h3, h4, h5, h6, h7⟩ := C47_generate threads c n ht ht' (by omega) omega delta ps
  have hP : IsTable c n P := ⟨h5, h6⟩
  obtain ⟨zs, z, e1, e2, -, R, e3, e4, e5, e6⟩ := C66_create threads n b c len ht ht' hb hn hl rnd k omega delta
    beta gamma values P hv hP
  set u := n - (b + 1) with hu
  have hval : ∀ x : Fin c × Fin n, cell values x.1 x.2 = some (val values x.1 x.2) := fun x =>
    cell_val hv x.1.2 x.2.2
  have hstep : ∀ x, Gen ps x (σ x) := fun x => (h3 x (σ x)).1 ⟨1, rfl⟩
  have hvσ : ∀ x : Fin c × Fin n, val values (σ x).1 (σ x).2 = val values x.1 x.2 := by
    intro x
    have := gen_value (v := fun x : Fin c × Fin n => cell values x.1 x.2) hcopy (hstep x)
    simp only [hval] at this
    exact (Option.some.inj this).symm
  have hPσ : ∀ x : Fin c × Fin n, val P x.1 x.2 = delta ^ (σ x).1.val * omega ^ (σ x).2.val := by
    intro x
    have := h7 x
    rw [show Cycle.get P (lab x) = cell P x.1 x.2 from rfl, cell_val hP x.1.2 x.2.2] at this
    exact Option.some.inj this
  have hσu : ∀ x : Fin c × Fin n, x.2.val < u → (σ x).2.val < u := by
    intro x hx
    rcases gen_usable hps (hstep x) with h | h
    · rw [← h]; exact hx
    · exact h.2
  -- the factors
  have hnum : ∀ i < c, ∀ j < u, val values i j + beta * (delta ^ i * omega ^ j) + gamma ≠ 0 :=
    fun i hi j hj => hne i hi j hj _ (cell_val hv hi (by omega))
  have hden : ∀ i < c, ∀ j < u, val values i j + beta * val P i j + gamma ≠ 0 := by
    intro i hi j hj
    have hx := hPσ (⟨i, hi⟩, ⟨j, by omega⟩)
    have hx2 := hvσ (⟨i, hi⟩, ⟨j, by omega⟩)
    simp only at hx hx2
    rw [hx, ← hx2]
    exact hnum _ (σ _).1.2 _ (hσu _ hj)
  have hR : ∀ t < (c + len - 1) / len, ∀ j < n, R t j = (∏ i ∈ range (width c len t),
      (val values (t * len + i) j + beta * (delta ^ (t * len + i) * omega ^ j) + gamma)) /
      ∏ i ∈ range (width c len t), (val values (t * len + i) j + beta * val P (t * len + i) j + gamma) := by
    intro t ht j hj
    obtain ⟨V, Q, g1, g2⟩ := e3 t ht j hj
    rw [g2]
    have hw : ∀ i ∈ range (min len (c - t * len)), t * len + i < c := by
      intro i hi; rw [mem_range] at hi; omega
    congr 1
    · refine prod_congr rfl fun i hi => ?_
      have := (g1 _ (hw i hi)).1
      rw [cell_val hv (hw i hi) hj] at this
      rw [← Option.some.inj this]
    · refine prod_congr rfl fun i hi => ?_
      have := (g1 _ (hw i hi)).1
      rw [cell_val hv (hw i hi) hj] at this
      have h' := (g1 _ (hw i hi)).2
      rw [cell_val hP (hw i hi) hj] at h'
      rw [← Option.some.inj this, ← Option.some.inj h']
  have hzval : ∀ t < chunkNum c len, ∀ j < n - b, val zs t j =
      (∏ s ∈ range t, ∏ j ∈ range u, R s j) * ∏ j ∈ range j, R t j := by
    intro t ht j hj
    have := e4 t ht j hj
    rw [cell_val e2 ht (by omega)] at this
    exact Option.some.inj this
  have hdprod : ∀ t < chunkNum c len, ∀ j < u, ∏ i ∈ range (width c len t),
      (val values (t * len + i) j + beta * val P (t * len + i) j + gamma) ≠ 0 := by
    intro t ht j hj
    refine prod_ne_zero_iff.2 fun i hi => hden _ ?_ _ hj
    have := (chunkNum_bounds (c := c) hl).2 t ht
    rw [mem_range] at hi; unfold width at hi; omega
  -- the whole product is 1
  have hsw : ∀ f : ℕ → ℕ → F, ∏ t ∈ range (chunkNum c len), ∏ j ∈ range u, ∏ i ∈ range (width c len t),
      f (t * len + i) j = ∏ x ∈ usableCells c u, f x.1 x.2 := by
    intro f
    rw [← prod_usableCells, ← prod_chunks hl fun i => ∏ j ∈ range u, f i j]
    exact prod_congr rfl fun t _ => prod_comm
  have hperm : ∏ x ∈ usableCells c u, (val values x.1 x.2 + beta * val P x.1 x.2 + gamma) =
      ∏ x ∈ usableCells c u, (val values x.1 x.2 + beta * (delta ^ x.1 * omega ^ x.2) + gamma) := by
    have hmem : ∀ x ∈ usableCells c u, x.1 < c ∧ x.2 < u := by
      intro x hx; rw [usableCells, mem_product, mem_range, mem_range] at hx; exact hx
    refine prod_bij (fun x hx => ((σ (⟨x.1, (hmem x hx).1⟩, ⟨x.2, by have := (hmem x hx).2; omega⟩)).1.val,
      (σ (⟨x.1, (hmem x hx).1⟩, ⟨x.2, by have := (hmem x hx).2; omega⟩)).2.val)) ?_ ?_ ?_ ?_
    · intro x hx
      rw [usableCells, mem_product, mem_range, mem_range]
      exact ⟨(σ _).1.2, hσu _ (hmem x hx).2⟩
    · intro x hx y hy h
      rw [Prod.mk.injEq] at h
      have := σ.injective (Prod.ext (Fin.ext h.1) (Fin.ext h.2))
      rw [Prod.mk.injEq, Fin.mk.injEq, Fin.mk.injEq] at this
      exact Prod.ext this.1 this.2
    · intro y hy
      have hy' := hmem y hy
      let y' : Fin c × Fin n := (⟨y.1, hy'.1⟩, ⟨y.2, by omega⟩)
      have hinv : (σ.symm y').2.val < u := by
        rcases gen_usable hps (hstep (σ.symm y')) with h | h
        · rw [σ.apply_symm_apply] at h
          rw [h]; exact hy'.2
        · exact h.1
      refine ⟨((σ.symm y').1.val, (σ.symm y').2.val), ?_, ?_⟩
      · rw [usableCells, mem_product, mem_range, mem_range]
        exact ⟨(σ.symm y').1.2, hinv⟩
      · have : σ (⟨(σ.symm y').1.val, (σ.symm y').1.2⟩, ⟨(σ.symm y').2.val, (σ.symm y').2.2⟩) = y' :=
          σ.apply_symm_apply y'
        rw [this]
    · intro x hx
      have hx' := hmem x hx
      have a1 := hPσ (⟨x.1, hx'.1⟩, ⟨x.2, by omega⟩)
      have a2 := hvσ (⟨x.1, hx'.1⟩, ⟨x.2, by omega⟩)
      simp only at a1 a2
      rw [a1, ← a2]
  have htot : ∏ s ∈ range (chunkNum c len), ∏ j ∈ range u, R s j = 1 := by
    have : ∏ s ∈ range (chunkNum c len), ∏ j ∈ range u, R s j =
        (∏ s ∈ range (chunkNum c len), ∏ j ∈ range u, ∏ i ∈ range (width c len s),
          (val values (s * len + i) j + beta * (delta ^ (s * len + i) * omega ^ j) + gamma)) /
        ∏ s ∈ range (chunkNum c len), ∏ j ∈ range u, ∏ i ∈ range (width c len s),
          (val values (s * len + i) j + beta * val P (s * len + i) j + gamma) := by
      rw [← prod_div_distrib]
      refine prod_congr rfl fun t ht => ?_
      rw [← prod_div_distrib]
      refine prod_congr rfl fun j hj => ?_
      rw [mem_range] at ht hj
      exact hR t ht j (by omega)
    rw [this, hsw (fun i j => val values i j + beta * (delta ^ i * omega ^ j) + gamma),
      hsw (fun i j => val values i j + beta * val P i j + gamma), hperm]
    refine div_self (prod_ne_zero_iff.2 fun x hx => ?_)
    rw [usableCells, mem_product, mem_range, mem_range] at hx
    exact hnum _ hx.1 _ hx.2
  have hm0 : 0 < chunkNum c len := by
    have := (chunkNum_bounds (c := c) hl).1
    rcases Nat.eq_zero_or_pos (chunkNum c len) with h | h
    · rw [h] at this; omega
    · exact h
  refine ⟨s, P, zs, _, h1, h4, by rw [e1, e6, show (c + len - 1) / len = chunkNum c len from rfl, htot], ?_⟩
  rw [permHolds_iff hl hc0 hc (by omega) _ _ _ _ hv hP e2]
  refine ⟨?_, ?_, ?_, ?_⟩
  · rw [hzval 0 hm0 0 (by omega)]; simp
  · have : val zs (chunkNum c len - 1) u = 1 := by
      rw [hzval _ (by omega) u (by omega), ← prod_range_succ (fun s => ∏ j ∈ range u, R s j),
        Nat.sub_add_cancel hm0, htot]
    rw [this, one_pow]
  · intro t ht
    rw [hzval _ ht 0 (by omega), hzval t (by omega) u (by omega), prod_range_zero, mul_one,
      prod_range_succ (fun s => ∏ j ∈ range u, R s j)]
  · intro t ht j hj
    rw [hzval t ht (j + 1) (by omega), hzval t ht j (by omega), prod_range_succ, hR t ht j (by omega)]
    have := hdprod t ht j hj
    rw [mul_assoc, mul_assoc, div_mul_cancel₀ _ this, mul_assoc]

end

section
variable {F : Type u} [Field F] [DecidableEq F] [Fintype F]

/-- Soundness: if the values violate a copy, then for all but at most `2 c u |F|` pairs of challenges there are no
columns that satisfy the constraints of the verifier in all rows. -/
theorem C66_sound (threads n b c len : ℕ) (ht : 0 < threads) (ht' : threads ≤ 2 ^ 63) (hb : b + 1 ≤ n)
    (hn : n < 2 ^ 32) (hl : 0 < len) (hc0 : 0 < c) (hc : c < 2 ^ 64) (omega delta : F)
    (hco : c ≤ orderOf delta) (hro : n ≤ orderOf omega) (hcop : Nat.Coprime (orderOf delta) (orderOf omega))
    (ps : List ((Fin c × Fin n) × (Fin c × Fin n)))
    (hps : ∀ p ∈ ps, p.1.2.val < n - (b + 1) ∧ p.2.2.val < n - (b + 1)) :
    ∃ s P, run (Store.new c n) (ps.map fun p => (lab p.1, lab p.2)) = some s ∧
      generate threads c n n omega delta s = some P ∧
      ∀ values, IsTable c n values → (∃ p ∈ ps, cell values p.1.1 p.1.2 ≠ cell values p.2.1 p.2.2) →
        {r : F × F | ∃ zs, IsTable ((c + len - 1) / len) n zs ∧
          PermHolds n (n - (b + 1)) len omega delta r.1 r.2 values P zs}.ncard ≤
        2 * (c * (n - (b + 1))) * Fintype.card F := by
  obtain ⟨s, P, σ, h1, h2, h3, h4, h5, h6, h7⟩ := C47_generate threads c n ht ht' (by omega) omega delta ps
  have hP : IsTable c n P := ⟨h5, h6⟩
  refine ⟨s, P, h1, h4, fun values hv hbad => ?_⟩
  set u := n - (b + 1) with hu
  have hPσ : ∀ x : Fin c × Fin n, val P x.1 x.2 = delta ^ (σ x).1.val * omega ^ (σ x).2.val := by
    intro x
    have := h7 x
    rw [show Cycle.get P (lab x) = cell P x.1 x.2 from rfl, cell_val hP x.1.2 x.2.2] at this
    exact Option.some.inj this
  have hstep : ∀ x, Gen ps x (σ x) := fun x => (h3 x (σ x)).1 ⟨1, rfl⟩
  have hinj := C47_labels_distinct c n omega delta hco hro hcop
  let A : Multiset (F × F) := (usableCells c u).val.map fun x => (val values x.1 x.2, delta ^ x.1 * omega ^ x.2)
  let B : Multiset (F × F) := (usableCells c u).val.map fun x => (val values x.1 x.2, val P x.1 x.2)
  have hAB : A ≠ B := by
    intro hAB
    obtain ⟨p, hp, hne⟩ := hbad
    -- the values are constant along the cycles
    have hσ : ∀ x : Fin c × Fin n, val values (σ x).1 (σ x).2 = val values x.1 x.2 := by
      intro x
      by_cases hx : x.2.val < u
      · have hmem : (val values x.1 x.2, val P x.1 x.2) ∈ B :=
          Multiset.mem_map.2 ⟨(x.1.val, x.2.val), by
            show (x.1.val, x.2.val) ∈ usableCells c u
            rw [usableCells, mem_product, mem_range, mem_range]; exact ⟨x.1.2, hx⟩, rfl⟩
        rw [← hAB, Multiset.mem_map] at hmem
        obtain ⟨y, hy, e⟩ := hmem
        have hy : y ∈ usableCells c u := hy
        rw [usableCells, mem_product, mem_range, mem_range] at hy
        rw [Prod.mk.injEq, hPσ x] at e
        have := @hinj (⟨y.1, hy.1⟩, ⟨y.2, by omega⟩) (σ x) e.2
        rw [← this]
        exact e.1
      · have : x = σ x := by
          rcases gen_usable hps (hstep x) with h | h
          · exact h
          · exact absurd h.1 hx
        rw [← this]
    have hiter : ∀ (m : ℕ) (x : Fin c × Fin n), val values (σ^[m] x).1 (σ^[m] x).2 = val values x.1 x.2 := by
      intro m
      induction m with
      | zero => intro x; rfl
      | succ m ih => intro x; rw [Function.iterate_succ_apply', hσ, ih]
    obtain ⟨m, hm⟩ := (h3 p.1 p.2).2 (Relation.EqvGen.rel _ _ hp)
    have := hiter m p.1
    rw [hm] at this
    apply hne
    rw [cell_val hv p.1.1.2 p.1.2.2, cell_val hv p.2.1.2 p.2.2.2, this]
  have hcard : ∀ f : ℕ × ℕ → F × F, ((usableCells c u).val.map f).card = c * u := by
    intro f
    rw [Multiset.card_map]
    show (usableCells c u).card = c * u
    rw [usableCells, card_product, card_range, card_range]
  have hprod : ∀ (f : ℕ → ℕ → F) (β γ : F),
      (((usableCells c u).val.map fun x => (val values x.1 x.2, f x.1 x.2)).map fun p => p.1 + β * p.2 + γ).prod =
        ∏ i ∈ range c, ∏ j ∈ range u, (val values i j + β * f i j + γ) := by
    intro f β γ
    rw [prod_usableCells c u (fun i j => val values i j + β * f i j + γ), Multiset.map_map]
    rfl
  refine (Set.ncard_le_ncard ?_ (Set.toFinite _)).trans (bad_le hAB (hcard _).le (hcard _).le)
  rintro ⟨β, γ⟩ ⟨zs, hz, hh⟩
  have hch := (permHolds_iff hl hc0 hc (by omega) _ _ _ _ hv hP hz).1 hh
  have := hch.products hl hc0
  rw [← hprod (fun i j => delta ^ i * omega ^ j), ← hprod (val P)] at this
  exact this

end

section
variable {F : Type u} [Field F] [DecidableEq F]

/-- The values of the Lagrange polynomials that the verifier computes: of row 0, the sum of those of the rows for
blinding, and of the row before them. -/
theorem C66_lvalues (threads : ℕ) (ht : 0 < threads) (ht' : threads < 128) (d : FFT.Domain F) (hd : d.Valid) (x : F)
    (b : ℕ) (hb : b + 2 ≤ d.size) (hb' : b + 1 < 2 ^ 31) :
    lValues threads d x b = some
      ⟨(Lagrange.basis (range d.size) (fun j => d.offset * d.gen ^ j) 0).eval x,
        ∑ i ∈ range b, (Lagrange.basis (range d.size) (fun j => d.offset * d.gen ^ j) (d.size - b + i)).eval x,
        (Lagrange.basis (range d.size) (fun j => d.offset * d.gen ^ j) (d.size - (b + 1))).eval x⟩ := by
  have hidx : ∀ i < b + 1, ((-((b : ℤ) + 1) + (i : ℕ)) % (d.size : ℤ)).toNat = d.size - (b + 1) + i := by
    intro i hi
    rw [show (-((b : ℤ) + 1) + (i : ℕ)) = ((d.size - (b + 1) + i : ℕ) : ℤ) + (-1) * (d.size : ℤ) by
      push_cast [Nat.cast_sub (show b + 1 ≤ d.size by omega)]; ring, Int.add_mul_emod_self_right,
      Int.emod_eq_of_lt (by omega) (by omega), Int.toNat_natCast]
  have hlast : ((-((b : ℤ) + 1) + ((b + 1 : ℕ) : ℤ)) % (d.size : ℤ)).toNat = 0 := by
    rw [show (-((b : ℤ) + 1) + ((b + 1 : ℕ) : ℤ)) = 0 by push_cast; ring]; simp
  unfold lValues
  rw [C39_partial hd x (by omega) (by omega) (by omega) ht ht']
  simp only [List.getElem?_map]
  rw [List.getElem?_range (by omega), List.getElem?_range (by omega)]
  simp only [Option.map_some]
  rw [show 1 + b = b + 1 from Nat.add_comm 1 b, hlast, hidx 0 (by omega), Nat.add_zero]
  congr 2
  rw [← List.map_drop, ← List.map_take, Sumcheck.foldl_add, zero_add, List.range_eq_range', List.drop_range',
    show (List.range' (0 + 1 * 1) (b + 2 - 1)).take b = (List.range b).map (1 + ·) by
      apply List.ext_getElem
      · simp
      · intro i h1 h2; simp, List.map_map, List.map_map, ← Sumcheck.sum_range_list]
  refine congrArg List.sum (List.map_congr_left fun i hi => ?_)
  rw [List.mem_range] at hi
  simp only [Function.comp]
  rw [hidx (1 + i) (by omega)]
  congr 2
  omega

/-- In row `j` of the table they are the values that the constraints of a row use. -/
theorem C66_lvalues_row (threads : ℕ) (ht : 0 < threads) (ht' : threads < 128) (d : FFT.Domain F) (hd : d.Valid)
    (ho : d.offset = 1) (b : ℕ) (hb : b + 2 ≤ d.size) (hb' : b + 1 < 2 ^ 31) (j : ℕ) (hj : j < d.size) :
    lValues threads d (d.gen ^ j) b = some (rowL (d.size - (b + 1)) j) := by
  have hinj : Set.InjOn (fun j => d.offset * d.gen ^ j) (range d.size : Finset ℕ) := by
    intro i hi k hk h
    simp only [ho, one_mul] at h
    rw [Finset.coe_range, Set.mem_Iio] at hi hk
    exact hd.prim.pow_inj hi hk h
  have hL : ∀ i < d.size, (Lagrange.basis (range d.size) (fun j => d.offset * d.gen ^ j) i).eval (d.gen ^ j) =
      if j = i then 1 else 0 := by
    intro i hi
    rw [show d.gen ^ j = (fun j => d.offset * d.gen ^ j) j by simp [ho]]
    split
    · rename_i h
      subst h
      exact Lagrange.eval_basis_self hinj (mem_range.2 hi)
    · rename_i h
      exact Lagrange.eval_basis_of_ne (v := fun j => d.offset * d.gen ^ j) (fun h' => h h'.symm) (mem_range.2 hj)
  rw [C66_lvalues threads ht ht' d hd _ b hb hb', hL 0 (by omega), hL _ (by omega)]
  have : ∑ i ∈ range b, (Lagrange.basis (range d.size) (fun j => d.offset * d.gen ^ j) (d.size - b + i)).eval
      (d.gen ^ j) = if d.size - (b + 1) < j then 1 else 0 := by
    rw [sum_congr rfl fun (i : ℕ) hi => hL (d.size - b + i) (by rw [mem_range] at hi; omega)]
    split
    · rename_i h
      rw [sum_eq_single (j - (d.size - b))]
      · rw [if_pos (by omega)]
      · intro i _ hne; rw [if_neg (by omega)]
      · intro hni; rw [mem_range] at hni; omega
    · rename_i h
      exact sum_eq_zero fun i _ => if_neg (by omega)
  rw [this]
  rfl

/-- With no usable row the verifier fails its check. -/
theorem C66_lvalues_fail (threads : ℕ) (d : FFT.Domain F) (x : F) (b : ℕ) (hb : d.size < b + 2) :
    lValues threads d x b = none := by
  unfold lValues
  rw [C39_partial_too_long x hb]

end

/-! ### Examples -/

/-- Column 0 copies row 0 to row 2 of column 1. -/
private def copies : List ((Fin 2 × Fin 4) × (Fin 2 × Fin 4)) := [((0, 0), (1, 2)), ((1, 0), (0, 1))]

/-- The whole argument over `F17`, a column per chunk: the last factor is 1. -/
example : ((run (Store.new 2 4) (copies.map fun p => (lab p.1, lab p.2))).bind fun s =>
    (generate 3 2 4 4 (4 : F17) 3 s).bind fun P =>
      permCreate 3 4 0 (fun i => (i : F17)) 0 [[5, 6, 1, 9], [6, 2, 5, 9]] P (unpermuted 3 2 4 4 3) 1 2 2) =
    some ([[1, 9, 3, 3], [3, 9, 9, 1]], 1, 2) := by decide +kernel

example :
    ∃ s P zs k', run (Store.new 2 4) (copies.map fun p => (lab p.1, lab p.2)) = some s ∧
      generate 3 2 4 4 (4 : F17) 3 s = some P ∧
      permCreate 3 4 0 (fun i => (i : F17)) 0 [[5, 6, 1, 9], [6, 2, 5, 9]] P (unpermuted 3 2 4 4 3) 1 2 2 =
        some (zs, 1, k') ∧
      PermHolds 4 3 1 (4 : F17) 3 2 2 [[5, 6, 1, 9], [6, 2, 5, 9]] P zs :=
  C66_complete 3 4 0 2 1 (by omega) (by omega) (by omega) (by omega) (by omega) (by omega) (by omega) _ 0 4 3 2 2
    copies (by decide) _ ⟨rfl, by decide⟩ (by decide) (by decide +kernel)

section
local instance prime13GrandProduct : Fact (Nat.Prime 13) := ⟨by norm_num⟩

/-- Over the field with 13 elements, where the order 3 of `δ = 3` and the order 4 of `ω = 5` are coprime. -/
example : ∃ s P, run (Store.new 2 4) (copies.map fun p => (lab p.1, lab p.2)) = some s ∧
      generate 3 2 4 4 (5 : ZMod 13) 3 s = some P ∧
      ∀ values, IsTable 2 4 values → (∃ p ∈ copies, cell values p.1.1 p.1.2 ≠ cell values p.2.1 p.2.2) →
        {r : ZMod 13 × ZMod 13 | ∃ zs, IsTable 2 4 zs ∧
          PermHolds 4 3 1 (5 : ZMod 13) 3 r.1 r.2 values P zs}.ncard ≤ 2 * (2 * 3) * 13 := by
  have h3 : orderOf (3 : ZMod 13) = 3 := orderOf_eq_prime (by decide) (by decide)
  have h5 : orderOf (5 : ZMod 13) = 4 := orderOf_eq_prime_pow (p := 2) (n := 1) (by decide) (by decide)
  exact C66_sound 3 4 0 2 1 (by omega) (by omega) (by omega) (by omega) (by omega) (by omega) (by omega) 5 3
    (by rw [h3]; omega) (by rw [h5]) (by rw [h3, h5]; decide) copies (by decide)

end

/-- Rows 0, 5 and 6 of the domain `<9>` of eight elements, two of them for blinding. -/
example : [0, 5, 6].map (fun j => (lValues 3 exMain (9 ^ j) 2).map fun l => (l.first, l.blind, l.last)) =
    [some (1, 0, 0), some (0, 0, 1), some (0, 1, 0)] := by decide +kernel

end Tachyon.Props
