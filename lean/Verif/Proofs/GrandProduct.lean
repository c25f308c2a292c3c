import Verif.Spec.GrandProduct
import Verif.Proofs.Sumcheck
import Verif.Props.Group
/-! The columns built by the prover and the values of the constraints. -/
universe u
namespace Tachyon.GrandProduct
open Parallel Lookup Tachyon.Group Finset

variable {F : Type u} [Field F] [DecidableEq F]

omit [Field F] [DecidableEq F] in
theorem map_zipIdx_range' {α β : Type*} (f : α → ℕ → β) (h : ℕ → α) : ∀ (a len : ℕ),
    ((List.range' a len).map h).zipIdx.map (fun x => f x.1 (a + x.2)) =
      (List.range' a len).map fun j => f (h j) j := by
  intro a len
  apply List.ext_getElem
  · simp
  · intro i h1 h2
    simp

omit [DecidableEq F] in
theorem mulCols_eq (cb : ℕ → ℕ → Option F) (w : ℕ → ℕ → F) (cols start len : ℕ)
    (h : ∀ i < cols, ∀ j, start ≤ j → j < start + len → cb i j = some (w i j)) (g : ℕ → F) :
    mulCols cb cols start ((List.range' start len).map g) =
      some ((List.range' start len).map fun j => g j * ∏ i ∈ range cols, w i j) := by
  unfold mulCols
  induction cols generalizing g with
  | zero => simp
  | succ cols ih =>
    rw [List.range_succ, List.foldlM_append, ih (fun i hi => h i (by omega)) g]
    simp only [List.foldlM_cons, List.foldlM_nil, Option.bind_eq_bind, Option.bind_some]
    rw [Sumcheck.mapM_some' (w := fun a => a.1 * w cols (start + a.2))]
    · rw [Option.bind_some]
      show some _ = some _
      rw [map_zipIdx_range' (fun a j => a * w cols j)]
      congr 1
      refine List.map_congr_left fun j _ => ?_
      rw [prod_range_succ, mul_assoc]
    · intro a ha
      have hlt := List.snd_lt_of_mem_zipIdx ha
      rw [List.length_map, List.length_range'] at hlt
      rw [h cols (by omega) (start + a.2) (by omega) (by omega)]
      rfl

theorem inv_or_zero (g : F) : (if g = 0 then 0 else 1 * g⁻¹) = g⁻¹ := by
  split
  · rename_i h; rw [h, inv_zero]
  · rw [one_mul]

/-- The factor of a row. -/
def ratio (num den : ℕ → ℕ → F) (cols j : ℕ) : F :=
  (∏ i ∈ range cols, num i j) * (∏ i ∈ range cols, den i j)⁻¹

theorem chunkRatios_eq (num den : ℕ → ℕ → Option F) (nw dw : ℕ → ℕ → F) (cols start len : ℕ)
    (hn : ∀ i < cols, ∀ j, start ≤ j → j < start + len → num i j = some (nw i j))
    (hd : ∀ i < cols, ∀ j, start ≤ j → j < start + len → den i j = some (dw i j)) :
    chunkRatios num den cols start len = some ((List.range' start len).map (ratio nw dw cols)) := by
  unfold chunkRatios
  have e : List.replicate len (1 : F) = (List.range' start len).map fun _ => 1 := by
    apply List.ext_getElem <;> simp
  rw [e, mulCols_eq den dw cols start len hd]
  simp only
  rw [Props.C22_serial]
  simp only [List.map_map]
  rw [show ((fun g : F => if g = 0 then 0 else 1 * g⁻¹) ∘ fun j => 1 * ∏ i ∈ range cols, dw i j) =
    fun j => (∏ i ∈ range cols, dw i j)⁻¹ from funext fun j => by
      simp only [Function.comp]; rw [inv_or_zero, one_mul]]
  rw [mulCols_eq num nw cols start len hn]
  congr 1
  refine List.map_congr_left fun j _ => ?_
  rw [ratio, mul_comm]

theorem invocations_range {threads n : ℕ} (ht : 0 < threads) (h : n + threads ≤ 2 ^ 64) (h2 : 2 * n ≤ 2 ^ 64) :
    ((invocations n (sizePerThread threads n none)).map fun c =>
      List.range' (c.1 * sizePerThread threads n none) c.2).flatten = List.range n := by
  obtain ⟨hp, hle, -⟩ := sizePerThread_bounds ht h none
  generalize sizePerThread threads n none = cs at *
  rcases Nat.eq_zero_or_pos cs with h0 | h0
  · have : n = 0 := by omega
    subst this; rw [invocations, if_pos h0]; rfl
  · have := flatMap_chunkOf (List.range n) h0 (by rw [List.length_range]; omega)
    rw [List.length_range, List.flatMap_def] at this
    rw [← this]
    congr 1
    refine List.map_congr_left fun c hc => ?_
    obtain ⟨h3, h4⟩ := (mem_invocations h0).1 hc
    obtain ⟨h5, h6, h7, h8⟩ := chunk_bounds h0 (by omega) h3
    rw [← h4] at h6
    exact (Sumcheck.chunkOf_range (i := c.1) (by omega)).symm

omit [DecidableEq F] in
theorem scanl_take (l : List F) (z : F) :
    l.scanl (· * ·) z = (List.range (l.length + 1)).map fun i => z * (l.take i).prod := by
  induction l generalizing z with
  | nil => simp
  | cons a l ih =>
    rw [List.scanl_cons, ih, List.length_cons, List.range_succ_eq_map (n := l.length + 1), List.map_cons,
      List.map_map]
    simp [Function.comp_def, mul_assoc]

omit [DecidableEq F] in
theorem scanl_range (f : ℕ → F) (z : F) (u : ℕ) :
    ((List.range u).map f).scanl (· * ·) z = (List.range (u + 1)).map fun i => z * ∏ j ∈ range i, f j := by
  rw [scanl_take]
  simp only [List.length_map, List.length_range]
  refine List.map_congr_left fun i hi => ?_
  rw [List.mem_range] at hi
  rw [← List.map_take, List.take_range, min_eq_left (by omega), Sumcheck.prod_range_list]

theorem usableRows_eq {n b : Nat} (hb : b + 1 ≤ n) (hn : n < 2 ^ 32) : usableRows n b = n - (b + 1) := by
  unfold usableRows
  rw [Nat.mod_eq_of_lt (show b + 1 < 2 ^ 32 by omega)]
  omega

omit [DecidableEq F] in
theorem doCreate_eq {n b : ℕ} (hb : b + 1 ≤ n) (hn : n < 2 ^ 32) (rnd : ℕ → F) (k : ℕ) (z : F) (f : ℕ → F) :
    doCreate n b rnd k z ((List.range n).map f) =
      some ((List.range (n - b)).map (fun i => z * ∏ j ∈ range i, f j) ++ (List.range b).map (fun i => rnd (k + i)),
        z * ∏ j ∈ range (n - (b + 1)), f j, k + b) := by
  unfold doCreate
  rw [usableRows_eq hb hn]
  simp only [List.length_map, List.length_range]
  rw [if_neg (by omega)]
  have e1 : ((List.range n).map f).take (n - (b + 1)) = (List.range (n - (b + 1))).map f := by
    rw [← List.map_take, List.take_range, min_eq_left (by omega)]
  rw [e1, scanl_range]
  have e2 : n - (b + 1) + 1 = n - b := by omega
  rw [e2]
  generalize hzs : (List.range (n - b)).map (fun i => z * ∏ j ∈ range i, f j) = zs
  have hlen : zs.length = n - b := by rw [← hzs]; simp
  have hl : zs.getLast? = some (z * ∏ j ∈ range (n - (b + 1)), f j) := by
    rw [← hzs, List.getLast?_eq_getElem?]
    simp only [List.length_map, List.length_range, List.getElem?_map]
    rw [List.getElem?_range (by omega)]
    simp [Nat.sub_sub]
  have hd : (zs ++ ((List.range n).map f).drop (n - (b + 1))).length = n + 1 := by
    simp [hlen]; omega
  rw [hl]
  unfold blind
  simp only [Bool.false_eq_true, if_false, Nat.add_zero]
  rw [Nat.mod_eq_of_lt (show b < 2 ^ 32 by omega), List.length_dropLast, hd, if_neg (by omega)]
  simp only
  congr 3
  rw [List.dropLast_eq_take, List.take_take, hd, List.take_append_of_le_length (by omega),
    List.take_of_length_le (by omega)]

theorem createChunked_eq {cs n b : ℕ} (hb : b + 1 ≤ n) (hn : n < 2 ^ 32) (rnd : ℕ → F) (k : ℕ)
    (num den : ℕ → ℕ → Option F) (nw dw : ℕ → ℕ → F) (cols : ℕ) (z : F)
    (hinv : ((invocations n cs).map fun c => List.range' (c.1 * cs) c.2).flatten = List.range n)
    (hnum : ∀ i < cols, ∀ j < n, num i j = some (nw i j)) (hden : ∀ i < cols, ∀ j < n, den i j = some (dw i j)) :
    createChunked cs n b rnd k num den cols z =
      some ((List.range (n - b)).map (fun i => z * ∏ j ∈ range i, ratio nw dw cols j) ++
        (List.range b).map (fun i => rnd (k + i)), z * ∏ j ∈ range (n - (b + 1)), ratio nw dw cols j, k + b) := by
  have hm : ((invocations n cs).mapM fun c => chunkRatios num den cols (c.1 * cs) c.2) =
      some ((invocations n cs).map fun c => (List.range' (c.1 * cs) c.2).map (ratio nw dw cols)) := by
    refine Sumcheck.mapM_some' fun c hc => ?_
    have hmem : ∀ j, c.1 * cs ≤ j → j < c.1 * cs + c.2 → j < n := by
      intro j h1 h2
      rw [← List.mem_range, ← hinv, List.mem_flatten]
      exact ⟨_, List.mem_map.2 ⟨c, hc, rfl⟩, List.mem_range'_1.2 ⟨h1, h2⟩⟩
    exact chunkRatios_eq _ _ _ _ _ _ _ (fun i hi j h1 h2 => hnum i hi j (hmem j h1 h2))
      (fun i hi j h1 h2 => hden i hi j (hmem j h1 h2))
  have e : ((invocations n cs).map fun c => (List.range' (c.1 * cs) c.2).map (ratio nw dw cols)).flatten =
      (List.range n).map (ratio nw dw cols) := by
    rw [← hinv, List.map_flatten, List.map_map, Function.comp_def]
  unfold createChunked
  rw [hm]
  simp only
  rw [e, doCreate_eq hb hn rnd k z (ratio nw dw cols)]

/-- The column built by `CreateExcessivePoly`. -/
theorem createExcessive_eq {threads n b : ℕ} (ht : 0 < threads) (ht' : threads ≤ 2 ^ 63) (hb : b + 1 ≤ n)
    (hn : n < 2 ^ 32) (rnd : ℕ → F) (k : ℕ) (num den : ℕ → ℕ → Option F) (nw dw : ℕ → ℕ → F) (cols : ℕ) (z : F)
    (hnum : ∀ i < cols, ∀ j < n, num i j = some (nw i j)) (hden : ∀ i < cols, ∀ j < n, den i j = some (dw i j)) :
    createExcessive threads n b rnd k num den cols z =
      some ((List.range (n - b)).map (fun i => z * ∏ j ∈ range i, ratio nw dw cols j) ++
        (List.range b).map (fun i => rnd (k + i)), z * ∏ j ∈ range (n - (b + 1)), ratio nw dw cols j, k + b) :=
  createChunked_eq hb hn rnd k num den nw dw cols z (invocations_range ht (by omega) (by omega)) hnum hden

/-- The column built by `CreatePolySerial`. -/
theorem createSerial_eq {n b : ℕ} (hb : b + 1 ≤ n) (hn : n < 2 ^ 32) (rnd : ℕ → F) (k : ℕ)
    (num den : ℕ → Option F) (nw dw : ℕ → F) (hnum : ∀ j < n, num j = some (nw j))
    (hden : ∀ j < n, den j = some (dw j)) :
    createSerial n b rnd k num den =
      some ((List.range (n - b)).map (fun i => ∏ j ∈ range i, nw j * (dw j)⁻¹) ++
        (List.range b).map (fun i => rnd (k + i)), ∏ j ∈ range (n - (b + 1)), nw j * (dw j)⁻¹, k + b) := by
  unfold createSerial
  rw [Sumcheck.mapM_some' (w := dw) (fun j hj => hden j (List.mem_range.1 hj))]
  simp only
  rw [Props.C22_serial]
  simp only [List.map_map]
  rw [show ((fun g : F => if g = 0 then 0 else 1 * g⁻¹) ∘ dw) = fun j => (dw j)⁻¹ from
    funext fun j => by simp only [Function.comp]; rw [inv_or_zero]]
  rw [Sumcheck.mapM_some' (w := fun a => a.1 * nw a.2)]
  · have := map_zipIdx_range' (fun (a : F) j => a * nw j) (fun j => (dw j)⁻¹) 0 n
    simp only [Nat.zero_add, ← List.range_eq_range'] at this
    simp only
    rw [this, doCreate_eq hb hn]
    simp only [one_mul, mul_comm]
  · intro a ha
    have hlt := List.snd_lt_of_mem_zipIdx ha
    rw [List.length_map, List.length_range] at hlt
    rw [hnum _ (by omega)]
    rfl

/-! ### Chunks of columns -/

/-- The number of columns of chunk `t`. -/
def width (c len t : ℕ) : ℕ := min len (c - t * len)

theorem chunkNum_bounds {c len : ℕ} (hl : 0 < len) : c ≤ chunkNum c len * len ∧
    ∀ t < chunkNum c len, t * len < c := by
  unfold chunkNum
  have h1 := Nat.div_add_mod (c + len - 1) len
  have h2 := Nat.mod_lt (c + len - 1) hl
  generalize (c + len - 1) / len = q at *
  have h3 : len * q = q * len := mul_comm _ _
  refine ⟨by omega, fun t ht => ?_⟩
  have h4 : (t + 1) * len ≤ q * len := Nat.mul_le_mul_right _ ht
  have h5 : (t + 1) * len = t * len + len := by ring
  omega

theorem chunkSize_eq {c len t : ℕ} (hl : 0 < len) (ht : t < chunkNum c len) :
    chunkSize c len t = some (width c len t) := by
  obtain ⟨h1, h2⟩ := chunkNum_bounds (c := c) hl
  unfold chunkSize width
  rw [if_neg (by omega)]
  split
  · rename_i h
    have h3 := h2 (t + 1) (by omega)
    have h4 : (t + 1) * len = t * len + len := by ring
    rw [min_eq_left (by omega)]
  · rename_i h
    have h4 : chunkNum c len = t + 1 := by omega
    rw [h4] at h1
    have h5 : (t + 1) * len = t * len + len := by ring
    have h3 := h2 t ht
    rw [h4, Nat.add_sub_cancel, min_eq_right (by omega)]

omit [DecidableEq F] in
theorem prod_chunks {c len : ℕ} (hl : 0 < len) (f : ℕ → F) :
    ∏ t ∈ range (chunkNum c len), ∏ i ∈ range (width c len t), f (t * len + i) = ∏ i ∈ range c, f i := by
  have key : ∀ m, ∏ t ∈ range m, ∏ i ∈ range (width c len t), f (t * len + i) =
      ∏ i ∈ range (min (m * len) c), f i := by
    intro m
    induction m with
    | zero => simp
    | succ m ih =>
      rw [prod_range_succ, ih]
      have h : (m + 1) * len = m * len + len := by ring
      rcases Nat.lt_or_ge c (m * len) with h1 | h1
      · rw [min_eq_right (by omega), min_eq_right (by omega), width, Nat.sub_eq_zero_of_le (by omega)]
        simp
      · rw [min_eq_left h1, show min ((m + 1) * len) c = m * len + width c len m by unfold width; omega,
          prod_range_add]
  rw [key, min_eq_right (chunkNum_bounds hl).1]

omit [DecidableEq F] in
theorem permCallback_eq {c n : ℕ} (labels values : List (List F)) (L V : ℕ → ℕ → F)
    (hL : ∀ i < c, ∀ j < n, cell labels i j = some (L i j)) (hV : ∀ i < c, ∀ j < n, cell values i j = some (V i j))
    (off : ℕ) (beta gamma : F) (i j : ℕ) (hi : off + i < c) (hj : j < n) :
    permCallback labels values off beta gamma i j = some (V (off + i) j + beta * L (off + i) j + gamma) := by
  unfold permCallback
  rw [hL _ hi _ hj, hV _ hi _ hj]

/-- The factor of row `j` of chunk `t`. -/
def permRatio (V P U : ℕ → ℕ → F) (c len : ℕ) (beta gamma : F) (t j : ℕ) : F :=
  ratio (fun i j => V (t * len + i) j + beta * U (t * len + i) j + gamma)
    (fun i j => V (t * len + i) j + beta * P (t * len + i) j + gamma) (width c len t) j

/-- The columns of the permutation argument. -/
theorem permLoop_eq {threads n b c len : ℕ} (ht : 0 < threads) (ht' : threads ≤ 2 ^ 63) (hb : b + 1 ≤ n)
    (hn : n < 2 ^ 32) (hl : 0 < len) (rnd : ℕ → F) (values permuted unpermuted : List (List F)) (V P U : ℕ → ℕ → F)
    (hc : values.length = c) (hV : ∀ i < c, ∀ j < n, cell values i j = some (V i j))
    (hP : ∀ i < c, ∀ j < n, cell permuted i j = some (P i j))
    (hU : ∀ i < c, ∀ j < n, cell unpermuted i j = some (U i j)) (beta gamma : F) :
    ∀ (m idx : ℕ) (z : F) (k : ℕ), idx + m = chunkNum c len →
    permLoop threads n b rnd values permuted unpermuted len beta gamma m idx z k =
      some ((List.range m).map (fun t =>
          (List.range (n - b)).map (fun i => (z * ∏ s ∈ range t, ∏ j ∈ range (n - (b + 1)),
            permRatio V P U c len beta gamma (idx + s) j) * ∏ j ∈ range i, permRatio V P U c len beta gamma (idx + t) j) ++
          (List.range b).map (fun i => rnd (k + t * (b + 1) + i))),
        z * ∏ s ∈ range m, ∏ j ∈ range (n - (b + 1)), permRatio V P U c len beta gamma (idx + s) j,
        k + m * (b + 1)) := by
  intro m
  induction m with
  | zero => intro idx z k _; simp [permLoop]
  | succ m ih =>
    intro idx z k hidx
    have hlt : idx < chunkNum c len := by omega
    rw [permLoop]
    unfold permStep
    rw [hc, chunkSize_eq hl hlt, Option.bind_some]
    have hw : ∀ i < width c len idx, idx * len + i < c := by
      intro i hi; unfold width at hi; omega
    rw [createExcessive_eq ht ht' hb hn rnd k _ _
      (fun i j => V (idx * len + i) j + beta * U (idx * len + i) j + gamma)
      (fun i j => V (idx * len + i) j + beta * P (idx * len + i) j + gamma) _ _
      (fun i hi j hj => permCallback_eq _ _ U V hU hV _ _ _ _ _ (hw i hi) hj)
      (fun i hi j hj => permCallback_eq _ _ P V hP hV _ _ _ _ _ (hw i hi) hj)]
    rw [Option.bind_some]
    rw [ih (idx + 1) _ _ (by omega)]
    simp only [Option.map_some]
    rw [List.range_succ_eq_map, List.map_cons, List.map_map]
    congr 2
    · congr 1
      · simp [permRatio]
      · refine List.map_congr_left fun t _ => ?_
        simp only [Function.comp, Nat.succ_eq_add_one]
        congr 1
        · refine List.map_congr_left fun i _ => ?_
          rw [prod_range_succ', mul_assoc z, mul_comm (∏ k ∈ range t, _)]
          simp only [permRatio, Nat.add_zero, show ∀ s, idx + 1 + s = idx + (s + 1) from fun s => by omega]
        · refine List.map_congr_left fun i _ => ?_
          congr 1
          ring
    · congr 1
      · rw [prod_range_succ', mul_assoc z, mul_comm (∏ k ∈ range m, _)]
        simp only [permRatio, Nat.add_zero, show ∀ s, idx + 1 + s = idx + (s + 1) from fun s => by omega]
      · ring

/-! ### The values of the constraints -/

omit [DecidableEq F] in
theorem rightLoop_eq (delta gamma : F) (v : ℕ → F) : ∀ (w a : ℕ) (cur acc : F),
    rightLoop delta gamma ((List.range' a w).map v) cur acc =
      acc * ∏ i ∈ range w, (v (a + i) + cur * delta ^ i + gamma) := by
  intro w
  induction w with
  | zero => intro a cur acc; simp [rightLoop]
  | succ w ih =>
    intro a cur acc
    rw [List.range'_succ, List.map_cons, rightLoop, ih, prod_range_succ', mul_assoc, mul_comm (∏ k ∈ range w, _)]
    simp only [pow_succ, Nat.add_zero, pow_zero, mul_one, show ∀ i, a + 1 + i = a + (i + 1) from fun i => by omega]
    congr 2
    refine prod_congr rfl fun i _ => ?_
    ring

theorem drop_take_range {α : Type*} (v : ℕ → α) (c a len : ℕ) :
    (((List.range c).map v).drop a).take len = (List.range' a (min len (c - a))).map v := by
  apply List.ext_getElem
  · simp
  · intro i h1 h2
    simp

omit [DecidableEq F] in
/-- A chunk of columns. -/
theorem permChunk_eq {c len t : ℕ} (hl : 0 < len) (ht : t < chunkNum c len) (hc : c < 2 ^ 64) (l : LValues F)
    (x beta gamma delta : F) (v s z zn : ℕ → F) (m : ℕ) (hm : t < m) :
    permChunk l x beta gamma delta len ((List.range c).map v) ((List.range c).map s) ((List.range m).map z)
      ((List.range m).map zn) t =
    some (l.active * (zn t * (∏ i ∈ range (width c len t), (v (t * len + i) + beta * s (t * len + i) + gamma)) -
      z t * ∏ i ∈ range (width c len t), (v (t * len + i) + beta * (delta ^ (t * len + i) * x) + gamma))) := by
  have hlt := (chunkNum_bounds (c := c) hl).2 t ht
  have hw : width c len t ≤ c - t * len := by unfold width; omega
  unfold permChunk
  rw [drop_take_range v c]
  simp only [List.length_map, List.length_range']
  rw [drop_take_range s c]
  rw [show min len (c - t * len) = width c len t from rfl, min_eq_left hw]
  rw [if_neg (by simp)]
  rw [List.getElem?_map, List.getElem?_map, List.getElem?_range hm]
  simp only [Option.map_some]
  rw [rightLoop_eq, powSize_eq _ (by omega)]
  have hz : ((List.range' (t * len) (width c len t)).map v).zip ((List.range' (t * len) (width c len t)).map s) =
      (List.range (width c len t)).map fun i => (v (t * len + i), s (t * len + i)) := by
    apply List.ext_getElem
    · simp
    · intro i h1 h2
      simp
  rw [hz, Sumcheck.foldl_mul (fun p : F × F => p.1 + beta * p.2 + gamma), List.map_map,
    Sumcheck.prod_range_list]
  congr 4
  refine prod_congr rfl fun i _ => ?_
  rw [pow_add]
  ring

omit [DecidableEq F] in
theorem permEvaluate_eq {c len : ℕ} (hl : 0 < len) (hc0 : 0 < c) (hc : c < 2 ^ 64) (l : LValues F)
    (x beta gamma delta : F) (v s z zn zl : ℕ → F) (m : ℕ) (hm : m = chunkNum c len) :
    permEvaluate l x beta gamma delta len ((List.range c).map v) ((List.range c).map s) ((List.range m).map z)
      ((List.range m).map zn) ((((List.range m).map zl).dropLast).map some ++ [none]) =
    some ([l.first * (1 - z 0), l.last * (z (m - 1) ^ 2 - z (m - 1))] ++
      (List.range (m - 1)).map (fun i => l.first * (z (i + 1) - zl i)) ++
      (List.range m).map fun t => l.active * (zn t * (∏ i ∈ range (width c len t),
        (v (t * len + i) + beta * s (t * len + i) + gamma)) -
        z t * ∏ i ∈ range (width c len t), (v (t * len + i) + beta * (delta ^ (t * len + i) * x) + gamma))) := by
  have hm0 : 0 < m := by
    have := (chunkNum_bounds (c := c) hl).1
    rw [← hm] at this
    rcases Nat.eq_zero_or_pos m with h | h
    · rw [h] at this; omega
    · exact h
  have h1 : ((List.range m).map z).head? = some (z 0) := by
    rw [List.head?_eq_getElem?, List.getElem?_map, List.getElem?_range hm0]; rfl
  have h2 : ((List.range m).map z).getLast? = some (z (m - 1)) := by
    rw [List.getLast?_eq_getElem?, List.length_map, List.length_range, List.getElem?_map,
      List.getElem?_range (by omega)]; rfl
  unfold permEvaluate
  rw [h1, h2]
  simp only
  rw [if_neg (by omega), List.length_map, List.length_range]
  rw [Sumcheck.mapM_some' (w := fun i => l.first * (z (i + 1) - zl i))]
  · simp only [List.length_map, List.length_range]
    rw [Sumcheck.mapM_some' (w := fun t => l.active * (zn t * (∏ i ∈ range (width c len t),
        (v (t * len + i) + beta * s (t * len + i) + gamma)) -
        z t * ∏ i ∈ range (width c len t), (v (t * len + i) + beta * (delta ^ (t * len + i) * x) + gamma)))]
    · rw [← hm]; rfl
    · intro t ht
      rw [List.mem_range] at ht
      exact permChunk_eq hl ht hc _ _ _ _ _ _ _ _ _ _ (by omega)
  · intro i hi
    rw [List.mem_range] at hi
    unfold linkEvaluate
    rw [List.getElem?_map, List.getElem?_range (by omega), List.getElem?_append_left (by simp; omega),
      List.getElem?_map, List.getElem?_dropLast, if_pos (by simp; omega), List.getElem?_map,
      List.getElem?_range (by omega)]
    rfl

/-! ### Tables -/

/-- The value of a cell. -/
def val (t : List (List F)) (i j : ℕ) : F := (t.getD i []).getD j 0

omit [DecidableEq F] in
theorem cell_val {c n : ℕ} {t : List (List F)} (h : IsTable c n t) {i j : ℕ} (hi : i < c) (hj : j < n) :
    cell t i j = some (val t i j) := by
  obtain ⟨h1, h2⟩ := h
  have hi' : i < t.length := by omega
  have hl := h2 t[i] (List.getElem_mem hi')
  unfold cell val
  rw [List.getElem?_eq_getElem hi', Option.bind_some, List.getElem?_eq_getElem (by omega),
    List.getD_eq_getElem _ _ hi', List.getD_eq_getElem _ _ (by omega)]

omit [DecidableEq F] in
theorem rowOf_val {c n : ℕ} {t : List (List F)} (h : IsTable c n t) {j : ℕ} (hj : j < n) :
    rowOf t j = some ((List.range c).map fun i => val t i j) := by
  obtain ⟨h1, h2⟩ := h
  unfold rowOf
  rw [Sumcheck.mapM_some' (w := fun col => col.getD j 0)]
  · congr 1
    apply List.ext_getElem
    · simp [h1]
    · intro i hi hi'
      rw [List.length_map] at hi
      simp only [List.getElem_map, List.getElem_range, val]
      rw [List.getD_eq_getElem t _ hi]
  · intro col hcol
    have := h2 col hcol
    rw [List.getElem?_eq_getElem (by omega), List.getD_eq_getElem _ _ (by omega)]

/-- The constraints, spelled out. -/
structure Chain (n u c len : ℕ) (omega delta beta gamma : F) (V P : ℕ → ℕ → F) (z : ℕ → ℕ → F) : Prop where
  start : z 0 0 = 1
  stop : z (chunkNum c len - 1) u ^ 2 = z (chunkNum c len - 1) u
  link : ∀ t, t + 1 < chunkNum c len → z (t + 1) 0 = z t u
  step : ∀ t < chunkNum c len, ∀ j < u, z t (j + 1) * (∏ i ∈ range (width c len t),
    (V (t * len + i) j + beta * P (t * len + i) j + gamma)) =
    z t j * ∏ i ∈ range (width c len t), (V (t * len + i) j + beta * (delta ^ (t * len + i) * omega ^ j) + gamma)

omit [DecidableEq F] in
theorem permHolds_iff {n u c len : ℕ} (hl : 0 < len) (hc0 : 0 < c) (hc : c < 2 ^ 64) (hu : u < n)
    (omega delta beta gamma : F) {values permuted zs : List (List F)} (hv : IsTable c n values)
    (hp : IsTable c n permuted) (hz : IsTable (chunkNum c len) n zs) :
    PermHolds n u len omega delta beta gamma values permuted zs ↔
      Chain n u c len omega delta beta gamma (val values) (val permuted) (val zs) := by
  have hn : 0 < n := by omega
  have hm0 : 0 < chunkNum c len := by
    have := (chunkNum_bounds (c := c) hl).1
    rcases Nat.eq_zero_or_pos (chunkNum c len) with h | h
    · rw [h] at this; omega
    · exact h
  have key : ∀ j < n, (∃ v s z zn zl es, rowOf values j = some v ∧ rowOf permuted j = some s ∧
      rowOf zs j = some z ∧ rowOf zs ((j + 1) % n) = some zn ∧ rowOf zs ((j + u) % n) = some zl ∧
      permEvaluate (rowL u j) (omega ^ j) beta gamma delta len v s z zn (zl.dropLast.map some ++ [none]) = some es ∧
      ∀ e ∈ es, e = 0) ↔
      ((rowL (F := F) u j).first * (1 - val zs 0 j) = 0 ∧
        (rowL (F := F) u j).last * (val zs (chunkNum c len - 1) j ^ 2 - val zs (chunkNum c len - 1) j) = 0 ∧
        (∀ t < chunkNum c len - 1, (rowL (F := F) u j).first * (val zs (t + 1) j - val zs t ((j + u) % n)) = 0) ∧
        ∀ t < chunkNum c len, (rowL (F := F) u j).active * (val zs t ((j + 1) % n) * (∏ i ∈ range (width c len t),
          (val values (t * len + i) j + beta * val permuted (t * len + i) j + gamma)) -
          val zs t j * ∏ i ∈ range (width c len t),
            (val values (t * len + i) j + beta * (delta ^ (t * len + i) * omega ^ j) + gamma)) = 0) := by
    intro j hj
    have e := permEvaluate_eq hl hc0 hc (rowL u j) (omega ^ j) beta gamma delta (fun i => val values i j)
      (fun i => val permuted i j) (fun t => val zs t j) (fun t => val zs t ((j + 1) % n))
      (fun t => val zs t ((j + u) % n)) _ rfl
    constructor
    · rintro ⟨v, s, z, zn, zl, es, h1, h2, h3, h4, h5, h6, h7⟩
      rw [rowOf_val hv hj] at h1
      rw [rowOf_val hp hj] at h2
      rw [rowOf_val hz hj] at h3
      rw [rowOf_val hz (Nat.mod_lt _ hn)] at h4 h5
      cases h1; cases h2; cases h3; cases h4; cases h5
      rw [e] at h6
      cases h6
      refine ⟨h7 _ (by simp), h7 _ (by simp), fun t ht => h7 _ ?_, fun t ht => h7 _ ?_⟩
      · exact List.mem_append_left _ (List.mem_append_right _ (List.mem_map.2 ⟨t, List.mem_range.2 ht, rfl⟩))
      · exact List.mem_append_right _ (List.mem_map.2 ⟨t, List.mem_range.2 ht, rfl⟩)
    · rintro ⟨h1, h2, h3, h4⟩
      refine ⟨_, _, _, _, _, _, rowOf_val hv hj, rowOf_val hp hj, rowOf_val hz hj,
        rowOf_val hz (Nat.mod_lt _ hn), rowOf_val hz (Nat.mod_lt _ hn), e, ?_⟩
      intro a ha
      rw [List.mem_append, List.mem_append, List.mem_map, List.mem_map] at ha
      rcases ha with (ha | ⟨t, ht, rfl⟩) | ⟨t, ht, rfl⟩
      · simp only [List.mem_cons, List.not_mem_nil, or_false] at ha
        rcases ha with rfl | rfl
        · exact h1
        · exact h2
      · exact h3 t (List.mem_range.1 ht)
      · exact h4 t (List.mem_range.1 ht)
  constructor
  · intro h
    have h' := fun j hj => (key j hj).1 (h j hj)
    refine ⟨?_, ?_, ?_, ?_⟩
    · have := (h' 0 hn).1
      simp only [rowL, if_true, one_mul] at this
      exact (sub_eq_zero.1 this).symm
    · have := (h' u hu).2.1
      simp only [rowL, if_true, one_mul] at this
      exact sub_eq_zero.1 this
    · intro t ht
      have := (h' 0 hn).2.2.1 t (by omega)
      simp only [rowL, if_true, one_mul, Nat.zero_add, Nat.mod_eq_of_lt hu] at this
      exact sub_eq_zero.1 this
    · intro t ht j hj
      have := (h' j (by omega)).2.2.2 t ht
      rw [Nat.mod_eq_of_lt (by omega)] at this
      simp only [rowL, LValues.active, if_neg (show ¬ j = u by omega), if_neg (show ¬ u < j by omega), add_zero,
        sub_zero, one_mul] at this
      exact sub_eq_zero.1 this
  · intro h j hj
    refine (key j hj).2 ⟨?_, ?_, ?_, ?_⟩
    · by_cases h0 : j = 0
      · subst h0; rw [h.start]; simp
      · simp [rowL, h0]
    · by_cases h0 : j = u
      · subst h0; rw [h.stop]; simp
      · simp [rowL, h0]
    · intro t ht
      by_cases h0 : j = 0
      · subst h0; rw [Nat.zero_add, Nat.mod_eq_of_lt hu, h.link t (by omega)]; simp
      · simp [rowL, h0]
    · intro t ht
      rcases Nat.lt_trichotomy j u with h0 | h0 | h0
      · rw [Nat.mod_eq_of_lt (by omega), h.step t ht j h0]; simp
      · simp [rowL, LValues.active, h0]
      · simp [rowL, LValues.active, h0, show ¬ j = u by omega]

omit [DecidableEq F] in
theorem telescope (u : ℕ) (z N D : ℕ → F) (h : ∀ j < u, z (j + 1) * D j = z j * N j) :
    z u * ∏ j ∈ range u, D j = z 0 * ∏ j ∈ range u, N j := by
  induction u with
  | zero => simp
  | succ u ih =>
    rw [prod_range_succ, prod_range_succ]
    have h1 := ih fun j hj => h j (by omega)
    have h2 := h u (by omega)
    calc z (u + 1) * ((∏ j ∈ range u, D j) * D u) = (z (u + 1) * D u) * ∏ j ∈ range u, D j := by ring
      _ = (z u * ∏ j ∈ range u, D j) * N u := by rw [h2]; ring
      _ = _ := by rw [h1]; ring

omit [DecidableEq F] in
/-- The products over all the cells are equal up to a factor 0 or 1. -/
theorem Chain.products {n u c len : ℕ} (hl : 0 < len) {omega delta beta gamma : F} {V P z : ℕ → ℕ → F}
    (h : Chain n u c len omega delta beta gamma V P z) (hc0 : 0 < c) :
    (∏ i ∈ range c, ∏ j ∈ range u, (V i j + beta * (delta ^ i * omega ^ j) + gamma) =
      ∏ i ∈ range c, ∏ j ∈ range u, (V i j + beta * P i j + gamma)) ∨
    ∏ i ∈ range c, ∏ j ∈ range u, (V i j + beta * (delta ^ i * omega ^ j) + gamma) = 0 := by
  have hm0 : 0 < chunkNum c len := by
    have := (chunkNum_bounds (c := c) hl).1
    rcases Nat.eq_zero_or_pos (chunkNum c len) with h | h
    · rw [h] at this; omega
    · exact h
  have hsw : ∀ f : ℕ → ℕ → F, ∏ t ∈ range (chunkNum c len), ∏ j ∈ range u, ∏ i ∈ range (width c len t),
      f (t * len + i) j = ∏ i ∈ range c, ∏ j ∈ range u, f i j := by
    intro f
    rw [← prod_chunks hl fun i => ∏ j ∈ range u, f i j]
    exact prod_congr rfl fun t _ => prod_comm
  have key : ∀ m, m + 1 ≤ chunkNum c len →
      z m u * ∏ t ∈ range (m + 1), ∏ j ∈ range u, ∏ i ∈ range (width c len t),
        (V (t * len + i) j + beta * P (t * len + i) j + gamma) =
      ∏ t ∈ range (m + 1), ∏ j ∈ range u, ∏ i ∈ range (width c len t),
        (V (t * len + i) j + beta * (delta ^ (t * len + i) * omega ^ j) + gamma) := by
    intro m
    induction m with
    | zero =>
      intro hm
      rw [prod_range_one, prod_range_one, telescope u (z 0) _ _ (h.step 0 hm0), h.start, one_mul]
    | succ m ih =>
      intro hm
      have h1 := telescope u (z (m + 1)) _ _ (h.step (m + 1) (by omega))
      rw [h.link m (by omega)] at h1
      rw [prod_range_succ _ (m + 1), prod_range_succ _ (m + 1), ← ih (by omega)]
      calc _ = (z (m + 1) u * ∏ j ∈ range u, ∏ i ∈ range (width c len (m + 1)),
            (V ((m + 1) * len + i) j + beta * P ((m + 1) * len + i) j + gamma)) * _ := by
              rw [mul_comm (∏ t ∈ range (m + 1), _), ← mul_assoc]
        _ = _ := by rw [h1]; ring
  have h1 := key (chunkNum c len - 1) (by omega)
  rw [Nat.sub_add_cancel hm0] at h1
  rw [hsw (fun i j => V i j + beta * P i j + gamma),
    hsw (fun i j => V i j + beta * (delta ^ i * omega ^ j) + gamma)] at h1
  have h2 := h.stop
  generalize z (chunkNum c len - 1) u = w at *
  have h3 : w * (w - 1) = 0 := by linear_combination h2
  rcases mul_eq_zero.1 h3 with h3 | h3
  · right; rw [← h1, h3, zero_mul]
  · left; rw [← h1, sub_eq_zero.1 h3, one_mul]

end Tachyon.GrandProduct
