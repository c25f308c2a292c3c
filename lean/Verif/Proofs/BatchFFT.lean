import Mathlib.Algebra.Module.Pi
import Verif.Model.BatchFFT
import Verif.Spec.BatchFFT
import Verif.Proofs.FFTTop
/-! The network on the rows of a matrix. -/
namespace Tachyon.FFT
open Tachyon.Group Tachyon.Parallel Tachyon.Props Finset

/-! ### Bit reversal of two parts -/

theorem rv_append (e s J b : ℕ) (hb : b < 2 ^ e) :
    rv (e + s) (J * 2 ^ e + b) = rv e b * 2 ^ s + rv s J := by
  induction e generalizing b with
  | zero =>
    have : b = 0 := by simpa using hb
    subst this
    simp [rv]
  | succ e ih =>
    rw [show e + 1 + s = (e + s) + 1 by ring, rv, rv]
    have h1 : (J * 2 ^ (e + 1) + b) % 2 = b % 2 := by
      rw [pow_succ, ← Nat.mul_assoc]; omega
    have h2 : (J * 2 ^ (e + 1) + b) / 2 = J * 2 ^ e + b / 2 := by
      rw [pow_succ, ← Nat.mul_assoc]; omega
    rw [h1, h2, ih _ (by rw [pow_succ] at hb; omega)]
    ring

theorem rv_zero (k : ℕ) : rv k 0 = 0 := by
  induction k with
  | zero => rfl
  | succ k ih => rw [rv]; simpa using ih

theorem rv_small {k s J : ℕ} (hs : s ≤ k) (hJ : J < 2 ^ s) : rv k J = rv s J * 2 ^ (k - s) := by
  have := rv_append s (k - s) 0 J hJ
  rw [rv_zero, show s + (k - s) = k by omega] at this
  simpa using this

theorem rv_top (e b h : ℕ) (hb : b < 2 ^ e) (hh : h < 2) : rv (e + 1) (b + h * 2 ^ e) = 2 * rv e b + h := by
  have := rv_append e 1 h b hb
  rw [show h * 2 ^ e + b = b + h * 2 ^ e by ring] at this
  rw [this, rv, rv]
  omega

/-! ### Loops whose iterations work on regions of their own -/

theorem foldlM_regions {ι V : Type*} {n : ℕ} {R : ι → ℕ → Prop} {init fin : List V}
    {step : List V → ι → Option (List V)} {l : List ι} (hnd : l.Nodup)
    (hstep : ∀ x ∈ l, ∀ a : List V, a.length = n → (∀ i, R x i → a[i]? = init[i]?) →
      ∃ r, step a x = some r ∧ r.length = n ∧ (∀ i, R x i → r[i]? = fin[i]?) ∧
        ∀ i, ¬ R x i → r[i]? = a[i]?)
    (hdis : ∀ x ∈ l, ∀ y ∈ l, x ≠ y → ∀ i, R x i → ¬ R y i) :
    ∀ a : List V, a.length = n → (∀ x ∈ l, ∀ i, R x i → a[i]? = init[i]?) →
      ∃ r, l.foldlM step a = some r ∧ r.length = n ∧ (∀ x ∈ l, ∀ i, R x i → r[i]? = fin[i]?) ∧
        ∀ i, (∀ x ∈ l, ¬ R x i) → r[i]? = a[i]? := by
  induction l with
  | nil => intro a ha _; exact ⟨a, rfl, ha, by simp, by simp⟩
  | cons x l ih =>
    intro a ha hin
    rw [List.nodup_cons] at hnd
    obtain ⟨r1, e1, l1, f1, o1⟩ := hstep x (by simp) a ha (hin x (by simp))
    have hne : ∀ y ∈ l, y ≠ x := fun y hy h => hnd.1 (h ▸ hy)
    obtain ⟨r, e, hl, f, o⟩ := ih hnd.2 (fun y hy => hstep y (by simp [hy]))
      (fun y hy z hz => hdis y (by simp [hy]) z (by simp [hz])) r1 l1
      (fun y hy i hi => by
        rw [o1 i (hdis y (by simp [hy]) x (by simp) (hne y hy) i hi)]
        exact hin y (by simp [hy]) i hi)
    refine ⟨r, by rw [List.foldlM_cons, e1]; exact e, hl, fun y hy i hi => ?_, fun i hi => ?_⟩
    · rcases List.mem_cons.1 hy with rfl | hy
      · by_cases hq : ∃ z ∈ l, R z i
        · obtain ⟨z, hz, hzi⟩ := hq
          exact f z hz i hzi
        · push Not at hq
          rw [o i hq, f1 i hi]
      · exact f y hy i hi
    · rw [o i fun z hz => hi z (by simp [hz]), o1 i (hi x (by simp))]

variable {F : Type*} [Field F] [DecidableEq F]

/-! ### Matrices -/

/-- The row with the given entries. -/
def toRow (cols : ℕ) (f : ℕ → F) : List F := (List.range cols).map f

/-- The matrix with the given rows. -/
def toMat (rows cols : ℕ) (A : ℕ → ℕ → F) : List (List F) :=
  (List.range rows).map fun i => toRow cols (A i)

omit [Field F] [DecidableEq F] in
theorem toMat_getElem? (rows cols : ℕ) (A : ℕ → ℕ → F) (i : ℕ) :
    (toMat rows cols A)[i]? = if i < rows then some (toRow cols (A i)) else none := by
  rw [toMat, List.getElem?_map]
  split
  · next h => rw [List.getElem?_range h]; rfl
  · next h => rw [List.getElem?_eq_none (by simpa using h)]; rfl

omit [Field F] [DecidableEq F] in
@[simp] theorem length_toMat (rows cols : ℕ) (A : ℕ → ℕ → F) : (toMat rows cols A).length = rows := by
  simp [toMat]

omit [Field F] [DecidableEq F] in
@[simp] theorem length_toRow (cols : ℕ) (f : ℕ → F) : (toRow cols f).length = cols := by simp [toRow]

omit [Field F] [DecidableEq F] in
theorem eq_toMat {m : List (List F)} {rows cols : ℕ} {A : ℕ → ℕ → F} (hl : m.length = rows)
    (h : ∀ i < rows, m[i]? = some (toRow cols (A i))) : m = toMat rows cols A := by
  refine List.ext_getElem? fun i => ?_
  rw [toMat_getElem?]
  split
  · next hi => exact h i hi
  · next hi => exact List.getElem?_eq_none (by omega)

omit [DecidableEq F] in
theorem mat_eq_toMat {m : List (List F)} {cols : ℕ} (h : ∀ r ∈ m, r.length = cols) :
    m = toMat m.length cols fun i j => (column m j).getD i 0 := by
  refine eq_toMat rfl fun i hi => ?_
  rw [List.getElem?_eq_getElem hi]
  congr 1
  refine List.ext_getElem? fun j => ?_
  have hr := h m[i] (List.getElem_mem hi)
  rw [toRow, List.getElem?_map]
  by_cases hj : j < cols
  · rw [List.getElem?_range hj, List.getElem?_eq_getElem (by omega)]
    simp only [column, Option.map_some, List.getD_eq_getElem?_getD, List.getElem?_map,
      List.getElem?_eq_getElem hi, Option.getD_some]
    rw [List.getElem?_eq_getElem (by omega)]; rfl
  · rw [List.getElem?_eq_none (by omega), List.getElem?_eq_none (by simpa using hj)]; rfl

omit [DecidableEq F] in
theorem toRow_map (cols : ℕ) (f : ℕ → F) (w : F) : (toRow cols f).map (· * w) = toRow cols (w • f) := by
  simp [toRow, mul_comm]

omit [DecidableEq F] in
theorem rowButterfly_eq (lanes cols : ℕ) (w : F) (f g : ℕ → F) :
    rowButterfly lanes w w (toRow cols f) (toRow cols g) =
      (toRow cols (f + w • g), toRow cols (f - w • g)) := by
  have hz : List.zip (toRow cols f) (toRow cols g) = (List.range cols).map fun i => (f i, g i) := by
    simp [toRow, List.zip_map']
  rw [rowButterfly, hz]
  simp only [ite_self, butterflyOutIn]
  ext1
  · refine List.ext_getElem? fun i => ?_
    simp only [List.getElem?_mapIdx, List.getElem?_map, toRow]
    cases (List.range cols)[i]? <;> simp [mul_comm]
  · refine List.ext_getElem? fun i => ?_
    simp only [List.getElem?_mapIdx, List.getElem?_map, toRow]
    cases (List.range cols)[i]? <;> simp [mul_comm]

theorem ofNat_pow_toNat {k : ℕ} (hk : k ≤ 63) : (BitVec.ofNat 64 (2 ^ k)).toNat = 2 ^ k := by
  rw [BitVec.toNat_ofNat]
  exact Nat.mod_eq_of_lt (Nat.pow_lt_pow_right (by norm_num) (by omega))

omit [Field F] [DecidableEq F] in
theorem reverseRows_eq (o : Sched) {k : ℕ} (hk : k ≤ 63) (cols : ℕ) (A : ℕ → ℕ → F) :
    reverseRows o (toMat (2 ^ k) cols A) = some (toMat (2 ^ k) cols fun i => A (rv k i)) := by
  rw [reverseRows, length_toMat, if_neg (by positivity),
    (C53_checkedLog2 _ _).2 (ofNat_pow_toNat hk)]
  obtain ⟨r, e, hl, h⟩ := swapBitRev_spec o (arr := toMat (2 ^ k) cols A) (size := 2 ^ k) (k := k)
    (by simp) le_rfl (by omega)
  simp only
  rw [e]
  congr 1
  refine eq_toMat (by simpa using hl) fun i hi => ?_
  rw [h i hi, if_pos (Or.inl hi), toMat_getElem?, if_pos (rv_lt _ _)]

/-! ### A layer on a block of rows -/

omit [DecidableEq F] in
theorem runDitLayers_spec {lanes logN layer : ℕ} {rev : Bool} {tw ptw : List F} {start q half n cols : ℕ}
    {A A' : ℕ → ℕ → F} {t : ℕ → ℕ → F} (hq : 0 < q)
    (hhalf : half = 2 ^ (if rev then logN - 1 - layer else layer))
    (hn : start + q * (2 * half) ≤ n)
    (ht : ∀ b < q, ∀ j < half,
      tw[if rev then b else j * 2 ^ (logN - 1 - layer)]? = some (t b j) ∧
      ptw[if rev then b else j * 2 ^ (logN - 1 - layer)]? = some (t b j))
    (hA : ∀ b < q, ∀ j < half,
      A' (start + b * (2 * half) + j) =
        A (start + b * (2 * half) + j) + t b j • A (start + b * (2 * half) + j + half) ∧
      A' (start + b * (2 * half) + j + half) =
        A (start + b * (2 * half) + j) - t b j • A (start + b * (2 * half) + j + half))
    {a : List (List F)} (hl : a.length = n)
    (ha : ∀ i, start ≤ i → i < start + q * (2 * half) → a[i]? = some (toRow cols (A i))) :
    ∃ r, runDitLayers lanes logN layer rev tw ptw start (q * (2 * half)) a = some r ∧ r.length = n ∧
      (∀ i, start ≤ i → i < start + q * (2 * half) → r[i]? = some (toRow cols (A' i))) ∧
      ∀ i, ¬ (start ≤ i ∧ i < start + q * (2 * half)) → r[i]? = a[i]? := by
  have hh : 0 < half := by rw [hhalf]; positivity
  have hmem := mem_butterflyPairs (q := q) hh
  have hbd : ∀ b < q, b * (2 * half) + 2 * half ≤ q * (2 * half) := by
    intro b hb
    have := Nat.mul_le_mul_right (2 * half) (show b + 1 ≤ q by omega)
    linarith
  obtain ⟨r, e, hlen, hp, ho⟩ := foldlM_pairs (P := fun _ => True)
    (f := fun p : ℕ × ℕ => rowButterfly lanes (t (p.1 / (2 * half)) p.2) (t (p.1 / (2 * half)) p.2))
    (lo := fun p => start + p.1 + p.2) (hi := fun p => start + p.1 + p.2 + half)
    (step := ditStep lanes (logN - 1 - layer) half rev tw ptw start)
    (l := butterflyPairs (q * (2 * half)) half) (arr := a) butterflyPairs_nodup
    (fun p hp _ a => by
      obtain ⟨b, hb, j, hj, rfl⟩ := (hmem p).1 hp
      have hdiv : b * (2 * half) / (2 * half) = b := Nat.mul_div_cancel _ (by omega)
      rw [ditStep]
      simp only [hdiv]
      rw [(ht b hb j hj).1, (ht b hb j hj).2])
    (fun p hp h => absurd trivial h)
    (fun p hp _ => by
      obtain ⟨b, hb, j, hj, rfl⟩ := (hmem p).1 hp
      have := hbd b hb
      refine ⟨?_, ?_, ?_⟩ <;> simp only <;> omega)
    (fun p hp _ p' hp' _ hne => by
      obtain ⟨b, hb, j, hj, rfl⟩ := (hmem p).1 hp
      obtain ⟨b', hb', j', hj', rfl⟩ := (hmem p').1 hp'
      simp only
      refine ⟨fun h => ?_, fun h => ?_, fun h => ?_, fun h => ?_⟩
      · obtain ⟨rfl, rfl⟩ := block_ne (m := 2 * half) (b := b) (b' := b') (j := j) (j' := j')
          (by omega) (by omega) (by omega)
        exact hne rfl
      · have := block_ne (b := b) (b' := b') (j' := j' + half) (show j < 2 * half by omega) (by omega)
          (by omega)
        omega
      · have := block_ne (b := b) (b' := b') (j := j + half) (m := 2 * half) (j' := j') (by omega)
          (by omega) (by omega)
        omega
      · obtain ⟨rfl, rfl⟩ := block_ne (show j < 2 * half by omega) (by omega)
          (show b * (2 * half) + j = b' * (2 * half) + j' by omega)
        exact hne rfl)
  refine ⟨r, ?_, hlen.trans hl, fun i hi1 hi2 => ?_, fun i hi => ?_⟩
  · rw [runDitLayers]
    rw [← hhalf, if_neg (by have := hbd 0 hq; omega)]
    exact e
  · have hdm := Nat.div_add_mod (i - start) (2 * half)
    have hm := Nat.mod_lt (i - start) (show 0 < 2 * half by omega)
    generalize hb : (i - start) / (2 * half) = b at hdm
    generalize (i - start) % (2 * half) = m at hdm hm
    have hbq : b < q := by
      rw [← hb, Nat.div_lt_iff_lt_mul (by omega)]; omega
    have hbb := hbd b hbq
    have hcomm : 2 * half * b = b * (2 * half) := Nat.mul_comm _ _
    have key : ∀ j < half, r[start + b * (2 * half) + j]? =
        some (toRow cols (A' (start + b * (2 * half) + j))) ∧
        r[start + b * (2 * half) + j + half]? =
        some (toRow cols (A' (start + b * (2 * half) + j + half))) := by
      intro j hj
      have := hp (b * (2 * half), j) ((hmem _).2 ⟨b, hbq, j, hj, rfl⟩) trivial _ _
        (ha _ (by simp only; omega) (by simp only; omega))
        (ha _ (by simp only; omega) (by simp only; omega))
      simp only [Nat.mul_div_cancel b (show 0 < 2 * half by omega), rowButterfly_eq] at this
      rw [this.1, this.2, (hA b hbq j hj).1, (hA b hbq j hj).2]
      exact ⟨rfl, rfl⟩
    rcases lt_or_ge m half with h | h
    · have := (key m h).1
      rwa [show start + b * (2 * half) + m = i by omega] at this
    · have := (key (m - half) (by omega)).2
      rwa [show start + b * (2 * half) + (m - half) + half = i by omega] at this
  · refine ho i fun p hp _ => ?_
    obtain ⟨b, hb, j, hj, rfl⟩ := (hmem p).1 hp
    have := hbd b hb
    simp only
    constructor <;> omega

/-- Layers one after another on a block of rows. -/
theorem foldlM_layers {V : Type*} {n : ℕ} {R : ℕ → Prop} {step : List V → ℕ → Option (List V)}
    (St : ℕ → ℕ → Option V) (cnt : ℕ) : ∀ (s0 : ℕ)
    (_ : ∀ s, s0 ≤ s → s < s0 + cnt → ∀ a : List V, a.length = n → (∀ i, R i → a[i]? = St s i) →
      ∃ r, step a s = some r ∧ r.length = n ∧ (∀ i, R i → r[i]? = St (s + 1) i) ∧
        ∀ i, ¬ R i → r[i]? = a[i]?)
    (a : List V), a.length = n → (∀ i, R i → a[i]? = St s0 i) →
      ∃ r, (List.range' s0 cnt).foldlM step a = some r ∧ r.length = n ∧
        (∀ i, R i → r[i]? = St (s0 + cnt) i) ∧ ∀ i, ¬ R i → r[i]? = a[i]? := by
  induction cnt with
  | zero => intro s0 _ a ha h; exact ⟨a, rfl, ha, h, by simp⟩
  | succ cnt ih =>
    intro s0 hs a ha h
    obtain ⟨r1, e1, l1, f1, o1⟩ := hs s0 le_rfl (by omega) a ha h
    obtain ⟨r, e, hl, f, o⟩ := ih (s0 + 1) (fun s h1 h2 => hs s (by omega) (by omega)) r1 l1 f1
    refine ⟨r, by rw [List.range'_succ, List.foldlM_cons, e1]; exact e, hl, fun i hi => ?_, fun i hi => ?_⟩
    · rw [f i hi, show s0 + 1 + cnt = s0 + (cnt + 1) by ring]
    · rw [o i hi, o1 i hi]

/-! ### The two halves -/

section
variable {cols lanes k : ℕ} {w : F}

/-- The rows before layer `s` of the first half. -/
def stA (c : ℕ → ℕ → F) (w : F) (k s i : ℕ) : ℕ → F := dit c w (k - s) s (i / 2 ^ s) (i % 2 ^ s)

/-- The rows before layer `s` of the second half. -/
def stB (c : ℕ → ℕ → F) (w : F) (k s i : ℕ) : ℕ → F :=
  dit c w (k - s) s (rv (k - s) (i % 2 ^ (k - s))) (rv s (i / 2 ^ (k - s)))

omit [DecidableEq F] in
theorem stA_block (c : ℕ → ℕ → F) (s b j : ℕ) (hj : j < 2 ^ s) :
    stA c w k s (b * 2 ^ s + j) = dit c w (k - s) s b j := by
  rw [stA, Nat.mul_comm b, Nat.mul_add_div (by positivity), Nat.mul_add_mod, Nat.div_eq_of_lt hj,
    Nat.mod_eq_of_lt hj, Nat.add_zero]

omit [DecidableEq F] in
theorem stB_block (c : ℕ → ℕ → F) (s J b : ℕ) (hb : b < 2 ^ (k - s)) :
    stB c w k s (J * 2 ^ (k - s) + b) = dit c w (k - s) s (rv (k - s) b) (rv s J) := by
  rw [stB, Nat.mul_comm J, Nat.mul_add_div (by positivity), Nat.mul_add_mod, Nat.div_eq_of_lt hb,
    Nat.mod_eq_of_lt hb, Nat.add_zero]

omit [DecidableEq F] in
theorem stA_zero (c : ℕ → ℕ → F) (i : ℕ) : stA c w k 0 i = c (rv k i) := by
  have := stA_block (w := w) (k := k) c 0 i 0 (by simp)
  simpa [dit_start] using this

omit [DecidableEq F] in
theorem stB_end (c : ℕ → ℕ → F) (i : ℕ) : stB c w k k i = dft w (2 ^ k) c (rv k i) := by
  have := stB_block (w := w) (k := k) c k i 0 (by simp)
  simpa [rv_zero, dit_end] using this

omit [DecidableEq F] in
theorem stA_stB (c : ℕ → ℕ → F) {s : ℕ} (hs : s ≤ k) (i : ℕ) : stA c w k s (rv k i) = stB c w k s i := by
  have hd := Nat.div_add_mod i (2 ^ (k - s))
  have hm := Nat.mod_lt i (show 0 < 2 ^ (k - s) by positivity)
  have := rv_append (k - s) s (i / 2 ^ (k - s)) (i % 2 ^ (k - s)) hm
  rw [Nat.mul_comm (i / 2 ^ (k - s)), hd, show k - s + s = k by omega] at this
  rw [this, stA_block _ _ _ _ (rv_lt _ _), stB]

theorem chunk_count {k m : ℕ} (hm : m ≤ k) : (2 ^ k + 2 ^ m - 1) / 2 ^ m = 2 ^ (k - m) := by
  have h : 2 ^ k = 2 ^ m * 2 ^ (k - m) := by rw [← pow_add]; congr 1; omega
  have hp : 0 < 2 ^ m := by positivity
  rw [h, show 2 ^ m * 2 ^ (k - m) + 2 ^ m - 1 = 2 ^ m * 2 ^ (k - m) + (2 ^ m - 1) by omega,
    Nat.mul_add_div hp, Nat.div_eq_of_lt (by omega)]
  omega

/-- Rows of a block and the number of the block. -/
theorem mem_block {m b i : ℕ} (hm : 0 < m) : (b * m ≤ i ∧ i < b * m + m) ↔ i / m = b := by
  rw [Nat.div_eq_iff hm]
  constructor
  · rintro ⟨h1, h2⟩; omega
  · rintro ⟨h1, h2⟩; omega

/-- A loop over the blocks of `m` rows, in any order. -/
theorem blocks_spec (o : Sched) {V : Type*} {size m cnt : ℕ} (hm : 0 < m) (hcnt : size = cnt * m)
    {step : List V → ℕ → Option (List V)} {init fin : List V} (hi : init.length = size)
    (hf : fin.length = size)
    (hstep : ∀ b < cnt, ∀ a : List V, a.length = size → (∀ i, i / m = b → a[i]? = init[i]?) →
      ∃ r, step a b = some r ∧ r.length = size ∧ (∀ i, i / m = b → r[i]? = fin[i]?) ∧
        ∀ i, ¬ i / m = b → r[i]? = a[i]?) :
    (o.one (List.range cnt)).foldlM step init = some fin := by
  have hmem : ∀ b, b ∈ o.one (List.range cnt) ↔ b < cnt := fun b => by
    rw [(o.one_perm _).mem_iff, List.mem_range]
  obtain ⟨r, e, hl, h, -⟩ := foldlM_regions (n := size) (R := fun b i => i / m = b) (init := init)
    (fin := fin) (step := step) (l := o.one (List.range cnt))
    ((o.one_perm _).nodup_iff.2 List.nodup_range)
    (fun b hb => hstep b ((hmem b).1 hb))
    (fun x _ y _ hne i h1 h2 => hne (h1.symm.trans h2)) init hi (fun _ _ _ _ => rfl)
  rw [e]
  congr 1
  refine List.ext_getElem? fun i => ?_
  by_cases hi : i < size
  · exact h (i / m) ((hmem _).2 (by rw [Nat.div_lt_iff_lt_mul hm]; omega)) i rfl
  · rw [List.getElem?_eq_none (by omega), List.getElem?_eq_none (by omega)]

omit [DecidableEq F] in
theorem runRowChunks_eq (o : Sched) (hk : k ≤ 63) (hw : 0 < k → w ^ 2 ^ (k - 1) = -1) (c : ℕ → ℕ → F) :
    runRowChunks o lanes k (2 ^ k) (powList k w) (powList k w) (toMat (2 ^ k) cols (stA c w k 0)) =
      some (toMat (2 ^ k) cols (stA c w k (k / 2))) := by
  rw [runRowChunks, length_toMat, if_pos ((C53_isPowerOfTwo _).2 ⟨k, ofNat_pow_toNat hk⟩)]
  simp only
  rw [chunk_count (by omega)]
  have hmid : 2 ^ k = 2 ^ (k - k / 2) * 2 ^ (k / 2) := by rw [← pow_add]; congr 1; omega
  refine blocks_spec o (by positivity) hmid (by simp) (by simp) fun b hb a ha hin => ?_
  have hbd : b * 2 ^ (k / 2) + 2 ^ (k / 2) ≤ 2 ^ k := by
    have := Nat.mul_le_mul_right (2 ^ (k / 2)) (show b + 1 ≤ 2 ^ (k - k / 2) by omega)
    rw [← hmid] at this
    linarith
  rw [rowChunk, Nat.min_eq_left (by omega), List.range_eq_range']
  have hreg : ∀ i, i / 2 ^ (k / 2) = b → i < 2 ^ k := fun i hi => by
    have := (mem_block (by positivity)).2 hi; omega
  obtain ⟨r, e, hl, h1, h2⟩ := foldlM_layers (n := 2 ^ k) (R := fun i => i / 2 ^ (k / 2) = b)
    (fun s i => some (toRow cols (stA c w k s i))) (k / 2) 0
    (step := fun mat layer => runDitLayers lanes k layer false (powList k w) (powList k w)
      (b * 2 ^ (k / 2)) (2 ^ (k / 2)) mat)
    (fun s _ hs a ha hin => by
      rw [Nat.zero_add] at hs
      have hsplit : 2 ^ (k / 2) = 2 ^ (k / 2 - s - 1) * (2 * 2 ^ s) := by
        rw [← pow_succ', ← pow_add]; congr 1; omega
      have hstart : ∀ b', b * 2 ^ (k / 2) + b' * (2 * 2 ^ s) =
          (b * 2 ^ (k / 2 - s - 1) + b') * 2 ^ (s + 1) := fun b' => by
        rw [hsplit, pow_succ]; ring
      obtain ⟨r, e, hl, h1, h2⟩ := runDitLayers_spec (lanes := lanes) (logN := k) (layer := s)
        (rev := false) (tw := powList k w) (ptw := powList k w) (start := b * 2 ^ (k / 2))
        (q := 2 ^ (k / 2 - s - 1)) (half := 2 ^ s) (n := 2 ^ k) (cols := cols)
        (A := stA c w k s) (A' := stA c w k (s + 1)) (t := fun _ j => w ^ (2 ^ (k - s - 1) * j))
        (by positivity) (by simp) (by rw [← hsplit]; exact hbd)
        (fun b' hb' j hj => by
          have : j * 2 ^ (k - 1 - s) < 2 ^ (k - 1) := by
            rw [show k - 1 = s + (k - 1 - s) by omega, pow_add,
              show s + (k - 1 - s) - s = k - 1 - s by omega]
            exact Nat.mul_lt_mul_of_pos_right hj (by positivity)
          simp only [Bool.false_eq_true, if_false, powList, List.getElem?_map, List.getElem?_range this,
            Option.map_some]
          rw [show j * 2 ^ (k - 1 - s) = 2 ^ (k - s - 1) * j by
            rw [Nat.mul_comm, show k - 1 - s = k - s - 1 by omega]]
          exact ⟨rfl, rfl⟩)
        (fun b' hb' j hj => by
          have hj' : j < 2 ^ (s + 1) := by rw [pow_succ]; omega
          have hj2 : j + 2 ^ s < 2 ^ (s + 1) := by rw [pow_succ]; omega
          rw [Nat.add_assoc _ j, hstart b', stA_block _ _ _ _ hj', stA_block _ _ _ _ hj2]
          generalize b * 2 ^ (k / 2 - s - 1) + b' = B
          have e1 : stA c w k s (B * 2 ^ (s + 1) + j) = dit c w (k - s) s (2 * B) j := by
            rw [← stA_block _ _ _ _ hj]; congr 1; ring
          have e2 : stA c w k s (B * 2 ^ (s + 1) + (j + 2 ^ s)) = dit c w (k - s) s (2 * B + 1) j := by
            rw [← stA_block _ _ _ _ hj]; congr 1; ring
          rw [e1, e2]
          have hks : k - s = (k - (s + 1)) + 1 := by omega
          have hk1 : k - s - 1 = k - (s + 1) := by omega
          rw [hk1, hks]
          exact ⟨dit_lo _ _ _ _ _ _, dit_hi _ (by
            have := hw (by omega)
            rwa [show k - 1 = k - (s + 1) + s by omega] at this) _ _⟩)
        ha
        (fun i h1 h2 => hin i ((mem_block (by positivity)).1 ⟨h1, by rw [← hsplit] at h2; exact h2⟩))
      rw [← hsplit] at e h1 h2
      refine ⟨r, e, hl, fun i hi => ?_, fun i hi => ?_⟩
      · have := (mem_block (by positivity)).2 hi
        exact h1 i this.1 this.2
      · exact h2 i fun h => hi ((mem_block (by positivity)).1 h)) a ha
    (fun i hi => by rw [hin i hi, toMat_getElem?, if_pos (hreg i hi)])
  refine ⟨r, e, hl, fun i hi => ?_, h2⟩
  rw [h1 i hi, toMat_getElem?, if_pos (hreg i hi), Nat.zero_add]

omit [DecidableEq F] in
theorem runRowChunksRev_eq (o : Sched) (hk : k ≤ 63) (hw : 0 < k → w ^ 2 ^ (k - 1) = -1)
    (c : ℕ → ℕ → F) :
    runRowChunksRev o lanes k (2 ^ k) (revList k w) (revList k w)
      (toMat (2 ^ k) cols (stB c w k (k / 2))) = some (toMat (2 ^ k) cols (stB c w k k)) := by
  rw [runRowChunksRev, length_toMat, if_pos ((C53_isPowerOfTwo _).2 ⟨k, ofNat_pow_toNat hk⟩)]
  simp only
  rw [chunk_count (by omega), show k - (k - k / 2) = k / 2 by omega]
  have hmid : 2 ^ k = 2 ^ (k / 2) * 2 ^ (k - k / 2) := by rw [← pow_add]; congr 1; omega
  refine blocks_spec o (by positivity) hmid (by simp) (by simp) fun b hb a ha hin => ?_
  have hbd : b * 2 ^ (k - k / 2) + 2 ^ (k - k / 2) ≤ 2 ^ k := by
    have := Nat.mul_le_mul_right (2 ^ (k - k / 2)) (show b + 1 ≤ 2 ^ (k / 2) by omega)
    rw [← hmid] at this
    linarith
  have hreg : ∀ i, i / 2 ^ (k - k / 2) = b → i < 2 ^ k := fun i hi => by
    have := (mem_block (by positivity)).2 hi; omega
  rw [rowChunkRev]
  obtain ⟨r, e, hl, h1, h2⟩ := foldlM_layers (n := 2 ^ k) (R := fun i => i / 2 ^ (k - k / 2) = b)
    (fun s i => some (toRow cols (stB c w k s i))) (k - k / 2) (k / 2)
    (step := rowLayerRev lanes k (2 ^ k) (2 ^ (k - k / 2)) (revList k w) (revList k w) b)
    (fun s hs0 hs a ha hin => by
      have hs' : s < k := by omega
      have hsplit : 2 ^ (k - k / 2) = 2 ^ (s - k / 2) * (2 * 2 ^ (k - 1 - s)) := by
        rw [← pow_succ', ← pow_add]; congr 1; omega
      have hstart : ∀ b', b * 2 ^ (k - k / 2) + b' * (2 * 2 ^ (k - 1 - s)) =
          (b * 2 ^ (s - k / 2) + b') * 2 ^ (k - s) := fun b' => by
        rw [hsplit, show k - s = k - 1 - s + 1 by omega, pow_succ]; ring
      have hJ : ∀ b' < 2 ^ (s - k / 2), b * 2 ^ (s - k / 2) + b' < 2 ^ s := fun b' hb' => by
        have h3 : 2 ^ s = 2 ^ (k / 2) * 2 ^ (s - k / 2) := by rw [← pow_add]; congr 1; omega
        have := Nat.mul_le_mul_right (2 ^ (s - k / 2)) (show b + 1 ≤ 2 ^ (k / 2) by omega)
        rw [← h3] at this
        linarith
      have hlen : (revList k w).length = 2 ^ (k - 1) := by simp [revList]
      have hle : 2 ^ s ≤ 2 ^ (k - 1) := Nat.pow_le_pow_right (by norm_num) (by omega)
      obtain ⟨r, e, hl, h1, h2⟩ := runDitLayers_spec (lanes := lanes) (logN := k) (layer := s)
        (rev := true) (tw := (revList k w).drop (b * 2 ^ (s - k / 2)))
        (ptw := (revList k w).drop (b * 2 ^ (s - k / 2))) (start := b * 2 ^ (k - k / 2))
        (q := 2 ^ (s - k / 2)) (half := 2 ^ (k - 1 - s)) (n := 2 ^ k) (cols := cols)
        (A := stB c w k s) (A' := stB c w k (s + 1))
        (t := fun b' _ => w ^ (2 ^ (k - 1 - s) * rv s (b * 2 ^ (s - k / 2) + b')))
        (by positivity) (by simp) (by rw [← hsplit]; exact hbd)
        (fun b' hb' j hj => by
          have h3 := hJ b' hb'
          simp only [if_true, List.getElem?_drop]
          rw [revList, List.getElem?_map, List.getElem?_range (lt_of_lt_of_le h3 hle), Option.map_some,
            rv_small (show s ≤ k - 1 by omega) h3, Nat.mul_comm (rv s _)]
          exact ⟨rfl, rfl⟩)
        (fun b' hb' j hj => by
          have h3 := hJ b' hb'
          rw [Nat.add_assoc _ j, hstart b']
          generalize b * 2 ^ (s - k / 2) + b' = J at h3
          have hks : k - s = (k - 1 - s) + 1 := by omega
          have hks1 : k - (s + 1) = k - 1 - s := by omega
          have hj1 : j < 2 ^ (k - s) := by rw [hks, pow_succ]; omega
          have hj2 : j + 2 ^ (k - 1 - s) < 2 ^ (k - s) := by rw [hks, pow_succ]; omega
          rw [stB_block _ _ _ _ hj1, stB_block _ _ _ _ hj2]
          have e1 : stB c w k (s + 1) (J * 2 ^ (k - s) + j) =
              dit c w (k - 1 - s) (s + 1) (rv (k - 1 - s) j) (rv s J) := by
            have := stB_block (w := w) (k := k) c (s + 1) (2 * J) j (by rw [hks1]; exact hj)
            rw [rv_even, hks1] at this
            rw [← this]; congr 1; rw [hks, pow_succ]; ring
          have e2 : stB c w k (s + 1) (J * 2 ^ (k - s) + (j + 2 ^ (k - 1 - s))) =
              dit c w (k - 1 - s) (s + 1) (rv (k - 1 - s) j) (rv s J + 2 ^ s) := by
            have := stB_block (w := w) (k := k) c (s + 1) (2 * J + 1) j (by rw [hks1]; exact hj)
            rw [rv_odd, hks1, Nat.add_comm (2 ^ s)] at this
            rw [← this]; congr 1; rw [hks, pow_succ]; ring
          rw [e1, e2, hks]
          have r1 : rv (k - 1 - s + 1) j = 2 * rv (k - 1 - s) j := by
            simpa using rv_top (k - 1 - s) j 0 hj (by omega)
          have r2 : rv (k - 1 - s + 1) (j + 2 ^ (k - 1 - s)) = 2 * rv (k - 1 - s) j + 1 := by
            simpa using rv_top (k - 1 - s) j 1 hj (by omega)
          rw [r1, r2]
          exact ⟨dit_lo _ _ _ _ _ _, dit_hi _ (by
            have := hw (by omega)
            rwa [show k - 1 = k - 1 - s + s by omega] at this) _ _⟩)
        ha
        (fun i h1 h2 => hin i ((mem_block (by positivity)).1 ⟨h1, by rw [← hsplit] at h2; exact h2⟩))
      rw [← hsplit] at e h1 h2
      refine ⟨r, ?_, hl, fun i hi => ?_, fun i hi => ?_⟩
      · rw [rowLayerRev]
        rw [if_neg (by
          have := hJ 0 (by positivity)
          rw [hlen]; omega), Nat.min_eq_left (by omega)]
        exact e
      · have := (mem_block (by positivity)).2 hi
        exact h1 i this.1 this.2
      · exact h2 i fun h => hi ((mem_block (by positivity)).1 h)) a ha
    (fun i hi => by rw [hin i hi, toMat_getElem?, if_pos (hreg i hi)])
  refine ⟨r, e, hl, fun i hi => ?_, h2⟩
  rw [h1 i hi, toMat_getElem?, if_pos (hreg i hi), show k / 2 + (k - k / 2) = k by omega]

omit [DecidableEq F] in
/-- Both halves: from rows in bit-reversed order to values in bit-reversed order. -/
theorem twoHalves_eq (o : Sched) {d : Domain F} (hk : d.logSize ≤ 63) (hs : d.size = 2 ^ d.logSize)
    (hw : 0 < d.logSize → w ^ 2 ^ (d.logSize - 1) = -1) (c : ℕ → ℕ → F) :
    twoHalves o lanes d (some (powList d.logSize w)) (some (powList d.logSize w))
      (some (revList d.logSize w)) (some (revList d.logSize w))
      (toMat d.size cols fun i => c (rv d.logSize i)) =
    some (toMat d.size cols fun i => dft w d.size c (rv d.logSize i)) := by
  have e0 : (fun i => c (rv d.logSize i)) = stA c w d.logSize 0 := by
    funext i; rw [stA_zero]
  have e1 : (fun i => dft w d.size c (rv d.logSize i)) = stB c w d.logSize d.logSize := by
    funext i; rw [stB_end, hs]
  rw [twoHalves]
  rw [e0, e1, hs, runRowChunks_eq o hk hw]
  simp only
  rw [reverseRows_eq o hk]
  simp only
  have e2 : (fun i => stA c w d.logSize (d.logSize / 2) (rv d.logSize i)) =
      stB c w d.logSize (d.logSize / 2) := by
    funext i; exact stA_stB c (by omega) i
  rw [e2]
  exact runRowChunksRev_eq o hk hw c

end

end Tachyon.FFT
