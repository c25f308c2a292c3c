import Verif.Model.MMCS
import Verif.Spec.MMCS
import Verif.Proofs.Parallel
import Mathlib.Tactic.Ring
import Mathlib.Tactic.Linarith
import Mathlib.Data.List.Flatten
namespace Tachyon.MMCS
open Tachyon.Parallel

/-! ### Logarithms -/

theorem log2Ceil_eq (n : ℕ) : log2Ceil n = Nat.clog 2 n := by
  unfold log2Ceil
  split
  · rename_i h
    rw [Nat.clog_of_right_le_one h]
  · rename_i h
    have h1 := Nat.log2_self_le (n := n - 1) (by omega)
    have h2 := (Nat.log2_lt (n := n - 1) (k := Nat.log2 (n - 1) + 1) (by omega)).1 (by omega)
    apply le_antisymm
    · rw [Nat.succ_le_iff, Nat.lt_clog_iff_pow_lt (by omega)]; omega
    · rw [Nat.clog_le_iff_le_pow (by omega)]; omega

theorem bitCeil_eq (n : ℕ) : bitCeil n = 2 ^ Nat.clog 2 n := by
  rw [← log2Ceil_eq]
  unfold bitCeil log2Ceil
  split <;> rfl

/-! ### Chunks -/

theorem mapM_some' {α β : Type*} {f : α → Option β} {g : α → β} : ∀ {l : List α},
    (∀ a ∈ l, f a = some (g a)) → l.mapM f = some (l.map g)
  | [], _ => rfl
  | a :: l, h => by
    rw [List.mapM_cons, h a (by simp), mapM_some' (l := l) fun b hb => h b (by simp [hb])]
    rfl

theorem fillChunks_eq {D : Type*} {size lanes : ℕ} {f : ℕ → ℕ → Option (List D)} (g : ℕ → D)
    (hl : 0 < lanes) (h : size + lanes ≤ 2 ^ 64)
    (hf : ∀ start len, start + len ≤ size → 
      f start len = some ((List.range len).map fun i => g (start + i))) :
    fillChunks size lanes f = some ((List.range size).map g) := by
  have hx : ((List.range size).map g).length = size := by simp
  unfold fillChunks
  rw [mapM_some' (g := fun c => chunkOf ((List.range size).map g) lanes c)]
  · rw [Option.map_some, ← List.flatMap_def]
    have := flatMap_chunkOf ((List.range size).map g) hl (by rw [hx]; exact h)
    rw [hx] at this
    rw [this]
  · intro c hc
    obtain ⟨h1, h2⟩ := (mem_invocations hl).1 hc
    obtain ⟨h3, h4, h5, h6⟩ := chunk_bounds hl h h1
    rw [← h2] at h4 h5 h6
    rw [hf _ _ (by omega)]
    congr 1
    apply List.ext_getElem?
    intro k
    unfold chunkOf
    by_cases hk : k < c.2
    · rw [List.getElem?_take_of_lt hk, List.getElem?_drop, List.getElem?_map, List.getElem?_map,
        List.getElem?_range hk, List.getElem?_range (by omega)]
      rfl
    · rw [List.getElem?_eq_none (by simp; omega), List.getElem?_eq_none (by
        rw [List.length_take]; omega)]

/-! ### Sorted lists -/

theorem takeWhile_sorted {α : Type*} (κ : α → ℕ) (h : ℕ) : ∀ (s : List α),
    s.Pairwise (fun a b => κ b ≤ κ a) → (∀ a ∈ s, κ a ≤ h) →
    s.takeWhile (fun a => decide (κ a = h)) = s.filter (fun a => decide (κ a = h)) ∧
    s.dropWhile (fun a => decide (κ a = h)) = s.filter (fun a => decide (κ a < h))
  | [], _, _ => ⟨rfl, rfl⟩
  | a :: s, hp, hb => by
    rw [List.pairwise_cons] at hp
    by_cases ha : κ a = h
    · obtain ⟨h1, h2⟩ := takeWhile_sorted κ h s hp.2 fun b hb' => hb b (by simp [hb'])
      rw [List.takeWhile_cons_of_pos (by simpa using ha), List.dropWhile_cons_of_pos (by simpa using ha),
        List.filter_cons_of_pos (by simpa using ha), List.filter_cons_of_neg (by simp; omega), h1, h2]
      exact ⟨rfl, rfl⟩
    · have hlt : ∀ b ∈ a :: s, κ b < h := by
        have := hb a (by simp)
        intro b hb'
        rcases List.mem_cons.1 hb' with rfl | hb'
        · omega
        · have := hp.1 b hb'; omega
      rw [List.takeWhile_cons_of_neg (by simpa using ha), List.dropWhile_cons_of_neg (by simpa using ha)]
      constructor
      · symm; rw [List.filter_eq_nil_iff]
        intro b hb'; have := hlt b hb'; simp; omega
      · symm; rw [List.filter_eq_self]
        intro b hb'; simpa using hlt b hb'

/-- Stability: sorting keeps the order inside a class of equivalent elements. -/
theorem filter_insertionSort {α : Type*} (r : α → α → Prop) [DecidableRel r] (p : α → Bool)
    (l : List α) (hp : ∀ a ∈ l, ∀ b ∈ l, p a → p b → r a b) :
    (l.insertionSort r).filter p = l.filter p := by
  have h1 : (l.filter p).Pairwise r := by
    rw [List.pairwise_iff_forall_sublist]
    intro a b hab
    have ha := hab.subset (show a ∈ [a, b] by simp)
    have hb := hab.subset (show b ∈ [a, b] by simp)
    rw [List.mem_filter] at ha hb
    exact hp a ha.1 b hb.1 ha.2 hb.2
  have h2 : (l.filter p).Sublist (l.insertionSort r) := List.sublist_insertionSort h1 List.filter_sublist
  have h3 := h2.filter p
  rw [List.filter_filter] at h3
  simp only [Bool.and_self] at h3
  exact (h3.eq_of_length ((List.perm_insertionSort r l).filter p).length_eq.symm).symm

section
variable {F P D : Type*} {o : Ops F P D} {lanes : ℕ} {leaves : List (List (List F))}

/-- The nodes of the specification with the functions of `o`. -/
abbrev nd (o : Ops F P D) (k : ℕ) (leaves : List (List (List F))) : ℕ → ℕ → D :=
  Spec.node o.flat o.hash o.compress o.dflt k leaves

theorem mem_group {j : ℕ} {m : List (List F)} :
    m ∈ Spec.group leaves j ↔ m ∈ leaves ∧ Nat.clog 2 m.length = j := by
  unfold Spec.group
  rw [List.mem_filter, decide_eq_true_iff]

theorem group_rows (hv : Valid leaves) {j : ℕ} {m m' : List (List F)} (h : m ∈ Spec.group leaves j)
    (h' : m' ∈ Spec.group leaves j) : m.length = m'.length := by
  rw [mem_group] at h h'
  exact hv.heights m h.1 m' h'.1 (h.2.trans h'.2.symm)

theorem rowOf_eq {m : List (List F)} {i : ℕ} (hi : i < m.length) :
    rowOf o m i = some ((m.getD i []).flatMap o.flat) := by
  unfold rowOf
  rw [List.getD_eq_getElem?_getD, List.getElem?_eq_getElem hi]
  rfl

theorem rowsAt_eq {j i : ℕ} (hi : ∀ m ∈ Spec.group leaves j, i < m.length) :
    rowsAt o (Spec.group leaves j) i = some (Spec.rowData o.flat leaves j i) := by
  unfold rowsAt
  rw [mapM_some' (g := fun m => (m.getD i []).flatMap o.flat) fun m hm => rowOf_eq (hi m hm)]
  rw [Option.map_some, ← List.flatMap_def]
  rfl

theorem packLane_eq {j row i : ℕ} (hi : ∀ m ∈ Spec.group leaves j, row + i < m.length) :
    packLane o (Spec.group leaves j) row i = some (Spec.rowData o.flat leaves j (row + i)) := by
  unfold packLane
  rw [mapM_some' (g := fun m => (m.getD (row + i) []).flatMap o.flat) fun m hm => by
    rw [Nat.mod_eq_of_lt (hi m hm)]; exact rowOf_eq (hi m hm)]
  rw [Option.map_some, ← List.flatMap_def]
  rfl

theorem packRows_eq {j row : ℕ} (hi : ∀ m ∈ Spec.group leaves j, row + lanes ≤ m.length) :
    packRows o (Spec.group leaves j) lanes row =
      some ((List.range lanes).map fun i => Spec.rowData o.flat leaves j (row + i)) := by
  unfold packRows
  refine mapM_some' fun i hl => packLane_eq fun m hm => ?_
  rw [List.mem_range] at hl
  have := hi m hm
  omega

theorem flatMap_flat_length (ho : o.Implements lanes) {r r' : List F} (h : r.length = r'.length) :
    (r.flatMap o.flat).length = (r'.flatMap o.flat).length := by
  induction r generalizing r' with
  | nil => obtain rfl := List.length_eq_zero_iff.1 h.symm; rfl
  | cons x r ih =>
    cases r' with
    | nil => simp at h
    | cons y r' =>
      rw [List.flatMap_cons, List.flatMap_cons, List.length_append, List.length_append,
        ho.flat_length x y, ih (by simpa using h)]

theorem rowData_length (ho : o.Implements lanes) (hv : Valid leaves) {j i i' : ℕ}
    (hi : ∀ m ∈ Spec.group leaves j, i < m.length) (hi' : ∀ m ∈ Spec.group leaves j, i' < m.length) :
    (Spec.rowData o.flat leaves j i).length = (Spec.rowData o.flat leaves j i').length := by
  unfold Spec.rowData
  rw [List.length_flatMap, List.length_flatMap]
  congr 1
  refine List.map_congr_left fun m hm => flatMap_flat_length ho ?_
  have h1 := hi m hm
  have h2 := hi' m hm
  rw [List.getD_eq_getElem?_getD, List.getD_eq_getElem?_getD, List.getElem?_eq_getElem h1,
    List.getElem?_eq_getElem h2]
  exact hv.width m (mem_group.1 hm).1 _ (List.getElem_mem h1) _ (List.getElem_mem h2)

theorem packedHash_eq (ho : o.Implements lanes) (hv : Valid leaves) {j row : ℕ}
    (hi : ∀ m ∈ Spec.group leaves j, row + lanes ≤ m.length) :
    o.packedHash ((List.range lanes).map fun i => Spec.rowData o.flat leaves j (row + i)) =
      (List.range lanes).map fun i => Spec.rowDigest o.flat o.hash o.dflt leaves j (row + i) := by
  have hlt : ∀ i < lanes, ∀ m ∈ Spec.group leaves j, row + i < m.length := fun i hl m hm => by
    have := hi m hm; omega
  rw [ho.packedHash _ (by simp), List.map_map]
  · refine List.map_congr_left fun i hl => ?_
    rw [List.mem_range] at hl
    rw [Spec.rowDigest, if_pos (hlt i hl)]
    rfl
  · intro a ha b hb
    rw [List.mem_map] at ha hb
    obtain ⟨i, hl, rfl⟩ := ha
    obtain ⟨i', hl', rfl⟩ := hb
    rw [List.mem_range] at hl hl'
    exact rowData_length ho hv (hlt i hl) (hlt i' hl')

theorem firstChunk_eq (ho : o.Implements lanes) (hv : Valid leaves) {j start len : ℕ}
    (hi : ∀ m ∈ Spec.group leaves j, start + len ≤ m.length) :
    firstChunk o lanes (Spec.group leaves j) start len =
      some ((List.range len).map fun i => Spec.rowDigest o.flat o.hash o.dflt leaves j (start + i)) := by
  unfold firstChunk
  split
  · rename_i h
    subst h
    rw [packRows_eq hi, Option.map_some, packedHash_eq ho hv hi]
  · refine mapM_some' fun i hl => ?_
    rw [List.mem_range] at hl
    have hlt : ∀ m ∈ Spec.group leaves j, start + i < m.length := fun m hm => by
      have := hi m hm; omega
    rw [rowsAt_eq hlt, Option.map_some, Spec.rowDigest, if_pos hlt]

theorem rowDigest_pad {j i : ℕ} {m : List (List F)} (hm : m ∈ Spec.group leaves j) (hi : m.length ≤ i) :
    Spec.rowDigest o.flat o.hash o.dflt leaves j i = o.dflt := by
  rw [Spec.rowDigest, if_neg]
  intro h
  have := h m hm
  omega

theorem length_le_of_group {j : ℕ} {m : List (List F)} (hm : m ∈ Spec.group leaves j) :
    m.length ≤ 2 ^ j := by
  have := Nat.le_pow_clog (b := 2) (by omega) m.length
  rw [(mem_group.1 hm).2] at this
  exact this

theorem firstLayer_eq (ho : o.Implements lanes) (hv : Valid leaves) (hl : 0 < lanes)
    (hl2 : lanes ≤ 2 ^ 62) {j : ℕ} (hne : Spec.group leaves j ≠ []) :
    firstLayer o lanes (Spec.group leaves j) = some ((List.range (2 ^ j)).map (nd o j leaves 0)) := by
  unfold firstLayer
  split
  · rename_i h; exact absurd h hne
  · rename_i m ms h
    have hm : m ∈ Spec.group leaves j := by rw [h]; simp
    have hmj := length_le_of_group hm
    have hb := hv.bound m (mem_group.1 hm).1
    rw [fillChunks_eq (fun i => Spec.rowDigest o.flat o.hash o.dflt leaves j i) hl (by omega)
      (fun start len hle => firstChunk_eq ho hv fun m' hm' => by
        rw [group_rows hv hm' hm]; exact hle)]
    rw [Option.map_some, bitCeil_eq, (mem_group.1 hm).2]
    congr 1
    apply List.ext_getElem?
    intro i
    by_cases h1 : i < m.length
    · rw [List.getElem?_append_left (by simpa using h1), List.getElem?_map, List.getElem?_map,
        List.getElem?_range h1, List.getElem?_range (by omega)]
      rfl
    · rw [List.getElem?_append_right (by simp; omega), List.getElem?_replicate, List.length_map,
        List.length_range, List.getElem?_map]
      by_cases h2 : i < 2 ^ j
      · rw [if_pos (by omega), List.getElem?_range h2, Option.map_some]
        exact congrArg some (rowDigest_pad (o := o) hm (by omega)).symm
      · rw [if_neg (by omega), List.getElem?_eq_none (by simp; omega)]
        rfl

/-! ### Upper layers -/

variable {k l j : ℕ}

theorem getElem?_prev {i : ℕ} (f : ℕ → D) (hi : i < 2 ^ (j + 1)) :
    ((List.range (2 ^ (j + 1))).map f)[i]? = some (f i) := by
  rw [List.getElem?_map, List.getElem?_range hi]
  rfl

theorem pair_eq {i : ℕ} (f : ℕ → D) (hi : i < 2 ^ j) :
    pair o ((List.range (2 ^ (j + 1))).map f) i = some (o.compress (f (2 * i)) (f (2 * i + 1))) := by
  unfold pair
  have : 2 ^ (j + 1) = 2 * 2 ^ j := by ring
  rw [getElem?_prev f (by omega), getElem?_prev f (by omega)]

theorem packedPairs_eq (ho : o.Implements lanes) {start : ℕ} (f : ℕ → D) (hi : start + lanes ≤ 2 ^ j) :
    packedPairs o lanes ((List.range (2 ^ (j + 1))).map f) start =
      some ((List.range lanes).map fun i => o.compress (f (2 * (start + i))) (f (2 * (start + i) + 1))) := by
  have hp : 2 ^ (j + 1) = 2 * 2 ^ j := by ring
  have h2 : ∀ side, side ≤ 1 → packPrev ((List.range (2 ^ (j + 1))).map f) lanes start side =
      some ((List.range lanes).map fun i => f (2 * (start + i) + side)) := fun side hs =>
    mapM_some' fun i hl => by
      rw [List.mem_range] at hl
      exact getElem?_prev f (by omega)
  unfold packedPairs
  rw [h2 0 (by omega), h2 1 (by omega)]
  dsimp only
  rw [ho.packedCompress _ _ (by simp) (by simp), List.zipWith_map, List.zipWith_self]
  rfl

theorem compressAndInject_eq (ho : o.Implements lanes) (hv : Valid leaves) (hl : 0 < lanes)
    (hl2 : lanes ≤ 2 ^ 62) (hj : k - (l + 1) = j) (hj2 : j ≤ 62) :
    compressAndInject o lanes ((List.range (2 ^ (j + 1))).map (nd o k leaves l)) (Spec.group leaves j) =
      some ((List.range (2 ^ j)).map (nd o k leaves (l + 1))) := by
  have hjp : 2 ^ j ≤ 2 ^ 62 := Nat.pow_le_pow_right (by omega) hj2
  have hp : 2 ^ (j + 1) = 2 * 2 ^ j := by ring
  have hlen : ((List.range (2 ^ (j + 1))).map (nd o k leaves l)).length = 2 * 2 ^ j := by
    rw [List.length_map, List.length_range, hp]
  unfold compressAndInject
  split
  · rename_i hg
    have hnode : ∀ i, nd o k leaves (l + 1) i =
        o.compress (nd o k leaves l (2 * i)) (nd o k leaves l (2 * i + 1)) := fun i => by
      rw [nd, Spec.node, hj, hg, if_pos rfl]
    unfold compressLayer
    rw [hlen, Nat.mul_div_cancel_left _ (by omega : 0 < 2)]
    refine fillChunks_eq _ hl (by omega) fun start len hle => ?_
    unfold compressChunk
    split
    · rename_i h
      subst h
      rw [packedPairs_eq ho _ hle]
      simp only [hnode]
    · refine mapM_some' fun i hi => ?_
      rw [List.mem_range] at hi
      rw [pair_eq _ (by omega), hnode]
  · rename_i m ms hg
    have hm : m ∈ Spec.group leaves j := by rw [hg]; simp
    have hmj := length_le_of_group hm
    have hnode : ∀ i, nd o k leaves (l + 1) i =
        o.compress (o.compress (nd o k leaves l (2 * i)) (nd o k leaves l (2 * i + 1)))
          (Spec.rowDigest o.flat o.hash o.dflt leaves j i) := fun i => by
      rw [nd, Spec.node, hj, hg, if_neg (by simp)]
    have hrow : ∀ i < m.length, ∀ m' ∈ Spec.group leaves j, i < m'.length := fun i hi m' hm' => by
      rw [group_rows hv hm' hm]; exact hi
    unfold injectLayer
    rw [fillChunks_eq (nd o k leaves (l + 1)) hl (by omega) fun start len hle => ?_]
    · rw [mapM_some' (g := nd o k leaves (l + 1)) fun i hi => ?_]
      · dsimp only
        congr 1
        rw [← List.map_append, bitCeil_eq, (mem_group.1 hm).2]
        congr 1
        rw [List.range_eq_range', List.range_eq_range']
        have := List.range'_append_1 (s := 0) (m := m.length) (n := 2 ^ j - m.length)
        rw [Nat.zero_add, Nat.add_sub_cancel' hmj] at this
        exact this
      · rw [List.mem_range'_1, bitCeil_eq, (mem_group.1 hm).2] at hi
        unfold padEntry
        rw [pair_eq _ (by omega), Option.map_some, hnode, rowDigest_pad hm (by omega)]
    · unfold injectChunk
      split
      · rename_i h
        subst h
        have hi : ∀ m' ∈ Spec.group leaves j, start + len ≤ m'.length := fun m' hm' => by
          rw [group_rows hv hm' hm]; exact hle
        rw [packedPairs_eq ho _ (by omega), packRows_eq hi]
        dsimp only
        rw [packedHash_eq ho hv hi, ho.packedCompress _ _ (by simp) (by simp), List.zipWith_map,
          List.zipWith_self]
        simp only [hnode]
      · refine mapM_some' fun i hi => ?_
        rw [List.mem_range] at hi
        unfold injectRow
        rw [pair_eq _ (by omega), rowsAt_eq (hrow _ (by omega))]
        dsimp only
        rw [hnode, Spec.rowDigest, if_pos (hrow _ (by omega))]

/-- The class of a matrix as a test on powers of two. -/
theorem pow_test (x j : ℕ) : decide (bitCeil x = 2 ^ j) = decide (Nat.clog 2 x = j) := by
  rw [decide_eq_decide, bitCeil_eq, Nat.pow_right_inj (by omega)]

theorem layersGo_eq (ho : o.Implements lanes) (hv : Valid leaves) (hl : 0 < lanes)
    (hl2 : lanes ≤ 2 ^ 62) {s : List (List (List F))}
    (hs : s.Pairwise fun a b => Nat.clog 2 b.length ≤ Nat.clog 2 a.length)
    (hg : ∀ i, s.filter (fun m => decide (Nat.clog 2 m.length = i)) = Spec.group leaves i) :
    ∀ (j : ℕ) {l fuel : ℕ}, l + j = k → j < fuel → j ≤ 63 →
    layersGo o lanes fuel ((List.range (2 ^ j)).map (nd o k leaves l))
      (s.filter fun m => decide (Nat.clog 2 m.length < j)) =
    some ((List.range j).map fun t => (List.range (2 ^ (j - (t + 1)))).map (nd o k leaves (l + (t + 1))))
  | 0, l, fuel + 1, hlj, hf, _ => by
    unfold layersGo
    rw [if_pos (by simp)]
    rfl
  | j + 1, l, fuel + 1, hlj, hf, hj => by
    have hp : 2 ^ (j + 1) = 2 * 2 ^ j := by ring
    have hj0 : 0 < 2 ^ j := by positivity
    have hlen : ((List.range (2 ^ (j + 1))).map (nd o k leaves l)).length = 2 * 2 ^ j := by
      rw [List.length_map, List.length_range, hp]
    obtain ⟨h1, h2⟩ := takeWhile_sorted (fun m : List (List F) => Nat.clog 2 m.length) j
      (s.filter fun m => decide (Nat.clog 2 m.length < j + 1)) (hs.filter _) (by
        intro a ha
        rw [List.mem_filter, decide_eq_true_iff] at ha
        omega)
    have e1 : (s.filter fun m => decide (Nat.clog 2 m.length < j + 1)).filter
        (fun m => decide (Nat.clog 2 m.length = j)) = Spec.group leaves j := by
      rw [List.filter_filter, ← hg]
      refine List.filter_congr fun m _ => ?_
      by_cases h : Nat.clog 2 m.length = j <;> simp [h]
    have e2 : (s.filter fun m => decide (Nat.clog 2 m.length < j + 1)).filter
        (fun m => decide (Nat.clog 2 m.length < j)) =
        s.filter fun m => decide (Nat.clog 2 m.length < j) := by
      rw [List.filter_filter]
      refine List.filter_congr fun m _ => ?_
      by_cases h : Nat.clog 2 m.length < j
      · simp [h]; omega
      · simp [h]
    unfold layersGo
    rw [if_neg (by omega)]
    rw [hlen, Nat.mul_div_cancel_left _ (by omega : 0 < 2)]
    simp only [pow_test]
    rw [h1, h2, e1, e2, compressAndInject_eq ho hv hl hl2 (by omega) (by omega)]
    dsimp only
    rw [layersGo_eq ho hv hl hl2 hs hg j (l := l + 1) (fuel := fuel) (by omega) (by omega) (by omega),
      Option.map_some, List.range_succ_eq_map, List.map_cons, List.map_map]
    congr 2
    refine List.map_congr_left fun t _ => ?_
    simp only [Function.comp]
    rw [show l + 1 + (t + 1) = l + (t + 1 + 1) by omega, show j + 1 - (t + 1 + 1) = j - (t + 1) by omega]

end

end Tachyon.MMCS
