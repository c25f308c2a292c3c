import Verif.Proofs.MMCS
import Mathlib.Data.Nat.Bitwise
namespace Tachyon.MMCS
open Tachyon.Parallel

section
variable {F P D : Type*} {o : Ops F P D} {lanes : ℕ} {leaves : List (List (List F))} {k : ℕ}

instance : Std.Total (taller (F := F)) := ⟨fun a b => Nat.le_total b.length a.length⟩
instance : IsTrans (List (List F)) taller := ⟨fun _ _ _ h1 h2 => Nat.le_trans h2 h1⟩
instance : Std.Total higher := ⟨fun a b => Nat.le_total b.2 a.2⟩
instance : IsTrans (ℕ × ℕ) higher := ⟨fun _ _ _ h1 h2 => Nat.le_trans h2 h1⟩

theorem heightsOk_of {leaves : List (List (List F))} (hv : Valid leaves) : ∀ l : List (List (List F)),
    (∀ m ∈ l, m ∈ leaves) → heightsOk l = true
  | [], _ => rfl
  | [_], _ => rfl
  | a :: b :: l, h => by
    unfold heightsOk
    rw [heightsOk_of hv (b :: l) fun m hm => h m (List.mem_cons_of_mem _ hm), Bool.and_true,
      decide_eq_true_iff, bitCeil_eq, bitCeil_eq]
    by_cases hc : Nat.clog 2 a.length = Nat.clog 2 b.length
    · exact .inl (hv.heights a (h a (by simp)) b (h b (by simp)) hc)
    · exact .inr fun he => hc (Nat.pow_right_injective (le_refl 2) he)

theorem takeWhile_congr' {α : Type*} {p q : α → Bool} : ∀ {l : List α}, (∀ a ∈ l, p a = q a) →
    l.takeWhile p = l.takeWhile q ∧ l.dropWhile p = l.dropWhile q
  | [], _ => ⟨rfl, rfl⟩
  | a :: l, h => by
    obtain ⟨h1, h2⟩ := takeWhile_congr' (l := l) fun b hb => h b (by simp [hb])
    rw [List.takeWhile_cons, List.takeWhile_cons, List.dropWhile_cons, List.dropWhile_cons,
      h a (by simp), h1, h2]
    exact ⟨rfl, rfl⟩

theorem pairwise_clog {α : Type*} {f : α → ℕ} {s : List α} (h : s.Pairwise fun a b => f b ≤ f a) :
    s.Pairwise fun a b => Nat.clog 2 (f b) ≤ Nat.clog 2 (f a) :=
  h.imp fun h => Nat.clog_mono_right 2 h

theorem clog_bound {n : ℕ} (h : n ≤ 2 ^ 62) : Nat.clog 2 n ≤ 62 := Nat.clog_le_of_le_pow h

theorem buildLayers_eq (ho : o.Implements lanes) (hv : Valid leaves) (hl : 0 < lanes)
    (hl2 : lanes ≤ 2 ^ 62) (hk : IsHeight leaves k) (dchecks : Bool) :
    buildLayers o lanes dchecks leaves =
      some ((List.range (k + 1)).map fun l => (List.range (2 ^ (k - l))).map (nd o k leaves l)) := by
  have hperm := List.perm_insertionSort taller leaves
  have hsort := List.pairwise_insertionSort taller leaves
  have hmem : ∀ m, m ∈ leaves.insertionSort taller ↔ m ∈ leaves := fun m => hperm.mem_iff
  have hfil : ∀ i, (leaves.insertionSort taller).filter (fun m => decide (Nat.clog 2 m.length = i)) =
      Spec.group leaves i := fun i => filter_insertionSort taller _ leaves (by
    intro a ha b hb h1 h2
    rw [decide_eq_true_iff] at h1 h2
    exact le_of_eq (hv.heights b hb a ha (h2.trans h1.symm)))
  unfold buildLayers
  generalize hS : leaves.insertionSort taller = s at *
  cases s with
  | nil => exact absurd (List.nil_perm.1 hperm) hv.ne
  | cons m rest =>
    dsimp only
    have hm : m ∈ leaves := (hmem m).1 (by simp)
    have htall : ∀ a ∈ leaves, a.length ≤ m.length := by
      intro a ha
      rcases List.mem_cons.1 ((hmem a).2 ha) with rfl | ha
      · exact le_rfl
      · exact (List.pairwise_cons.1 hsort).1 a ha
    have hmk : Nat.clog 2 m.length = k := by
      apply le_antisymm (hk.2 m hm)
      obtain ⟨a, ha, rfl⟩ := hk.1
      exact Nat.clog_mono_right 2 (htall a ha)
    have hk62 : k ≤ 62 := by rw [← hmk]; exact clog_bound (hv.bound m hm)
    rw [heightsOk_of hv _ fun a ha => (hmem a).1 ha]
    simp only [Bool.not_true, Bool.and_false, Bool.false_eq_true, if_false]
    have hcl : ∀ a ∈ rest, decide (m.length = a.length) = decide (Nat.clog 2 a.length = k) := by
      intro a ha
      rw [decide_eq_decide]
      constructor
      · intro h; rw [← h]; exact hmk
      · intro h
        exact hv.heights m hm a ((hmem a).1 (List.mem_cons_of_mem _ ha)) (hmk.trans h.symm)
    obtain ⟨t1, t2⟩ := takeWhile_congr' hcl
    have hps := pairwise_clog (f := fun m : List (List F) => m.length) hsort
    obtain ⟨w1, w2⟩ := takeWhile_sorted (fun m : List (List F) => Nat.clog 2 m.length) k (m :: rest)
      hps (fun a ha => hk.2 a ((hmem a).1 ha))
    rw [List.takeWhile_cons_of_pos (by simpa using hmk), hfil] at w1
    rw [List.dropWhile_cons_of_pos (by simpa using hmk)] at w2
    rw [t1, t2, w1, w2, firstLayer_eq ho hv hl hl2 (by rw [← w1]; simp)]
    dsimp only
    rw [layersGo_eq ho hv hl hl2 hps hfil k (l := 0) (by omega) (by omega) (by omega), Option.map_some,
      List.range_succ_eq_map, List.map_cons, List.map_map]
    congr 2
    refine List.map_congr_left fun t _ => ?_
    simp only [Function.comp]
    rw [Nat.zero_add]

theorem foldl_max_length (ms : List (List (List F))) : ∀ (c : ℕ),
    c ≤ ms.foldl (fun m x => max m x.length) c ∧
    (∀ m ∈ ms, m.length ≤ ms.foldl (fun m x => max m x.length) c) ∧
    (ms.foldl (fun m x => max m x.length) c = c ∨
      ∃ m ∈ ms, ms.foldl (fun m x => max m x.length) c = m.length) := by
  induction ms with
  | nil => intro c; simp
  | cons a ms ih =>
    intro c
    obtain ⟨h1, h2, h3⟩ := ih (max c a.length)
    rw [List.foldl_cons]
    refine ⟨by omega, ?_, ?_⟩
    · intro m hm
      rcases List.mem_cons.1 hm with rfl | hm
      · omega
      · exact h2 m hm
    · rcases h3 with h3 | ⟨m, hm, h3⟩
      · rcases Nat.le_total c a.length with hc | hc
        · exact .inr ⟨a, by simp, by rw [h3]; omega⟩
        · exact .inl (by rw [h3]; omega)
      · exact .inr ⟨m, by simp [hm], h3⟩

theorem log2Ceil_maxRowSize (hk : IsHeight leaves k) : log2Ceil (maxRowSize leaves) = k := by
  rw [log2Ceil_eq]
  obtain ⟨h1, h2, h3⟩ := foldl_max_length leaves 0
  unfold maxRowSize
  obtain ⟨a, ha, hak⟩ := hk.1
  apply le_antisymm
  · rcases h3 with h3 | ⟨m, hm, h3⟩
    · rw [h3]; simp
    · rw [h3]; exact hk.2 m hm
  · rw [← hak]; exact Nat.clog_mono_right 2 (h2 a ha)

theorem clog_le_height (hk : IsHeight leaves k) {m : List (List F)} (hm : m ∈ leaves) :
    Nat.clog 2 m.length ≤ k := hk.2 m hm

/-- The row of `m` that is opened for `index`. -/
def openedRow (k index : ℕ) (m : List (List F)) : List F :=
  m.getD (index / 2 ^ (k - Nat.clog 2 m.length)) []

theorem createProof_eq (hk : IsHeight leaves k) {index : ℕ} (hi : index < 2 ^ k)
    (hrow : ∀ m ∈ leaves, index / 2 ^ (k - Nat.clog 2 m.length) < m.length) (f : ℕ → ℕ → D) :
    createProof leaves ((List.range (k + 1)).map fun l => (List.range (2 ^ (k - l))).map (f l)) index =
      some (leaves.map (openedRow k index),
        (List.range k).map fun l => f l ((index / 2 ^ l) ^^^ 1)) := by
  unfold createProof
  simp only [log2Ceil_maxRowSize hk, log2Ceil_eq]
  rw [mapM_some' (g := openedRow k index) fun m hm => ?_,
    mapM_some' (g := fun l => f l ((index / 2 ^ l) ^^^ 1)) fun l hl => ?_]
  · rw [List.mem_range] at hl
    rw [List.getElem?_map, List.getElem?_range (by omega), Option.map_some, Option.bind_some,
      List.getElem?_map, List.getElem?_range, Option.map_some]
    apply Nat.xor_lt_two_pow
    · rw [Nat.div_lt_iff_lt_mul (by positivity), ← Nat.pow_add, show k - l + l = k by omega]
      exact hi
    · exact Nat.one_lt_two_pow (by omega)
  · unfold openedRow
    rw [List.getD_eq_getElem?_getD, List.getElem?_eq_getElem (hrow m hm)]
    rfl

/-! ### Verification -/

/-- Indices and heights, before sorting. -/
def dims (heights : List ℕ) : List (ℕ × ℕ) := heights.zipIdx.map fun p => (p.2, p.1)

theorem openedValues_filter (j : ℕ) (opened : List (List F)) (f : List (List F) → List F) :
    ∀ (l : List (List (List F))) (n : ℕ), (∀ i, opened[n + i]? = l[i]?.map f) →
    openedValues o opened ((((l.map List.length).zipIdx n).map fun p => (p.2, p.1)).filter fun d =>
      decide (Nat.clog 2 d.2 = j)) =
    some ((Spec.group l j).flatMap fun m => (f m).flatMap o.flat)
  | [], n, _ => rfl
  | a :: l, n, h => by
    have h0 : opened[n]? = some (f a) := by simpa using h 0
    have ih := openedValues_filter j opened f l (n + 1) fun i => by
      rw [show n + 1 + i = n + (i + 1) by omega]; simpa using h (i + 1)
    rw [List.map_cons, List.zipIdx_cons, List.map_cons]
    unfold Spec.group at ih ⊢
    by_cases hc : Nat.clog 2 a.length = j
    · rw [List.filter_cons_of_pos (by simpa using hc), List.filter_cons_of_pos (by simpa using hc)]
      unfold openedValues at ih ⊢
      rw [List.mapM_cons]
      dsimp only
      rw [h0]
      cases hm : (((l.map List.length).zipIdx (n + 1)).map fun p => (p.2, p.1)).filter
        (fun d => decide (Nat.clog 2 d.2 = j)) |>.mapM fun d => opened[d.1]?.map fun r => r.flatMap o.flat with
      | none => rw [hm] at ih; simp at ih
      | some v =>
        rw [hm] at ih
        simp only [Option.map_some, Option.some.injEq] at ih
        simp [ih]
    · rw [List.filter_cons_of_neg (by simpa using hc), List.filter_cons_of_neg (by simpa using hc)]
      exact ih

theorem dims_filter_isEmpty (j : ℕ) : ∀ (l : List (List (List F))) (n : ℕ),
    (((((l.map List.length).zipIdx n).map fun p => (p.2, p.1)).filter fun d =>
      decide (Nat.clog 2 d.2 = j)).isEmpty = true) ↔ Spec.group l j = []
  | [], n => by simp [Spec.group]
  | a :: l, n => by
    have ih := dims_filter_isEmpty j l (n + 1)
    rw [List.map_cons, List.zipIdx_cons, List.map_cons]
    unfold Spec.group at ih ⊢
    by_cases hc : Nat.clog 2 a.length = j
    · rw [List.filter_cons_of_pos (by simpa using hc), List.filter_cons_of_pos (by simpa using hc)]
      simp
    · rw [List.filter_cons_of_neg (by simpa using hc), List.filter_cons_of_neg (by simpa using hc)]
      exact ih

theorem step_eq (f : ℕ → D) (n : ℕ) :
    step o n (f n) (f (n ^^^ 1)) = o.compress (f (2 * (n / 2))) (f (2 * (n / 2) + 1)) := by
  unfold step
  rcases Nat.mod_two_eq_zero_or_one n with h | h
  · rw [if_pos h, Nat.xor_one_of_even (Nat.even_iff.2 h)]
    congr 2 <;> omega
  · rw [if_neg (by omega), Nat.xor_one_of_odd (Nat.odd_iff.2 h)]
    congr 2 <;> omega

/-- What the loop of the verifier needs to know about the sorted dimensions. -/
theorem sorted_step {s : List (ℕ × ℕ)} (hs : s.Pairwise fun a b => b.2 ≤ a.2) (j : ℕ) :
    (s.filter fun d => decide (Nat.clog 2 d.2 < j + 1)).takeWhile (fun d => decide (2 ^ j = bitCeil d.2)) =
      s.filter (fun d => decide (Nat.clog 2 d.2 = j)) ∧
    (s.filter fun d => decide (Nat.clog 2 d.2 < j + 1)).dropWhile (fun d => decide (2 ^ j = bitCeil d.2)) =
      s.filter fun d => decide (Nat.clog 2 d.2 < j) := by
  have hpt : ∀ x, decide (2 ^ j = bitCeil x) = decide (Nat.clog 2 x = j) := fun x => by
    rw [← pow_test, decide_eq_decide]; exact eq_comm
  obtain ⟨h1, h2⟩ := takeWhile_sorted (fun d : ℕ × ℕ => Nat.clog 2 d.2) j
    (s.filter fun d => decide (Nat.clog 2 d.2 < j + 1)) ((pairwise_clog (f := Prod.snd) hs).filter _) (by
      intro a ha
      rw [List.mem_filter, decide_eq_true_iff] at ha
      omega)
  simp only [hpt]
  rw [h1, h2, List.filter_filter, List.filter_filter]
  constructor
  · refine List.filter_congr fun m _ => ?_
    by_cases h : Nat.clog 2 m.2 = j <;> simp [h]
  · refine List.filter_congr fun m _ => ?_
    by_cases h : Nat.clog 2 m.2 < j
    · simp [h]; omega
    · simp [h]

theorem verifyGo_eq {opened : List (List F)} {index : ℕ} {s : List (ℕ × ℕ)}
    (hs : s.Pairwise fun a b => b.2 ≤ a.2)
    (hrow : ∀ m ∈ leaves, index / 2 ^ (k - Nat.clog 2 m.length) < m.length)
    (hval : ∀ j, openedValues o opened (s.filter fun d => decide (Nat.clog 2 d.2 = j)) =
      some ((Spec.group leaves j).flatMap fun m => (openedRow k index m).flatMap o.flat))
    (hemp : ∀ j, (s.filter fun d => decide (Nat.clog 2 d.2 = j)).isEmpty = true ↔
      Spec.group leaves j = []) :
    ∀ (j : ℕ) {l : ℕ}, l + j = k →
    verifyGo o opened ((List.range j).map fun t => nd o k leaves (l + t) ((index / 2 ^ (l + t)) ^^^ 1))
      (nd o k leaves l (index / 2 ^ l)) (index / 2 ^ l) (2 ^ j)
      (s.filter fun d => decide (Nat.clog 2 d.2 < j)) = some (nd o k leaves k (index / 2 ^ k))
  | 0, l, hl => by
    obtain rfl : l = k := by omega
    rfl
  | j + 1, l, hl => by
    rw [List.range_succ_eq_map, List.map_cons, List.map_map]
    have hp : 2 ^ (j + 1) = 2 * 2 ^ j := by ring
    unfold verifyGo
    obtain ⟨s1, s2⟩ := sorted_step hs j
    rw [hp, Nat.mul_div_cancel_left _ (by omega : 0 < 2), s1, s2, Nat.add_zero,
      step_eq (nd o k leaves l), Nat.div_div_eq_div_mul, ← Nat.pow_succ]
    have hinj : injectOpened o opened (s.filter fun d => decide (Nat.clog 2 d.2 = j))
        (o.compress (nd o k leaves l (2 * (index / 2 ^ (l + 1)))) (nd o k leaves l (2 * (index / 2 ^ (l + 1)) + 1)))
        = some (nd o k leaves (l + 1) (index / 2 ^ (l + 1))) := by
      have hnode : nd o k leaves (l + 1) (index / 2 ^ (l + 1)) =
          if Spec.group leaves j = [] then
            o.compress (nd o k leaves l (2 * (index / 2 ^ (l + 1))))
              (nd o k leaves l (2 * (index / 2 ^ (l + 1)) + 1))
          else o.compress (o.compress (nd o k leaves l (2 * (index / 2 ^ (l + 1))))
              (nd o k leaves l (2 * (index / 2 ^ (l + 1)) + 1)))
            (Spec.rowDigest o.flat o.hash o.dflt leaves j (index / 2 ^ (l + 1))) := by
        have hj : k - (l + 1) = j := by omega
        subst hj
        rfl
      rw [hnode]
      unfold injectOpened
      by_cases he : Spec.group leaves j = []
      · rw [if_pos ((hemp j).2 he), if_pos he]
      · rw [if_neg (fun h => he ((hemp j).1 h)), if_neg he, hval j, Option.map_some]
        have hcond : ∀ m ∈ Spec.group leaves j, index / 2 ^ (l + 1) < m.length := by
          intro m hm
          have := hrow m (mem_group.1 hm).1
          rw [(mem_group.1 hm).2, show k - j = l + 1 by omega] at this
          exact this
        rw [Spec.rowDigest, if_pos hcond]
        congr 3
        unfold Spec.rowData
        refine List.flatMap_congr fun m hm => ?_
        rw [openedRow, (mem_group.1 hm).2, show k - j = l + 1 by omega]
    rw [hinj]
    dsimp only
    have ih := verifyGo_eq hs hrow hval hemp j (l := l + 1) (by omega)
    rw [← ih]
    congr 1
    refine List.map_congr_left fun t _ => ?_
    simp only [Function.comp]
    rw [show l + t.succ = l + 1 + t by omega]

theorem dims_mem {heights : List ℕ} {d : ℕ × ℕ} (h : d ∈ dims heights) :
    heights[d.1]? = some d.2 := by
  unfold dims at h
  rw [List.mem_map] at h
  obtain ⟨p, hp, rfl⟩ := h
  exact List.mem_zipIdx_iff_getElem?.1 hp

theorem computeRoot_eq (hv : Valid leaves) (hk : IsHeight leaves k) {index : ℕ} (hi : index < 2 ^ k)
    (hrow : ∀ m ∈ leaves, index / 2 ^ (k - Nat.clog 2 m.length) < m.length) :
    computeRoot o (leaves.map List.length) index (leaves.map (openedRow k index))
      ((List.range k).map fun l => nd o k leaves l ((index / 2 ^ l) ^^^ 1)) =
      some (nd o k leaves k 0) := by
  unfold computeRoot
  rw [if_neg (by simp)]
  change (match (dims (leaves.map List.length)).insertionSort higher with
    | [] => none
    | _ :: _ => _) = _
  have hperm := List.perm_insertionSort higher (dims (leaves.map List.length))
  have hsort := List.pairwise_insertionSort higher (dims (leaves.map List.length))
  have hmem : ∀ d ∈ dims (leaves.map List.length), ∃ m ∈ leaves, m.length = d.2 := by
    intro d hd
    have := dims_mem hd
    rw [List.getElem?_map, Option.map_eq_some_iff] at this
    obtain ⟨m, hm, he⟩ := this
    exact ⟨m, List.mem_of_getElem? hm, he⟩
  have hfil : ∀ j, ((dims (leaves.map List.length)).insertionSort higher).filter
      (fun d => decide (Nat.clog 2 d.2 = j)) =
      (dims (leaves.map List.length)).filter fun d => decide (Nat.clog 2 d.2 = j) :=
    fun j => filter_insertionSort higher _ _ (by
      intro a ha b hb h1 h2
      rw [decide_eq_true_iff] at h1 h2
      obtain ⟨ma, hma, ea⟩ := hmem a ha
      obtain ⟨mb, hmb, eb⟩ := hmem b hb
      have := hv.heights mb hmb ma hma (by rw [ea, eb]; exact h2.trans h1.symm)
      exact le_of_eq (by rw [← ea, ← eb]; exact this))
  have hval : ∀ j, openedValues o (leaves.map (openedRow k index))
      ((dims (leaves.map List.length)).filter fun d => decide (Nat.clog 2 d.2 = j)) = _ := fun j =>
    openedValues_filter j _ (openedRow k index) leaves 0 fun i => by
      rw [Nat.zero_add, List.getElem?_map]
  have hemp : ∀ j, ((dims (leaves.map List.length)).filter fun d =>
      decide (Nat.clog 2 d.2 = j)).isEmpty = true ↔ Spec.group leaves j = [] := fun j =>
    dims_filter_isEmpty j leaves 0
  have hlen : (dims (leaves.map List.length)).length = leaves.length := by simp [dims]
  have hmem' : ∀ d, d ∈ (dims (leaves.map List.length)).insertionSort higher →
      ∃ m ∈ leaves, m.length = d.2 := fun d hd => hmem d (hperm.mem_iff.1 hd)
  have hmem2 : ∀ m ∈ leaves, ∃ d ∈ (dims (leaves.map List.length)).insertionSort higher,
      m.length = d.2 := by
    intro m hm
    obtain ⟨i, hi, rfl⟩ := List.getElem_of_mem hm
    refine ⟨(i, leaves[i].length), hperm.mem_iff.2 ?_, rfl⟩
    unfold dims
    rw [List.mem_map]
    refine ⟨(leaves[i].length, i), ?_, rfl⟩
    rw [List.mem_zipIdx_iff_getElem?]
    simp [hi]
  simp only [← hfil] at hval hemp
  generalize (dims (leaves.map List.length)).insertionSort higher = s at *
  cases s with
  | nil =>
    obtain ⟨m, hm, -⟩ := hk.1
    obtain ⟨d, hd, -⟩ := hmem2 m hm
    cases hd
  | cons d rest =>
    dsimp only
    have hdk : Nat.clog 2 d.2 = k := by
      apply le_antisymm
      · obtain ⟨m, hm, he⟩ := hmem' d (by simp)
        rw [← he]; exact hk.2 m hm
      · obtain ⟨m, hm, rfl⟩ := hk.1
        obtain ⟨d', hd', he⟩ := hmem2 m hm
        rw [he]
        apply Nat.clog_mono_right
        rcases List.mem_cons.1 hd' with rfl | hd'
        · exact le_rfl
        · exact (List.pairwise_cons.1 hsort).1 d' hd'
    have hall : (d :: rest).filter (fun x => decide (Nat.clog 2 x.2 < k + 1)) = d :: rest := by
      rw [List.filter_eq_self]
      intro x hx
      obtain ⟨m, hm, he⟩ := hmem' x hx
      have := hk.2 m hm
      rw [he] at this
      simpa using Nat.lt_succ_of_le this
    obtain ⟨s1, s2⟩ := sorted_step (s := d :: rest) hsort k
    rw [hall] at s1 s2
    have hne : Spec.group leaves k ≠ [] := fun h => by
      obtain ⟨m, hm, hmk⟩ := hk.1
      have : m ∈ Spec.group leaves k := mem_group.2 ⟨hm, hmk⟩
      rw [h] at this; cases this
    rw [bitCeil_eq d.2, hdk, s1, s2, hval k]
    dsimp only
    have hcond : ∀ m ∈ Spec.group leaves k, index < m.length := by
      intro m hm
      have := hrow m (mem_group.1 hm).1
      rwa [(mem_group.1 hm).2, Nat.sub_self, Nat.pow_zero, Nat.div_one] at this
    have hroot : o.hash ((Spec.group leaves k).flatMap fun m => (openedRow k index m).flatMap o.flat) =
        nd o k leaves 0 (index / 2 ^ 0) := by
      rw [Nat.pow_zero, Nat.div_one, nd, Spec.node, Spec.rowDigest, if_pos hcond]
      congr 1
      unfold Spec.rowData
      refine List.flatMap_congr fun m hm => ?_
      rw [openedRow, (mem_group.1 hm).2, Nat.sub_self, Nat.pow_zero, Nat.div_one]
    have := verifyGo_eq (o := o) (opened := leaves.map (openedRow k index)) hsort hrow hval hemp k (l := 0)
      (by omega)
    simp only [Nat.zero_add] at this
    rw [← hroot, Nat.pow_zero, Nat.div_one] at this
    rw [this, Nat.div_eq_of_lt hi]

end
end Tachyon.MMCS
