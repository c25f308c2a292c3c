import Verif.Proofs.SparseMatrix
/-! # C96: sparse matrices -/
namespace Tachyon.Props
open Tachyon.SparseMatrix Tachyon.FloorPlan

variable {T : Type}

/-- **C96** (`ToELL`, what it does for any row pointers). The result has one row for each pair of
consecutive pointers, as long as their difference, and its rows one after another are the first elements
of the vector; nothing is defined when there are not enough elements. -/
theorem C96_toEll_iff (c : Csr T) (m : Ell T) :
    c.toEll = some m ↔ m.map List.length = gaps c.rowPtrs ∧ m.flatten <+: c.elements :=
  toEllGo_iff _ _ _

/-- **C96** (`ToCSR`). The row pointers go from zero to the number of elements without going down, there
is one more of them than rows, and `ToELL` gives the matrix back. -/
theorem C96_toCsr (m : Ell T) (h : m.flatten.length < 2 ^ 64) :
    m.toCsr.WellFormed ∧ m.toCsr.elements = m.flatten ∧ m.toCsr.maxRows = m.maxRows ∧
      m.toCsr.toEll = some m := by
  have he : m.toCsr.elements = m.flatten := toCsrGo_elements m 0
  obtain ⟨h1, h2⟩ := toCsrGo_sorted m 0
  refine ⟨⟨rfl, ?_, h1, by rw [he]; exact h⟩, he, ?_, ?_⟩
  · rw [he]; simpa [Ell.toCsr] using h2
  · simp [Csr.maxRows, Ell.maxRows, Ell.toCsr, toCsrGo_length]
  · rw [C96_toEll_iff, he]
    exact ⟨(toCsrGo_gaps m 0 (by omega)).symm, List.prefix_refl _⟩

/-- **C96** (`ToELL` of well-formed row pointers). Row `i` is the part of the elements from pointer `i` to
pointer `i + 1`, and `ToCSR` gives the matrix back. -/
theorem C96_toEll (c : Csr T) (h : c.WellFormed) :
    ∃ m, c.toEll = some m ∧ m.toCsr = c ∧ m.length = c.maxRows ∧
      ∀ i a b : ℕ, c.rowPtrs[i]? = some a → c.rowPtrs[i + 1]? = some b →
        m[i]? = some ((c.elements.drop a).take (b - a)) := by
  obtain ⟨es, rp⟩ := c
  obtain ⟨h1, h2, h3, h4⟩ := h
  cases rp with
  | nil => simp at h1
  | cons p ps =>
    obtain rfl : p = 0 := by simpa using h1
    have hle : ∀ q ∈ (0 :: ps : List ℕ), q ≤ es.length := by
      intro q hq
      obtain ⟨ys, hy⟩ := List.getLast?_eq_some_iff.1 h2
      simp only at hy
      rw [hy] at hq h3
      rcases List.mem_append.1 hq with hq | hq
      · exact (List.pairwise_append.1 h3).2.2 q hq _ (List.mem_singleton_self _)
      · rw [List.mem_singleton.1 hq]
    obtain ⟨m, g1, g2, g3⟩ := toEllGo_total ps 0 es h3
      (fun q hq => by have := hle q (List.mem_cons_of_mem _ hq); omega) (by simpa using h4)
    have hpre := ((toEllGo_iff _ _ _).1 g1).2
    have hlen : m.flatten.length = es.length := by
      have := (toCsrGo_sorted m 0).2
      rw [g2] at this
      simp only at h2
      rw [h2] at this
      simpa using this.symm
    refine ⟨m, g1, ?_, ?_, fun i a b ha hb => by simpa using g3 i a b ha hb⟩
    · rw [Ell.toCsr, g2, toCsrGo_elements, hpre.eq_of_length hlen]
    · rw [← toCsrGo_length m 0, g2]; simp [Csr.maxRows]

/-- **C96** (where the row pointers start, not as it should be). `ToELL` looks at differences of the row
pointers only: adding the same number to all of them does not change the result, so that with pointers that
do not start from zero the rows are not the parts that the pointers name. -/
theorem C96_toEll_shift (es : List (Elem T)) (rp : List ℕ) (k : ℕ) :
    (Csr.mk es (rp.map (· + k))).toEll = (Csr.mk es rp).toEll := by
  have hg : gaps (rp.map (· + k)) = gaps rp := by
    unfold gaps
    rw [← List.map_tail, List.zipWith_map]
    congr 1
    funext a b
    unfold gap
    congr 1
    omega
  apply Option.ext
  intro m
  rw [C96_toEll_iff, C96_toEll_iff]
  exact and_congr (by rw [hg]) Iff.rfl

/-- **C96** (`ELLSparseMatrix::Sort`, `IsSorted`). For any sorting algorithm: every row has the same
elements, by column; the entries of the matrix are the same; `IsSorted` says whether all rows are in order;
rows in which the columns go up are left as they are. -/
theorem C96_ell_sort [AddCommMonoid T] (s : SortBy (Elem.index (T := T))) (m : Ell T) :
    List.Forall₂ List.Perm (m.sort s) m ∧ RowsSorted (m.sort s) ∧ (m.sort s).isSorted = true ∧
      (∀ i j, entry (m.sort s) i j = entry m i j) ∧ (m.isSorted = true ↔ RowsSorted m) ∧
      (RowsStrict m → m.sort s = m) := by
  have hs : RowsSorted (m.sort s) := by
    intro r hr
    obtain ⟨r', _, rfl⟩ := List.mem_map.1 hr
    exact s.sorted r'
  have hi : ∀ m : Ell T, m.isSorted = true ↔ RowsSorted m := by
    intro m
    unfold Ell.isSorted RowsSorted
    rw [List.all_eq_true]
    exact forall₂_congr fun r _ => isSortedBy_iff _ _
  refine ⟨?_, hs, (hi _).2 hs, ?_, hi m, ?_⟩
  · unfold Ell.sort
    rw [List.forall₂_map_left_iff]
    exact List.forall₂_same.2 fun r _ => s.perm r
  · intro i j
    unfold entry Ell.sort
    rw [List.getD_eq_getElem?_getD, List.getD_eq_getElem?_getD, List.getElem?_map]
    cases m[i]? with
    | none => rfl
    | some r => exact rowEntry_perm (s.perm r) j
  · intro h
    conv_rhs => rw [← List.map_id m]
    exact List.map_congr_left fun r hr => strict_unique (s.perm r) (s.sorted r) (h r hr)

/-- **C96** (`CSRSparseMatrix::Sort`, where it is defined). Exactly when the row pointers do not go down
and none but the first passes the elements; the row pointers are then left as they are, so that sorting
them does nothing. -/
theorem C96_csr_sort_defined (s : SortBy (Elem.index (T := T))) (sp : SortBy (id : ℕ → ℕ)) (c : Csr T) :
    ((c.sort s sp).isSome = true ↔
      c.rowPtrs.Pairwise (· ≤ ·) ∧ ∀ p ∈ c.rowPtrs.tail, p ≤ c.elements.length) ∧
    ∀ c', c.sort s sp = some c' → c'.rowPtrs = c.rowPtrs := by
  have key := csrSortGo_isSome s c.rowPtrs c.elements
  refine ⟨by rw [Csr.sort, Option.isSome_map]; exact key, ?_⟩
  intro c' hc
  rw [Csr.sort, Option.map_eq_some_iff] at hc
  obtain ⟨es, he, rfl⟩ := hc
  have hp := (key.1 (by rw [he]; rfl)).1
  exact (sp.perm _).eq_of_pairwise (fun a b _ _ h1 h2 => Nat.le_antisymm h1 h2) (sp.sorted _) hp

/-- **C96** (`CSRSparseMatrix::Sort`, `IsSorted`). Of well-formed row pointers they do to the rows what
those of `ELLSparseMatrix` do. -/
theorem C96_csr_sort (s : SortBy (Elem.index (T := T))) (sp : SortBy (id : ℕ → ℕ)) (c : Csr T)
    (h : c.WellFormed) :
    ∃ m c', c.toEll = some m ∧ c.sort s sp = some c' ∧ c'.WellFormed ∧
      c'.toEll = some (m.map s.run) ∧ c.isSorted = some m.isSorted := by
  obtain ⟨m, hm, hmc, _, _⟩ := C96_toEll c h
  obtain ⟨es, rp⟩ := c
  obtain ⟨h1, h2, h3, h4⟩ := h
  simp only at h1 h2 h3 h4
  cases rp with
  | nil => simp at h1
  | cons p ps =>
    obtain rfl : p = 0 := by simpa using h1
    have hle : ∀ q ∈ ps, q ≤ es.length := by
      intro q hq
      obtain ⟨ys, hy⟩ := List.getLast?_eq_some_iff.1 h2
      have hq' : q ∈ (0 :: ps : List ℕ) := List.mem_cons_of_mem _ hq
      have h3' := h3
      rw [hy] at hq' h3'
      rcases List.mem_append.1 hq' with hq | hq
      · exact (List.pairwise_append.1 h3').2.2 q hq _ (List.mem_singleton_self _)
      · rw [List.mem_singleton.1 hq]
    obtain ⟨m1, es', g1, g2, g3, g4⟩ := csrSortGo_rows s ps [] es h3 (by simpa using hle) (by simpa using h4)
    obtain ⟨m2, k1, k2⟩ := csrIsSortedGo_rows (isSortedBy id (0 :: ps)) ps [] es h3
      (by simpa using hle) (by simpa using h4)
    have e1 : m1 = m := Option.some.inj (g1.symm.trans hm)
    have e2 : m2 = m := Option.some.inj (k1.symm.trans hm)
    subst e1
    subst e2
    have hrp : sp.run (0 :: ps) = 0 :: ps :=
      (sp.perm _).eq_of_pairwise (fun a b _ _ h1 h2 => Nat.le_antisymm h1 h2) (sp.sorted _) h3
    refine ⟨m2, ⟨es', 0 :: ps⟩, hm, ?_, ⟨rfl, ?_, h3, ?_⟩, g3, ?_⟩
    · rw [Csr.sort]
      simp only [List.length_nil, List.nil_append] at g2
      rw [g2, Option.map_some, hrp]
    · simp only; rw [g4, h2]
    · simp only; rw [g4]; exact h4
    · have : isSortedBy id (0 :: ps) = true := (isSortedBy_iff _ _).2 h3
      simp only [List.length_nil, List.nil_append, this, Bool.and_true] at k2
      rw [Csr.isSorted]
      simp only [this]
      exact k2

/-- **C96** (`CSRSparseMatrix::IsSorted` and the row pointers, not as it should be). `false` is never
because of row pointers that go down: whenever it is returned, some range that the loop looked at is not in
order. -/
theorem C96_csr_isSorted_ptrs (c : Csr T) (h : c.isSorted = some false) :
    ∃ i a b : ℕ, c.rowPtrs[i]? = some a ∧ c.rowPtrs[i + 1]? = some b ∧ a ≤ b ∧ b ≤ c.elements.length ∧
      ¬ ((c.elements.drop a).take (b - a)).Pairwise fun x y => x.index ≤ y.index := by
  refine csrIsSortedGo_false _ _ _ h ?_
  by_cases hp : c.rowPtrs.Pairwise (· ≤ ·)
  · exact Or.inl ((isSortedBy_iff _ _).2 hp)
  · exact Or.inr hp

/-- **C96** (`CSRSparseMatrix::IsSorted`, `true`). Only of row pointers that do not go down. -/
theorem C96_csr_isSorted_true (c : Csr T) (h : c.isSorted = some true) : c.rowPtrs.Pairwise (· ≤ ·) :=
  (isSortedBy_iff _ _).1 (csrIsSortedGo_true _ _ _ h)

/-- **C96** (`ELLSparseMatrix::MaxCols`, where it is defined). It reads past the end exactly when there is
no row or any row is empty. -/
theorem C96_ell_maxCols_none (m : Ell T) : m.maxCols = none ↔ m = [] ∨ [] ∈ m := by
  cases m with
  | nil => simp [Ell.maxCols]
  | cons r rs =>
    rw [Ell.maxCols]
    by_cases hm : [] ∈ r :: rs
    · refine iff_of_true ?_ (Or.inr hm)
      cases rs with
      | nil =>
        obtain rfl : [] = r := by simpa using hm
        simp [maxRowGo, lastIndex]
      | cons r' rs => rw [maxRowGo_none _ _ (by simp) hm]; rfl
    · refine iff_of_false ?_ (by simpa using hm)
      have hr : r ≠ [] := fun h => hm (by rw [h]; exact List.mem_cons_self ..)
      obtain ⟨a, ha⟩ : ∃ a, lastIndex r = some a := by
        cases h : lastIndex r with
        | none => exact absurd (lastIndex_none.1 h) hr
        | some a => exact ⟨a, rfl⟩
      obtain ⟨it, n, h1, _, h3, _⟩ := maxRowGo_spec rs r a ha
        fun x hx h => hm (by rw [← h]; exact List.mem_cons_of_mem _ hx)
      rw [h1, Option.bind_some, h3]
      simp

/-- **C96** (`ELLSparseMatrix::MaxCols`). One more than the largest of the last columns of the rows. -/
theorem C96_ell_maxCols (m : Ell T) (n : ℕ) (h : m.maxCols = some n) :
    (∃ r ∈ m, ∃ e ∈ r, e.index + 1 = n) ∧ ∀ r ∈ m, ∀ e, r.getLast? = some e → e.index < n := by
  cases m with
  | nil => cases h
  | cons r rs =>
    have hne : ∀ x ∈ r :: rs, x ≠ [] := by
      intro x hx hx0
      subst hx0
      rw [(C96_ell_maxCols_none (r :: rs)).2 (Or.inr hx)] at h
      cases h
    obtain ⟨a, ha⟩ : ∃ a, lastIndex r = some a := by
      cases h : lastIndex r with
      | none => exact absurd (lastIndex_none.1 h) (hne r (List.mem_cons_self ..))
      | some a => exact ⟨a, rfl⟩
    obtain ⟨it, k, h1, h2, h3, h4, h5⟩ := maxRowGo_spec rs r a ha
      fun x hx => hne x (List.mem_cons_of_mem _ hx)
    rw [Ell.maxCols, h1, Option.bind_some, h3] at h
    obtain rfl : k + 1 = n := by simpa using h
    refine ⟨?_, ?_⟩
    · obtain ⟨e, he, rfl⟩ := mem_of_lastIndex h3
      exact ⟨it, h2, e, he, rfl⟩
    · intro x hx e he
      have hl : lastIndex x = some e.index := by rw [lastIndex, he]; rfl
      rcases List.mem_cons.1 hx with rfl | hx
      · rw [ha] at hl; cases hl; omega
      · have := h5 x hx _ hl; omega

/-- **C96** (`CSRSparseMatrix::MaxCols`). It reads past the end exactly when there are no elements;
otherwise it is one more than the largest column. -/
theorem C96_csr_maxCols (c : Csr T) :
    (c.maxCols = none ↔ c.elements = []) ∧
    ∀ n, c.maxCols = some n ↔ (∃ e ∈ c.elements, e.index + 1 = n) ∧ ∀ e ∈ c.elements, e.index < n := by
  unfold Csr.maxCols
  cases c.elements with
  | nil => simp
  | cons e es =>
    refine ⟨by simp, fun n => ?_⟩
    obtain ⟨h1, h2⟩ := maxElemGo_spec es e
    simp only [Option.some.injEq]
    constructor
    · rintro rfl
      exact ⟨⟨_, h1, rfl⟩, fun x hx => Nat.lt_succ_of_le (h2 x hx)⟩
    · rintro ⟨⟨x, hx, rfl⟩, h3⟩
      have := h2 x hx
      have := h3 _ h1
      omega

/-- **C96** (the two `MaxCols`). They agree on matrices with sorted rows of which none is empty. -/
theorem C96_maxCols_eq (m : Ell T) (hs : RowsSorted m) (hm : m ≠ []) (hne : [] ∉ m) :
    m.maxCols = m.toCsr.maxCols ∧ m.maxCols.isSome = true := by
  cases h : m.maxCols with
  | none => exact absurd ((C96_ell_maxCols_none m).1 h) (by simp [hm, hne])
  | some n =>
    refine ⟨?_, rfl⟩
    symm
    obtain ⟨⟨r, hr, e, he, hn⟩, h2⟩ := C96_ell_maxCols m n h
    rw [(C96_csr_maxCols _).2, show m.toCsr.elements = m.flatten from toCsrGo_elements m 0]
    refine ⟨⟨e, List.mem_flatten.2 ⟨r, hr, he⟩, hn⟩, ?_⟩
    intro x hx
    obtain ⟨r', hr', hx'⟩ := List.mem_flatten.1 hx
    obtain ⟨l, hl⟩ : ∃ l, r'.getLast? = some l := by
      cases hc : r'.getLast? with
      | none => rw [List.getLast?_eq_none_iff.1 hc] at hr'; exact absurd hr' hne
      | some l => exact ⟨l, rfl⟩
    have h3 := h2 r' hr' l hl
    have h4 := le_lastIndex (hs r' hr') (l := l.index) (by rw [lastIndex, hl]; rfl) x hx'
    omega

/-- **C96** (`NonZeros`, not as it should be). `ELLSparseMatrix::NonZeros` adds up in an `int`: it is the
number of elements exactly when that is less than `2 ^ 31`. `CSRSparseMatrix::NonZeros` is the number of
elements. -/
theorem C96_nonZeros (m : Ell T) (h : m.flatten.length < 2 ^ 63) :
    m.toCsr.nonZeros = m.flatten.length ∧
    m.nonZeros.toInt = (m.flatten.length : ℤ).bmod (2 ^ 32) ∧
    (m.nonZeros.toNat = m.flatten.length ↔ m.flatten.length < 2 ^ 31) := by
  have h0 : m.nonZeros = (BitVec.ofNat 32 m.flatten.length).signExtend 64 := by
    rw [Ell.nonZeros, nonZeros_fold, BitVec.zero_add]
  have h1 : m.nonZeros.toInt = (m.flatten.length : ℤ).bmod (2 ^ 32) := by
    rw [h0, BitVec.toInt_signExtend_of_le (by decide), _root_.BitVec.toInt_ofNat']
  refine ⟨by rw [Csr.nonZeros]; exact congrArg List.length (toCsrGo_elements m 0), h1, ?_⟩
  generalize m.flatten.length = n at h h1
  have h2 := m.nonZeros.toInt_eq_toNat_bmod
  rw [h1] at h2
  have h3 := m.nonZeros.isLt
  generalize m.nonZeros.toNat = k at h2 h3
  rw [Int.bmod_def, Int.bmod_def] at h2
  constructor
  · rintro rfl
    split at h2 <;> split at h2 <;> omega
  · intro hn
    split at h2 <;> split at h2 <;> omega

/-- **C96** (`ToEigenSparseMatrix`). With sorted rows, none of them empty, and sizes that fit in an `int`,
both classes give Eigen the same rows, columns and triplets: each element with its row. -/
theorem C96_toEigen (m : Ell T) (hm : m ≠ []) (hne : [] ∉ m) (hs : RowsSorted m)
    (hr : m.length ≤ 2 ^ 31) (hc : ∀ r ∈ m, ∀ e ∈ r, e.index < 2 ^ 31) (hl : m.flatten.length < 2 ^ 64) :
    ∃ cols ts, m.toEigen = some (m.length, cols, ts) ∧ m.toCsr.toEigen = m.toEigen ∧
      m.maxCols = some cols ∧
      ∀ (x : ℕ × Elem T), x ∈ ts ↔ ∃ r, m[x.1]? = some r ∧ x.2 ∈ r := by
  obtain ⟨e1, e2⟩ := C96_maxCols_eq m hs hm hne
  obtain ⟨cols, hcols⟩ := Option.isSome_iff_exists.1 e2
  have h1 := (C96_csr_maxCols m.toCsr).2 cols |>.1 (e1 ▸ hcols)
  rw [show m.toCsr.elements = m.flatten from toCsrGo_elements m 0] at h1
  have hle : cols ≤ 2 ^ 31 := by
    obtain ⟨⟨e, he, rfl⟩, _⟩ := h1
    obtain ⟨r, hr, he⟩ := List.mem_flatten.1 he
    have := hc r hr e he
    omega
  have hmap : (coefficientsGo 0 m).mapM (fun x => triplet m.maxRows cols x.1 x.2) =
      some (coefficientsGo 0 m) := by
    have : ∀ l : List (ℕ × Elem T), (∀ x ∈ l, triplet m.maxRows cols x.1 x.2 = some x) →
        l.mapM (fun x => triplet m.maxRows cols x.1 x.2) = some l := by
      intro l
      induction l with
      | nil => intro _; rfl
      | cons x l ih =>
        intro hx
        rw [List.mapM_cons, hx x (List.mem_cons_self ..), ih fun y hy => hx y (List.mem_cons_of_mem _ hy)]
        rfl
    apply this
    intro x hx
    obtain ⟨i, r, g1, g2, g3⟩ := (mem_coefficients m 0 x).1 hx
    have hi : i < m.length := (List.getElem?_eq_some_iff.1 g1).1
    exact triplet_small (by rw [Ell.maxRows]; omega) hr
      (h1.2 _ (List.mem_flatten.2 ⟨r, List.mem_of_getElem? g1, g3⟩)) hle
  have hE : m.toEigen = some (m.length, cols, coefficientsGo 0 m) := by
    rw [Ell.toEigen, hcols, Option.bind_some, hmap]; rfl
  refine ⟨cols, coefficientsGo 0 m, hE, ?_, hcols, ?_⟩
  · obtain ⟨_, _, g3, g4⟩ := C96_toCsr m hl
    have : csrCoefficientsGo 0 m.toCsr.rowPtrs m.toCsr.elements = some (coefficientsGo 0 m) := by
      rw [csrCoefficientsGo_eq]
      exact congrArg (Option.map _) g4
    rw [hE, Csr.toEigen, this, Option.bind_some, ← e1, hcols, Option.bind_some, g3, hmap]
    rfl
  · intro x
    rw [mem_coefficients]
    constructor
    · rintro ⟨i, r, g1, g2, g3⟩
      exact ⟨r, by rw [g2, Nat.zero_add]; exact g1, g3⟩
    · rintro ⟨r, g1, g3⟩
      exact ⟨x.1, r, g1, by omega, g3⟩

/-- **C96** (`ToEigenSparseMatrix` and empty rows, not as it should be). A matrix with an empty row, or
without rows, is not converted. -/
theorem C96_toEigen_empty (m : Ell T) (h : m = [] ∨ [] ∈ m) : m.toEigen = none := by
  rw [Ell.toEigen, (C96_ell_maxCols_none m).2 h]; rfl

/-- **C96** (entries over Eigen). What Eigen keeps of the triplets has the entries of the matrix, elements
with the same place added up; `FromEigenSparseMatrix` gives a matrix with the same entries and sorted rows,
in whatever order Eigen's iterators go. -/
theorem C96_eigen_entries [AddCommMonoid T] (s : SortBy (Elem.index (T := T))) (m : Ell T)
    (ts es : List (ℕ × Elem T)) (rows cols : ℕ) (hm : m.toEigen = some (rows, cols, ts))
    (hsz : m.length ≤ 2 ^ 31) (hc : ∀ r ∈ m, ∀ e ∈ r, e.index < 2 ^ 31)
    (h : SetFromTriplets ts es) :
    (∀ i j, tripletEntry es i j = entry m i j) ∧ (fromEigen s rows es).length = m.length ∧
      RowsSorted (fromEigen s rows es) ∧ ∀ i j, entry (fromEigen s rows es) i j = entry m i j := by
  have hts : ts = coefficientsGo 0 m ∧ rows = m.length := by
    rw [Ell.toEigen, Option.bind_eq_some_iff] at hm
    obtain ⟨cols', _, h2⟩ := hm
    rw [Option.map_eq_some_iff] at h2
    obtain ⟨ts', h3, h4⟩ := h2
    simp only [Prod.mk.injEq] at h4
    obtain ⟨h4, _, rfl⟩ := h4
    refine ⟨?_, h4.symm⟩
    have : ∀ (l l' : List (ℕ × Elem T)), (∀ x ∈ l, x.1 < 2 ^ 31 ∧ x.2.index < 2 ^ 31) →
        l.mapM (fun x => triplet m.maxRows cols' x.1 x.2) = some l' → l' = l := by
      intro l
      induction l with
      | nil => intro l' _ h; simpa using h.symm
      | cons x l ih =>
        intro l' hx h
        rw [List.mapM_cons] at h
        cases ht : triplet m.maxRows cols' x.1 x.2 with
        | none => rw [ht] at h; cases h
        | some y =>
          cases hl : l.mapM (fun x => triplet m.maxRows cols' x.1 x.2) with
          | none => rw [ht, hl] at h; cases h
          | some l'' =>
            rw [ht, hl] at h
            obtain rfl : y :: l'' = l' := Option.some.inj h
            rw [ih l'' (fun z hz => hx z (List.mem_cons_of_mem _ hz)) hl]
            obtain ⟨b1, b2⟩ := hx x (List.mem_cons_self ..)
            unfold triplet at ht
            rw [storageIndex_small b1, storageIndex_small b2] at ht
            split at ht
            · simp only [Int.toNat_natCast, Option.some.injEq] at ht
              rw [← ht]
            · cases ht
    refine this _ _ ?_ h3
    intro x hx
    obtain ⟨i, r, g1, g2, g3⟩ := (mem_coefficients m 0 x).1 hx
    have hi : i < m.length := (List.getElem?_eq_some_iff.1 g1).1
    exact ⟨by omega, hc r (List.mem_of_getElem? g1) _ g3⟩
  obtain ⟨rfl, rfl⟩ := hts
  have he : ∀ i j, tripletEntry es i j = entry m i j := by
    intro i j
    rw [setFromTriplets_entry h, coefficients_entry]
    simp
  obtain ⟨f1, f2⟩ := fromEigen_row s m.length es
  refine ⟨he, f1, (C96_ell_sort s _).2.1, ?_⟩
  intro i j
  by_cases hi : i < m.length
  · unfold entry
    rw [List.getD_eq_getElem?_getD, f2 i hi, Option.getD_some, rowEntry_perm (s.perm _), ofRow_entry, he]
    rfl
  · unfold entry
    rw [List.getD_eq_getElem?_getD, List.getD_eq_getElem?_getD, List.getElem?_eq_none (by omega),
      List.getElem?_eq_none (by omega)]

/-- **C96** (round trip over Eigen). A matrix whose columns go up in each row, with no empty row, comes back
from Eigen as it was, for any order of Eigen's iterators and any sorting algorithm. -/
theorem C96_eigen_roundtrip [AddCommMonoid T] (s : SortBy (Elem.index (T := T))) (m : Ell T)
    (hm : m ≠ []) (hne : [] ∉ m) (hs : RowsStrict m) (hr : m.length ≤ 2 ^ 31)
    (hc : ∀ r ∈ m, ∀ e ∈ r, e.index < 2 ^ 31) :
    ∃ cols ts, m.toEigen = some (m.length, cols, ts) ∧
      (∃ es, SetFromTriplets ts es) ∧ ∀ es, SetFromTriplets ts es → fromEigen s m.length es = m := by
  have hs' : RowsSorted m := fun r hr => (hs r hr).imp Nat.le_of_lt
  have hnd := coefficients_nodup m 0 hs
  obtain ⟨e1, e2⟩ := C96_maxCols_eq m hs' hm hne
  obtain ⟨cols, hcols⟩ := Option.isSome_iff_exists.1 e2
  have h1 := (C96_csr_maxCols m.toCsr).2 cols |>.1 (e1 ▸ hcols)
  rw [show m.toCsr.elements = m.flatten from toCsrGo_elements m 0] at h1
  have hle : cols ≤ 2 ^ 31 := by
    obtain ⟨⟨e, he, rfl⟩, _⟩ := h1
    obtain ⟨r, hr, he⟩ := List.mem_flatten.1 he
    have := hc r hr e he
    omega
  have hmap : ∀ l : List (ℕ × Elem T), (∀ x ∈ l, triplet m.maxRows cols x.1 x.2 = some x) →
      l.mapM (fun x => triplet m.maxRows cols x.1 x.2) = some l := by
    intro l
    induction l with
    | nil => intro _; rfl
    | cons x l ih =>
      intro hx
      rw [List.mapM_cons, hx x (List.mem_cons_self ..), ih fun y hy => hx y (List.mem_cons_of_mem _ hy)]
      rfl
  refine ⟨cols, coefficientsGo 0 m, ?_, ⟨coefficientsGo 0 m, hnd, fun _ _ => Iff.rfl, ?_⟩, ?_⟩
  · rw [Ell.toEigen, hcols, Option.bind_some, hmap]
    · rfl
    · intro x hx
      obtain ⟨i, r, g1, g2, g3⟩ := (mem_coefficients m 0 x).1 hx
      have hi : i < m.length := (List.getElem?_eq_some_iff.1 g1).1
      exact triplet_small (by rw [Ell.maxRows]; omega) hr
        (h1.2 _ (List.mem_flatten.2 ⟨r, List.mem_of_getElem? g1, g3⟩)) hle
  · intro x hx
    rw [nodup_filter_sum _ hnd x hx]
    simp
  · intro es hes
    have hp := setFromTriplets_perm hes hnd
    obtain ⟨f1, f2⟩ := fromEigen_row s m.length es
    apply List.ext_getElem?
    intro i
    by_cases hi : i < m.length
    · rw [f2 i hi, List.getElem?_eq_getElem hi]
      have hmi : m[i]? = some m[i] := List.getElem?_eq_getElem hi
      have ho : (ofRow es i).Perm m[i] := by
        have h2 := ofRow_coefficients m 0 i m[i] hmi
        rw [Nat.zero_add] at h2
        rw [← h2]
        exact (hp.filter _).map _
      exact congrArg some (strict_unique ((s.perm _).trans ho) (s.sorted _)
        (hs _ (List.getElem_mem hi)))
    · rw [List.getElem?_eq_none (by omega), List.getElem?_eq_none (by omega)]

/-! ## Examples -/

/-- The matrix of the comments of the header (sparse_matrix.h:26-33, :184-192). -/
def c96Header : Ell ℤ := [[⟨0, 1⟩, ⟨2, 4⟩], [], [⟨1, 5⟩, ⟨2, 2⟩, ⟨3, 2⟩], [⟨0, 3⟩, ⟨3, 1⟩]]

/-- The same without its zero row. -/
def c96M : Ell ℤ := [[⟨0, 1⟩, ⟨2, 4⟩], [⟨1, 5⟩, ⟨2, 2⟩, ⟨3, 2⟩], [⟨0, 3⟩, ⟨3, 1⟩]]

example : c96Header.toCsr.rowPtrs = [0, 2, 2, 5, 7] ∧ c96Header.toCsr.toEll = some c96Header ∧
    entry c96Header 2 1 = 5 ∧ entry c96Header 1 0 = 0 ∧ c96Header.nonZeros = 7#64 := by
  refine ⟨?_, ?_, ?_, ?_, ?_⟩ <;> decide +kernel

/-- `MaxCols` and `ToEigenSparseMatrix` are not defined for the header's own example. -/
example : c96Header.maxCols = none ∧ c96Header.toEigen = none ∧ c96Header.toCsr.maxCols = some 4 ∧
    c96M.maxCols = some 4 := by
  refine ⟨?_, C96_toEigen_empty _ (Or.inr (by decide)), ?_, ?_⟩ <;> decide +kernel

/-- The hypotheses of the theorems hold of it. -/
example : c96M.toCsr.WellFormed ∧ RowsStrict c96M ∧ c96M ≠ [] ∧ [] ∉ c96M :=
  ⟨(C96_toCsr c96M (by decide)).1, by
    intro r hr
    simp only [c96M, List.mem_cons, List.not_mem_nil, or_false] at hr
    rcases hr with rfl | rfl | rfl <;> decide, by decide, by decide⟩

/-- Row pointers that start from one name the second and the third element; `ToELL` takes the first two. -/
example : (Csr.mk [⟨0, 7⟩, ⟨1, 8⟩, ⟨2, 9⟩] [1, 2, 3] : Csr ℤ).toEll = some [[⟨0, 7⟩], [⟨1, 8⟩]] := by
  decide +kernel

/-- Row pointers that go down are not reported but undefined behaviour. -/
example : (Csr.mk [⟨0, 7⟩, ⟨1, 8⟩] [0, 2, 1] : Csr ℤ).isSorted = none := by decide +kernel

/-- Without rows the conversion to ELL and back adds a row pointer. -/
example : (Csr.mk [] [] : Csr ℤ).toEll = some [] ∧ (Ell.toCsr ([] : Ell ℤ)).rowPtrs = [0] := by
  decide +kernel

end Tachyon.Props
