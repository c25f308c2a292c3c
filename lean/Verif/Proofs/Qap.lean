import Verif.Spec.Qap
import Verif.Props.FFT
/-! Proofs about quadratic arithmetic programs. -/
namespace Tachyon.R1cs
open Polynomial Tachyon.FFT Tachyon.Group Tachyon.Poly Tachyon.Props Tachyon.Parallel

variable {F : Type} [Field F] [DecidableEq F]

/-! ### Vectors as functions -/

/-- The vector of the values of `f` below `n`. -/
def vec {α : Type} (n : ℕ) (f : ℕ → α) : List α := (List.range n).map f

theorem vec_get {α : Type} {n : ℕ} (f : ℕ → α) {i : ℕ} (h : i < n) : (vec n f)[i]? = some (f i) := by
  simp [vec, h]

theorem vec_get_none {α : Type} {n : ℕ} (f : ℕ → α) {i : ℕ} (h : n ≤ i) : (vec n f)[i]? = none := by
  simp [vec, h]

theorem vec_length {α : Type} (n : ℕ) (f : ℕ → α) : (vec n f).length = n := by simp [vec]

theorem vec_ext {α : Type} {n : ℕ} {f g : ℕ → α} (h : ∀ i < n, f i = g i) : vec n f = vec n g :=
  List.map_congr_left fun i hi => h i (List.mem_range.1 hi)

theorem vec_set {α : Type} {n : ℕ} (f : ℕ → α) (i : ℕ) (x : α) :
    (vec n f).set i x = vec n fun j => if j = i then x else f j := by
  refine List.ext_getElem? fun j => ?_
  rw [List.getElem?_set, vec_length]
  rcases Nat.lt_or_ge j n with h | h
  · rw [vec_get _ h, vec_get _ h]
    by_cases e : i = j
    · subst e; simp [h]
    · rw [if_neg e, if_neg (Ne.symm e)]
  · rw [vec_get_none _ h, vec_get_none _ h]
    by_cases e : i = j
    · subst e; rw [if_pos rfl, if_neg (by omega)]
    · rw [if_neg e]

theorem foldlM_range_succ {α : Type} (f : α → ℕ → Option α) (v : α) (k : ℕ) :
    (List.range (k + 1)).foldlM f v = ((List.range k).foldlM f v).bind fun w => f w k := by
  rw [List.range_succ, List.foldlM_append]
  cases (List.range k).foldlM f v with
  | none => rfl
  | some w =>
    show ([k].foldlM f w) = f w k
    rw [List.foldlM_cons]
    cases f w k <;> rfl

theorem eq_vec {α : Type} {l : List α} {n : ℕ} {f : ℕ → α} (hl : l.length = n) (h : ∀ i < n, l[i]? = some (f i)) :
    l = vec n f := by
  refine List.ext_getElem? fun j => ?_
  rcases Nat.lt_or_ge j n with hj | hj
  · rw [vec_get _ hj, h j hj]
  · rw [vec_get_none _ hj, List.getElem?_eq_none (by omega)]

/-! ### The instance map -/

omit [DecidableEq F] in
theorem entry_cons (c : Cell F) (row : List (Cell F)) (j : ℕ) :
    entry (c :: row) j = (if c.index = j then c.coeff else 0) + entry row j := by
  rw [entry, List.filter_cons]
  by_cases h : c.index = j
  · simp [h, entry]
  · simp [h, entry]

omit [DecidableEq F] in
theorem addCells_spec (l : F) {n : ℕ} : ∀ (row : List (Cell F)) (f : ℕ → F), (∀ c ∈ row, c.index < n) →
    row.foldlM (addCell l) (vec n f) = some (vec n fun j => f j + l * entry row j)
  | [], f, _ => by
    rw [List.foldlM_nil]
    exact congrArg some (vec_ext fun i _ => by simp [entry])
  | c :: row, f, h => by
    have hc := h c List.mem_cons_self
    have e : addCell l (vec n f) c = some (vec n fun j => if j = c.index then f c.index + l * c.coeff else f j) := by
      rw [addCell, vec_get _ hc, Option.map_some, vec_set]
    rw [List.foldlM_cons, e]
    refine (addCells_spec l row _ fun c hc => h c (List.mem_cons_of_mem _ hc)).trans ?_
    refine congrArg some (vec_ext fun j _ => ?_)
    rw [entry_cons]
    by_cases hj : j = c.index
    · subst hj; simp; ring
    · simp [hj, Ne.symm hj]

omit [DecidableEq F] in
theorem addRows_spec {n k size : ℕ} (L : ℕ → F) (hk : k ≤ size) (f : ℕ → F) (rows : List (List (Cell F)))
    (hr : k ≤ rows.length) (hc : ∀ row ∈ rows, ∀ c ∈ row, c.index < n) :
    addRows (vec size L) (some rows) k (vec n f) =
      some (vec n fun j => f j + ∑ i ∈ Finset.range k, L i * entry (rows.getD i []) j) := by
  induction k with
  | zero => simp [addRows, vec]
  | succ k ih =>
    rw [addRows, foldlM_range_succ]
    have ih' := ih (by omega) (by omega)
    rw [addRows] at ih'
    rw [ih', Option.bind_some]
    obtain ⟨row, hrow⟩ : ∃ row, rows[k]? = some row := ⟨_, List.getElem?_eq_getElem (by omega)⟩
    rw [addRow, Option.bind_some, hrow, Option.bind_some, vec_get _ (by omega), Option.bind_some,
      addCells_spec _ _ _ (hc row (List.mem_of_getElem? hrow))]
    refine congrArg some (vec_ext fun j _ => ?_)
    rw [Finset.sum_range_succ, List.getD_eq_getElem?_getD, hrow]
    simp only [Option.getD_some]
    ring

omit [Field F] [DecidableEq F] in
theorem placeInst_spec {n k size m : ℕ} (L : ℕ → F) (hk : k ≤ n) (hs : m + k ≤ size) (f : ℕ → F) :
    placeInst (vec size L) m k (vec n f) = some (vec n fun j => if j < k then L (m + j) else f j) := by
  induction k with
  | zero => simp [placeInst, vec]
  | succ k ih =>
    rw [placeInst, foldlM_range_succ]
    have ih' := ih (by omega) (by omega)
    rw [placeInst] at ih'
    rw [ih', Option.bind_some, vec_get _ (by omega), Option.bind_some, setAt, vec_get _ (by omega), Option.map_some, vec_set]
    refine congrArg some (vec_ext fun j _ => ?_)
    by_cases h : j = k
    · subst h; simp
    · rw [if_neg h]
      by_cases h' : j < k
      · rw [if_pos h', if_pos (by omega)]
      · rw [if_neg h', if_neg (by omega)]

omit [Field F] [DecidableEq F] in
theorem placeInst_none {k m : ℕ} {ls v : List F} (hs : ls.length < m + k) (h0 : m ≤ ls.length) :
    placeInst ls m k v = none := by
  induction k with
  | zero => omega
  | succ k ih =>
    rw [placeInst, foldlM_range_succ]
    rcases Nat.lt_or_ge ls.length (m + k) with h | h
    · have ih' := ih h
      rw [placeInst] at ih'
      rw [ih']; rfl
    · cases he : (List.range k).foldlM (fun v i => (ls[m + i]?).bind (setAt v i)) v with
      | none => rfl
      | some w => rw [Option.bind_some, List.getElem?_eq_none (by omega)]; rfl

/-! ### Interpolation -/

omit [DecidableEq F] in
theorem Interp.of_basis {d : Domain F} (hd : d.Valid) (v : ℕ → F) :
    ∃ p, Interp d v p ∧ ∀ x, p.eval x = ∑ i ∈ Finset.range d.size,
      (Lagrange.basis (Finset.range d.size) (fun j => d.offset * d.gen ^ j) i).eval x * v i := by
  have hinj : Set.InjOn (fun j => d.offset * d.gen ^ j) (Finset.range d.size : Finset ℕ) :=
    fun a ha b hb => hd.elem_inj (by simpa using ha) (by simpa using hb)
  refine ⟨Lagrange.interpolate (Finset.range d.size) (fun j => d.offset * d.gen ^ j) v, ⟨?_, fun i hi => ?_⟩, fun x => ?_⟩
  · have := Lagrange.degree_interpolate_lt v hinj
    rwa [Finset.card_range] at this
  · exact Lagrange.eval_interpolate_at_node v hinj (Finset.mem_range.2 hi)
  · rw [Lagrange.interpolate_apply, eval_finsetSum]
    exact Finset.sum_congr rfl fun i _ => by rw [eval_mul, eval_C, mul_comm]

omit [DecidableEq F] in
theorem Domain.eq_of_eval {d : Domain F} (hd : d.Valid) {p q : F[X]} (hp : p.degree < d.size) (hq : q.degree < d.size)
    (h : ∀ i < d.size, p.eval (d.offset * d.gen ^ i) = q.eval (d.offset * d.gen ^ i)) : p = q := by
  have hinj : Set.InjOn (fun j => d.offset * d.gen ^ j) (Finset.range d.size : Finset ℕ) :=
    fun a ha b hb => hd.elem_inj (by simpa using ha) (by simpa using hb)
  refine eq_of_degrees_lt_of_eval_index_eq (Finset.range d.size) hinj ?_ ?_ fun i hi => h i (Finset.mem_range.1 hi)
  · rwa [Finset.card_range]
  · rwa [Finset.card_range]

omit [DecidableEq F] in
theorem Interp.unique {d : Domain F} (hd : d.Valid) {v : ℕ → F} {p q : F[X]} (hp : Interp d v p) (hq : Interp d v q) :
    p = q := Domain.eq_of_eval hd hp.degree hq.degree fun i hi => by rw [hp.eval i hi, hq.eval i hi]

omit [DecidableEq F] in
theorem sum_ite_lt {k size : ℕ} (h : k ≤ size) (g : ℕ → F) :
    ∑ i ∈ Finset.range size, (if i < k then g i else 0) = ∑ i ∈ Finset.range k, g i := by
  rw [← Finset.sum_filter]
  congr 1
  ext i
  simp only [Finset.mem_filter, Finset.mem_range]
  omega

omit [DecidableEq F] in
theorem sum_col {k size : ℕ} (h : k ≤ size) (L : ℕ → F) (rows : List (List (Cell F))) (j : ℕ) :
    ∑ i ∈ Finset.range size, L i * col rows k j i = ∑ i ∈ Finset.range k, L i * entry (rows.getD i []) j := by
  rw [← sum_ite_lt h]
  exact Finset.sum_congr rfl fun i _ => by rw [col, mul_ite, mul_zero]

omit [DecidableEq F] in
theorem sum_colA {m : Matrices F} {size : ℕ} (h : m.numCons + m.numInst ≤ size) (L : ℕ → F) (j : ℕ) :
    ∑ i ∈ Finset.range size, L i * colA m j i = (if j < m.numInst then L (m.numCons + j) else 0) +
      ∑ i ∈ Finset.range m.numCons, L i * entry (m.a.getD i []) j := by
  have hs : ∀ i, L i * colA m j i =
      (if i = m.numCons + j then (if j < m.numInst then L (m.numCons + j) else 0) else 0) + L i * col m.a m.numCons j i := by
    intro i
    rw [colA]
    by_cases h1 : i = m.numCons + j
    · by_cases h2 : j < m.numInst
      · rw [if_pos ⟨h1, h2⟩, if_pos h1, if_pos h2, col, if_neg (by omega), h1]; ring
      · rw [if_neg (fun q => h2 q.2), if_pos h1, if_neg h2, zero_add]
    · rw [if_neg (fun q => h1 q.1), if_neg h1, zero_add]
  rw [Finset.sum_congr rfl fun i _ => hs i, Finset.sum_add_distrib, sum_col (by omega)]
  congr 1
  rw [Finset.sum_ite_eq']
  by_cases h2 : j < m.numInst
  · rw [if_pos (Finset.mem_range.2 (by omega))]
  · simp [h2]

/-- `InstanceMap` gives the values of the column polynomials at `x`. -/
theorem instanceMap_spec {threads : ℕ} {d : Domain F} (hd : d.Valid) {cs : CS F} {m : Matrices F}
    (hm : cs.toMatrices = some (some m)) (hok : MatOk m) (hi : m.numInst = cs.numInst) (hw : m.numWit = cs.numWit)
    (hc : m.numCons = cs.numCons) (hpos : 0 < cs.numInst) (hs : cs.numCons + cs.numInst ≤ d.size) (x : F)
    (ht : 0 < threads) (ht' : threads < 128) :
    ∃ q, instanceMap threads d cs x = some q ∧ q.tx = (vanish d).eval x ∧ q.numCons = cs.numCons ∧
      q.numInst = cs.numInst ∧ q.numWit = cs.numWit ∧ q.numQap + 1 = cs.numInst + cs.numWit ∧
      q.a.length = cs.numInst + cs.numWit ∧ q.b.length = cs.numInst + cs.numWit ∧
      q.c.length = cs.numInst + cs.numWit ∧
      ∀ j < cs.numInst + cs.numWit,
        (∃ p, Interp d (colA m j) p ∧ q.a[j]? = some (p.eval x)) ∧
        (∃ p, Interp d (col m.b m.numCons j) p ∧ q.b[j]? = some (p.eval x)) ∧
        ∃ p, Interp d (col m.c m.numCons j) p ∧ q.c[j]? = some (p.eval x) := by
  set L : ℕ → F := fun i => (Lagrange.basis (Finset.range d.size) (fun j => d.offset * d.gen ^ j) i).eval x with hL
  have hall : d.allLagrange threads x = some (vec d.size L) := C39_all hd x ht ht'
  have hn : cs.numInst - 1 + cs.numWit + 1 = cs.numInst + cs.numWit := by omega
  have hz : List.replicate (cs.numInst + cs.numWit) (0 : F) = vec (cs.numInst + cs.numWit) fun _ => 0 :=
    eq_vec (by simp) fun i hi => by simp [hi]
  have hv : d.vanishingAt x = (vanish d).eval x := by
    obtain ⟨h1, -, h3⟩ := C39_vanishing hd x
    rw [h3, h1]; rfl
  have ea := placeInst_spec (m := cs.numCons) (k := cs.numInst) (n := cs.numInst + cs.numWit) L (by omega) hs fun _ => 0
  have eb := fun (rows : List (List (Cell F))) (h : rows.length = cs.numCons) f
      (hcell : CellsOk rows (cs.numInst + cs.numWit)) =>
    addRows_spec (n := cs.numInst + cs.numWit) (k := cs.numCons) (size := d.size) L (by omega) f rows h.ge
      fun row hr c hc => (hcell row hr c hc).2
  have hok' : CellsOk m.a (cs.numInst + cs.numWit) ∧ CellsOk m.b (cs.numInst + cs.numWit) ∧
      CellsOk m.c (cs.numInst + cs.numWit) := by rw [← hi, ← hw]; exact ⟨hok.ca, hok.cb, hok.cc⟩
  refine ⟨⟨vec (cs.numInst + cs.numWit) fun j => (if j < cs.numInst then L (cs.numCons + j) else 0) +
        ∑ i ∈ Finset.range cs.numCons, L i * entry (m.a.getD i []) j,
      vec (cs.numInst + cs.numWit) fun j => 0 + ∑ i ∈ Finset.range cs.numCons, L i * entry (m.b.getD i []) j,
      vec (cs.numInst + cs.numWit) fun j => 0 + ∑ i ∈ Finset.range cs.numCons, L i * entry (m.c.getD i []) j,
      (vanish d).eval x, cs.numCons, cs.numInst, cs.numWit, cs.numInst - 1 + cs.numWit⟩, ?_, rfl, rfl, rfl,
    rfl, hn, ?_⟩
  · rw [instanceMap, if_neg (by omega), hm, Option.bind_some, hall, Option.bind_some]
    simp only [hn, hz, Option.map_some]
    rw [ea, Option.bind_some, eb m.a (hok.a.trans hc) _ hok'.1, Option.bind_some, eb m.b (hok.b.trans hc) _ hok'.2.1,
      Option.bind_some, eb m.c (hok.c.trans hc) _ hok'.2.2, Option.map_some, hv]
  · refine ⟨vec_length _ _, vec_length _ _, vec_length _ _, fun j hj => ⟨?_, ?_, ?_⟩⟩
    · obtain ⟨p, hp, he⟩ := Interp.of_basis hd (colA m j)
      refine ⟨p, hp, ?_⟩
      show (vec _ _)[j]? = _
      rw [vec_get _ hj, he, sum_colA (by omega) L, hi, hc]
    · obtain ⟨p, hp, he⟩ := Interp.of_basis hd (col m.b m.numCons j)
      refine ⟨p, hp, ?_⟩
      show (vec _ _)[j]? = _
      rw [vec_get _ hj, he, sum_col (by omega) L, hc, zero_add]
    · obtain ⟨p, hp, he⟩ := Interp.of_basis hd (col m.c m.numCons j)
      refine ⟨p, hp, ?_⟩
      show (vec _ _)[j]? = _
      rw [vec_get _ hj, he, sum_col (by omega) L, hc, zero_add]

/-! ### The witness map -/

theorem evaluateConstraint_spec (full : List F) : ∀ (row : List (Cell F)) (acc : F), (∀ c ∈ row, c.index < full.length) →
    row.foldlM (evalCell full) acc = some (acc + dot row full)
  | [], acc, _ => by simp [dot]
  | c :: row, acc, h => by
    have hc := h c List.mem_cons_self
    have e : evalCell full acc c = some (acc + c.coeff * full.getD c.index 0) := by
      rw [evalCell, List.getD_eq_getElem?_getD, List.getElem?_eq_getElem hc, Option.map_some, Option.getD_some]
      split
      · next h1 => rw [h1, one_mul]
      · rw [mul_comm]
    rw [List.foldlM_cons, e]
    refine (evaluateConstraint_spec full row _ fun c hc => h c (List.mem_cons_of_mem _ hc)).trans ?_
    rw [dot, dot, List.map_cons, List.sum_cons, add_assoc]

theorem rowValues_spec {size n : ℕ} (hn : n ≤ size) {rows : List (List (Cell F))} (hr : rows.length = n)
    {full : List F} (hc : ∀ row ∈ rows, ∀ c ∈ row, c.index < full.length) :
    rowValues size n rows full = some (vec size (val rows n full)) := by
  have e : ((List.range n).mapM fun i => (rows[i]?).bind (evaluateConstraint · full)) =
      some ((List.range n).map (val rows n full)) := mapM_some fun i hi => by
    have hi := List.mem_range.1 hi
    rw [List.getElem?_eq_getElem (by omega), Option.bind_some, evaluateConstraint, evaluateConstraint_spec _ _ _
      (hc _ (List.getElem_mem _)), zero_add, val, if_pos hi, List.getD_eq_getElem?_getD,
      List.getElem?_eq_getElem (by omega), Option.getD_some]
  rw [rowValues, e, Option.map_some]
  refine congrArg some (eq_vec (by simp; omega) fun i hi => ?_)
  rw [List.getElem?_append]
  split
  · next h => rw [List.length_map, List.length_range] at h; simp [h]
  · next h =>
    rw [List.length_map, List.length_range] at h
    rw [List.getElem?_replicate, List.length_map, List.length_range, if_pos (by omega), val, if_neg h]

omit [DecidableEq F] in
theorem placeFull_spec {full : List F} {k m size : ℕ} (hf : k ≤ full.length) (hs : m + k ≤ size) (f : ℕ → F) :
    placeFull full m k (vec size f) =
      some (vec size fun i => if m ≤ i ∧ i < m + k then full.getD (i - m) 0 else f i) := by
  induction k with
  | zero =>
    rw [placeFull, List.range_zero, List.foldlM_nil]
    exact congrArg some (vec_ext fun i _ => by rw [if_neg (by omega)])
  | succ k ih =>
    rw [placeFull, foldlM_range_succ]
    have ih' := ih (by omega) (by omega)
    rw [placeFull] at ih'
    rw [ih', Option.bind_some, List.getElem?_eq_getElem (by omega), Option.bind_some, setAt, vec_get _ (by omega),
      Option.map_some, vec_set]
    refine congrArg some (vec_ext fun j _ => ?_)
    by_cases h : j = m + k
    · subst h
      rw [if_pos rfl, if_pos (by omega), List.getD_eq_getElem?_getD, show m + k - m = k by omega,
        List.getElem?_eq_getElem (by omega), Option.getD_some]
    · rw [if_neg h]
      by_cases h' : m ≤ j ∧ j < m + k
      · rw [if_pos h', if_pos (by omega)]
      · rw [if_neg h', if_neg (by omega)]

omit [DecidableEq F] in
theorem evalsOf {d : Domain F} {p : List F} {i : ℕ} (hi : i < d.size) :
    (if p = [] then ([] : List F) else (List.range d.size).map fun i => (dpoly p).eval (d.offset * d.gen ^ i)).getD i 0 =
      (dpoly p).eval (d.offset * d.gen ^ i) := by
  split
  · next h => subst h; simp [dpoly]
  · rw [List.getD_eq_getElem?_getD]; simp [hi]

omit [DecidableEq F] in
theorem vanish_degree (d : Domain F) : (vanish d).natDegree = d.size ∧ (vanish d).Monic := by
  have hm : (vanish d).Monic := monic_prod_of_monic _ _ fun i _ => monic_X_sub_C _
  refine ⟨?_, hm⟩
  rw [vanish, natDegree_prod_of_monic _ _ fun i _ => monic_X_sub_C _, Finset.sum_congr rfl fun i _ => natDegree_X_sub_C _]
  simp

omit [DecidableEq F] in
theorem vanish_eval {d : Domain F} (hd : d.Valid) (x : F) : (vanish d).eval x = x ^ d.size - d.offset ^ d.size := by
  have : vanish d = X ^ d.size - C (d.offset ^ d.size) := by rw [← hd.nodal]; rfl
  rw [this]; simp

omit [DecidableEq F] in
theorem vanish_dvd {d : Domain F} (hd : d.Valid) {p : F[X]} (h : ∀ i < d.size, p.eval (d.offset * d.gen ^ i) = 0) :
    vanish d ∣ p := by
  refine Finset.prod_dvd_of_coprime ?_ fun i hi => dvd_iff_isRoot.2 (h i (Finset.mem_range.1 hi))
  intro i hi j hj hij
  refine isCoprime_X_sub_C_of_isUnit_sub (isUnit_iff_ne_zero.2 (sub_ne_zero.2 fun e => hij ?_))
  exact hd.elem_inj (by simpa using hi) (by simpa using hj) e

/-- `WitnessMapFromMatrices` finds the quotient by the vanishing polynomial, when there is one. -/
theorem witnessMapFromMatrices_spec {threads : ℕ} (o : Sched) {d : Domain F} (hd : d.Radix2) {item : Item F}
    (hi : item.For d) {g : F} (hg : g ≠ 0) (hg' : (vanish d).eval g ≠ 0) {m : Matrices F} (hok : MatOk m)
    (hs : m.numCons + m.numInst ≤ d.size) {z : List F} (hz : z.length = m.numInst + m.numWit) (h0 : 0 < m.numInst)
    (hone : z[0]? = some 1) (ht : 0 < threads) (ht' : threads ≤ 2 ^ 63) :
    ∃ h A B D, witnessMapFromMatrices threads o g d item m z = some h ∧ DClean h ∧ h.length ≤ d.size ∧
      Interp d (valA m z) A ∧ Interp d (val m.b m.numCons z) B ∧ Interp d (val m.c m.numCons z) D ∧
      (MatSat m z → A * B - D = dpoly h * vanish d ∧ h.length ≤ d.size - 1) ∧
      (A * B - D = dpoly h * vanish d → MatSat m z) := by
  have hcell : ∀ rows : List (List (Cell F)), CellsOk rows (m.numInst + m.numWit) →
      ∀ row ∈ rows, ∀ c ∈ row, c.index < z.length := fun rows h row hr c hc => by rw [hz]; exact (h row hr c hc).2
  have ea := rowValues_spec (size := d.size) (by omega) hok.a (hcell _ hok.ca)
  have eb := rowValues_spec (size := d.size) (by omega) hok.b (hcell _ hok.cb)
  have ec := rowValues_spec (size := d.size) (by omega) hok.c (hcell _ hok.cc)
  have ep := placeFull_spec (full := z) (k := m.numInst) (m := m.numCons) (size := d.size) (by omega) hs (val m.a m.numCons z)
  obtain ⟨a, ia, ca, la, va⟩ := C38_ifft o hd hi (vec d.size (valA m z)) ht ht'
  obtain ⟨b, ib, cb, lb, vb⟩ := C38_ifft o hd hi (vec d.size (val m.b m.numCons z)) ht ht'
  obtain ⟨c, ic, cc, lc, vc⟩ := C38_ifft o hd hi (vec d.size (val m.c m.numCons z)) ht ht'
  obtain ⟨d', ed, hd', hsz, hlog, hgen, hoff⟩ := (C59_coset hd.1 g).1 hg
  have hr' : d'.Radix2 := ⟨hd', by rw [hsz, hlog]; exact hd.2⟩
  have hi' : item.For d' := by rw [Item.For, hgen, hlog]; exact hi
  have hvan : d.vanishingAt g = (vanish d).eval g := by
    obtain ⟨h1, -, h3⟩ := C39_vanishing hd.1 g
    rw [h3, h1]; rfl
  have getv : ∀ f : ℕ → F, ∀ i < d.size, (vec d.size f).getD i 0 = f i := fun f i hi => by
    rw [List.getD_eq_getElem?_getD, vec_get _ hi, Option.getD_some]
  have iA : Interp d (valA m z) (dpoly a) := ⟨degree_dpoly_lt la, fun i hi => by rw [va i hi, getv _ i hi]⟩
  have iB : Interp d (val m.b m.numCons z) (dpoly b) := ⟨degree_dpoly_lt lb, fun i hi => by rw [vb i hi, getv _ i hi]⟩
  have iC : Interp d (val m.c m.numCons z) (dpoly c) := ⟨degree_dpoly_lt lc, fun i hi => by rw [vc i hi, getv _ i hi]⟩
  have hane : a ≠ [] := by
    rintro rfl
    have h1 := iA.eval m.numCons (by omega)
    rw [valA, if_pos (by omega), Nat.sub_self, List.getD_eq_getElem?_getD, hone] at h1
    simp [dpoly] at h1
  have fa := C38_fft o hr' hi' a (by omega) ht ht'
  have fb := C38_fft o hr' hi' b (by omega) ht ht'
  have fc := C38_fft o hr' hi' c (by omega) ht ht'
  have hdiv : divideEvals d.size
      (if a = [] then [] else (List.range d'.size).map fun i => (dpoly a).eval (d'.offset * d'.gen ^ i))
      (if b = [] then [] else (List.range d'.size).map fun i => (dpoly b).eval (d'.offset * d'.gen ^ i))
      (if c = [] then [] else (List.range d'.size).map fun i => (dpoly c).eval (d'.offset * d'.gen ^ i))
      ((vanish d).eval g)⁻¹ = some (vec d'.size fun i =>
        (dpoly a * dpoly b - dpoly c).eval (d'.offset * d'.gen ^ i) * ((vanish d).eval g)⁻¹) := by
    rw [divideEvals, hsz.symm]
    refine mapM_some fun i hi => ?_
    have hi := List.mem_range.1 hi
    rw [evalsOf hi, evalsOf hi, if_neg hane]
    simp [hi]
  obtain ⟨h, ih, ch, lh, vh⟩ := C38_ifft o hr' hi' (vec d'.size fun i =>
        (dpoly a * dpoly b - dpoly c).eval (d'.offset * d'.gen ^ i) * ((vanish d).eval g)⁻¹) ht ht'
  refine ⟨h, dpoly a, dpoly b, dpoly c, ?_, ch, hsz ▸ lh, iA, iB, iC, ?_, ?_⟩
  · rw [witnessMapFromMatrices, if_neg (by omega), ea, Option.bind_some, eb, Option.bind_some, ec, Option.bind_some, ep,
      Option.bind_some, show (fun i => if m.numCons ≤ i ∧ i < m.numCons + m.numInst then z.getD (i - m.numCons) 0
        else val m.a m.numCons z i) = valA m z from rfl, ia, Option.bind_some, ib, Option.bind_some, ic, Option.bind_some,
      ed, Option.bind_some, fa, Option.bind_some, fb, Option.bind_some, fc, Option.bind_some, hvan, inv?, if_neg hg',
      Option.bind_some, hdiv, Option.bind_some, ih]
  · intro hsat
    obtain ⟨q, hq⟩ := vanish_dvd hd.1 (p := dpoly a * dpoly b - dpoly c) fun i hi => by
      rw [eval_sub, eval_mul, iA.eval i hi, iB.eval i hi, iC.eval i hi]
      by_cases h : i < m.numCons
      · rw [valA, if_neg (by omega), val, if_pos h, val, if_pos h, val, if_pos h, sub_eq_zero]
        refine hsat i _ _ _ ?_ ?_ ?_ <;>
          rw [List.getD_eq_getElem?_getD, List.getElem?_eq_getElem (by have := hok.a; have := hok.b; have := hok.c; omega),
            Option.getD_some]
      · rw [val, if_neg h, val, if_neg h, mul_zero, sub_zero]
    have hdeg : q.degree < (d.size - 1 : ℕ) := by
      by_cases hq0 : q = 0
      · rw [hq0, degree_zero]; exact WithBot.bot_lt_coe _
      · have hn0 : dpoly a * dpoly b - dpoly c ≠ 0 := by
          rw [hq]; exact mul_ne_zero (vanish_degree d).2.ne_zero hq0
        have hle : (dpoly a * dpoly b - dpoly c).natDegree ≤ 2 * (d.size - 1) := by
          have nb : ∀ {p : F[X]}, p.degree < d.size → p.natDegree ≤ d.size - 1 := fun {p} hp => by
            by_cases h0 : p = 0
            · rw [h0, natDegree_zero]; omega
            · have := (natDegree_lt_iff_degree_lt h0).2 hp; omega
          refine (natDegree_sub_le _ _).trans (max_le ?_ ?_)
          · refine natDegree_mul_le.trans ?_
            have h1 := nb iA.degree
            have h2 := nb iB.degree
            omega
          · have h3 := nb iC.degree
            omega
        rw [hq, (vanish_degree d).2.natDegree_mul' hq0, (vanish_degree d).1] at hle
        rw [← natDegree_lt_iff_degree_lt hq0]
        have := hd.1.pos
        omega
    have hval : ∀ i < d'.size, (vanish d).eval (d'.offset * d'.gen ^ i) = (vanish d).eval g := fun i _ => by
      rw [vanish_eval hd.1, vanish_eval hd.1, hoff, hgen, mul_pow, ← pow_mul, mul_comm i, pow_mul, hd.1.prim.pow_eq_one,
        one_pow, mul_one]
    have hqh : q = dpoly h := by
      refine Domain.eq_of_eval hd' ?_ (degree_dpoly_lt lh) fun i hi => ?_
      · refine hdeg.trans_le ?_
        rw [hsz]; exact_mod_cast Nat.sub_le _ _
      · rw [vh i hi, List.getD_eq_getElem?_getD, vec_get _ hi, Option.getD_some, hq, eval_mul, hval i hi]
        field_simp
    refine ⟨by rw [hq, hqh, mul_comm], ?_⟩
    rw [hqh] at hdeg
    by_cases hh : h = []
    · simp [hh]
    · have hne : dpoly h ≠ 0 := fun e => hh ((dpoly_eq_zero ch).1 e)
      have := (natDegree_lt_iff_degree_lt hne).2 hdeg
      rw [natDegree_dpoly ch, Dense.degree_eq_length] at this
      omega
  · intro he i ra rb rc h1 h2 h3
    have hin : i < m.numCons := by rw [← hok.a]; exact (List.getElem?_eq_some_iff.1 h1).1
    have h := congrArg (eval (d.offset * d.gen ^ i)) he
    have hv : (vanish d).eval (d.offset * d.gen ^ i) = 0 := by
      rw [vanish, eval_prod]
      exact Finset.prod_eq_zero (Finset.mem_range.2 (show i < d.size by omega)) (by simp)
    rw [eval_sub, eval_mul, eval_mul, hv, mul_zero, iA.eval i (by omega), iB.eval i (by omega), iC.eval i (by omega), valA,
      if_neg (by omega), val, if_pos hin, val, if_pos hin, val, if_pos hin, sub_eq_zero] at h
    simpa [List.getD_eq_getElem?_getD, h1, h2, h3] using h

/-! ### Linear combinations of the columns -/

omit [DecidableEq F] in
theorem dot_eq_sum {n : ℕ} (z : List F) : ∀ row : List (Cell F), (∀ c ∈ row, c.index < n) →
    dot row z = ∑ j ∈ Finset.range n, z.getD j 0 * entry row j
  | [], _ => by simp [dot, entry]
  | c :: row, h => by
    have ih := dot_eq_sum z row fun c hc => h c (List.mem_cons_of_mem _ hc)
    rw [dot, List.map_cons, List.sum_cons, ← dot, ih]
    have : ∀ j, z.getD j 0 * entry (c :: row) j =
        (if c.index = j then c.coeff * z.getD c.index 0 else 0) + z.getD j 0 * entry row j := fun j => by
      rw [entry_cons]
      split
      · next e => rw [← e]; ring
      · ring
    rw [Finset.sum_congr rfl fun j _ => this j, Finset.sum_add_distrib, Finset.sum_ite_eq,
      if_pos (Finset.mem_range.2 (h c List.mem_cons_self))]

omit [DecidableEq F] in
theorem val_eq_sum {n k : ℕ} (z : List F) {rows : List (List (Cell F))} (h : ∀ row ∈ rows, ∀ c ∈ row, c.index < n) (i : ℕ) :
    val rows k z i = ∑ j ∈ Finset.range n, z.getD j 0 * col rows k j i := by
  by_cases hi : i < k
  · rw [val, if_pos hi, dot_eq_sum (n := n)]
    · exact Finset.sum_congr rfl fun j _ => by rw [col, if_pos hi]
    · intro c hc
      rcases Nat.lt_or_ge i rows.length with hr | hr
      · rw [List.getD_eq_getElem?_getD, List.getElem?_eq_getElem hr, Option.getD_some] at hc
        exact h _ (List.getElem_mem hr) c hc
      · rw [List.getD_eq_getElem?_getD, List.getElem?_eq_none hr] at hc; simp at hc
  · rw [val, if_neg hi]
    exact (Finset.sum_eq_zero fun j _ => by rw [col, if_neg hi, mul_zero]).symm

omit [DecidableEq F] in
theorem valA_eq_sum {m : Matrices F} {n : ℕ} (hn : m.numInst ≤ n) (z : List F)
    (h : ∀ row ∈ m.a, ∀ c ∈ row, c.index < n) (i : ℕ) :
    valA m z i = ∑ j ∈ Finset.range n, z.getD j 0 * colA m j i := by
  by_cases hi : m.numCons ≤ i ∧ i < m.numCons + m.numInst
  · have : ∀ j, z.getD j 0 * colA m j i = if j = i - m.numCons then z.getD (i - m.numCons) 0 else 0 := fun j => by
      rw [colA, col, if_neg (show ¬ i < m.numCons by omega)]
      by_cases hj : j = i - m.numCons
      · rw [if_pos hj, if_pos (by omega), mul_one, hj]
      · rw [if_neg hj, if_neg (by omega), mul_zero]
    rw [valA, if_pos hi, Finset.sum_congr rfl fun j _ => this j, Finset.sum_ite_eq', if_pos (Finset.mem_range.2 (by omega))]
  · rw [valA, if_neg hi, val_eq_sum z h]
    refine Finset.sum_congr rfl fun j _ => ?_
    rw [colA, if_neg (by omega)]

omit [DecidableEq F] in
/-- A linear combination of column polynomials interpolates the linear combination of the columns. -/
theorem Interp.sum {d : Domain F} {n : ℕ} {v : ℕ → ℕ → F} {p : ℕ → F[X]} (z : ℕ → F) (h : ∀ j < n, Interp d (v j) (p j)) :
    Interp d (fun i => ∑ j ∈ Finset.range n, z j * v j i) (∑ j ∈ Finset.range n, C (z j) * p j) := by
  refine ⟨?_, fun i hi => ?_⟩
  · rw [← mem_degreeLT]
    refine Submodule.sum_mem _ fun j hj => ?_
    rw [← smul_eq_C_mul]
    exact Submodule.smul_mem _ _ (mem_degreeLT.2 (h j (Finset.mem_range.1 hj)).degree)
  · rw [eval_finsetSum]
    refine Finset.sum_congr rfl fun j hj => ?_
    rw [eval_mul, eval_C, (h j (Finset.mem_range.1 hj)).eval i hi]

/-! ### The query for the quotient -/

omit [DecidableEq F] in
theorem hLoop_eq (x tx di : F) : ∀ (l : List F) (xi : F),
    hLoop x tx di l xi = vec l.length fun i => xi * x ^ i * tx * di
  | [], _ => rfl
  | _ :: l, xi => by
    rw [hLoop, hLoop_eq x tx di l]
    refine eq_vec (by simp [vec_length]) fun i hi => ?_
    cases i with
    | zero => simp
    | succ i =>
      rw [List.length_cons] at hi
      rw [List.getElem?_cons_succ, vec_get _ (by omega), pow_succ]
      congr 1; ring

omit [DecidableEq F] in
theorem computeHQuery_spec {threads : ℕ} (d : Domain F) (hd : d.size ≤ 2 ^ 63) (tx x di : F) (ht : 0 < threads)
    (ht' : threads ≤ 2 ^ 63) : computeHQuery threads d tx x di = vec (d.size - 1) fun i => x ^ i * tx * di := by
  refine parallelize_eq ht (by simp; omega) (by simp; omega) (by simp [vec_length]) fun i cs len h0 hle => ?_
  rw [List.length_replicate] at hle
  have hl : (chunkOf (List.replicate (d.size - 1) (0 : F)) cs (i, len)).length = len := by
    simp [chunkOf]; omega
  rw [hLoop_eq, hl, powSize_eq _ (by omega)]
  refine List.ext_getElem? fun k => ?_
  by_cases hk : k < len
  · rw [vec_get _ hk, getElem?_chunkOf hk, vec_get _ (by omega), pow_add]
  · rw [vec_get_none _ (by omega), List.getElem?_eq_none (by simp [chunkOf]; omega)]

end Tachyon.R1cs
