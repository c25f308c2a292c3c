import Mathlib.FieldTheory.Finite.Basic
import Mathlib.Algebra.Polynomial.Roots
import Verif.Model.Vanishing
import Verif.Props.FFT
import Verif.Props.Group
/-! Lemmas for the quotient polynomial (C87). -/
namespace Tachyon.Vanishing
open Tachyon.FFT Tachyon.Group Tachyon.Parallel Tachyon.Poly Polynomial Tachyon.Props

variable {F : Type*} [Field F] [DecidableEq F]

/-! ### The cube root -/

omit [DecidableEq F] in
theorem cube_sq {z : F} (hz : IsPrimitiveRoot z 3) : IsPrimitiveRoot (z * z) 3 := by
  rw [← sq]; exact hz.pow_of_coprime 2 (by norm_num)

omit [DecidableEq F] in
theorem cube_pow {z : F} (hz : IsPrimitiveRoot z 3) (i : ℕ) : z ^ i = z ^ (i % 3) := by
  conv_lhs => rw [← Nat.div_add_mod i 3, pow_add, pow_mul, hz.pow_eq_one, one_pow, one_mul]

omit [DecidableEq F] in
/-- `ζ·w^i` is never a root of unity of order a power of two. -/
theorem coset_ne {z w : F} (hz : IsPrimitiveRoot z 3) {k e i : ℕ} (hw : w ^ 2 ^ e = 1) :
    (z * w ^ i) ^ 2 ^ k ≠ 1 := by
  intro h
  have h1 : z ^ (2 ^ k * 2 ^ e) = 1 := by
    have := congrArg (· ^ 2 ^ e) h
    simp only [one_pow, ← pow_mul, mul_pow] at this
    rwa [show i * 2 ^ k * 2 ^ e = 2 ^ e * (i * 2 ^ k) by ring, pow_mul w, hw, one_pow, mul_one] at this
  have h2 := hz.dvd_of_pow_eq_one _ h1
  rw [← pow_add] at h2
  exact absurd (Nat.Prime.dvd_of_dvd_pow (by norm_num) h2) (by norm_num)

omit [DecidableEq F] in
theorem radix2_le63 {d : Domain F} (hd : d.Radix2) : d.logSize ≤ 63 := by
  have h := hd.1.le
  rw [hd.2] at h
  exact (Nat.pow_le_pow_iff_right (by norm_num)).1 h

/-! ### The inverted values of the vanishing polynomial -/

omit [DecidableEq F] in
theorem tLoop_eq (w : F) : ∀ (n : ℕ) (z : F), tLoop w n z = (List.range (n + 1)).map fun i => z * w ^ i - 1
  | 0, z => by simp [tLoop]
  | n + 1, z => by
    rw [tLoop, tLoop_eq w n, List.range_succ_eq_map (n := n + 1), List.map_cons, List.map_map]
    congr 1
    · simp
    · refine List.map_congr_left fun i _ => ?_
      simp only [Function.comp, Nat.succ_eq_add_one, pow_succ]; ring

theorem tChunk_eq (w z : F) {start len : ℕ} (hl : 0 < len) (hs : start < 2 ^ 64) :
    tChunk w z start len =
      some ((List.range len).map fun i => if z * w ^ (start + i) - 1 = 0 then 0 else (z * w ^ (start + i) - 1)⁻¹) := by
  have e := C22_serial (tLoop w (len - 1) (z * powSize w start)) 1
  have hlen : (tLoop w (len - 1) (z * powSize w start)).length = len := by simp [tLoop_eq]; omega
  rw [hlen] at e
  rw [tChunk, e, tLoop_eq, List.map_map, show len - 1 + 1 = len by omega, powSize_eq _ hs]
  congr 1
  refine List.map_congr_left fun i _ => ?_
  simp only [Function.comp, one_mul, pow_add, mul_assoc]

theorem tEvals_eq {threads : ℕ} (ht : 0 < threads) (ht' : threads ≤ 2 ^ 63) {d ext : Domain F} (zeta : F)
    (hle : d.logSize ≤ ext.logSize) (h63 : ext.logSize ≤ 63) :
    tEvals threads d ext zeta = some ((List.range (2 ^ (ext.logSize - d.logSize))).map fun i =>
      if (zeta * ext.gen ^ i) ^ 2 ^ d.logSize - 1 = 0 then 0 else ((zeta * ext.gen ^ i) ^ 2 ^ d.logSize - 1)⁻¹) := by
  have hsz : (2 : ℕ) ^ (ext.logSize - d.logSize) ≤ 2 ^ 63 := Nat.pow_le_pow_right (by norm_num) (by omega)
  have hpos : 0 < (2 : ℕ) ^ (ext.logSize - d.logSize) := by positivity
  rw [tEvals, if_neg (by omega)]
  simp only [squareTimes_eq]
  generalize (2 : ℕ) ^ (ext.logSize - d.logSize) = size at hsz hpos ⊢
  have h64 : size + threads ≤ 2 ^ 64 := by omega
  obtain ⟨hp, hb, -⟩ := sizePerThread_bounds ht h64 none
  simp only [numElementsPerThread]
  generalize sizePerThread threads size none = cs at hp hb ⊢
  have hcs : 0 < cs := hp.2 hpos
  set ys := (List.range size).map fun i =>
      if (zeta * ext.gen ^ i) ^ 2 ^ d.logSize - 1 = 0 then 0 else ((zeta * ext.gen ^ i) ^ 2 ^ d.logSize - 1)⁻¹ with hys
  have hyl : ys.length = size := by simp [hys]
  rw [Poly.mapM_some (g := fun c => chunkOf ys cs c)]
  · rw [Option.map_some, ← List.flatMap_def]
    have := flatMap_chunkOf ys hcs (by rw [hyl]; omega)
    rw [hyl] at this
    rw [this]
  · intro c hc
    obtain ⟨h1, h2⟩ := (mem_invocations hcs).1 hc
    obtain ⟨b1, b2, b3, b4⟩ := chunk_bounds hcs (by omega) h1
    rw [← h2] at b2 b3 b4
    have b5 : c.1 * cs + c.2 ≤ size := by rw [b2]; exact min_le_right _ _
    rw [tChunk_eq _ _ b3 (by omega)]
    congr 1
    refine List.ext_getElem? fun i => ?_
    by_cases hi : i < c.2
    · rw [List.getElem?_map, List.getElem?_range hi, show c = (c.1, c.2) from rfl, getElem?_chunkOf hi, hys,
        List.getElem?_map, List.getElem?_range (by omega)]
      simp only [Option.map_some, mul_pow, ← pow_mul]
      rw [Nat.mul_comm (2 ^ d.logSize)]
    · rw [List.getElem?_eq_none (by simp; omega), List.getElem?_eq_none (by simp [chunkOf]; omega)]

theorem divide_eq {threads : ℕ} (ht : 0 < threads) (ht' : threads ≤ 2 ^ 63) {d ext : Domain F} (hext : ext.Radix2)
    {zeta : F} (hz : IsPrimitiveRoot zeta 3) (hle : d.logSize ≤ ext.logSize) (evals : List F)
    (hl : evals.length = ext.size) :
    divideByVanishing threads d ext zeta evals = some ((List.range ext.size).map fun i =>
      evals.getD i 0 * ((zeta * ext.gen ^ i) ^ 2 ^ d.logSize - 1)⁻¹) := by
  have h63 : ext.logSize ≤ 63 := radix2_le63 hext
  rw [divideByVanishing, if_neg (by simp [hl]), tEvals_eq ht ht' zeta hle h63, Option.bind_some]
  have hgen : ext.gen ^ 2 ^ ext.logSize = 1 := by rw [← hext.2]; exact hext.1.prim.pow_eq_one
  rw [Poly.mapM_some (g := fun e : F × ℕ => e.1 * ((zeta * ext.gen ^ e.2) ^ 2 ^ d.logSize - 1)⁻¹)]
  · congr 1
    refine List.ext_getElem? fun i => ?_
    by_cases hi : i < ext.size
    · simp [hi, hl]
    · simp [hi, hl]
  · intro e _
    have hpos : 0 < (2 : ℕ) ^ (ext.logSize - d.logSize) := by positivity
    rw [List.getElem?_map, List.getElem?_range (by simpa using Nat.mod_lt _ hpos)]
    simp only [Option.map_some, List.length_map, List.length_range]
    have hne : ∀ i, (zeta * ext.gen ^ i) ^ 2 ^ d.logSize - 1 ≠ 0 := fun i => sub_ne_zero.2 (coset_ne hz hgen)
    rw [if_neg (hne _)]
    congr 4
    rw [mul_pow, mul_pow, ← pow_mul, ← pow_mul]
    congr 1
    set s := (2 : ℕ) ^ (ext.logSize - d.logSize) with hs
    have hss : s * 2 ^ d.logSize = 2 ^ ext.logSize := by rw [hs, ← pow_add]; congr 1; omega
    conv_rhs => rw [← Nat.mod_add_div e.2 s, add_mul, pow_add,
      show s * (e.2 / s) * 2 ^ d.logSize = (s * 2 ^ d.logSize) * (e.2 / s) by ring, hss, pow_mul ext.gen (2 ^ ext.logSize),
      hgen, one_pow, mul_one]

/-! ### Moving into the coset and back -/

omit [DecidableEq F] in
theorem getElem?_distribute (z : F) (into : Bool) (p : List F) (i : ℕ) :
    (distributeZeta z into p)[i]? = (p[i]?).map fun c => if i % 3 = 0 then c else c * cosetPower z into i := by
  rw [distributeZeta, List.getElem?_mapIdx]

omit [DecidableEq F] in
theorem factor_eq {z : F} (hz : IsPrimitiveRoot z 3) (into : Bool) (i : ℕ) (c : F) :
    (if i % 3 = 0 then c else c * cosetPower z into i) = c * (if into then z else z * z) ^ i := by
  have hc : IsPrimitiveRoot (if into then z else z * z) 3 := by cases into; exacts [cube_sq hz, hz]
  rw [cube_pow hc i]
  have hlt : i % 3 < 3 := Nat.mod_lt _ (by norm_num)
  have h3 : z * z * z = 1 := by have := hz.pow_eq_one; rw [← this]; ring
  unfold cosetPower
  rcases hi : i % 3 with _ | _ | _ | n
  · simp
  · cases into <;> simp
  · cases into
    · simp only [ite_false, Bool.false_eq_true]
      norm_num
      left
      linear_combination (-z) * h3
    · norm_num
      left; ring
  · omega

omit [DecidableEq F] in
theorem dpoly_distribute {z : F} (hz : IsPrimitiveRoot z 3) (into : Bool) (p : List F) (x : F) :
    (dpoly (distributeZeta z into p)).eval x = (dpoly p).eval ((if into then z else z * z) * x) := by
  have : dpoly (distributeZeta z into p) = (dpoly p).comp (C (if into then z else z * z) * X) := by
    ext i
    rw [comp_C_mul_X_coeff, coeff_dpoly, coeff_dpoly, List.getD_eq_getElem?_getD, List.getD_eq_getElem?_getD,
      getElem?_distribute]
    cases p[i]? with
    | none => simp
    | some c => simp [factor_eq hz]
  rw [this, eval_comp]; simp

omit [DecidableEq F] in
theorem clean_distribute {z : F} (hz : IsPrimitiveRoot z 3) (into : Bool) {p : List F} (hp : DClean p) :
    DClean (distributeZeta z into p) := by
  have hz0 : z ≠ 0 := hz.ne_zero (by norm_num)
  intro h
  rw [List.getLast?_eq_getElem?, getElem?_distribute] at h
  have hl : (distributeZeta z into p).length = p.length := by simp [distributeZeta]
  rw [hl, ← List.getLast?_eq_getElem?] at h
  cases hlast : p.getLast? with
  | none => rw [hlast] at h; simp at h
  | some c =>
    rw [hlast, Option.map_some, Option.some_inj, factor_eq hz] at h
    have hc : c ≠ 0 := fun h0 => hp (by rw [hlast, h0])
    refine absurd h (mul_ne_zero hc (pow_ne_zero _ ?_))
    cases into
    · simpa using hz0
    · simpa using hz0

/-! ### Columns of the parts -/

omit [DecidableEq F] in
theorem writeColumn_eq {columns : List (List F)} {rows i : ℕ} (hi : i < columns.length)
    (hr : ∀ c ∈ columns, c.length = rows) (m : ℕ) (hm : m ≤ rows) (out : List F)
    (hout : out.length = columns.length * rows) :
    ∃ out', (List.range m).foldlM (fun out j =>
        (columns[i]?).bind fun c => (c[j]?).bind fun v =>
          if j * columns.length + i < out.length then some (out.set (j * columns.length + i) v) else none) out =
        some out' ∧ out'.length = columns.length * rows ∧
      ∀ k < columns.length * rows, out'.getD k 0 =
        if k % columns.length = i ∧ k / columns.length < m then (columns.getD i []).getD (k / columns.length) 0
        else out.getD k 0 := by
  induction m with
  | zero => exact ⟨out, rfl, hout, fun k _ => by simp⟩
  | succ m ih =>
    obtain ⟨o, h1, h2, h3⟩ := ih (by omega)
    have hc : columns[i].length = rows := hr _ (List.getElem_mem hi)
    have hpos : 0 < columns.length := by omega
    have hlt : m * columns.length + i < columns.length * rows := by
      calc m * columns.length + i < m * columns.length + columns.length := by omega
        _ = columns.length * (m + 1) := by ring
        _ ≤ columns.length * rows := Nat.mul_le_mul_left _ hm
    refine ⟨o.set (m * columns.length + i) columns[i][m], ?_, by rw [List.length_set, h2], fun k hk => ?_⟩
    · rw [List.range_succ, List.foldlM_append, h1]
      simp only [Option.bind_eq_bind, Option.bind_some, List.foldlM_cons, List.foldlM_nil,
        List.getElem?_eq_getElem hi, List.getElem?_eq_getElem (show m < columns[i].length by omega)]
      rw [if_pos (by rw [h2]; exact hlt)]; rfl
    · have hd : columns.getD i [] = columns[i] := List.getD_eq_getElem _ _ hi
      rw [List.getD_eq_getElem?_getD, List.getElem?_set]
      by_cases he : m * columns.length + i = k
      · subst he
        have e1 : (m * columns.length + i) % columns.length = i := by
          rw [Nat.add_comm, Nat.add_mul_mod_self_right, Nat.mod_eq_of_lt hi]
        have e2 : (m * columns.length + i) / columns.length = m := by
          rw [Nat.add_comm, Nat.add_mul_div_right _ _ hpos, Nat.div_eq_of_lt hi, Nat.zero_add]
        rw [if_pos rfl, if_pos (by rw [h2]; exact hlt), e1, e2, if_pos ⟨rfl, by omega⟩, hd, Option.getD_some,
          List.getD_eq_getElem _ _ (by omega)]
      · rw [if_neg he, ← List.getD_eq_getElem?_getD, h3 k hk]
        refine if_congr ⟨fun h => ⟨h.1, by omega⟩, fun h => ⟨h.1, ?_⟩⟩ rfl rfl
        rcases Nat.lt_succ_iff_lt_or_eq.1 h.2 with h4 | h4
        · exact h4
        · exact absurd (by rw [← h4, ← h.1, Nat.mul_comm]; exact Nat.div_add_mod k columns.length) he

omit [DecidableEq F] in
theorem buildExtended_eq {columns : List (List F)} {rows : ℕ} (h0 : columns ≠ []) (hr : ∀ c ∈ columns, c.length = rows) :
    buildExtended columns = some ((List.range (columns.length * rows)).map fun k =>
      (columns.getD (k % columns.length) []).getD (k / columns.length) 0) := by
  have hpos : 0 < columns.length := List.length_pos_iff.2 h0
  have key : ∀ m ≤ columns.length, ∃ out, (List.range m).foldlM (writeColumn columns rows)
      (List.replicate (columns.length * rows) 0) = some out ∧ out.length = columns.length * rows ∧
      ∀ k < columns.length * rows, out.getD k 0 = if k % columns.length < m then
        (columns.getD (k % columns.length) []).getD (k / columns.length) 0 else 0 := by
    intro m hm
    induction m with
    | zero =>
      refine ⟨_, rfl, by simp, fun k hk => ?_⟩
      rw [if_neg (by omega), List.getD_eq_getElem _ _ (by simpa using hk), List.getElem_replicate]
    | succ m ih =>
      obtain ⟨o, h1, h2, h3⟩ := ih (by omega)
      obtain ⟨o', g1, g2, g3⟩ := writeColumn_eq (show m < columns.length by omega) hr rows le_rfl o h2
      refine ⟨o', ?_, g2, fun k hk => ?_⟩
      · rw [List.range_succ, List.foldlM_append, h1]
        simp only [Option.bind_eq_bind, Option.bind_some, List.foldlM_cons, List.foldlM_nil]
        rw [writeColumn, g1]; rfl
      · have hdiv : k / columns.length < rows := Nat.div_lt_of_lt_mul hk
        rw [g3 k hk, h3 k hk]
        by_cases he : k % columns.length = m
        · rw [if_pos ⟨he, hdiv⟩, if_pos (by omega), he]
        · rw [if_neg (fun h => he h.1)]
          exact if_congr (by omega) rfl rfl
  obtain ⟨out, h1, h2, h3⟩ := key columns.length le_rfl
  have : buildExtended columns = some out := by
    match columns, h0 with
    | c :: cs, _ =>
      have hc : c.length = rows := hr c (by simp)
      rw [buildExtended, hc]; exact h1
  rw [this]
  congr 1
  refine List.ext_getElem? fun k => ?_
  by_cases hk : k < columns.length * rows
  · have := h3 k hk
    rw [if_pos (Nat.mod_lt _ hpos), List.getD_eq_getElem _ _ (by omega)] at this
    rw [List.getElem?_eq_getElem (by omega), this, List.getElem?_map, List.getElem?_range hk]; rfl
  · rw [List.getElem?_eq_none (by omega), List.getElem?_eq_none (by simp; omega)]

/-! ### The pieces -/

omit [Field F] [DecidableEq F] in
theorem pieces_eq {n q : ℕ} (hn : 0 < n) {coeffs : List F} (hl : coeffs.length = n * q) (hb : n * q + n ≤ 2 ^ 64) :
    pieces n coeffs = (List.range q).map fun i => (coeffs.drop (i * n)).take n := by
  have hq : numChunks (n * q) n = q := by
    obtain ⟨h1, h2⟩ := numChunks_bounds hn hb
    have h1' : q * n ≤ numChunks (n * q) n * n := by rw [Nat.mul_comm q]; exact h1
    have h2' : numChunks (n * q) n * n < (q + 1) * n := by
      calc _ < n * q + n := h2
        _ = (q + 1) * n := by ring
    have := Nat.le_of_mul_le_mul_right h1' hn
    have := Nat.lt_of_mul_lt_mul_right h2'
    omega
  rw [pieces, hl, invocations, if_neg (by omega), hq, List.map_map]
  refine List.map_congr_left fun i hi => ?_
  rw [List.mem_range] at hi
  simp only [Function.comp, chunkOf, chunkLen, hq]
  split
  · next h =>
    have : n * q - i * n = n := by
      subst h
      rw [Nat.sub_mul, Nat.mul_comm n q, one_mul, Nat.sub_sub_self]
      exact Nat.le_mul_of_pos_left n (by omega)
    rw [this]
  · rfl

omit [DecidableEq F] in
/-- The sum of the pieces at the powers of a number. -/
theorem pieces_horner (n : ℕ) (hn : 0 < n) (t : F) : ∀ (ps : List (List F)), (∀ p ∈ ps, p.length = n) →
    ∃ out, ps.reverse.foldlM (combineStep n t) (List.replicate n 0) = some out ∧ out.length = n ∧
      dpoly out = (ps.zipIdx.map fun p => C (t ^ p.2) * dpoly p.1).sum
  | [], _ => ⟨_, rfl, by simp, by simp [dpoly_replicate_zero]⟩
  | p :: ps, h => by
    obtain ⟨o, h1, h2, h3⟩ := pieces_horner n hn t ps (fun q hq => h q (List.mem_cons_of_mem _ hq))
    have hp : p.length = n := h p (by simp)
    refine ⟨(List.range n).map fun j => o.getD j 0 * t + p.getD j 0, ?_, by simp, ?_⟩
    · rw [List.reverse_cons, List.foldlM_append, h1]
      simp only [Option.bind_eq_bind, Option.bind_some, List.foldlM_cons, List.foldlM_nil]
      have : combineStep n t o p = some ((List.range n).map fun j => o.getD j 0 * t + p.getD j 0) := by
        refine Poly.mapM_some fun j hj => ?_
        rw [List.mem_range] at hj
        rw [List.getElem?_eq_getElem (by omega), List.getElem?_eq_getElem (by omega), List.getD_eq_getElem _ _ (by omega),
          List.getD_eq_getElem _ _ (by omega)]
        rfl
      rw [this]; rfl
    · have e : dpoly ((List.range n).map fun j => o.getD j 0 * t + p.getD j 0) = dpoly o * C t + dpoly p := by
        ext i
        rw [coeff_add, coeff_mul_C, coeff_dpoly, coeff_dpoly, coeff_dpoly]
        by_cases hi : i < n
        · rw [List.getD_eq_getElem _ _ (by simpa using hi)]; simp
        · rw [List.getD_eq_default _ _ (by simp; omega), List.getD_eq_default o _ (by omega),
            List.getD_eq_default p _ (by omega)]; simp
      rw [e, h3, List.zipIdx_cons, List.map_cons, List.sum_cons, pow_zero, C_1, one_mul, add_comm]
      congr 1
      rw [← List.sum_map_mul_right, List.zipIdx_succ, List.map_map]
      simp only
      congr 1
      refine List.map_congr_left fun a _ => ?_
      simp only [Function.comp, pow_succ, C_mul]; ring

omit [DecidableEq F] in
/-- The whole polynomial from the pieces. -/
theorem dpoly_pieces (n : ℕ) : ∀ (q : ℕ) (coeffs : List F), coeffs.length = n * q →
    dpoly coeffs = ∑ i ∈ Finset.range q, X ^ (n * i) * dpoly ((coeffs.drop (i * n)).take n)
  | 0, coeffs, h => by
    have : coeffs = [] := List.eq_nil_of_length_eq_zero (by simpa using h)
    subst this; simp [dpoly]
  | q + 1, coeffs, h => by
    have hd : (coeffs.drop n).length = n * q := by rw [List.length_drop, h, Nat.mul_succ]; omega
    have ht : (coeffs.take n).length = n := by rw [List.length_take, h, Nat.mul_succ]; omega
    conv_lhs => rw [← List.take_append_drop n coeffs, dpoly_append, ht, dpoly_pieces n q _ hd]
    rw [Finset.sum_range_succ', add_comm, Finset.mul_sum]
    congr 1
    · refine Finset.sum_congr rfl fun i _ => ?_
      rw [← mul_assoc, ← pow_add, List.drop_drop]
      congr 2
      · ring
      · congr 2; ring
    · simp

omit [DecidableEq F] in
omit [Field F] [DecidableEq F] in
theorem sum_zipIdx {A : Type*} [AddCommMonoid A] (q : ℕ) (g : ℕ → List F) (f : List F → ℕ → A) :
    ((((List.range q).map g).zipIdx).map fun p => f p.1 p.2).sum = ∑ i ∈ Finset.range q, f (g i) i := by
  induction q with
  | zero => simp
  | succ q ih =>
    rw [List.range_succ, List.map_append, List.zipIdx_append, List.map_append, List.sum_append, ih,
      Finset.sum_range_succ]
    simp

omit [DecidableEq F] in
theorem resizeZero_eq (m : ℕ) {h : List F} (hl : h.length ≤ m) :
    (resizeZero m h).length = m ∧ dpoly (resizeZero m h) = dpoly h := by
  constructor
  · simp [resizeZero]; omega
  · rw [resizeZero, List.take_of_length_le hl, dpoly_append, dpoly_replicate_zero, mul_zero, add_zero]

end Tachyon.Vanishing
