import Mathlib.FieldTheory.KummerExtension
import Mathlib.LinearAlgebra.Lagrange
import Verif.Proofs.FFTTop
/-! Elements, vanishing polynomial and Lagrange coefficients of a domain. -/
namespace Tachyon.FFT
open Tachyon.Group Tachyon.Parallel Tachyon.Props Tachyon.Poly Finset Polynomial

variable {F : Type*} [Field F]

/-- Element `i` of the domain. -/
def Domain.elem (d : Domain F) (i : ℕ) : F := d.offset * d.gen ^ i

theorem Domain.Valid.gen_ne {d : Domain F} (hd : d.Valid) : d.gen ≠ 0 :=
  hd.prim.ne_zero (by have := hd.pos; omega)

theorem Domain.Valid.elem_ne {d : Domain F} (hd : d.Valid) (i : ℕ) : d.elem i ≠ 0 :=
  mul_ne_zero hd.offset (pow_ne_zero _ hd.gen_ne)

theorem Domain.Valid.elem_inj {d : Domain F} (hd : d.Valid) {i j : ℕ} (hi : i < d.size) (hj : j < d.size)
    (h : d.elem i = d.elem j) : i = j :=
  hd.prim.pow_inj hi hj (mul_left_cancel₀ hd.offset h)

theorem Domain.Valid.elem_pow {d : Domain F} (hd : d.Valid) (i : ℕ) : d.elem i ^ d.size = d.offset ^ d.size := by
  rw [Domain.elem, mul_pow, ← pow_mul, mul_comm i, pow_mul, hd.prim.pow_eq_one, one_pow, mul_one]

theorem Domain.Valid.nodal {d : Domain F} (hd : d.Valid) :
    Lagrange.nodal (range d.size) d.elem = X ^ d.size - C (d.offset ^ d.size) := by
  rw [X_pow_sub_C_eq_prod hd.prim hd.pos rfl, Lagrange.nodal]
  refine Finset.prod_congr rfl fun i _ => ?_
  rw [Domain.elem, mul_comm]

/-- The elements of the domain are the roots of its vanishing polynomial. -/
theorem Domain.Valid.exists_elem {d : Domain F} (hd : d.Valid) {t : F} (h : t ^ d.size = d.offset ^ d.size) :
    ∃ i < d.size, t = d.elem i := by
  have : (Lagrange.nodal (range d.size) d.elem).eval t = 0 := by rw [hd.nodal]; simp [h]
  rw [Lagrange.eval_nodal, Finset.prod_eq_zero_iff] at this
  obtain ⟨i, hi, e⟩ := this
  exact ⟨i, Finset.mem_range.1 hi, sub_eq_zero.1 e⟩

/-- The closed form of a Lagrange coefficient outside the domain. -/
theorem Domain.Valid.basis_eval {d : Domain F} (hd : d.Valid) {t : F}
    (h : t ^ d.size - d.offset ^ d.size ≠ 0) {j : ℕ} (hj : j < d.size) :
    (Lagrange.basis (range d.size) d.elem j).eval t =
      ((d.size : F) * d.offset ^ d.size * (t - d.elem j) *
        ((t ^ d.size - d.offset ^ d.size) * d.elem j)⁻¹)⁻¹ := by
  have hne : t ≠ d.elem j := by
    rintro rfl; exact h (by rw [hd.elem_pow, sub_self])
  have hn0 := card_ne_zero hd.pos hd.prim
  have hx := hd.elem_ne j
  have hxp : d.elem j ^ (d.size - 1) * d.elem j = d.offset ^ d.size := by
    rw [← pow_succ, show d.size - 1 + 1 = d.size by have := hd.pos; omega, hd.elem_pow]
  have hx1 : d.elem j ^ (d.size - 1) ≠ 0 := pow_ne_zero _ hx
  rw [Lagrange.eval_basis_not_at_node (Finset.mem_range.2 hj) hne,
    Lagrange.nodalWeight_eq_eval_derivative_nodal (Finset.mem_range.2 hj), hd.nodal]
  simp only [derivative_sub, derivative_X_pow, derivative_C, eval_sub, eval_mul, eval_pow, eval_X, eval_C,
    eval_natCast, sub_zero, map_natCast]
  rw [← hxp] at h ⊢
  have hs := sub_ne_zero.2 hne
  field_simp

variable [DecidableEq F]

theorem Domain.getElement_spec {d : Domain F} (hd : d.Valid) {i : ℤ} (h1 : -2 ^ 63 < i) (h2 : i < 2 ^ 63) :
    d.getElement i = some (d.elem (i % d.size).toNat) := by
  have hn : (0 : ℤ) < d.size := by have := hd.pos; omega
  have hg := hd.gen_ne
  have hz : ∀ z : ℤ, d.gen ^ z = d.gen ^ (z % d.size).toNat := by
    intro z
    rw [← zpow_natCast, Int.toNat_of_nonneg (Int.emod_nonneg _ (by omega))]
    conv_lhs => rw [← Int.mul_ediv_add_emod z d.size, zpow_add₀ hg, zpow_mul, zpow_natCast,
      hd.prim.pow_eq_one, one_zpow, one_mul]
  have key : (if 0 < i then powSize d.gen i.toNat else powSize d.genInv (-i).toNat) =
      d.gen ^ (i % d.size).toNat := by
    rw [← hz]
    split
    · rw [powSize_eq _ (by omega), ← zpow_natCast, Int.toNat_of_nonneg (by omega)]
    · rw [powSize_eq _ (by omega), hd.genInv, ← zpow_natCast, Int.toNat_of_nonneg (by omega), inv_zpow,
        zpow_neg, inv_inv]
  rw [Domain.getElement, if_neg (by omega)]
  simp only [key, Domain.elem]
  split
  · next h => rw [h, one_mul]
  · rw [mul_comm]

omit [DecidableEq F] in
/-- Going on from element `j`. -/
theorem Domain.Valid.elem_add {d : Domain F} (hd : d.Valid) (s : ℤ) (i : ℕ) :
    d.elem (s % d.size).toNat * d.gen ^ i = d.elem ((s + i) % d.size).toNat := by
  have hn : (0 : ℤ) < d.size := by have := hd.pos; omega
  have hmod : ∀ m : ℕ, d.gen ^ m = d.gen ^ (m % d.size) := fun m => by
    conv_lhs => rw [← Nat.div_add_mod m d.size, pow_add, pow_mul, hd.prim.pow_eq_one, one_pow, one_mul]
  rw [Domain.elem, Domain.elem, mul_assoc, ← pow_add, hmod]
  congr 2
  zify
  rw [Int.toNat_of_nonneg (Int.emod_nonneg _ (by omega)), Int.toNat_of_nonneg (Int.emod_nonneg _ (by omega))]
  simp

theorem findTau_spec (g t : F) : ∀ (n : ℕ) (w : F), (findTau g t n w).length = n ∧
    ((∀ i < n, ∀ j < n, w * g ^ i = w * g ^ j → i = j) → ∀ i < n,
      (findTau g t n w)[i]? = some (if w * g ^ i = t then 1 else 0)) := by
  intro n
  induction n with
  | zero => intro w; simp [findTau]
  | succ n ih =>
    intro w
    rw [findTau]
    split
    · next h =>
      refine ⟨by simp, fun hinj i hi => ?_⟩
      cases i with
      | zero => simp [h]
      | succ i =>
        rw [List.getElem?_cons_succ, List.getElem?_replicate, if_pos (by omega), if_neg]
        intro h2
        have := hinj (i + 1) hi 0 (by omega) (by rw [h2, pow_zero, mul_one, h])
        omega
    · next h =>
      obtain ⟨h1, h2⟩ := ih (w * g)
      refine ⟨by simp [h1], fun hinj i hi => ?_⟩
      cases i with
      | zero => simp [h]
      | succ i =>
        rw [List.getElem?_cons_succ, h2 ?_ i (by omega), mul_assoc, ← pow_succ']
        intro a ha b hb hab
        rw [mul_assoc, mul_assoc, ← pow_succ', ← pow_succ'] at hab
        have := hinj (a + 1) (by omega) (b + 1) (by omega) hab
        omega

omit [DecidableEq F] in
theorem lagLoop_eq (g gi t : F) : ∀ (n : ℕ) (l w : F), lagLoop g gi t n l w =
    (List.range (n + 1)).map fun i => l * gi ^ i * (t + w * g ^ i)
  | 0, l, w => by simp [lagLoop]
  | n + 1, l, w => by
    rw [lagLoop, lagLoop_eq g gi t n, List.range_succ_eq_map (n := n + 1), List.map_cons, List.map_map]
    congr 1
    · simp
    · refine List.map_congr_left fun i _ => ?_
      simp only [Function.comp, pow_succ']; ring

theorem Domain.partialLagrange_spec {threads : ℕ} {d : Domain F} (hd : d.Valid) (t : F) {start : ℤ} {n : ℕ}
    (h1 : -2 ^ 63 < start) (h2 : start < 2 ^ 63) (hn : n ≤ d.size) (ht : 0 < threads)
    (ht' : threads < 128) :
    d.partialLagrange threads t start n = some ((List.range n).map fun (i : ℕ) =>
      (Lagrange.basis (range d.size) d.elem ((start + i) % d.size).toNat).eval t) := by
  have hpos := hd.pos
  have hle := hd.le
  have hnz : (0 : ℤ) < d.size := by omega
  have hlt : ∀ i : ℕ, ((start + i) % d.size).toNat < d.size := fun i => by
    have := Int.emod_lt_of_pos (start + i) hnz
    have := Int.emod_nonneg (start + i) (show (d.size : ℤ) ≠ 0 by omega)
    omega
  rw [Domain.partialLagrange, if_neg (by omega)]
  split
  · next h => subst h; rfl
  next hn0 =>
  rw [Domain.getElement_spec hd h1 h2]
  simp only
  generalize hw : d.elem (start % d.size).toNat = w
  have helem : ∀ i : ℕ, w * d.gen ^ i = d.elem ((start + i) % d.size).toNat := fun i => by
    rw [← hw, hd.elem_add]
  have hw0 : w ≠ 0 := hw ▸ hd.elem_ne _
  have hz : d.vanishingAt t = t ^ d.size - d.offset ^ d.size := by
    rw [Domain.vanishingAt, powSize_eq _ (by omega), hd.offsetPow]
  rw [hz]
  split
  · next hzero =>
    obtain ⟨j, hj, rfl⟩ := hd.exists_elem (sub_eq_zero.1 hzero)
    obtain ⟨f1, f2⟩ := findTau_spec d.gen (d.elem j) n w
    congr 1
    refine List.ext_getElem? fun i => ?_
    by_cases hi : i < n
    · rw [f2 ?_ i hi, List.getElem?_map, List.getElem?_range hi, Option.map_some]
      · congr 1
        rw [helem]
        split
        · next h =>
          rw [hd.elem_inj (hlt i) hj h]
          exact (Lagrange.eval_basis_self (fun a ha b hb => hd.elem_inj (by simpa using ha)
            (by simpa using hb)) (Finset.mem_range.2 hj)).symm
        · next h =>
          exact (Lagrange.eval_basis_of_ne (fun h' => h (by rw [h'])) (Finset.mem_range.2 hj)).symm
      · intro a ha b hb hab
        exact hd.prim.pow_inj (by omega) (by omega) (mul_left_cancel₀ hw0 hab)
    · rw [List.getElem?_eq_none (by omega), List.getElem?_eq_none (by simp; omega)]
  · next hne =>
    rw [inv?, if_neg (mul_ne_zero hne hw0)]
    simp only
    have hL : parallelize threads (List.replicate n (0 : F)) (fun k cs span =>
        lagLoop d.gen d.genInv t (span.length - 1)
          (((t ^ d.size - d.offset ^ d.size) * w)⁻¹ * (d.sizeF * d.offsetPow) * powSize d.genInv (k * cs))
          (-w * powSize d.gen (k * cs))) =
        (List.range n).map fun i => ((t ^ d.size - d.offset ^ d.size) * w)⁻¹ *
          (d.size * d.offset ^ d.size) * d.gen⁻¹ ^ i * (t - w * d.gen ^ i) := by
      refine parallelize_eq ht (by simp; omega) (by simp; omega) (by simp) fun i cs len hl0 hlen => ?_
      rw [List.length_replicate] at hlen
      have hl : (chunkOf (List.replicate n (0 : F)) cs (i, len)).length = len := by
        simp [chunkOf]; omega
      rw [hl, lagLoop_eq, powSize_eq _ (by omega), powSize_eq _ (by omega), hd.sizeF, hd.offsetPow, hd.genInv]
      refine List.ext_getElem? fun k => ?_
      rw [show len - 1 + 1 = len by omega]
      by_cases hk : k < len
      · rw [getElem?_chunkOf hk, List.getElem?_map, List.getElem?_map, List.getElem?_range hk,
          List.getElem?_range (by omega)]
        simp only [Option.map_some, pow_add]
        congr 1; ring
      · rw [List.getElem?_eq_none (by simp; omega), List.getElem?_eq_none (by simp [chunkOf]; omega)]
    rw [hL]
    generalize hys : (List.range n).map (fun i => ((t ^ d.size - d.offset ^ d.size) * w)⁻¹ *
          (d.size * d.offset ^ d.size) * d.gen⁻¹ ^ i * (t - w * d.gen ^ i)) = ys
    have hyl : ys.length = n := by rw [← hys]; simp
    have hinv := C22_batchInverse threads ys 1 ht ht' (by omega)
    rw [hyl] at hinv
    rw [hinv, ← hys, List.map_map]
    congr 1
    refine List.map_congr_left fun i _ => ?_
    have hn0 := card_ne_zero hd.pos hd.prim
    have hg := hd.gen_ne
    have hti : t - w * d.gen ^ i ≠ 0 := by
      rw [helem]
      intro h
      rw [sub_eq_zero.1 h, hd.elem_pow, sub_self] at hne
      exact hne rfl
    have hoff := pow_ne_zero d.size hd.offset
    have hval : ((t ^ d.size - d.offset ^ d.size) * w)⁻¹ * (d.size * d.offset ^ d.size) * d.gen⁻¹ ^ i *
        (t - w * d.gen ^ i) = (d.size : F) * d.offset ^ d.size * (t - w * d.gen ^ i) *
        ((t ^ d.size - d.offset ^ d.size) * (w * d.gen ^ i))⁻¹ := by
      rw [inv_pow]
      simp only [mul_inv]
      ring
    have hne0 : (d.size : F) * d.offset ^ d.size * (t - w * d.gen ^ i) *
        ((t ^ d.size - d.offset ^ d.size) * (w * d.gen ^ i))⁻¹ ≠ 0 := by
      refine mul_ne_zero (mul_ne_zero (mul_ne_zero hn0 hoff) hti) (inv_ne_zero (mul_ne_zero hne ?_))
      exact mul_ne_zero hw0 (pow_ne_zero _ hg)
    simp only [Function.comp]
    rw [hval, if_neg hne0, one_mul, hd.basis_eval hne (hlt i), helem]

end Tachyon.FFT
