import Verif.Proofs.DomainLagrange
import Verif.Props.Poly
import Verif.Spec.F17
import Verif.Spec.F7
/-! C38 (FFT and IFFT), C39 (Lagrange coefficients), C59 (roots of unity and domains), C60 (twiddle cache)
and C61 (filter polynomials). -/
namespace Tachyon.Props
open Tachyon.FFT Tachyon.Group Tachyon.Parallel Tachyon.Poly Polynomial

variable {F : Type*} [Field F] [DecidableEq F]

/-! ### C59: roots of unity, creation of domains -/

omit [DecidableEq F] in
/-- C59: without a large subgroup `GetRootOfUnity(n)` gives a primitive root exactly for the powers of two
up to the two-adicity, and fails for the other sizes. -/
theorem C59_root_two {cfg : RootConfig F} (hc : cfg.Valid) (hl : cfg.large = none) {n : ℕ}
    (h0 : 0 < n) (hn : n ≤ 2 ^ 63) :
    (∀ k ≤ cfg.twoAdicity, n = 2 ^ k →
      ∃ w, getRootOfUnity cfg n = some (some w) ∧ IsPrimitiveRoot w n) ∧
    ((¬ ∃ k ≤ cfg.twoAdicity, n = 2 ^ k) → getRootOfUnity cfg n = some none) :=
  getRootOfUnity_two hc hl h0 hn

omit [DecidableEq F] in
/-- C59: with a large subgroup it gives a primitive root exactly for `q^a * 2^b` within the adicities. -/
theorem C59_root_large {cfg : RootConfig F} (hc : cfg.Valid) {q qa : ℕ} {root : F}
    (hl : cfg.large = some (q, qa, root)) (n : ℕ) :
    (∀ a ≤ qa, ∀ b ≤ cfg.twoAdicity, n = q ^ a * 2 ^ b →
      ∃ w, getRootOfUnity cfg n = some (some w) ∧ IsPrimitiveRoot w n) ∧
    ((¬ ∃ a ≤ qa, ∃ b ≤ cfg.twoAdicity, n = q ^ a * 2 ^ b) → getRootOfUnity cfg n = some none) :=
  getRootOfUnity_large hc hl n

omit [DecidableEq F] in
/-- C59: without a large subgroup the sizes zero and above `2^63` shift by a word or more. -/
theorem C59_root_undefined (cfg : RootConfig F) (hl : cfg.large = none) :
    getRootOfUnity cfg 0 = none ∧ getRootOfUnity cfg (2 ^ 63 + 1) = none := by
  have h0 : Bits.log2Ceiling (BitVec.ofNat 64 0) = -1 := by decide +kernel
  have h1 : Bits.log2Ceiling (BitVec.ofNat 64 (2 ^ 63 + 1)) = 64 := by decide +kernel
  constructor
  · rw [getRootOfUnity, hl]; simp only [h0]; rfl
  · rw [getRootOfUnity, hl]; simp only [h1]; rfl

/-- C59: `Create` makes the domain of the smallest power of two not below the number of coefficients; it
fails exactly when `IsValidNumCoeffs` says so. -/
theorem C59_create {cfg : RootConfig F} (hc : cfg.Valid) {n : ℕ} (hn : n ≤ 2 ^ 63) :
    ∃ k ≤ 63, n ≤ 2 ^ k ∧ (∀ j, n ≤ 2 ^ j → k ≤ j) ∧
      (isValidNumCoeffs cfg n = true ↔ k ≤ cfg.twoAdicity) ∧
      (k ≤ cfg.twoAdicity → ∃ d, Domain.create cfg n = some d ∧ d.Radix2 ∧ d.logSize = k ∧
        d.offset = 1) ∧
      (cfg.twoAdicity < k → Domain.create cfg n = none) :=
  Domain.create_spec hc hn

/-- C59: `GetCoset` shifts the domain; a zero offset fails. -/
theorem C59_coset {d : Domain F} (hd : d.Valid) (h : F) :
    (h ≠ 0 → ∃ d', d.getCoset h = some d' ∧ d'.Valid ∧ d'.size = d.size ∧ d'.logSize = d.logSize ∧
      d'.gen = d.gen ∧ d'.offset = h) ∧ (h = 0 → d.getCoset h = none) :=
  ⟨Domain.getCoset_spec hd, fun h0 => by rw [Domain.getCoset, inv?, if_pos h0]⟩

/-- C59: `GetElement` for every `int64_t` but the smallest, and `GetElements`. -/
theorem C59_elements {threads : ℕ} {d : Domain F} (hd : d.Valid) (ht : 0 < threads)
    (ht' : threads ≤ 2 ^ 63) :
    (∀ i : ℤ, -2 ^ 63 < i → i < 2 ^ 63 → d.getElement i = some (d.offset * d.gen ^ i)) ∧
    d.getElements threads = (List.range d.size).map fun i => d.offset * d.gen ^ i := by
  refine ⟨fun i h1 h2 => ?_, C23_powers threads d.size d.gen d.offset ht hd.le ht'⟩
  have hn : (0 : ℤ) < d.size := by have := hd.pos; omega
  rw [Domain.getElement_spec hd h1 h2, Domain.elem, ← zpow_natCast,
    Int.toNat_of_nonneg (Int.emod_nonneg _ (by omega))]
  conv_rhs => rw [← Int.mul_ediv_add_emod i d.size, zpow_add₀ hd.gen_ne, zpow_mul, zpow_natCast,
    hd.prim.pow_eq_one, one_zpow, one_mul]

/-- A domain of eight elements: `2 * <2>` modulo 17, where 9 has order eight. -/
def exDomain : Domain F17 := ⟨8, 3, 8, 15, 9, 2, 3, 6, 16⟩

/-- The configuration of the field with 17 elements: 3 has order sixteen. -/
def exConfig : RootConfig F17 := ⟨4, 3, none⟩

/-- The configuration of the field with seven elements, with a subgroup of order `2 * 3`. -/
def exLarge : RootConfig F7 := ⟨1, 6, some (3, 1, 3)⟩

theorem exPrim {w : F17} {k : ℕ} (h : w ^ 2 ^ k = -1) : IsPrimitiveRoot w (2 ^ (k + 1)) := by
  have := orderOf_eq_prime_pow (p := 2) (x := w) (n := k) (by rw [h]; decide)
    (by rw [pow_succ, pow_mul, h]; rfl)
  rw [← this]; exact IsPrimitiveRoot.orderOf w

theorem exConfig_valid : exConfig.Valid := exPrim (w := 3) (k := 3) (by decide)

theorem exDomain_radix2 : exDomain.Radix2 :=
  ⟨⟨by decide, by decide, by decide, by decide, exPrim (w := 9) (k := 2) (by decide), by decide, by decide, by decide, by decide⟩,
    rfl⟩

-- 5 coefficients need the domain of size 8; its generator is 3^2 = 9
example : (Domain.create exConfig 5).map (fun d => (d.size, d.logSize, d.gen, d.genInv, d.sizeInv)) =
    some (8, 3, 9, 2, 15) := by decide +kernel
example : ((Domain.create exConfig 5).bind (Domain.getCoset · 3)).map
    (fun d => (d.offset, d.offsetInv, d.offsetPow)) = some (3, 6, 16) := by decide +kernel
example : (Domain.create exConfig 17).isNone ∧ isValidNumCoeffs exConfig 17 = false ∧
    isValidNumCoeffs exConfig 16 = true := by decide +kernel
example : getRootOfUnity exLarge 6 = some (some 3) ∧ getRootOfUnity exLarge 3 = some (some 2) ∧
    getRootOfUnity exLarge 2 = some (some 6) ∧ getRootOfUnity exLarge 4 = some none ∧
    getRootOfUnity exLarge 5 = some none := by decide +kernel
example : exDomain.getElement (-1) = some 6 ∧ exDomain.getElement 2 = some 5 := by decide +kernel

/-! ### C60: the twiddle cache -/

/-- C60: an item that is made for all uses holds the roots for the domain. -/
theorem C60_item {threads : ℕ} (o : Sched) (small : Bool) {d : Domain F} (hd : d.Radix2)
    (ht : 0 < threads) (ht' : threads ≤ 2 ^ 63) :
    ∃ item, Item.new threads o small d false = some item ∧ item.For d :=
  Item.new_spec o small hd ht ht'

/-- C60: when the cache has no item for the domain, or one that is right for it and not restricted,
`GetItem` gives a right item, and every later `GetItem` for the same key gives the same one, provided that
the size is above one. -/
theorem C60_getItem {threads : ℕ} (o : Sched) (small : Bool) (c : Cache F) {d : Domain F} (hd : d.Radix2)
    (h1 : 1 < d.size) (ht : 0 < threads) (ht' : threads ≤ 2 ^ 63)
    (hc : ∀ item, c.find d.size d.gen = some item → item.For d ∧ item.packedVecOnly = some false) :
    ∃ item c', Cache.getItem threads o small c d false = some (item, c') ∧ item.For d ∧
      c'.find d.size d.gen = some item ∧
      (∀ size g, (size, g) ≠ (d.size, d.gen) → c'.find size g = c.find size g) ∧
      Cache.getItem threads o small c' d false = some (item, c') := by
  have hk : d.logSize ≠ 0 := by
    intro h; have := hd.2; rw [h] at this; omega
  cases hf : c.find d.size d.gen with
  | none =>
    obtain ⟨item, e, hfor⟩ := C60_item o small hd ht ht'
    have hflag : item.packedVecOnly = some false := by
      rw [Item.new, if_neg hk] at e
      simp only at e
      split at e
      · split at e
        · split at e
          · cases e; rfl
          · cases e
        · cases e; rfl
      · cases e
    have hfind : Cache.find (((d.size, d.gen), item) :: c) d.size d.gen = some item := by
      simp [Cache.find]
    refine ⟨item, ((d.size, d.gen), item) :: c, by rw [Cache.getItem, hf]; simp only [e], hfor, hfind, ?_, ?_⟩
    · intro size g hne
      rw [Cache.find, Cache.find, List.find?_cons]
      have : ¬ (d.size = size ∧ d.gen = g) := fun h => hne (by rw [h.1, h.2])
      simp [this]
    · rw [Cache.getItem, hfind]
      simp [hflag]
  | some item =>
    obtain ⟨h2, h3⟩ := hc item hf
    have : Cache.getItem threads o small c d false = some (item, c) := by
      rw [Cache.getItem, hf]; simp [h3]
    exact ⟨item, c, this, h2, hf, fun _ _ _ => rfl, this⟩

/-- C60: a domain of size one leaves the flag of its item uninitialised, so that the second `GetItem`
for it reads an indeterminate value. -/
theorem C60_size_one {threads : ℕ} (o : Sched) (small : Bool) (c : Cache F) {d : Domain F}
    (h : d.logSize = 0) (hf : c.find d.size d.gen = none) (b : Bool) :
    ∃ item c', Cache.getItem threads o small c d false = some (item, c') ∧
      Cache.getItem threads o small c' d b = none := by
  refine ⟨⟨[], [], [], [], [], [], none⟩, ((d.size, d.gen), ⟨[], [], [], [], [], [], none⟩) :: c, ?_, ?_⟩
  · rw [Cache.getItem, hf]; simp only [Item.new, if_pos h]
  · have : Cache.find (((d.size, d.gen), (⟨[], [], [], [], [], [], none⟩ : Item F)) :: c) d.size d.gen =
        some ⟨[], [], [], [], [], [], none⟩ := by simp [Cache.find]
    rw [Cache.getItem, this]

/-- The item that `CosetLDEBatch` leaves for the example domain. -/
def exStale : Item F17 :=
  ⟨[[], [], [1, 9, 13, 15]], [[1, 2, 4, 8], [], []], [1, 13, 9, 15], [1, 4, 2, 8],
    [[1, 9, 13, 15], [1, 13, 9, 15]], [[1, 2, 4, 8], [1, 4, 2, 8]], some true⟩

/-- C60, false of the code: `CosetLDEBatch` puts an item into the cache whose vectors are empty but for
the largest; `GetItem` for all uses then finds this item, builds a complete one and drops it again,
because `insert` does not replace. The FFT of a polynomial with more than half as many coefficients as
the domain of size eight has elements then reads beyond an empty vector. -/
theorem C60_stale :
    ∃ item c, Cache.getItem 1 Sched.seq true [] exDomain true = some (item, c) ∧
      ∃ item' c', Cache.getItem 1 Sched.seq true c exDomain false = some (item', c') ∧
        item'.roots = item.roots ∧ ¬ item'.For exDomain ∧
        fft 1 Sched.seq exDomain item' [1, 2, 3, 4, 5] = none ∧
        ifft 1 Sched.seq exDomain item' [1, 2, 3, 4, 5, 6, 7, 8] = none := by
  refine ⟨exStale, [((8, 9), exStale)], by decide +kernel, exStale, [((8, 9), exStale)],
    by decide +kernel, rfl, ?_, by decide +kernel, by decide +kernel⟩
  intro h
  obtain ⟨l, e, hl, -⟩ := h.1 0 (by decide)
  have : l = [] := by simpa [exStale] using e.symm
  subst this
  simp at hl

-- the item for the domain of size eight
example : (Item.new 1 Sched.rev true exDomain false).map (fun i => (i.roots, i.invRoots)) =
    some ([[1], [1, 13], [1, 9, 13, 15]], [[1, 2, 4, 8], [1, 4], [1]]) := by decide +kernel

/-! ### C38: FFT and IFFT -/

/-- C38: `FFT` gives the values of the polynomial at the elements of the domain in order, for every order
of the parallel iterations; this includes the shortcut for polynomials with few coefficients. The zero
polynomial gives the empty vector. -/
theorem C38_fft {threads : ℕ} (o : Sched) {d : Domain F} (hd : d.Radix2) {item : Item F}
    (hi : item.For d) (p : List F) (hp : p.length ≤ d.size) (ht : 0 < threads)
    (ht' : threads ≤ 2 ^ 63) : fft threads o d item p =
      some (if p = [] then []
        else (List.range d.size).map fun i => (dpoly p).eval (d.offset * d.gen ^ i)) := by
  split
  · next h => subst h; rfl
  · next h => exact fft_spec o hd hi h hp ht ht'

/-- C38: a polynomial with more coefficients than the domain has elements fails the check. -/
theorem C38_fft_too_long {threads : ℕ} (o : Sched) {d : Domain F} (hd : d.Radix2) (item : Item F)
    {p : List F} (hp : d.size < p.length) (hp' : p.length ≤ 2 ^ 63) (ht : 0 < threads)
    (ht' : threads ≤ 2 ^ 63) : fft threads o d item p = none :=
  fft_none o hd item hp hp' ht ht'

/-- C38: `IFFT` gives the polynomial with fewer coefficients than the size and the given values at the
elements of the domain; missing values are zero, values beyond the size are ignored. -/
theorem C38_ifft {threads : ℕ} (o : Sched) {d : Domain F} (hd : d.Radix2) {item : Item F}
    (hi : item.For d) (e : List F) (ht : 0 < threads) (ht' : threads ≤ 2 ^ 63) :
    ∃ p, ifft threads o d item e = some p ∧ DClean p ∧ p.length ≤ d.size ∧
      ∀ i < d.size, (dpoly p).eval (d.offset * d.gen ^ i) = e.getD i 0 :=
  ifft_spec o hd hi e ht ht'

/-- Two polynomials of small degree that agree on the domain are equal. -/
theorem Domain.ext {d : Domain F} (hd : d.Valid) {p q : List F} (hp : DClean p) (hq : DClean q)
    (hpl : p.length ≤ d.size) (hql : q.length ≤ d.size)
    (h : ∀ i < d.size, (dpoly p).eval (d.offset * d.gen ^ i) = (dpoly q).eval (d.offset * d.gen ^ i)) :
    p = q := by
  refine dpoly_injective hp hq ?_
  have hl : ((List.range d.size).map d.elem).length = d.size := by simp
  refine eq_of_values (points := (List.range d.size).map d.elem) ?_ ?_ ?_ ?_
  · rw [List.nodup_map_iff_inj_on List.nodup_range]
    intro i hi j hj hij
    exact hd.elem_inj (List.mem_range.1 hi) (List.mem_range.1 hj) hij
  · rw [hl]; exact degree_dpoly_lt hpl
  · rw [hl]; exact degree_dpoly_lt hql
  · intro x hx
    obtain ⟨i, hi, rfl⟩ := List.mem_map.1 hx
    exact h i (List.mem_range.1 hi)

/-- C38: `IFFT` after `FFT` gives the polynomial back, whatever the two orders of iterations are. -/
theorem C38_ifft_fft {threads : ℕ} (o o' : Sched) {d : Domain F} (hd : d.Radix2) {item : Item F}
    (hi : item.For d) {p : List F} (hp : p.length ≤ d.size) (hc : DClean p) (ht : 0 < threads)
    (ht' : threads ≤ 2 ^ 63) :
    ∃ e, fft threads o d item p = some e ∧ ifft threads o' d item e = some p := by
  refine ⟨_, C38_fft o hd hi p hp ht ht', ?_⟩
  split
  · next h => subst h; rfl
  · obtain ⟨q, e, hq, hql, hv⟩ := C38_ifft o' hd hi
      ((List.range d.size).map fun i => (dpoly p).eval (d.offset * d.gen ^ i)) ht ht'
    rw [e]
    congr 1
    refine Domain.ext hd.1 hq hc hql hp fun i hi => ?_
    rw [hv i hi, getD_map_range, if_pos hi]

/-- C38: `FFT` after `IFFT` gives the values back, with the empty vector for the values zero. -/
theorem C38_fft_ifft {threads : ℕ} (o o' : Sched) {d : Domain F} (hd : d.Radix2) {item : Item F}
    (hi : item.For d) {e : List F} (he : e.length = d.size) (ht : 0 < threads) (ht' : threads ≤ 2 ^ 63) :
    ∃ p, ifft threads o d item e = some p ∧
      fft threads o' d item p = some (if ∀ x ∈ e, x = 0 then [] else e) := by
  obtain ⟨p, e1, hc, hpl, hv⟩ := C38_ifft o hd hi e ht ht'
  refine ⟨p, e1, ?_⟩
  have hval : (List.range d.size).map (fun i => (dpoly p).eval (d.offset * d.gen ^ i)) = e :=
    (list_eq_map he fun j hj => (hv j hj).symm).symm
  rw [C38_fft o' hd hi p hpl ht ht', hval]
  have : p = [] ↔ ∀ x ∈ e, x = 0 := by
    constructor
    · rintro rfl x hx
      rw [← hval] at hx
      obtain ⟨i, -, rfl⟩ := List.mem_map.1 hx
      simp [dpoly]
    · intro h
      refine Domain.ext hd.1 hc (by simp [DClean]) hpl (by simp) fun i hi => ?_
      rw [hv i hi, List.getD_eq_getElem?_getD, List.getElem?_eq_getElem (by omega)]
      simp [dpoly, h _ (List.getElem_mem (show i < e.length by omega))]
  simp only [this]

/-- C38: from the configuration to the values: `Create`, `GetCoset`, the twiddle item and `FFT`
together. -/
theorem C38_end_to_end {cfg : RootConfig F} (hc : cfg.Valid) {n k threads : ℕ} (small : Bool)
    (o o' : Sched) (hk : k ≤ cfg.twoAdicity) (hk' : k ≤ 63) (hn : 2 ^ k < 2 * n) (hn' : n ≤ 2 ^ k)
    {h : F} (hh : h ≠ 0) (ht : 0 < threads) (ht' : threads ≤ 2 ^ 63) :
    ∃ d d' item w, Domain.create cfg n = some d ∧ d.getCoset h = some d' ∧
      Item.new threads o small d false = some item ∧ IsPrimitiveRoot w (2 ^ k) ∧
      ∀ p : List F, p ≠ [] → p.length ≤ 2 ^ k → fft threads o' d' item p =
        some ((List.range (2 ^ k)).map fun i => (dpoly p).eval (h * w ^ i)) := by
  have h63 : (2 : ℕ) ^ k ≤ 2 ^ 63 := Nat.pow_le_pow_right (by norm_num) hk'
  obtain ⟨k', -, h1, h2, -, h3, -⟩ := C59_create hc (n := n) (by omega)
  have hkk : k' = k := by
    refine le_antisymm (h2 k hn') ?_
    by_contra hlt
    have : (2 : ℕ) ^ (k' + 1) ≤ 2 ^ k := Nat.pow_le_pow_right (by norm_num) (by omega)
    rw [pow_succ] at this
    omega
  subst hkk
  obtain ⟨d, e, hd, hl, -⟩ := h3 hk
  obtain ⟨d', e', hv, hs, hl', hg, ho⟩ := (C59_coset hd.1 h).1 hh
  obtain ⟨item, ei, hi⟩ := C60_item o small hd ht ht'
  have hr : d'.Radix2 := ⟨hv, by rw [hs, hl', hd.2]⟩
  have hsz : d'.size = 2 ^ k' := by rw [hr.2, hl', hl]
  refine ⟨d, d', item, d'.gen, e, e', ei, hsz ▸ hv.prim, fun p hp hpl => ?_⟩
  have hi' : item.For d' := by rw [Item.For, hg, hl']; exact hi
  rw [C38_fft o' hr hi' p (by omega) ht ht', if_neg hp, hsz, ho]

/-- The item of the example domain. -/
def exItem : Item F17 :=
  ⟨[[1], [1, 13], [1, 9, 13, 15]], [[1, 2, 4, 8], [1, 4], [1]], [], [], [], [], some false⟩

-- 1 + 2x + 3x^2 at 3 * 9^i: with the shortcut (2 coefficients) and without (3 coefficients)
example : fft 2 Sched.seq exDomain exItem [1, 2] = some [7, 4, 11, 6, 12, 15, 8, 13] ∧
    fft 2 Sched.rev exDomain exItem [1, 2, 3] = some [0, 15, 1, 12, 5, 9, 15, 2] := by decide +kernel
example : ifft 2 Sched.rev exDomain exItem [0, 15, 1, 12, 5, 9, 15, 2] = some [1, 2, 3] := by decide +kernel
example : fft 2 Sched.seq exDomain exItem [1, 2, 3, 4, 5, 6, 7, 8, 9] = none := by decide +kernel

/-! ### C39: vanishing polynomial and Lagrange coefficients -/

omit [DecidableEq F] in
/-- C39: the vanishing polynomial is the product of `X - x` over the elements, and
`EvaluateVanishingPolynomial` is its value. -/
theorem C39_vanishing {d : Domain F} (hd : d.Valid) (t : F) :
    spoly d.vanishing = ∏ i ∈ Finset.range d.size, (X - C (d.offset * d.gen ^ i)) ∧ SClean d.vanishing ∧
      d.vanishingAt t = (spoly d.vanishing).eval t := by
  have hs : spoly d.vanishing = X ^ d.size - C (d.offset ^ d.size) := by
    simp only [Domain.vanishing, spoly_cons, spoly_nil, hd.offsetPow, monomial_zero_left, map_neg,
      X_pow_eq_monomial]
    ring
  refine ⟨by rw [hs, ← hd.nodal]; rfl, ?_, ?_⟩
  · refine ⟨by simp [Domain.vanishing, hd.pos], ?_⟩
    simp [Domain.vanishing, hd.offsetPow, hd.offset]
  · rw [hs, Domain.vanishingAt, powSize_eq _ (by have := hd.le; omega), hd.offsetPow]
    simp

/-- C39: the coefficients for a range of the domain that may start anywhere and go around: entry `i` is
the value of the Lagrange polynomial of element `start + i`, for every point, on the domain or not. -/
theorem C39_partial {threads : ℕ} {d : Domain F} (hd : d.Valid) (t : F) {start : ℤ} {n : ℕ}
    (h1 : -2 ^ 63 < start) (h2 : start < 2 ^ 63) (hn : n ≤ d.size) (ht : 0 < threads)
    (ht' : threads < 128) :
    d.partialLagrange threads t start n = some ((List.range n).map fun (i : ℕ) =>
      (Lagrange.basis (Finset.range d.size) (fun j => d.offset * d.gen ^ j)
        ((start + i) % d.size).toNat).eval t) :=
  Domain.partialLagrange_spec hd t h1 h2 hn ht ht'

/-- C39: a range longer than the domain fails the check. -/
theorem C39_partial_too_long {threads : ℕ} {d : Domain F} (t : F) {start : ℤ} {n : ℕ} (hn : d.size < n) :
    d.partialLagrange threads t start n = none := if_pos hn

/-- C39: `EvaluateAllLagrangeCoefficients`. -/
theorem C39_all {threads : ℕ} {d : Domain F} (hd : d.Valid) (t : F) (ht : 0 < threads)
    (ht' : threads < 128) :
    d.allLagrange threads t = some ((List.range d.size).map fun i =>
      (Lagrange.basis (Finset.range d.size) (fun j => d.offset * d.gen ^ j) i).eval t) := by
  rw [Domain.allLagrange, C39_partial hd t (by norm_num) (by norm_num) le_rfl ht ht']
  congr 1
  refine List.map_congr_left fun i hi => ?_
  rw [List.mem_range] at hi
  rw [zero_add, Int.emod_eq_of_lt (by omega) (by omega), Int.toNat_natCast]

/-- C39: the coefficients evaluate the interpolating polynomial that `IFFT` finds. -/
theorem C39_sum {threads : ℕ} (o : Sched) {d : Domain F} (hd : d.Radix2) {item : Item F}
    (hi : item.For d) (t : F) (e : List F) (he : e.length = d.size) (ht : 0 < threads)
    (ht' : threads < 128) :
    ∃ ls p, d.allLagrange threads t = some ls ∧ ifft threads o d item e = some p ∧
      (List.zipWith (· * ·) ls e).sum = (dpoly p).eval t := by
  obtain ⟨p, e1, hc, hpl, hv⟩ := C38_ifft o hd hi e ht (by omega)
  refine ⟨_, p, C39_all hd.1 t ht ht', e1, ?_⟩
  have hinj : Set.InjOn (fun j => d.offset * d.gen ^ j) (Finset.range d.size : Finset ℕ) :=
    fun a ha b hb => hd.1.elem_inj (by simpa using ha) (by simpa using hb)
  have hp : dpoly p = Lagrange.interpolate (Finset.range d.size) (fun j => d.offset * d.gen ^ j)
      fun i => e.getD i 0 := by
    refine Lagrange.eq_interpolate_of_eval_eq _ hinj ?_ fun i hi => ?_
    · rw [Finset.card_range]; exact degree_dpoly_lt hpl
    · exact hv i (Finset.mem_range.1 hi)
  rw [hp, Lagrange.interpolate_apply, eval_finsetSum]
  have hz : List.zipWith (· * ·) ((List.range d.size).map fun i =>
      (Lagrange.basis (Finset.range d.size) (fun j => d.offset * d.gen ^ j) i).eval t) e =
      (List.range d.size).map fun i =>
        (C (e.getD i 0) * Lagrange.basis (Finset.range d.size) (fun j => d.offset * d.gen ^ j) i).eval t := by
    refine list_eq_map (by simp [he]) fun j hj => ?_
    rw [List.getD_eq_getElem?_getD, List.getElem?_zipWith, List.getElem?_map, List.getElem?_range hj,
      List.getElem?_eq_getElem (by omega), eval_mul, eval_C, mul_comm, List.getD_eq_getElem?_getD,
      List.getElem?_eq_getElem (by omega)]
    rfl
  rw [hz, ← List.sum_toFinset _ List.nodup_range, List.toFinset_range]

-- a point outside and the third element of the domain
example : exDomain.allLagrange 3 1 = some [11, 5, 12, 16, 14, 1, 8, 2] ∧
    exDomain.allLagrange 3 5 = some [0, 0, 1, 0, 0, 0, 0, 0] := by decide +kernel
-- a range that starts before the first element
example : exDomain.partialLagrange 3 1 (-2) 4 = some [8, 2, 11, 5] := by decide +kernel

/-! ### C61: filter polynomials -/

/-- C61: for a subdomain `GetFilterPolynomial` gives the polynomial that is zero on the rest of the domain
and `offset^size` of the main domain on the subdomain. -/
theorem C61_filter {d sub : Domain F} (hd : d.Valid) (hs : sub.Valid) (hdvd : sub.size ∣ d.size)
    (hoff : sub.offset ^ d.size = d.offset ^ d.size) :
    ∃ p, d.filterPoly sub = some p ∧ DClean p ∧
      (∀ i < d.size, (∀ j < sub.size, d.elem i ≠ sub.elem j) → (dpoly p).eval (d.elem i) = 0) ∧
      (∀ j < sub.size, (dpoly p).eval (sub.elem j) = d.offset ^ d.size) ∧
      ∀ t, (dpoly p).eval t * (d.size * (spoly sub.vanishing).eval t) =
        sub.size * sub.offset ^ sub.size * (spoly d.vanishing).eval t := by
  obtain ⟨m, hm⟩ := hdvd
  have hmpos : 0 < m := by
    rcases Nat.eq_zero_or_pos m with rfl | h
    · have := hd.pos; rw [hm] at this; simp at this
    · exact h
  have hn0 := card_ne_zero hd.pos hd.prim
  have hs0 := card_ne_zero hs.pos hs.prim
  have hso := pow_ne_zero sub.size hs.offset
  obtain ⟨v1, c1, -⟩ := C39_vanishing hd 0
  obtain ⟨w1, e1, -⟩ := C39_vanishing hs 0
  have v2 : spoly d.vanishing = X ^ d.size - C (d.offset ^ d.size) := by rw [v1, ← hd.nodal]; rfl
  have w2 : spoly sub.vanishing = X ^ sub.size - C (sub.offset ^ sub.size) := by rw [w1, ← hs.nodal]; rfl
  have k1 : SClean [(0, sub.sizeF * sub.offsetPow)] := by
    refine ⟨by simp, ?_⟩
    simp only [List.mem_singleton, forall_eq, hs.sizeF, hs.offsetPow]
    exact mul_ne_zero hs0 hso
  have k2 : SClean [(0, d.sizeF)] := by
    refine ⟨by simp, ?_⟩
    simp only [List.mem_singleton, forall_eq, hd.sizeF]
    exact hn0
  obtain ⟨-, -, -, ⟨a1, a2⟩, -⟩ := C35_sparse c1 k1
  obtain ⟨-, -, -, ⟨b1, b2⟩, -⟩ := C35_sparse e1 k2
  have a3 : spoly (Sparse.mul d.vanishing [(0, sub.sizeF * sub.offsetPow)]) =
      (X ^ d.size - C (d.offset ^ d.size)) * C ((sub.size : F) * sub.offset ^ sub.size) := by
    rw [a1, v2, spoly_cons, spoly_nil, hs.sizeF, hs.offsetPow, monomial_zero_left, add_zero]
  have b3 : spoly (Sparse.mul sub.vanishing [(0, d.sizeF)]) =
      (X ^ sub.size - C (sub.offset ^ sub.size)) * C (d.size : F) := by
    rw [b1, w2, spoly_cons, spoly_nil, hd.sizeF, monomial_zero_left, add_zero]
  have hsub0 : (X ^ sub.size - C (sub.offset ^ sub.size) : F[X]) ≠ 0 :=
    (monic_X_pow_sub_C _ (by have := hs.pos; omega)).ne_zero
  have hd0 : (X ^ d.size - C (d.offset ^ d.size) : F[X]) ≠ 0 :=
    (monic_X_pow_sub_C _ (by have := hd.pos; omega)).ne_zero
  obtain ⟨q, r, e2, -, -, e3, hdeg, -, hr, hq, hrc⟩ := C36_sparse (d := .sparse
    (Sparse.mul sub.vanishing [(0, d.sizeF)])) a2 b2
    (by rw [a3]; exact mul_ne_zero hd0 (C_ne_zero.2 (mul_ne_zero hs0 hso)))
    (by
      show spoly _ ≠ 0
      rw [b3]; exact mul_ne_zero hsub0 (C_ne_zero.2 hn0))
  have hpoly : (Dense.Divisor.sparse (Sparse.mul sub.vanishing [(0, d.sizeF)])).poly =
      (X ^ sub.size - C (sub.offset ^ sub.size)) * C (d.size : F) := b3
  -- the subdomain's vanishing polynomial divides
  have hdvd : (X ^ sub.size - C (sub.offset ^ sub.size) : F[X]) ∣ X ^ d.size - C (d.offset ^ d.size) := by
    have := sub_dvd_pow_sub_pow (X ^ sub.size : F[X]) (C (sub.offset ^ sub.size)) m
    rwa [← pow_mul, ← hm, ← C_pow, ← pow_mul, ← hm, hoff] at this
  have hr0 : dpoly r = 0 := by
    rw [hr, hpoly, a3]
    rw [EuclideanDomain.mod_eq_zero]
    have hu : IsUnit (C (d.size : F) : F[X]) := isUnit_C.2 (isUnit_iff_ne_zero.2 hn0)
    exact (hu.mul_right_dvd).2 (hdvd.mul_right _)
  have hrn : r = [] := (dpoly_eq_zero hrc).1 hr0
  have hid : ∀ t, (dpoly q).eval t * (d.size * (spoly sub.vanishing).eval t) =
      sub.size * sub.offset ^ sub.size * (spoly d.vanishing).eval t := by
    intro t
    rw [hr0, add_zero, a3, hpoly] at e3
    have := congrArg (eval t) e3
    rw [v2, w2]
    simp only [eval_mul, eval_sub, eval_pow, eval_X, eval_C] at this ⊢
    linear_combination -this
  refine ⟨q, ?_, hq, ?_, ?_, hid⟩
  · rw [Domain.filterPoly]
    simp only [e2, hrn, List.isEmpty_nil, if_true]
  · intro i hi hne
    have h1 := hid (d.elem i)
    have h2 : (spoly d.vanishing).eval (d.elem i) = 0 := by
      rw [v2]; simp [hd.elem_pow]
    have h3 : (spoly sub.vanishing).eval (d.elem i) ≠ 0 := by
      rw [w2]
      simp only [eval_sub, eval_pow, eval_X, eval_C]
      intro h
      obtain ⟨j, hj, e⟩ := hs.exists_elem (sub_eq_zero.1 h)
      exact hne j hj e
    rw [h2, mul_zero] at h1
    exact (mul_eq_zero.1 h1).resolve_right (mul_ne_zero hn0 h3)
  · intro j hj
    -- compare derivatives at the element
    rw [hr0, add_zero, a3, hpoly] at e3
    have h1 := congrArg (fun f => eval (sub.elem j) (derivative f)) e3
    have hx := hs.elem_ne j
    have hx1 : sub.elem j ^ (sub.size - 1) * sub.elem j = sub.offset ^ sub.size := by
      rw [← pow_succ, show sub.size - 1 + 1 = sub.size by have := hs.pos; omega, hs.elem_pow]
    have hx2 : sub.elem j ^ (d.size - 1) * sub.elem j = d.offset ^ d.size := by
      rw [← pow_succ, show d.size - 1 + 1 = d.size by have := hd.pos; omega, hm, pow_mul, hs.elem_pow,
        ← pow_mul, ← hm, hoff]
    simp only [derivative_mul, derivative_sub, derivative_X_pow, derivative_C, eval_mul, eval_sub, eval_pow,
      eval_X, eval_C, eval_add, map_natCast, eval_natCast, mul_zero, add_zero, sub_zero,
      hs.elem_pow, sub_self, zero_mul, zero_add, derivative_natCast] at h1
    have hne : (d.size : F) * (sub.size * sub.offset ^ sub.size) ≠ 0 :=
      mul_ne_zero hn0 (mul_ne_zero hs0 hso)
    apply mul_right_cancel₀ hne
    linear_combination (-sub.elem j) * h1 + (d.size : F) * sub.size * sub.offset ^ sub.size * hx2 -
      (d.size : F) * sub.size * eval (sub.elem j) (dpoly q) * hx1

/-- C61: `EvaluateFilterPolynomial`: one on the subdomain; elsewhere the value of a polynomial that
differs from that of `GetFilterPolynomial` by the factor `offset^size` of the subdomain. -/
theorem C61_filterAt {d sub : Domain F} (hd : d.Valid) (hs : sub.Valid) (hdvd : sub.size ∣ d.size)
    (hoff : sub.offset ^ d.size = d.offset ^ d.size) :
    ∃ p, d.filterPoly sub = some p ∧
      (∀ j < sub.size, d.filterAt sub (sub.elem j) = some 1) ∧
      ∀ t, (∀ j < sub.size, t ≠ sub.elem j) →
        ∃ v, d.filterAt sub t = some v ∧ sub.offset ^ sub.size * v = (dpoly p).eval t := by
  obtain ⟨p, e, -, -, -, hid⟩ := C61_filter hd hs hdvd hoff
  have hn0 := card_ne_zero hd.pos hd.prim
  refine ⟨p, e, fun j hj => ?_, fun t ht => ?_⟩
  · rw [Domain.filterAt]
    rw [if_pos]
    rw [Domain.vanishingAt, powSize_eq _ (by have := hs.le; omega), hs.offsetPow, hs.elem_pow, sub_self]
  · have hz : sub.vanishingAt t ≠ 0 := by
      rw [Domain.vanishingAt, powSize_eq _ (by have := hs.le; omega), hs.offsetPow]
      intro h
      obtain ⟨j, hj, e⟩ := hs.exists_elem (sub_eq_zero.1 h)
      exact ht j hj e
    have hne : d.sizeF * sub.vanishingAt t ≠ 0 := mul_ne_zero (hd.sizeF ▸ hn0) hz
    rw [Domain.filterAt, if_neg hz, inv?, if_neg hne]
    refine ⟨_, rfl, ?_⟩
    have h1 := hid t
    rw [← (C39_vanishing hd t).2.2, ← (C39_vanishing hs t).2.2, ← hd.sizeF, ← hs.sizeF] at h1
    apply mul_right_cancel₀ hne
    rw [h1]
    have hf : d.sizeF ≠ 0 := hd.sizeF ▸ hn0
    field_simp

/-- C61, false of the code: for the domain `3 * <9>` and its subdomain `3 * <13>` of four elements
`GetFilterPolynomial` takes the value -1 on the subdomain, and `EvaluateFilterPolynomial` at 1 agrees with
neither this polynomial nor the right one, which has the value -6 there. -/
theorem C61_coset_wrong :
    ∃ sub : Domain F17, sub.Valid ∧ sub.size ∣ exDomain.size ∧
      sub.offset ^ exDomain.size = exDomain.offset ^ exDomain.size ∧
      (∃ p, exDomain.filterPoly sub = some p ∧ ∀ j < sub.size, (dpoly p).eval (sub.elem j) = -1) ∧
      exDomain.filterAt sub 1 = some 7 ∧
      ∃ p, exDomain.filterPoly sub = some p ∧ (dpoly p).eval 1 = 6 := by
  have hv : Domain.Valid (⟨4, 2, 4, 13, 13, 4, 3, 6, 13⟩ : Domain F17) :=
    ⟨by decide, by decide, by decide, by decide, exPrim (w := 13) (k := 1) (by decide), by decide,
      by decide, by decide, by decide⟩
  obtain ⟨p, e, -, -, h, -⟩ := C61_filter exDomain_radix2.1 hv (by decide) (by decide)
  refine ⟨⟨4, 2, 4, 13, 13, 4, 3, 6, 13⟩, hv, by decide, by decide, ⟨p, e, fun j hj => ?_⟩,
    by decide +kernel, ⟨[8, 0, 0, 0, 15], by decide +kernel, ?_⟩⟩
  · rw [h j hj]; decide
  · rw [← Dense.horner_eq]; decide +kernel

/-- The domain `<9>`. -/
def exMain : Domain F17 := ⟨8, 3, 8, 15, 9, 2, 1, 1, 1⟩

-- the subdomain of four elements of a domain without offset
example : exMain.filterPoly ⟨4, 2, 4, 13, 13, 4, 1, 1, 1⟩ = some [9, 0, 0, 0, 9] ∧
    exMain.filterAt ⟨4, 2, 4, 13, 13, 4, 1, 1, 1⟩ 3 = some 7 := by decide +kernel

end Tachyon.Props
