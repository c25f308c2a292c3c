import Verif.Proofs.Coset
/-! C75: the two-adic cosets of the FRI schemes. -/
namespace Tachyon.Props
open Tachyon.Coset Tachyon.FFT Polynomial

variable {F : Type} [Field F] [DecidableEq F]

/-! ### Making and dividing cosets -/

/-- C75: the constructor makes the coset `shift * <w>` of `2^k` elements; a zero shift and sizes above
`kTwoAdicity` fail. -/
theorem C75_new {cfg : RootConfig F} (hc : cfg.Valid) (hl : cfg.large = none)
    (hA : cfg.twoAdicity ≤ 63) (k : ℕ) (s : F) :
    (k ≤ cfg.twoAdicity → s ≠ 0 → ∃ d, new cfg k s = some d ∧ Of cfg k s d) ∧
    (cfg.twoAdicity < k → new cfg k s = none) ∧ (s = 0 → new cfg k s = none) := by
  refine ⟨fun hk hs => new_eq hc hl hA hk hs, fun hk => ?_, fun hs => ?_⟩
  · rw [new]
    split
    · rfl
    · obtain ⟨j, -, h3, h4, -, -, h5⟩ := C59_create hc (n := 2 ^ k)
        (Nat.pow_le_pow_right (by norm_num) (by omega))
      rw [h5 (lt_of_lt_of_le hk ((Nat.pow_le_pow_iff_right (by norm_num)).1 h3))]; rfl
  · rw [new]
    split
    · rfl
    · cases Domain.create cfg (2 ^ k) with
      | none => rfl
      | some d => rw [Option.bind_some, hs, Domain.getCoset, Group.inv?, if_pos rfl]

/-- C75: the domain for a degree is the subgroup of that size; other sizes than powers of two fail a
check. -/
theorem C75_natural {cfg : RootConfig F} (hc : cfg.Valid) (hl : cfg.large = none)
    (hA : cfg.twoAdicity ≤ 63) {n : ℕ} (hn : n < 2 ^ 64) :
    (∀ k ≤ cfg.twoAdicity, n = 2 ^ k → ∃ d, naturalDomain cfg n = some d ∧ Of cfg k 1 d) ∧
    ((¬ ∃ k, n = 2 ^ k) → naturalDomain cfg n = none) := by
  constructor
  · rintro k hk rfl
    rw [naturalDomain, Fri.checkedLog2_pow (by omega), Option.bind_some]
    exact new_eq hc hl hA hk one_ne_zero
  · intro h
    rw [naturalDomain]
    cases e : Bits.checkedLog2 (BitVec.ofNat 64 n) with
    | none => rfl
    | some k =>
      rw [C53_checkedLog2, BitVec.toNat_ofNat, Nat.mod_eq_of_lt hn] at e
      exact absurd ⟨k, e⟩ h

omit [DecidableEq F] in
/-- C75: stepping through the coset from its offset gives its elements, and comes back after `size`
steps. -/
theorem C75_next {d : Domain F} (hd : d.Valid) (i : ℕ) :
    (nextPoint d)^[i] d.offset = d.offset * d.gen ^ i ∧
    ((nextPoint d)^[i] d.offset = d.offset ↔ d.size ∣ i) := by
  have h : (nextPoint d)^[i] d.offset = d.offset * d.gen ^ i := by
    induction i with
    | zero => simp
    | succ i ih => rw [Function.iterate_succ_apply', ih, nextPoint, mul_assoc, ← pow_succ]
  refine ⟨h, ?_⟩
  rw [h, mul_eq_left₀ hd.offset, hd.prim.pow_eq_one_iff_dvd]

omit [DecidableEq F] in
/-- C75: the vanishing polynomial of the coset is zero exactly on it, at every point of the field. -/
theorem C75_zp {d : Domain F} (hd : d.Radix2) (x : F) : zpAt d x = 0 ↔ Mem d x := by
  rw [zpAt_eq hd, mem_iff hd.1, sub_eq_zero]

/-- C75: `CreateDisjointDomain` gives a coset of at least the wanted size; it meets the coset exactly when
the generator of the field has an order that divides the larger size. -/
theorem C75_disjoint {cfg : RootConfig F} (hc : cfg.Valid) (hl : cfg.large = none)
    (hA : cfg.twoAdicity ≤ 63) {k minSize : ℕ} {s g : F} (hs : s ≠ 0) (hg : g ≠ 0) {d : Domain F}
    (hd : Of cfg k s d) (hm : minSize ≤ 2 ^ cfg.twoAdicity) :
    ∃ d' j, createDisjoint cfg g d minSize = some d' ∧ Of cfg j (s * g) d' ∧ minSize ≤ 2 ^ j ∧
      (∀ j', minSize ≤ 2 ^ j' → j ≤ j') ∧
      ((∀ x, ¬ (Mem d x ∧ Mem d' x)) ↔ g ^ 2 ^ max k j ≠ 1) := by
  have h63 : minSize ≤ 2 ^ 63 := hm.trans (Nat.pow_le_pow_right (by norm_num) hA)
  obtain ⟨j, hj, -, e2, h3, h4⟩ := bitCeil_spec h63
  obtain ⟨d', e, hd'⟩ := new_eq hc hl hA (h4 _ hm) (mul_ne_zero hs hg)
  refine ⟨d', j, by rw [createDisjoint, e2, hd.offset, e], hd', h3, h4, ?_⟩
  have m1 : ∀ x, Mem d x ↔ (x / s) ^ 2 ^ k = 1 := fun x => by
    rw [mem_iff hd.radix2.1, hd.radix2.2, hd.log, hd.offset]
  have m2 : ∀ x, Mem d' x ↔ (x / (s * g)) ^ 2 ^ j = 1 := fun x => by
    rw [mem_iff hd'.radix2.1, hd'.radix2.2, hd'.log, hd'.offset]
  constructor
  · intro h hg1
    rcases le_total j k with hjk | hjk
    · rw [max_eq_left hjk] at hg1
      refine h (s * g) ⟨(m1 _).2 (by rw [mul_div_cancel_left₀ _ hs, hg1]), (m2 _).2 ?_⟩
      rw [div_self (mul_ne_zero hs hg), one_pow]
    · rw [max_eq_right hjk] at hg1
      refine h s ⟨(m1 _).2 (by rw [div_self hs, one_pow]), (m2 _).2 ?_⟩
      rw [← div_div, div_self hs, div_pow, one_pow, hg1, div_one]
  · rintro hg1 x ⟨h1, h2⟩
    rw [m1] at h1
    rw [m2] at h2
    have hx : x ≠ 0 := by
      rintro rfl
      rw [zero_div, zero_pow (by simp)] at h1
      exact zero_ne_one h1
    have e1 : (x / s) ^ 2 ^ max k j = 1 := by
      rw [show max k j = k + (max k j - k) by omega, pow_add, pow_mul, h1, one_pow]
    have e3 : (x / (s * g)) ^ 2 ^ max k j = 1 := by
      rw [show max k j = j + (max k j - j) by omega, pow_add, pow_mul, h2, one_pow]
    apply hg1
    rw [show g = (x / s) / (x / (s * g)) by field_simp, div_pow, e1, e3, div_one]

/-- C75: `SplitDomains` into `2^m` parts: the `i`-th one has the elements `i, i + 2^m, i + 2*2^m, …` of
the coset. -/
theorem C75_split {cfg : RootConfig F} (hc : cfg.Valid) (hl : cfg.large = none)
    (hA : cfg.twoAdicity ≤ 63) {k m : ℕ} {s : F} {d : Domain F} (hs : s ≠ 0)
    (hd : Of cfg k s d) (hk : k ≤ cfg.twoAdicity) (hm : m ≤ k) :
    ∃ ds, splitDomains cfg d (2 ^ m) = some ds ∧ ds.length = 2 ^ m ∧
      ∀ i (hi : i < ds.length), Of cfg (k - m) (s * d.gen ^ i) ds[i] ∧
        ∀ j, ds[i].offset * ds[i].gen ^ j = d.offset * d.gen ^ (i + 2 ^ m * j) := by
  obtain ⟨ds, e, h1, h2⟩ := splitLoop_eq hc hl hA (k := k - m) (by omega) hd.radix2.1.gen_ne (2 ^ m) s hs
  refine ⟨ds, ?_, h1, fun i hi => ⟨h2 i hi, fun j => ?_⟩⟩
  · rw [splitDomains, Fri.checkedLog2_pow (by omega), Option.bind_some, hd.log, hd.offset,
      show (k + 2 ^ 32 - m) % 2 ^ 32 = k - m by omega, e]
  · rw [(h2 i hi).offset, (h2 i hi).gen, hd.offset, pow_add, ← mul_assoc]
    congr 1
    rw [hd.gen, ← pow_mul, ← pow_mul, ← mul_assoc, ← pow_add,
      show cfg.twoAdicity - (k - m) = cfg.twoAdicity - k + m by omega]

/-- C75: the parts make up the coset, and every element is in exactly one of them. -/
theorem C75_split_partition {cfg : RootConfig F} (hc : cfg.Valid) (hl : cfg.large = none)
    (hA : cfg.twoAdicity ≤ 63) {k m : ℕ} {s : F} {d : Domain F} (hs : s ≠ 0)
    (hd : Of cfg k s d) (hk : k ≤ cfg.twoAdicity) (hm : m ≤ k) {ds : List (Domain F)}
    (e : splitDomains cfg d (2 ^ m) = some ds) (x : F) :
    (Mem d x → ∃! i : ℕ, ∃ c, ds[i]? = some c ∧ Mem c x) ∧ (∀ c ∈ ds, Mem c x → Mem d x) := by
  obtain ⟨ds', e', h1, h2⟩ := C75_split hc hl hA hs hd hk hm
  obtain rfl : ds = ds' := Option.some.inj (e.symm.trans e')
  have hv := hd.radix2.1
  have hsz : d.size = 2 ^ m * 2 ^ (k - m) := by
    rw [hd.radix2.2, hd.log, ← pow_add]; congr 1; omega
  have hsz' : ∀ i (hi : i < ds.length), ds[i].size = 2 ^ (k - m) := fun i hi => by
    rw [(h2 i hi).1.radix2.2, (h2 i hi).1.log]
  have hpos := Nat.two_pow_pos m
  constructor
  · rintro ⟨t, ht, rfl⟩
    refine ⟨t % 2 ^ m, ⟨ds[t % 2 ^ m]'(by rw [h1]; exact Nat.mod_lt _ hpos),
      List.getElem?_eq_getElem _, t / 2 ^ m, ?_, ?_⟩, ?_⟩
    · rw [hsz']
      rw [hsz] at ht
      exact Nat.div_lt_of_lt_mul ht
    · rw [(h2 _ _).2, Nat.mod_add_div]
    · rintro i ⟨c, hc, j, hj, e2⟩
      obtain ⟨hi, rfl⟩ := List.getElem?_eq_some_iff.1 hc
      rw [(h2 i hi).2] at e2
      rw [hsz'] at hj
      have hlt : i + 2 ^ m * j < d.size := by
        rw [hsz]
        calc i + 2 ^ m * j < 2 ^ m + 2 ^ m * j := by omega
          _ = 2 ^ m * (j + 1) := by ring
          _ ≤ _ := Nat.mul_le_mul_left _ hj
      have := hv.prim.pow_inj ht hlt (mul_left_cancel₀ hv.offset e2)
      rw [this, Nat.add_mul_mod_self_left, Nat.mod_eq_of_lt (by omega)]
  · rintro c hc ⟨j, hj, rfl⟩
    obtain ⟨i, hi, rfl⟩ := List.getElem_of_mem hc
    rw [(h2 i hi).2]
    rw [mem_iff hv, mul_div_cancel_left₀ _ hv.offset, ← pow_mul, mul_comm, pow_mul, hv.prim.pow_eq_one,
      one_pow]

/-- C75: other numbers of parts fail a check, and more parts than elements shift by the wrapped difference
of the logarithms. -/
theorem C75_split_fails (cfg : RootConfig F) {d : Domain F} (hlog : d.logSize < 2 ^ 31) :
    (∀ n < 2 ^ 64, (¬ ∃ m, n = 2 ^ m) → splitDomains cfg d n = none) ∧
    (∀ m ≤ 63, d.logSize < m → splitDomains cfg d (2 ^ m) = none) := by
  refine ⟨fun n hn h => ?_, fun m hm h => ?_⟩
  · rw [splitDomains]
    cases e : Bits.checkedLog2 (BitVec.ofNat 64 n) with
    | none => rfl
    | some k =>
      rw [C53_checkedLog2, BitVec.toNat_ofNat, Nat.mod_eq_of_lt hn] at e
      exact absurd ⟨k, e⟩ h
  · rw [splitDomains, Fri.checkedLog2_pow hm, Option.bind_some]
    obtain ⟨n, hn⟩ := Nat.exists_eq_succ_of_ne_zero (Nat.two_pow_pos m).ne'
    rw [hn, splitLoop, new, if_pos (by omega)]; rfl

/-! ### Selectors -/

/-- C75: outside the coset the selectors are the values of four functions of the point: a polynomial of
degree below the size that is zero on the coset except at its first element, one that is zero except at
its last element, a linear one whose only zero is the last element, and the inverse of the vanishing
polynomial. On the coset the function fails. -/
theorem C75_selectorsAt {d : Domain F} (hd : d.Radix2) :
    (∀ x, Mem d x → selectorsAt d x = none) ∧
    ∃ p q : F[X], p.degree < d.size ∧ q.degree < d.size ∧
      (∀ i < d.size, p.eval (d.offset * d.gen ^ i) = if i = 0 then (d.size : F) else 0) ∧
      (∀ i < d.size, q.eval (d.offset * d.gen ^ i) = if i + 1 = d.size then d.size * d.gen else 0) ∧
      (d.size : F) ≠ 0 ∧
      ∀ x, ¬ Mem d x → selectorsAt d x = some
        ⟨p.eval x, q.eval x, (x - d.offset * d.gen ^ (d.size - 1)) / d.offset, (zpAt d x)⁻¹⟩ := by
  have hv := hd.1
  have hpos := hv.pos
  have ho := hv.offset
  have hg := hv.gen_ne
  have hgi : d.gen ^ (d.size - 1) = d.gen⁻¹ := by
    exact eq_inv_of_mul_eq_one_left (by rw [← pow_succ, Nat.sub_add_cancel hpos, hv.prim.pow_eq_one])
  refine ⟨fun x hx => ?_, ∑ j ∈ Finset.range d.size, C (d.offset⁻¹ ^ j) * X ^ j,
    C d.gen * ∑ j ∈ Finset.range d.size, C ((d.gen * d.offset⁻¹) ^ j) * X ^ j, ?_, ?_, ?_, ?_,
    card_ne_zero hpos hv.prim, ?_⟩
  · have := (C75_zp hd x).2 hx
    rw [zpAt] at this
    simp only [selectorsAt, this, Group.inv?, if_true]
    split <;> simp
  · exact degree_range_lt d.size _
  · exact by rw [degree_C_mul hg]; exact degree_range_lt d.size _
  · intro i hi
    have : (∑ j ∈ Finset.range d.size, C (d.offset⁻¹ ^ j) * X ^ j).eval (d.offset * d.gen ^ i) =
        ∑ j ∈ Finset.range d.size, (d.gen ^ i) ^ j := by
      rw [eval_finsetSum]
      refine Finset.sum_congr rfl fun j _ => ?_
      rw [eval_mul, eval_C, eval_pow, eval_X, ← mul_pow, inv_mul_cancel_left₀ ho]
    rw [this, geom_of_prim hv.prim hi]
  · intro i hi
    have : (C d.gen * ∑ j ∈ Finset.range d.size, C ((d.gen * d.offset⁻¹) ^ j) * X ^ j).eval
        (d.offset * d.gen ^ i) = d.gen * ∑ j ∈ Finset.range d.size, (d.gen ^ ((i + 1) % d.size)) ^ j := by
      rw [eval_mul, eval_C, eval_finsetSum]
      congr 1
      refine Finset.sum_congr rfl fun j _ => ?_
      rw [eval_mul, eval_C, eval_pow, eval_X, ← mul_pow, ← pow_mod_of_prim hv.prim, mul_assoc,
        inv_mul_cancel_left₀ ho, pow_succ']
    rw [this, geom_of_prim hv.prim (Nat.mod_lt _ hpos)]
    by_cases h : i + 1 = d.size
    · rw [if_pos h, h, Nat.mod_self, if_pos rfl, mul_comm]
    · rw [if_neg h, Nat.mod_eq_of_lt (by omega), if_neg (by omega), mul_zero]
  · intro x hx
    rw [mem_iff hv] at hx
    have n0 : (x / d.offset) ^ d.size - 1 ≠ 0 := sub_ne_zero.2 hx
    have n1 : x / d.offset - 1 ≠ 0 := fun h => hx (by rw [sub_eq_zero.1 h, one_pow])
    have n2 : x / d.offset - d.gen⁻¹ ≠ 0 := fun h => hx (by
      rw [sub_eq_zero.1 h, inv_pow, hv.prim.pow_eq_one, inv_one])
    have n3 : d.gen * (x / d.offset) - 1 ≠ 0 := fun h => n2 (by
      rw [sub_eq_zero, eq_inv_of_mul_eq_one_right (sub_eq_zero.1 h)])
    have ep : (∑ j ∈ Finset.range d.size, C (d.offset⁻¹ ^ j) * X ^ j).eval x =
        ((x / d.offset) ^ d.size - 1) * (x / d.offset - 1)⁻¹ := by
      rw [eq_mul_inv_iff_mul_eq₀ n1, ← geom_sum_mul, eval_finsetSum]
      congr 1
      refine Finset.sum_congr rfl fun j _ => ?_
      rw [eval_mul, eval_C, eval_pow, eval_X, ← mul_pow, div_eq_inv_mul]
    have eq : (C d.gen * ∑ j ∈ Finset.range d.size, C ((d.gen * d.offset⁻¹) ^ j) * X ^ j).eval x =
        ((x / d.offset) ^ d.size - 1) * (x / d.offset - d.gen⁻¹)⁻¹ := by
      rw [eq_mul_inv_iff_mul_eq₀ n2]
      have := geom_sum_mul (d.gen * (x / d.offset)) d.size
      rw [mul_pow, hv.prim.pow_eq_one, one_mul] at this
      rw [← this, eval_mul, eval_C, eval_finsetSum, mul_comm d.gen, mul_assoc, mul_sub,
        mul_inv_cancel₀ hg]
      congr 1
      refine Finset.sum_congr rfl fun j _ => ?_
      rw [eval_mul, eval_C, eval_pow, eval_X, ← mul_pow, div_eq_inv_mul, mul_assoc]
    rw [ep, eq, zpAt_eq hd, hgi, sub_div, mul_div_cancel_left₀ _ ho, selectorsAt]
    simp only [Group.squareTimes_eq, ← hd.2, hv.offsetInv, ← div_eq_mul_inv, hv.genInv, Group.inv?,
      if_neg n0, if_neg n1, if_neg n2, Option.bind_some, Option.map_some]

/-- C75: on a coset of the same size that is disjoint from the domain, `GetSelectorsOnCoset` gives what
`GetSelectorsAtPoint` gives at every element, in order, for every number of threads. -/
theorem C75_onCoset {threads : ℕ} {d c : Domain F} (hd : d.Radix2) (hcv : c.Radix2)
    (ht : 0 < threads) (ht' : threads ≤ 2 ^ 63) (h1 : d.offset = 1) (h3 : c.logSize = d.logSize)
    (h2 : c.offset ^ d.size ≠ 1) :
    ∃ l, selectorsOnCoset threads d c = some l ∧ l.length = c.size ∧
      ∀ i (hi : i < l.length), selectorsAt d (c.offset * c.gen ^ i) = some l[i] := by
  have hc1 : c.offset ≠ 1 := fun h => h2 (by rw [h, one_pow])
  refine ⟨_, selectorsOnCoset_eq hd hcv.1 ht ht' h1 hc1 h3, by simp, fun i hi => ?_⟩
  have hsz : d.size = c.size := by rw [hd.2, hcv.2, h3]
  have hz : (c.offset * c.gen ^ i) ^ d.size = c.offset ^ d.size := by
    rw [mul_pow, ← pow_mul, mul_comm i, pow_mul, hsz, hcv.1.prim.pow_eq_one, one_pow, mul_one]
  have n0 : c.offset ^ d.size - 1 ≠ 0 := sub_ne_zero.2 h2
  have n1 : c.offset * c.gen ^ i - 1 ≠ 0 := fun h => h2 (by rw [← hz, sub_eq_zero.1 h, one_pow])
  have n2 : c.offset * c.gen ^ i - d.genInv ≠ 0 := fun h => h2 (by
    rw [← hz, sub_eq_zero.1 h, hd.1.genInv, inv_pow, hd.1.prim.pow_eq_one, inv_one])
  rw [List.getElem_map, List.getElem_range, sel, if_neg n0, if_neg n1, if_neg n2, selectorsAt,
    hd.1.offsetInv, h1, inv_one, mul_one]
  simp only [Group.squareTimes_eq, ← hd.2, hz, Group.inv?, if_neg n0, if_neg n1, if_neg n2,
    Option.bind_some, Option.map_some, one_mul]
  rw [mul_comm (c.offset ^ d.size - 1), mul_comm (c.offset ^ d.size - 1)]

/-- C75: for a shift in the subgroup, where `GetSelectorsAtPoint` fails, it gives zeros. -/
theorem C75_onCoset_member {threads : ℕ} {d c : Domain F} (hd : d.Radix2) (hcv : c.Radix2)
    (ht : 0 < threads) (ht' : threads ≤ 2 ^ 63) (h1 : d.offset = 1) (h3 : c.logSize = d.logSize)
    (h4 : c.offset ≠ 1) (h2 : c.offset ^ d.size = 1) :
    ∃ l, selectorsOnCoset threads d c = some l ∧ l.length = c.size ∧
      ∀ s ∈ l, s.firstRow = 0 ∧ s.lastRow = 0 ∧ s.invZeroifier = 0 := by
  refine ⟨_, selectorsOnCoset_eq hd hcv.1 ht ht' h1 h4 h3, by simp, fun s hs => ?_⟩
  obtain ⟨i, -, rfl⟩ := List.mem_map.1 hs
  simp [sel, h2]

/-- C75: the check is the wrong way round: no coset that is larger than the domain is accepted, and for a
smaller one the difference of the logarithms wraps and the shift is undefined. So the quotient domains of
a rate below one cannot be used. -/
theorem C75_onCoset_sizes (threads : ℕ) (d c : Domain F) (hd : d.logSize < 2 ^ 32)
    (h : c.logSize ≠ d.logSize) : selectorsOnCoset threads d c = none := by
  rw [selectorsOnCoset]
  split
  · rfl
  · rename_i h'
    rw [if_pos (by omega)]

/-- C75: a domain that is itself shifted, and a coset that is the subgroup, are rejected. -/
theorem C75_onCoset_checks (threads : ℕ) (d c : Domain F) (h : d.offset ≠ 1 ∨ c.offset = 1) :
    selectorsOnCoset threads d c = none := by
  rw [selectorsOnCoset, if_pos (by tauto)]

/-! ### Examples modulo 17, where 3 has order sixteen -/

-- the subgroup of four elements is {1, 13, 16, 4}
example : (new exConfig 2 1).map (fun d => (d.size, d.gen, zpAt d 16, zpAt d 2)) = some (4, 13, 0, 15) ∧
    new exConfig 5 1 = none ∧ new exConfig 2 0 = none := by decide +kernel
example : (naturalDomain exConfig 8).map (·.gen) = some 9 ∧ naturalDomain exConfig 6 = none := by decide +kernel
-- five elements need eight; with the offset 3 they do not meet the subgroup
example : ((new exConfig 2 1).bind (createDisjoint exConfig 3 · 5)).map (fun d => (d.size, d.offset)) =
    some (8, 3) := by decide +kernel
-- the group of all non-zero elements is met by every coset
example : (3 : F17) ^ 2 ^ max 2 4 = 1 := by decide
-- 2 * {1, 9, 13, 15, 16, 8, 4, 2} in two parts
example : ((new exConfig 3 2).bind (splitDomains exConfig · 2)).map (List.map fun d => (d.size, d.offset, d.gen)) =
    some [(4, 2, 13), (4, 1, 13)] := by decide +kernel
example : ((new exConfig 1 1).bind (splitDomains exConfig · 4)) = none ∧
    ((new exConfig 3 1).bind (splitDomains exConfig · 3)) = none := by decide +kernel
example : ((new exConfig 2 1).bind (selectorsAt · 2)) = some ⟨15, 1, 15, 8⟩ ∧
    ((new exConfig 2 1).bind (selectorsAt · 4)) = none := by decide +kernel
example : ((new exConfig 2 1).bind fun d => (new exConfig 2 3).bind fun c => selectorsOnCoset 3 d c).map
    (List.map fun s => (s.firstRow, s.lastRow)) = some [(6, 5), (3, 12), (14, 8), (15, 10)] := by decide +kernel
-- twice as large, as the quotient domain of a degree-three constraint would be
example : ((new exConfig 2 1).bind fun d => (new exConfig 3 3).bind fun c => selectorsOnCoset 3 d c) = none := by
  decide +kernel

end Tachyon.Props
