import Verif.Spec.FFT
import Verif.Proofs.FFTCore
import Verif.Proofs.Parallel
import Verif.Props.Parallel
/-! Loops of the radix-2 FFT: independent pairs, the bit-reversal permutation and the stages. -/
namespace Tachyon.FFT
open Tachyon.Group Tachyon.Parallel Tachyon.Props

/-! ### Loops over independent pairs -/

/-- A loop whose iterations work on disjoint pairs of cells, or on none, gives the same result in every
order. -/
theorem foldlM_pairs {ι V : Type*} {P : ι → Prop} {f : ι → V → V → V × V} {lo hi : ι → ℕ}
    {step : List V → ι → Option (List V)} {l : List ι} {arr : List V} (hnd : l.Nodup)
    (hstep : ∀ x ∈ l, P x → ∀ a, step a x = pairStep (f x) a (lo x) (hi x))
    (hskip : ∀ x ∈ l, ¬ P x → ∀ a, step a x = some a)
    (hin : ∀ x ∈ l, P x → lo x < arr.length ∧ hi x < arr.length ∧ lo x ≠ hi x)
    (hdis : ∀ x ∈ l, P x → ∀ y ∈ l, P y → x ≠ y →
      lo x ≠ lo y ∧ lo x ≠ hi y ∧ hi x ≠ lo y ∧ hi x ≠ hi y) :
    ∃ r, l.foldlM step arr = some r ∧ r.length = arr.length ∧
      (∀ x ∈ l, P x → ∀ a b, arr[lo x]? = some a → arr[hi x]? = some b →
        r[lo x]? = some (f x a b).1 ∧ r[hi x]? = some (f x a b).2) ∧
      ∀ i, (∀ x ∈ l, P x → i ≠ lo x ∧ i ≠ hi x) → r[i]? = arr[i]? := by
  induction l generalizing arr with
  | nil => exact ⟨arr, rfl, rfl, by simp, by simp⟩
  | cons x l ih =>
    rw [List.nodup_cons] at hnd
    by_cases hx : P x
    · obtain ⟨h1, h2, h3⟩ := hin x (by simp) hx
      have ea := List.getElem?_eq_getElem h1
      have eb := List.getElem?_eq_getElem h2
      generalize arr[lo x] = a at ea
      generalize arr[hi x] = b at eb
      have hs : step arr x = some ((arr.set (lo x) (f x a b).1).set (hi x) (f x a b).2) := by
        rw [hstep x (by simp) hx, pairStep, ea, eb]
      generalize hr1 : (arr.set (lo x) (f x a b).1).set (hi x) (f x a b).2 = arr1 at hs
      have hlen : arr1.length = arr.length := by rw [← hr1]; simp
      obtain ⟨r, e, hl, hp, ho⟩ := ih (arr := arr1) hnd.2
        (fun y hy => hstep y (List.mem_cons_of_mem _ hy))
        (fun y hy => hskip y (List.mem_cons_of_mem _ hy))
        (fun y hy hP => by rw [hlen]; exact hin y (List.mem_cons_of_mem _ hy) hP)
        (fun y hy hPy z hz => hdis y (List.mem_cons_of_mem _ hy) hPy z (List.mem_cons_of_mem _ hz))
      have hd : ∀ y ∈ l, P y → lo x ≠ lo y ∧ lo x ≠ hi y ∧ hi x ≠ lo y ∧ hi x ≠ hi y :=
        fun y hy hPy => hdis x (by simp) hx y (List.mem_cons_of_mem _ hy) hPy
          (fun h => hnd.1 (h ▸ hy))
      refine ⟨r, by rw [List.foldlM_cons, hs]; exact e, hl.trans hlen, ?_, ?_⟩
      · intro y hy hPy a' b' ha hb
        rcases List.mem_cons.1 hy with rfl | hy
        · rw [ea] at ha; rw [eb] at hb
          cases ha; cases hb
          rw [ho _ fun z hz hPz => ⟨(hd z hz hPz).1, (hd z hz hPz).2.1⟩,
            ho _ fun z hz hPz => (hd z hz hPz).2.2, ← hr1]
          refine ⟨?_, ?_⟩
          · rw [List.getElem?_set_ne (Ne.symm h3), List.getElem?_set_self h1]
          · rw [List.getElem?_set_self (by simpa using h2)]
        · obtain ⟨d1, d2, d3, d4⟩ := hd y hy hPy
          refine hp y hy hPy a' b' ?_ ?_
          · rw [← hr1, List.getElem?_set_ne d3, List.getElem?_set_ne d1, ha]
          · rw [← hr1, List.getElem?_set_ne d4, List.getElem?_set_ne d2, hb]
      · intro i hi'
        rw [ho i fun y hy => hi' y (List.mem_cons_of_mem _ hy), ← hr1]
        obtain ⟨n1, n2⟩ := hi' x (by simp) hx
        rw [List.getElem?_set_ne (Ne.symm n2), List.getElem?_set_ne (Ne.symm n1)]
    · obtain ⟨r, e, hl, hp, ho⟩ := ih (arr := arr) hnd.2
        (fun y hy => hstep y (List.mem_cons_of_mem _ hy))
        (fun y hy => hskip y (List.mem_cons_of_mem _ hy))
        (fun y hy => hin y (List.mem_cons_of_mem _ hy))
        (fun y hy hPy z hz => hdis y (List.mem_cons_of_mem _ hy) hPy z (List.mem_cons_of_mem _ hz))
      refine ⟨r, by rw [List.foldlM_cons, hskip x (by simp) hx]; exact e, hl, ?_, ?_⟩
      · intro y hy hPy
        rcases List.mem_cons.1 hy with rfl | hy
        · exact absurd hPy hx
        · exact hp y hy hPy
      · exact fun i h => ho i fun y hy => h y (List.mem_cons_of_mem _ hy)

/-! ### Bit reversal -/

theorem swapBitRev_spec {V : Type*} (o : Sched) {arr : List V} {size k : ℕ} (hl : arr.length = 2 ^ k)
    (hs : size ≤ 2 ^ k) (hk : k ≤ 64) :
    ∃ r, swapBitRev o arr size k = some r ∧ r.length = arr.length ∧
      ∀ i < 2 ^ k, r[i]? = if i < size ∨ rv k i < size then arr[rv k i]? else arr[i]? := by
  rw [swapBitRev]
  have hrv0 : rv k 0 = 0 := by simpa [rv] using rv_mul 0 k 0
  split
  · next h =>
    refine ⟨arr, rfl, rfl, fun i hi => ?_⟩
    split
    · next h2 =>
      have : i = 0 := by
        rcases h2 with h2 | h2
        · omega
        · exact rv_inj hi (by positivity) (by rw [hrv0]; omega)
      rw [this, hrv0]
    · rfl
  · next h =>
    have hk0 : 0 < k := by
      rcases Nat.eq_zero_or_pos k with rfl | h'
      · simp at hs; omega
      · exact h'
    have hmem : ∀ x, x ∈ o.one (List.range' 1 (size - 1)) ↔ 1 ≤ x ∧ x < size := by
      intro x; rw [(o.one_perm _).mem_iff, List.mem_range'_1]; omega
    have hstep : ∀ x ∈ o.one (List.range' 1 (size - 1)), ∀ a : List V, swapStep k a x =
        if x < rv k x then pairStep (fun x y => (y, x)) a x (rv k x) else some a := by
      intro x hx a
      obtain ⟨r, e, hr⟩ := reverseBitsLen_rv (i := x) hk0 hk (by have := (hmem x).1 hx; omega)
      rw [swapStep, e]
      simp only [hr]
    obtain ⟨r, e, hlen, hp, ho⟩ := foldlM_pairs (P := fun x => x < rv k x)
      (f := fun _ x y => ((y, x) : V × V)) (lo := id) (hi := rv k) (step := swapStep k)
      (l := o.one (List.range' 1 (size - 1))) (arr := arr)
      ((o.one_perm _).nodup_iff.2 List.nodup_range')
      (fun x hx hP a => by rw [hstep x hx, if_pos hP]; rfl)
      (fun x hx hP a => by rw [hstep x hx, if_neg hP])
      (fun x hx hP => by
        have := (hmem x).1 hx; have := rv_lt k x
        rw [hl]; refine ⟨?_, this, ?_⟩ <;> simp <;> omega)
      (fun x hx hPx y hy hPy hne => by
        have h1 := (hmem x).1 hx; have h2 := (hmem y).1 hy
        have e1 : rv k (rv k x) = x := rv_rv (by omega)
        have e2 : rv k (rv k y) = y := rv_rv (by omega)
        refine ⟨hne, ?_, ?_, ?_⟩
        · intro h; simp only [id] at h; rw [h, e2] at hPx; omega
        · intro h; simp only [id] at h; rw [← h, e1] at hPy; omega
        · intro h; exact hne (by rw [← e1, ← e2, h]))
    refine ⟨r, e, hlen, fun i hi => ?_⟩
    have ei : rv k (rv k i) = i := rv_rv hi
    have hri := rv_lt k i
    have ga : ∀ j < 2 ^ k, ∃ a, arr[j]? = some a := fun j hj =>
      ⟨_, List.getElem?_eq_getElem (by omega)⟩
    obtain ⟨a, ha⟩ := ga i hi
    obtain ⟨b, hb⟩ := ga (rv k i) hri
    rcases lt_trichotomy i (rv k i) with hlt | heq | hgt
    · by_cases h2 : i < size
      · rw [if_pos (Or.inl h2), hb]
        have h1 : 1 ≤ i := by
          rcases Nat.eq_zero_or_pos i with rfl | h'
          · rw [hrv0] at hlt; omega
          · exact h'
        exact (hp i ((hmem i).2 ⟨h1, h2⟩) hlt a b ha hb).1
      · rw [if_neg (by omega)]
        refine ho i fun x hx hP => ?_
        have hx' := (hmem x).1 hx
        refine ⟨by simp only [id]; omega, fun h => ?_⟩
        rw [h, rv_rv (by omega)] at hlt; omega
    · rw [← heq, ite_self]
      refine ho i fun x hx hP => ?_
      have hx' := (hmem x).1 hx
      refine ⟨fun h => ?_, fun h => ?_⟩
      · simp only [id] at h; rw [← h, ← heq] at hP; omega
      · rw [h, rv_rv (by omega)] at heq; omega
    · by_cases h2 : rv k i < size
      · rw [if_pos (Or.inr h2), hb]
        have h1 : 1 ≤ rv k i := by
          rcases Nat.eq_zero_or_pos (rv k i) with h' | h'
          · rw [h', hrv0] at ei; omega
          · exact h'
        have := (hp (rv k i) ((hmem _).2 ⟨h1, h2⟩) (by rw [ei]; exact hgt) b a hb (by rw [ei]; exact ha)).2
        rw [ei] at this; exact this
      · rw [if_neg (by omega)]
        refine ho i fun x hx hP => ?_
        have hx' := (hmem x).1 hx
        refine ⟨by simp only [id]; omega, fun h => ?_⟩
        rw [h, rv_rv (by omega)] at h2; omega

variable {F : Type*} [Field F] [DecidableEq F]

omit [DecidableEq F] in
/-- The values after bit reversal when the cells that are not visited hold zero. -/
theorem swapBitRev_getD (o : Sched) {arr : List F} {size k : ℕ} (hl : arr.length = 2 ^ k)
    (hs : size ≤ 2 ^ k) (hk : k ≤ 64) (hz : ∀ i, size ≤ i → arr.getD i 0 = 0) :
    ∃ r, swapBitRev o arr size k = some r ∧ r.length = 2 ^ k ∧
      ∀ i < 2 ^ k, r.getD i 0 = arr.getD (rv k i) 0 := by
  obtain ⟨r, e, hlen, h⟩ := swapBitRev_spec o hl hs hk
  refine ⟨r, e, hlen.trans hl, fun i hi => ?_⟩
  rw [List.getD_eq_getElem?_getD, h i hi]
  split
  · rw [List.getD_eq_getElem?_getD]
  · next h2 =>
    push Not at h2
    rw [← List.getD_eq_getElem?_getD, hz i h2.1, hz _ h2.2]

/-! ### Butterflies -/

theorem butterflyPairs_nodup {n gap : ℕ} : (butterflyPairs n gap).Nodup := by
  rw [butterflyPairs, List.nodup_flatMap]
  refine ⟨fun b _ => ?_, ?_⟩
  · exact List.nodup_range.map fun i j h => (Prod.ext_iff.1 h).2
  · refine List.nodup_range.pairwise_of_forall_ne fun b _ b' _ hne => ?_
    rw [Function.onFun, List.disjoint_left]
    intro x hx hx'
    obtain ⟨j, hj, rfl⟩ := List.mem_map.1 hx
    obtain ⟨j', hj', h⟩ := List.mem_map.1 hx'
    have h1 := (Prod.ext_iff.1 h).1
    simp only at h1
    have := List.mem_range.1 hj
    exact hne (Nat.eq_of_mul_eq_mul_right (by omega) h1).symm

theorem mem_butterflyPairs {q gap : ℕ} (hg : 0 < gap) (p : ℕ × ℕ) :
    p ∈ butterflyPairs (q * (2 * gap)) gap ↔ ∃ b < q, ∃ j < gap, p = (b * (2 * gap), j) := by
  have e : (q * (2 * gap) + 2 * gap - 1) / (2 * gap) = q := by
    rw [show q * (2 * gap) + 2 * gap - 1 = (2 * gap - 1) + (2 * gap) * q by
      rw [Nat.mul_comm q]; omega, Nat.add_mul_div_left _ _ (by omega), Nat.div_eq_of_lt (by omega)]
    omega
  rw [butterflyPairs, e]
  simp only [List.mem_flatMap, List.mem_range, List.mem_map]
  constructor
  · rintro ⟨b, hb, j, hj, rfl⟩; exact ⟨b, hb, j, hj, rfl⟩
  · rintro ⟨b, hb, j, hj, rfl⟩; exact ⟨b, hb, j, hj, rfl⟩

theorem block_ne {b b' j j' m : ℕ} (hj : j < m) (hj' : j' < m) (h : b * m + j = b' * m + j') :
    b = b' ∧ j = j' := by
  have h1 : b = b' := by
    have : (b * m + j) / m = (b' * m + j') / m := by rw [h]
    rw [Nat.mul_comm b, Nat.mul_comm b', Nat.mul_add_div (by omega), Nat.mul_add_div (by omega),
      Nat.div_eq_of_lt hj, Nat.div_eq_of_lt hj'] at this
    omega
  subst h1
  exact ⟨rfl, by omega⟩

omit [DecidableEq F] in
theorem applyButterfly_spec (o : Sched) (fn : F → F → F → F × F) {arr roots : List F} {q gap : ℕ}
    (hg : 0 < gap) (hl : arr.length = q * (2 * gap)) (hr : gap ≤ roots.length) :
    ∃ r, applyButterfly o fn arr roots gap = some r ∧ r.length = arr.length ∧
      ∀ b < q, ∀ j < gap,
        r.getD (b * (2 * gap) + j) 0 = (fn (roots.getD j 0) (arr.getD (b * (2 * gap) + j) 0)
          (arr.getD (b * (2 * gap) + j + gap) 0)).1 ∧
        r.getD (b * (2 * gap) + j + gap) 0 = (fn (roots.getD j 0) (arr.getD (b * (2 * gap) + j) 0)
          (arr.getD (b * (2 * gap) + j + gap) 0)).2 := by
  have hmem : ∀ p, p ∈ o.two (butterflyPairs arr.length gap) ↔
      ∃ b < q, ∃ j < gap, p = (b * (2 * gap), j) := by
    intro p; rw [(o.two_perm _).mem_iff, hl, mem_butterflyPairs hg]
  have hbd : ∀ b < q, b * (2 * gap) + 2 * gap ≤ arr.length := by
    intro b hb
    have := Nat.mul_le_mul_right (2 * gap) (show b + 1 ≤ q by omega)
    rw [hl]; linarith
  obtain ⟨r, e, hlen, hp, -⟩ := foldlM_pairs (P := fun _ => True)
    (f := fun p : ℕ × ℕ => fn (roots.getD p.2 0)) (lo := fun p => p.1 + p.2)
    (hi := fun p => p.1 + p.2 + gap) (step := butterflyStep fn roots gap)
    (l := o.two (butterflyPairs arr.length gap)) (arr := arr)
    ((o.two_perm _).nodup_iff.2 butterflyPairs_nodup)
    (fun p hp _ a => by
      obtain ⟨b, hb, j, hj, rfl⟩ := (hmem p).1 hp
      rw [butterflyStep]
      simp only
      rw [List.getD_eq_getElem?_getD, List.getElem?_eq_getElem (show j < roots.length by omega)]
      rfl)
    (fun p hp h => absurd trivial h)
    (fun p hp _ => by
      obtain ⟨b, hb, j, hj, rfl⟩ := (hmem p).1 hp
      have := hbd b hb
      refine ⟨?_, ?_, ?_⟩ <;> simp only <;> omega)
    (fun p hp _ p' hp' _ hne => by
      obtain ⟨b, hb, j, hj, rfl⟩ := (hmem p).1 hp
      obtain ⟨b', hb', j', hj', rfl⟩ := (hmem p').1 hp'
      simp only
      refine ⟨fun h => ?_, fun h => ?_, fun h => ?_, fun h => ?_⟩
      · obtain ⟨rfl, rfl⟩ := block_ne (by omega) (by omega) h; exact hne rfl
      · have := block_ne (b := b) (b' := b') (j' := j' + gap) (show j < 2 * gap by omega) (by omega)
          (by omega)
        omega
      · have := block_ne (b := b) (b' := b') (j := j + gap) (m := 2 * gap) (j' := j') (by omega)
          (by omega) (by omega)
        omega
      · obtain ⟨rfl, rfl⟩ := block_ne (show j < 2 * gap by omega) (by omega)
          (show b * (2 * gap) + j = b' * (2 * gap) + j' by omega)
        exact hne rfl)
  refine ⟨r, e, hlen, fun b hb j hj => ?_⟩
  have hb' := hbd b hb
  have e1 : arr[b * (2 * gap) + j]? = some (arr.getD (b * (2 * gap) + j) 0) := by
    rw [List.getD_eq_getElem?_getD, List.getElem?_eq_getElem (by omega)]; rfl
  have e2 : arr[b * (2 * gap) + j + gap]? = some (arr.getD (b * (2 * gap) + j + gap) 0) := by
    rw [List.getD_eq_getElem?_getD, List.getElem?_eq_getElem (by omega)]; rfl
  have := hp (b * (2 * gap), j) ((hmem _).2 ⟨b, hb, j, hj, rfl⟩) trivial _ _ e1 e2
  simp only at this
  exact ⟨by rw [List.getD_eq_getElem?_getD, this.1]; rfl,
    by rw [List.getD_eq_getElem?_getD, this.2]; rfl⟩

/-! ### The stages -/

omit [DecidableEq F] in
theorem outInGo_spec (o : Sched) {w : F} {k : ℕ} (hw : 0 < k → w ^ 2 ^ (k - 1) = -1)
    {roots : List (List F)} (hr : RootsFor w k roots) (c : ℕ → F) (e : ℕ) :
    ∀ (s fuel : ℕ) (arr : List F), e + s = k → e ≤ fuel → arr.length = 2 ^ k →
      (∀ b < 2 ^ e, ∀ j < 2 ^ s, arr.getD (b * 2 ^ s + j) 0 = dit c w e s b j) →
      ∃ r, outInGo o roots fuel (2 ^ s) s arr = some r ∧ r.length = 2 ^ k ∧
        ∀ j < 2 ^ k, r.getD j 0 = dft w (2 ^ k) c j := by
  induction e with
  | zero =>
    intro s fuel arr hs _ hl h
    have : s = k := by omega
    subst this
    refine ⟨arr, ?_, hl, fun j hj => ?_⟩
    · cases fuel with
      | zero => rw [outInGo, if_neg (by omega)]
      | succ f => rw [outInGo, if_neg (by omega)]
    · rw [← dit_end]
      simpa using h 0 (by simp) j hj
  | succ e ih =>
    intro s fuel arr hs hf hl h
    obtain ⟨f, rfl⟩ : ∃ f, fuel = f + 1 := ⟨fuel - 1, by omega⟩
    have hlt : 2 ^ s < arr.length := by rw [hl]; exact Nat.pow_lt_pow_right (by norm_num) (by omega)
    obtain ⟨l, hl1, hl2, hl3⟩ := hr s (by omega)
    have hq : arr.length = 2 ^ e * (2 * 2 ^ s) := by
      rw [hl, ← hs]; ring
    obtain ⟨r, er, hrl, hrv⟩ := applyButterfly_spec o butterflyOutIn (by positivity) hq hl2
    have hw' : w ^ 2 ^ (e + s) = -1 := by
      have := hw (by omega)
      rwa [show k - 1 = e + s by omega] at this
    obtain ⟨r', er', hr'⟩ := ih (s + 1) f r (by omega) (by omega) (by omega) (by
      intro b hb j hj
      have key : ∀ j < 2 ^ s, r.getD (b * (2 * 2 ^ s) + j) 0 = dit c w e (s + 1) b j ∧
          r.getD (b * (2 * 2 ^ s) + j + 2 ^ s) 0 = dit c w e (s + 1) b (j + 2 ^ s) := by
        intro j hj
        have h2 := hrv b hb j hj
        have e1 : arr.getD (b * (2 * 2 ^ s) + j) 0 = dit c w (e + 1) s (2 * b) j := by
          rw [← h (2 * b) (by rw [pow_succ]; omega) j hj]; congr 1; ring
        have e2 : arr.getD (b * (2 * 2 ^ s) + j + 2 ^ s) 0 = dit c w (e + 1) s (2 * b + 1) j := by
          rw [← h (2 * b + 1) (by rw [pow_succ]; omega) j hj]; congr 1; ring
        rw [e1, e2, hl3 j hj, show k - 1 - s = e by omega] at h2
        simp only [butterflyOutIn] at h2
        rw [h2.1, h2.2, dit_lo, dit_hi c hw']
        simp only [smul_eq_mul, mul_comm, and_self]
      rw [show b * 2 ^ (s + 1) + j = b * (2 * 2 ^ s) + j by ring]
      rcases lt_or_ge j (2 ^ s) with h2 | h2
      · exact (key j h2).1
      · obtain ⟨m, rfl⟩ : ∃ m, j = m + 2 ^ s := ⟨j - 2 ^ s, by omega⟩
        rw [← Nat.add_assoc]
        exact (key m (by rw [pow_succ] at hj; omega)).2)
    refine ⟨r', ?_, hr'⟩
    rw [outInGo, if_pos hlt, hl1]
    simp only [er]
    rw [← pow_succ]; exact er'

omit [DecidableEq F] in
theorem inOutGo_spec (o : Sched) {w : F} {k : ℕ} (hw : 0 < k → w ^ 2 ^ (k - 1) = -1)
    {roots : List (List F)} (hr : InvRootsFor w k roots) (c : ℕ → F) (e : ℕ) :
    ∀ (s fuel : ℕ) (arr : List F), e + s = k → e ≤ fuel → arr.length = 2 ^ k →
      (∀ b < 2 ^ s, ∀ j < 2 ^ e, arr.getD (b * 2 ^ e + j) 0 = dif c w e s b j) →
      ∃ r, inOutGo o roots fuel (2 ^ e / 2) s arr = some r ∧ r.length = 2 ^ k ∧
        ∀ j < 2 ^ k, r.getD j 0 = dft w (2 ^ k) c (rv k j) := by
  induction e with
  | zero =>
    intro s fuel arr hs _ hl h
    have : s = k := by omega
    subst this
    refine ⟨arr, ?_, hl, fun j hj => ?_⟩
    · cases fuel with
      | zero => rw [inOutGo]; simp
      | succ f => rw [inOutGo]; simp
    · rw [← dif_end]
      simpa using h j hj 0 (by simp)
  | succ e ih =>
    intro s fuel arr hs hf hl h
    obtain ⟨f, rfl⟩ : ∃ f, fuel = f + 1 := ⟨fuel - 1, by omega⟩
    have hgap : 2 ^ (e + 1) / 2 = 2 ^ e := by rw [pow_succ]; omega
    have hpos := Nat.two_pow_pos e
    obtain ⟨l, hl1, hl2, hl3⟩ := hr s (by omega)
    rw [show k - 1 - s = e by omega] at hl2 hl3
    have hq : arr.length = 2 ^ s * (2 * 2 ^ e) := by
      rw [hl, ← hs]; ring
    obtain ⟨r, er, hrl, hrv⟩ := applyButterfly_spec o butterflyInOut hpos hq hl2
    have hw' : w ^ 2 ^ (e + s) = -1 := by
      have := hw (by omega)
      rwa [show k - 1 = e + s by omega] at this
    obtain ⟨r', er', hr'⟩ := ih (s + 1) f r (by omega) (by omega) (by omega) (by
      intro b hb j hj
      have h2 := hrv (b / 2) (by rw [pow_succ] at hb; omega) j hj
      have hb2 : b / 2 < 2 ^ s := by rw [pow_succ] at hb; omega
      have e1 : arr.getD (b / 2 * (2 * 2 ^ e) + j) 0 = dif c w (e + 1) s (b / 2) j := by
        rw [← h (b / 2) hb2 j (by rw [pow_succ]; omega)]; congr 1; ring
      have e2 : arr.getD (b / 2 * (2 * 2 ^ e) + j + 2 ^ e) 0 =
          dif c w (e + 1) s (b / 2) (j + 2 ^ e) := by
        rw [← h (b / 2) hb2 (j + 2 ^ e) (by rw [pow_succ]; omega)]; congr 1; ring
      rw [e1, e2, hl3 j hj] at h2
      simp only [butterflyInOut] at h2
      rcases Nat.even_or_odd' b with ⟨m, rfl | rfl⟩
      · rw [show 2 * m / 2 = m by omega] at h2
        rw [dif_lo, ← h2.1]; congr 1; ring
      · rw [show (2 * m + 1) / 2 = m by omega] at h2
        rw [dif_hi c hw', smul_eq_mul, mul_comm (w ^ _), ← h2.2]; congr 1; ring)
    refine ⟨r', ?_, hr'⟩
    rw [hgap, inOutGo, if_neg (by omega), hl1]
    simp only [er]
    exact er'

end Tachyon.FFT
