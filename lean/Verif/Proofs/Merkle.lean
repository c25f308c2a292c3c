import Verif.Model.Merkle
import Verif.Spec.Merkle
import Verif.Proofs.Bits
import Mathlib.Tactic.Ring
import Mathlib.Tactic.Linarith
namespace Tachyon.Merkle
open Tachyon.FFT

variable {L H : Type*}

/-- The hash of node `j` of depth `d` in the tree of height `k`: the root of its leaves. -/
def val (h : Hasher L H) (dflt : H) (k : ℕ) (leaves : List L) (d j : ℕ) : H :=
  Spec.root h.leaf h.parent dflt (k - d) ((leaves.drop (j * 2 ^ (k - d))).take (2 ^ (k - d)))

theorem val_parent (h : Hasher L H) (dflt : H) {k d : ℕ} (hd : d < k) (leaves : List L) (j : ℕ) :
    val h dflt k leaves d j =
      h.parent (val h dflt k leaves (d + 1) (2 * j)) (val h dflt k leaves (d + 1) (2 * j + 1)) := by
  obtain ⟨s, rfl⟩ : ∃ s, k = d + 1 + s := ⟨k - (d + 1), by omega⟩
  have h1 : d + 1 + s - d = s + 1 := by omega
  have h2 : d + 1 + s - (d + 1) = s := by omega
  unfold val
  rw [h1, h2, Spec.root, List.take_take, List.drop_take, List.drop_drop]
  have e0 : 2 ^ (s + 1) = 2 ^ s + 2 ^ s := by ring
  rw [e0, Nat.min_eq_left (Nat.le_add_right _ _), Nat.add_sub_cancel]
  have e1 : j * (2 ^ s + 2 ^ s) = 2 * j * 2 ^ s := by ring
  have e2 : 2 * j * 2 ^ s + 2 ^ s = (2 * j + 1) * 2 ^ s := by ring
  rw [e1, e2]

/-- The hash of the node with index `i` in the array. -/
def nv (h : Hasher L H) (dflt : H) (k : ℕ) (leaves : List L) (i : ℕ) : H :=
  val h dflt k leaves (Nat.log2 (i + 1)) (i + 1 - 2 ^ Nat.log2 (i + 1))

theorem nv_eq (h : Hasher L H) (dflt : H) (k : ℕ) (leaves : List L) {i d j : ℕ} (hj : j < 2 ^ d)
    (hi : i + 1 = 2 ^ d + j) : nv h dflt k leaves i = val h dflt k leaves d j := by
  have : Nat.log2 (i + 1) = d := by
    rw [Nat.log2_eq_iff (by omega), Nat.pow_succ]; omega
  rw [nv, this, hi, Nat.add_sub_cancel_left]

theorem exists_depth (i : ℕ) : ∃ d j, j < 2 ^ d ∧ i + 1 = 2 ^ d + j := by
  have h1 := Nat.log2_self_le (n := i + 1) (by omega)
  have h2 := (Nat.log2_lt (n := i + 1) (k := Nat.log2 (i + 1) + 1) (by omega)).1 (by omega)
  rw [Nat.pow_succ] at h2
  exact ⟨Nat.log2 (i + 1), i + 1 - 2 ^ Nat.log2 (i + 1), by omega, by omega⟩

theorem nv_parent (h : Hasher L H) (dflt : H) {k i : ℕ} (leaves : List L) (hi : i + 1 < 2 ^ k) :
    nv h dflt k leaves i = h.parent (nv h dflt k leaves (2 * i + 1)) (nv h dflt k leaves (2 * i + 2)) := by
  obtain ⟨d, j, hj, he⟩ := exists_depth i
  have hd : d < k := (Nat.pow_lt_pow_iff_right (a := 2) (by omega)).1 (by omega)
  have hp : 2 ^ (d + 1) = 2 * 2 ^ d := by ring
  rw [nv_eq h dflt k leaves hj he, val_parent h dflt hd,
    nv_eq h dflt k leaves (d := d + 1) (j := 2 * j) (by omega) (by omega),
    nv_eq h dflt k leaves (d := d + 1) (j := 2 * j + 1) (by omega) (by omega)]

section
variable (h : Hasher L H) (dflt : H) (k : ℕ) (leaves : List L)

/-- Node `i` holds its hash. -/
def Good (s : List H) (i : ℕ) : Prop := s[i]? = some (nv h dflt k leaves i)

/-- `s'` has the same length and keeps the right hashes. -/
def Ext (s s' : List H) : Prop :=
  s'.length = s.length ∧ ∀ i, Good h dflt k leaves s i → Good h dflt k leaves s' i

variable {h dflt k leaves}

theorem Ext.refl (s : List H) : Ext h dflt k leaves s s := ⟨rfl, fun _ h => h⟩

theorem Ext.trans {s t u : List H} (a : Ext h dflt k leaves s t) (b : Ext h dflt k leaves t u) :
    Ext h dflt k leaves s u := ⟨b.1.trans a.1, fun i hi => b.2 i (a.2 i hi)⟩

theorem setHash_good {s : List H} {i : ℕ} (hi : i < s.length) :
    ∃ s', setHash s i (nv h dflt k leaves i) = some s' ∧ Ext h dflt k leaves s s' ∧
      Good h dflt k leaves s' i := by
  refine ⟨s.set i (nv h dflt k leaves i), if_pos hi, ⟨List.length_set, fun j hj => ?_⟩, ?_⟩
  · unfold Good
    by_cases hij : i = j
    · subst hij; rw [List.getElem?_set_self hi]
    · rw [List.getElem?_set_ne hij]; exact hj
  · exact List.getElem?_set_self hi

theorem parentStep_good {s : List H} {i : ℕ} (hi : i + 1 < 2 ^ k) (hl : i < s.length)
    (h1 : Good h dflt k leaves s (2 * i + 1)) (h2 : Good h dflt k leaves s (2 * i + 2)) :
    ∃ s', parentStep h s (2 * i + 1) = some s' ∧ Ext h dflt k leaves s s' ∧
      Good h dflt k leaves s' i := by
  unfold parentStep
  rw [h1, show 2 * i + 1 + 1 = 2 * i + 2 from rfl, h2]
  dsimp only
  rw [← nv_parent h dflt leaves hi, show (2 * i + 1) / 2 = i by omega]
  exact setHash_good hl

/-- A fold whose steps succeed, keep what is right and make their targets right. -/
theorem foldlM_good {ι : Type*} {step : List H → ι → Option (List H)} {R : ι → ℕ → Prop} :
    ∀ (l : List ι) (s : List H)
    (_ : ∀ x ∈ l, ∀ t, Ext h dflt k leaves s t → ∃ t', step t x = some t' ∧ Ext h dflt k leaves t t' ∧
      ∀ i, R x i → Good h dflt k leaves t' i),
    ∃ s', l.foldlM step s = some s' ∧ Ext h dflt k leaves s s' ∧
      ∀ x ∈ l, ∀ i, R x i → Good h dflt k leaves s' i
  | [], s, _ => ⟨s, rfl, Ext.refl s, by simp⟩
  | x :: l, s, hs => by
    obtain ⟨t, e1, x1, g1⟩ := hs x (by simp) s (Ext.refl s)
    obtain ⟨u, e2, x2, g2⟩ := foldlM_good l t fun y hy v hv => hs y (by simp [hy]) v (x1.trans hv)
    refine ⟨u, ?_, x1.trans x2, fun y hy i hi => ?_⟩
    · rw [List.foldlM_cons, e1]; exact e2
    · rcases List.mem_cons.1 hy with rfl | hy
      · exact x2.2 i (g1 i hi)
      · exact g2 y hy i hi

theorem buildLevel_good {s : List H} {p cnt hi : ℕ} (hc : (hi - (2 * p + 1) + 1) / 2 = cnt)
    (hp : p + cnt < 2 ^ k) (hl : p + cnt ≤ s.length)
    (hg : ∀ i, 2 * p + 1 ≤ i → i < 2 * p + 1 + 2 * cnt → Good h dflt k leaves s i) :
    ∃ s', buildLevel h s (2 * p + 1) hi = some s' ∧ Ext h dflt k leaves s s' ∧
      ∀ i, p ≤ i → i < p + cnt → Good h dflt k leaves s' i := by
  unfold buildLevel
  rw [hc]
  obtain ⟨s', e, x, g⟩ := foldlM_good (h := h) (dflt := dflt) (k := k) (leaves := leaves)
    (step := fun s c => parentStep h s (2 * p + 1 + 2 * c)) (R := fun c i => i = p + c)
    (List.range cnt) s (by
      intro c hcm t ht
      rw [List.mem_range] at hcm
      obtain ⟨t', e, x, g⟩ := parentStep_good (h := h) (dflt := dflt) (k := k) (leaves := leaves)
        (s := t) (i := p + c) (by omega) (by have := ht.1; omega)
        (ht.2 _ (hg _ (by omega) (by omega))) (ht.2 _ (hg _ (by omega) (by omega)))
      refine ⟨t', ?_, x, ?_⟩
      · rw [← e]; congr 1; omega
      · rintro i rfl; exact g)
  refine ⟨s', e, x, fun i h1 h2 => g (i - p) ?_ i ?_⟩
  · rw [List.mem_range]; omega
  · omega

theorem buildTree_good : ∀ (m : ℕ) {d b c fuel lo hi : ℕ} {s : List H}, m ≤ d → d ≤ k → k < 64 →
    b < 2 ^ (d - m) → lo + 1 = 2 ^ d + b * 2 ^ m → hi + c = lo + 2 ^ m → c ≤ 1 → (m = 0 → c = 1) →
    m < fuel → s.length + 1 = 2 * 2 ^ k →
    (∀ i, lo ≤ i → i < lo + 2 ^ m → Good h dflt k leaves s i) →
    ∃ s', buildTree h fuel s lo hi = some s' ∧ Ext h dflt k leaves s s' ∧
      ∀ e, e ≤ m → ∀ i, 2 ^ (d - e) + b * 2 ^ (m - e) ≤ i + 1 →
        i + 1 < 2 ^ (d - e) + b * 2 ^ (m - e) + 2 ^ (m - e) → Good h dflt k leaves s' i
  | 0, d, b, c, fuel + 1, lo, hi, s, _, _, _, hb, hlo, hhi, hc, hm, _, hl, hg => by
    have hc1 := hm rfl
    refine ⟨s, ?_, Ext.refl s, ?_⟩
    · unfold buildTree; rw [if_neg (by simp at hhi; omega)]
    · intro e he i h1 h2
      obtain rfl : e = 0 := by omega
      simp only [Nat.sub_zero] at h1 h2
      exact hg i (by omega) (by omega)
  | m + 1, d, b, c, fuel + 1, lo, hi, s, hmd, hdk, hk, hb, hlo, hhi, hc, hm, hf, hl, hg => by
    obtain ⟨d, rfl⟩ : ∃ d', d = d' + 1 := ⟨d - 1, by omega⟩
    have hp1 : 2 ^ (d + 1) = 2 * 2 ^ d := by ring
    have hp2 : 2 ^ (m + 1) = 2 * 2 ^ m := by ring
    have hbm : b * 2 ^ (m + 1) = 2 * (b * 2 ^ m) := by rw [hp2]; ring
    have hd : d - m + m = d := by omega
    have hdm : 2 ^ d = 2 ^ (d - m) * 2 ^ m := by rw [← Nat.pow_add, hd]
    rw [Nat.succ_sub_succ] at hb
    have hbd : b * 2 ^ m + 2 ^ m ≤ 2 ^ d := by
      rw [hdm, ← Nat.succ_mul]; exact Nat.mul_le_mul_right _ hb
    have hdk' : 2 ^ (d + 1) ≤ 2 ^ k := Nat.pow_le_pow_right (by omega) hdk
    have hk' : 2 ^ k ≤ 2 ^ 63 := Nat.pow_le_pow_right (by omega) (by omega)
    have hmp : 0 < 2 ^ m := by positivity
    generalize hX : b * 2 ^ m = X at *
    generalize hP : 2 ^ d = P at *
    generalize hM : 2 ^ m = M at *
    obtain ⟨p, rfl⟩ : ∃ p, lo = 2 * p + 1 := ⟨P + X - 1, by omega⟩
    have hpp : p + 1 = P + X := by omega
    obtain ⟨s1, e1, x1, g1⟩ := buildLevel_good (h := h) (dflt := dflt) (k := k) (leaves := leaves)
      (s := s) (p := p) (cnt := M) (hi := hi) (by omega) (by omega) (by omega)
      (fun i h1 h2 => hg i h1 (by omega))
    have hhi2 : (hi / 2 + 2 ^ 64 - 1) % 2 ^ 64 = p + M - 1 := by omega
    obtain ⟨s2, e2, x2, g2⟩ := buildTree_good m (d := d) (b := b) (c := 1) (fuel := fuel)
      (lo := p) (hi := p + M - 1) (s := s1) (by omega) (by omega) hk hb
      (by rw [hP, hM, hX]; omega) (by rw [hM]; omega) (by omega) (by omega) (by omega)
      (by rw [x1.1]; exact hl) (by rw [hM]; exact g1)
    refine ⟨s2, ?_, x1.trans x2, ?_⟩
    · unfold buildTree
      rw [if_pos (by omega), e1]
      dsimp only
      rw [hhi2, show (2 * p + 1) / 2 = p by omega, e2]
    · intro e he i h1 h2
      rcases Nat.eq_zero_or_pos e with rfl | he0
      · simp only [Nat.sub_zero] at h1 h2
        rw [hbm] at h1 h2
        exact x2.2 i (x1.2 i (hg i (by omega) (by omega)))
      · obtain ⟨e, rfl⟩ : ∃ e', e = e' + 1 := ⟨e - 1, by omega⟩
        simp only [Nat.succ_sub_succ] at h1 h2
        exact g2 e (by omega) i h1 h2

theorem fillLeaves_good {maxSize : ℕ} (o : Sched) {store : List H} (hk : k < 63)
    (hn : leaves.length = 2 ^ k) (hmax : 2 ^ k ≤ maxSize) :
    ∃ s, fillLeaves h dflt maxSize o store leaves = some (some s) ∧ s.length + 1 = 2 * 2 ^ k ∧
      ∀ i, 2 ^ k ≤ i + 1 → i + 1 < 2 * 2 ^ k → Good h dflt k leaves s i := by
  have hk' : 2 ^ k < 2 ^ 63 := Nat.pow_lt_pow_right (by omega) hk
  have hk0 : 0 < 2 ^ k := by positivity
  have hal : (allocate dflt store (leaves.length * 2 - 1)).length + 1 = 2 * 2 ^ k := by
    unfold allocate
    rw [List.length_append, List.length_take, List.length_replicate]; omega
  obtain ⟨s, e, x, g⟩ := foldlM_good (h := h) (dflt := dflt) (k := k) (leaves := leaves)
    (step := fillStep h leaves) (R := fun c i => i = leaves.length + c - 1)
    (o.one (List.range leaves.length)) (allocate dflt store (leaves.length * 2 - 1)) (by
      intro c hc t ht
      have hc' : c < leaves.length := List.mem_range.1 ((o.one_perm _).mem_iff.1 hc)
      unfold fillStep
      rw [List.getElem?_eq_getElem hc']
      dsimp only
      have hv : h.leaf leaves[c] = nv h dflt k leaves (leaves.length + c - 1) := by
        rw [nv_eq h dflt k leaves (d := k) (j := c) (by omega) (by omega), val]
        simp only [Nat.sub_self, Nat.pow_zero, Nat.mul_one]
        rw [List.drop_eq_getElem_cons hc']
        rfl
      rw [hv]
      obtain ⟨t', e, x, g⟩ := setHash_good (h := h) (dflt := dflt) (k := k) (leaves := leaves)
        (s := t) (i := leaves.length + c - 1) (by have := ht.1; omega)
      exact ⟨t', e, x, by rintro i rfl; exact g⟩)
  refine ⟨s, ?_, by rw [x.1]; exact hal, fun i h1 h2 => ?_⟩
  · unfold fillLeaves
    have hpow : Bits.isPowerOfTwo (BitVec.ofNat 64 leaves.length) = true := by
      rw [Bits.isPowerOfTwo_iff]
      exact ⟨k, by rw [BitVec.toNat_ofNat, hn, Nat.mod_eq_of_lt (by omega)]⟩
    rw [hpow, if_neg (by simp), if_neg (by omega), if_neg (by omega), e]
    rfl
  · refine g (i + 1 - 2 ^ k) ?_ i ?_
    · rw [(o.one_perm _).mem_iff, List.mem_range]; omega
    · omega

theorem buildAll_good {t : ℕ} (o : Sched) {s : List H} (hk : k < 63) (hk1 : 1 ≤ k) (ht : 1 ≤ t)
    (hn : leaves.length = 2 ^ k) (hl : s.length + 1 = 2 * 2 ^ k)
    (hg : ∀ i, 2 ^ k ≤ i + 1 → i + 1 < 2 * 2 ^ k → Good h dflt k leaves s i) :
    ∃ s', buildAll h (2 ^ t) o leaves.length s = some s' ∧ s'.length = s.length ∧
      ∀ i, i + 1 < 2 * 2 ^ k → Good h dflt k leaves s' i := by
  have hk0 : 0 < 2 ^ k := by positivity
  -- every node has a depth
  have key : ∀ (d : ℕ) (s' : List H), d ≤ k → (∀ e, e ≤ d → ∀ i, 2 ^ (d - e) ≤ i + 1 →
      i + 1 < 2 ^ (d - e) + 2 ^ (d - e) → Good h dflt k leaves s' i) →
      ∀ i, i + 1 < 2 * 2 ^ d → Good h dflt k leaves s' i := by
    intro d s' hd hs i hi
    obtain ⟨d', j, hj, he⟩ := exists_depth i
    have hd' : d' ≤ d := by
      by_contra hc
      have := Nat.pow_le_pow_right (n := 2) (by omega) (show d + 1 ≤ d' by omega)
      rw [Nat.pow_succ] at this; omega
    exact hs (d - d') (by omega) i (by rw [show d - (d - d') = d' by omega]; omega)
      (by rw [show d - (d - d') = d' by omega]; omega)
  unfold buildAll
  by_cases hc : leaves.length > 2 ^ t
  · rw [if_pos hc]
    have htk : t < k := (Nat.pow_lt_pow_iff_right (a := 2) (by omega)).1 (by omega)
    have ht0 : 0 < 2 ^ t := by positivity
    have hkt : 2 ^ k = 2 ^ (k - t) * 2 ^ t := by rw [← Nat.pow_add]; congr 1; omega
    have hcnt : (leaves.length + 2 ^ t - 1) / 2 ^ t = 2 ^ (k - t) := by
      rw [hn, hkt, Nat.add_sub_assoc (by omega), Nat.mul_comm, Nat.mul_add_div ht0,
        Nat.div_eq_of_lt (by omega), Nat.add_zero]
    rw [hcnt]
    obtain ⟨s1, e1, x1, g1⟩ := foldlM_good (h := h) (dflt := dflt) (k := k) (leaves := leaves)
      (step := subtreeStep h leaves.length (2 ^ t))
      (R := fun b i => ∃ e, e ≤ t ∧ 2 ^ (k - e) + b * 2 ^ (t - e) ≤ i + 1 ∧
        i + 1 < 2 ^ (k - e) + b * 2 ^ (t - e) + 2 ^ (t - e))
      (o.one (List.range (2 ^ (k - t)))) s (by
        intro b hb s2 hs2
        have hb' : b < 2 ^ (k - t) := List.mem_range.1 ((o.one_perm _).mem_iff.1 hb)
        have hbt : b * 2 ^ t + 2 ^ t ≤ 2 ^ k := by
          rw [hkt, ← Nat.succ_mul]; exact Nat.mul_le_mul_right _ hb'
        obtain ⟨s3, e3, x3, g3⟩ := buildTree_good (h := h) (dflt := dflt) (k := k) (leaves := leaves)
          t (d := k) (b := b) (c := 0) (fuel := 65) (lo := leaves.length - 1 + b * 2 ^ t)
          (hi := leaves.length - 1 + b * 2 ^ t + 2 ^ t) (s := s2) (by omega) le_rfl (by omega) hb'
          (by omega) (by omega) (by omega) (by omega) (by omega) (by rw [hs2.1]; exact hl)
          (fun i h1 h2 => hs2.2 i (hg i (by omega) (by omega)))
        exact ⟨s3, e3, x3, fun i ⟨e, he, h1, h2⟩ => g3 e he i h1 h2⟩)
    rw [e1]
    dsimp only
    have hlog : Nat.log2 leaves.length - Nat.log2 (2 ^ t) = k - t := by
      rw [hn, Nat.log2_two_pow, Nat.log2_two_pow]
    rw [hlog]
    have hkt1 : 2 ^ (k - t + 1) = 2 * 2 ^ (k - t) := by ring
    have hkt0 : 0 < 2 ^ (k - t) := by positivity
    -- nodes below depth `k - t`
    have g1' : ∀ i, 2 ^ (k - t) ≤ i + 1 → i + 1 < 2 * 2 ^ k → Good h dflt k leaves s1 i := by
      intro i h1 h2
      obtain ⟨d, j, hj, he⟩ := exists_depth i
      have hdk : d ≤ k := by
        by_contra hc
        have := Nat.pow_le_pow_right (n := 2) (by omega) (show k + 1 ≤ d by omega)
        rw [Nat.pow_succ] at this; omega
      have hdt : k - t ≤ d := by
        by_contra hc
        have := Nat.pow_le_pow_right (n := 2) (by omega) (show d + 1 ≤ k - t by omega)
        rw [Nat.pow_succ] at this; omega
      have hm : t - (k - d) = d - (k - t) := by omega
      have hdd : 2 ^ d = 2 ^ (k - t) * 2 ^ (d - (k - t)) := by rw [← Nat.pow_add]; congr 1; omega
      have hq0 : 0 < 2 ^ (d - (k - t)) := by positivity
      have hdm := Nat.div_add_mod j (2 ^ (d - (k - t)))
      have hml := Nat.mod_lt j hq0
      have hdl : j / 2 ^ (d - (k - t)) < 2 ^ (k - t) := by
        rw [Nat.div_lt_iff_lt_mul hq0, ← hdd]; exact hj
      refine g1 (j / 2 ^ (d - (k - t))) ?_ i ⟨k - d, by omega, ?_⟩
      · rw [(o.one_perm _).mem_iff, List.mem_range]; exact hdl
      · rw [show k - (k - d) = d by omega, hm]
        generalize 2 ^ (d - (k - t)) = Q at *
        have : j / Q * Q = Q * (j / Q) := Nat.mul_comm _ _
        omega
    obtain ⟨s2, e2, x2, g2⟩ := buildTree_good (h := h) (dflt := dflt) (k := k) (leaves := leaves)
      (k - t) (d := k - t) (b := 0) (c := 0) (fuel := 65) (lo := 2 ^ (k - t) - 1)
      (hi := 2 ^ (k - t + 1) - 1) (s := s1) le_rfl (by omega) (by omega) (by positivity)
      (by omega) (by omega) (by omega) (by omega) (by omega) (by rw [x1.1]; exact hl)
      (fun i h1 h2 => g1' i (by omega) (by
        have := Nat.pow_le_pow_right (n := 2) (by omega) (show k - t ≤ k by omega); omega))
    refine ⟨s2, e2, x2.1.trans x1.1, fun i hi => ?_⟩
    by_cases hi2 : i + 1 < 2 * 2 ^ (k - t)
    · refine key (k - t) s2 (by omega) (fun e he i h1 h2 => g2 e he i ?_ ?_) i hi2
      · rw [Nat.zero_mul]; omega
      · rw [Nat.zero_mul]; omega
    · exact x2.2 i (g1' i (by omega) hi)
  · rw [if_neg hc]
    obtain ⟨s2, e2, x2, g2⟩ := buildTree_good (h := h) (dflt := dflt) (k := k) (leaves := leaves)
      k (d := k) (b := 0) (c := 0) (fuel := 65) (lo := leaves.length - 1)
      (hi := leaves.length * 2 - 1) (s := s) le_rfl (by omega) (by omega) (by positivity)
      (by omega) (by omega) (by omega) (by omega) (by omega) hl
      (fun i h1 h2 => hg i (by omega) (by omega))
    refine ⟨s2, e2, x2.1, key k s2 le_rfl (fun e he i h1 h2 => g2 e he i ?_ ?_)⟩
    · rw [Nat.zero_mul]; omega
    · rw [Nat.zero_mul]; omega

theorem pathsGo_good {s : List H} (hs : ∀ i, i + 1 < 2 * 2 ^ k → Good h dflt k leaves s i) :
    ∀ (d : ℕ) {fuel j : ℕ}, d ≤ k → j < 2 ^ d → d ≤ fuel →
    ∃ p, pathsGo s fuel (2 ^ d - 1 + j) = some p ∧ p.map Prod.fst = (List.range d).map j.testBit ∧
      foldPath h (val h dflt k leaves d j) p = val h dflt k leaves 0 0
  | 0, fuel, j, _, hj, _ => by
    obtain rfl : j = 0 := by simpa using hj
    refine ⟨[], ?_, rfl, rfl⟩
    cases fuel <;> simp [pathsGo]
  | d + 1, fuel + 1, j, hd, hj, hf => by
    have hp : 2 ^ (d + 1) = 2 * 2 ^ d := by ring
    have hd0 : 0 < 2 ^ d := by positivity
    have hdk : 2 ^ (d + 1) ≤ 2 ^ k := Nat.pow_le_pow_right (by omega) hd
    obtain ⟨p, e, b, f⟩ := pathsGo_good hs d (fuel := fuel) (j := j / 2) (by omega) (by omega) (by omega)
    have hidx : (2 ^ (d + 1) - 1 + j - 1) / 2 = 2 ^ d - 1 + j / 2 := by omega
    have htb : ∀ i, j.testBit (i + 1) = (j / 2).testBit i := fun i => Nat.testBit_add_one j i
    have hbits : (List.range (d + 1)).map j.testBit = decide (j % 2 = 1) :: (List.range d).map (j / 2).testBit := by
      rw [List.range_succ_eq_map, List.map_cons, List.map_map]
      congr 1
      · rw [Nat.testBit_zero]
      · exact List.map_congr_left fun i _ => htb i
    have hpar := val_parent h dflt (show d < k by omega) leaves (j / 2)
    unfold pathsGo
    rw [if_pos (by omega), hidx, e, hbits]
    rcases Nat.mod_two_eq_zero_or_one j with h0 | h1
    · have hj2 : 2 * (j / 2) = j := by omega
      rw [if_neg (by omega), hs _ (by omega),
        nv_eq h dflt k leaves (d := d + 1) (j := j + 1) (by omega) (by omega)]
      refine ⟨_, rfl, ?_, ?_⟩
      · rw [List.map_cons, b]
        congr 1
        rw [decide_eq_decide]; omega
      · unfold foldPath at f ⊢
        rw [List.foldl_cons]
        dsimp only
        rw [if_neg (by simp only [decide_eq_true_eq]; omega), ← f, hpar, hj2]
    · have hj2 : 2 * (j / 2) + 1 = j := by omega
      have hj3 : 2 * (j / 2) = j - 1 := by omega
      rw [if_pos (by omega), hs _ (by omega),
        nv_eq h dflt k leaves (d := d + 1) (j := j - 1) (by omega) (by omega)]
      refine ⟨_, rfl, ?_, ?_⟩
      · rw [List.map_cons, b]
        congr 1
        rw [decide_eq_decide]; omega
      · unfold foldPath at f ⊢
        rw [List.foldl_cons]
        dsimp only
        rw [if_pos (by simp only [decide_eq_true_eq]; omega), ← f, hpar, hj2, hj3]

theorem val_zero (hn : leaves.length = 2 ^ k) :
    val h dflt k leaves 0 0 = Spec.root h.leaf h.parent dflt k leaves := by
  unfold val
  rw [Nat.sub_zero, Nat.zero_mul, List.drop_zero, ← hn, List.take_length]

theorem foldPath_collision {x y : H} : ∀ {p q : List (Path H)}, p.map Prod.fst = q.map Prod.fst →
    (x ≠ y ∨ p ≠ q) → foldPath h x p = foldPath h y q → Spec.Collision h.parent := by
  intro p
  induction p generalizing x y with
  | nil =>
    intro q hq hne he
    obtain rfl : q = [] := by simpa using hq.symm
    exact absurd he (by simpa [foldPath] using hne)
  | cons a p ih =>
    intro q hq hne he
    cases q with
    | nil => simp at hq
    | cons b q =>
      simp only [List.map_cons, List.cons.injEq] at hq
      obtain ⟨hab, hq⟩ := hq
      obtain ⟨a1, a2⟩ := a
      obtain ⟨b1, b2⟩ := b
      dsimp only at hab
      subst hab
      unfold foldPath at he
      rw [List.foldl_cons, List.foldl_cons] at he
      by_cases hrest : p = q
      · subst hrest
        by_cases hhd : x = y ∧ a2 = b2
        · obtain ⟨rfl, rfl⟩ := hhd
          simp at hne
        · by_cases heq : (if a1 = true then h.parent a2 x else h.parent x a2) =
            (if a1 = true then h.parent b2 y else h.parent y b2)
          · cases a1
            · exact ⟨x, a2, y, b2, by simpa using fun h1 h2 => hhd ⟨h1, h2⟩, heq⟩
            · exact ⟨a2, x, b2, y, by simpa using fun h1 h2 => hhd ⟨h2, h1⟩, heq⟩
          · exact ih rfl (.inl heq) he
      · exact ih hq (.inr hrest) he

end
end Tachyon.Merkle
