import Verif.Spec.MSM
import Verif.Spec.Digits
import Verif.Proofs.ExtractBits
import Verif.Proofs.BigInt
import Verif.Proofs.Parallel
import Mathlib.Algebra.BigOperators.Group.List.Basic
import Mathlib.Algebra.Module.Basic
import Mathlib.Tactic.Linarith
import Mathlib.Tactic.Ring
import Mathlib.Tactic.Abel
/-! Lemmas for the multi-scalar multiplications. -/
namespace Tachyon.MSM
open Tachyon.BigInt Tachyon.Parallel

variable {α β M γ : Type*}

/-! ### Sequencing -/

theorem sequence_rel {P : γ → β → Prop} {f : γ → Option β} :
    ∀ {xs : List γ}, (∀ x ∈ xs, ∃ y, f x = some y ∧ P x y) →
      ∃ ys, sequence (xs.map f) = some ys ∧ List.Forall₂ P xs ys
  | [], _ => ⟨[], rfl, .nil⟩
  | x :: xs, h => by
    obtain ⟨y, e, hp⟩ := h x (by simp)
    obtain ⟨ys, e', h'⟩ := sequence_rel (xs := xs) fun z hz => h z (by simp [hz])
    exact ⟨y :: ys, by simp [sequence, e, e'], .cons hp h'⟩

theorem sequence_eq {f : γ → Option β} {g : γ → β} {xs : List γ} (h : ∀ x ∈ xs, f x = some (g x)) :
    sequence (xs.map f) = some (xs.map g) := by
  induction xs with
  | nil => rfl
  | cons x xs ih =>
    simp [sequence, h x (by simp), ih fun z hz => h z (by simp [hz])]

theorem forall₂_mem_right {P : γ → β → Prop} {xs : List γ} {ys : List β} (h : List.Forall₂ P xs ys)
    {y : β} (hy : y ∈ ys) : ∃ x ∈ xs, P x y := by
  induction h with
  | nil => simp at hy
  | cons hxy _ ih =>
    rcases List.mem_cons.1 hy with rfl | hy
    · exact ⟨_, by simp, hxy⟩
    · obtain ⟨x, hx, hp⟩ := ih hy
      exact ⟨x, by simp [hx], hp⟩

/-! ### Digits -/

theorem int64?_eq {z : ℤ} (h : -2 ^ 63 ≤ z) (h' : z < 2 ^ 63) : int64? z = some z :=
  if_pos ⟨h, h'⟩

theorem digitsVal_append (b : ℤ) (xs : List ℤ) (y : ℤ) :
    digitsVal b (xs ++ [y]) = digitsVal b xs + b ^ xs.length * y := by
  induction xs with
  | nil => simp [digitsVal]
  | cons x xs ih => simp only [List.cons_append, digitsVal, ih, List.length_cons]; ring

theorem mod_pow_step (V off w n : ℕ) :
    V / 2 ^ off % 2 ^ (w * (n + 1)) =
      V / 2 ^ off % 2 ^ w + 2 ^ w * (V / 2 ^ (off + w) % 2 ^ (w * n)) := by
  rw [show w * (n + 1) = w + w * n by ring, pow_add, Nat.mod_mul, Nat.div_div_eq_div_mul, ← pow_add]

theorem fillDigitsGo_spec (a : Limbs 64) {w : ℕ} (hw : 0 < w) (hw' : w ≤ 62) :
    ∀ (n : ℕ) (carry : BitVec 64) (off : ℕ), carry.toNat ≤ 1 →
      (0 < n → off + w * (n - 1) < 64 * a.length) →
      ∃ ds c, fillDigitsGo a w n carry off = some (ds, c) ∧ ds.length = n ∧ c.toNat ≤ 1 ∧
        digitsVal (2 ^ w) ds + 2 ^ (w * n) * (c.toNat : ℤ) =
          carry.toNat + ((limbsVal a / 2 ^ off % 2 ^ (w * n) : ℕ) : ℤ) ∧
        (∀ d ∈ ds, -2 ^ (w - 1) ≤ d ∧ d < 2 ^ (w - 1)) ∧
        (∀ d ∈ ds.getLast?, 0 ≤ d + 2 ^ w * (c.toNat : ℤ) ∧ d + 2 ^ w * (c.toNat : ℤ) ≤ 2 ^ w)
  | 0, carry, off, hc, _ => by
    refine ⟨[], carry, rfl, rfl, hc, ?_, by simp, by simp⟩
    simp [digitsVal, Nat.mod_one]
  | n + 1, carry, off, hc, hb => by
    have hoff : off < 64 * a.length := by
      have := hb (by omega); simp only [Nat.add_sub_cancel] at this
      have := Nat.zero_le (w * n); omega
    obtain ⟨bits, e, hbits⟩ := extractBits_spec a off w (by omega) hoff
    have hp : (2 : ℕ) ^ w = 2 * 2 ^ (w - 1) := by
      rw [← pow_succ']; congr 1; omega
    have hle : (2 : ℕ) ^ w ≤ 2 ^ 62 := Nat.pow_le_pow_right (by omega) hw'
    have hpos : 0 < (2 : ℕ) ^ (w - 1) := Nat.two_pow_pos _
    have hbl : bits.toNat < 2 ^ w := by rw [hbits]; exact Nat.mod_lt _ (Nat.two_pow_pos _)
    have hcoeff : (carry + bits).toNat = carry.toNat + bits.toNat := by
      rw [BitVec.toNat_add]; exact Nat.mod_eq_of_lt (by omega)
    have hradix : (1#64 <<< w).toNat = 2 ^ w := by
      rw [BitVec.toNat_shiftLeft]; simp [Nat.one_shiftLeft]; omega
    have hhalf : (1#64 <<< w / 2#64).toNat = 2 ^ (w - 1) := by
      rw [BitVec.toNat_udiv, hradix]; simp; omega
    generalize hX : (2 : ℕ) ^ (w - 1) = X at hp hpos hhalf
    generalize hco : carry + bits = coeff at hcoeff
    have hcarry : ((coeff + 1#64 <<< w / 2#64) >>> w).toNat = (coeff.toNat + X) / 2 ^ w := by
      rw [BitVec.toNat_ushiftRight, Nat.shiftRight_eq_div_pow, BitVec.toNat_add, hhalf,
        Nat.mod_eq_of_lt (by omega)]
    generalize hc' : (coeff + 1#64 <<< w / 2#64) >>> w = c' at hcarry
    have hc1 : c'.toNat ≤ 1 := by
      rw [hcarry]
      have : (coeff.toNat + X) / 2 ^ w < 2 := by
        rw [Nat.div_lt_iff_lt_mul (Nat.two_pow_pos _)]; omega
      omega
    have hshift : (c' <<< w).toNat = c'.toNat * 2 ^ w := by
      rw [BitVec.toNat_shiftLeft, Nat.shiftLeft_eq]
      apply Nat.mod_eq_of_lt
      have : c'.toNat * 2 ^ w ≤ 1 * 2 ^ w := Nat.mul_le_mul_right _ hc1
      omega
    have hshiftI : (c' <<< w).toInt = (c'.toNat * 2 ^ w : ℕ) := by
      rw [BitVec.toInt_eq_toNat_of_lt, hshift]
      rw [hshift]
      have : c'.toNat * 2 ^ w ≤ 1 * 2 ^ w := Nat.mul_le_mul_right _ hc1
      omega
    have hcoI : coeff.toInt = coeff.toNat := BitVec.toInt_eq_toNat_of_lt (by omega)
    have hdiv := Nat.div_add_mod (coeff.toNat + X) (2 ^ w)
    have hmod := Nat.mod_lt (coeff.toNat + X) (Nat.two_pow_pos w)
    rw [← hcarry] at hdiv
    -- the digit
    have hd : -(X : ℤ) ≤ (coeff.toNat : ℤ) - (c'.toNat * 2 ^ w : ℕ) ∧
        (coeff.toNat : ℤ) - (c'.toNat * 2 ^ w : ℕ) < X := by
      rw [mul_comm] at hdiv
      generalize c'.toNat * 2 ^ w = t at *
      constructor <;> omega
    obtain ⟨ds, c, e1, e2, e3, e4, e5, e6⟩ := fillDigitsGo_spec a hw hw' n c' (off + w) hc1 (by
      intro hn
      have := hb (by omega)
      have h2 : w * (n + 1 - 1) = w * (n - 1) + w := by
        obtain ⟨m, rfl⟩ : ∃ m, n = m + 1 := ⟨n - 1, by omega⟩
        simp; ring
      omega)
    have hXi : (2 : ℤ) ^ (w - 1) = (X : ℤ) := by exact_mod_cast hX
    refine ⟨((coeff.toNat : ℤ) - (c'.toNat * 2 ^ w : ℕ)) :: ds, c, ?_, by simp [e2], e3, ?_, ?_, ?_⟩
    · simp only [fillDigitsGo, e, hco, hc', hshiftI, hcoI, e1]
      rw [int64?_eq (by omega) (by omega)]
    · rw [mod_pow_step, Nat.cast_add, Nat.cast_mul, ← hbits]
      have e4' : digitsVal (2 ^ w) ds = c'.toNat + ((limbsVal a / 2 ^ (off + w) % 2 ^ (w * n) : ℕ) : ℤ) -
          2 ^ (w * n) * (c.toNat : ℤ) := by linarith
      simp only [digitsVal, e4', hcoeff]
      push_cast
      rw [show w * (n + 1) = w + w * n by ring, pow_add]
      ring
    · intro d hd'
      rcases List.mem_cons.1 hd' with rfl | h
      · rw [hXi]; exact hd
      · exact e5 d h
    · cases n with
      | zero =>
        obtain rfl : ds = [] := List.length_eq_zero_iff.1 e2
        have : c = c' := by
          have := e1; simp only [fillDigitsGo, Option.some.injEq, Prod.mk.injEq, true_and] at this
          exact this.symm
        subst this
        intro d hd'
        simp only [List.getLast?_singleton, Option.mem_def, Option.some.injEq] at hd'
        subst hd'
        have : ((c.toNat * 2 ^ w : ℕ) : ℤ) = 2 ^ w * (c.toNat : ℤ) := by push_cast; ring
        rw [this]
        have h2 : (2 : ℤ) ^ w = ((2 ^ w : ℕ) : ℤ) := by push_cast; rfl
        constructor
        · have : (0 : ℤ) ≤ (coeff.toNat : ℤ) := by positivity
          linarith
        · have : (coeff.toNat : ℤ) ≤ ((2 ^ w : ℕ) : ℤ) := by exact_mod_cast (by omega)
          rw [h2]; linarith
      | succ n =>
        intro d hd'
        apply e6 d
        obtain ⟨y, ys, rfl⟩ : ∃ y ys, ds = y :: ys := by
          cases ds with
          | nil => simp at e2
          | cons y ys => exact ⟨y, ys, rfl⟩
        rw [List.getLast?_cons_cons] at hd'
        exact hd'

theorem fillDigits_spec (a : Limbs 64) {w n : ℕ} (hw : 0 < w) (hw' : w ≤ 62) (hn : 0 < n)
    (hb : w * (n - 1) < 64 * a.length) :
    ∃ ds, fillDigits a w n = some ds ∧ ds.length = n ∧
      digitsVal (2 ^ w) ds = ((limbsVal a % 2 ^ (w * n) : ℕ) : ℤ) ∧
      (∀ (i : ℕ) (d : ℤ), ds[i]? = some d → i + 1 < n → -2 ^ (w - 1) ≤ d ∧ d < 2 ^ (w - 1)) ∧
      (∀ d, ds[n - 1]? = some d → 0 ≤ d ∧ d ≤ 2 ^ w) := by
  obtain ⟨ds, c, e1, e2, e3, e4, e5, e6⟩ := fillDigitsGo_spec a hw hw' n 0#64 0 (by simp)
    (fun _ => by omega)
  obtain ⟨ds', d, rfl⟩ : ∃ ds' d, ds = ds' ++ [d] := by
    rcases List.eq_nil_or_concat ds with rfl | ⟨l, d, rfl⟩
    · simp at e2; omega
    · exact ⟨l, d, by simp⟩
  have hl : ds'.length = n - 1 := by simp at e2; omega
  have h6 := e6 d (by simp)
  have hlew : (2 : ℕ) ^ w ≤ 2 ^ 62 := Nat.pow_le_pow_right (by omega) hw'
  have hshift : (c <<< w).toNat = c.toNat * 2 ^ w := by
    rw [BitVec.toNat_shiftLeft, Nat.shiftLeft_eq]
    apply Nat.mod_eq_of_lt
    have : c.toNat * 2 ^ w ≤ 1 * 2 ^ w := Nat.mul_le_mul_right _ e3
    omega
  have hshiftI : (c <<< w).toInt = 2 ^ w * (c.toNat : ℤ) := by
    rw [BitVec.toInt_eq_toNat_of_lt, hshift]
    · push_cast; ring
    · rw [hshift]
      have : c.toNat * 2 ^ w ≤ 1 * 2 ^ w := Nat.mul_le_mul_right _ e3
      omega
  have h2 : (2 : ℤ) ^ w = ((2 ^ w : ℕ) : ℤ) := by push_cast; rfl
  refine ⟨ds' ++ [d + 2 ^ w * (c.toNat : ℤ)], ?_, by simp; omega, ?_, ?_, ?_⟩
  · simp only [fillDigits, if_neg (show ¬ 64 ≤ w by omega), e1, List.getLast?_concat, hshiftI]
    rw [int64?_eq (by linarith [h6.1]) (by
      have : (2 : ℤ) ^ w ≤ 2 ^ 62 := by rw [h2]; exact_mod_cast hlew
      linarith [h6.2])]
    simp
  · rw [digitsVal_append] at e4 ⊢
    simp only [BitVec.toNat_ofNat, Nat.zero_mod, Nat.cast_zero, zero_add, pow_zero, Nat.div_one] at e4
    rw [← e4, hl]
    have : (2 : ℤ) ^ (w * n) = (2 ^ w) ^ (n - 1) * 2 ^ w := by
      rw [← pow_succ, ← pow_mul]; congr 2; omega
    rw [this]; ring
  · intro i x hx hi
    rw [List.getElem?_append_left (by omega)] at hx
    exact e5 x (by simp [List.mem_of_getElem? hx])
  · intro x hx
    rw [List.getElem?_append_right (by omega), hl] at hx
    simp only [Nat.sub_self, List.getElem?_cons_zero, Option.some.injEq] at hx
    subst hx
    exact h6

/-! ### Buckets -/

variable [AddCommGroup M]

/-- `Σ_i (k + i + 1) y_i`. -/
def weight : ℕ → List M → M
  | _, [] => 0
  | k, y :: ys => (k + 1) • y + weight (k + 1) ys

theorem weight_succ (ys : List M) : ∀ k, weight (k + 1) ys = weight k ys + ys.sum := by
  induction ys with
  | nil => simp [weight]
  | cons y ys ih =>
    intro k
    simp only [weight, List.sum_cons, ih (k + 1), succ_nsmul]
    abel

theorem weight_replicate (n : ℕ) : ∀ k, weight k (List.replicate n (0 : M)) = 0 := by
  induction n with
  | zero => simp [weight]
  | succ n ih => intro k; simp [weight, List.replicate_succ, ih]

theorem weight_set (d : M) : ∀ (ys : List M) (k i : ℕ) (y : M), ys[i]? = some y →
    weight k (ys.set i (y + d)) = weight k ys + (k + i + 1) • d
  | [], _, _, _, h => by simp at h
  | z :: ys, k, 0, y, h => by
    simp only [List.getElem?_cons_zero, Option.some.injEq] at h
    subst h
    simp only [List.set_cons_zero, weight, smul_add, Nat.add_zero]; abel
  | z :: ys, k, i + 1, y, h => by
    rw [List.getElem?_cons_succ] at h
    simp only [List.set_cons_succ, weight, weight_set d ys (k + 1) i y h]
    rw [show k + 1 + i + 1 = k + (i + 1) + 1 by omega]; abel

variable {o : Ops β α} {S : β → M → Prop} {R : α → M → Prop}

theorem accumulateBuckets_rel (h : o.Implements S R) {bs : List β} {ys : List M}
    (hb : List.Forall₂ S bs ys) {b : β} {z : M} (hz : S b z) :
    S (accumulateBuckets o bs b) (z + weight 0 ys) := by
  have key : S (bs.foldr (fun bucket s => (o.add s.1 bucket, o.add s.2 (o.add s.1 bucket))) (o.zero, b)).1
      ys.sum ∧ S (bs.foldr (fun bucket s => (o.add s.1 bucket, o.add s.2 (o.add s.1 bucket))) (o.zero, b)).2
      (z + weight 0 ys) := by
    induction hb with
    | nil => simpa [weight] using ⟨h.zero, hz⟩
    | @cons x y bs ys hxy hrest ih =>
      obtain ⟨i1, i2⟩ := ih
      simp only [List.foldr_cons, List.sum_cons]
      have s1 := h.add i1 hxy
      have s2 := h.add i2 s1
      rw [show ys.sum + y = y + ys.sum by abel] at s1
      refine ⟨s1, ?_⟩
      have : z + weight 0 (y :: ys) = z + weight 0 ys + (ys.sum + y) := by
        simp only [weight, weight_succ, Nat.zero_add, one_smul]; abel
      rw [this]; exact s2
  rw [accumulateBuckets, List.foldl_reverse]
  exact key.2

/-- Buckets with total weight `v`. -/
def Buckets (S : β → M → Prop) (bs : List β) (v : M) : Prop :=
  ∃ ys, List.Forall₂ S bs ys ∧ weight 0 ys = v

theorem Buckets.replicate (h : o.Implements S R) (n : ℕ) : Buckets S (List.replicate n o.zero) (0 : M) :=
  ⟨List.replicate n 0, by
    induction n with
    | zero => exact .nil
    | succ n ih => exact .cons h.zero ih, weight_replicate n 0⟩

theorem Buckets.set {bs : List β} {v : M} (h : Buckets S bs v) {i : ℕ} (hi : i < bs.length) :
    ∃ b y, bs[i]? = some b ∧ S b y ∧
      ∀ b' d, S b' (y + d) → Buckets S (bs.set i b') (v + (i + 1) • d) := by
  obtain ⟨ys, hf, rfl⟩ := h
  have hl := hf.length_eq
  refine ⟨bs[i], ys[i], by simp [hi], List.Forall₂.get hf hi (by omega), fun b' d hb' => ?_⟩
  refine ⟨ys.set i (ys[i] + d), ?_, ?_⟩
  · rw [List.forall₂_iff_get]
    refine ⟨by simp [hl], fun j h1 h2 => ?_⟩
    simp only [List.get_eq_getElem, List.getElem_set]
    split
    · exact hb'
    · exact List.Forall₂.get hf (by simpa using h1) (by simpa using h2)
  · rw [weight_set d ys 0 i ys[i] (by simp)]; simp

theorem nafBuckets_rel (h : o.Implements S R) (i : ℕ) {bases : List α} {xs : List M}
    (hb : List.Forall₂ R bases xs) : ∀ (digits : List (List ℤ)) (bs : List β) (v : M),
    digits.length = bases.length → Buckets S bs v →
    (∀ ds ∈ digits, ∃ d, ds[i]? = some d ∧ -(bs.length : ℤ) ≤ d ∧ d ≤ bs.length) →
    ∃ bs', nafBuckets o i bases digits bs = some bs' ∧
      Buckets S bs' (v + (List.zipWith (fun ds x => (ds.getD i 0) • x) digits xs).sum) := by
  induction hb with
  | nil =>
    intro digits bs v hl hbs _
    obtain rfl : digits = [] := List.length_eq_zero_iff.1 (by simpa using hl)
    exact ⟨bs, by simp [nafBuckets], by simpa using hbs⟩
  | @cons p x bases xs hpx _ ih =>
    intro digits bs v hl hbs hd
    obtain ⟨ds, rest, rfl⟩ : ∃ ds rest, digits = ds :: rest := by
      cases digits with
      | nil => simp at hl
      | cons a b => exact ⟨a, b, rfl⟩
    obtain ⟨d, e, h1, h2⟩ := hd ds (by simp)
    have hl' : rest.length = bases.length := by simpa using hl
    have hgd : ds.getD i 0 = d := by simp [List.getD_eq_getElem?_getD, e]
    simp only [nafBuckets, e, List.zipWith_cons_cons, List.sum_cons, hgd]
    by_cases hp : 0 < d
    · rw [if_pos hp]
      obtain ⟨b, y, eb, hby, hset⟩ := hbs.set (i := (d - 1).toNat) (by omega)
      simp only [eb]
      obtain ⟨bs', e', hr⟩ := ih rest (bs.set (d - 1).toNat (o.addBase b p)) _ hl'
        (hset _ x (h.addBase hby hpx)) (fun ds' hds' => by
          simpa using hd ds' (by simp [hds']))
      refine ⟨bs', e', ?_⟩
      have : ((d - 1).toNat + 1) • x = d • x := by
        rw [← natCast_zsmul]; congr 1; push_cast; omega
      rw [this, add_assoc] at hr
      exact hr
    · rw [if_neg hp]
      by_cases hn : d < 0
      · rw [if_pos hn]
        obtain ⟨b, y, eb, hby, hset⟩ := hbs.set (i := (-d - 1).toNat) (by omega)
        simp only [eb]
        obtain ⟨bs', e', hr⟩ := ih rest (bs.set (-d - 1).toNat (o.subBase b p)) _ hl'
          (hset _ (-x) (by rw [← sub_eq_add_neg]; exact h.subBase hby hpx)) (fun ds' hds' => by
            simpa using hd ds' (by simp [hds']))
        refine ⟨bs', e', ?_⟩
        have : ((-d - 1).toNat + 1) • (-x) = d • x := by
          rw [← natCast_zsmul, smul_neg, ← neg_smul]; congr 1; push_cast; omega
        rw [this, add_assoc] at hr
        exact hr
      · rw [if_neg hn]
        obtain rfl : d = 0 := by omega
        rw [zero_smul, zero_add]
        exact ih rest bs v hl' hbs fun ds' hds' => hd ds' (by simp [hds'])

theorem plainBuckets_rel (h : o.Implements S R) {w : ℕ} (hw : w < 64) (off : ℕ) {bases : List α}
    {xs : List M} (hb : List.Forall₂ R bases xs) : ∀ (scalars : List (Limbs 64)) (bs : List β) (v : M)
      (b : β) (z : M),
    scalars.length = bases.length → Buckets S bs v → S b z → bs.length = 2 ^ w - 1 →
    (∀ s ∈ scalars, off < 64 * s.length) → (off = 0 ∨ w ≤ off) → 0 < w →
    ∃ bs' b' v' z', plainBuckets o w off bases scalars bs b = some (bs', b') ∧
      Buckets S bs' v' ∧ S b' z' ∧ z' + v' =
      z + v + (List.zipWith (fun s x => (limbsVal s / 2 ^ off % 2 ^ w) • x) scalars xs).sum := by
  induction hb with
  | nil =>
    intro scalars bs v b z hl hbs hz _ _ _ _
    obtain rfl : scalars = [] := List.length_eq_zero_iff.1 (by simpa using hl)
    exact ⟨bs, b, v, z, by simp [plainBuckets], hbs, hz, by simp⟩
  | @cons p x bases xs hpx _ ih =>
    intro scalars bs v b z hl hbs hz hlen hs hoff hw0
    obtain ⟨s, rest, rfl⟩ : ∃ ds rest, scalars = ds :: rest := by
      cases scalars with
      | nil => simp at hl
      | cons a b => exact ⟨a, b, rfl⟩
    have hl' : rest.length = bases.length := by simpa using hl
    have hs' : ∀ s ∈ rest, off < 64 * s.length := fun t ht => hs t (by simp [ht])
    have h1w : 1 < 2 ^ w := Nat.one_lt_two_pow (by omega)
    simp only [plainBuckets, List.zipWith_cons_cons, List.sum_cons]
    by_cases h0 : isZero s = true
    · rw [if_pos h0]
      have : limbsVal s = 0 := by simpa [isZero_spec] using h0
      simpa [this] using ih rest bs v b z hl' hbs hz hlen hs' hoff hw0
    rw [if_neg h0]
    by_cases h1 : isOne s = true
    · rw [if_pos h1]
      have hv : limbsVal s = 1 := by simpa [isOne_spec] using h1
      rw [hv]
      rcases hoff with rfl | hoff
      · rw [if_pos rfl]
        obtain ⟨bs', b', v', z', e, r1, r2, r3⟩ := ih rest bs v (o.addBase b p) (z + x) hl' hbs
          (h.addBase hz hpx) hlen hs' (Or.inl rfl) hw0
        refine ⟨bs', b', v', z', e, r1, r2, ?_⟩
        rw [r3, pow_zero, Nat.div_one, Nat.mod_eq_of_lt h1w, one_smul]; abel
      · rw [if_neg (by omega)]
        obtain ⟨bs', b', v', z', e, r1, r2, r3⟩ := ih rest bs v b z hl' hbs hz hlen hs' (Or.inr hoff) hw0
        refine ⟨bs', b', v', z', e, r1, r2, ?_⟩
        rw [r3, Nat.div_eq_of_lt (Nat.one_lt_two_pow (by omega)), Nat.zero_mod, zero_smul, zero_add]
    rw [if_neg h1]
    obtain ⟨d1, d2⟩ := divBy2Exp_spec (by omega) s off
    obtain ⟨limb, ls, el⟩ : ∃ limb ls, divBy2Exp s off = limb :: ls := by
      cases hd : divBy2Exp s off with
      | nil => rw [hd] at d2; have := hs s (by simp); simp at d2; omega
      | cons a b => exact ⟨a, b, rfl⟩
    have hidx : (limb % 1#64 <<< w).toNat = limbsVal s / 2 ^ off % 2 ^ w := by
      rw [← d1, el, limbsVal, BitVec.toNat_umod]
      have hradix : (1#64 <<< w).toNat = 2 ^ w := by
        rw [BitVec.toNat_shiftLeft, show (1#64).toNat = 1 from rfl, Nat.one_shiftLeft]
        exact Nat.mod_eq_of_lt (Nat.pow_lt_pow_right (by omega) hw)
      rw [hradix, Nat.add_mod, Nat.mul_mod, Nat.mod_eq_zero_of_dvd (Nat.pow_dvd_pow 2 (by omega : w ≤ 64))]
      simp
    simp only [el, List.getElem?_cons_zero, hidx]
    generalize hk : limbsVal s / 2 ^ off % 2 ^ w = k
    have hkl : k < 2 ^ w := by rw [← hk]; exact Nat.mod_lt _ (Nat.two_pow_pos _)
    by_cases hk0 : k = 0
    · rw [if_neg (by simp [hk0]), hk0, zero_smul, zero_add]
      exact ih rest bs v b z hl' hbs hz hlen hs' hoff hw0
    · rw [if_pos hk0]
      obtain ⟨c, y, eb, hby, hset⟩ := hbs.set (i := k - 1) (by omega)
      simp only [eb]
      obtain ⟨bs', b', v', z', e, r1, r2, r3⟩ := ih rest (bs.set (k - 1) (o.addBase c p)) _ b z hl'
        (hset _ x (h.addBase hby hpx)) hz (by simpa using hlen) hs' hoff hw0
      refine ⟨bs', b', v', z', e, r1, r2, ?_⟩
      rw [r3, show k - 1 + 1 = k by omega]; abel

/-! ### Windows -/

/-- `Σ_i 2^(w i) y_i`. -/
def horner (w : ℕ) : List M → M
  | [] => 0
  | y :: ys => y + 2 ^ w • horner w ys

theorem doubleTimes_rel (h : o.Implements S R) : ∀ (n : ℕ) {b : β} {x : M}, S b x →
    S (doubleTimes o n b) (2 ^ n • x)
  | 0, b, x, hb => by simpa [doubleTimes] using hb
  | n + 1, b, x, hb => by
    have := doubleTimes_rel h n (h.double hb)
    rw [← two_smul ℕ x, smul_smul, ← pow_succ] at this
    exact this

theorem accumulateWindowSums_rel (h : o.Implements S R) (w : ℕ) {bs : List β} {ys : List M}
    (hb : List.Forall₂ S bs ys) (hne : bs ≠ []) :
    ∃ r, accumulateWindowSums o w bs = some r ∧ S r (horner w ys) := by
  cases hb with
  | nil => exact absurd rfl hne
  | @cons b y bs ys hby hrest =>
    refine ⟨_, rfl, h.add hby ?_⟩
    rw [List.foldl_reverse]
    clear hne hby
    induction hrest with
    | nil => simpa [horner] using h.zero
    | @cons b y bs ys hby _ ih =>
      have := doubleTimes_rel h w (h.add ih hby)
      rw [add_comm] at this
      exact this

theorem horner_add (w : ℕ) {ι : Type*} (l : List ι) (f g : ι → M) :
    horner w (l.map fun i => f i + g i) = horner w (l.map f) + horner w (l.map g) := by
  induction l with
  | nil => simp [horner]
  | cons i l ih => simp only [List.map_cons, horner, ih, smul_add]; abel

theorem horner_smul (w : ℕ) (l : List ℤ) (x : M) :
    horner w (l.map fun d => d • x) = digitsVal (2 ^ w) l • x := by
  induction l with
  | nil => simp [horner, digitsVal]
  | cons d l ih =>
    simp only [List.map_cons, horner, ih, digitsVal, add_smul, mul_smul]
    congr 1
    rw [← natCast_zsmul]; push_cast; rfl

theorem horner_zero (w n : ℕ) : horner w (List.replicate n (0 : M)) = 0 := by
  induction n with
  | zero => rfl
  | succ n ih => simp [horner, List.replicate_succ, ih]

/-- Summing by windows is summing by terms. -/
theorem horner_sum (w n : ℕ) {γ : Type*} (f : γ → ℕ → ℤ) (ss : List γ) : ∀ (xs : List M),
    horner w ((List.range n).map fun i => (List.zipWith (fun s x => f s i • x) ss xs).sum) =
      (List.zipWith (fun s x => digitsVal (2 ^ w) ((List.range n).map (f s)) • x) ss xs).sum := by
  induction ss with
  | nil => intro xs; simp [horner_zero]
  | cons s ss ih =>
    intro xs
    cases xs with
    | nil => simp [horner_zero]
    | cons x xs =>
      simp only [List.zipWith_cons_cons, List.sum_cons]
      rw [horner_add, ih xs, ← horner_smul, List.map_map]
      rfl

theorem range_map_getD (ds : List ℤ) : (List.range ds.length).map (fun i => ds.getD i 0) = ds := by
  refine List.ext_getElem (by simp) fun i h1 h2 => ?_
  simp [List.getD_eq_getElem?_getD, h2]

theorem digitsVal_range (V w : ℕ) : ∀ n off,
    digitsVal (2 ^ w) ((List.range n).map fun i => ((V / 2 ^ (off + w * i) % 2 ^ w : ℕ) : ℤ)) =
      ((V / 2 ^ off % 2 ^ (w * n) : ℕ) : ℤ)
  | 0, off => by simp [digitsVal, Nat.mod_one]
  | n + 1, off => by
    have ih := digitsVal_range V w n (off + w)
    rw [List.range_succ_eq_map, List.map_cons, List.map_map, digitsVal, mod_pow_step, Nat.cast_add,
      Nat.cast_mul, ← ih, Nat.mul_zero, Nat.add_zero]
    congr 1
    have : (List.range n).map ((fun i => ((V / 2 ^ (off + w * i) % 2 ^ w : ℕ) : ℤ)) ∘ Nat.succ) =
        (List.range n).map fun i => ((V / 2 ^ (off + w + w * i) % 2 ^ w : ℕ) : ℤ) := by
      apply List.map_congr_left
      intro i _
      simp only [Function.comp, Nat.succ_eq_add_one]
      rw [show off + w * (i + 1) = off + w + w * i by ring]
    rw [this]; push_cast; rfl

theorem zipWith_congr_left {γ δ ε : Type*} {f g : γ → δ → ε} : ∀ {ss : List γ} {xs : List δ},
    (∀ s ∈ ss, ∀ x, f s x = g s x) → List.zipWith f ss xs = List.zipWith g ss xs
  | [], _, _ => by simp
  | s :: ss, [], _ => by simp
  | s :: ss, x :: xs, h => by
    simp only [List.zipWith_cons_cons, h s (by simp)]
    rw [zipWith_congr_left fun s hs => h s (by simp [hs])]

/-- The value a multi-scalar multiplication has to return. -/
def msmSum (scalars : List (Limbs 64)) (xs : List M) : M :=
  (List.zipWith (fun s x => limbsVal s • x) scalars xs).sum

theorem windowsCount_bounds {b w : ℕ} (hw : 0 < w) (hb : 0 < b) :
    0 < windowsCount b w ∧ w * (windowsCount b w - 1) < b ∧ b ≤ w * windowsCount b w := by
  obtain ⟨h1, h2⟩ := ceilDiv_bounds (a := b) (b := w) (n := windowsCount b w) hw rfl
  have hpos : 0 < windowsCount b w := by
    rcases Nat.eq_zero_or_pos (windowsCount b w) with h | h
    · rw [h] at h1; simp at h1; omega
    · exact h
  refine ⟨hpos, ?_, ?_⟩
  · have := Nat.div_mul_le_self (b + w - 1) w
    change windowsCount b w * w ≤ _ at this
    obtain ⟨m, hm⟩ : ∃ m, windowsCount b w = m + 1 := ⟨_, (Nat.succ_pred_eq_of_pos hpos).symm⟩
    rw [hm] at this ⊢
    simp only [Nat.add_sub_cancel]
    have e : (m + 1) * w = w * m + w := by ring
    omega
  · rw [mul_comm]; exact h1

section
variable (h : o.Implements S R) {w modulusBits : ℕ} (hw : 0 < w) (hw' : w ≤ 62) (hm : 0 < modulusBits)
  {bases : List α} {xs : List M} (hb : List.Forall₂ R bases xs) {scalars : List (Limbs 64)}
  (hl : bases.length = scalars.length)
  (hs : ∀ s ∈ scalars, limbsVal s < 2 ^ modulusBits ∧ modulusBits ≤ 64 * s.length)
include h hw hw' hm hb hl hs

theorem naf_rel : ∃ sums r, windowNAFSums o w (windowsCount modulusBits w) bases scalars = some sums ∧
    accumulateWindowSums o w sums = some r ∧ S r (msmSum scalars xs) := by
  obtain ⟨n1, n2, n3⟩ := windowsCount_bounds hw hm
  generalize windowsCount modulusBits w = n at n1 n2 n3
  have hfd : ∀ s ∈ scalars, ∃ ds, fillDigits s w n = some ds ∧ (ds.length = n ∧
      digitsVal (2 ^ w) ds = limbsVal s ∧
      (∀ (i : ℕ) (d : ℤ), ds[i]? = some d → i + 1 < n → -2 ^ (w - 1) ≤ d ∧ d < 2 ^ (w - 1)) ∧
      (∀ d, ds[n - 1]? = some d → 0 ≤ d ∧ d ≤ 2 ^ w)) := by
    intro s hsm
    obtain ⟨hv, hml⟩ := hs s hsm
    obtain ⟨ds, e1, e2, e3, e4, e5⟩ := fillDigits_spec s hw hw' n1 (by omega)
    refine ⟨ds, e1, e2, ?_, e4, e5⟩
    rw [e3, Nat.mod_eq_of_lt (lt_of_lt_of_le hv (Nat.pow_le_pow_right (by omega) n3))]
  obtain ⟨digits, ed, hd⟩ := sequence_rel hfd
  have hdl : digits.length = bases.length := by rw [hl]; exact hd.length_eq.symm
  have hdm : ∀ ds ∈ digits, ds.length = n ∧
      (∀ (i : ℕ) (d : ℤ), ds[i]? = some d → i + 1 < n → -2 ^ (w - 1) ≤ d ∧ d < 2 ^ (w - 1)) ∧
      (∀ d, ds[n - 1]? = some d → 0 ≤ d ∧ d ≤ 2 ^ w) := by
    intro ds hds
    obtain ⟨s, -, hsd⟩ := forall₂_mem_right hd hds
    exact ⟨hsd.1, hsd.2.2⟩
  have hwin : ∀ i ∈ List.range n, ∃ b, singleWindowNAFSum o w bases digits i (i == n - 1) = some b ∧
      S b (List.zipWith (fun ds x => (ds.getD i 0) • x) digits xs).sum := by
    intro i hi
    rw [List.mem_range] at hi
    generalize hsz : (if (i == n - 1) = true then 2 ^ w else 2 ^ (w - 1)) = sz
    obtain ⟨bs, e, hbs⟩ := nafBuckets_rel h i hb digits (List.replicate sz o.zero) 0 hdl
      (Buckets.replicate h sz) (by
        intro ds hds
        obtain ⟨l1, l2, l3⟩ := hdm ds hds
        refine ⟨ds[i], by simp [l1, hi], ?_⟩
        rw [List.length_replicate, ← hsz]
        by_cases hlast : i = n - 1
        · subst hlast
          have := l3 ds[n - 1] (by simp [l1, hi])
          simp only [beq_self_eq_true, if_true]
          push_cast
          constructor
          · linarith [this.1, pow_pos (two_pos : (0 : ℤ) < 2) w]
          · exact this.2
        · have := l2 i ds[i] (by simp [l1, hi]) (by omega)
          simp only [beq_iff_eq, hlast, if_false]
          push_cast
          exact ⟨this.1, this.2.le⟩)
    obtain ⟨ys, hys, hwt⟩ := hbs
    refine ⟨accumulateBuckets o bs o.zero, ?_, ?_⟩
    · simp only [singleWindowNAFSum, hsz, e]
    · have := accumulateBuckets_rel h hys h.zero
      rw [hwt, zero_add, zero_add] at this
      exact this
  obtain ⟨sums, es, hsums⟩ := sequence_rel hwin
  have hrel : List.Forall₂ S sums ((List.range n).map fun i =>
      (List.zipWith (fun ds x => (ds.getD i 0) • x) digits xs).sum) := by
    rw [List.forall₂_map_right_iff]
    exact hsums.flip
  obtain ⟨r, er, hr⟩ := accumulateWindowSums_rel h w hrel (by
    intro h0; rw [h0] at hsums; have := hsums.length_eq; simp at this; omega)
  refine ⟨sums, r, ?_, er, ?_⟩
  · simp only [windowNAFSums, ed, es]
  · rw [horner_sum w n (fun (ds : List ℤ) i => ds.getD i 0)] at hr
    have : (List.zipWith (fun (ds : List ℤ) (x : M) =>
        digitsVal (2 ^ w) ((List.range n).map fun i => ds.getD i 0) • x) digits xs).sum =
        msmSum scalars xs := by
      rw [msmSum]
      congr 1
      clear hr er es ed hdl hdm hwin hfd hs hl hrel hsums hb
      induction hd generalizing xs with
      | nil => simp
      | @cons s d ss dd hsd _ ih =>
        cases xs with
        | nil => simp
        | cons x xs =>
          simp only [List.zipWith_cons_cons]
          rw [ih]
          congr 1
          rw [← hsd.1, range_map_getD, hsd.2.1, natCast_zsmul]
    rw [this] at hr
    exact hr

theorem plain_rel : ∃ sums r, windowSums o w (windowsCount modulusBits w) bases scalars = some sums ∧
    accumulateWindowSums o w sums = some r ∧ S r (msmSum scalars xs) := by
  obtain ⟨n1, n2, n3⟩ := windowsCount_bounds hw hm
  generalize windowsCount modulusBits w = n at n1 n2 n3
  have hwin : ∀ i ∈ List.range n, ∃ b, singleWindowSum o w bases scalars (w * i) = some b ∧
      S b (List.zipWith (fun s x => ((limbsVal s / 2 ^ (w * i) % 2 ^ w : ℕ) : ℤ) • x) scalars xs).sum := by
    intro i hi
    rw [List.mem_range] at hi
    have hle : w * i ≤ w * (n - 1) := Nat.mul_le_mul_left _ (by omega)
    obtain ⟨bs, b, v, z, e, r1, r2, r3⟩ := plainBuckets_rel h (show w < 64 by omega) (w * i) hb scalars
      (List.replicate (2 ^ w - 1) o.zero) 0 o.zero 0 hl.symm (Buckets.replicate h _) h.zero (by simp)
      (fun s hsm => by have := (hs s hsm).2; omega)
      (by
        rcases Nat.eq_zero_or_pos i with rfl | hp
        · left; simp
        · right; exact Nat.le_mul_of_pos_right _ hp) hw
    obtain ⟨ys, hys, rfl⟩ := r1
    refine ⟨accumulateBuckets o bs b, ?_, ?_⟩
    · simp only [singleWindowSum, if_neg (show ¬ 64 ≤ w by omega), e]
    · have := accumulateBuckets_rel h hys r2
      rw [r3, zero_add, zero_add] at this
      simpa only [natCast_zsmul] using this
  obtain ⟨sums, es, hsums⟩ := sequence_rel hwin
  have hrel : List.Forall₂ S sums ((List.range n).map fun i =>
      (List.zipWith (fun s x => ((limbsVal s / 2 ^ (w * i) % 2 ^ w : ℕ) : ℤ) • x) scalars xs).sum) := by
    rw [List.forall₂_map_right_iff]
    exact hsums.flip
  obtain ⟨r, er, hr⟩ := accumulateWindowSums_rel h w hrel (by
    intro h0; rw [h0] at hsums; have := hsums.length_eq; simp at this; omega)
  refine ⟨sums, r, es, er, ?_⟩
  rw [horner_sum w n (fun (s : Limbs 64) i => ((limbsVal s / 2 ^ (w * i) % 2 ^ w : ℕ) : ℤ))] at hr
  have : (List.zipWith (fun (s : Limbs 64) (x : M) => digitsVal (2 ^ w) ((List.range n).map fun i =>
      ((limbsVal s / 2 ^ (w * i) % 2 ^ w : ℕ) : ℤ)) • x) scalars xs) =
      List.zipWith (fun s x => limbsVal s • x) scalars xs := by
    apply zipWith_congr_left
    intro s hsm x
    have := digitsVal_range (limbsVal s) w n 0
    simp only [Nat.zero_add, pow_zero, Nat.div_one] at this
    rw [this, natCast_zsmul,
      Nat.mod_eq_of_lt (lt_of_lt_of_le (hs s hsm).1 (Nat.pow_le_pow_right (by omega) n3))]
  rw [this] at hr
  exact hr

end

end Tachyon.MSM
