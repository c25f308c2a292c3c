import Verif.Proofs.PairingMiller
import Verif.Proofs.PairingExp
import Verif.Proofs.Divide
import Mathlib.GroupTheory.OrderOfElement
import Mathlib.FieldTheory.Finite.Basic
/-! The pairings: Miller loops of prepared points and the final exponentiation. -/
namespace Tachyon.Pairing
open WeierstrassCurve.Affine Tachyon.Parallel Tachyon.BigInt

variable {α β γ k K L : Type} [Field k] [DecidableEq k] [Field K] [DecidableEq K] [CommRing L] [Nontrivial L]
  {o : Ops α β γ}
  {R1 : α → k → Prop} {R2 : β → K → Prop} {R12 : γ → L → Prop} {ι : k →+* K} {j : K →+* L} {w : L}
  {ξ : K} {p : ℕ} {bE : k} {b : K}

section
variable (h : o.Implements R1 R2 R12 ι j w ξ p)
include h

omit [DecidableEq k] [DecidableEq K] [Nontrivial L] in
/-- The easy part of the final exponentiation removes every factor whose square lies in `K`. -/
theorem Removed.easy {c : Lˣ} (hc : Removed j (c : L)) : c ^ (((p : ℤ) ^ 6 - 1) * ((p : ℤ) ^ 2 + 1)) = 1 := by
  obtain ⟨a, ha, e⟩ := hc
  have h1 : (c ^ 2) ^ p ^ 2 = c ^ 2 := by
    apply Units.ext
    push_cast
    rw [e, ← map_pow, h.fixed2]
  have h2 : c ^ (2 * ((p : ℤ) ^ 2 - 1)) = 1 := by
    have e2 : ((p : ℤ) ^ 2) = ((p ^ 2 : ℕ) : ℤ) := by push_cast; rfl
    rw [zpow_mul, zpow_sub, zpow_one, e2, zpow_natCast]
    have : (c ^ (2 : ℤ)) = c ^ 2 := by norm_cast
    rw [this, h1, mul_inv_cancel]
  obtain ⟨m, hm⟩ : ∃ m : ℤ, (p : ℤ) = 2 * m + 1 := ⟨(p / 2 : ℕ), by have := h.odd; omega⟩
  have e3 : ((p : ℤ) ^ 6 - 1) * ((p : ℤ) ^ 2 + 1) =
      2 * ((p : ℤ) ^ 2 - 1) * (((p : ℤ) ^ 4 + (p : ℤ) ^ 2 + 1) * (2 * m ^ 2 + 2 * m + 1)) := by
    have : (p : ℤ) ^ 2 + 1 = 2 * (2 * m ^ 2 + 2 * m + 1) := by rw [hm]; ring
    rw [this]; ring
  rw [e3, zpow_mul, h2, one_zpow]

omit [DecidableEq k] [DecidableEq K] in
theorem Removed.unit {c : L} (hc : Removed j c) : IsUnit c := by
  obtain ⟨a, ha, e⟩ := hc
  refine h.unit12 c ?_
  rintro rfl
  rw [zero_pow (by norm_num)] at e
  exact ha ((map_eq_zero j).mp e.symm)

omit [DecidableEq k] [Nontrivial L] in
/-- A line is not zero at a point with `y ≠ 0`. -/
theorem line_unit {cfg : Config β} {u : L} (hu : if cfg.twistM then u * w = 1 else u = w) {x y : k} (hy : y ≠ 0)
    (T Q : (twist b).Pt) : IsUnit (line j u (j (ι x)) (j (ι y)) T Q) := by
  rcases T with _ | ⟨X, Y, hP⟩
  · exact isUnit_one
  rcases Q with _ | ⟨X₂, Y₂, hP₂⟩
  · exact isUnit_one
  refine h.unit12 _ fun e => hy ?_
  set m := (twist b).curve.slope X X₂ Y Y₂ with hm
  simp only [line, ← hm] at e
  cases hM : cfg.twistM with
  | true =>
    simp only [hM, if_true] at hu
    have := h.independent' (m * X - Y) (-m * ι x) (ι y) (by
      simp only [map_mul, map_neg, map_sub]
      have hu3 : u ^ 3 * w ^ 3 = 1 := by rw [← mul_pow, hu, one_pow]
      linear_combination w ^ 3 * e + (j Y - j m * j X) * hu3 + j m * j (ι x) * w ^ 2 * hu)
    exact (map_eq_zero ι).mp this.2.2
  | false =>
    simp only [hM, Bool.false_eq_true, if_false] at hu
    subst hu
    have := h.independent (ι y) (-m * ι x) (m * X - Y) (by
      simp only [map_mul, map_neg, map_sub]
      linear_combination e)
    exact (map_eq_zero ι).mp this.1

omit [DecidableEq k] [Nontrivial L] in
theorem miller_unit {cfg : Config β} {u : L} (hu : if cfg.twistM then u * w = 1 else u = w) {x y : k} (hy : y ≠ 0)
    (Q : (twist b).Pt) (ds : List ℤ) :
    ∀ (T : (twist b).Pt) {f : L}, IsUnit f → IsUnit (miller j u (j (ι x)) (j (ι y)) Q ds T f) := by
  induction ds with
  | nil => intro T f hf; exact hf
  | cons d ds ih =>
    intro T f hf
    rw [miller]
    split
    · exact ih _ ((hf.pow 2).mul (line_unit h hu hy _ _))
    · exact ih _ (((hf.pow 2).mul (line_unit h hu hy _ _)).mul (line_unit h hu hy _ _))

end

/-- The point is in the subgroup `G1`: its order divides `r`. -/
abbrev InG1 (r : ℤ) (P : (twist bE).Pt) : Prop := r • P = 0

/-- A point of odd order has `y ≠ 0`. -/
theorem y_ne_zero {r : ℤ} (hr : r % 2 = 1) {x y : k} {hP : (twist bE).curve.Nonsingular x y}
    (hG : InG1 (bE := bE) r (.some x y hP)) : y ≠ 0 := by
  rintro rfl
  have h2 : (Point.some x 0 hP + Point.some x 0 hP : (twist bE).Pt) = 0 := Curve.add_self_zero (add_zero 0)
  have h3 : (2 : ℤ) • (Point.some x 0 hP : (twist bE).Pt) = 0 := by rw [two_zsmul]; exact h2
  have : (Point.some x 0 hP : (twist bE).Pt) = 0 := by
    have e : r = (r / 2) * 2 + 1 := by omega
    unfold InG1 at hG
    rw [e, add_zsmul, mul_zsmul, h3, zsmul_zero, zero_add, one_zsmul] at hG
    exact hG
  exact Point.some_ne_zero hP this

/-- A multiple of a point of prime order is only zero for the multiples of the order. -/
theorem zsmul_eq_zero_iff {r : ℕ} (hr : r.Prime) {Q : (twist b).Pt} (hQ : Q ≠ 0) (hG : (r : ℤ) • Q = 0) (i : ℤ) :
    i • Q = 0 ↔ (r : ℤ) ∣ i := by
  have := Fact.mk hr
  have : addOrderOf Q = r := addOrderOf_eq_prime (by rwa [natCast_zsmul] at hG) hQ
  rw [← this, addOrderOf_dvd_iff_zsmul_eq_zero]

/-! ## Pairs -/

omit [Nontrivial L] in
theorem createPairs_rep (h : o.Implements R1 R2 R12 ι j w ξ p) {twistM : Bool} {prep : Point β → G2Prepared β}
    (lines : (twist b).Pt → List ((twist b).Pt × (twist b).Pt)) {items : List ((twist bE).Pt × (twist b).Pt)}
    {as : List (Point α)} {bs : List (Point β)}
    (ha : List.Forall₂ (fun a i => Point.Rep R1 bE a i.1) as items)
    (hb : List.Forall₂ (fun q i => Point.Rep R2 b q i.2) bs items)
    (hzero : ∀ q, Point.Rep R2 b q 0 → (prep q).infinity = true)
    (hprep : ∀ q, ∀ i ∈ items, i.2 ≠ 0 → Point.Rep R2 b q i.2 → (prep q).infinity = false ∧
      List.Forall₂ (fun c s => EllCoeff.Rep R2 twistM c s.1 s.2) (prep q).ellCoeffs (lines i.2)) :
    ∃ ps is, createPairs o as (bs.map prep) = some ps ∧ ps.length ≤ as.length ∧
      List.Forall₂ (fun q i => Pair.Rep R1 R2 twistM q (i : (k × k) × (twist b).Pt).1.1 i.1.2 (lines i.2)) ps is ∧
      ∀ (F : k → k → (twist b).Pt → L) (G : (twist bE).Pt → (twist b).Pt → L),
        (∀ Q, G .zero Q = 1) → (∀ P, G P 0 = 1) →
        (∀ x y hP Q, Q ≠ 0 → G (.some x y hP) Q = F x y Q) →
        (is.map fun i => F i.1.1 i.1.2 i.2).prod = (items.map fun i => G i.1 i.2).prod := by
  induction items generalizing as bs with
  | nil =>
    obtain rfl := List.forall₂_nil_right_iff.mp ha
    obtain rfl := List.forall₂_nil_right_iff.mp hb
    exact ⟨[], [], by simp [createPairs], le_rfl, .nil, by intros; rfl⟩
  | cons i items ih =>
    obtain ⟨a, as, ra, ha', rfl⟩ := List.forall₂_cons_right_iff.mp ha
    obtain ⟨q, bs, rq, hb', rfl⟩ := List.forall₂_cons_right_iff.mp hb
    obtain ⟨ps, is, e1, e2, e3, e4⟩ := ih ha' hb' (fun q i hi => hprep q i (by simp [hi]))
    have hl : as.length = bs.length := by rw [ha'.length_eq, hb'.length_eq]
    obtain ⟨P, Q⟩ := i
    dsimp only at ra rq
    have ep : createPairs o (a :: as) ((q :: bs).map prep) = some
        (if !a.isZero o.fp && !(prep q).infinity then ⟨a, (prep q).ellCoeffs, 0⟩ :: ps else ps) := by
      simp only [createPairs, List.length_map, hl, if_true, Option.some.injEq] at e1
      simp only [createPairs, List.length_cons, List.length_map, hl, if_true, List.map_cons, List.zip_cons_cons,
        List.filter_cons]
      rw [← e1]
      split <;> simp
    have hPz : a.isZero o.fp = true ↔ P = 0 := by
      obtain ⟨x, y, rx, ry, hrep⟩ := ra
      rw [Point.isZero, Bool.and_eq_true, h.fp.isZero rx, h.fp.isZero ry]
      rcases P with _ | ⟨X, Y, hP⟩
      · exact ⟨fun _ => rfl, fun _ => hrep⟩
      · obtain ⟨hx, hy, hn⟩ := hrep
        dsimp only at hx hy
        subst hx hy
        exact ⟨fun e => absurd e hn, fun e => absurd e (by exact Point.some_ne_zero hP)⟩
    by_cases hQ : Q = 0
    · subst hQ
      refine ⟨ps, is, ?_, by simp; omega, e3, ?_⟩
      · rw [ep, hzero q rq]; simp
      · intro F G g1 g2 g3
        rw [e4 F G g1 g2 g3]; simp [g2]
    · by_cases hP : P = 0
      · refine ⟨ps, is, ?_, by simp; omega, e3, ?_⟩
        · rw [ep, hPz.mpr hP]; simp
        · intro F G g1 g2 g3
          subst hP
          rw [e4 F G g1 g2 g3, List.map_cons, List.prod_cons]
          have : G (0 : (twist bE).Pt) Q = 1 := g1 Q
          simp [this]
      · have hf : a.isZero o.fp = false := by rw [Bool.eq_false_iff]; exact fun e => hP (hPz.mp e)
        obtain ⟨hi, hc⟩ := hprep q (P, Q) (by simp) hQ rq
        rcases P with _ | ⟨X, Y, hP'⟩
        · exact absurd rfl hP
        obtain ⟨x, y, rx, ry, hx, hy, -⟩ := ra
        dsimp only at hx hy
        subst hx hy
        refine ⟨⟨a, (prep q).ellCoeffs, 0⟩ :: ps, ((x, y), Q) :: is, ?_, by simp; omega, .cons ⟨rx, ry, ?_⟩ e3, ?_⟩
        · rw [ep, hf, hi]; simp
        · simpa using hc
        · intro F G g1 g2 g3
          rw [List.map_cons, List.prod_cons, e4 F G g1 g2 g3, List.map_cons, List.prod_cons, g3 _ _ _ _ hQ]

/-! ## BLS12 -/

theorem fromDigits_eq (ds : List ℤ) : ∀ m : ℤ, fromDigits ds m = m * 2 ^ ds.length + digitsVal 2 ds.reverse := by
  have hval : ∀ (zs : List Int) (z : Int), digitsVal 2 (zs ++ [z]) = digitsVal 2 zs + z * 2 ^ zs.length := by
    intro zs z
    induction zs with
    | nil => simp [digitsVal]
    | cons a t ih => simp only [List.cons_append, digitsVal, ih, List.length_cons]; ring
  induction ds with
  | nil => intro m; simp [fromDigits, digitsVal]
  | cons d ds ih =>
    intro m
    rw [fromDigits, ih, List.reverse_cons, hval, List.length_reverse, List.length_cons, pow_succ]
    ring

theorem binaryDigits_value {n : ℕ} (hn : n ≠ 0) : fromDigits (binaryDigits n) 1 = n := by
  rw [fromDigits_eq, binaryDigits, ← List.map_reverse, List.reverse_reverse, digitsVal_bits]
  simp only [List.length_map, List.length_reverse, List.length_range, one_mul]
  have h1 : 2 ^ n.log2 ≤ n := Nat.log2_self_le hn
  have h2 : n < 2 ^ (n.log2 + 1) := Nat.lt_log2_self
  have h3 : n % 2 ^ n.log2 = n - 2 ^ n.log2 := by
    rw [Nat.mod_eq_sub_mod h1, Nat.mod_eq_of_lt (by rw [pow_succ] at h2; omega)]
  rw [h3]
  push_cast [Nat.cast_sub h1]
  ring

theorem binaryDigits_digits (n : ℕ) : ∀ d ∈ binaryDigits n, d = 0 ∨ d = 1 ∨ d = -1 := by
  intro d hd
  simp only [binaryDigits, List.mem_map] at hd
  obtain ⟨i, -, rfl⟩ := hd
  split <;> simp

/-- When the top bit of `kX` is set, both bit iterators yield its binary digits. -/
theorem bits_top {β : Type} {cfg : Config β} (htop : 2 ^ (64 * cfg.x.length - 1) ≤ limbsVal cfg.x) :
    allBits cfg = binaryDigits (limbsVal cfg.x) ∧ xBits cfg = some (binaryDigits (limbsVal cfg.x)) := by
  have hlt := limbsVal_lt cfg.x
  have hne : limbsVal cfg.x ≠ 0 := by have := Nat.two_pow_pos (64 * cfg.x.length - 1); omega
  have hpos : 0 < 64 * cfg.x.length := by
    rcases Nat.eq_zero_or_pos (64 * cfg.x.length) with h | h
    · rw [h, pow_zero] at hlt; omega
    · exact h
  obtain ⟨n, hn⟩ : ∃ n, 64 * cfg.x.length = n + 1 := ⟨64 * cfg.x.length - 1, by omega⟩
  rw [hn] at hlt htop
  have hlog : (limbsVal cfg.x).log2 = n := by
    rw [Nat.log2_eq_iff hne]; exact ⟨htop, hlt⟩
  have hb : testBit cfg.x n = true := by
    rw [testBit_spec (by norm_num)]
    exact Nat.testBit_of_two_pow_le_and_two_pow_add_one_gt htop hlt
  have hmap : (List.range n).reverse.map (fun i => if testBit cfg.x i then (1 : ℤ) else 0) =
      binaryDigits (limbsVal cfg.x) := by
    rw [binaryDigits, hlog]
    apply List.map_congr_left
    intro i _
    rw [testBit_spec (by norm_num)]
  have hbe : beBegin cfg.x = some n := by rw [beBegin, hn, skipZerosDown, if_pos hb]
  constructor
  · rw [allBits, hn, List.range_succ, List.reverse_append, List.reverse_singleton, List.singleton_append,
      List.map_cons, List.tail_cons, hmap]
  · simp only [xBits, bitsBE, hbe]
    rw [List.range_succ, List.reverse_append, List.reverse_singleton, List.singleton_append, List.map_cons]
    simp only [List.map_map]
    rw [← hmap]
    rfl

section Main
variable (h : o.Implements R1 R2 R12 ι j w ξ p) {cfg : Config β} {u : L}
  (hu : if cfg.twistM then u * w = 1 else u = w) {items : List ((twist bE).Pt × (twist b).Pt)}
include h

omit [DecidableEq k] [DecidableEq K] [Nontrivial L] in
theorem start_rep {q : Point β} {Q : (twist b).Pt} (hq : q.Rep R2 b Q) (hQ : Q ≠ 0) :
    G2Projective.Rep R2 b ⟨q.x, q.y, o.fp2.one⟩ Q := by
  obtain ⟨x, y, rx, ry, hrep⟩ := hq
  refine ⟨x, y, 1, rx, ry, h.fp2.one, hQ, ?_⟩
  rcases Q with _ | ⟨X, Y, hP⟩
  · exact absurd rfl hQ
  obtain ⟨hx, hy, -⟩ := hrep
  dsimp only at hx hy
  exact ⟨one_ne_zero, by simp [hx], by simp [hy]⟩

omit [DecidableEq k] [DecidableEq K] in
theorem inverseIf_rep (neg : Bool) {f : γ} {V : Lˣ} (hf : R12 f V) :
    ∃ g, inverseIf o neg f = some g ∧ R12 g ((V ^ (if neg then p ^ 6 else 1) : Lˣ) : L) := by
  cases neg with
  | true =>
    obtain ⟨g, h1, h2⟩ := h.cycInverse hf V.ne_zero
    exact ⟨g, by simp [inverseIf, h1], by simpa using h2⟩
  | false => exact ⟨f, rfl, by simpa using hf⟩

include hu

omit [Nontrivial L] in
theorem ateMiller_unit {r : ℤ} (hr : r % 2 = 1) (ds : List ℤ) {P : (twist bE).Pt} (hP : r • P = 0) (Q : (twist b).Pt) :
    IsUnit (ateMiller ι j u ds P Q) := by
  rcases P with _ | ⟨x, y, h0⟩
  · exact isUnit_one
  · rw [ateMiller]
    split
    · exact isUnit_one
    · exact miller_unit h hu (y_ne_zero hr hP) _ _ _ isUnit_one

omit [Field k] [DecidableEq k] [Field K] [DecidableEq K] [Nontrivial L] h hu in
theorem prod_unit {I : Type} {l : List I} {f : I → L} (hf : ∀ i ∈ l, IsUnit (f i)) : IsUnit (l.map f).prod := by
  induction l with
  | nil => exact isUnit_one
  | cons i l ih =>
    rw [List.map_cons, List.prod_cons]
    exact (hf i (by simp)).mul (ih fun i hi => hf i (by simp [hi]))

/-- The Miller loop of the BLS12 curves. -/
theorem bls_miller (hb : R2 cfg.b b) (htop : 2 ^ (64 * cfg.x.length - 1) ≤ limbsVal cfg.x) {r : ℕ} (hr : r.Prime)
    (hrx : limbsVal cfg.x + 2 < r) (hG : ∀ i ∈ items, (r : ℤ) • i.1 = 0 ∧ (r : ℤ) • i.2 = 0)
    {as : List (Point α)} {bs : List (Point β)}
    (ha : List.Forall₂ (fun a i => Point.Rep R1 bE a i.1) as items)
    (hbs : List.Forall₂ (fun q i => Point.Rep R2 b q i.2) bs items) (hlen : as.length + 4 ≤ 2 ^ 64) :
    ∃ U C : Lˣ, Removed j (C : L) ∧
      (U : L) = (items.map fun i => ateMiller ι j u (binaryDigits (limbsVal cfg.x)) i.1 i.2).prod ∧
      ∃ f, blsMillerLoop o cfg as (bs.map (blsPrepare o cfg)) = some f ∧
        R12 f (((C * U) ^ (if cfg.xIsNegative then p ^ 6 else 1) : Lˣ) : L) := by
  obtain ⟨hall, hxb⟩ := bits_top htop
  have hne : limbsVal cfg.x ≠ 0 := by have := Nat.two_pow_pos (64 * cfg.x.length - 1); omega
  have hodd : (r : ℤ) % 2 = 1 := by
    have := hr.eq_two_or_odd
    omega
  set ds := binaryDigits (limbsVal cfg.x) with hds
  obtain ⟨ps, is, e1, e2, e3, e4⟩ := createPairs_rep (L := L) h (twistM := cfg.twistM) (prep := blsPrepare o cfg)
    (fun Q => steps Q ds Q) ha hbs
    (by intro q hq; simp only [blsPrepare, (Point.isZero_rep h hq).mpr rfl, if_true])
    (by
      intro q i hi hQ hq
      have hz : q.isZero o.fp2 = false := by
        rw [Bool.eq_false_iff]; exact fun e => hQ ((Point.isZero_rep h hq).mp e)
      have hv : Valid i.2 ds i.2 := by
        have := valid_of_order (Q := i.2) (binaryDigits_digits (limbsVal cfg.x)) 1 le_rfl (by
          intro m hm hm2
          rw [binaryDigits_value hne] at hm2
          rw [Ne, zsmul_eq_zero_iff hr hQ (hG i hi).2]
          exact fun hdvd => absurd (Int.le_of_dvd hm hdvd) (by omega))
        rwa [one_zsmul] at this
      have := (prepareGo_rep h (cfg := cfg) hb hq hQ (binaryDigits_digits (limbsVal cfg.x))
        (start_rep h hq hQ) hv).2
      simp only [blsPrepare, hz, hall]
      exact ⟨rfl, this⟩)
  obtain ⟨V, hV⟩ := prod_unit (f := fun i => ateMiller ι j u ds i.1 i.2)
    (fun i hi => ateMiller_unit h hu hodd ds (hG i hi).1 i.2)
  have hprod := e4 (fun x y Q => miller j u (j (ι x)) (j (ι y)) Q ds Q 1) (fun P Q => ateMiller ι j u ds P Q)
    (by intro Q; rfl)
    (by intro P; rcases P with _ | ⟨x, y, hP⟩ <;> simp [ateMiller])
    (by intro x y hP Q hQ; simp [ateMiller, hQ])
  obtain ⟨f', ps', C', m1, hC, m2, -⟩ := millerChunks_rep h hu (fun i : (k × k) × (twist b).Pt => i.1.1)
    (fun i => i.1.2) (fun i => i.2) (fun _ => []) (binaryDigits_digits (limbsVal cfg.x)) false (fun i => i.2)
    (ps := ps) (is := is) (by omega) (by simpa using e3)
  obtain ⟨C, rfl⟩ := hC.unit h
  have m2' : R12 f' ((C * V : Lˣ) : L) := by
    rw [Units.val_mul, hV, ← hprod]; exact m2
  have hloop : (if ps.isEmpty then some (o.fp12.one, ps)
      else (xBits cfg).bind fun ds => millerChunks o cfg false ds ps) = some (f', ps') := by
    rcases ps with _ | ⟨q, ps⟩
    · rw [← m1]; simp [millerChunks, invocations, numChunks, ceilDiv64]
    · rw [if_neg (by simp), hxb, Option.bind_some, m1]
  obtain ⟨g, g1, g2⟩ := inverseIf_rep h cfg.xIsNegative m2'
  exact ⟨V, C, hC, hV, g, by simp only [blsMillerLoop, e1, Option.bind_some, hloop, g1], g2⟩

omit [DecidableEq k] [DecidableEq K] [Nontrivial L] hu in
/-- The exponentiation by `p⁶` is an inversion for the final exponentiation, which also removes `C`. -/
theorem final_exponent {U C : Lˣ} (hC : Removed j (C : L)) (neg : Bool) (e : ℤ) :
    ((C * U) ^ (if neg then p ^ 6 else 1)) ^ (((p : ℤ) ^ 6 - 1) * ((p : ℤ) ^ 2 + 1) * e) =
      U ^ ((if neg then -1 else 1) * (((p : ℤ) ^ 6 - 1) * ((p : ℤ) ^ 2 + 1) * e)) := by
  have h1 := hC.easy h
  have h2 : ∀ n : ℕ, (C ^ n) ^ (((p : ℤ) ^ 6 - 1) * ((p : ℤ) ^ 2 + 1) * e) = 1 := by
    intro n
    rw [← zpow_natCast, ← zpow_mul, mul_comm, mul_assoc, zpow_mul, h1, one_zpow]
  rw [mul_pow, mul_zpow, h2, one_mul]
  cases neg with
  | false => simp
  | true =>
    simp only [if_true]
    have e6 : ((p ^ 6 : ℕ) : ℤ) = (p : ℤ) ^ 6 := by push_cast; rfl
    have e1 : (p : ℤ) ^ 6 * (((p : ℤ) ^ 6 - 1) * ((p : ℤ) ^ 2 + 1) * e) =
      ((p : ℤ) ^ 12 - 1) * (((p : ℤ) ^ 2 + 1) * e) + -1 * (((p : ℤ) ^ 6 - 1) * ((p : ℤ) ^ 2 + 1) * e) := by ring
    rw [← zpow_natCast, ← zpow_mul, e6, e1, zpow_add, zpow_mul, h.unit_fixed, one_zpow, one_mul]

/-- The pairing of the BLS12 curves. -/
theorem bls_pairing (hb : R2 cfg.b b) (htop : 2 ^ (64 * cfg.x.length - 1) ≤ limbsVal cfg.x)
    (hx : limbsVal cfg.x + 1 < 2 ^ (64 * cfg.x.length)) {r : ℕ} (hr : r.Prime)
    (hrx : limbsVal cfg.x + 2 < r) (hG : ∀ i ∈ items, (r : ℤ) • i.1 = 0 ∧ (r : ℤ) • i.2 = 0)
    {as : List (Point α)} {bs : List (Point β)}
    (ha : List.Forall₂ (fun a i => Point.Rep R1 bE a i.1) as items)
    (hbs : List.Forall₂ (fun q i => Point.Rep R2 b q i.2) bs items) (hlen : as.length + 4 ≤ 2 ^ 64)
    {x q : ℤ} (ex : cfg.xInt = x) (eq : (p : ℤ) = q) :
    ∃ U : Lˣ, (U : L) = (items.map fun i => ateMiller ι j u (binaryDigits (limbsVal cfg.x)) i.1 i.2).prod ∧
      ∃ g, blsPairing o cfg as bs = some g ∧
        R12 g ((U ^ ((if cfg.xIsNegative then -1 else 1) * ((q ^ 6 - 1) * (q ^ 2 + 1) *
          ((x - 1) ^ 2 * (x + q) * (x ^ 2 + q ^ 2 - 1) + 3))) : Lˣ) : L) := by
  obtain ⟨U, C, hC, hU, f, h1, h2⟩ := bls_miller h hu hb htop hr hrx hG ha hbs hlen
  obtain ⟨g, h3, h4⟩ := bls_final h cfg hx h2 ex eq
  refine ⟨U, hU, g, by simp only [blsPairing, h1, Option.bind_some, h3], ?_⟩
  rw [← eq] at h4 ⊢
  rwa [final_exponent h hC] at h4

/-! ## BN -/

omit [DecidableEq k] [DecidableEq K] hu in
theorem u_unit (hu : if cfg.twistM then u * w = 1 else u = w) : IsUnit u := by
  cases hM : cfg.twistM with
  | true => simp only [hM, if_true] at hu; exact IsUnit.of_mul_eq_one _ hu
  | false => simp only [hM, Bool.false_eq_true, if_false] at hu; rw [hu]; exact h.w_unit

omit [DecidableEq k] [DecidableEq K] in
theorem twist_constants {cx cy : K} (ht : TwistConstants ι j u p bE b cx cy) :
    cx ^ 3 = cy ^ 2 ∧ cy ^ 2 * b ^ p = b ∧ cx ≠ 0 ∧ cy ≠ 0 := by
  have hun := u_unit h hu
  have hj : Function.Injective j := j.injective
  have e1 : u ^ 6 * j (cx ^ 3) = (u ^ 6) ^ p := by
    rw [map_pow]
    calc u ^ 6 * j cx ^ 3 = (u ^ 2 * j cx) ^ 3 := by ring
      _ = (u ^ 6) ^ p := by rw [ht.x, ← pow_mul, ← pow_mul, ← pow_mul]; congr 1; ring
  have e2 : u ^ 6 * j (cy ^ 2) = (u ^ 6) ^ p := by
    rw [map_pow]
    calc u ^ 6 * j cy ^ 2 = (u ^ 3 * j cy) ^ 2 := by ring
      _ = (u ^ 6) ^ p := by rw [ht.y, ← pow_mul, ← pow_mul, ← pow_mul]; congr 1; ring
  have hcy : cy ≠ 0 := by
    rintro rfl
    rw [zero_pow (by norm_num), map_zero, mul_zero] at e2
    exact ((hun.pow 6).pow p).ne_zero e2.symm
  have hcx : cx ≠ 0 := by
    rintro rfl
    rw [zero_pow (by norm_num), map_zero, mul_zero] at e1
    exact ((hun.pow 6).pow p).ne_zero e1.symm
  refine ⟨hj ((hun.pow 6).mul_left_cancel (e1.trans e2.symm)), ?_, hcx, hcy⟩
  apply hj
  apply (hun.pow 6).mul_left_cancel
  have e3 : (u ^ 6 * j b) ^ p = u ^ 6 * j b := by
    rw [ht.curve, ← map_pow, ← map_pow, h.fixed1]
  rw [map_mul, ← mul_assoc, e2, map_pow, ← mul_pow, e3]

omit [DecidableEq k] [DecidableEq K] in
/-- The Frobenius map leads from the twist to itself. -/
theorem frob_nonsingular [Fact p.Prime] [CharP K p] {cx cy : K} (ht : TwistConstants ι j u p bE b cx cy) {X Y : K}
    (hP : (twist b).curve.Nonsingular X Y) : (twist b).curve.Nonsingular (X ^ p * cx) (Y ^ p * cy) := by
  obtain ⟨c1, c2, cx0, cy0⟩ := twist_constants h hu ht
  rw [nonsingular_iff'] at hP ⊢
  obtain ⟨he, hn⟩ := hP
  rw [Curve.equation_curve] at he ⊢
  have he' : Y ^ 2 = X ^ 3 + b := by simpa [twist] using he
  refine ⟨?_, ?_⟩
  · have e1 : (Y ^ 2) ^ p = (X ^ 3) ^ p + b ^ p := by rw [he', add_pow_char]
    simp only [twist, zero_mul, add_zero]
    have e2 : (Y ^ p) ^ 2 = (X ^ p) ^ 3 + b ^ p := by rw [← pow_mul, ← pow_mul, mul_comm p, mul_comm p, pow_mul, pow_mul]; exact e1
    linear_combination cy ^ 2 * e2 - (X ^ p) ^ 3 * c1 + c2
  · simp only [Curve.Config.curve, twist, zero_mul, mul_zero, add_zero, zero_sub, neg_ne_zero, mul_ne_zero_iff] at hn ⊢
    rcases hn with ⟨h3, hX⟩ | ⟨h2, hY⟩
    · exact .inl ⟨h3, pow_ne_zero _ (mul_ne_zero (pow_ne_zero _ (ne_zero_pow (by norm_num) hX)) cx0)⟩
    · exact .inr ⟨h2, pow_ne_zero _ hY, cy0⟩

omit [DecidableEq k] [DecidableEq K] in
theorem frobPoint_ne [Fact p.Prime] [CharP K p] {cx cy : K} (ht : TwistConstants ι j u p bE b cx cy)
    {Q : (twist b).Pt} (hQ : Q ≠ 0) : frobPoint p cx cy Q ≠ 0 := by
  rcases Q with _ | ⟨X, Y, hP⟩
  · exact absurd rfl hQ
  · rw [frobPoint, dif_pos (frob_nonsingular h hu ht hP)]
    exact Point.some_ne_zero _

omit [DecidableEq k] [DecidableEq K] in
theorem mulByCharacteristic_rep [Fact p.Prime] [CharP K p] {cx cy : K} (ht : TwistConstants ι j u p bE b cx cy)
    (rx : R2 cfg.twistMulByQX cx) (ry : R2 cfg.twistMulByQY cy) {q : Point β} {Q : (twist b).Pt}
    (hq : q.Rep R2 b Q) : (mulByCharacteristic o cfg q).Rep R2 b (frobPoint p cx cy Q) := by
  obtain ⟨x, y, qx, qy, hrep⟩ := hq
  have hx := h.fp2.mul (h.frob2 1 qx) rx
  have hy := h.fp2.mul (h.frob2 1 qy) ry
  rw [pow_one] at hx hy
  refine ⟨_, _, hx, hy, ?_⟩
  have hp : p ≠ 0 := (Fact.out : p.Prime).ne_zero
  obtain ⟨c1, c2, cx0, cy0⟩ := twist_constants h hu ht
  rcases Q with _ | ⟨X, Y, hP⟩
  · obtain ⟨h1, h2⟩ := hrep
    dsimp only at h1 h2
    subst h1 h2
    exact ⟨by simp [hp], by simp [hp]⟩
  · obtain ⟨h1, h2, h3⟩ := hrep
    dsimp only at h1 h2
    subst h1 h2
    rw [frobPoint, dif_pos (frob_nonsingular h hu ht hP)]
    refine ⟨rfl, rfl, ?_⟩
    simpa [hp, cx0, cy0] using h3

/-- The conditions under which no step of the loop over a point of `G2` meets a vertical line: `N` is the
number whose digits the loop runs over, `t` is `N` or `-N`. -/
structure NonDegenerate (r p : ℕ) (N t : ℤ) : Prop where
  large : N + 2 < r
  t1 : ¬ (r : ℤ) ∣ t - p
  t2 : ¬ (r : ℤ) ∣ t + p
  t3 : ¬ (r : ℤ) ∣ t + p + p ^ 2
  t4 : ¬ (r : ℤ) ∣ t + p - p ^ 2

omit [Field k] [DecidableEq k] [Field K] [DecidableEq K] [CommRing L] [Nontrivial L] h hu in
theorem bnPrepare_eq {q : Point β} (hz : q.isZero o.fp2 = false) :
    bnPrepare o cfg q =
      let s := prepareGo o cfg q (q.neg o.fp2) (ateDigits cfg) ⟨q.x, q.y, o.fp2.one⟩
      let q1 := mulByCharacteristic o cfg q
      let q2 := (mulByCharacteristic o cfg q1).neg o.fp2
      let r := if cfg.xIsNegative then s.1.neg o else s.1
      { ellCoeffs := s.2 ++ [(r.add o cfg q1).2, ((r.add o cfg q1).1.add o cfg q2).2], infinity := false } := by
  rw [bnPrepare, hz]
  rfl

omit [DecidableEq k] in
/-- The prepared coefficients of a point of `G2`. -/
theorem bn_prepare [Fact p.Prime] [CharP K p] (hb : R2 cfg.b b) {cx cy : K} (ht : TwistConstants ι j u p bE b cx cy)
    (rx : R2 cfg.twistMulByQX cx) (ry : R2 cfg.twistMulByQY cy)
    (hd : ∀ d ∈ ateDigits cfg, d = 0 ∨ d = 1 ∨ d = -1) {N t : ℤ} (hN : fromDigits (ateDigits cfg) 1 = N)
    (htN : t = if cfg.xIsNegative then -N else N) {r : ℕ} (hr : r.Prime) (hnd : NonDegenerate r p N t)
    {q : Point β} {Q : (twist b).Pt} (hq : q.Rep R2 b Q) (hQ : Q ≠ 0)
    (hG : (r : ℤ) • Q = 0 ∧ frobPoint p cx cy Q = (p : ℤ) • Q ∧
      frobPoint p cx cy (frobPoint p cx cy Q) = ((p : ℤ) ^ 2) • Q) :
    (bnPrepare o cfg q).infinity = false ∧
      List.Forall₂ (fun c s => EllCoeff.Rep R2 cfg.twistM c s.1 s.2) (bnPrepare o cfg q).ellCoeffs
        (steps Q (ateDigits cfg) Q ++ [(t • Q, frobPoint p cx cy Q),
          (t • Q + frobPoint p cx cy Q, -frobPoint p cx cy (frobPoint p cx cy Q))]) := by
  generalize hds : ateDigits cfg = ds at hd hN ⊢
  generalize hπ : frobPoint (b := b) p cx cy = π at hG ⊢
  have order := zsmul_eq_zero_iff hr hQ hG.1
  have hz : q.isZero o.fp2 = false := by
    rw [Bool.eq_false_iff]; exact fun e => hQ ((Point.isZero_rep h hq).mp e)
  have hv : Valid Q ds Q := by
    have := valid_of_order (Q := Q) hd 1 le_rfl (by
      intro m hm hm2
      rw [hN] at hm2
      rw [Ne, order]
      have := hnd.large
      exact fun hdvd => absurd (Int.le_of_dvd hm hdvd) (by omega))
    rwa [one_zsmul] at this
  obtain ⟨s1, s2⟩ := prepareGo_rep h (cfg := cfg) hb hq hQ hd (start_rep h hq hQ) hv
  have hend : endPoint Q ds Q = N • Q := by
    have := endPoint_eq Q ds 1
    rwa [one_zsmul, hN] at this
  rw [hend] at s1
  have s3 : G2Projective.Rep R2 b (if cfg.xIsNegative then
      (prepareGo o cfg q (q.neg o.fp2) ds ⟨q.x, q.y, o.fp2.one⟩).1.neg o else
      (prepareGo o cfg q (q.neg o.fp2) ds ⟨q.x, q.y, o.fp2.one⟩).1) (t • Q) := by
    rw [htN]
    by_cases hneg : cfg.xIsNegative = true
    · rw [if_pos hneg, if_pos hneg, neg_zsmul]
      exact G2Projective.neg_rep h s1
    · rw [if_neg hneg, if_neg hneg]; exact s1
  have m1 : Point.Rep R2 b _ (π Q) := hπ ▸ mulByCharacteristic_rep h hu ht rx ry hq
  have m2 : Point.Rep R2 b _ (π (π Q)) := hπ ▸ mulByCharacteristic_rep h hu ht rx ry m1
  have m3 := Point.neg_rep h m2
  obtain ⟨-, p1, p2⟩ := hG
  have hπ1 : π Q ≠ 0 := hπ ▸ frobPoint_ne h hu ht hQ
  have hπ2 : -π (π Q) ≠ 0 := neg_ne_zero.mpr (by subst hπ; exact frobPoint_ne h hu ht hπ1)
  obtain ⟨a1, a2⟩ := G2Projective.add_rep h (cfg := cfg) s3 m1 hπ1
    (by
      rw [p1]; intro e
      exact hnd.t1 ((order _).mp (by rw [sub_zsmul, e, ← sub_eq_add_neg, sub_self])))
    (by
      rw [p1, ← add_zsmul]; intro e
      exact hnd.t2 ((order _).mp e))
  obtain ⟨-, a4⟩ := G2Projective.add_rep h (cfg := cfg) a1 m3 hπ2
    (by
      rw [p2, p1, ← add_zsmul, ← neg_zsmul]; intro e
      refine hnd.t3 ((order _).mp ?_)
      rw [add_zsmul _ (t + p), e, neg_zsmul, neg_add_cancel])
    (by
      rw [p2, p1, ← add_zsmul, ← neg_zsmul, ← add_zsmul]; intro e
      exact hnd.t4 ((order _).mp e))
  rw [bnPrepare_eq hz, hds]
  exact ⟨rfl, List.rel_append s2 (.cons a2 (.cons a4 .nil))⟩

omit [Field k] [DecidableEq k] [Field K] [DecidableEq K] [CommRing L] [Nontrivial L] h hu in
theorem bnMillerLoop_eq {as : List (Point α)} {bs : List (G2Prepared β)} {ps ps1 ps2 ps3 : List (Pair α β)}
    {f1 g f2 f3 : γ} (e1 : createPairs o as bs = some ps)
    (e2 : millerChunks o cfg true (ateDigits cfg) ps = some (f1, ps1)) (e3 : inverseIf o cfg.xIsNegative f1 = some g)
    (e4 : ellAll o cfg g ps1 = some (f2, ps2)) (e5 : ellAll o cfg f2 ps2 = some (f3, ps3)) :
    bnMillerLoop o cfg as bs = some f3 := by
  have h3 : (ellAll o cfg f2 ps2).map (·.1) = some f3 := by rw [e5]; rfl
  have h2 : ((ellAll o cfg g ps1).bind fun r => (ellAll o cfg r.1 r.2).map (·.1)) = some f3 := by rw [e4]; exact h3
  have h1 : ((inverseIf o cfg.xIsNegative f1).bind fun f =>
      (ellAll o cfg f ps1).bind fun r => (ellAll o cfg r.1 r.2).map (·.1)) = some f3 := by rw [e3]; exact h2
  rw [bnMillerLoop, e1, Option.bind_some, e2]
  exact h1

/-- The Miller loop of the BN curves. -/
theorem bn_miller [Fact p.Prime] [CharP K p] (hb : R2 cfg.b b) {cx cy : K} (ht : TwistConstants ι j u p bE b cx cy)
    (rx : R2 cfg.twistMulByQX cx) (ry : R2 cfg.twistMulByQY cy)
    (hd : ∀ d ∈ ateDigits cfg, d = 0 ∨ d = 1 ∨ d = -1) {N t : ℤ} (hN : fromDigits (ateDigits cfg) 1 = N)
    (htN : t = if cfg.xIsNegative then -N else N) {r : ℕ} (hr : r.Prime) (hodd : (r : ℤ) % 2 = 1)
    (hnd : NonDegenerate r p N t)
    (hG : ∀ i ∈ items, (r : ℤ) • i.1 = 0 ∧ (r : ℤ) • i.2 = 0 ∧ frobPoint p cx cy i.2 = (p : ℤ) • i.2 ∧
      frobPoint p cx cy (frobPoint p cx cy i.2) = ((p : ℤ) ^ 2) • i.2)
    {as : List (Point α)} {bs : List (Point β)}
    (ha : List.Forall₂ (fun a i => Point.Rep R1 bE a i.1) as items)
    (hbs : List.Forall₂ (fun q i => Point.Rep R2 b q i.2) bs items) (hlen : as.length + 4 ≤ 2 ^ 64) :
    ∃ U V C C' : Lˣ, Removed j (C : L) ∧ Removed j (C' : L) ∧
      (U : L) = (items.map fun i => ateMiller ι j u (ateDigits cfg) i.1 i.2).prod ∧
      (V : L) = (items.map fun i => bnLines ι j u t (frobPoint p cx cy) i.1 i.2).prod ∧
      ∃ f, bnMillerLoop o cfg as (bs.map (bnPrepare o cfg)) = some f ∧
        R12 f (((C * U) ^ (if cfg.xIsNegative then p ^ 6 else 1) * (C' * V) : Lˣ) : L) := by
  set ds := ateDigits cfg with hds
  set π := frobPoint (b := b) p cx cy with hπ
  obtain ⟨ps, is, e1, e2, e3, e4⟩ := createPairs_rep (L := L) h (twistM := cfg.twistM) (prep := bnPrepare o cfg)
    (fun Q => steps Q ds Q ++ [(t • Q, π Q), (t • Q + π Q, -π (π Q))]) ha hbs
    (by intro q hq; simp only [bnPrepare, (Point.isZero_rep h hq).mpr rfl, if_true])
    (fun q i hi hQ hq => bn_prepare h hu hb ht rx ry hd hN htN hr hnd hq hQ (hG i hi).2)
  have hy : ∀ i ∈ items, ∀ x y hP, i.1 = .some x y hP → y ≠ 0 := by
    intro i hi x y hP e
    exact y_ne_zero hodd (by have := (hG i hi).1; rw [e] at this; exact this)
  obtain ⟨U, hU⟩ := prod_unit (f := fun i => ateMiller ι j u ds i.1 i.2)
    (fun i hi => ateMiller_unit h hu hodd ds (hG i hi).1 i.2)
  obtain ⟨V, hV⟩ := prod_unit (l := items) (f := fun i => bnLines ι j u t π i.1 i.2) (by
    intro i hi
    rcases hi1 : i.1 with _ | ⟨x, y, hP⟩
    · exact isUnit_one
    · rw [bnLines]
      split
      · exact isUnit_one
      · exact (line_unit h hu (hy i hi _ _ _ hi1) _ _).mul (line_unit h hu (hy i hi _ _ _ hi1) _ _))
  have hprod := e4 (fun x y Q => miller j u (j (ι x)) (j (ι y)) Q ds Q 1) (fun P Q => ateMiller ι j u ds P Q)
    (by intro Q; rfl)
    (by intro P; rcases P with _ | ⟨x, y, hP⟩ <;> simp [ateMiller])
    (by intro x y hP Q hQ; simp [ateMiller, hQ])
  have hprod' := e4 (fun x y Q => line j u (j (ι x)) (j (ι y)) (t • Q) (π Q) *
      line j u (j (ι x)) (j (ι y)) (t • Q + π Q) (-π (π Q))) (fun P Q => bnLines ι j u t π P Q)
    (by intro Q; rfl)
    (by intro P; rcases P with _ | ⟨x, y, hP⟩ <;> simp [bnLines])
    (by intro x y hP Q hQ; simp [bnLines, hQ])
  obtain ⟨f1, ps1, C1, m1, hC, m2, hps1⟩ := millerChunks_rep h hu (fun i : (k × k) × (twist b).Pt => i.1.1)
    (fun i => i.1.2) (fun i => i.2) (fun i => [(t • i.2, π i.2), (t • i.2 + π i.2, -π (π i.2))]) hd true
    (fun i => i.2) (ps := ps) (is := is) (by omega) e3
  obtain ⟨C, rfl⟩ := hC.unit h
  have m2' : R12 f1 ((C * U : Lˣ) : L) := by
    rw [Units.val_mul, hU, ← hprod]; exact m2
  obtain ⟨g, g1, g2⟩ := inverseIf_rep h cfg.xIsNegative m2'
  obtain ⟨f2, ps2, C2, l1, hC2, l2, hps2⟩ := ellAll_rep h hu (fun i : (k × k) × (twist b).Pt => i.1.1)
    (fun i => i.1.2) (fun i => (t • i.2, π i.2)) _ g2 hps1
  obtain ⟨f3, ps3, C3, l3, hC3, l4, -⟩ := ellAll_rep h hu (fun i : (k × k) × (twist b).Pt => i.1.1)
    (fun i => i.1.2) (fun i => (t • i.2 + π i.2, -π (π i.2))) _ l2 hps2
  have hC4 := hC2.mul hC3
  obtain ⟨C', hC'⟩ := hC4.unit h
  refine ⟨U, V, C, C', hC, by rw [hC']; exact hC4, hU, hV, f3, ?_, ?_⟩
  · exact bnMillerLoop_eq e1 m1 g1 l1 l3
  · rw [Units.val_mul, Units.val_mul C', hC', hV, ← hprod', prod_map_mul']
    convert l4 using 1
    ring

omit [DecidableEq k] [DecidableEq K] [Nontrivial L] hu in
theorem final_exponent_bn {U V C C' : Lˣ} (hC : Removed j (C : L)) (hC' : Removed j (C' : L)) (neg : Bool) (e : ℤ) :
    ((C * U) ^ (if neg then p ^ 6 else 1) * (C' * V)) ^ (((p : ℤ) ^ 6 - 1) * ((p : ℤ) ^ 2 + 1) * e) =
      (U ^ (if neg then -1 else 1 : ℤ) * V) ^ (((p : ℤ) ^ 6 - 1) * ((p : ℤ) ^ 2 + 1) * e) := by
  have h1 := final_exponent h (U := V) hC' false e
  simp only [Bool.false_eq_true, if_false, pow_one, one_mul] at h1
  rw [mul_zpow, final_exponent h hC, h1, mul_zpow, ← zpow_mul]

/-- The pairing of the BN curves. -/
theorem bn_pairing [Fact p.Prime] [CharP K p] (hb : R2 cfg.b b) {cx cy : K} (ht : TwistConstants ι j u p bE b cx cy)
    (rx : R2 cfg.twistMulByQX cx) (ry : R2 cfg.twistMulByQY cy)
    (hx : limbsVal cfg.x + 1 < 2 ^ (64 * cfg.x.length))
    (hd : ∀ d ∈ ateDigits cfg, d = 0 ∨ d = 1 ∨ d = -1) {N t : ℤ} (hN : fromDigits (ateDigits cfg) 1 = N)
    (htN : t = if cfg.xIsNegative then -N else N) {r : ℕ} (hr : r.Prime) (hodd : (r : ℤ) % 2 = 1)
    (hnd : NonDegenerate r p N t)
    (hG : ∀ i ∈ items, (r : ℤ) • i.1 = 0 ∧ (r : ℤ) • i.2 = 0 ∧ frobPoint p cx cy i.2 = (p : ℤ) • i.2 ∧
      frobPoint p cx cy (frobPoint p cx cy i.2) = ((p : ℤ) ^ 2) • i.2)
    {as : List (Point α)} {bs : List (Point β)}
    (ha : List.Forall₂ (fun a i => Point.Rep R1 bE a i.1) as items)
    (hbs : List.Forall₂ (fun q i => Point.Rep R2 b q i.2) bs items) (hlen : as.length + 4 ≤ 2 ^ 64)
    {x q : ℤ} (ex : cfg.xInt = x) (eq : (p : ℤ) = q) :
    ∃ U V : Lˣ, (U : L) = (items.map fun i => ateMiller ι j u (ateDigits cfg) i.1 i.2).prod ∧
      (V : L) = (items.map fun i => bnLines ι j u t (frobPoint p cx cy) i.1 i.2).prod ∧
      ∃ g, bnPairing o cfg as bs = some g ∧
        R12 g (((U ^ (if cfg.xIsNegative then -1 else 1 : ℤ) * V) ^ ((q ^ 6 - 1) * (q ^ 2 + 1) *
          (q ^ 3 * (12 * x ^ 3 + 6 * x ^ 2 + 4 * x - 1) + q ^ 2 * (12 * x ^ 3 + 6 * x ^ 2 + 6 * x)
            + q * (12 * x ^ 3 + 6 * x ^ 2 + 4 * x) + (12 * x ^ 3 + 12 * x ^ 2 + 6 * x + 1))) : Lˣ) : L) := by
  obtain ⟨U, V, C, C', hC, hC', hU, hV, f, h1, h2⟩ :=
    bn_miller h hu hb ht rx ry hd hN htN hr hodd hnd hG ha hbs hlen
  obtain ⟨g, h3, h4⟩ := bn_final h cfg hx h2 ex eq
  refine ⟨U, V, hU, hV, g, by simp only [bnPairing, h1, Option.bind_some, h3], ?_⟩
  rw [← eq] at h4 ⊢
  rwa [final_exponent_bn h hC hC'] at h4

end Main

end Tachyon.Pairing
