import Verif.Proofs.PairingValue
import Verif.Proofs.PairingTower
/-! Properties C85 (the pairings of the BN and BLS12 curves) and C86 (the final exponentiations). -/
namespace Tachyon.Props
open Tachyon.Pairing Tachyon.BigInt WeierstrassCurve.Affine

/-! ## The fields -/

section Tower
variable {p : ℕ} [hpf : Fact p.Prime] {q2 : ZMod p} {α : Type} {o : FieldOps α} {R : α → ZMod p → Prop}

/-- C85, C86: the towers `Fp ⊂ Fp2 ⊂ Fp6 ⊂ Fp12` of the code satisfy the assumptions of the theorems
below, whenever the base field does, `p ≡ 1 (mod 6)`, the non-residue of `Fp2` is not a square and the
one of `Fp6` neither a square nor a cube. -/
theorem C85_tower (h : o.Implements R) (hf : ∀ e a, o.frobenius e a = a) (hq2 : ¬ IsSquare q2) (h6 : 6 ∣ p - 1)
    {N : ℕ} (hN : p < 2 ^ (64 * N)) {nr2 : α → α} (hnr2 : ∀ {a x}, R a x → R (nr2 a) (q2 * x)) {m2 : Bool}
    (hm2 : m2 = true → q2 = -1) {q6 : Ext 2 q2} (hs : ¬ IsSquare q6) (hc : ∀ b, b ^ 3 ≠ q6)
    {nr6 : Ext2 α → Ext2 α} (hnr6 : ∀ {a x}, Ext2.Rel R q2 a x → Ext2.Rel R q2 (nr6 a) (q6 * x))
    {qa : Ext2 α} (hqa : Ext2.Rel R q2 qa q6) :
    (towerOps o nr2 m2 nr6 qa p N).Implements R (Ext2.Rel R q2) (Ext2.Rel (Ext3.Rel (Ext2.Rel R q2) q6) (Ext.x 3 q6))
      (Ext.of 2 q2) ((Ext.of 2 (Ext.x 3 q6)).comp (Ext.of 3 q6)) (Ext.x 2 (Ext.x 3 q6)) q6 p :=
  tower_implements h hf hq2 h6 hN hnr2 hm2 hs hc hnr6 hqa

end Tower

variable {α β γ k K L : Type} [Field k] [DecidableEq k] [Field K] [DecidableEq K] [CommRing L] [Nontrivial L]
  {o : Ops α β γ}
  {R1 : α → k → Prop} {R2 : β → K → Prop} {R12 : γ → L → Prop} {ι : k →+* K} {j : K →+* L} {w : L}
  {ξ : K} {p r : ℕ} {bE : k} {b : K} {cfg : Config β} {u : L} {x : ℤ} {cx cy : K}

/-! ## C86: the final exponentiations -/

omit [DecidableEq k] [DecidableEq K] in
/-- C86: `BNCurve::FinalExponentiation` raises every non-zero `f` to an exponent `e` with
`e r = 2x(6x²+3x+1)(p¹²-1)`. Hence the result is an `r`-th root of unity, it is the power
`2x(6x²+3x+1)` of the reduced value `f^((p¹²-1)/r)`, and it is 1 only if the reduced value is. -/
theorem C86_bn (h : o.Implements R1 R2 R12 ι j w ξ p) (hl : limbsVal cfg.x + 1 < 2 ^ (64 * cfg.x.length))
    (hx : cfg.xInt = x) (hr : r.Prime) (er : (r : ℤ) = bnR x) (ep : (p : ℤ) = bnQ x) {a : γ} {f : Lˣ} (ha : R12 a f) :
    ∃ g, ∃ G : Lˣ, bnFinalExponentiation o cfg a = some g ∧ R12 g G ∧ G = f ^ bnExponent x p ∧
      bnExponent x p * r = 2 * x * (6 * x ^ 2 + 3 * x + 1) * ((p : ℤ) ^ 12 - 1) ∧
      (r : ℤ) ∣ (p : ℤ) ^ 12 - 1 ∧ G ^ (r : ℤ) = 1 ∧
      G = (f ^ (((p : ℤ) ^ 12 - 1) / r)) ^ (2 * x * (6 * x ^ 2 + 3 * x + 1)) ∧
      (G = 1 ↔ f ^ (((p : ℤ) ^ 12 - 1) / r) = 1) := by
  obtain ⟨g, h1, h2⟩ := bn_final h cfg hl ha hx rfl
  have e1 := bnExponent_mul er ep
  have hc := bn_coprime hr er
  have hd := dvd_of_exponent e1 hc
  obtain ⟨e2, e3, e4⟩ := exponent_facts e1 (h.unit_fixed f) hc (by exact_mod_cast hr.ne_zero)
    (Int.ediv_mul_cancel hd).symm
  exact ⟨g, f ^ bnExponent x p, h1, h2, rfl, e1, hd, e2, e3, e4⟩

omit [DecidableEq k] [DecidableEq K] in
/-- C86: `BLS12Curve::FinalExponentiation` raises every non-zero `f` to an exponent `e` with
`e r = 3(p¹²-1)`, so the result is the cube of the reduced value `f^((p¹²-1)/r)`. -/
theorem C86_bls (h : o.Implements R1 R2 R12 ι j w ξ p) (hl : limbsVal cfg.x + 1 < 2 ^ (64 * cfg.x.length))
    (hx : cfg.xInt = x) (hr : r ≠ 0) (er : (r : ℤ) = blsR x) (ep : 3 * (p : ℤ) = (x - 1) ^ 2 * r + 3 * x)
    {a : γ} {f : Lˣ} (ha : R12 a f) :
    ∃ g, ∃ G : Lˣ, blsFinalExponentiation o cfg a = some g ∧ R12 g G ∧ G = f ^ blsExponent x p ∧
      blsExponent x p * r = 3 * ((p : ℤ) ^ 12 - 1) ∧
      (r : ℤ) ∣ (p : ℤ) ^ 12 - 1 ∧ G ^ (r : ℤ) = 1 ∧ G = (f ^ (((p : ℤ) ^ 12 - 1) / r)) ^ 3 ∧
      (G = 1 ↔ f ^ (((p : ℤ) ^ 12 - 1) / r) = 1) := by
  obtain ⟨g, h1, h2⟩ := bls_final h cfg hl ha hx rfl
  have e1 := blsExponent_mul er ep
  have hc := bls_coprime er
  have hd := dvd_of_exponent e1 hc
  obtain ⟨e2, e3, e4⟩ := exponent_facts e1 (h.unit_fixed f) hc (by exact_mod_cast hr)
    (Int.ediv_mul_cancel hd).symm
  exact ⟨g, f ^ blsExponent x p, h1, h2, rfl, e1, hd, e2, e3, e4⟩

omit [Field k] [DecidableEq k] [Field K] [DecidableEq K] [Nontrivial L] in
/-- C86: the final exponentiation of zero does not return (the `CHECK` or `unwrap` of the inverse
fails). -/
theorem C86_zero {k K : Type} [CommRing k] [CommRing K] {R1 : α → k → Prop} {R2 : β → K → Prop} {ι : k →+* K}
    {j : K →+* L} {ξ : K} (h : o.Implements R1 R2 R12 ι j w ξ p) (cfg : Config β) {a : γ} (ha : R12 a 0) :
    bnFinalExponentiation o cfg a = none ∧ blsFinalExponentiation o cfg a = none := by
  simp [bnFinalExponentiation, blsFinalExponentiation, easy_zero h ha]

-- The parameters of BN254 and BLS12-381.
example : bnQ 4965661367192848881 =
      21888242871839275222246405745257275088696311157297823662689037894645226208583 ∧
    bnR 4965661367192848881 =
      21888242871839275222246405745257275088548364400416034343698204186575808495617 ∧
    (6 : ℤ) ∣ bnQ 4965661367192848881 - 1 := by
  norm_num [bnQ, bnR]
example : blsR (-15132376222941642752) =
      52435875175126190479447740508185965837690552500527637822603658699938581184513 ∧
    3 * 4002409555221667393417789825735904156556882819939007885332058136124031650490837864442687629129015664037894272559787
      = (-15132376222941642752 - 1) ^ 2 * blsR (-15132376222941642752) + 3 * (-15132376222941642752 : ℤ) ∧
    2 ^ 63 ≤ 15132376222941642752 ∧ 15132376222941642752 + 1 < 2 ^ 64 := by
  norm_num [blsR]

/-! ## C85: the pairings -/

omit [Nontrivial L] in
/-- C85: the line of the specification passes through the images of `T`, `Q` and `-(T + Q)`. -/
theorem C85_line {T Q S : (twist b).Pt} (hT : T ≠ 0) (hQ : Q ≠ 0) (hTQ : T + Q ≠ 0)
    (hS : S = T ∨ S = Q ∨ S = -(T + Q)) {X Y : K} {hXY : (twist b).curve.Nonsingular X Y} (e : S = .some X Y hXY) :
    line j u (u ^ 2 * j X) (u ^ 3 * j Y) T Q = 0 := by
  rcases T with _ | ⟨X₁, Y₁, h₁⟩
  · exact absurd rfl hT
  rcases Q with _ | ⟨X₂, Y₂, h₂⟩
  · exact absurd rfl hQ
  have hxy : ¬ (X₁ = X₂ ∧ Y₁ = (twist b).curve.negY X₂ Y₂) := by
    rintro ⟨e1, e2⟩
    exact hTQ (Point.add_of_Y_eq e1 e2)
  simp only [line]
  have key : ∀ {A B : K}, B = Y₁ + (twist b).curve.slope X₁ X₂ Y₁ Y₂ * (A - X₁) →
      u ^ 3 * j B - u ^ 3 * j Y₁ - u * j ((twist b).curve.slope X₁ X₂ Y₁ Y₂) * (u ^ 2 * j A - u ^ 2 * j X₁) = 0 := by
    rintro A B rfl
    simp only [map_add, map_mul, map_sub]
    ring
  rcases hS with hS | hS | hS
  · rw [hS] at e
    injection e with e1 e2
    subst e1 e2
    exact key (by ring)
  · rw [hS] at e
    injection e with e1 e2
    subst e1 e2
    refine key ?_
    by_cases hx : X₁ = X₂
    · subst hx
      have hy : Y₁ = Y₂ := by
        have := Y_eq_of_X_eq h₁.1 h₂.1 rfl
        exact this.resolve_right fun h => hxy ⟨rfl, h⟩
      rw [hy]; ring
    · rw [slope_of_X_ne hx]
      have : X₁ - X₂ ≠ 0 := sub_ne_zero.2 hx
      field_simp
      ring
  · rw [hS, Point.add_some hxy] at e
    obtain ⟨h', e'⟩ := Curve.neg_curve (nonsingular_add h₁ h₂ hxy)
    rw [e'] at e
    injection e with e1 e2
    subst e1 e2
    refine key ?_
    simp only [addY, negAddY, negY, twist, Curve.Config.curve]
    ring

/-- C85: for points of the two groups of a BN curve, the pairing returns the product of the Miller functions `W` (the
function `f` with the divisor of the loop count, times the two Frobenius lines) to the power of the final
exponentiation, and this value is an `r`-th root of unity. -/
theorem C85_bn [Fact p.Prime] [CharP K p] (h : o.Implements R1 R2 R12 ι j w ξ p)
    (hc : BnParams cfg R2 ι j w u p r bE b cx cy x) {items : List ((twist bE).Pt × (twist b).Pt)}
    (hG : ∀ i ∈ items, (r : ℤ) • i.1 = 0 ∧ InG2 p r cx cy i.2) {as : List (Point α)} {bs : List (Point β)}
    (ha : List.Forall₂ (fun a i => Point.Rep R1 bE a i.1) as items)
    (hbs : List.Forall₂ (fun q i => Point.Rep R2 b q i.2) bs items) (hlen : as.length + 4 ≤ 2 ^ 64) :
    ∃ W g, BnValue ι j u cfg p cx cy x items W ∧ bnPairing o cfg as bs = some g ∧
      R12 g ((W ^ bnExponent x p : Lˣ) : L) ∧ (W ^ bnExponent x p) ^ (r : ℤ) = 1 := by
  obtain ⟨W, g, h1, h2, h3⟩ := bn_value h hc (fun i hi => ⟨(hG i hi).1, (hG i hi).2.order, (hG i hi).2.eigen,
    (hG i hi).2.eigen2⟩) ha hbs hlen
  refine ⟨W, g, h1, h2, h3, ?_⟩
  rw [← zpow_mul, bnExponent_mul hc.order hc.char, mul_comm, zpow_mul, h.unit_fixed, one_zpow]

/-- C85: the same for the BLS12 curves. -/
theorem C85_bls (h : o.Implements R1 R2 R12 ι j w ξ p) (hc : BlsParams cfg R2 w u p r b x)
    {items : List ((twist bE).Pt × (twist b).Pt)}
    (hG : ∀ i ∈ items, (r : ℤ) • i.1 = 0 ∧ (r : ℤ) • i.2 = 0) {as : List (Point α)} {bs : List (Point β)}
    (ha : List.Forall₂ (fun a i => Point.Rep R1 bE a i.1) as items)
    (hbs : List.Forall₂ (fun q i => Point.Rep R2 b q i.2) bs items) (hlen : as.length + 4 ≤ 2 ^ 64) :
    ∃ W g, BlsValue ι j u cfg items W ∧ blsPairing o cfg as bs = some g ∧
      R12 g ((W ^ blsExponent x p : Lˣ) : L) ∧ (W ^ blsExponent x p) ^ (r : ℤ) = 1 := by
  obtain ⟨W, g, h1, h2, h3⟩ := bls_value h hc hG ha hbs hlen
  refine ⟨W, g, h1, h2, h3, ?_⟩
  rw [← zpow_mul, blsExponent_mul hc.order hc.char, mul_comm, zpow_mul, h.unit_fixed, one_zpow]

/-- C85: the pairing of two lists of pairs is the product of the pairings. -/
theorem C85_bn_append [Fact p.Prime] [CharP K p] (h : o.Implements R1 R2 R12 ι j w ξ p)
    (hc : BnParams cfg R2 ι j w u p r bE b cx cy x) {is is' : List ((twist bE).Pt × (twist b).Pt)}
    (hG : ∀ i ∈ is ++ is', (r : ℤ) • i.1 = 0 ∧ InG2 p r cx cy i.2) {as as' : List (Point α)} {bs bs' : List (Point β)}
    (ha : List.Forall₂ (fun a i => Point.Rep R1 bE a i.1) as is)
    (ha' : List.Forall₂ (fun a i => Point.Rep R1 bE a i.1) as' is')
    (hbs : List.Forall₂ (fun q i => Point.Rep R2 b q i.2) bs is)
    (hbs' : List.Forall₂ (fun q i => Point.Rep R2 b q i.2) bs' is')
    (hlen : as.length + as'.length + 4 ≤ 2 ^ 64) :
    ∃ g g' g'', bnPairing o cfg as bs = some g ∧ bnPairing o cfg as' bs' = some g' ∧
      bnPairing o cfg (as ++ as') (bs ++ bs') = some g'' ∧ o.fp12.eq g'' (o.fp12.mul g g') = true := by
  obtain ⟨W, g, h1, h2, h3, -⟩ := C85_bn h hc (fun i hi => hG i (by simp [hi])) ha hbs (by omega)
  obtain ⟨W', g', h1', h2', h3', -⟩ := C85_bn h hc (fun i hi => hG i (by simp [hi])) ha' hbs' (by omega)
  obtain ⟨W'', g'', h1'', h2'', h3'', -⟩ := C85_bn h hc hG (List.rel_append ha ha') (List.rel_append hbs hbs')
    (by simpa using hlen)
  refine ⟨g, g', g'', h2, h2', h2'', (h.fp12.eq h3'' (h.fp12.mul h3 h3')).2 ?_⟩
  rw [h1.append h1' h1'', mul_zpow, Units.val_mul]

/-- C85: the same for the BLS12 curves. -/
theorem C85_bls_append (h : o.Implements R1 R2 R12 ι j w ξ p)
    (hc : BlsParams cfg R2 w u p r b x) {is is' : List ((twist bE).Pt × (twist b).Pt)}
    (hG : ∀ i ∈ is ++ is', (r : ℤ) • i.1 = 0 ∧ (r : ℤ) • i.2 = 0) {as as' : List (Point α)} {bs bs' : List (Point β)}
    (ha : List.Forall₂ (fun a i => Point.Rep R1 bE a i.1) as is)
    (ha' : List.Forall₂ (fun a i => Point.Rep R1 bE a i.1) as' is')
    (hbs : List.Forall₂ (fun q i => Point.Rep R2 b q i.2) bs is)
    (hbs' : List.Forall₂ (fun q i => Point.Rep R2 b q i.2) bs' is')
    (hlen : as.length + as'.length + 4 ≤ 2 ^ 64) :
    ∃ g g' g'', blsPairing o cfg as bs = some g ∧ blsPairing o cfg as' bs' = some g' ∧
      blsPairing o cfg (as ++ as') (bs ++ bs') = some g'' ∧ o.fp12.eq g'' (o.fp12.mul g g') = true := by
  obtain ⟨W, g, h1, h2, h3, -⟩ := C85_bls h hc (fun i hi => hG i (by simp [hi])) ha hbs (by omega)
  obtain ⟨W', g', h1', h2', h3', -⟩ := C85_bls h hc (fun i hi => hG i (by simp [hi])) ha' hbs' (by omega)
  obtain ⟨W'', g'', h1'', h2'', h3'', -⟩ := C85_bls h hc hG (List.rel_append ha ha') (List.rel_append hbs hbs')
    (by simpa using hlen)
  refine ⟨g, g', g'', h2, h2', h2'', (h.fp12.eq h3'' (h.fp12.mul h3 h3')).2 ?_⟩
  rw [h1.append h1' h1'', mul_zpow, Units.val_mul]

/-- C85: a pair with a point at infinity has pairing 1. -/
theorem C85_zero [Fact p.Prime] [CharP K p] (h : o.Implements R1 R2 R12 ι j w ξ p)
    {P : (twist bE).Pt} {Q : (twist b).Pt} (h0 : P = 0 ∨ Q = 0) {a : Point α} {q : Point β}
    (ha : Point.Rep R1 bE a P) (hq : Point.Rep R2 b q Q) :
    (∀ {cfg : Config β} {u : L} {r : ℕ} {cx cy : K} {x : ℤ}, BnParams cfg R2 ι j w u p r bE b cx cy x →
      (r : ℤ) • P = 0 → InG2 p r cx cy Q → ∃ g, bnPairing o cfg [a] [q] = some g ∧ o.fp12.isOne g = true) ∧
    (∀ {cfg : Config β} {u : L} {r : ℕ} {x : ℤ}, BlsParams cfg R2 w u p r b x →
      (r : ℤ) • P = 0 → (r : ℤ) • Q = 0 → ∃ g, blsPairing o cfg [a] [q] = some g ∧ o.fp12.isOne g = true) := by
  refine ⟨fun hc hP hQ => ?_, fun hc hP hQ => ?_⟩
  · obtain ⟨W, g, h1, h2, h3, -⟩ := C85_bn h hc (items := [(P, Q)]) (by simpa using ⟨hP, hQ⟩)
      (.cons ha .nil) (.cons hq .nil) (by simp)
    refine ⟨g, h2, (h.fp12.isOne h3).2 ?_⟩
    rw [h1.zero h0, one_zpow, Units.val_one]
  · obtain ⟨W, g, h1, h2, h3, -⟩ := C85_bls h hc (items := [(P, Q)]) (by simpa using ⟨hP, hQ⟩)
      (.cons ha .nil) (.cons hq .nil) (by simp)
    refine ⟨g, h2, (h.fp12.isOne h3).2 ?_⟩
    rw [h1.zero h0, one_zpow, Units.val_one]

/-- C85: negating the points of the first group inverts the pairing. -/
theorem C85_bn_neg [Fact p.Prime] [CharP K p] (h : o.Implements R1 R2 R12 ι j w ξ p)
    (hc : BnParams cfg R2 ι j w u p r bE b cx cy x) {items : List ((twist bE).Pt × (twist b).Pt)}
    (hG : ∀ i ∈ items, (r : ℤ) • i.1 = 0 ∧ InG2 p r cx cy i.2) {as : List (Point α)} {bs : List (Point β)}
    (ha : List.Forall₂ (fun a i => Point.Rep R1 bE a i.1) as items)
    (hbs : List.Forall₂ (fun q i => Point.Rep R2 b q i.2) bs items) (hlen : as.length + 4 ≤ 2 ^ 64) :
    ∃ g g', bnPairing o cfg as bs = some g ∧ bnPairing o cfg (as.map (Point.neg o.fp)) bs = some g' ∧
      o.fp12.isOne (o.fp12.mul g g') = true := by
  obtain ⟨W, g, h1, h2, h3, -⟩ := C85_bn h hc hG ha hbs hlen
  obtain ⟨W', g', h1', h2', h3', -⟩ := C85_bn h hc (items := items.map fun i => (-i.1, i.2))
    (as := as.map (Point.neg o.fp)) (bs := bs) (by
      intro i hi
      obtain ⟨i', hi', rfl⟩ := List.mem_map.1 hi
      exact ⟨by rw [smul_neg, (hG i' hi').1, neg_zero], (hG i' hi').2⟩)
    (by rw [List.forall₂_map_left_iff, List.forall₂_map_right_iff]
        exact ha.imp fun _ _ e => Point.neg_rep1 h.fp e)
    (by rw [List.forall₂_map_right_iff]; exact hbs) (by simpa using hlen)
  refine ⟨g, g', h2, h2', (h.fp12.isOne (h.fp12.mul h3 h3')).2 ?_⟩
  rw [h1.neg h hc.unit h1', Units.mul_inv]

/-- C85: the same for the BLS12 curves. -/
theorem C85_bls_neg [Fact p.Prime] [CharP K p] (h : o.Implements R1 R2 R12 ι j w ξ p)
    (hc : BlsParams cfg R2 w u p r b x) {items : List ((twist bE).Pt × (twist b).Pt)}
    (hG : ∀ i ∈ items, (r : ℤ) • i.1 = 0 ∧ (r : ℤ) • i.2 = 0) {as : List (Point α)} {bs : List (Point β)}
    (ha : List.Forall₂ (fun a i => Point.Rep R1 bE a i.1) as items)
    (hbs : List.Forall₂ (fun q i => Point.Rep R2 b q i.2) bs items) (hlen : as.length + 4 ≤ 2 ^ 64) :
    ∃ g g', blsPairing o cfg as bs = some g ∧ blsPairing o cfg (as.map (Point.neg o.fp)) bs = some g' ∧
      o.fp12.isOne (o.fp12.mul g g') = true := by
  obtain ⟨W, g, h1, h2, h3, -⟩ := C85_bls h hc hG ha hbs hlen
  obtain ⟨W', g', h1', h2', h3', -⟩ := C85_bls h hc (items := items.map fun i => (-i.1, i.2))
    (as := as.map (Point.neg o.fp)) (bs := bs) (by
      intro i hi
      obtain ⟨i', hi', rfl⟩ := List.mem_map.1 hi
      exact ⟨by rw [smul_neg, (hG i' hi').1, neg_zero], (hG i' hi').2⟩)
    (by rw [List.forall₂_map_left_iff, List.forall₂_map_right_iff]
        exact ha.imp fun _ _ e => Point.neg_rep1 h.fp e)
    (by rw [List.forall₂_map_right_iff]; exact hbs) (by simpa using hlen)
  refine ⟨g, g', h2, h2', (h.fp12.isOne (h.fp12.mul h3 h3')).2 ?_⟩
  rw [h1.neg h hc.unit h1', Units.mul_inv]

/-- C85: lists of different lengths do not return (the `CHECK` of `CreatePairs` fails). -/
theorem C85_length {α β γ : Type} (o : Ops α β γ) (cfg : Config β) {as : List (Point α)} {bs : List (Point β)}
    (hl : as.length ≠ bs.length) : bnPairing o cfg as bs = none ∧ blsPairing o cfg as bs = none := by
  simp [bnPairing, blsPairing, bnMillerLoop, blsMillerLoop, createPairs, hl]

/-- C85: the loop count the generator writes for the parameter `x ≥ 0` satisfies `BnParams`. -/
theorem C85_ateLoopCount {x : ℤ} (h0 : 0 ≤ x) (hx : 6 * x.natAbs + 2 < 2 ^ 576) :
    ∃ zs, computeAteLoopCount x.natAbs = some zs ∧ (∀ z ∈ zs, z = 0 ∨ z = 1 ∨ z = -1) ∧ zs.getLast? = some 1 ∧
      digitsVal 2 zs = |6 * x + 2| := by
  obtain ⟨zs, h1, h2, h3, h4⟩ := ateLoopCount_spec hx
  refine ⟨zs, h1, h2, h4, ?_⟩
  rw [h3, abs_of_nonneg (by omega)]
  omega

/-- C85 (disagreement): for every negative parameter the loop count the generator writes is not
`|6x + 2|` but 4 more. -/
theorem C85_ateLoopCount_negative {x : ℤ} (h0 : x < 0) (hx : 6 * x.natAbs + 2 < 2 ^ 576) :
    ∃ zs, computeAteLoopCount x.natAbs = some zs ∧ digitsVal 2 zs = |6 * x + 2| + 4 := by
  obtain ⟨zs, h1, h2, h3, h4⟩ := ateLoopCount_spec hx
  refine ⟨zs, h1, ?_⟩
  rw [h3, abs_of_neg (by omega)]
  omega

example : computeAteLoopCount 4965661367192848881 = some [0, 0, 0, 1, 0, 1, 0, -1, 0, 0, -1, 0, 0, 0, 1, 0, 0, -1, 0, -1,
    0, 0, 0, 1, 0, -1, 0, 0, 0, 0, -1, 0, 0, 1, 0, -1, 0, 0, 1, 0, 0, 0, 0, 0, -1, 0, 0, -1, 0, 1, 0, -1, 0, 0, 0, -1, 0, -1, 0,
    0, 0, 1, 0, -1, 0, 1] := by decide +kernel

/-! A BN curve with `x = -2`: `p = 373`, `r = 349`, `y² = x³ + 6`; `Fp2 = F373(i)` with `i² = 2`, `Fp6 = Fp2(X)` with
`X³ = 1/i = 187 i`, and the twist `y² = x³ + 6 i` of type D. -/

/-- The prime field of the example. -/
abbrev f373 : FieldOps (BitVec 32) := SmallField.montOps 373#32
/-- An element of the example `Fp2`. -/
abbrev f373_2 (a b : Nat) : Ext2 (BitVec 32) := ⟨f373.ofNat a, f373.ofNat b⟩
/-- The operations of the example. -/
abbrev exBnOps := towerOps f373 f373.double false
  (fun v => (Ext2.ops f373 (fp2Config f373 f373.double false)).mul v (f373_2 0 187)) (f373_2 0 187) 373 1
/-- The curve of the example, with the given loop count. -/
abbrev exBnCurve (count : List Int) : Config (Ext2 (BitVec 32)) :=
  ⟨f373_2 0 6, false, [2#64], true, count, f373_2 89 0, f373_2 269 0⟩
/-- A generator of the first group. -/
abbrev exBnP : Point (BitVec 32) := ⟨f373.ofNat 1, f373.ofNat 315⟩
/-- Twice the generator. -/
abbrev exBnP2 : Point (BitVec 32) := ⟨f373.ofNat 358, f373.ofNat 19⟩
/-- A generator of the second group. -/
abbrev exBnQ : Point (Ext2 (BitVec 32)) := ⟨f373_2 281 292, f373_2 154 15⟩

-- `e(2P, Q) = e(P, Q)² ≠ 1`, and `e(P, Q) e(P, Q) = e((P, P), (Q, Q))`
example : ((bnPairing exBnOps (exBnCurve [0, 1, 0, 1]) [exBnP] [exBnQ]).map fun g =>
    (exBnOps.fp12.isOne g,
      decide (bnPairing exBnOps (exBnCurve [0, 1, 0, 1]) [exBnP2] [exBnQ] = some (exBnOps.fp12.square g)),
      decide (bnPairing exBnOps (exBnCurve [0, 1, 0, 1]) [exBnP, exBnP] [exBnQ, exBnQ] = some (exBnOps.fp12.square g))))
    = some (false, true, true) := by
  decide +kernel

/-- C85 (disagreement): with the loop count the generator writes for `x = -2`, the result is not
multiplicative: `e(2P, Q) ≠ e(P, Q)²`. -/
theorem C85_negative_not_bilinear : ∃ zs, computeAteLoopCount 2 = some zs ∧ ∃ g g',
    bnPairing exBnOps (exBnCurve zs) [exBnP] [exBnQ] = some g ∧ bnPairing exBnOps (exBnCurve zs) [exBnP2] [exBnQ] = some g' ∧
      exBnOps.fp12.eq g' (exBnOps.fp12.square g) = false := by
  have h : ((computeAteLoopCount 2).bind fun zs => (bnPairing exBnOps (exBnCurve zs) [exBnP] [exBnQ]).bind fun g =>
      (bnPairing exBnOps (exBnCurve zs) [exBnP2] [exBnQ]).map fun g' => exBnOps.fp12.eq g' (exBnOps.fp12.square g))
        = some false := by decide +kernel
  simp only [Option.bind_eq_some_iff, Option.map_eq_some_iff] at h
  obtain ⟨zs, e1, g, e2, g', e3, e4⟩ := h
  exact ⟨zs, e1, g, g', e2, e3, e4⟩

/-! A BLS12 curve with `x = -5`: `p = 7207`, `r = 601`, `y² = x³ + 1`; `Fp2 = F7207(i)` with `i² = -1`, `Fp6 = Fp2(X)`
with `X³ = 3 + i`, and the twist `y² = x³ + 3 + i` of type M. -/

/-- The prime field of the example. -/
abbrev f7207 : FieldOps (BitVec 32) := SmallField.montOps 7207#32
/-- An element of the example `Fp2`. -/
abbrev f7207_2 (a b : Nat) : Ext2 (BitVec 32) := ⟨f7207.ofNat a, f7207.ofNat b⟩
/-- The operations of the example. -/
abbrev exBlsOps := towerOps f7207 f7207.neg true
  (fun v => (Ext2.ops f7207 (fp2Config f7207 f7207.neg true)).mul v (f7207_2 3 1)) (f7207_2 3 1) 7207 1
/-- The curve of the example. -/
abbrev exBlsCurve : Config (Ext2 (BitVec 32)) := ⟨f7207_2 3 1, true, [5#64], true, [], f7207_2 0 0, f7207_2 0 0⟩
/-- A generator of the first group. -/
abbrev exBlsP : Point (BitVec 32) := ⟨f7207.ofNat 2587, f7207.ofNat 1501⟩
/-- Twice the generator. -/
abbrev exBlsP2 : Point (BitVec 32) := ⟨f7207.ofNat 6397, f7207.ofNat 6287⟩
/-- A generator of the second group. -/
abbrev exBlsQ : Point (Ext2 (BitVec 32)) := ⟨f7207_2 2964 6344, f7207_2 1817 219⟩

/-- The prepared point with the digits the Miller loop runs over. -/
abbrev exBlsPrepared : G2Prepared (Ext2 (BitVec 32)) :=
  ⟨(prepareGo exBlsOps exBlsCurve exBlsQ (exBlsQ.neg exBlsOps.fp2) [0, 1] ⟨exBlsQ.x, exBlsQ.y, exBlsOps.fp2.one⟩).2, false⟩

/-- C85 (disagreement): the condition on the top bit of `kX` is needed. `G2Prepared::From` runs over all bits
of the limbs after the first one and `MultiMillerLoop` skips the leading zeros; for a parameter with
leading zeros the result is not multiplicative, while it is with a point prepared without them. -/
theorem C85_top_bit_needed :
    (∃ g g', blsPairing exBlsOps exBlsCurve [exBlsP] [exBlsQ] = some g ∧
      blsPairing exBlsOps exBlsCurve [exBlsP2] [exBlsQ] = some g' ∧
      exBlsOps.fp12.eq g' (exBlsOps.fp12.square g) = false) ∧
    (∃ g g', (blsMillerLoop exBlsOps exBlsCurve [exBlsP] [exBlsPrepared]).bind (blsFinalExponentiation exBlsOps exBlsCurve) = some g ∧
      (blsMillerLoop exBlsOps exBlsCurve [exBlsP2] [exBlsPrepared]).bind (blsFinalExponentiation exBlsOps exBlsCurve) = some g' ∧
      exBlsOps.fp12.isOne g = false ∧ exBlsOps.fp12.eq g' (exBlsOps.fp12.square g) = true) := by
  have h : ((blsPairing exBlsOps exBlsCurve [exBlsP] [exBlsQ]).bind fun g =>
      (blsPairing exBlsOps exBlsCurve [exBlsP2] [exBlsQ]).map fun g' => exBlsOps.fp12.eq g' (exBlsOps.fp12.square g))
        = some false := by decide +kernel
  have h' : (((blsMillerLoop exBlsOps exBlsCurve [exBlsP] [exBlsPrepared]).bind
        (blsFinalExponentiation exBlsOps exBlsCurve)).bind fun g =>
      ((blsMillerLoop exBlsOps exBlsCurve [exBlsP2] [exBlsPrepared]).bind (blsFinalExponentiation exBlsOps exBlsCurve)).map
        fun g' => (exBlsOps.fp12.isOne g, exBlsOps.fp12.eq g' (exBlsOps.fp12.square g))) = some (false, true) := by
    decide +kernel
  obtain ⟨g, e2, h⟩ := Option.bind_eq_some_iff.1 h
  obtain ⟨g', e3, e4⟩ := Option.map_eq_some_iff.1 h
  obtain ⟨f, e2', h'⟩ := Option.bind_eq_some_iff.1 h'
  obtain ⟨f', e3', e4'⟩ := Option.map_eq_some_iff.1 h'
  rw [Prod.mk.injEq] at e4'
  exact ⟨⟨g, g', e2, e3, e4⟩, f, f', e2', e3', e4'⟩

/-! The constants `kTwistMulByQX` and `kTwistMulByQY` of BN254 (bn/bn254/BUILD.bazel) are
`(9 + i)^((p-1)/3)` and `(9 + i)^((p-1)/2)`, with which `TwistConstants` holds for a twist of type D. -/

/-- A product of `F_p(i)`, `i² = -1`. -/
def natMul2 (p : Nat) (a b : Nat × Nat) : Nat × Nat :=
  ((a.1 * b.1 + (p - a.2 * b.2 % p)) % p, (a.1 * b.2 + a.2 * b.1) % p)

/-- A power by an exponent of at most `fuel` bits. -/
def natPow2 (p : Nat) (a : Nat × Nat) : Nat → Nat → Nat × Nat
  | 0, _ => (1, 0)
  | fuel + 1, e =>
    let s := natPow2 p a fuel (e / 2)
    let s := natMul2 p s s
    if e % 2 = 1 then natMul2 p s a else s

example :
    let p := 21888242871839275222246405745257275088696311157297823662689037894645226208583
    natPow2 p (9, 1) 256 ((p - 1) / 3) =
      (21575463638280843010398324269430826099269044274347216827212613867836435027261,
        10307601595873709700152284273816112264069230130616436755625194854815875713954) ∧
    natPow2 p (9, 1) 256 ((p - 1) / 2) =
      (2821565182194536844548159561693502659359617185244120367078079554186484126554,
        3505843767911556378687030309984248845540243509899259641013678093033130930403) := by
  decide +kernel

end Tachyon.Props
