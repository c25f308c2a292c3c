import Verif.Proofs.PairingNeg
import Verif.Proofs.PairingParam
/-! The values of the pairings of the two families, products and negation. -/
namespace Tachyon.Pairing
open WeierstrassCurve.Affine Tachyon.BigInt

variable {α β γ k K L : Type} [Field k] [DecidableEq k] [Field K] [DecidableEq K] [CommRing L] [Nontrivial L]
  {o : Ops α β γ}
  {R1 : α → k → Prop} {R2 : β → K → Prop} {R12 : γ → L → Prop} {ι : k →+* K} {j : K →+* L} {w : L}
  {ξ : K} {p r : ℕ} {bE : k} {b : K} {cfg : Config β} {u : L} {x : ℤ} {cx cy : K}

theorem bnExponent_mul {r : ℤ} (er : r = bnR x) {q : ℤ} (eq : q = bnQ x) :
    bnExponent x q * r = 2 * x * (6 * x ^ 2 + 3 * x + 1) * (q ^ 12 - 1) := by
  have := bn_hard er eq
  rw [bnExponent]
  linear_combination (q ^ 6 - 1) * (q ^ 2 + 1) * this

theorem blsExponent_mul {r : ℤ} (er : r = blsR x) {q : ℤ} (eq : 3 * q = (x - 1) ^ 2 * r + 3 * x) :
    blsExponent x q * r = 3 * (q ^ 12 - 1) := by
  have := bls_hard er eq
  rw [blsExponent]
  linear_combination (q ^ 6 - 1) * (q ^ 2 + 1) * this

theorem dvd_of_exponent {e r m n : ℤ} (h : e * r = m * n) (hc : IsCoprime m r) : r ∣ n :=
  hc.symm.dvd_of_dvd_mul_left (h ▸ Dvd.intro_left e rfl)

omit [DecidableEq k] [DecidableEq K] in
theorem xInt_neg (hx : cfg.xInt = x) (h0 : x ≠ 0) :
    6 * x + 2 = if cfg.xIsNegative then -|6 * x + 2| else |6 * x + 2| := by
  rw [Config.xInt] at hx
  cases hn : cfg.xIsNegative with
  | true =>
    rw [hn, if_pos rfl] at hx
    have : x < 0 := by omega
    rw [if_pos rfl, abs_of_neg (by omega)]
    ring
  | false =>
    rw [hn, if_neg (by simp)] at hx
    rw [if_neg (by simp), abs_of_nonneg (by omega)]

theorem bn_value [Fact p.Prime] [CharP K p] (h : o.Implements R1 R2 R12 ι j w ξ p)
    (hc : BnParams cfg R2 ι j w u p r bE b cx cy x)
    {items : List ((twist bE).Pt × (twist b).Pt)}
    (hG : ∀ i ∈ items, (r : ℤ) • i.1 = 0 ∧ (r : ℤ) • i.2 = 0 ∧ frobPoint p cx cy i.2 = (p : ℤ) • i.2 ∧
      frobPoint p cx cy (frobPoint p cx cy i.2) = ((p : ℤ) ^ 2) • i.2)
    {as : List (Point α)} {bs : List (Point β)}
    (ha : List.Forall₂ (fun a i => Point.Rep R1 bE a i.1) as items)
    (hbs : List.Forall₂ (fun q i => Point.Rep R2 b q i.2) bs items) (hlen : as.length + 4 ≤ 2 ^ 64) :
    ∃ W g, BnValue ι j u cfg p cx cy x items W ∧ bnPairing o cfg as bs = some g ∧
      R12 g ((W ^ bnExponent x p : Lˣ) : L) := by
  have hx0 : x ≠ 0 := by
    rintro rfl
    have := hc.order
    simp [bnR] at this
    exact hc.prime.one_lt.ne' this
  have hd : ∀ d ∈ ateDigits cfg, d = 0 ∨ d = 1 ∨ d = -1 := fun d hd =>
    hc.digits d (List.dropLast_subset _ (List.mem_reverse.1 hd))
  have hodd : (r : ℤ) % 2 = 1 := by rw [hc.order, bnR]; omega
  obtain ⟨U, V, hU, hV, g, h1, h2⟩ := bn_pairing h hc.unit hc.coeff hc.constants hc.qx hc.qy hc.limbs hd
    ((ateDigits_value hc.last).trans hc.count) (xInt_neg hc.param hx0) hc.prime hodd
    (bn_nonDegenerate hc.prime hc.order hc.char) hG ha hbs hlen hc.param rfl
  exact ⟨_, g, ⟨U, V, hU, hV, rfl⟩, h1, h2⟩

omit [DecidableEq k] [Nontrivial L] in
theorem BnValue.append {is is' : List ((twist bE).Pt × (twist b).Pt)} {W W' W'' : Lˣ}
    (h : BnValue ι j u cfg p cx cy x is W) (h' : BnValue ι j u cfg p cx cy x is' W')
    (h'' : BnValue ι j u cfg p cx cy x (is ++ is') W'') : W'' = W * W' := by
  obtain ⟨U, V, hU, hV, rfl⟩ := h
  obtain ⟨U', V', hU', hV', rfl⟩ := h'
  obtain ⟨U'', V'', hU'', hV'', rfl⟩ := h''
  have e1 : U'' = U * U' := Units.ext (by rw [hU'', Units.val_mul, hU, hU', List.map_append, List.prod_append])
  have e2 : V'' = V * V' := Units.ext (by rw [hV'', Units.val_mul, hV, hV', List.map_append, List.prod_append])
  rw [e1, e2, mul_zpow]
  exact mul_mul_mul_comm _ _ _ _

omit [DecidableEq k] [Nontrivial L] in
theorem BnValue.zero {i : (twist bE).Pt × (twist b).Pt} (hi : i.1 = 0 ∨ i.2 = 0) {W : Lˣ}
    (h : BnValue ι j u cfg p cx cy x [i] W) : W = 1 := by
  obtain ⟨U, V, hU, hV, rfl⟩ := h
  have e : ateMiller ι j u (ateDigits cfg) i.1 i.2 = 1 ∧
      bnLines ι j u (6 * x + 2) (frobPoint p cx cy) i.1 i.2 = 1 := by
    rcases hi with hi | hi
    · rw [hi]; exact ⟨rfl, rfl⟩
    · rcases i with ⟨_ | ⟨x, y, hP⟩, Q⟩ <;> simp only at hi <;> subst hi <;> simp [ateMiller, bnLines]
  have e1 : U = 1 := Units.ext (by simpa [e.1] using hU)
  have e2 : V = 1 := Units.ext (by simpa [e.2] using hV)
  rw [e1, e2, one_zpow, one_mul]

omit [DecidableEq k] in
theorem BnValue.neg [Fact p.Prime] [CharP K p] (h : o.Implements R1 R2 R12 ι j w ξ p)
    (hu : if cfg.twistM then u * w = 1 else u = w)
    {is : List ((twist bE).Pt × (twist b).Pt)} {W W' : Lˣ}
    (h1 : BnValue ι j u cfg p cx cy x is W)
    (h2 : BnValue ι j u cfg p cx cy x (is.map fun i => (-i.1, i.2)) W') :
    W' ^ bnExponent x p = (W ^ bnExponent x p)⁻¹ := by
  obtain ⟨U, V, hU, hV, rfl⟩ := h1
  obtain ⟨U', V', hU', hV', rfl⟩ := h2
  rw [List.map_map] at hU' hV'
  obtain ⟨s, hs, es⟩ := prod_neg (l := is) (p := p)
    (f := fun i => ateMiller ι j u (ateDigits cfg) i.1 i.2)
    (g := (fun i => ateMiller ι j u (ateDigits cfg) i.1 i.2) ∘ fun i => (-i.1, i.2))
    (fun i => ateMiller_neg h hu _ i.1 i.2)
  obtain ⟨s', hs', es'⟩ := prod_neg (l := is) (p := p)
    (f := fun i => bnLines ι j u (6 * x + 2) (frobPoint p cx cy) i.1 i.2)
    (g := (fun i => bnLines ι j u (6 * x + 2) (frobPoint p cx cy) i.1 i.2) ∘ fun i => (-i.1, i.2))
    (fun i => bnLines_neg h hu _ _ i.1 i.2)
  rw [← hU', ← hU] at es
  rw [← hV', ← hV] at es'
  have e1 := neg_exponent h hs es (if cfg.xIsNegative then -1 else 1)
    ((p : ℤ) ^ 3 * (12 * x ^ 3 + 6 * x ^ 2 + 4 * x - 1) + (p : ℤ) ^ 2 * (12 * x ^ 3 + 6 * x ^ 2 + 6 * x)
      + p * (12 * x ^ 3 + 6 * x ^ 2 + 4 * x) + (12 * x ^ 3 + 12 * x ^ 2 + 6 * x + 1))
  have e2 := neg_exponent h hs' es' 1
    ((p : ℤ) ^ 3 * (12 * x ^ 3 + 6 * x ^ 2 + 4 * x - 1) + (p : ℤ) ^ 2 * (12 * x ^ 3 + 6 * x ^ 2 + 6 * x)
      + p * (12 * x ^ 3 + 6 * x ^ 2 + 4 * x) + (12 * x ^ 3 + 12 * x ^ 2 + 6 * x + 1))
  rw [zpow_one, zpow_one] at e2
  rw [bnExponent, mul_zpow, mul_zpow, e1, e2, mul_inv]

/-! ## BLS12 -/

theorem bls_value (h : o.Implements R1 R2 R12 ι j w ξ p) (hc : BlsParams cfg R2 w u p r b x)
    {items : List ((twist bE).Pt × (twist b).Pt)}
    (hG : ∀ i ∈ items, (r : ℤ) • i.1 = 0 ∧ (r : ℤ) • i.2 = 0)
    {as : List (Point α)} {bs : List (Point β)}
    (ha : List.Forall₂ (fun a i => Point.Rep R1 bE a i.1) as items)
    (hbs : List.Forall₂ (fun q i => Point.Rep R2 b q i.2) bs items) (hlen : as.length + 4 ≤ 2 ^ 64) :
    ∃ W g, BlsValue ι j u cfg items W ∧ blsPairing o cfg as bs = some g ∧
      R12 g ((W ^ blsExponent x p : Lˣ) : L) := by
  have hrx : limbsVal cfg.x + 2 < r := by
    have h1 := hc.top
    have h2 : 3 ≤ limbsVal cfg.x := by
      rcases Nat.eq_zero_or_pos cfg.x.length with h0 | h0
      · rw [List.length_eq_zero_iff.1 h0] at h1; simp at h1
      · have := Nat.pow_le_pow_right (n := 2) (by norm_num) (show 63 ≤ 64 * cfg.x.length - 1 by omega)
        have : 3 ≤ 2 ^ 63 := by norm_num
        omega
    have e : (r : ℤ) = (limbsVal cfg.x : ℤ) ^ 4 - (limbsVal cfg.x : ℤ) ^ 2 + 1 := by
      rw [hc.order, blsR, ← hc.param, Config.xInt]
      split <;> ring
    have h3 : (3 : ℤ) ≤ limbsVal cfg.x := by exact_mod_cast h2
    have : ((limbsVal cfg.x + 2 : ℕ) : ℤ) < r := by
      rw [e]
      push_cast
      generalize (limbsVal cfg.x : ℤ) = n at h3
      nlinarith [mul_self_nonneg (n ^ 2 - n), mul_self_nonneg n]
    exact_mod_cast this
  obtain ⟨U, hU, g, h1, h2⟩ := bls_pairing h hc.unit hc.coeff hc.top hc.limbs hc.prime hrx hG ha hbs hlen hc.param rfl
  refine ⟨_, g, ⟨U, hU, rfl⟩, h1, ?_⟩
  rw [← zpow_mul]
  exact h2

omit [DecidableEq k] [Nontrivial L] in
theorem BlsValue.append {is is' : List ((twist bE).Pt × (twist b).Pt)} {W W' W'' : Lˣ}
    (h : BlsValue ι j u cfg is W) (h' : BlsValue ι j u cfg is' W') (h'' : BlsValue ι j u cfg (is ++ is') W'') :
    W'' = W * W' := by
  obtain ⟨U, hU, rfl⟩ := h
  obtain ⟨U', hU', rfl⟩ := h'
  obtain ⟨U'', hU'', rfl⟩ := h''
  have e1 : U'' = U * U' := Units.ext (by rw [hU'', Units.val_mul, hU, hU', List.map_append, List.prod_append])
  rw [e1, mul_zpow]

omit [DecidableEq k] [Nontrivial L] in
theorem BlsValue.zero {i : (twist bE).Pt × (twist b).Pt} (hi : i.1 = 0 ∨ i.2 = 0) {W : Lˣ}
    (h : BlsValue ι j u cfg [i] W) : W = 1 := by
  obtain ⟨U, hU, rfl⟩ := h
  have e : ateMiller ι j u (binaryDigits (limbsVal cfg.x)) i.1 i.2 = 1 := by
    rcases hi with hi | hi
    · rw [hi]; rfl
    · rcases i with ⟨_ | ⟨x, y, hP⟩, Q⟩ <;> simp only at hi <;> subst hi <;> simp [ateMiller]
  have e1 : U = 1 := Units.ext (by simpa [e] using hU)
  rw [e1, one_zpow]

omit [DecidableEq k] in
theorem BlsValue.neg [Fact p.Prime] [CharP K p] (h : o.Implements R1 R2 R12 ι j w ξ p)
    (hu : if cfg.twistM then u * w = 1 else u = w)
    {is : List ((twist bE).Pt × (twist b).Pt)} {W W' : Lˣ}
    (h1 : BlsValue ι j u cfg is W) (h2 : BlsValue ι j u cfg (is.map fun i => (-i.1, i.2)) W') :
    W' ^ blsExponent x p = (W ^ blsExponent x p)⁻¹ := by
  obtain ⟨U, hU, rfl⟩ := h1
  obtain ⟨U', hU', rfl⟩ := h2
  rw [List.map_map] at hU'
  obtain ⟨s, hs, es⟩ := prod_neg (l := is) (p := p)
    (f := fun i => ateMiller ι j u (binaryDigits (limbsVal cfg.x)) i.1 i.2)
    (g := (fun i => ateMiller ι j u (binaryDigits (limbsVal cfg.x)) i.1 i.2) ∘ fun i => (-i.1, i.2))
    (fun i => ateMiller_neg h hu _ i.1 i.2)
  rw [← hU', ← hU] at es
  exact neg_exponent h hs es _ _

end Tachyon.Pairing
