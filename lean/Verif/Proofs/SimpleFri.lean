import Verif.Model.SimpleFri
import Verif.Proofs.FFTTop
import Verif.Proofs.Fri
import Verif.Proofs.Kzg
import Verif.Props.FFT
import Verif.Props.Merkle
import Verif.Props.Poly
/-! `SimpleFRI`. -/
namespace Tachyon.SimpleFri
open Tachyon.Poly Tachyon.FFT Tachyon.Group Polynomial

variable {F σ : Type} [Field F] [DecidableEq F]

/-! ### The domains -/

omit [DecidableEq F] in
theorem root_sq {cfg : RootConfig F} (hc : cfg.Valid) {k : ℕ} (hk : k + 1 ≤ 63) {w : F}
    (h : getRootOfUnity cfg (2 ^ (k + 1)) = some (some w)) : getRootOfUnity cfg (2 ^ k) = some (some (w ^ 2)) := by
  cases hl : cfg.large with
  | none =>
    rw [getRootOfUnity, hl] at h ⊢
    simp only [(log2Ceiling_pow hk).1, (log2Ceiling_pow (show k ≤ 63 by omega)).1] at h ⊢
    rw [if_neg (by omega), Int.toNat_natCast] at h
    rw [if_neg (by omega), Int.toNat_natCast]
    split at h
    · simp at h
    · next h' =>
      push Not at h'
      rw [if_neg (by push Not; exact ⟨rfl, by omega⟩)]
      simp only [Option.some.injEq] at h ⊢
      rw [← h, squareTimes_eq, squareTimes_eq, ← pow_mul, ← pow_succ]
      congr 2
      omega
  | some x =>
    obtain ⟨q, qa, root⟩ := x
    rw [RootConfig.Valid, hl] at hc
    obtain ⟨hq, hq1, hq64, -⟩ := hc
    rw [getRootOfUnity, hl] at h ⊢
    simp only [(decompose_spec hq hq1 (2 ^ (k + 1))).1 0 (k + 1) (by simp),
      (decompose_spec hq hq1 (2 ^ k)).1 0 k (by simp)] at h ⊢
    split at h
    · simp at h
    · next h' =>
      push Not at h'
      rw [if_neg (by omega)]
      simp only [Option.some.injEq] at h ⊢
      rw [← h, squareTimes_eq, squareTimes_eq, ← pow_mul, ← pow_succ]
      congr 2
      omega

theorem create_pow {cfg : RootConfig F} (hc : cfg.Valid) {m : ℕ} (hm : m ≤ 63) {d : Domain F}
    (h : Domain.create cfg (2 ^ m) = some d) :
    d.Radix2 ∧ d.logSize = m ∧ d.offset = 1 ∧ getRootOfUnity cfg (2 ^ m) = some (some d.gen) := by
  have h63 : (2 : ℕ) ^ m ≤ 2 ^ 63 := Nat.pow_le_pow_right (by norm_num) hm
  obtain ⟨j, hj, h1, h2, h3, h4⟩ := bitCeil_spec h63
  obtain rfl : j = m := le_antisymm (h4 m le_rfl) ((Nat.pow_le_pow_iff_right (by norm_num)).1 h3)
  rw [Domain.create, h1] at h
  simp only [h2] at h
  obtain ⟨r1, r2⟩ := getRootOfUnity_pow hc hj
  by_cases hA : j ≤ cfg.twoAdicity
  · obtain ⟨w, hw, hp⟩ := r1 hA
    obtain ⟨d', e, hv, hs, hl, hg, ho⟩ := Domain.new_spec (logSize := j) (Nat.two_pow_pos j) h63 hp hw
    rw [e] at h
    obtain rfl := Option.some.inj h
    exact ⟨⟨hv, by rw [hs, hl]⟩, hl, ho, by rw [hw, hg]⟩
  · rw [Domain.new, r2 (by omega)] at h
    split at h <;> cases h

/-- The domains of the layers: each has half of the elements of the last. -/
def Chain : F → List (Domain F) → Prop
  | _, [] => True
  | w, d :: ds => d.Radix2 ∧ d.logSize = ds.length + 1 ∧ d.gen = w ∧ d.offset = 1 ∧ Chain (w ^ 2) ds

theorem chain_go {cfg : RootConfig F} (hc : cfg.Valid) : ∀ (m : ℕ) (w : F) (l : List (Domain F)), m + 1 ≤ 63 →
    getRootOfUnity cfg (2 ^ (m + 1)) = some (some w) →
    (List.range m).mapM (fun i => Domain.create cfg (2 ^ (m - i))) = some l → l.length = m ∧ Chain (w ^ 2) l := by
  intro m
  induction m with
  | zero => intro w l _ _ h; cases h; exact ⟨rfl, trivial⟩
  | succ m ih =>
    intro w l hm hw h
    rw [List.range_succ_eq_map, List.mapM_cons] at h
    obtain ⟨d, hd, h⟩ := Option.bind_eq_some_iff.1 h
    obtain ⟨ds, hds, h⟩ := Option.bind_eq_some_iff.1 h
    cases h
    rw [List.mapM_map] at hds
    have h1 := root_sq hc hm hw
    obtain ⟨c1, c2, c3, c4⟩ := create_pow hc (show m + 1 ≤ 63 by omega) hd
    rw [h1] at c4
    have hg : d.gen = w ^ 2 := (Option.some.inj (Option.some.inj c4)).symm
    obtain ⟨i1, i2⟩ := ih (w ^ 2) ds (by omega) h1 (by
      rw [← hds]
      congr 1
      funext i
      congr 2
      omega)
    exact ⟨by simp [i1], c1, by rw [c2, i1], hg, c3, i2⟩

theorem chain_new {cfg : RootConfig F} (hc : cfg.Valid) {k : ℕ} (hk : k ≤ 63) {d : Domain F}
    (hd : Domain.create cfg (2 ^ k) = some d) {sub : List (Domain F)} (hs : subDomains cfg d = some sub) :
    k = sub.length + 1 ∧ d.size = 2 ^ k ∧ Chain d.gen (d :: sub) := by
  obtain ⟨h1, h2, h3, h4⟩ := create_pow hc hk hd
  have hsize : d.size = 2 ^ k := by rw [h1.2, h2]
  rw [subDomains] at hs
  split at hs
  · cases hs
  next hn =>
  have hk1 : 1 ≤ k := by
    by_contra h0
    rw [hsize, show k = 0 by omega] at hn
    simp at hn
  obtain ⟨m, rfl⟩ := Nat.exists_eq_add_of_le' hk1
  rw [h2, Nat.add_sub_cancel] at hs
  obtain ⟨c1, c2⟩ := chain_go hc m d.gen sub hk h4 (by
    rw [← hs]
    congr 1
    funext i
    congr 2
    omega)
  exact ⟨by omega, hsize, h1, by omega, rfl, h3, c2⟩

/-! ### Folding -/

omit [DecidableEq F] in
theorem two_ne_zero_of_prim {w : F} {k : ℕ} (hw : IsPrimitiveRoot w (2 ^ (k + 1))) : (2 : F) ≠ 0 := by
  intro h2
  have h1 := Fri.neg_one_of_prim hw
  have h3 : (-1 : F) = 1 := by linear_combination -h2
  rw [h3] at h1
  have := hw.dvd_of_pow_eq_one _ h1
  rw [Nat.pow_dvd_pow_iff_le_right (by norm_num)] at this
  omega

theorem fold_eval {l w : List F} {r : F} (h : Dense.fold l r = some w) :
    DClean w ∧ (∀ m, l.length ≤ 2 * m → w.length ≤ m) ∧ ∀ x : F, x ≠ 0 → (2 : F) ≠ 0 →
      (dpoly w).eval (x ^ 2) = combine (r * x⁻¹) ((dpoly l).eval x) ((dpoly l).eval (-x)) := by
  have he : 2 ∣ l.length := by
    by_contra ho
    rw [Props.C58_dense_odd l r ho] at h; cases h
  obtain ⟨w', h1, h2, h3⟩ := Props.C58_dense l r he
  rw [h] at h1
  obtain rfl := Option.some.inj h1
  have hp : dpoly w = (dpoly l).contract 2 + C r * (dpoly l).divX.contract 2 := by
    ext i
    rw [h3, coeff_add, coeff_C_mul, coeff_contract (by norm_num), coeff_contract (by norm_num), coeff_divX, mul_comm 2 i]
  refine ⟨h2, fun m hm => ?_, fun x hx h2 => ?_⟩
  · refine Kzg.length_le_of_degree h2 ?_
    rw [degree_lt_iff_coeff_zero]
    intro i hi
    have hd := degree_dpoly_lt (w := l) (n := 2 * m) hm
    rw [degree_lt_iff_coeff_zero] at hd
    rw [h3, hd _ (by omega), hd _ (by omega), mul_zero, add_zero]
  · rw [hp, combine, Fri.eval_parts (dpoly l) x, Fri.eval_parts (dpoly l) (-x), neg_sq, eval_add, eval_mul, eval_C]
    field_simp
    ring

theorem fold_even {l w : List F} {r : F} (h : Dense.fold l r = some w) : 2 ∣ l.length := by
  by_contra ho
  rw [Props.C58_dense_odd l r ho] at h; cases h

theorem fold_coeff {l w : List F} {r : F} (h : Dense.fold l r = some w) (i : ℕ) :
    (dpoly w).coeff i = (dpoly l).coeff (2 * i) + r * (dpoly l).coeff (2 * i + 1) := by
  obtain ⟨w', h1, -, h3⟩ := Props.C58_dense l r (fold_even h)
  rw [h] at h1
  obtain rfl := Option.some.inj h1
  rw [h3]

omit [DecidableEq F] in
theorem sum_even_odd (f : ℕ → F) (n : ℕ) :
    ∑ j ∈ Finset.range (n * 2), f j = ∑ j ∈ Finset.range n, (f (2 * j) + f (2 * j + 1)) := by
  induction n with
  | zero => simp
  | succ n ih =>
    rw [Finset.sum_range_succ, ← ih, show (n + 1) * 2 = n * 2 + 1 + 1 by ring, Finset.sum_range_succ, Finset.sum_range_succ,
      mul_comm n 2]
    ring

theorem withLayer_some {s : Scheme F} {tr : Kzg.Transcript σ F F} {dom : Domain F}
    {store poly : List F} {st : σ} {next : σ → Option (Option (Committed σ F))} {c : Committed σ F}
    (h : withLayer s tr dom store poly st next = some (some c)) :
    ∃ store' root st' c', layerCommit s dom store poly = some (some (store', root)) ∧ tr.absorb st root = some st' ∧
      next st' = some (some c') ∧ c = ⟨store' :: c'.stores, root :: c'.written, c'.state⟩ := by
  rw [withLayer] at h
  obtain ⟨r, hr, h⟩ := Option.bind_eq_some_iff.1 h
  match r, h with
  | none, h => cases h
  | some (store', root), h =>
    simp only at h
    cases ha : tr.absorb st root with
    | none => rw [ha] at h; cases h
    | some st' =>
      rw [ha] at h
      obtain ⟨o, ho, h⟩ := Option.map_eq_some_iff.1 h
      obtain ⟨c', rfl, rfl⟩ := Option.map_eq_some_iff.1 h
      exact ⟨store', root, st', c', hr, ha, ho, rfl⟩

/-! ### A layer -/

section
variable {s : Scheme F}

/-- What a layer stores: openings for the values of the polynomial. -/
theorem layer_spec {dom : Domain F} (hd : dom.Radix2) (ho : dom.offset = 1) {k : ℕ} (hk : dom.logSize = k + 1)
    (hk' : k + 1 < 63) (hi : (s.item dom).For dom) (ht : 0 < s.threads) (ht' : s.threads ≤ 2 ^ 63)
    {store poly store' : List F} (hp : poly.length ≤ 2 ^ 63) {root : F}
    (h : layerCommit s dom store poly = some (some (store', root))) :
    poly ≠ [] ∧ poly.length ≤ 2 ^ (k + 1) ∧ ∀ j < 2 ^ (k + 1), ∃ p, Merkle.createProof 0 store' j = some p ∧
      store'[2 ^ (k + 1) - 1 + j]? = some (s.hasher.leaf ((dpoly poly).eval (dom.gen ^ j))) ∧
      p.map Prod.fst = (List.range (k + 1)).map j.testBit ∧
      Merkle.verifyProof s.hasher root (s.hasher.leaf ((dpoly poly).eval (dom.gen ^ j))) p = true := by
  have hsize : dom.size = 2 ^ (k + 1) := by rw [hd.2, hk]
  have hlen : poly.length ≤ dom.size := by
    by_contra hlt
    rw [layerCommit, Props.C38_fft_too_long s.sched hd _ (by omega) hp ht ht'] at h
    cases h
  rw [layerCommit, Props.C38_fft s.sched hd hi poly hlen ht ht', Option.bind_some] at h
  have hne : poly ≠ [] := by
    rintro rfl
    rw [if_pos rfl, Props.C41_rejects s.hasher 0 s.maxSize 1024 s.sched store [] (by simp)
      (.inl (by rintro ⟨j, hj⟩; simp only [List.length_nil] at hj; have := Nat.two_pow_pos j; omega))] at h
    cases h
  rw [if_neg hne] at h
  set evals := (List.range dom.size).map fun i => (dpoly poly).eval (dom.offset * dom.gen ^ i) with hev
  have hel : evals.length = 2 ^ (k + 1) := by rw [hev, List.length_map, List.length_range, hsize]
  have h63 : (2 : ℕ) ^ (k + 1) < 2 ^ 63 := Nat.pow_lt_pow_right (by norm_num) hk'
  have hmax : evals.length ≤ s.maxSize := by
    by_contra hlt
    rw [Props.C41_rejects s.hasher 0 s.maxSize 1024 s.sched store evals (by omega) (.inr (by omega))] at h
    cases h
  obtain ⟨s', e, l, g⟩ := Props.C41_commit (t := 10) s.hasher 0 s.sched store evals (by omega) hk' (by norm_num) hel hmax
  rw [show (1024 : ℕ) = 2 ^ 10 by norm_num] at h
  rw [h] at e
  obtain ⟨rfl, hroot⟩ := Prod.mk.inj (Option.some.inj (Option.some.inj e))
  refine ⟨hne, by omega, fun j hj => ?_⟩
  have hval : evals[j]'(by omega) = (dpoly poly).eval (dom.gen ^ j) := by
    simp [hev, ho]
  obtain ⟨p, p1, p2, p3⟩ := Props.C41_open (t := 10) s.hasher 0 s.sched store evals (by omega) hk' (by norm_num) hel hmax
    (i := j) (by omega) h
  refine ⟨p, p1, ?_, p2, hval ▸ p3⟩
  rw [g (k + 1) j le_rfl hj, Nat.sub_self, pow_zero, mul_one, List.drop_eq_getElem_cons (by omega)]
  rw [hval]
  rfl

omit [DecidableEq F] in
/-- The index of the other evaluation. -/
theorem pow_sym {w : F} {k : ℕ} (hk : k + 1 ≤ 64) (hw : IsPrimitiveRoot w (2 ^ (k + 1))) (index : ℕ) :
    (index + 2 ^ (k + 1) / 2) % 2 ^ 64 % 2 ^ (k + 1) < 2 ^ (k + 1) ∧
      w ^ ((index + 2 ^ (k + 1) / 2) % 2 ^ 64 % 2 ^ (k + 1)) = -w ^ index := by
  refine ⟨Nat.mod_lt _ (by positivity), ?_⟩
  rw [Nat.mod_mod_of_dvd _ (pow_dvd_pow 2 hk), ← pow_eq_pow_mod _ hw.pow_eq_one, pow_succ 2 k,
    Nat.mul_div_cancel _ (by norm_num), pow_add, Fri.neg_one_of_prim hw, mul_neg_one]

/-- The verifier accepts what the prover makes, from a layer on. -/
theorem go_complete (hleaf : ∀ x, s.hasher.leaf x = x) (ht : 0 < s.threads) (ht' : s.threads ≤ 2 ^ 63)
    (tr : Kzg.Transcript σ F F) (index : ℕ) : ∀ (doms : List (Domain F)) (stores : List (List F)) (w x : F)
    (poly : List F) (st : σ) (c : Committed σ F), Chain w doms → doms.length < 62 → (∀ d ∈ doms, (s.item d).For d) →
    w ^ 2 ^ doms.length = 1 → x ≠ 0 → (2 : F) ≠ 0 → x ^ 2 = w ^ index → poly.length ≤ 2 * 2 ^ doms.length →
    commitGo s tr doms stores poly st = some (some c) →
    ∃ layers, createProof index c.stores (2 ^ doms.length) = some layers ∧
      verifyGo s.hasher tr index doms (2 ^ doms.length)
        (some ((tr.squeeze st).1 * x⁻¹, (dpoly poly).eval x, (dpoly poly).eval (-x))) layers c.written
        (tr.squeeze st).2 = some true := by
  intro doms
  induction doms with
  | nil =>
    intro stores w x poly st c _ _ _ hw hx h2 hxw hpl h
    rw [commitGo, commitLast] at h
    obtain ⟨folded, hf, h⟩ := Option.map_eq_some_iff.1 h
    obtain ⟨st', ha, rfl⟩ := Option.map_eq_some_iff.1 h
    obtain ⟨-, f2, f3⟩ := fold_eval hf
    have hw1 : w = 1 := by simpa using hw
    have hl := f2 1 (by simpa using hpl)
    have hc : (dpoly folded).eval (x ^ 2) = Dense.coeff folded 0 := by
      match folded, hl with
      | [], _ => simp [Dense.coeff, dpoly]
      | [a], _ => simp [Dense.coeff, dpoly]
    refine ⟨[], rfl, ?_⟩
    rw [verifyGo]
    simp only [ha, agrees]
    rw [← f3 x hx h2, hc, decide_eq_true rfl]
  | cons dom doms ih =>
    intro stores w x poly st c hch hlt hit hw hx h2 hxw hpl h
    obtain ⟨c1, c2, c3, c4, c5⟩ := hch
    match stores, h with
    | [], h => rw [commitGo] at h; cases h
    | store :: stores, h =>
      rw [commitGo] at h
      obtain ⟨folded, hf, h⟩ := Option.bind_eq_some_iff.1 h
      obtain ⟨store', root, st2, c', hr, ha, ho, rfl⟩ := withLayer_some h
      have hlen : (dom :: doms).length = doms.length + 1 := rfl
      rw [hlen] at hlt hw hpl ⊢
      obtain ⟨f1, f2, f3⟩ := fold_eval hf
      have hsz : (2 : ℕ) ^ (doms.length + 1) ≤ 2 ^ 63 := Nat.pow_le_pow_right (by norm_num) (by omega)
      obtain ⟨l1, l2, l3⟩ := layer_spec c1 c4 c2 (by omega) (hit dom (by simp)) ht ht'
        ((f2 _ hpl).trans hsz) hr
      have hprim : IsPrimitiveRoot w (2 ^ (doms.length + 1)) := by
        have := c1.1.prim
        rwa [c1.2, c2, c3] at this
      have hw0 : w ≠ 0 := by rw [← c3]; exact c1.1.gen_ne
      rw [c3] at l3
      obtain ⟨i1, i2⟩ := pow_sym (show doms.length + 1 ≤ 64 by omega) hprim index
      obtain ⟨p, p1, p2, -, p4⟩ := l3 (index % 2 ^ (doms.length + 1)) (Nat.mod_lt _ (by positivity))
      obtain ⟨q, q1, q2, -, q4⟩ := l3 _ i1
      rw [← pow_eq_pow_mod _ hw] at p2 p4
      rw [i2] at q2 q4
      rw [hleaf] at p2 p4 q2 q4
      obtain ⟨layers, v1, v2⟩ := ih stores (w ^ 2) (w ^ index) folded st2 c' c5 (by omega)
        (fun d hd => hit d (by simp [hd])) (by rw [← pow_mul, ← pow_succ', hw]) (pow_ne_zero _ hw0) h2
        (by rw [← pow_mul, ← pow_mul, mul_comm]) (by rw [← pow_succ']; exact l2) ho
      refine ⟨⟨(dpoly folded).eval (w ^ index), p, (dpoly folded).eval (-w ^ index), q⟩ :: layers, ?_, ?_⟩
      · rw [createProof]
        simp only [p1, p2, q1, q2]
        rw [pow_succ 2 doms.length, Nat.mul_div_cancel _ (by norm_num), v1, Option.map_some]
      · rw [verifyGo]
        simp only [ha, p4, q4, agrees, not_true_eq_false, if_false]
        rw [← f3 x hx h2, hxw, decide_eq_true rfl, if_neg (by simp)]
        have hel := (Props.C59_elements (threads := 1) c1.1 (by norm_num) (by norm_num)).1
          ((index % 2 ^ (doms.length + 1) : ℕ) : ℤ) (by omega) (by
            have := Nat.mod_lt index (show 0 < 2 ^ (doms.length + 1) by positivity)
            have : index % 2 ^ (doms.length + 1) < 2 ^ 63 := by omega
            exact_mod_cast this)
        rw [hel, c4, c3, one_mul, zpow_natCast, ← pow_eq_pow_mod _ hw, Option.bind_some, inv?,
          if_neg (pow_ne_zero _ hw0), Option.bind_some, pow_succ 2 doms.length, Nat.mul_div_cancel _ (by norm_num), v2]

/-- A commitment needs as many coefficients as the domain has elements. -/
theorem go_full (ht : 0 < s.threads) (ht' : s.threads ≤ 2 ^ 63) (tr : Kzg.Transcript σ F F) :
    ∀ (doms : List (Domain F)) (stores : List (List F)) (w : F) (poly : List F) (st : σ) (c : Committed σ F),
    Chain w doms → doms.length < 62 → (∀ d ∈ doms, (s.item d).For d) → poly ≠ [] →
    poly.length ≤ 2 * 2 ^ doms.length → commitGo s tr doms stores poly st = some (some c) →
    poly.length = 2 * 2 ^ doms.length := by
  intro doms
  induction doms with
  | nil =>
    intro stores w poly st c _ _ _ hne hpl h
    rw [commitGo, commitLast] at h
    obtain ⟨folded, hf, -⟩ := Option.map_eq_some_iff.1 h
    have he := fold_even hf
    have := List.length_pos_of_ne_nil hne
    simp only [List.length_nil, pow_zero, mul_one] at hpl ⊢
    omega
  | cons dom doms ih =>
    intro stores w poly st c hch hlt hit hne hpl h
    obtain ⟨c1, c2, c3, c4, c5⟩ := hch
    match stores, h with
    | [], h => rw [commitGo] at h; cases h
    | store :: stores, h =>
      rw [commitGo] at h
      obtain ⟨folded, hf, h⟩ := Option.bind_eq_some_iff.1 h
      obtain ⟨store', root, st2, c', hr, ha, ho, -⟩ := withLayer_some h
      have hlen : (dom :: doms).length = doms.length + 1 := rfl
      rw [hlen] at hlt hpl ⊢
      obtain ⟨f1, f2, f3⟩ := fold_eval hf
      have hsz : (2 : ℕ) ^ (doms.length + 1) ≤ 2 ^ 63 := Nat.pow_le_pow_right (by norm_num) (by omega)
      obtain ⟨l1, l2, l3⟩ := layer_spec c1 c4 c2 (by omega) (hit dom (by simp)) ht ht' ((f2 _ hpl).trans hsz) hr
      have hi := ih stores (w ^ 2) folded st2 c' c5 (by omega) (fun d hd => hit d (by simp [hd])) l1
        (by rw [← pow_succ']; exact l2) ho
      rw [← pow_succ'] at hi
      have he := fold_even hf
      have hpos := Nat.two_pow_pos (doms.length + 1)
      by_contra hn
      have := f2 (2 ^ (doms.length + 1) - 1) (by omega)
      omega

/-- The value written last, and the challenges. -/
theorem go_value (tr : Kzg.Transcript σ F F) : ∀ (doms : List (Domain F)) (stores : List (List F))
    (poly : List F) (st : σ) (c : Committed σ F), poly.length ≤ 2 * 2 ^ doms.length →
    commitGo s tr doms stores poly st = some (some c) → ∃ (b : ℕ → F) (t : ℕ → σ),
      tr.squeeze st = (b 0, t 0) ∧ c.written.length = doms.length + 1 ∧
      (∀ i < doms.length, ∃ r u, c.written[i]? = some r ∧ tr.absorb (t i) r = some u ∧
        tr.squeeze u = (b (i + 1), t (i + 1))) ∧
      (∃ v, c.written[doms.length]? = some v ∧ tr.absorb (t doms.length) v = some c.state ∧
        v = ∑ j ∈ Finset.range (2 ^ (doms.length + 1)), (dpoly poly).coeff j *
          ∏ i ∈ Finset.range (doms.length + 1), if j.testBit i then b i else 1) := by
  intro doms
  induction doms with
  | nil =>
    intro stores poly st c hpl h
    rw [commitGo, commitLast] at h
    obtain ⟨folded, hf, h⟩ := Option.map_eq_some_iff.1 h
    obtain ⟨st', ha, rfl⟩ := Option.map_eq_some_iff.1 h
    refine ⟨fun _ => (tr.squeeze st).1, fun _ => (tr.squeeze st).2, rfl, rfl, by simp, _, rfl, ha, ?_⟩
    rw [Dense.coeff_eq, fold_coeff hf]
    simp [Finset.sum_range_succ]
    ring
  | cons dom doms ih =>
    intro stores poly st c hpl h
    match stores, h with
    | [], h => rw [commitGo] at h; cases h
    | store :: stores, h =>
      rw [commitGo] at h
      obtain ⟨folded, hf, h⟩ := Option.bind_eq_some_iff.1 h
      obtain ⟨store', root, st2, c', hr, ha, ho, rfl⟩ := withLayer_some h
      obtain ⟨-, f2, -⟩ := fold_eval hf
      rw [show (dom :: doms).length = doms.length + 1 from rfl] at hpl ⊢
      obtain ⟨b, t, h1, h2, h3, v, h4, h5, h6⟩ := ih stores folded st2 c' (by rw [← pow_succ']; exact f2 _ hpl) ho
      refine ⟨fun i => i.casesOn (tr.squeeze st).1 b, fun i => i.casesOn (tr.squeeze st).2 t, rfl, by simp [h2], ?_,
        v, by simpa using h4, h5, ?_⟩
      · intro i hi
        match i with
        | 0 => exact ⟨root, st2, rfl, ha, h1⟩
        | i + 1 =>
          obtain ⟨r, u, a1, a2, a3⟩ := h3 i (by omega)
          exact ⟨r, u, by simpa using a1, a2, a3⟩
      · rw [h6, pow_succ 2 (doms.length + 1), sum_even_odd]
        refine Finset.sum_congr rfl fun j _ => ?_
        rw [fold_coeff hf, Finset.prod_range_succ' _ (doms.length + 1), Finset.prod_range_succ' _ (doms.length + 1)]
        simp only [Nat.testBit_succ, Nat.mul_div_cancel_left j (show 0 < 2 by norm_num), Nat.testBit_zero,
          show (2 * j + 1) / 2 = j by omega, show 2 * j % 2 = 0 by omega, show (2 * j + 1) % 2 = 1 by omega]
        simp
        ring

/-- What acceptance means, from a layer on. -/
theorem go_iff (h : Merkle.Hasher F F) (tr : Kzg.Transcript σ F F) (index : ℕ) : ∀ (doms : List (Domain F)) (w : F)
    (prev : Option (F × F × F)) (layers : List (Layer F)) (proof : List F) (st : σ), Chain w doms →
    doms.length < 63 → w ^ 2 ^ doms.length = 1 →
    (verifyGo h tr index doms (2 ^ doms.length) prev layers proof st = some true ↔
      ∃ (r b v : ℕ → F) (t : ℕ → σ) (L : ℕ → Layer F), t 0 = st ∧ agrees prev (v 0) = true ∧
        (∀ i < doms.length, proof[i]? = some (r i) ∧ layers[i]? = some (L i) ∧
          (∃ u, tr.absorb (t i) (r i) = some u ∧ tr.squeeze u = (b i, t (i + 1))) ∧
          Merkle.verifyProof h (r i) (L i).eval (L i).path = true ∧
          Merkle.verifyProof h (r i) (L i).evalSym (L i).pathSym = true ∧ v i = (L i).eval ∧
          v (i + 1) = combine (b i * (w ^ (2 ^ i * index))⁻¹) (L i).eval (L i).evalSym) ∧
        proof[doms.length]? = some (v doms.length) ∧ (tr.absorb (t doms.length) (v doms.length)).isSome) := by
  intro doms
  induction doms with
  | nil =>
    intro w prev layers proof st _ _ _
    match proof with
    | [] => simp [verifyGo]
    | c :: proof =>
      rw [verifyGo]
      constructor
      · intro hv
        cases ha : tr.absorb st c with
        | none => rw [ha] at hv; cases hv
        | some u =>
          rw [ha] at hv
          exact ⟨fun _ => c, fun _ => 0, fun _ => c, fun _ => st, fun _ => ⟨0, [], 0, []⟩, rfl, Option.some.inj hv, by simp,
            rfl, by simp [ha]⟩
      · rintro ⟨r, b, v, t, L, rfl, h2, -, h4, h5⟩
        obtain rfl : c = v 0 := by simpa using h4
        obtain ⟨u, hu⟩ := Option.isSome_iff_exists.1 h5
        rw [List.length_nil] at hu
        simp only [hu, h2]
  | cons dom doms ih =>
    intro w prev layers proof st hch hlt hw
    obtain ⟨c1, c2, c3, c4, c5⟩ := hch
    have hlen : (dom :: doms).length = doms.length + 1 := rfl
    rw [hlen] at hlt hw ⊢
    have hsz : (2 : ℕ) ^ (doms.length + 1) ≤ 2 ^ 63 := Nat.pow_le_pow_right (by norm_num) (by omega)
    have hw0 : w ≠ 0 := by rw [← c3]; exact c1.1.gen_ne
    have hel : ((dom.getElement ((index % 2 ^ (doms.length + 1) : ℕ) : ℤ)).bind inv?) = some (w ^ index)⁻¹ := by
      have hel := (Props.C59_elements (threads := 1) c1.1 (by norm_num) (by norm_num)).1
        ((index % 2 ^ (doms.length + 1) : ℕ) : ℤ) (by omega) (by
          have := Nat.mod_lt index (show 0 < 2 ^ (doms.length + 1) by positivity)
          have : index % 2 ^ (doms.length + 1) < 2 ^ 63 := by omega
          exact_mod_cast this)
      rw [hel, c4, c3, one_mul, zpow_natCast, ← pow_eq_pow_mod _ hw, Option.bind_some, inv?, if_neg (pow_ne_zero _ hw0)]
    have hhalf : 2 ^ (doms.length + 1) / 2 = 2 ^ doms.length := by
      rw [pow_succ, Nat.mul_div_cancel _ (by norm_num)]
    constructor
    · intro hv
      match proof, hv with
      | [], hv => rw [verifyGo] at hv; cases hv
      | root :: proof, hv =>
        rw [verifyGo] at hv
        simp only [hel, hhalf, Option.bind_some] at hv
        cases ha : tr.absorb st root with
        | none => rw [ha] at hv; cases hv
        | some u =>
          rw [ha] at hv
          match layers, hv with
          | [], hv => cases hv
          | l :: layers, hv =>
            simp only at hv
            split at hv
            · cases hv
            next e1 =>
            split at hv
            · cases hv
            next e2 =>
            split at hv
            · cases hv
            next e3 =>
            push Not at e1 e2 e3
            rw [ih (w ^ 2) _ layers proof _ c5 (by omega) (by rw [← pow_mul, ← pow_succ', hw])] at hv
            obtain ⟨r, b, v, t, L, h1, h2, h3, h4, h5⟩ := hv
            refine ⟨fun i => i.casesOn root r, fun i => i.casesOn (tr.squeeze u).1 b, fun i => i.casesOn l.eval v,
              fun i => i.casesOn st t, fun i => i.casesOn l L, rfl, e3, ?_, by simpa using h4, h5⟩
            intro i hi
            match i with
            | 0 =>
              refine ⟨rfl, rfl, ⟨u, ha, ?_⟩, e1, e2, rfl, ?_⟩
              · exact Prod.ext rfl h1.symm
              · simp only [agrees, decide_eq_true_eq] at h2
                simpa using h2.symm
            | i + 1 =>
              obtain ⟨a1, a2, a3, a4, a5, a6, a7⟩ := h3 i (by omega)
              refine ⟨by simpa using a1, by simpa using a2, a3, a4, a5, a6, ?_⟩
              rw [show 2 ^ (i + 1) * index = 2 * (2 ^ i * index) by ring, pow_mul]
              exact a7
    · rintro ⟨r, b, v, t, L, rfl, h2, h3, h4, h5⟩
      obtain ⟨a1, a2, ⟨u, a3, a3'⟩, a4, a5, a6, a7⟩ := h3 0 (by omega)
      match proof, a1 with
      | root :: proof, a1 =>
        obtain rfl : root = r 0 := by simpa using a1
        match layers, a2 with
        | l :: layers, a2 =>
          obtain rfl : l = L 0 := by simpa using a2
          rw [a6] at h2
          rw [verifyGo]
          simp only [hel, hhalf, Option.bind_some, a3, a4, a5, h2, not_true_eq_false, if_false]
          rw [ih (w ^ 2) _ layers proof _ c5 (by omega) (by rw [← pow_mul, ← pow_succ', hw]), a3']
          refine ⟨fun i => r (i + 1), fun i => b (i + 1), fun i => v (i + 1), fun i => t (i + 1), fun i => L (i + 1),
            rfl, ?_, ?_, by simpa using h4, h5⟩
          · simp only [agrees, decide_eq_true_eq]
            rw [pow_zero, one_mul] at a7
            exact a7.symm
          · intro i hi
            obtain ⟨a1, a2, a3, a4, a5, a6, a7⟩ := h3 (i + 1) (by omega)
            refine ⟨by simpa using a1, by simpa using a2, a3, a4, a5, a6, ?_⟩
            rw [show 2 ^ (i + 1) * index = 2 * (2 ^ i * index) by ring, pow_mul] at a7
            exact a7

end

end Tachyon.SimpleFri
