import Verif.Proofs.SimpleFri
import Verif.Props.Kzg
/-!
# C80: `SimpleFRI`

The scheme is made by its constructor from the domain of size `2 ^ k` that `Domain::Create` gives.
-/
namespace Tachyon.Props
open Tachyon.SimpleFri Tachyon.Poly Tachyon.FFT Tachyon.Group Polynomial

variable {F σ : Type} [Field F] [DecidableEq F]

/-- The scheme is one that the constructor makes for the subgroup of size `2 ^ k`, and the parallel loops
have threads and twiddle factors. -/
structure SimpleFriFor (cfg : RootConfig F) (k : ℕ) (s : SimpleFri.Scheme F) : Prop where
  valid : cfg.Valid
  small : k < 63
  domain : Domain.create cfg (2 ^ k) = some s.domain
  sub : subDomains cfg s.domain = some s.sub
  items : ∀ d ∈ s.domain :: s.sub, (s.item d).For d
  threads : 0 < s.threads
  threads' : s.threads ≤ 2 ^ 63

/-- C80: the constructor fails for a domain with one element; otherwise it makes the subgroups of all smaller
sizes down to two, and the generator of each is the square of the one before. -/
theorem C80_new {cfg : RootConfig F} (hc : cfg.Valid) {k : ℕ} (hk : k ≤ 63) {d : Domain F}
    (hd : Domain.create cfg (2 ^ k) = some d) :
    (k = 0 → subDomains cfg d = none) ∧ ∀ sub, subDomains cfg d = some sub → k = sub.length + 1 ∧
      ∀ (i : ℕ) (hi : i < sub.length), sub[i].Radix2 ∧ sub[i].size = 2 ^ (k - 1 - i) ∧ sub[i].offset = 1 ∧
        sub[i].gen = d.gen ^ 2 ^ (i + 1) := by
  refine ⟨?_, fun sub hs => ?_⟩
  · rintro rfl
    obtain ⟨h1, h2, -⟩ := create_pow hc hk hd
    rw [subDomains, h1.2, h2, if_pos (by norm_num)]
  · obtain ⟨h1, h2, h3⟩ := chain_new hc hk hd hs
    refine ⟨h1, ?_⟩
    obtain ⟨-, -, -, -, h4⟩ := h3
    have key : ∀ (l : List (Domain F)) (w : F), Chain w l → ∀ (i : ℕ) (hi : i < l.length), l[i].Radix2 ∧
        l[i].size = 2 ^ (l.length - i) ∧ l[i].offset = 1 ∧ l[i].gen = w ^ 2 ^ i := by
      intro l
      induction l with
      | nil => intro w _ i hi; simp at hi
      | cons a l ih =>
        rintro w ⟨c1, c2, c3, c4, c5⟩ i hi
        match i with
        | 0 => exact ⟨c1, by simp [c1.2, c2], c4, by simp [c3]⟩
        | i + 1 =>
          obtain ⟨e1, e2, e3, e4⟩ := ih _ c5 i (by simpa using hi)
          refine ⟨e1, by simpa using e2, e3, ?_⟩
          rw [List.getElem_cons_succ, e4, ← pow_mul, pow_succ']
    intro i hi
    obtain ⟨e1, e2, e3, e4⟩ := key sub _ h4 i hi
    refine ⟨e1, by rw [e2, h1]; congr 1, e3, by rw [e4, ← pow_mul, pow_succ']⟩

/-- C80: with a hasher whose leaf hash is the leaf, what `Commit` has written is opened at every index, and
the verifier accepts the opening. -/
theorem C80_complete {cfg : RootConfig F} {k : ℕ} {s : SimpleFri.Scheme F} (hs : SimpleFriFor cfg k s)
    (hleaf : ∀ x, s.hasher.leaf x = x) (tr : Kzg.Transcript σ F F) (stores : List (List F)) (poly : List F)
    (hp : poly.length ≤ 2 ^ 63) (st : σ) (c : Committed σ F)
    (h : SimpleFri.commit s tr stores poly st = some (some c)) (index : ℕ) :
    ∃ layers, SimpleFri.createProof index c.stores s.domain.size = some layers ∧
      SimpleFri.verifyProof s tr index layers c.written st = some true := by
  obtain ⟨hk, hsize, c1, c2, c3, c4, c5⟩ := chain_new hs.valid hs.small.le hs.domain hs.sub
  match stores, h with
  | [], h => cases h
  | store :: stores, h =>
    obtain ⟨store', root, st2, c', hr, ha, ho, rfl⟩ := withLayer_some h
    have hlt := hs.small
    obtain ⟨l1, l2, l3⟩ := layer_spec c1 c4 c2 (by omega) (hs.items _ (by simp)) hs.threads hs.threads' hp hr
    rw [hsize, hk]
    have hprim : IsPrimitiveRoot s.domain.gen (2 ^ (s.sub.length + 1)) := by
      have := c1.1.prim
      rwa [hsize, hk] at this
    have hw := hprim.pow_eq_one
    have hw0 : s.domain.gen ≠ 0 := c1.1.gen_ne
    obtain ⟨i1, i2⟩ := pow_sym (by omega) hprim index
    obtain ⟨p, p1, p2, -, p4⟩ := l3 (index % 2 ^ (s.sub.length + 1)) (Nat.mod_lt _ (by positivity))
    obtain ⟨q, q1, q2, -, q4⟩ := l3 _ i1
    rw [← pow_eq_pow_mod _ hw] at p2 p4
    rw [i2] at q2 q4
    rw [hleaf] at p2 p4 q2 q4
    obtain ⟨layers, v1, v2⟩ := go_complete hleaf hs.threads hs.threads' tr index s.sub stores (s.domain.gen ^ 2)
      (s.domain.gen ^ index) poly st2 c' c5 (by omega)
      (fun d hd => hs.items d (by simp [hd])) (by rw [← pow_mul, ← pow_succ', hw]) (pow_ne_zero _ hw0)
      (two_ne_zero_of_prim hprim) (by rw [← pow_mul, ← pow_mul, mul_comm]) (by rw [← pow_succ']; exact l2) ho
    refine ⟨⟨(dpoly poly).eval (s.domain.gen ^ index), p, (dpoly poly).eval (-s.domain.gen ^ index), q⟩ :: layers, ?_, ?_⟩
    · rw [SimpleFri.createProof]
      simp only [p1, p2, q1, q2]
      rw [pow_succ 2 s.sub.length, Nat.mul_div_cancel _ (by norm_num), v1, Option.map_some]
    · rw [SimpleFri.verifyProof, verifyGo]
      simp only [ha, p4, q4, agrees, not_true_eq_false, if_false, hsize, hk]
      have hsz : (2 : ℕ) ^ (s.sub.length + 1) ≤ 2 ^ 63 := Nat.pow_le_pow_right (by norm_num) (by omega)
      have hel := (C59_elements (threads := 1) c1.1 (by norm_num) (by norm_num)).1
        ((index % 2 ^ (s.sub.length + 1) : ℕ) : ℤ) (by omega) (by
          have := Nat.mod_lt index (show 0 < 2 ^ (s.sub.length + 1) by positivity)
          have : index % 2 ^ (s.sub.length + 1) < 2 ^ 63 := by omega
          exact_mod_cast this)
      rw [hel, c4, one_mul, zpow_natCast, ← pow_eq_pow_mod _ hw, Option.bind_some, inv?,
        if_neg (pow_ne_zero _ hw0), Option.bind_some, pow_succ 2 s.sub.length, Nat.mul_div_cancel _ (by norm_num), v2]

/-- C80: `Commit` writes one root for each layer and then the polynomial's multilinear value: with the
challenges `β`, coefficient `j` is multiplied by the `β i` of the bits of `j`. -/
theorem C80_value {cfg : RootConfig F} {k : ℕ} {s : SimpleFri.Scheme F} (hs : SimpleFriFor cfg k s)
    (tr : Kzg.Transcript σ F F) (stores : List (List F)) (poly : List F) (hp : poly.length ≤ 2 ^ 63) (st : σ)
    (c : Committed σ F) (h : SimpleFri.commit s tr stores poly st = some (some c)) :
    ∃ (β : ℕ → F) (t : ℕ → σ), t 0 = st ∧ c.written.length = k + 1 ∧
      (∀ i < k, ∃ r u, c.written[i]? = some r ∧ tr.absorb (t i) r = some u ∧ tr.squeeze u = (β i, t (i + 1))) ∧
      ∃ v, c.written[k]? = some v ∧ tr.absorb (t k) v = some c.state ∧
        v = ∑ j ∈ Finset.range (2 ^ k), (dpoly poly).coeff j * ∏ i ∈ Finset.range k, if j.testBit i then β i else 1 := by
  obtain ⟨hk, hsize, c1, c2, c3, c4, c5⟩ := chain_new hs.valid hs.small.le hs.domain hs.sub
  match stores, h with
  | [], h => cases h
  | store :: stores, h =>
    obtain ⟨store', root, st2, c', hr, ha, ho, rfl⟩ := withLayer_some h
    have hlt := hs.small
    obtain ⟨l1, l2, l3⟩ := layer_spec c1 c4 c2 (by omega) (hs.items _ (by simp)) hs.threads hs.threads' hp hr
    obtain ⟨b, t, h1, h2, h3, v, h4, h5, h6⟩ := go_value tr s.sub stores poly st2 c' (by rw [← pow_succ']; exact l2) ho
    subst hk
    refine ⟨b, fun i => i.casesOn st t, rfl, by simp [h2], ?_, v, by simpa using h4, h5, h6⟩
    intro i hi
    match i with
    | 0 => exact ⟨root, st2, rfl, ha, h1⟩
    | i + 1 =>
      obtain ⟨r, u, a1, a2, a3⟩ := h3 i (by omega)
      exact ⟨r, u, by simpa using a1, a2, a3⟩

/-- C80 (finding): `Commit` succeeds only for a polynomial with exactly as many coefficients as the domain has
elements. A shorter one becomes odd in length before the last folding, which reads out of bounds. -/
theorem C80_full {cfg : RootConfig F} {k : ℕ} {s : SimpleFri.Scheme F} (hs : SimpleFriFor cfg k s)
    (tr : Kzg.Transcript σ F F) (stores : List (List F)) (poly : List F) (hp : poly.length ≤ 2 ^ 63) (st : σ)
    (c : Committed σ F) (h : SimpleFri.commit s tr stores poly st = some (some c)) : poly.length = 2 ^ k := by
  obtain ⟨hk, hsize, c1, c2, c3, c4, c5⟩ := chain_new hs.valid hs.small.le hs.domain hs.sub
  match stores, h with
  | [], h => cases h
  | store :: stores, h =>
    obtain ⟨store', root, st2, c', hr, ha, ho, rfl⟩ := withLayer_some h
    have hlt := hs.small
    obtain ⟨l1, l2, l3⟩ := layer_spec c1 c4 c2 (by omega) (hs.items _ (by simp)) hs.threads hs.threads' hp hr
    rw [go_full hs.threads hs.threads' tr s.sub stores _ poly st2 c' c5 (by omega) (fun d hd => hs.items d (by simp [hd]))
      l1 (by rw [← pow_succ']; exact l2) ho, hk, pow_succ']

/-- C80 (finding): so the zero polynomial is refused, and a polynomial with an odd number of coefficients, such
as a constant, is an out-of-bounds read as soon as the transcript takes the root of the first layer. -/
theorem C80_zero_odd {cfg : RootConfig F} {k : ℕ} {s : SimpleFri.Scheme F} (hs : SimpleFriFor cfg k s)
    (tr : Kzg.Transcript σ F F) (store : List F) (stores : List (List F)) (st : σ) :
    SimpleFri.commit s tr (store :: stores) [] st = some none ∧
    ∀ poly : List F, ¬ 2 ∣ poly.length → poly.length ≤ 2 ^ k → 2 ^ k ≤ s.maxSize → stores.length = s.sub.length →
      (∀ r, (tr.absorb st r).isSome) → SimpleFri.commit s tr (store :: stores) poly st = none := by
  obtain ⟨hk, hsize, c1, c2, c3, c4, c5⟩ := chain_new hs.valid hs.small.le hs.domain hs.sub
  refine ⟨?_, fun poly ho hl hm hst ha => ?_⟩
  · rw [SimpleFri.commit, withLayer, layerCommit, C38_fft s.sched c1 (hs.items _ (by simp)) [] (by simp) hs.threads hs.threads',
      Option.bind_some, if_pos rfl, C41_rejects s.hasher 0 s.maxSize 1024 s.sched store [] (by simp)
      (.inl (by rintro ⟨j, hj⟩; simp only [List.length_nil] at hj; have := Nat.two_pow_pos j; omega))]
    rfl
  · have hne : poly ≠ [] := by rintro rfl; simp at ho
    rw [SimpleFri.commit, withLayer, layerCommit, C38_fft s.sched c1 (hs.items _ (by simp)) poly (by omega) hs.threads hs.threads',
      Option.bind_some, if_neg hne]
    obtain ⟨s', e, -⟩ := C41_commit (t := 10) (k := k) s.hasher 0 (maxSize := s.maxSize) s.sched store
      ((List.range s.domain.size).map fun i => (dpoly poly).eval (s.domain.offset * s.domain.gen ^ i))
      (by omega) hs.small (by norm_num) (by simp [hsize]) (by simpa [hsize] using hm)
    rw [show (1024 : ℕ) = 2 ^ 10 by norm_num, e, Option.bind_some]
    obtain ⟨u, hu⟩ := Option.isSome_iff_exists.1
      (ha (Merkle.Spec.root s.hasher.leaf s.hasher.parent 0 k
        ((List.range s.domain.size).map fun i => (dpoly poly).eval (s.domain.offset * s.domain.gen ^ i))))
    simp only [hu]
    have hz : commitGo s tr s.sub stores poly u = none := by
      cases hsub : s.sub with
      | nil => rw [commitGo, commitLast, C58_dense_odd _ _ ho]; rfl
      | cons d ds =>
        rw [hsub] at hst
        match stores, hst with
        | a :: as, _ => rw [commitGo, C58_dense_odd _ _ ho]; rfl
    rw [hz]
    rfl

/-- C80: what the verifier checks. The proof starts with a root `r i` for each of the `k` layers and the last
value; both evaluations of every layer have a path to its root; the value of a layer is what the last layer gives
with the challenge, `(e + e') / 2 + β (e - e') / (2 x)` at `x = ω ^ (2 ^ i * index)`; and so is the last value. -/
theorem C80_equation {cfg : RootConfig F} {k : ℕ} {s : SimpleFri.Scheme F} (hs : SimpleFriFor cfg k s)
    (tr : Kzg.Transcript σ F F) (index : ℕ) (layers : List (Layer F)) (proof : List F) (st : σ) :
    SimpleFri.verifyProof s tr index layers proof st = some true ↔
      ∃ (r β v : ℕ → F) (t : ℕ → σ) (L : ℕ → Layer F), t 0 = st ∧
        (∀ i < k, proof[i]? = some (r i) ∧ layers[i]? = some (L i) ∧
          (∃ u, tr.absorb (t i) (r i) = some u ∧ tr.squeeze u = (β i, t (i + 1))) ∧
          Merkle.verifyProof s.hasher (r i) (L i).eval (L i).path = true ∧
          Merkle.verifyProof s.hasher (r i) (L i).evalSym (L i).pathSym = true ∧ v i = (L i).eval ∧
          v (i + 1) = ((L i).eval + (L i).evalSym) / 2 +
            β i * (((L i).eval - (L i).evalSym) / (2 * s.domain.gen ^ (2 ^ i * index)))) ∧
        proof[k]? = some (v k) ∧ (tr.absorb (t k) (v k)).isSome := by
  obtain ⟨hk, hsize, hch⟩ := chain_new hs.valid hs.small.le hs.domain hs.sub
  have hprim : IsPrimitiveRoot s.domain.gen (2 ^ (s.sub.length + 1)) := by
    have := hch.1.1.prim
    rwa [hsize, hk] at this
  have h2 := two_ne_zero_of_prim hprim
  have hw0 : s.domain.gen ≠ 0 := hch.1.1.gen_ne
  have hlen : (s.domain :: s.sub).length = k := by rw [hk]; rfl
  have := go_iff s.hasher tr index (s.domain :: s.sub) s.domain.gen none layers proof st hch
    (by rw [hlen]; exact hs.small) (by rw [hlen, hk]; exact hprim.pow_eq_one)
  rw [hlen] at this
  rw [SimpleFri.verifyProof, hsize, this]
  simp only [agrees, true_and]
  have hcomb : ∀ (b e e' : F) (i : ℕ), combine (b * (s.domain.gen ^ (2 ^ i * index))⁻¹) e e' =
      (e + e') / 2 + b * ((e - e') / (2 * s.domain.gen ^ (2 ^ i * index))) := by
    intro b e e' i
    have := pow_ne_zero (2 ^ i * index) hw0
    rw [combine]
    field_simp
    ring
  simp only [hcomb]

/-- C80 (finding): the directions of the paths are not compared with the index. If every root has a path from
some leaf `c`, one proof is accepted at every index: its evaluation is `c` everywhere, whatever the tables
hold at that index. -/
theorem C80_unbound {cfg : RootConfig F} {k : ℕ} {s : SimpleFri.Scheme F} (hs : SimpleFriFor cfg k s)
    (tr : Kzg.Transcript σ F F) (htr : ∀ st r, (tr.absorb st r).isSome) (c : F) (roots : List F)
    (paths : List (List (Merkle.Path F))) (hr : roots.length = k) (hpl : paths.length = k)
    (hp : ∀ (i : ℕ) (hi : i < k), Merkle.verifyProof s.hasher (roots[i]'(hr ▸ hi)) c (paths[i]'(hpl ▸ hi)) = true)
    (index : ℕ) (st : σ) :
    SimpleFri.verifyProof s tr index (paths.map fun p => ⟨c, p, c, p⟩) (roots ++ [c]) st = some true := by
  rw [C80_equation hs]
  let t : ℕ → σ := fun n => n.rec st fun i u => (tr.squeeze ((tr.absorb u (roots.getD i 0)).getD u)).2
  have hprim : (2 : F) ≠ 0 := by
    obtain ⟨hk, hsize, hch⟩ := chain_new hs.valid hs.small.le hs.domain hs.sub
    have := hch.1.1.prim
    rw [hsize, hk] at this
    exact two_ne_zero_of_prim this
  refine ⟨fun i => roots.getD i 0, fun i => (tr.squeeze ((tr.absorb (t i) (roots.getD i 0)).getD (t i))).1, fun _ => c, t,
    fun i => ⟨c, paths.getD i [], c, paths.getD i []⟩, rfl, fun i hi => ?_, ?_, htr _ _⟩
  · have h1 : i < roots.length := by omega
    have h2 : i < paths.length := by omega
    obtain ⟨u, hu⟩ := Option.isSome_iff_exists.1 (htr (t i) (roots.getD i 0))
    have hv := hp i hi
    refine ⟨by simp [List.getElem?_append_left h1, h1], by simp [h2], ⟨u, hu, ?_⟩, by simpa [h1, h2] using hv,
      by simpa [h1, h2] using hv, rfl, ?_⟩
    · refine Prod.ext (by simp only [hu]; rfl) ?_
      show (tr.squeeze u).2 = (tr.squeeze ((tr.absorb (t i) (roots.getD i 0)).getD (t i))).2
      rw [hu]
      rfl
    · rw [sub_self, zero_div, mul_zero, add_zero]
      field_simp
      ring
  · rw [← hr, List.getElem?_append_right le_rfl, Nat.sub_self]
    rfl

/-! ### Examples over the field with 17 elements -/

/-- The scheme for the subgroup of size four, whose generator is 13. -/
def exFri (leaf : F17 → F17) : Option (SimpleFri.Scheme F17) :=
  (Domain.create exConfig 4).bind fun d => (subDomains exConfig d).map fun sub =>
    ⟨d, sub, ⟨leaf, fun a b => a * a + 3 * b + 1⟩, 4, 1, Sched.seq,
      fun d => (Item.new 1 Sched.seq true d false).getD ⟨[], [], [], [], [], [], none⟩⟩

/-- Commits, opens at the index and verifies. -/
def exFriRun (s : Option (SimpleFri.Scheme F17)) (poly : List F17) (index : ℕ) : Option (Option Bool) :=
  s.bind fun s => (SimpleFri.commit s exTranscript [[], []] poly 7).bind fun
    | none => some none
    | some c => (SimpleFri.createProof index c.stores s.domain.size).bind fun l =>
        (SimpleFri.verifyProof s exTranscript index l c.written 7).map some

example : ∀ s ∈ exFri id, SimpleFriFor exConfig 2 s := by
  intro s hs
  obtain ⟨d, hd, hs⟩ := Option.bind_eq_some_iff.1 hs
  obtain ⟨sub, hsub, rfl⟩ := Option.map_eq_some_iff.1 hs
  obtain ⟨-, h2⟩ := C80_new exConfig_valid (k := 2) (by norm_num) hd
  obtain ⟨hl, h3⟩ := h2 sub hsub
  refine ⟨exConfig_valid, by norm_num, hd, hsub, ?_, by norm_num, by norm_num⟩
  have key : ∀ d : Domain F17, d.Radix2 →
      ((Item.new 1 Sched.seq true d false).getD ⟨[], [], [], [], [], [], none⟩).For d := by
    intro d hd
    obtain ⟨i, e, hi⟩ := C60_item (threads := 1) Sched.seq true hd (by norm_num) (by norm_num)
    rw [e]
    exact hi
  intro d' hd'
  rcases List.mem_cons.1 hd' with rfl | hm
  · exact key _ (create_pow exConfig_valid (m := 2) (by norm_num) hd).1
  · obtain ⟨i, hi, rfl⟩ := List.getElem_of_mem hm
    exact key _ (h3 i hi).1

example : (exFri id).map (fun s => (s.domain.gen, s.sub.map fun d => d.gen)) = some (13, [16]) := by decide +kernel
example : ∀ i < 9, exFriRun (exFri id) [1, 2, 3, 4] i = some (some true) := by decide +kernel
-- too short: the folded polynomials are `[1 + 2 β]` and then odd
example : exFriRun (exFri id) [1, 2] 0 = none ∧ exFriRun (exFri id) [] 0 = some none := by decide +kernel

/-- C80 (finding): the opening takes the evaluations from the tree, so with a leaf hash other than the leaf itself
it has the hashes: an honest proof is rejected. -/
theorem C80_leaf : exFriRun (exFri fun x => 2 * x + 3) [1, 2, 3, 4] 1 = some (some false) := by decide +kernel

/-- The same scheme on the coset by 3. -/
def exFriCoset : Option (SimpleFri.Scheme F17) :=
  (exFri id).bind fun s => (s.domain.getCoset 3).map fun d => { s with domain := d }

/-- C80 (finding): the sub-domains are subgroups whatever the domain is, so on a coset an honest proof is
rejected. -/
theorem C80_coset : exFriRun exFriCoset [1, 2, 3, 5] 1 = some (some false) := by decide +kernel

-- a challenge that makes the leading coefficient vanish ends the commitment with an out-of-bounds read
example : exFriRun exFriCoset [1, 2, 3, 4] 1 = none := by decide +kernel

end Tachyon.Props
