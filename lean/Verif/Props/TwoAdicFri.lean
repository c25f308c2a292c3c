import Verif.Proofs.TwoAdicFriCommit
/-! C77: the polynomial commitment scheme `TwoAdicFRI`. -/
namespace Tachyon.Props
open Polynomial Tachyon.Fri Tachyon.TwoAdicFri _root_.Tachyon.TwoAdicFri.Spec

section
variable {K Com Data Prf W S : Type} [Field K] [DecidableEq K]

/-! ### The parts -/

/-- C77: `InterpolateCoset` evaluates the polynomials whose values on the coset `s * <w>` are the rows, at a
point outside the coset, for every number of threads. -/
theorem C77_interpolate {env : Env K} {A : ℕ} {W' : K} (h : env.Good A W') {k : ℕ} (hk : k ≤ A)
    {s z : K} (hs : s ≠ 0) (hz : z ^ 2 ^ k ≠ s ^ 2 ^ k) {ps : List K[X]}
    (hp : ∀ p ∈ ps, p.degree < (2 ^ k : ℕ)) :
    interpolateCoset env ((List.range (2 ^ k)).map fun r => evalAll ps (s * (W' ^ 2 ^ (A - k)) ^ r)) s z =
      some (evalAll ps z) :=
  interpolateCoset_eq h hk hs hz hp

/-- C77 (finding): at a point of the coset `InterpolateCoset` gives zero, whatever the rows are, instead of
one of the rows; nothing reports it. -/
theorem C77_interpolate_in_coset {env : Env K} {A : ℕ} {W' : K} (h : env.Good A W') {k : ℕ} (hk : k ≤ A)
    {s z : K} (hs : s ≠ 0) (hz : z ^ 2 ^ k = s ^ 2 ^ k) {m : ℕ} {rows : List (List K)}
    (hr : rows.length = 2 ^ k) (hm : ∀ r ∈ rows, r.length = m) :
    interpolateCoset env rows s z = some (List.replicate m 0) := by
  have he : rows = (List.range (2 ^ k)).map fun r => (List.range m).map fun j => (rows.getD r []).getD j 0 := by
    apply List.ext_getElem (by simp [hr])
    intro i h1 h2
    have hl := hm rows[i] (List.getElem_mem h1)
    apply List.ext_getElem (by simp [hl])
    intro j g1 g2
    simp [List.getD_eq_getElem?_getD, h1, g1]
  rw [he, interpolateCoset_sum h hk hs, hz]
  simp

omit [DecidableEq K] in
/-- C77: `DotExtPowers` combines every row with the powers of the challenge, for every number of lanes. -/
theorem C77_dot {lanes : ℕ} (hl : 0 < lanes) (a : K) {mat : List (List K)} {c : ℕ} (hc : 0 < c)
    (hm : mat ≠ []) (h : ∀ r ∈ mat, r.length = c) :
    dotExtPowers lanes a mat = some (mat.map fun r => ∑ i ∈ Finset.range c, a ^ i * r.getD i 0) := by
  rw [dotExtPowers_eq hl a hc hm h, Option.some.injEq]
  exact List.map_congr_left fun r hr => by rw [dot_eq_sum, h r hr]

omit [DecidableEq K] in
/-- C77 (finding): for a matrix without columns the bound `size - 1` of the loop in
`GetExtendedPackedPowers` wraps around and the loop leaves the vector. -/
theorem C77_dot_no_columns {lanes : ℕ} (hl : 0 < lanes) (a : K) {mat : List (List K)} (h : ∀ r ∈ mat, r = []) :
    dotExtPowers lanes a mat = none := by
  have hc : cols mat = 0 := by
    cases mat with
    | nil => rfl
    | cons r mat => simp [cols, h r (by simp)]
  rw [dotExtPowers, hc, Nat.div_eq_of_lt (by omega), zero_mul, getPackedPowers, if_pos rfl]
  rfl

/-- C77: `ComputeInverseDenominators` gives for every point the inverses for all rows of every matrix that is
opened there, in the bit-reversed order of the rows. -/
theorem C77_denominators {env : Env K} {A : ℕ} {W' : K} (h : env.Good A W') (ht : env.threads < 128)
    (g : K) (l : List (ℕ × List (List K) × List K))
    (hl : ∀ x ∈ l, x.2.1.length = 2 ^ x.1 ∧ x.1 ≤ 31 ∧ x.1 ≤ A) (hpos : ∃ x ∈ l, 0 < x.1) :
    ∃ inv, inverseDenominators env (l.map Prod.snd) g = some inv ∧
      ∀ x ∈ l, ∀ z ∈ x.2.2, 2 ^ x.1 ≤ (denomOf z inv).length ∧
        ∀ i < 2 ^ x.1, (denomOf z inv).getD i 0 = (place A W' g x.1 i - z)⁻¹ :=
  inverseDenominators_eq h ht g l hl hpos

/-- C77 (finding): a matrix with a single row before the extension cannot be opened: `ReverseBitsLen` is
called for zero bits, an undefined shift. -/
theorem C77_one_row (p : Pcs K Com Data Prf) (hb : p.cfg.logBlowup ≤ 63) (a : K) (inv : List (K × List K))
    {mat : List (List K)} (hm : mat.length = 2 ^ p.cfg.logBlowup) (points : List K) (st : Reduced K) :
    openMatrix p a inv mat points st = none := by
  have hblock : block p.cfg mat p.cfg.logBlowup = none := by
    rw [block, hm, Nat.div_self (Nat.two_pow_pos _), Nat.sub_self]
    simp [Bits.reverseBitsLen]
  rw [openMatrix, hm, checkedLog2_pow hb, Option.bind_some]
  cases st.openings[p.cfg.logBlowup]? with
  | none => rfl
  | some red =>
    cases st.nums[p.cfg.logBlowup]? with
    | none => rfl
    | some num =>
      rw [Option.bind_some, Option.bind_some]
      dsimp only
      rw [hblock]
      split <;> first | rfl | (split <;> rfl)

/-! ### Honest prover and verifier -/

/-- C77: `Commit` to the values of polynomials on cosets. The prover data hold the values of the polynomials
through the columns on the larger coset of the generator, in bit-reversed order, and every row can be
opened. -/
theorem C77_commit {p : Pcs K Com Data Prf} {A : ℕ} {W' : K} (h : p.env.Good A W') (o : FFT.Sched)
    {rcfg : FFT.RootConfig K} (hcfg : rcfg.Valid) (hA : A ≤ rcfg.twoAdicity)
    (hroot : ∀ k ≤ A, FFT.getRootOfUnity rcfg (2 ^ k) = some (some (W' ^ 2 ^ (A - k))))
    {cache : FFT.Domain K → Option (FFT.Item K)}
    (hcache : ∀ d' : FFT.Domain K, d'.Radix2 → 0 < d'.logSize → ∃ it, cache d' = some it ∧ it.ForBatch d')
    (hm : LawfulMany p.mmcs) {l : List (FFT.Domain K × List (List K) × List K)} (hne : l ≠ [])
    (hl : ∀ x ∈ l, x.1.Radix2 ∧ 0 < x.1.logSize ∧ x.1.logSize + p.cfg.logBlowup ≤ min A 62 ∧
      x.2.1.length = x.1.size ∧ ∃ c > 0, ∀ row ∈ x.2.1, row.length = c) :
    ∃ com data, TwoAdicFri.commit p o rcfg cache (l.map Prod.fst) (l.map fun x => x.2.1) = some (com, data) ∧
      (Round.mk (l.map fun x => (matOf p.cfg.logBlowup x.1 x.2.1 x.2.2, x.1)) com data).Opens A W' p ∧
      DomainsFit p.cfg.logBlowup (l.map fun x => (matOf p.cfg.logBlowup x.1 x.2.1 x.2.2, x.1)) := by
  obtain ⟨com, data, h1, h2⟩ := commit_opens h o hcfg hA hroot hcache hm hne hl
  refine ⟨com, data, h1, h2, ?_⟩
  intro m hm
  obtain ⟨x, hx, rfl⟩ := List.mem_map.1 hm
  exact ⟨(hl x hx).1.2, rfl⟩

omit [DecidableEq K] in
/-- C77: such a matrix can be opened at every point outside the coset of all roots of unity. -/
theorem C77_commit_ok {A b : ℕ} {g : K} {d : FFT.Domain K} (hd : d.Radix2) (hk : 0 < d.logSize)
    (hle : d.logSize + b ≤ min A 31) {mat : List (List K)} (hr : mat.length = d.size) {c : ℕ} (hc0 : 0 < c)
    (hc : ∀ row ∈ mat, row.length = c) {pts : List K} (hp : ∀ z ∈ pts, z ^ 2 ^ A ≠ g ^ 2 ^ A) :
    (matOf b d mat pts).Ok A b g := by
  have hcols := cols_eq hc (by rw [hr]; exact hd.1.pos)
  refine ⟨?_, by simp only [matOf]; omega, hle.trans (min_le_left _ _), hle.trans (min_le_right _ _), ?_, hp⟩
  · simp [matOf, hcols]; omega
  · intro P hP
    simp only [matOf, List.mem_map] at hP
    obtain ⟨j, -, rfl⟩ := hP
    rw [matOf]
    simp only [Nat.add_sub_cancel]
    rw [← hd.2]
    refine (Lagrange.degree_interpolate_lt _ ?_).trans_eq (by rw [Finset.card_range])
    intro i hi j hj e
    exact hd.1.prim.pow_inj (by simpa using hi) (by simpa using hj) (mul_left_cancel₀ hd.1.offset e)

/-- C77: completeness. For commitments to the values of polynomials of low degree, the prover succeeds, the
values that it opens are those of the polynomials at the points, and the verifier accepts them. -/
theorem C77_complete {Com' Data' Prf' : Type} {p : Pcs K Com Data Prf} {A : ℕ} {W' : K} (h : p.env.Good A W')
    (ht : p.env.threads < 128) (hl : 0 < p.lanes) (hg : p.gen ≠ 0) (hb : 0 < p.cfg.logBlowup)
    {fmmcs : Mmcs K Com' Data' Prf'} (hm : fmmcs.Lawful) {ch : Chal K Com' W S} (hch : ch.Lawful)
    (hgrind : ∀ s, ∃ w s', ch.grind p.cfg.powBits s = some (w, s')) {rs : List (Round K Com Data)}
    (hrs : rs ≠ []) (hne : ∀ r ∈ rs, r.mats ≠ [])
    (hok : ∀ r ∈ rs, ∀ m ∈ r.mats, m.1.Ok A p.cfg.logBlowup p.gen)
    (hdom : ∀ r ∈ rs, DomainsFit p.cfg.logBlowup r.mats) (hop : ∀ r ∈ rs, r.Opens A W' p)
    (hcols : ∀ h, numCols h ((rs.flatMap Round.mats).map Prod.fst) < 2 ^ 64) (s : S) (dchecks dchecks' : Bool) :
    ∃ proof s', createOpeningProof p fmmcs ch dchecks (rs.map Round.data)
          (rs.map fun r => r.mats.map fun m => m.1.points) s =
        some ((rs.map fun r => r.mats.map fun m => m.1.points.map fun z => m.1.polys.map fun P => P.eval z,
          proof), s') ∧
      verifyOpeningProof p fmmcs ch dchecks' (rs.map fun r => (r.com, r.mats.map fun m =>
        ⟨m.2, m.1.points, m.1.points.map fun z => m.1.polys.map fun P => P.eval z⟩)) proof s = some true :=
  create_verify h ht hl hg hb hm hch hgrind hrs hne hok hdom hop hcols s dchecks dchecks'

/-! ### The verifier -/

/-- C77: what the verifier hands to FRI at place `i` of `2^n`. It stops unless for every round the opened
rows belong to the commitment, every point has values, one per column, and no point is the place itself;
then the reduced opening of a height is the combination of the quotients of all claims about the matrices
of this height. -/
theorem C77_verifier {p : Pcs K Com Data Prf} {A : ℕ} {W' : K} (h : p.env.Good A W')
    (hb : 0 < p.cfg.logBlowup) {n i : ℕ} (hnA : n ≤ A) (h31 : n ≤ 31) (hi : i < 2 ^ n) (a : K)
    (rs : List (Com × List (Claim K)))
    (hrs : ∀ r ∈ rs, ∀ c ∈ r.2, c.domain.size = 2 ^ c.domain.logSize ∧ height p.cfg.logBlowup c ≤ 63)
    (inps : List (List (List K) × Prf)) (ros : List (ℕ × K)) :
    reduceInput p a n rs i inps = some ros ↔
      (rs.length ≤ inps.length ∧ ∀ q ∈ rs.zip inps, RoundOk p A W' n i q.1.1 q.1.2 q.2) ∧
      ros = (heights n ((rs.zip inps).flatMap fun q => roundItems p.cfg.logBlowup (q.1.2, q.2.1))).map fun h =>
        (h, combine a (place A W' p.gen h (i / 2 ^ (n - h))) (collect h
          ((rs.zip inps).flatMap fun q => roundItems p.cfg.logBlowup (q.1.2, q.2.1)))) :=
  reduceInput_iff h hb hnA h31 hi a rs hrs inps ros

/-- C77: what the combination is good for. Take claims about polynomials with fewer than `d` coefficients,
and a domain with at least `d` places more than there are claims. If for as many challenges as there are
opened values the combination consists of the values of a polynomial with fewer than `d` coefficients, all
opened values are true. So if one is false, fewer challenges than there are opened values let the
combination pass. -/
theorem C77_combination {d : ℕ} (hd : 0 < d) (l : List (List K[X] × K × List K))
    (hl : ∀ e ∈ l, e.1.length = e.2.2.length ∧ ∀ p ∈ e.1, p.degree < (d : WithBot ℕ)) (D : Finset K)
    (hD : ∀ x ∈ D, ∀ e ∈ l, x ≠ e.2.1) (hcard : d + l.length ≤ D.card) (S : Finset K)
    (hS : (l.map fun e => e.1.length).sum ≤ S.card)
    (hcode : ∀ a ∈ S, ∃ Q : K[X], Q.degree < (d : WithBot ℕ) ∧ ∀ x ∈ D,
      Q.eval x = combine a x (l.map fun e => (e.2.1, e.1.map (eval x), e.2.2))) :
    ∀ e ∈ l, e.2.2 = e.1.map (eval e.2.1) :=
  combine_sound hd l hl D hD hcard S hS hcode

/-- C77 (finding): the verifier sees the opened values of a point only through their combination with the
first challenge. -/
theorem C77_values_combined {Com' Data' Prf' : Type} (p : Pcs K Com Data Prf) (fmmcs : Mmcs K Com' Data' Prf')
    (ch : Chal K Com' W S) (dchecks : Bool) {rs rs' : List (Com × List (Claim K))}
    (proof : Proof K Com' Prf' (List (List (List K) × Prf)) W) (s : S)
    (h : List.Forall₂ (fun r r' => r.1 = r'.1 ∧ List.Forall₂ (SameUnder (ch.sampleExt s).1) r.2 r'.2) rs rs') :
    verifyOpeningProof p fmmcs ch dchecks rs proof s = verifyOpeningProof p fmmcs ch dchecks rs' proof s :=
  verify_same p fmmcs ch dchecks proof s h

/-- C77 (finding): this challenge is drawn before the values are known, and nobody observes the values. So
an accepted proof is accepted for an arbitrary first value of a point of a matrix with at least two columns,
with another second value. -/
theorem C77_forge {Com' Data' Prf' : Type} (p : Pcs K Com Data Prf) (fmmcs : Mmcs K Com' Data' Prf')
    (ch : Chal K Com' W S) (dchecks : Bool) {pre post : List (Com × List (Claim K))} {com : Com}
    {cs cs' : List (Claim K)} {d : FFT.Domain K} {zs : List K} {vs vs' : List (List K)} {y₀ y₁ : K}
    {ys : List K} (proof : Proof K Com' Prf' (List (List (List K) × Prf)) W) (s : S)
    (ha : (ch.sampleExt s).1 ≠ 0)
    (h : verifyOpeningProof p fmmcs ch dchecks
      (pre ++ (com, cs ++ ⟨d, zs, vs ++ (y₀ :: y₁ :: ys) :: vs'⟩ :: cs') :: post) proof s = some true) (v : K) :
    ∃ v', verifyOpeningProof p fmmcs ch dchecks
      (pre ++ (com, cs ++ ⟨d, zs, vs ++ (v :: v' :: ys) :: vs'⟩ :: cs') :: post) proof s = some true := by
  refine ⟨y₁ + (y₀ - v) / (ch.sampleExt s).1, ?_⟩
  rw [← h]
  have hrefl : ∀ c : Claim K, SameUnder (ch.sampleExt s).1 c c := fun c =>
    ⟨rfl, rfl, List.forall₂_same.2 fun _ _ => ⟨rfl, rfl⟩⟩
  have hrefl' : ∀ l : List (Com × List (Claim K)), List.Forall₂ (fun r r' => r.1 = r'.1 ∧
      List.Forall₂ (SameUnder (ch.sampleExt s).1) r.2 r'.2) l l := fun l =>
    List.forall₂_same.2 fun _ _ => ⟨rfl, List.forall₂_same.2 fun _ _ => hrefl _⟩
  refine C77_values_combined p fmmcs ch dchecks proof s ?_
  refine List.rel_append (hrefl' pre) (.cons ⟨rfl, ?_⟩ (hrefl' post))
  refine List.rel_append (List.forall₂_same.2 fun _ _ => hrefl _) (.cons ⟨rfl, rfl, ?_⟩
    (List.forall₂_same.2 fun _ _ => hrefl _))
  refine List.rel_append (List.forall₂_same.2 fun _ _ => ⟨rfl, rfl⟩) (.cons ⟨rfl, ?_⟩
    (List.forall₂_same.2 fun _ _ => ⟨rfl, rfl⟩))
  simp only [dot]
  field_simp
  ring

end

/-! ### The records -/

/-- C77: the Merkle tree scheme of C65 satisfies the law for several matrices. -/
theorem C77_merkle {F P D : Type} [DecidableEq D] {o : MMCS.Ops F P D} {lanes : ℕ}
    (ho : o.Implements lanes) (hl : 0 < lanes) (hl2 : lanes ≤ 2 ^ 62) (dchecks : Bool) :
    LawfulMany (merkle o lanes dchecks) := by
  refine ⟨fun mats K hK hm htop => ?_⟩
  have hclog : ∀ x ∈ mats, Nat.clog 2 x.2.length = x.1 := fun x hx => by
    rw [(hm x hx).2.1, Nat.clog_pow 2 _ (by norm_num)]
  have hh : MMCS.IsHeight (mats.map Prod.snd) K := by
    constructor
    · obtain ⟨x, hx, e⟩ := htop
      exact ⟨x.2, List.mem_map.2 ⟨x, hx, rfl⟩, by rw [hclog x hx, e]⟩
    · intro m hm'
      obtain ⟨x, hx, rfl⟩ := List.mem_map.1 hm'
      rw [hclog x hx]; exact (hm x hx).1
  have hv : MMCS.Valid (mats.map Prod.snd) := by
    refine ⟨?_, ?_, ?_, ?_, ?_⟩
    · obtain ⟨x, hx, -⟩ := htop
      intro h0
      rw [List.map_eq_nil_iff] at h0
      simp [h0] at hx
    · intro m hm'
      obtain ⟨x, hx, rfl⟩ := List.mem_map.1 hm'
      rw [(hm x hx).2.1]; exact Nat.two_pow_pos _
    · intro m hm' r hr r' hr'
      obtain ⟨x, hx, rfl⟩ := List.mem_map.1 hm'
      obtain ⟨-, -, c, -, hc⟩ := hm x hx
      rw [hc r hr, hc r' hr']
    · intro a ha b hb e
      obtain ⟨x, hx, rfl⟩ := List.mem_map.1 ha
      obtain ⟨y, hy, rfl⟩ := List.mem_map.1 hb
      rw [hclog x hx, hclog y hy] at e
      rw [(hm x hx).2.1, (hm y hy).2.1, e]
    · intro m hm'
      obtain ⟨x, hx, rfl⟩ := List.mem_map.1 hm'
      rw [(hm x hx).2.1]
      exact Nat.pow_le_pow_right (by norm_num) ((hm x hx).1.trans hK)
  have hc := C65_commit ho hv hl hl2 hh dchecks
  refine ⟨_, _, by rw [merkle]; simp only; rw [hc]; rfl, rfl, fun i hi => ?_⟩
  obtain ⟨p, p1, -, p3⟩ := C65_open ho hv hl hl2 hh hc (index := i) hi (by
    intro m hm'
    obtain ⟨x, hx, rfl⟩ := List.mem_map.1 hm'
    rw [hclog x hx, (hm x hx).2.1]
    exact div_lt hi (hm x hx).1)
  have hrow : ((mats.map Prod.snd).map fun m => m.getD (i / 2 ^ (K - Nat.clog 2 m.length)) []) =
      mats.map fun x => x.2.getD (i / 2 ^ (K - x.1)) [] := by
    rw [List.map_map]
    exact List.map_congr_left fun x hx => by rw [Function.comp, hclog x hx]
  have hlen : ((mats.map Prod.snd).map List.length) = mats.map fun x => 2 ^ x.1 := by
    rw [List.map_map]
    exact List.map_congr_left fun x hx => (hm x hx).2.1
  rw [hrow] at p1 p3
  rw [hlen] at p3
  refine ⟨p, p1, ?_⟩
  rw [merkle]
  simp only
  rw [p3]
  rfl

/-! ### Examples over the field with 17 elements -/

/-- The commitment is the list of matrices. -/
def exMany : Mmcs F17 (List (List (List F17))) (List (List (List F17))) Unit where
  commit ms := some (ms, ms)
  matrices d := d
  openAt i d := some (d.map fun m => m.getD (i / (maxRows d / m.length)) [], ())
  verify c _ i rows _ := decide (rows = c.map fun m => m.getD (i / (maxRows c / m.length)) [])

/-- The subgroup has eight elements; the coset is that of the generator 3. -/
def exPcs : Pcs F17 (List (List (List F17))) (List (List (List F17))) Unit := ⟨exEnv, 4, 3, exMany, exCfg⟩

theorem exEnv_good3 : exEnv.Good 3 9 := by
  have h := exEnv_good
  refine ⟨?_, fun k hk => ?_, by decide, h.threads, h.order⟩
  · have := h.prim.pow (a := 2) (b := 2 ^ 3) (by norm_num) (by norm_num)
    simpa [show (3 : F17) ^ 2 = 9 by decide +kernel] using this
  · rw [h.root k (by omega)]
    have h9 : (9 : F17) = 3 ^ 2 := by decide +kernel
    rw [h9, ← pow_mul, show 4 - k = (3 - k) + 1 by omega, pow_succ, mul_comm]

/-- The values of `1 + 2 X + 3 X^2 + 4 X^3` and `5 + 6 X` on the coset of eight elements, and those of
`7 + 8 X` on the coset of four. -/
def exMats : List (List (List F17)) :=
  [(List.range 8).map fun i =>
      let x := 3 * 9 ^ FFT.rv 3 i
      [1 + 2 * x + 3 * x ^ 2 + 4 * x ^ 3, 5 + 6 * x],
    (List.range 4).map fun i => [7 + 8 * (3 * 13 ^ FFT.rv 2 i)]]

def exDom (k : ℕ) : FFT.Domain F17 := ⟨2 ^ k, k, 2 ^ k, 1, 1, 1, 1, 1, 1⟩

-- opened at 1 and 2, and at 2
example : ((createOpeningProof exPcs exMmcs exChal true [exMats] [[[1, 2], [2]]] 5).map fun r => r.1.1) =
    some [[[[10, 11], [49, 17]], [[23]]]] := by decide +kernel

example : ((createOpeningProof exPcs exMmcs exChal true [exMats] [[[1, 2], [2]]] 5).bind fun r =>
    verifyOpeningProof exPcs exMmcs exChal true
      [(exMats, [⟨exDom 2, [1, 2], [[10, 11], [49, 17]]⟩, ⟨exDom 1, [2], [[23]]⟩])] r.1.2 5) = some true := by
  decide +kernel

-- with a wrong value the folded values do not belong to the commitments of the rounds
example : ((createOpeningProof exPcs exMmcs exChal true [exMats] [[[1, 2], [2]]] 5).bind fun r =>
    verifyOpeningProof exPcs exMmcs exChal true
      [(exMats, [⟨exDom 2, [1, 2], [[10, 11], [48, 17]]⟩, ⟨exDom 1, [2], [[23]]⟩])] r.1.2 5) = none := by
  decide +kernel

-- two wrong values: the challenge is 5, and `44 + 5 * 18 = 49 + 5 * 17`
example : ((createOpeningProof exPcs exMmcs exChal true [exMats] [[[1, 2], [2]]] 5).bind fun r =>
    verifyOpeningProof exPcs exMmcs exChal true
      [(exMats, [⟨exDom 2, [1, 2], [[10, 11], [44, 18]]⟩, ⟨exDom 1, [2], [[23]]⟩])] r.1.2 5) = some true := by
  decide +kernel

-- the interpolation on four elements of the coset
example : interpolateCoset exEnv [[1 + 2 * 3], [1 + 2 * (3 * 13)], [1 + 2 * (3 * 13 ^ 2)], [1 + 2 * (3 * 13 ^ 3)]]
    3 1 = some [3] := by decide +kernel

-- the second element of the coset
example : interpolateCoset exEnv [[1 + 2 * 3], [1 + 2 * (3 * 13)], [1 + 2 * (3 * 13 ^ 2)], [1 + 2 * (3 * 13 ^ 3)]]
    3 (3 * 13) = some [0] := by decide +kernel

example : dotExtPowers 4 (2 : F17) [[1, 2, 3, 4, 5, 6], [0, 0, 0, 0, 0, 1]] =
    some [1 + 4 + 12 + 32 + 80 + 192, 32] := by decide +kernel

end Tachyon.Props
