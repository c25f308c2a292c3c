import Verif.Proofs.KzgGwc
import Verif.Props.Group
import Verif.Props.FFT
/-!
# C78: KZG and GWC

The setup, the commitments, batch mode, and the proofs of `GWC`: `tachyon/crypto/commitments/kzg/kzg.h`,
`kzg_family.h`, `gwc.h` and `tachyon/crypto/commitments/polynomial_openings.h`.
-/
namespace Tachyon.Props
open Tachyon.Kzg Tachyon.Poly Tachyon.FFT Tachyon.Group Polynomial

variable {F G G2 GT σ : Type} [Field F] [DecidableEq F] [AddCommGroup G] [Module F G] [AddCommGroup G2]
  [Module F G2] [AddCommGroup GT] [Module F GT] [DecidableEq GT]

/-! ### The setup -/

/-- C78: `UnsafeSetup` for a power of two: the multiples by the powers of the secret, and by the Lagrange
polynomials of the domain at the secret. -/
theorem C78_setup {threads : ℕ} (ht : 0 < threads) (ht' : threads < 128) {cfg : RootConfig F} (hc : cfg.Valid)
    (g : G) (tau : F) {m : ℕ} (hm : m ≤ cfg.twoAdicity) (hm' : m ≤ 63) :
    ∃ k d, unsafeSetup threads cfg g (2 ^ m) tau = some k ∧ Domain.create cfg (2 ^ m) = some d ∧ k.batch = [] ∧
      IsPrimitiveRoot d.gen (2 ^ m) ∧ k.For g tau (2 ^ m) ∧
      k.lagrange = (List.range (2 ^ m)).map fun i =>
        (Lagrange.basis (Finset.range (2 ^ m)) (fun j => d.gen ^ j) i).eval tau • g := by
  have h63 : 2 ^ m ≤ 2 ^ 63 := Nat.pow_le_pow_right (by norm_num) hm'
  obtain ⟨j, -, h1, h2, -, h4, -⟩ := C59_create hc h63
  have hj : j = m := le_antisymm (h2 m le_rfl) ((Nat.pow_le_pow_iff_right (by norm_num)).1 h1)
  obtain ⟨d, d1, d2, d3, d4⟩ := h4 (hj ▸ hm)
  have hsize : d.size = 2 ^ m := by rw [d2.2, d3, hj]
  rw [unsafeSetup, C23_powers threads (2 ^ m) tau 1 ht h63 (by omega), mapScalars, if_neg (by simp), setupLagrange, d1,
    Option.bind_some, Option.bind_some, C39_all d2.1 tau ht ht', Option.bind_some, mapScalars, if_neg (by simp [hsize])]
  refine ⟨_, d, rfl, rfl, rfl, hsize ▸ d2.1.prim, ?_, ?_⟩
  · rw [Setup.For, List.map_map]
    exact List.map_congr_left fun i _ => by simp
  · show List.map _ (List.map _ _) = _
    rw [List.map_map, hsize]
    refine List.map_congr_left fun i _ => ?_
    simp [d4]

/-- C78: `UnsafeSetup` fails for every other size. -/
theorem C78_setup_size {threads : ℕ} (ht : 0 < threads) (ht' : threads < 128) {cfg : RootConfig F} (hc : cfg.Valid)
    (g : G) (tau : F) {n : ℕ} (hn : n ≤ 2 ^ 63) (h : ∀ m ≤ cfg.twoAdicity, n ≠ 2 ^ m) :
    unsafeSetup threads cfg g n tau = none := by
  obtain ⟨j, -, h1, h2, -, h4, h5⟩ := C59_create hc hn
  rw [unsafeSetup, C23_powers threads n tau 1 ht hn (by omega), mapScalars, if_neg (by simp), setupLagrange]
  by_cases hj : j ≤ cfg.twoAdicity
  · obtain ⟨d, d1, d2, d3, -⟩ := h4 hj
    rw [d1, Option.bind_some, Option.bind_some, C39_all d2.1 tau ht ht', Option.bind_some, mapScalars, if_pos]
    · rfl
    rw [List.length_map, List.length_range, d2.2, d3]
    exact fun e => h j hj e.symm
  · rw [h5 (by omega)]; rfl

/-- C78: `UnsafeSetup` of a scheme: ready, with the setup above, `tau` times the generator of the other group,
and the second arguments of the pairings of the verifier. -/
theorem C78_scheme {threads : ℕ} (ht : 0 < threads) (ht' : threads < 128) {cfg : RootConfig F} (hc : cfg.Valid)
    (g : G) (g2 : G2) (tau : F) {m : ℕ} (hm : m ≤ cfg.twoAdicity) (hm' : m ≤ 63) :
    ∃ s, Scheme.unsafeSetup threads cfg g g2 (2 ^ m) tau = some s ∧ s.Ready ∧ s.For g2 tau ∧ s.sG2 = tau • g2 ∧
      s.kzg.For g tau (2 ^ m) := by
  obtain ⟨k, d, h1, -, h3, -, h5, -⟩ := C78_setup ht ht' hc g tau hm hm'
  exact ⟨⟨k, false, 0, tau • g2, (tau • g2, -g2)⟩, by rw [Scheme.unsafeSetup, h1, Option.map_some], ⟨rfl, rfl, h3⟩,
    rfl, rfl, h5⟩

omit [DecidableEq F] [Module F G] [AddCommGroup G] in
/-- C78: the constructor of `KZG` takes as many powers as Lagrange elements, up to the largest degree. -/
theorem C78_new (n : ℕ) (p l : List G) :
    (p.length = l.length → p.length ≤ n + 1 → Setup.new n p l = some ⟨p, l, []⟩) ∧
    (p.length ≠ l.length ∨ n + 1 < p.length → Setup.new n p l = none) := by
  constructor
  · intro h h'
    rw [Setup.new, if_neg (by simpa using h), if_neg (by omega)]
  · intro h
    rw [Setup.new]
    split
    · rfl
    · next hne => rw [if_pos (h.resolve_left hne)]

/-- C78: at the bound. -/
example : Setup.new 1 [(3 : F17), 5] [1, 2] = some ⟨[3, 5], [1, 2], []⟩ ∧ Setup.new 1 [(3 : F17), 5, 7] [1, 2, 4] = none ∧
    Setup.new 4 [(3 : F17), 5] [1] = none := by decide +kernel

omit [DecidableEq F] in
/-- C78: `Commit` gives the value of the polynomial at the secret; it fails for more coefficients than the
setup has powers. -/
theorem C78_commit {k : Setup G} {g : G} {tau : F} {n : ℕ} (hk : k.For g tau n) (l : List F) :
    (l.length ≤ n → k.commit l = some (commitment g tau (dpoly l))) ∧ (n < l.length → k.commit l = none) := by
  rw [commit_eq hk]
  exact ⟨fun h => if_pos h, fun h => if_neg (by omega)⟩

/-- C78: the setup of `UnsafeSetup` commits to the values of a polynomial on the domain as to the
polynomial. -/
theorem C78_commitLagrange {threads : ℕ} (ht : 0 < threads) (ht' : threads < 128) {cfg : RootConfig F}
    (hc : cfg.Valid) (g : G) (tau : F) {m : ℕ} (hm : m ≤ cfg.twoAdicity) (hm' : m ≤ 63) :
    ∃ k d, unsafeSetup threads cfg g (2 ^ m) tau = some k ∧ Domain.create cfg (2 ^ m) = some d ∧
      (∀ p : F[X], p.degree < ((2 ^ m : ℕ) : WithBot ℕ) →
        k.commitLagrange ((List.range (2 ^ m)).map fun i => p.eval (d.gen ^ i)) = some (commitment g tau p)) ∧
      ∀ e : List F, 2 ^ m < e.length → k.commitLagrange e = none := by
  obtain ⟨k, d, h1, h2, -, h4, -, h6⟩ := C78_setup ht ht' hc g tau hm hm'
  refine ⟨k, d, h1, h2, fun p hp => ?_, fun e he => ?_⟩
  · rw [Setup.commitLagrange, doMSM_eq, if_pos (by rw [h6]; simp), h6, List.zipWith_map, List.zipWith_self]
    congr 1
    have hinj : Set.InjOn (fun j => d.gen ^ j) (Finset.range (2 ^ m) : Finset ℕ) :=
      fun a ha b hb h => h4.pow_inj (by simpa using ha) (by simpa using hb) h
    have hp' := Lagrange.eq_interpolate (s := Finset.range (2 ^ m)) (v := fun j => d.gen ^ j) hinj
      (by rw [Finset.card_range]; exact hp)
    rw [← List.sum_toFinset _ List.nodup_range, List.toFinset_range]
    conv_rhs => rw [commitment, hp', Lagrange.interpolate_apply, eval_finsetSum, Finset.sum_smul]
    refine Finset.sum_congr rfl fun i _ => ?_
    rw [eval_mul, eval_C, mul_smul]
  · rw [Setup.commitLagrange, doMSM_eq, if_neg (by rw [h6]; simp; omega)]

-- the secret 6, the generator 2 of the field with 17 elements as a group, four powers
example : unsafeSetup 3 exConfig (2 : F17) 4 6 = some ⟨[2, 12, 4, 7], [2, 13, 1, 3], []⟩ := by decide +kernel
example : (unsafeSetup 3 exConfig (2 : F17) 6 5).isNone = true := by decide +kernel

omit [DecidableEq F] [AddCommGroup G2] [Module F G2] in
/-- C78: `Downsize` to fewer powers: `Commit` then takes the shorter polynomials. -/
theorem C78_downsize {k : Setup G} {g : G} {tau : F} {n : ℕ} (hk : k.For g tau n) (m : ℕ) :
    (m < n → ∃ k', k.downsize m = some k' ∧ k'.For g tau m) ∧ (n ≤ m → k.downsize m = none) := by
  have hl : k.powers.length = n := by rw [hk]; simp
  rw [Setup.downsize, hl]
  refine ⟨fun h => ⟨_, if_neg (by omega), ?_⟩, fun h => if_pos h⟩
  rw [Setup.For, hk]
  simp only [← List.map_take, List.take_range, min_eq_left h.le]

/-- C78: but `Downsize` also takes a prefix of the Lagrange basis, and those are not the Lagrange
polynomials of the smaller domain: the commitment to the constant 1, given by its values, changes. -/
theorem C78_downsize_lagrange : ∃ k k' : Setup F17, unsafeSetup 1 exConfig (1 : F17) 8 6 = some k ∧
    k.downsize 4 = some k' ∧ k'.commit [(1 : F17)] = some (1 : F17) ∧
    k'.commitLagrange [(1 : F17), 1, 1, 1] ≠ some (1 : F17) ∧
    ∃ k4, unsafeSetup 1 exConfig (1 : F17) 4 6 = some k4 ∧ k4.commitLagrange [(1 : F17), 1, 1, 1] = some (1 : F17) := by
  refine ⟨_, _, rfl, rfl, ?_, ?_, _, rfl, ?_⟩ <;> decide +kernel

/-! ### Batch mode -/

omit [DecidableEq F] [AddCommGroup G2] [Module F G2] in
/-- C78: in batch mode, committing to polynomials in any order, possibly repeatedly, and reading the
commitments gives the same as committing to each alone, and leaves the scheme ready again. -/
theorem C78_batch {s : Scheme G G2} (hs : s.Ready) {n : ℕ} (hn : 0 < n) (p : ℕ → List F) (c : ℕ → G)
    (hc : ∀ i < n, s.kzg.commit (p i) = some (c i)) (idx : List ℕ) (h1 : ∀ i ∈ idx, i < n) (h2 : ∀ i < n, i ∈ idx) :
    ∃ s1 s2, s.setBatchMode n = some s1 ∧ idx.foldlM (fun s i => s.commitAt (p i) i) s1 = some s2 ∧
      s2.getBatchCommitments = ((List.range n).map c, s) := by
  obtain ⟨kzg, m, ct, a, b⟩ := s
  obtain ⟨ps, ls, bt⟩ := kzg
  obtain ⟨r1, r2, r3⟩ := hs
  simp only at r1 r2 r3
  subst r1 r2 r3
  have key : ∀ (idx : List ℕ), (∀ i ∈ idx, i < n) → ∀ l : List G, l.length = n → ∃ l' : List G,
      idx.foldlM (fun s i => Scheme.commitAt s (p i) i) (⟨⟨ps, ls, l⟩, true, n, a, b⟩ : Scheme G G2) =
        some ⟨⟨ps, ls, l'⟩, true, n, a, b⟩ ∧ l'.length = n ∧ (∀ i ∈ idx, l'[i]? = some (c i)) ∧
        ∀ i < n, l[i]? = some (c i) → l'[i]? = some (c i) := by
    intro idx
    induction idx with
    | nil => intro _ l hl; exact ⟨l, rfl, hl, by simp, fun i _ h => h⟩
    | cons i idx ih =>
      intro hi l hl
      have hin := hi i (by simp)
      obtain ⟨l', e1, e2, e3, e4⟩ := ih (fun j hj => hi j (by simp [hj])) (l.set i (c i)) (by simpa using hl)
      have hci : doMSM ps (p i) = some (c i) := hc i hin
      refine ⟨l', ?_, e2, fun j hj => ?_, fun j hj h => e4 j hj ?_⟩
      · rw [List.foldlM_cons, Scheme.commitAt, Scheme.store, Setup.commit]
        simp only [Bool.not_true, Bool.false_eq_true, if_false, hci, Option.map_some]
        rw [if_neg (by omega)]
        exact e1
      · rcases List.mem_cons.1 hj with rfl | hj
        · refine e4 j hin ?_
          rw [List.getElem?_set_self (by omega)]
        · exact e3 j hj
      · rw [List.getElem?_set]
        split
        · next h' => subst h'; rw [if_pos (by omega)]
        · exact h
  obtain ⟨l', e1, e2, e3, -⟩ := key idx h1 (List.replicate n 0) (by simp)
  refine ⟨_, _, ?_, e1, ?_⟩
  · rw [Scheme.setBatchMode, if_neg (by omega), if_neg (by simp)]; simp
  · rw [Scheme.getBatchCommitments]
    have : l' = (List.range n).map c := by
      refine List.ext_getElem? fun i => ?_
      by_cases hi : i < n
      · rw [e3 i (h2 i hi), List.getElem?_map, List.getElem?_range hi]; rfl
      · rw [List.getElem?_eq_none (by omega), List.getElem?_eq_none (by simp; omega)]
    rw [this]

omit [DecidableEq F] [AddCommGroup G2] [Module F G2] in
/-- C78: values and coefficients with the same commitment are stored alike; storing fails outside batch mode
and beyond the announced number. -/
theorem C78_batch_store {s : Scheme G G2} {v p : List F} (h : s.kzg.commitLagrange v = s.kzg.commit p) (i : ℕ) :
    s.commitLagrangeAt v i = s.commitAt p i ∧
    (s.batchMode = false → s.commitAt p i = none) ∧ (s.kzg.batch.length ≤ i → s.commitAt p i = none) ∧
    ∀ n s1, s.Ready → 0 < n → s.setBatchMode n = some s1 → s1.kzg.batch.length = n ∧ s1.batchMode = true := by
  refine ⟨by rw [Scheme.commitLagrangeAt, Scheme.commitAt, h], fun h => by rw [Scheme.commitAt, Scheme.store, h]; rfl,
    fun h => ?_, fun n s1 hr hn e => ?_⟩
  · rw [Scheme.commitAt, Scheme.store, if_pos h]; split <;> rfl
  · rw [Scheme.setBatchMode, if_neg (by omega), if_neg (by simp [hr.count])] at e
    obtain rfl := Option.some.inj e
    simp [hr.batch]

/-- C78: a commitment that is stored, and two that are not. -/
example : let s : Scheme F17 F17 := ⟨⟨[1, 3], [9, 9], []⟩, false, 0, 0, (0, 0)⟩
    (s.setBatchMode 2).bind (fun s => s.commitAt [(2 : F17), 1] 1) = some ⟨⟨[1, 3], [9, 9], [0, 5]⟩, true, 2, 0, (0, 0)⟩ ∧
    (s.setBatchMode 2).bind (fun s => s.commitAt [(2 : F17), 1] 2) = none ∧ s.commitAt [(2 : F17), 1] 0 = none ∧
    (s.setBatchMode 1).bind (fun s => s.commitLagrangeAt [(2 : F17), 1] 0) =
      some ⟨⟨[1, 3], [9, 9], [10]⟩, true, 1, 0, (0, 0)⟩ := by decide +kernel

omit [DecidableEq F] [AddCommGroup G2] [Module F G2] in
/-- C78: a commitment in batch mode that fails leaves the mode on, and the next `SetBatchMode` fails,
until `GetBatchCommitments`. -/
theorem C78_batch_stuck {s s1 : Scheme G G2} {n m : ℕ} (hn : 0 < n) (hm : 0 < m) (h : s.setBatchMode n = some s1)
    (idx : List ℕ) (p : ℕ → List F) {s2 : Scheme G G2} (h2 : idx.foldlM (fun s i => s.commitAt (p i) i) s1 = some s2) :
    s2.setBatchMode m = none ∧ s2.getBatchCommitments.2.setBatchMode m ≠ none := by
  have h3 : s2.batchCount = n := by
    have h4 : s1.batchCount = n := by
      rw [Scheme.setBatchMode, if_neg (by omega)] at h
      split at h
      · cases h
      · cases h; rfl
    clear h
    induction idx generalizing s1 with
    | nil => cases h2; exact h4
    | cons i idx ih =>
      rw [List.foldlM_cons] at h2
      obtain ⟨s', e1, e2⟩ := Option.bind_eq_some_iff.1 h2
      refine ih e2 ?_
      rw [Scheme.commitAt, Scheme.store] at e1
      split at e1
      · cases e1
      split at e1
      · cases e1
      obtain ⟨w, -, rfl⟩ := Option.map_eq_some_iff.1 e1
      exact h4
  constructor
  · rw [Scheme.setBatchMode, if_neg (by omega), if_pos (by omega)]
  · simp [Scheme.setBatchMode, Scheme.getBatchCommitments, hm.ne']

/-! ### The groups of GWC -/

omit [Field F] in
/-- C78: `GroupBySinglePoint` makes a group for each point, in the order of their first claims; the group
has the claims at the point in their order. -/
theorem C78_groups (claims : List (Claim F)) :
    ∃ gs, groupBySinglePoint claims = some gs ∧ gs.map (·.points) = (pointsIn claims).map ([·]) ∧
      (pointsIn claims).Nodup ∧ (∀ x, x ∈ pointsIn claims ↔ ∃ c ∈ claims, c.point = x) ∧
      ∀ gr ∈ gs, ∀ x ∈ gr.points,
        gr.polys = (claims.filter (·.point = x)).map fun c => ⟨c.oracle, [c.opening]⟩ := by
  refine ⟨_, groupBySinglePoint_eq claims, ?_, eraseDups_nodup _, fun x => ?_, fun gr hgr x hx => ?_⟩
  · rw [List.map_map]; rfl
  · rw [pointsIn, List.mem_eraseDups, List.mem_map]
  · obtain ⟨y, -, rfl⟩ := List.mem_map.1 hgr
    rw [singleGroup, List.mem_singleton] at hx
    subst hx; rfl

example : groupBySinglePoint [⟨0, (5 : F17), 1⟩, ⟨1, 3, 2⟩, ⟨2, 5, 4⟩] =
    some [⟨[⟨0, [1]⟩, ⟨2, [4]⟩], [5]⟩, ⟨[⟨1, [2]⟩], [3]⟩] := by decide +kernel

/-! ### GWC -/

/-- C78: what `DoVerifyOpeningProof` of `GWC` accepts: a proof with a commitment for each point that the
transcript takes, for which the combination of the claims by the challenges holds. -/
theorem C78_gwc_equation {e : G →ₗ[F] G2 →ₗ[F] GT} {g2 : G2} (he : Nondegenerate e g2) {tau : F}
    {s : Scheme G G2} (hs : s.For g2 tau) (g : G) (com : ℕ → G) (tr : Transcript σ F G) (claims : List (Claim F))
    (st : σ) (proof : List G) :
    ∃ b, gwcVerify (fun a b => e a b) g com tr s claims st proof = some b ∧ (b = true ↔
      (pointsIn claims).length ≤ proof.length ∧
      ∃ st', (proof.take (pointsIn claims).length).foldlM tr.absorb (tr.squeeze st).2 = some st' ∧
        tau • powSum (tr.squeeze st').1 (proof.take (pointsIn claims).length) =
          powSum (tr.squeeze st').1
            (List.zipWith (gwcTerm g com (tr.squeeze st).1 claims) (pointsIn claims) proof)) := by
  rw [gwcVerify_eq, hs]
  by_cases h : (pointsIn claims).length ≤ proof.length
  · rw [if_pos h]
    cases hf : (proof.take (pointsIn claims).length).foldlM tr.absorb (tr.squeeze st).2 with
    | none => exact ⟨false, rfl, by simp⟩
    | some st' =>
      refine ⟨_, rfl, ?_⟩
      rw [pairing_setup he]
      simp [h]
  · rw [if_neg h]
    exact ⟨false, rfl, by simp [h]⟩

/-- The combination of honest commitments. -/
theorem gwc_combination (g : G) (tau v u : F) (P : ℕ → F[X]) (claims : List (Claim F)) : ∀ (xs : List F) (W : List F[X]),
    xs.length = W.length →
    tau • powSum u (W.map (commitment g tau)) -
      powSum u (List.zipWith (gwcTerm g (fun o => commitment g tau (P o)) v claims) xs (W.map (commitment g tau))) =
    commitment g tau (powSum u (List.zipWith (fun x w => w * (X - C x) -
      powSum v ((claims.filter (·.point = x)).map fun c => P c.oracle - C c.opening)) xs W)) := by
  intro xs
  induction xs with
  | nil =>
    intro W h
    rw [List.length_eq_zero_iff.1 (show W.length = 0 by simpa using h.symm)]
    simp [powSum, commitment]
  | cons x xs ih =>
    intro W h
    cases W with
    | nil => simp at h
    | cons w W =>
      have hi := ih W (by simpa using h)
      have h1 : powSum v ((claims.filter (·.point = x)).map fun c => commitment g tau (P c.oracle) - c.opening • g) =
          commitment g tau (powSum v ((claims.filter (·.point = x)).map fun c => P c.oracle - C c.opening)) := by
        rw [commitment, powSum_eval, ← powSum_map_smul]
        congr 1
        refine List.map_congr_left fun c _ => ?_
        rw [commitment, ← sub_smul, eval_sub, eval_C]
      simp only [List.map_cons, List.zipWith_cons_cons, powSum, gwcTerm, h1]
      rw [smul_add, smul_comm tau u, add_sub_add_comm, ← smul_sub, hi]
      simp only [commitment, eval_add, eval_sub, eval_mul, eval_smul, eval_X, eval_C, smul_smul, ← add_smul, ← sub_smul,
        smul_eq_mul]
      congr 1
      ring

/-- C78: the proofs that `GWC` makes for claims that hold are accepted. They are made if the transcript
takes them, for polynomials that the setup can commit to. -/
theorem C78_gwc_complete {threads : ℕ} (ht : 0 < threads) {e : G →ₗ[F] G2 →ₗ[F] GT} {g2 : G2}
    (he : Nondegenerate e g2) {g : G} {tau : F} {n : ℕ} {s : Scheme G G2} (hr : s.Ready) (hk : s.kzg.For g tau n)
    (hs : s.For g2 tau) {claims : List (Claim F)} (hT : 2 * (claims.length + threads) ≤ 2 ^ 64)
    (poly : ℕ → List F) (hp : ∀ c ∈ claims, DClean (poly c.oracle)) (com : ℕ → G)
    (hcom : ∀ c ∈ claims, s.kzg.commit (poly c.oracle) = some (com c.oracle))
    (hh : ∀ c ∈ claims, c.Holds fun o => dpoly (poly o)) (tr : Transcript σ F G) (st : σ) :
    ∃ proof : List G, proof.length = (pointsIn claims).length ∧
      gwcCreate threads poly tr s claims st =
        (proof.foldlM tr.absorb (tr.squeeze st).2).map (fun st' => (proof, st', s)) ∧
      ∀ st' rest, proof.foldlM tr.absorb (tr.squeeze st).2 = some st' →
        gwcVerify (fun a b => e a b) g com tr s claims st (proof ++ rest) = some true := by
  have hcom' : ∀ c ∈ claims, (poly c.oracle).length ≤ n ∧ com c.oracle = commitment g tau (dpoly (poly c.oracle)) := by
    intro c hc
    have h1 := hcom c hc
    rw [commit_eq hk] at h1
    split at h1
    · next h => exact ⟨h, (Option.some.inj h1).symm⟩
    · cases h1
  obtain ⟨W, w1, w2⟩ := gwcCreate_eq ht hT hh (fun c hc => ⟨hp c hc, (hcom' c hc).1⟩) hr hk tr st
  refine ⟨_, by simp, w2, fun st' rest hst => ?_⟩
  obtain ⟨b, b1, b2⟩ := C78_gwc_equation he hs g com tr claims st
    ((pointsIn claims).map (fun x => commitment g tau (W x)) ++ rest)
  rw [b1]
  congr 1
  rw [b2, List.take_left' (by simp)]
  refine ⟨by simp, st', hst, ?_⟩
  have h3 := gwc_combination g tau (tr.squeeze st).1 (tr.squeeze st').1 (fun o => dpoly (poly o)) claims (pointsIn claims)
    ((pointsIn claims).map W) (by simp)
  have h4 : powSum (tr.squeeze st').1 (List.zipWith (fun x w => w * (X - C x) -
      powSum (tr.squeeze st).1 ((claims.filter (·.point = x)).map fun c => dpoly (poly c.oracle) - C c.opening))
      (pointsIn claims) ((pointsIn claims).map W)) = 0 := by
    rw [List.zipWith_map_right, List.zipWith_self]
    exact powSum_zero _ _ _ fun x hx => by rw [w1 x hx, sub_self]
  rw [h4, List.map_map, show commitment g tau (0 : F[X]) = 0 by simp [commitment], sub_eq_zero] at h3
  refine h3.trans ?_
  congr 1
  rw [List.zipWith_eq_zipWith_take_min (l₁ := pointsIn claims) (l₂ := _ ++ rest)]
  simp only [List.length_append, List.length_map, Nat.le_add_right, min_eq_left, List.take_length]
  rw [List.take_left' (by simp), List.zipWith_map_right, List.zipWith_map_right, List.zipWith_self, List.zipWith_self]
  refine List.map_congr_left fun x _ => ?_
  rw [gwcTerm, gwcTerm]
  congr 2
  refine List.map_congr_left fun c hc => ?_
  rw [(hcom' c (List.mem_filter.1 hc).1).2]

omit [DecidableEq F] in
/-- Combinations of polynomials that are not all zero. -/
theorem exists_bad_poly (l : List F[X]) (h : ∃ p ∈ l, p ≠ 0) :
    ∃ bad : Finset F, bad.card < l.length ∧ ∀ r ∉ bad, powSum r l ≠ 0 := by
  obtain ⟨p, hp, h0⟩ := h
  obtain ⟨j, hj⟩ : ∃ j, p.coeff j ≠ 0 := by
    by_contra h'; exact h0 (Polynomial.ext fun j => by simpa using not_exists_not.1 h' j)
  obtain ⟨bad, h1, h2⟩ := exists_bad (l.map fun p => p.coeff j) ⟨_, List.mem_map_of_mem hp, hj⟩
  refine ⟨bad, by simpa using h1, fun r hr h => h2 r hr ?_⟩
  have := powSum_map_hom r (lcoeff F j) (fun p : F[X] => p) l
  simp only [lcoeff_apply, List.map_id'] at this
  rw [this, h, coeff_zero]

/-- C78: a false claim is rejected but for few challenges and secrets: fewer values of `v` than there are
claims, then, for every choice of the polynomials in the proof, fewer values of `u`, then at most `D + 1`
secrets, `D` bounding the degrees. -/
theorem C78_gwc_sound {e : G →ₗ[F] G2 →ₗ[F] GT} {g2 : G2} (he : Nondegenerate e g2) {g : G} (hg : g ≠ 0)
    {claims : List (Claim F)} (P : ℕ → F[X]) {D : ℕ} (hD : ∀ c ∈ claims, (P c.oracle).natDegree ≤ D)
    (hfalse : ∃ c ∈ claims, ¬ c.Holds P) :
    ∃ badV : Finset F, badV.card < claims.length ∧ ∀ v ∉ badV,
    ∀ W : List F[X], W.length = (pointsIn claims).length → (∀ w ∈ W, w.natDegree ≤ D) →
    ∃ badU : Finset F, badU.card < claims.length ∧ ∀ u ∉ badU,
    ∃ badT : Finset F, badT.card ≤ D + 1 ∧ ∀ tau ∉ badT,
    ∀ (σ : Type) (tr : Transcript σ F G) (s : Scheme G G2) (st st' : σ) (rest : List G), s.For g2 tau →
      (tr.squeeze st).1 = v → (W.map (commitment g tau)).foldlM tr.absorb (tr.squeeze st).2 = some st' →
      (tr.squeeze st').1 = u →
      gwcVerify (fun a b => e a b) g (fun o => commitment g tau (P o)) tr s claims st
        (W.map (commitment g tau) ++ rest) = some false := by
  obtain ⟨c, hc, hcf⟩ := hfalse
  obtain ⟨badV, v1, v2⟩ := exists_bad ((claims.filter (·.point = c.point)).map fun c => (P c.oracle).eval c.point - c.opening)
    ⟨_, List.mem_map_of_mem (List.mem_filter.2 ⟨hc, by simp⟩), fun h => hcf (sub_eq_zero.1 h)⟩
  refine ⟨badV, v1.trans_le (by rw [List.length_map]; exact List.length_filter_le _ _), fun v hv W hW hWd => ?_⟩
  have hlen : (pointsIn claims).length ≤ claims.length :=
    (length_eraseDups_le _).trans (by simp)
  obtain ⟨i, hi, hix⟩ := List.getElem_of_mem (List.mem_eraseDups.2 (List.mem_map_of_mem (f := (·.point)) hc))
  have hiW : i < W.length := by rw [hW]; exact hi
  let E : List F[X] := List.zipWith (fun x w => w * (X - C x) -
      powSum v ((claims.filter (·.point = x)).map fun c => P c.oracle - C c.opening)) (pointsIn claims) W
  have hElen : E.length = (pointsIn claims).length := by simp [E, hW]
  have hE : ∃ p ∈ E, p ≠ 0 := by
    refine ⟨E[i]'(by rw [hElen]; exact hi), List.getElem_mem _, fun h => v2 v hv ?_⟩
    rw [List.getElem_zipWith] at h
    have h2 := congrArg (eval c.point) h
    rw [show (pointsIn claims)[i] = c.point from hix] at h2
    rw [eval_sub, eval_mul, eval_sub, eval_X, eval_C, sub_self, mul_zero, zero_sub, eval_zero, neg_eq_zero,
      powSum_eval] at h2
    rw [← h2]
    congr 1
    refine List.map_congr_left fun c' hc' => ?_
    have : c'.point = c.point := by simpa using (List.mem_filter.1 hc').2
    rw [eval_sub, eval_C, this]
  obtain ⟨badU, u1, u2⟩ := exists_bad_poly E hE
  refine ⟨badU, by omega, fun u hu => ?_⟩
  have hdeg : (powSum u E).natDegree ≤ D + 1 := by
    refine powSum_natDegree _ _ _ fun p hp => ?_
    obtain ⟨j, hj, rfl⟩ := List.getElem_of_mem hp
    rw [List.getElem_zipWith]
    refine (natDegree_sub_le _ _).trans (max_le ?_ ?_)
    · refine natDegree_mul_le.trans (Nat.add_le_add (hWd _ (List.getElem_mem _)) ?_)
      rw [natDegree_X_sub_C]
    · refine (powSum_natDegree _ D _ fun p hp => ?_).trans (Nat.le_succ _)
      obtain ⟨c', hc', rfl⟩ := List.mem_map.1 hp
      refine (natDegree_sub_le _ _).trans (max_le (hD _ (List.mem_filter.1 hc').1) ?_)
      rw [natDegree_C]; exact Nat.zero_le _
  obtain ⟨badT, t1, t2⟩ := exists_roots _ (u2 u hu) hdeg
  refine ⟨badT, t1, fun tau htau σ tr s st st' rest hs hv' hst hu' => ?_⟩
  obtain ⟨b, b1, b2⟩ := C78_gwc_equation he hs g (fun o => commitment g tau (P o)) tr claims st
    (W.map (commitment g tau) ++ rest)
  rw [b1]
  congr 1
  by_contra hb
  rw [Bool.not_eq_false] at hb
  obtain ⟨-, st2, h1, h2⟩ := b2.1 hb
  have hW' : (pointsIn claims).length = (W.map (commitment g tau)).length := by rw [List.length_map, hW]
  have hz : List.zipWith (gwcTerm g (fun o => commitment g tau (P o)) v claims) (pointsIn claims)
      (W.map (commitment g tau) ++ rest) = List.zipWith (gwcTerm g (fun o => commitment g tau (P o)) v claims)
      (pointsIn claims) (W.map (commitment g tau)) := by
    rw [List.zipWith_eq_zipWith_take_min (l₁ := pointsIn claims) (l₂ := _ ++ rest)]
    rw [List.length_append, min_eq_left (by omega), List.take_length, hW', List.take_left]
  rw [hv'] at h2
  rw [hz, hW', List.take_left] at h2
  rw [hW', List.take_left, hst] at h1
  obtain rfl := Option.some.inj h1
  rw [hu'] at h2
  have h3 := gwc_combination g tau v u P claims (pointsIn claims) W hW.symm
  rw [h2, sub_self, commitment] at h3
  rcases smul_eq_zero.1 h3.symm with h | h
  · exact t2 tau htau h
  · exact hg h

/-! ### After `ReadFrom` -/

/-- C78: a scheme that is made from its members, as `ReadFrom` does, pairs the wrong points: its verifier
takes a proof that the value at `x` is the value at `1 / x`. -/
theorem C78_reloaded {e : G →ₗ[F] G2 →ₗ[F] GT} {g2 : G2} (he : Nondegenerate e g2) (g : G) (tau : F) (kzg : Setup G)
    (P : F[X]) {x : F} (hx : x ≠ 0) (tr : Transcript σ F G) (st : σ) (o : ℕ)
    (habs : ∀ st c, ∃ st', tr.absorb st c = some st') :
    ∃ W : F[X], W.natDegree ≤ P.natDegree ∧
      gwcVerify (fun a b => e a b) g (fun _ => commitment g tau P) tr (Scheme.new g2 kzg (tau • g2))
        [⟨o, x, P.eval x⁻¹⟩] st [commitment g tau W] = some true := by
  obtain ⟨Q, hQ⟩ : (X - C x⁻¹) ∣ P - C (P.eval x⁻¹) := by
    rw [dvd_iff_isRoot, IsRoot, eval_sub, eval_C, sub_self]
  have hPQ : P = (X - C x⁻¹) * Q + C (P.eval x⁻¹) := by rw [← hQ]; ring
  refine ⟨-(C x⁻¹ * (X * Q)), ?_, ?_⟩
  · rw [natDegree_neg]
    by_cases hQ0 : Q = 0
    · simp [hQ0]
    rw [natDegree_C_mul (inv_ne_zero hx), natDegree_X_mul hQ0]
    have := congrArg natDegree hQ
    rw [natDegree_sub_C, natDegree_mul (X_sub_C_ne_zero _) hQ0, natDegree_X_sub_C] at this
    omega
  · rw [gwcVerify_eq]
    have hpts : pointsIn [(⟨o, x, P.eval x⁻¹⟩ : Claim F)] = [x] := by simp [pointsIn, List.eraseDups_cons]
    rw [hpts]
    obtain ⟨st', h'⟩ := habs (tr.squeeze st).2 (commitment g tau (-(C x⁻¹ * (X * Q))))
    simp only [List.length_singleton, List.take_succ_cons, List.take_zero, List.foldlM_cons, List.foldlM_nil, h', le_refl,
      if_true, Option.bind_eq_bind, Option.bind_some, Option.pure_def]
    congr 1
    rw [Scheme.new, pairing_new he]
    simp only [List.zipWith_cons_cons, List.zipWith_nil_left, powSum, gwcTerm, smul_zero, add_zero]
    simp only [List.filter_cons, decide_true, if_true, List.filter_nil, List.map_cons, List.map_nil, powSum, smul_zero,
      add_zero]
    have hPt : P.eval tau = (tau - x⁻¹) * Q.eval tau + P.eval x⁻¹ := by
      conv_lhs => rw [hPQ]
      simp
    simp only [commitment, ← sub_smul, smul_smul, ← add_smul, eval_neg, eval_mul, eval_C, eval_X]
    congr 1
    rw [hPt]
    field_simp
    ring

/-- A transcript for the examples. -/
def exTranscript : Transcript F17 F17 F17 := ⟨fun s => (s * s + 3, s + 5), fun s c => some (3 * s + c + 1)⟩

/-- A scheme for the examples: the secret 6. -/
def exScheme : Option (Scheme F17 F17) := Scheme.unsafeSetup 2 exConfig (1 : F17) (1 : F17) 4 6

-- `1 + 2 X + 3 X²` and `4 + X³` at 2 and 5: two points, a proof with two commitments
def exPolys : ℕ → List F17 := fun o => if o = 0 then [1, 2, 3] else [4, 0, 0, 1]
def exClaims : List (Claim F17) := [⟨0, 2, 0⟩, ⟨1, 2, 12⟩, ⟨1, 5, 10⟩]
def exComs (s : Scheme F17 F17) (o : ℕ) : F17 := ((s.kzg.commit (exPolys o)).getD 0)

/-- The answer of the verifier about the honest proof, for other claims, by a scheme `s'`. -/
def exRun (s' : Scheme F17 F17 → Scheme F17 F17) (claims : List (Claim F17)) : Option Bool :=
  match exScheme with
  | none => none
  | some s =>
    match gwcCreate 2 exPolys exTranscript s exClaims 7 with
    | none => none
    | some (proof, _) => gwcVerify (fun a b : F17 => a * b) 1 (exComs s) exTranscript (s' s) claims 7 proof

example : exRun id exClaims = some true := by decide +kernel
example : exRun id [⟨0, 2, 0⟩, ⟨1, 2, 13⟩, ⟨1, 5, 10⟩] = some false := by decide +kernel

/-- C78: and a reloaded scheme rejects an honest proof. -/
theorem C78_reloaded_rejects : exRun (fun s => Scheme.new 1 s.kzg s.sG2) exClaims = some false := by decide +kernel

end Tachyon.Props
