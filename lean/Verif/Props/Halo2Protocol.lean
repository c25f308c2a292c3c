import Verif.Proofs.Halo2Log
import Verif.Props.Shplonk
import Verif.Props.Vanishing
/-! C93: the messages of the halo2 prover and verifier, the challenges, the openings, and that honest proofs are accepted. -/
namespace Tachyon.Props
open Tachyon.FFT Tachyon.Group Tachyon.Poly Tachyon.Vanishing Tachyon.Halo2 Tachyon.Kzg Polynomial

set_option linter.unusedSectionVars false

section
variable {P F : Type} [Field F] [DecidableEq F]

/-- C93: the prover makes a proof. It says the key and the instances first; it commits to what it makes after a challenge before it asks for
the next; a challenge of the circuit is asked for when all columns of its phase and before are committed to. The verifier reads the proof to
its end, its transcript is that of the prover, and it has the prover's challenges, the commitments to the prover's polynomials and their
values. -/
theorem C93_transcript [Zero P] {env : Env P F} {s : Shape} {key : Key F} {vk : VerifyingKey P F} {work : Work P F}
    {instances : List (List (List F))} (hf : Fits env s key vk instances) (hi : InstancesFit env s instances) (hw : work.Fits s) :
    ∃ d pts w l, prove env s key work instances ⟨[], []⟩ = some ((d, pts), w) ∧ points env s.blinding d.x = some pts ∧
      AdviceSchedule env s key instances d l ∧ Schedule env s work instances.length d l w.log ∧
      (∀ i, (d.challenges i).isSome ↔ ∃ ph ∈ Keygen.getPhases s.advicePhases, s.challengePhases[i]? = some ph) ∧
      ∃ p, (∀ tail, Halo2.readProof env s vk instances ⟨[], w.proof ++ tail⟩ = some (p, ⟨w.log, tail⟩)) ∧ p.Of env s key d pts := by
  obtain ⟨d, pts, w, h1, _, h3, ⟨w1, h4, h5⟩, _, h7, h8⟩ := prove_read hf hi hw
  exact ⟨d, pts, w, w1.log, h1, h3, advice_schedule h4, h5, h7, h8⟩

/-- C93: if the instances are not committed to, the verifier finds the values of the prover's polynomials, which interpolate the columns filled
up with zeros on the rows. -/
theorem C93_instances {env : Env P F} {s : Shape} {instances : List (List (List F))} (hq : s.queryInstance = false) (hd : env.domain.Valid)
    (hoff : env.domain.offset = 1) (he : ∀ l x, env.eval l x = (dpoly l).eval x)
    (hfft : ∀ c ∈ instances, ∀ col ∈ c, dpoly (env.ifft col) =
      Lagrange.interpolate (Finset.range env.domain.size) (fun j => env.domain.gen ^ j) fun i => col.getD i 0)
    {mn mx rows : ℕ} (hr : ∀ q ∈ s.instanceQueries, -(mn : ℤ) ≤ q.2 ∧ q.2 ≤ mx) (hrows : ∀ c ∈ instances, ∀ col ∈ c, col.length ≤ rows)
    (hmx : mx < 2 ^ 31) (hfit : mx + rows + mn ≤ env.domain.size) (hsize : env.domain.size < 2 ^ 63)
    (hcol : ∀ c ∈ instances, ∀ q ∈ s.instanceQueries, q.1 < c.length)
    (ht : 0 < env.threads) (ht' : env.threads < 128) : InstancesFit env s instances where
  pad h := by rw [hq] at h; cases h
  poly h := by rw [hq] at h; cases h
  values _ x := by
    rw [C87_instance hd x instances s.instanceQueries hr hrows hmx hfit hcol ht ht']
    refine (FloorPlan.mapM_eq fun c hc => FloorPlan.mapM_eq fun q hq => ?_).symm
    have hl := hcol c hc q hq
    obtain ⟨h1, h2⟩ := hr q hq
    rw [List.getElem?_eq_getElem hl, Option.bind_some, rotate, Domain.getElement_spec hd (by omega) (by omega), Option.map_some,
      Option.map_some, he, hfft c hc _ (List.getElem_mem hl), Domain.elem]
    simp only [hoff, one_mul]
    rw [List.getD_eq_getElem _ _ hl]
    congr 2
    · rw [← zpow_natCast, Int.toNat_of_nonneg (Int.emod_nonneg _ (by have := hd.pos; omega))]
      conv_rhs => rw [← Int.mul_ediv_add_emod q.2 env.domain.size, zpow_add₀ hd.gen_ne, zpow_mul, zpow_natCast, hd.prim.pow_eq_one, one_zpow,
        one_mul]

/-- C93: the verifier's list of the challenges of the circuit is that of the prover, by index, if later challenges are not of earlier
phases. -/
theorem C93_challenges [Zero P] {env : Env P F} {s : Shape} {key : Key F} {vk : VerifyingKey P F} {work : Work P F}
    {instances : List (List (List F))} (hf : Fits env s key vk instances) (hi : InstancesFit env s instances) (hw : work.Fits s)
    (hs : s.challengePhases.Pairwise (· ≤ ·)) :
    ∃ d pts w, prove env s key work instances ⟨[], []⟩ = some ((d, pts), w) ∧
      ∃ p, (∀ tail, Halo2.readProof env s vk instances ⟨[], w.proof ++ tail⟩ = some (p, ⟨w.log, tail⟩)) ∧
        p.challenges = (List.range s.challengePhases.length).filterMap d.challenges := by
  obtain ⟨d, pts, w, _, h1, _, _, _, h7, h8⟩ := C93_transcript hf hi hw
  obtain ⟨p, e1, e2⟩ := h8
  refine ⟨d, pts, w, h1, p, e1, e2.challenges.trans (byPhase_sorted hs fun i hi => ?_)⟩
  obtain ⟨ph, hph, he⟩ := (h7 i).1 hi
  exact ⟨ph, List.mem_range.1 hph, he⟩

/-- The prover's and the verifier's openings are the same, and belong to polynomials that the scheme can open. -/
theorem protocol_ready [AddCommGroup P] [Module F P] {env : Env P F} {s : Shape} {key : Key F} {vk : VerifyingKey P F} {work : Work P F}
    {instances : List (List (List F))} (hf : Fits env s key vk instances) (hi : InstancesFit env s instances) (hw : work.Fits s)
    (hz : Sizes env s key work instances) (hk : env.n = 2 ^ env.k) (φ : F[X] →ₗ[F] P)
    (hφ : ∀ l : List F, l.length ≤ env.n → env.commit l = φ (dpoly l)) (he : ∀ l x, env.eval l x = (dpoly l).eval x) :
    ∃ d pts w l comb os, prove env s key work instances ⟨[], []⟩ = some ((d, pts), w) ∧
      Schedule env s work instances.length d l w.log ∧ proverOpenings env s key d pts = some (comb, os) ∧
      os.length = openings s instances.length key.sigmas.length ∧
      (∀ place f, d.polyAt s key comb place = some f → Opens env.n f) ∧
      ∃ p, (∀ tail, Halo2.readProof env s vk instances ⟨[], w.proof ++ tail⟩ = some (p, ⟨w.log, tail⟩)) ∧ p.Of env s key d pts ∧
        verifierOpenings env s vk instances p ((dpoly (work.quotient (d.log2 env l ++ [.squeeze]))).eval d.x) = some os ∧
        ∀ o ∈ os, Backed env s key vk instances d comb p o := by
  obtain ⟨d, pts, w, h1, h2, h3, ⟨w1, _, h5⟩, h6, _, h8⟩ := prove_read hf hi hw
  obtain ⟨coeffs, comb, c1, c2, c3, c4, _, _, c7, c8⟩ := C87_pieces env.commit φ hφ hf.rows hf.degree hf.bound
    (work.quotient (d.log2 env w1.log ++ [.squeeze])) (hz.quotient _) d.x
  rw [h5.h] at c1
  obtain rfl := Option.some.inj c1
  have hx : squareTimes env.k d.x = d.x ^ env.n := by rw [squareTimes_eq, hk]
  obtain ⟨p, e1, e2⟩ := h8
  obtain ⟨os, o1, o2, o3, o4⟩ := openings_match hf hi h2 h3 e2 (comb := comb) (by rw [hx]; exact c2) (by rw [hx]; exact c7)
  refine ⟨d, pts, w, w1.log, comb, os, h1, h5, o1, o3, fun place f h => polyAt_small hz hf.rows h2 h5 h6 ⟨c3, c4⟩ h, p, e1, e2, ?_, o4⟩
  rw [← c8, ← he]
  exact o2

/-- C93: the prover and the verifier open the same places at the same points in the same order, if the value that the verifier expects is
that of the quotient. The values are those of the prover's polynomials, the verifier's commitments are to these polynomials, and there are as
many openings as the prover has announced. -/
theorem C93_openings [AddCommGroup P] [Module F P] {env : Env P F} {s : Shape} {key : Key F} {vk : VerifyingKey P F} {work : Work P F}
    {instances : List (List (List F))} (hf : Fits env s key vk instances) (hi : InstancesFit env s instances) (hw : work.Fits s)
    (hz : Sizes env s key work instances) (hk : env.n = 2 ^ env.k) (φ : F[X] →ₗ[F] P)
    (hφ : ∀ l : List F, l.length ≤ env.n → env.commit l = φ (dpoly l)) (he : ∀ l x, env.eval l x = (dpoly l).eval x) :
    ∃ d pts w l comb os, prove env s key work instances ⟨[], []⟩ = some ((d, pts), w) ∧
      Schedule env s work instances.length d l w.log ∧ proverOpenings env s key d pts = some (comb, os) ∧
      os.length = openings s instances.length key.sigmas.length ∧
      ∃ p, (∀ tail, Halo2.readProof env s vk instances ⟨[], w.proof ++ tail⟩ = some (p, ⟨w.log, tail⟩)) ∧
        verifierOpenings env s vk instances p ((dpoly (work.quotient (d.log2 env l ++ [.squeeze]))).eval d.x) = some os ∧
        ∀ o ∈ os, Backed env s key vk instances d comb p o := by
  obtain ⟨d, pts, w, l, comb, os, h1, h2, h3, h4, _, h6⟩ := protocol_ready hf hi hw hz hk φ hφ he
  obtain ⟨p, e1, _, e3, e4⟩ := h6
  exact ⟨d, pts, w, l, comb, os, h1, h2, h3, h4, p, e1, e3, e4⟩

omit [Field F] [DecidableEq F] in
theorem leading_points (cs : List P) (rest : List (Msg P F)) : leading (cs.map .point ++ rest) = cs ++ leading rest := by
  induction cs with
  | nil => rfl
  | cons c cs ih => simp [leading, ih]

theorem absorb_all (env : Env P F) (cs : List P) (l : Log P F) :
    cs.foldlM (transcript env).absorb l = some (l ++ cs.map fun c => .absorb (.point c)) := by
  induction cs generalizing l with
  | nil => simp
  | cons c cs ih => simp only [List.foldlM_cons, transcript, Option.bind_eq_bind, Option.bind_some] at ih ⊢; rw [ih]; simp

variable [AddCommGroup P] [Module F P] {Q T : Type} [AddCommGroup Q] [Module F Q] [AddCommGroup T] [Module F T] [DecidableEq T]

/-- The claims of the openings hold of the polynomials at their addresses, which are committed to at the addresses of the verifier. -/
theorem claims_backed {env : Env P F} {s : Shape} {key : Key F} {vk : VerifyingKey P F} {instances : List (List (List F))} {d : Held F}
    {comb : List F} {p : Proof P F} {os : List (Opening F)} (hb : ∀ o ∈ os, Backed env s key vk instances d comb p o)
    (hsm : ∀ place f, d.polyAt s key comb place = some f → Opens env.n f) (he : ∀ l x, env.eval l x = (dpoly l).eval x)
    {addr : Place → ℕ} {deref : ℕ → Place} (ha : ∀ x, deref (addr x) = x) {k : Setup P}
    (hcom : ∀ l : List F, l.length ≤ env.n → k.commit l = some (env.commit l)) :
    ∀ c ∈ toClaims addr os, DClean ((d.polyAt s key comb (deref c.oracle)).getD []) ∧
      k.commit ((d.polyAt s key comb (deref c.oracle)).getD []) = some ((p.commitAt env s vk instances (deref c.oracle)).getD 0) ∧
      c.Holds fun a => dpoly ((d.polyAt s key comb (deref a)).getD []) := by
  intro c hc
  obtain ⟨o, ho, rfl⟩ := List.mem_map.1 hc
  obtain ⟨f, f1, f2, f3⟩ := hb o ho
  have hs := hsm _ _ f1
  simp only [ha, f1, f3, Option.getD_some]
  refine ⟨hs.1, hcom f hs.2, ?_⟩
  simp only [Claim.Holds, ha, f1, Option.getD_some]
  rw [f2, he]

/-- C93: the verifier rejects, whatever the proof and the scheme, exactly those instances at once that do not have the columns of the constraint
system for every circuit or that have a column of more rows than those before the blinding ones; others go on to be read. -/
theorem C93_shapes {P F : Type} [Field F] [DecidableEq F] [AddCommGroup P] [Module F P] (env : Env P F) (s : Shape) (vk : VerifyingKey P F)
    (addr : Place → ℕ) (deref : ℕ → Place) (expected : Proof P F → F)
    (verify : (ℕ → P) → List (Kzg.Claim F) → Log P F → List P → Option Bool) (instances : List (List (List F))) (proof : List (Msg P F)) :
    ((∀ c ∈ instances, c.length = s.instanceColumns ∧ ∀ col ∈ c, col.length ≤ env.n - (s.blinding + 1)) ↔
      validInstances env s instances = true) ∧
    ((∃ c ∈ instances, c.length ≠ s.instanceColumns ∨ ∃ col ∈ c, env.n - (s.blinding + 1) < col.length) →
      verifyProof env s vk addr deref expected verify instances proof = some false) := by
  have h : (∀ c ∈ instances, c.length = s.instanceColumns ∧ ∀ col ∈ c, col.length ≤ env.n - (s.blinding + 1)) ↔
      validInstances env s instances = true := by simp [validInstances]
  refine ⟨h, ?_⟩
  rintro ⟨c, hc, hbad⟩
  have : ¬ validInstances env s instances = true := by
    rw [← h]
    intro hall
    obtain ⟨h1, h2⟩ := hall c hc
    rcases hbad with hb | ⟨col, hcol, hb⟩
    · exact hb h1
    · exact absurd (h2 col hcol) (by omega)
  rw [verifyProof, if_neg this]

/-- The commitments of the scheme are linear. -/
theorem commit_linear {env : Env P F} {g : P} {tau : F} {n : ℕ} {k : Setup P} (hset : k.For g tau n)
    (hcom : ∀ l : List F, l.length ≤ env.n → k.commit l = some (env.commit l)) (l : List F) (hl : l.length ≤ env.n) :
    env.commit l = ((LinearMap.toSpanSingleton F P g).comp (leval tau)) (dpoly l) := by
  have h := hcom l hl
  rw [commit_eq hset] at h
  split at h
  · rw [← Option.some.inj h]; rfl
  · cases h

/-- C93: with `GWC` the prover makes a proof that the verifier accepts, if the value that the verifier expects is that of the quotient. -/
theorem C93_gwc {env : Env P F} {s : Shape} {key : Key F} {vk : VerifyingKey P F} {work : Work P F}
    {instances : List (List (List F))} (hf : Fits env s key vk instances) (hi : InstancesFit env s instances) (hw : work.Fits s)
    (hz : Sizes env s key work instances) (hk : env.n = 2 ^ env.k) (he : ∀ l x, env.eval l x = (dpoly l).eval x)
    (hv : validInstances env s instances = true) (ht : 0 < env.threads)
    (hT : 2 * (openings s instances.length key.sigmas.length + env.threads) ≤ 2 ^ 64)
    {addr : Place → ℕ} {deref : ℕ → Place} (ha : ∀ x, deref (addr x) = x)
    {e : P →ₗ[F] Q →ₗ[F] T} {g2 : Q} (hnd : Nondegenerate e g2) {g : P} {tau : F} {n : ℕ} {scheme : Scheme P Q} (hr : scheme.Ready)
    (hset : scheme.kzg.For g tau n) (hg2 : scheme.For g2 tau)
    (hcom : ∀ l : List F, l.length ≤ env.n → scheme.kzg.commit l = some (env.commit l)) :
    ∃ d pts w l p proof, createProof env s key work addr deref
        (fun poly claims st => (gwcCreate env.threads poly (transcript env) scheme claims st).map (·.1)) instances = some proof ∧
      prove env s key work instances ⟨[], []⟩ = some ((d, pts), w) ∧ p.Of env s key d pts ∧
      Schedule env s work instances.length d l w.log ∧ ∀ rest, (∃ left, Halo2.readProof env s vk instances ⟨[], proof ++ rest⟩ =
        some (p, ⟨w.log, left⟩)) ∧ ∀ expected : Proof P F → F,
        expected p = (dpoly (work.quotient (d.log2 env l ++ [.squeeze]))).eval d.x →
        verifyProof env s vk addr deref expected (fun com claims st pf => gwcVerify (fun a b => e a b) g com (transcript env) scheme claims st pf)
          instances (proof ++ rest) = some true := by
  obtain ⟨d, pts, w, l, comb, os, h1, h2, h3, h4, h5, p, e1, eo, e3, b⟩ := protocol_ready hf hi hw hz hk _ (commit_linear hset hcom) he
  have hcl := claims_backed b h5 he ha hcom
  obtain ⟨cs, _, k2, k3⟩ := C78_gwc_complete ht hnd hr hset hg2 (claims := toClaims addr os) (by rw [toClaims, List.length_map, h4]; exact hT)
    (fun a => (d.polyAt s key comb (deref a)).getD []) (fun c hc => (hcl c hc).1)
    (fun a => (p.commitAt env s vk instances (deref a)).getD 0) (fun c hc => (hcl c hc).2.1) (fun c hc => (hcl c hc).2.2) (transcript env) w.log
  rw [absorb_all] at k2 k3
  refine ⟨d, pts, w, l, p, w.proof ++ cs.map .point, ?_, h1, eo, h2, fun rest => ⟨⟨_, by rw [List.append_assoc]; exact e1 _⟩, fun expected hexp => ?_⟩⟩
  · rw [createProof, h1, Option.bind_some]
    simp only [h3, Option.bind_some, k2, Option.map_some]
  · rw [verifyProof, if_pos hv, List.append_assoc, e1, Option.bind_some]
    simp only [hexp, e3, Option.bind_some, leading_points]
    exact k3 _ _ rfl

/-- C93: with `SHPlonk` the prover makes a proof that the verifier accepts, if the value that the verifier expects is that of the quotient,
unless the challenge after its first commitment `h` is one of the points of which the polynomial of the first opening is not opened at; then
it fails. -/
theorem C93_shplonk {canon : F → ℕ} (hcanon : Function.Injective canon) {env : Env P F} {s : Shape} {key : Key F} {vk : VerifyingKey P F}
    {work : Work P F}
    {instances : List (List (List F))} (hf : Fits env s key vk instances) (hi : InstancesFit env s instances) (hw : work.Fits s)
    (hz : Sizes env s key work instances) (hk : env.n = 2 ^ env.k) (he : ∀ l x, env.eval l x = (dpoly l).eval x)
    (hv : validInstances env s instances = true) (ht : 0 < env.threads)
    {addr : Place → ℕ} {deref : ℕ → Place} (ha : ∀ x, deref (addr x) = x)
    {e : P →ₗ[F] Q →ₗ[F] T} {g2 : Q} (hnd : Nondegenerate e g2) {g : P} {tau : F} {n : ℕ}
    (hT : 2 * (max n 1 + openings s instances.length key.sigmas.length + env.threads) ≤ 2 ^ 64) {scheme : Scheme P Q}
    (hset : scheme.kzg.For g tau n) (hg2 : scheme.For g2 tau)
    (hcom : ∀ l : List F, l.length ≤ env.n → scheme.kzg.commit l = some (env.commit l)) (debug : Bool) :
    ∃ d pts w l p comb o os h, prove env s key work instances ⟨[], []⟩ = some ((d, pts), w) ∧
      proverOpenings env s key d pts = some (comb, o :: os) ∧ Schedule env s work instances.length d l w.log ∧ p.Of env s key d pts ∧
      let u := env.squeeze (w.log ++ [.squeeze, .squeeze, .absorb (.point h)])
      let others := allPoints (toClaims addr (o :: os)) \ pointsFor (toClaims addr (o :: os)) (addr o.place)
      let create := fun poly claims st => (shplonkCreate env.threads debug canon poly (transcript env) scheme claims st).map (·.1)
      (u ∈ others → createProof env s key work addr deref create instances = none) ∧
      (u ∉ others → ∃ q, createProof env s key work addr deref create instances = some (w.proof ++ [.point h, .point q]) ∧
        ∀ rest, (∃ left, Halo2.readProof env s vk instances ⟨[], w.proof ++ [.point h, .point q] ++ rest⟩ = some (p, ⟨w.log, left⟩)) ∧
          ∀ expected : Proof P F → F, expected p = (dpoly (work.quotient (d.log2 env l ++ [.squeeze]))).eval d.x →
          verifyProof env s vk addr deref expected
            (fun com claims st pf => shplonkVerify env.threads canon (fun a b => e a b) g com (transcript env) scheme claims st pf)
            instances (w.proof ++ [.point h, .point q] ++ rest) = some true) := by
  obtain ⟨d, pts, w, l, comb, os, h1, h2, h3, h4, h5, p, e1, eo, e3, b⟩ := protocol_ready hf hi hw hz hk _ (commit_linear hset hcom) he
  have hcl := claims_backed b h5 he ha hcom
  obtain ⟨o, os, rfl⟩ : ∃ o os', os = o :: os' := by
    cases os with
    | nil => rw [List.length_nil, openings] at h4; omega
    | cons o os => exact ⟨o, os, rfl⟩
  obtain ⟨h, k1, k2⟩ := C79_complete hcanon ht hnd hset hg2 ⟨addr o.place, o.point, o.value⟩ (toClaims addr os)
    (by
      have : (toClaims addr os).length = os.length := by rw [toClaims, List.length_map]
      rw [List.length_cons, this, ← List.length_cons (a := o), h4]; exact hT)
    (fun a => (d.polyAt s key comb (deref a)).getD []) (fun c hc => (hcl c hc).1)
    (fun a => (p.commitAt env s vk instances (deref a)).getD 0) (fun c hc => (hcl c hc).2.1) (fun c hc => (hcl c hc).2.2) debug
    (transcript env) w.log
  obtain ⟨k2, k3⟩ := k2 _ rfl
  have hlog : (transcript env).squeeze (w.log ++ [.squeeze] ++ [.squeeze] ++ [.absorb (.point h)]) =
      (env.squeeze (w.log ++ [.squeeze, .squeeze, .absorb (.point h)]), w.log ++ [.squeeze, .squeeze, .absorb (.point h)] ++ [.squeeze]) := by
    simp [transcript]
  refine ⟨d, pts, w, l, p, comb, o, os, h, h1, h3, h2, eo, ?_⟩
  intro u others create
  have hu : ∀ z, z = vanish others → (z u = 0 ↔ u ∈ others) := by
    rintro z rfl
    rw [vanish, Finset.prod_eq_zero_iff]
    constructor
    · rintro ⟨a, ha, h0⟩
      rw [sub_eq_zero.1 h0]; exact ha
    · intro h; exact ⟨u, h, sub_self _⟩
  constructor
  · intro hin
    have hc := k2 ((congrArg (vanish others) (congrArg Prod.fst hlog)).trans ((hu _ rfl).2 hin))
    rw [createProof, h1, Option.bind_some]
    simp only [h3, Option.bind_some, create]
    rw [show toClaims addr (o :: os) = ⟨addr o.place, o.point, o.value⟩ :: toClaims addr os from rfl, hc]
    rfl
  · intro hout
    obtain ⟨q, q1, q2⟩ := k3 (fun h0 => hout ((hu _ rfl).1 ((congrArg (vanish others) (congrArg Prod.fst hlog)).symm.trans h0)))
    refine ⟨q, ?_, fun rest => ⟨⟨_, by rw [List.append_assoc]; exact e1 _⟩, fun expected hexp => ?_⟩⟩
    · rw [createProof, h1, Option.bind_some]
      simp only [h3, Option.bind_some, create]
      rw [show toClaims addr (o :: os) = ⟨addr o.place, o.point, o.value⟩ :: toClaims addr os from rfl, q1]
      rfl
    · rw [verifyProof, if_pos hv, List.append_assoc, e1, Option.bind_some]
      simp only [hexp, e3, Option.bind_some]
      exact q2 _ (leading rest) rfl

end

/-! ### Examples -/

/-- A hash function of the transcript. -/
def exSqueeze (l : Log F97 F97) : F97 :=
  l.foldl (fun a e => match e with | .absorb (.point c) => 5 * a + c + 2 | .absorb (.scalar v) => 7 * a + v + 11 | .squeeze => 3 * a + 1) 4

/-- The value of a polynomial. -/
def exHorner (l : List F97) (x : F97) : F97 := l.foldr (fun c a => c + x * a) 0

theorem exHorner_eq (l : List F97) (x : F97) : exHorner l x = (dpoly l).eval x := by
  induction l with
  | nil => rw [dpoly, eval_zero]; rfl
  | cons a l ih => rw [exHorner, List.foldr_cons, ← exHorner, ih, dpoly]; simp

/-- Four rows, the secret 6. -/
def exHalo2 : Env F97 F97 where
  commit l := exHorner l 6
  commitEvals l := exHorner (Dense.removeZeros l) 6
  eval := exHorner
  ifft := Dense.removeZeros
  squeeze := exSqueeze
  domain := exRows
  n := 4
  k := 2
  threads := 2

/-- Two advice columns of different phases, a challenge after each, the later first; a lookup, a shuffle, two grand products and a quotient
in two pieces. -/
def exShape : Shape where
  advicePhases := [0, 1]
  challengePhases := [1, 0]
  instanceColumns := 1
  lookups := 1
  shuffles := 1
  products := 2
  degree := 3
  blinding := 1
  instanceQueries := [(0, 0)]
  adviceQueries := [(0, 0), (1, 1), (0, -1)]
  fixedQueries := [(0, 0)]
  lookupType := .halo2
  queryInstance := true
  batch := true

/-- The keys. -/
def exPlonkKey : Key F97 := ⟨[[1, 2, 3]], [[0, 1], [5, 0, 0, 2], [7]], 13⟩
def exPlonkVk : VerifyingKey F97 F97 := ⟨[[1, 2, 3]].map (exHorner · 6), [[0, 1], [5, 0, 0, 2], [7]].map (exHorner · 6), 13⟩

/-- The prover's polynomials, some made from challenges. -/
def exWork : Work F97 F97 where
  advice _ known _ _ _ := [(known 1).getD 3 + 1000, 1, 2]
  prepared log _ := [.pair [1, exSqueeze log, 1] [4, 4]]
  products log _ := [[2, exSqueeze log, 1], [9, 8, 7, 6]]
  grands _ _ := [[3, 1, 4, 1]]
  shuffles _ _ := [[2, 7, 1]]
  quotient log := [exSqueeze log, 3, 1, 1, 2, 6]

/-- A circuit with an instance column of two rows. -/
def exInstances : List (List (List F97)) := [[[3, 4]]]

/-- The scheme. -/
def exGwc : Scheme F97 F97 := ⟨⟨[1, 6, 36, 216], [], []⟩, false, 0, 6, (6, -1)⟩

/-- Addresses. -/
def exAddr : Place → ℕ
  | .inst i j => 13 * Nat.pair i j + 0
  | .advice i j => 13 * Nat.pair i j + 1
  | .product i j => 13 * Nat.pair i j + 2
  | .grand i j => 13 * Nat.pair i j + 3
  | .input i j => 13 * Nat.pair i j + 4
  | .table i j => 13 * Nat.pair i j + 5
  | .single i j => 13 * Nat.pair i j + 6
  | .shuffle i j => 13 * Nat.pair i j + 7
  | .fixed j => 13 * j + 8
  | .sigma j => 13 * j + 9
  | .quotient => 10
  | .random => 11

/-- What is at an address. -/
def exDeref (a : ℕ) : Place :=
  match a % 13 with
  | 0 => .inst (a / 13).unpair.1 (a / 13).unpair.2
  | 1 => .advice (a / 13).unpair.1 (a / 13).unpair.2
  | 2 => .product (a / 13).unpair.1 (a / 13).unpair.2
  | 3 => .grand (a / 13).unpair.1 (a / 13).unpair.2
  | 4 => .input (a / 13).unpair.1 (a / 13).unpair.2
  | 5 => .table (a / 13).unpair.1 (a / 13).unpair.2
  | 6 => .single (a / 13).unpair.1 (a / 13).unpair.2
  | 7 => .shuffle (a / 13).unpair.1 (a / 13).unpair.2
  | 8 => .fixed (a / 13)
  | 9 => .sigma (a / 13)
  | 10 => .quotient
  | _ => .random

theorem exDeref_exAddr (x : Place) : exDeref (exAddr x) = x := by
  have h1 : ∀ n k : ℕ, k < 13 → (13 * n + k) % 13 = k := by intro n k h; omega
  have h2 : ∀ n k : ℕ, k < 13 → (13 * n + k) / 13 = n := by intro n k h; omega
  cases x <;> simp [exAddr, exDeref, h1, h2]

/-- The proof with `GWC`. -/
def exHalo2Proof : Option (List (Msg F97 F97)) := createProof exHalo2 exShape exPlonkKey exWork exAddr exDeref
  (fun poly claims st => (gwcCreate 2 poly (transcript exHalo2) exGwc claims st).map (·.1)) exInstances

/-- The value of the quotient, from its first coefficient. -/
def exExpected (c : F97) (p : Proof F97 F97) : F97 := exHorner [c, 3, 1, 1, 2, 6] p.x

def exHalo2Verify (c : F97) (proof : List (Msg F97 F97)) : Option Bool := verifyProof exHalo2 exShape exPlonkVk exAddr exDeref (exExpected c)
  (fun com claims st pf => gwcVerify (fun a b : F97 => a * b) 1 com (transcript exHalo2) exGwc claims st pf) exInstances proof

theorem exHalo2_fits : Fits exHalo2 exShape exPlonkKey exPlonkVk exInstances where
  rotations := by decide +kernel
  next := by decide +kernel
  prev := by decide +kernel
  last := by decide +kernel
  rows := by decide
  degree := by decide
  bound := by decide
  repr := rfl
  fixed := rfl
  sigmas := rfl
  noSigmas := by decide
  circuits := by decide +kernel
  columns := by decide +kernel
  instanceQueries := by decide
  adviceQueries := by decide
  fixedQueries := by decide

theorem exHalo2_instances : InstancesFit exHalo2 exShape exInstances where
  pad _ := by decide +kernel
  poly _ _ _ _ _ := rfl
  values h := by cases h

theorem exHalo2_work : exWork.Fits exShape where
  prepared _ _ := rfl
  kind _ _ p hp := by rw [List.mem_singleton.1 hp]; trivial
  products _ _ := rfl
  grands _ _ := rfl
  shuffles _ _ := rfl

theorem exOpens {a : F97} {l : List F97} (h : l.length ≤ 3) (hl : l ≠ []) (h0 : l.getLast? ≠ some 0) : Opens exHalo2.n (a :: l) := by
  obtain ⟨b, m, rfl⟩ := List.exists_cons_of_ne_nil hl
  exact ⟨by rw [DClean, List.getLast?_cons_cons]; exact h0, by rw [List.length_cons]; exact Nat.succ_le_succ h⟩

theorem exHalo2_sizes : Sizes exHalo2 exShape exPlonkKey exWork exInstances where
  advice _ known _ _ _ := exOpens (by decide) (by decide +kernel) (by decide +kernel)
  prepared log _ p hp q hq := by
    rw [List.mem_singleton.1 hp] at hq
    rcases List.mem_cons.1 hq with rfl | hq
    · exact ⟨by rw [DClean, List.getLast?_cons_cons, List.getLast?_cons_cons]; decide +kernel, Nat.le_succ 3⟩
    · rw [List.mem_singleton.1 hq]; exact exOpens (by decide) (by decide +kernel) (by decide +kernel)
  products log _ p hp := by
    rcases List.mem_cons.1 hp with rfl | hp
    · exact ⟨by rw [DClean, List.getLast?_cons_cons, List.getLast?_cons_cons]; decide +kernel, Nat.le_succ 3⟩
    · rw [List.mem_singleton.1 hp]; exact exOpens (by decide) (by decide +kernel) (by decide +kernel)
  grands _ _ p hp := by
    rw [List.mem_singleton.1 hp]; exact exOpens (by decide) (by decide +kernel) (by decide +kernel)
  shuffles _ _ p hp := by
    rw [List.mem_singleton.1 hp]; exact exOpens (by decide) (by decide +kernel) (by decide +kernel)
  fixed := by unfold Opens DClean; decide +kernel
  sigmas := by unfold Opens DClean; decide +kernel
  instances := by unfold Opens DClean; decide +kernel
  quotient _ := show 6 ≤ 4 * 2 by decide

/-- C93: the verifier has the challenges of the circuit in another order than the prover if a later one is of an earlier phase: the prover
has them by index, the verifier by phase. -/
theorem C93_order : Fits exHalo2 exShape exPlonkKey exPlonkVk exInstances ∧ InstancesFit exHalo2 exShape exInstances ∧ exWork.Fits exShape ∧
    ∃ d pts w p r, prove exHalo2 exShape exPlonkKey exWork exInstances ⟨[], []⟩ = some ((d, pts), w) ∧
      Halo2.readProof exHalo2 exShape exPlonkVk exInstances ⟨[], w.proof⟩ = some (p, r) ∧
      (List.range exShape.challengePhases.length).filterMap d.challenges = [17, 6] ∧ p.challenges = [6, 17] := by
  refine ⟨exHalo2_fits, exHalo2_instances, exHalo2_work, ?_⟩
  have h : ((prove exHalo2 exShape exPlonkKey exWork exInstances ⟨[], []⟩).bind fun a =>
      (Halo2.readProof exHalo2 exShape exPlonkVk exInstances ⟨[], a.2.proof⟩).map fun b =>
        ((List.range exShape.challengePhases.length).filterMap a.1.1.challenges, b.1.challenges)) = some ([17, 6], [6, 17]) := by
    decide +kernel
  obtain ⟨⟨⟨d, pts⟩, w⟩, h1, h⟩ := Option.bind_eq_some_iff.1 h
  obtain ⟨⟨p, r⟩, h2, h⟩ := Option.map_eq_some_iff.1 h
  obtain ⟨h3, h4⟩ := Prod.mk.inj h
  exact ⟨d, pts, w, p, r, h1, h2, h3, h4⟩

-- the quotient has the first coefficient 73; a proof is accepted, and not for another quotient or with another value
example : exHalo2Proof.bind (exHalo2Verify 73) = some true := by decide +kernel
example : exHalo2Proof.bind (exHalo2Verify 74) = some false := by decide +kernel
example : verifyProof exHalo2 exShape exPlonkVk exAddr exDeref (exExpected 73) (fun _ _ _ _ => some true) (exInstances.map fun c => c ++ c) [] =
    some false := by decide +kernel
example : (exHalo2Proof.bind fun l => exHalo2Verify 73 (l.set 20 (.scalar 9))) = some false := by decide +kernel

-- the hypotheses hold of this prover
example : ∃ proof p log left, exHalo2Proof = some proof ∧
    Halo2.readProof exHalo2 exShape exPlonkVk exInstances ⟨[], proof⟩ = some (p, ⟨log, left⟩) := by
  obtain ⟨d, _, w, l, p, proof, h1, _, _, _, h3⟩ := C93_gwc (e := LinearMap.mul F97 F97) (g2 := 1) (g := 1) (tau := 6) (n := 4) (scheme := exGwc)
    exHalo2_fits exHalo2_instances exHalo2_work exHalo2_sizes (by decide) exHorner_eq (by decide +kernel) (by decide) (by decide)
    exDeref_exAddr (fun a h => (mul_one a).symm.trans h) ⟨rfl, rfl, rfl⟩ (by unfold Setup.For; decide +kernel) (by unfold Scheme.For; decide +kernel)
    (fun l hl => by
      rw [commit_eq (g := (1 : F97)) (tau := 6) (n := 4) (by unfold Setup.For; decide +kernel), if_pos (show l.length ≤ 4 from hl), commitment, ← exHorner_eq]
      exact congrArg some (mul_one _))
  obtain ⟨⟨left, h4⟩, _⟩ := h3 []
  rw [List.append_nil] at h4
  exact ⟨proof, p, w.log, left, h1, h4⟩

end Tachyon.Props
