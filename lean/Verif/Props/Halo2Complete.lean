import Verif.Proofs.Halo2Honest
import Verif.Props.Halo2Protocol
/-! C100: the whole of halo2. If the witness satisfies the circuits, the proof is accepted. -/
namespace Tachyon.Props
open Tachyon.FFT Tachyon.Group Tachyon.Poly Tachyon.Vanishing Tachyon.Halo2 Tachyon.Kzg Tachyon.Parallel Polynomial
open Tachyon.CircuitPoly (System ProvingKey)

section
variable {P F : Type} [Field F] [DecidableEq F]

/-- C100: in the run of the prover, if in the rows of all circuits the gates vanish and the columns of the arguments are as they have to be,
then the quotient that the code computes exists; if it is what the prover commits to and the point is not in the domain, the value that the
verifier computes from the proof is that of the quotient. -/
theorem C100_expected [Zero P] {env : Env P F} {s : Shape} {sys : System F} {key : Key F} {pk : ProvingKey F} {vk : VerifyingKey P F}
    {work : Work P F} {instances : List (List (List F))} (hf : Fits env s key vk instances) (hi : InstancesFit env s instances)
    (hw : work.Fits s) (hz : Sizes env s key work instances) (sf : s.For sys key pk) {threads : ℕ} (o o' : Sched) {ext : Domain F}
    {item item' : Item F} {zeta : F} (hs : Setting env s sys pk ext item item' threads zeta) (delta : F)
    {d : Held F} {pts : Points F} {w : Writer P F} {l : Log P F} {p : Proof P F}
    (hp : prove env s key work instances ⟨[], []⟩ = some ((d, pts), w)) (ho : p.Of env s key d pts)
    (hsch : Schedule env s work instances.length d l w.log)
    (hv : ∀ i < instances.length, d.Satisfies env s sys key pk delta i) :
    ∃ h, d.quotient threads o o' env.domain ext item item' sys pk delta zeta s key = some h ∧
      (work.quotient (d.log2 env l ++ [.squeeze]) = h → d.x ^ env.n ≠ 1 →
        p.expected env s sys delta instances.length = some ((dpoly h).eval d.x)) := by
  refine expected_value hf hi hw hz sf hs.eval o o' hs.domain hs.rows hs.offset hs.extDomain hs.extOffset hs.gen hs.itemFor hs.itemExt
    hs.threads.1 hs.threads.2 hs.verifierThreads.1 hs.verifierThreads.2 hs.size hs.extended hs.bound hs.queried hs.shuffles hs.columns
    hs.blinding hs.key hs.selects hs.zeta delta hp ho hsch fun i hii => ?_
  exact (C88_rows hs.domain hs.size sf.degree hs.columns hs.blinding hs.key hs.selects
    (run_fits hf hi hw hz sf hs.rows hp hsch hii) delta d.ch).2 (hv i hii)

end

section
variable {P Q T F : Type} [Field F] [DecidableEq F] [AddCommGroup P] [Module F P] [AddCommGroup Q] [Module F Q] [AddCommGroup T] [Module F T]
  [DecidableEq T]

/-- The verifier's `EvaluateH` has a value, and the verifier accepts with it. -/
theorem verify_of {env : Env P F} {s : Shape} {sys : System F} {delta : F} {vk : VerifyingKey P F} {addr : Place → ℕ} {deref : ℕ → Place}
    {opening : (ℕ → P) → List (Claim F) → Log P F → List P → Option Bool} {instances : List (List (List F))} {proof : List (Msg P F)}
    {p : Proof P F} {r : Reader P F} {v : F} (hv : validInstances env s instances = true)
    (hr : Halo2.readProof env s vk instances ⟨[], proof⟩ = some (p, r)) (hx : p.expected env s sys delta instances.length = some v)
    (ha : verifyProof env s vk addr deref (fun _ => v) opening instances proof = some true) :
    verify env s sys delta vk addr deref opening instances proof = some true := by
  rw [verify, if_pos hv, hr, Option.bind_some, hx, Option.bind_some, ha]

/-- C100: with `GWC` the prover makes a proof. If in the rows of all circuits the gates vanish and the columns of the arguments are as they
have to be, then the code computes a quotient; if the prover has committed to it and the point is not in the domain, the verifier accepts. -/
theorem C100_gwc {env : Env P F} {s : Shape} {sys : System F} {key : Key F} {pk : ProvingKey F} {vk : VerifyingKey P F} {work : Work P F}
    {instances : List (List (List F))} (hf : Fits env s key vk instances) (hi : InstancesFit env s instances) (hw : work.Fits s)
    (hz : Sizes env s key work instances) (hk : env.n = 2 ^ env.k) (sf : s.For sys key pk) {threads : ℕ} (o o' : Sched) {ext : Domain F}
    {item item' : Item F} {zeta : F} (hs : Setting env s sys pk ext item item' threads zeta) (delta : F)
    (hv : validInstances env s instances = true)
    (hT : 2 * (openings s instances.length key.sigmas.length + env.threads) ≤ 2 ^ 64)
    {addr : Place → ℕ} {deref : ℕ → Place} (ha : ∀ x, deref (addr x) = x)
    {e : P →ₗ[F] Q →ₗ[F] T} {g2 : Q} (hnd : Nondegenerate e g2) {g : P} {tau : F} {n : ℕ} {scheme : Scheme P Q} (hr : scheme.Ready)
    (hset : scheme.kzg.For g tau n) (hg2 : scheme.For g2 tau)
    (hcom : ∀ l : List F, l.length ≤ env.n → scheme.kzg.commit l = some (env.commit l)) :
    ∃ d pts w l proof, createProof env s key work addr deref
        (fun poly claims st => (gwcCreate env.threads poly (transcript env) scheme claims st).map (·.1)) instances = some proof ∧
      prove env s key work instances ⟨[], []⟩ = some ((d, pts), w) ∧ Schedule env s work instances.length d l w.log ∧
      ((∀ i < instances.length, d.Satisfies env s sys key pk delta i) →
        ∃ h, d.quotient threads o o' env.domain ext item item' sys pk delta zeta s key = some h ∧
          (work.quotient (d.log2 env l ++ [.squeeze]) = h → d.x ^ env.n ≠ 1 → ∀ rest,
            verify env s sys delta vk addr deref
              (fun com claims st pf => gwcVerify (fun a b => e a b) g com (transcript env) scheme claims st pf)
              instances (proof ++ rest) = some true)) := by
  obtain ⟨d, pts, w, l, p, proof, h1, h2, h3, h4, h5⟩ :=
    C93_gwc hf hi hw hz hk hs.eval hv hs.verifierThreads.1 hT ha hnd hr hset hg2 hcom
  refine ⟨d, pts, w, l, proof, h1, h2, h4, fun hsat => ?_⟩
  obtain ⟨h, k1, k2⟩ := C100_expected hf hi hw hz sf o o' hs delta h2 h3 h4 hsat
  refine ⟨h, k1, fun hq hx rest => ?_⟩
  obtain ⟨⟨left, r1⟩, r2⟩ := h5 rest
  exact verify_of hv r1 (k2 hq hx) (r2 _ (by rw [hq]))

/-- C100: the same with `SHPlonk`, unless the challenge after its first commitment `h` is one of the points of which the polynomial of the
first opening is not opened at; then it fails. -/
theorem C100_shplonk {canon : F → ℕ} (hcanon : Function.Injective canon) {env : Env P F} {s : Shape} {sys : System F} {key : Key F}
    {pk : ProvingKey F} {vk : VerifyingKey P F} {work : Work P F}
    {instances : List (List (List F))} (hf : Fits env s key vk instances) (hi : InstancesFit env s instances) (hw : work.Fits s)
    (hz : Sizes env s key work instances) (hk : env.n = 2 ^ env.k) (sf : s.For sys key pk) {threads : ℕ} (o o' : Sched) {ext : Domain F}
    {item item' : Item F} {zeta : F} (hs : Setting env s sys pk ext item item' threads zeta) (delta : F)
    (hv : validInstances env s instances = true)
    {addr : Place → ℕ} {deref : ℕ → Place} (ha : ∀ x, deref (addr x) = x)
    {e : P →ₗ[F] Q →ₗ[F] T} {g2 : Q} (hnd : Nondegenerate e g2) {g : P} {tau : F} {n : ℕ}
    (hT : 2 * (max n 1 + openings s instances.length key.sigmas.length + env.threads) ≤ 2 ^ 64) {scheme : Scheme P Q}
    (hset : scheme.kzg.For g tau n) (hg2 : scheme.For g2 tau)
    (hcom : ∀ l : List F, l.length ≤ env.n → scheme.kzg.commit l = some (env.commit l)) (debug : Bool) :
    ∃ d pts w l comb op ops c, prove env s key work instances ⟨[], []⟩ = some ((d, pts), w) ∧
      proverOpenings env s key d pts = some (comb, op :: ops) ∧ Schedule env s work instances.length d l w.log ∧
      let u := env.squeeze (w.log ++ [.squeeze, .squeeze, .absorb (.point c)])
      let others := allPoints (toClaims addr (op :: ops)) \ pointsFor (toClaims addr (op :: ops)) (addr op.place)
      let create := fun poly claims st => (shplonkCreate env.threads debug canon poly (transcript env) scheme claims st).map (·.1)
      (u ∈ others → createProof env s key work addr deref create instances = none) ∧
      (u ∉ others → ∃ proof, createProof env s key work addr deref create instances = some proof ∧
        ((∀ i < instances.length, d.Satisfies env s sys key pk delta i) →
          ∃ h, d.quotient threads o o' env.domain ext item item' sys pk delta zeta s key = some h ∧
            (work.quotient (d.log2 env l ++ [.squeeze]) = h → d.x ^ env.n ≠ 1 → ∀ rest,
              verify env s sys delta vk addr deref
                (fun com claims st pf => shplonkVerify env.threads canon (fun a b => e a b) g com (transcript env) scheme claims st pf)
                instances (proof ++ rest) = some true))) := by
  obtain ⟨d, pts, w, l, p, comb, op, ops, c, h2, h6, h4, h3, h7⟩ :=
    C93_shplonk hcanon hf hi hw hz hk hs.eval hv hs.verifierThreads.1 ha hnd hT hset hg2 hcom debug
  refine ⟨d, pts, w, l, comb, op, ops, c, h2, h6, h4, ?_⟩
  intro u others create
  refine ⟨h7.1, fun hu => ?_⟩
  obtain ⟨q, h1, h5⟩ := h7.2 hu
  refine ⟨_, h1, fun hsat => ?_⟩
  obtain ⟨h, k1, k2⟩ := C100_expected hf hi hw hz sf o o' hs delta h2 h3 h4 hsat
  refine ⟨h, k1, fun hq hx rest => ?_⟩
  obtain ⟨⟨left, r1⟩, r2⟩ := h5 rest
  exact verify_of hv r1 (k2 hq hx) (r2 _ (by rw [hq]))

end

section
variable {P Q T F : Type} [Field F] [LinearOrder F] [AddCommGroup P] [Module F P] [AddCommGroup Q] [Module F Q] [AddCommGroup T] [Module F T]
  [DecidableEq T]

omit [AddCommGroup P] [Module F P] in
/-- C100: if the witness satisfies the gates, the copies, the lookups and the shuffles, then the columns that the code computes for the
arguments are as they have to be. -/
theorem C100_honest [Zero P] {env : Env P F} {s : Shape} {sys : System F} {key : Key F} {pk : ProvingKey F} {vk : VerifyingKey P F}
    {work : Work P F} {instances : List (List (List F))} (hf : Fits env s key vk instances) (hi : InstancesFit env s instances)
    (hw : work.Fits s) (hz : Sizes env s key work instances) (sf : s.For sys key pk) {threads : ℕ} {ext : Domain F}
    {item item' : Item F} {zeta : F} (hs : Setting env s sys pk ext item item' threads zeta) (delta : F)
    {d : Held F} {pts : Points F} {w : Writer P F} {l : Log P F}
    (hp : prove env s key work instances ⟨[], []⟩ = some ((d, pts), w)) (hsch : Schedule env s work instances.length d l w.log)
    {i : ℕ} (hii : i < instances.length) (h : d.Honest env s sys key pk delta i) : d.Satisfies env s sys key pk delta i :=
  satisfies_of_honest (run_fits hf hi hw hz sf hs.rows hp hsch hii) (CircuitPoly.computeDegree_le sf.degree).1 hs.size hs.columns hs.blinding h

/-- C100: with `GWC`, from a witness that satisfies the gates, the copies, the lookups and the shuffles, with the columns and the quotient that
the code computes, the prover makes a proof that the verifier accepts, unless the point is in the domain or the challenges hit a value. -/
theorem C100_complete {env : Env P F} {s : Shape} {sys : System F} {key : Key F} {pk : ProvingKey F} {vk : VerifyingKey P F} {work : Work P F}
    {instances : List (List (List F))} (hf : Fits env s key vk instances) (hi : InstancesFit env s instances) (hw : work.Fits s)
    (hz : Sizes env s key work instances) (hk : env.n = 2 ^ env.k) (sf : s.For sys key pk) {threads : ℕ} (o o' : Sched) {ext : Domain F}
    {item item' : Item F} {zeta : F} (hs : Setting env s sys pk ext item item' threads zeta) (delta : F)
    (hv : validInstances env s instances = true)
    (hT : 2 * (openings s instances.length key.sigmas.length + env.threads) ≤ 2 ^ 64)
    {addr : Place → ℕ} {deref : ℕ → Place} (ha : ∀ x, deref (addr x) = x)
    {e : P →ₗ[F] Q →ₗ[F] T} {g2 : Q} (hnd : Nondegenerate e g2) {g : P} {tau : F} {n : ℕ} {scheme : Scheme P Q} (hr : scheme.Ready)
    (hset : scheme.kzg.For g tau n) (hg2 : scheme.For g2 tau)
    (hcom : ∀ l : List F, l.length ≤ env.n → scheme.kzg.commit l = some (env.commit l)) :
    ∃ d pts w l proof, createProof env s key work addr deref
        (fun poly claims st => (gwcCreate env.threads poly (transcript env) scheme claims st).map (·.1)) instances = some proof ∧
      prove env s key work instances ⟨[], []⟩ = some ((d, pts), w) ∧ Schedule env s work instances.length d l w.log ∧
      ((∀ i < instances.length, d.Honest env s sys key pk delta i) →
        ∃ h, d.quotient threads o o' env.domain ext item item' sys pk delta zeta s key = some h ∧
          (work.quotient (d.log2 env l ++ [.squeeze]) = h → d.x ^ env.n ≠ 1 → ∀ rest,
            verify env s sys delta vk addr deref
              (fun com claims st pf => gwcVerify (fun a b => e a b) g com (transcript env) scheme claims st pf)
              instances (proof ++ rest) = some true)) := by
  obtain ⟨d, pts, w, l, proof, h1, h2, h3, h4⟩ := C100_gwc hf hi hw hz hk sf o o' hs delta hv hT ha hnd hr hset hg2 hcom
  exact ⟨d, pts, w, l, proof, h1, h2, h3, fun hh => h4 fun i hii => C100_honest hf hi hw hz sf hs delta h2 h3 hii (hh i hii)⟩

end

/-! ### Example: the circuit of C88 -/

def exShape100 : Shape where
  advicePhases := [0]
  challengePhases := []
  instanceColumns := 0
  lookups := 1
  shuffles := 1
  products := 1
  degree := 4
  blinding := 1
  instanceQueries := []
  adviceQueries := [(0, 0), (0, 1)]
  fixedQueries := [(0, 0), (1, 0), (2, 0)]
  lookupType := .halo2
  queryInstance := true
  batch := true

def exKey100 : Key F97 := ⟨exCircuit88.polys.fixed, exKey88.sigmas, 14⟩
def exVk100 : VerifyingKey F97 F97 := ⟨exKey100.fixed.map (exHorner · 6), exKey100.sigmas.map (exHorner · 6), 14⟩

/-- The columns of the arguments are those for the challenges of the run. -/
def exWork100 : Work F97 F97 where
  advice _ _ _ _ _ := [8, 21, 96, 74]
  prepared _ _ := [.pair [28, 22, 72, 77] [5, 8, 48, 41]]
  products _ _ := [[80, 23, 18, 74]]
  grands _ _ := [[71, 40, 27, 57]]
  shuffles _ _ := [[82, 5, 16, 92]]
  quotient _ := [92, 79, 88, 91, 68, 15, 91, 15, 6]

theorem ex100_fits : Fits exHalo2 exShape100 exKey100 exVk100 [[]] where
  rotations := by decide +kernel
  next := by decide +kernel
  prev := by decide +kernel
  last := by decide +kernel
  rows := by decide
  degree := by decide
  bound := by decide
  repr := rfl
  fixed := rfl
  sigmas := rfl
  noSigmas := by decide
  circuits := by decide +kernel
  columns := by decide +kernel
  instanceQueries := by decide
  adviceQueries := by decide
  fixedQueries := by decide

theorem ex100_instances : InstancesFit exHalo2 exShape100 [[]] where
  pad _ := by decide +kernel
  poly _ c hc col hcol := by rw [List.mem_singleton.1 hc] at hcol; cases hcol
  values h := by cases h

theorem ex100_work : exWork100.Fits exShape100 where
  prepared _ _ := rfl
  kind _ _ p hp := by rw [List.mem_singleton.1 hp]; trivial
  products _ _ := rfl
  grands _ _ := rfl
  shuffles _ _ := rfl

theorem ex100_sizes : Sizes exHalo2 exShape100 exKey100 exWork100 [[]] where
  advice _ _ _ _ _ := exOpens (by decide) (by decide +kernel) (by decide +kernel)
  prepared _ _ p hp q hq := by
    rw [List.mem_singleton.1 hp] at hq
    rcases List.mem_cons.1 hq with rfl | hq
    · exact exOpens (by decide) (by decide +kernel) (by decide +kernel)
    · rw [List.mem_singleton.1 hq]; exact exOpens (by decide) (by decide +kernel) (by decide +kernel)
  products _ _ p hp := by rw [List.mem_singleton.1 hp]; exact exOpens (by decide) (by decide +kernel) (by decide +kernel)
  grands _ _ p hp := by rw [List.mem_singleton.1 hp]; exact exOpens (by decide) (by decide +kernel) (by decide +kernel)
  shuffles _ _ p hp := by rw [List.mem_singleton.1 hp]; exact exOpens (by decide) (by decide +kernel) (by decide +kernel)
  fixed := by unfold Opens DClean; decide +kernel
  sigmas := by unfold Opens DClean; decide +kernel
  instances := by unfold Opens DClean; decide +kernel
  quotient _ := show 9 ≤ 4 * 3 by decide

theorem ex100_shape : exShape100.For exSystem88 exKey100 exKey88 where
  degree := exSystem88_degree
  fixedQueries := rfl
  adviceQueries := rfl
  instQueries := rfl
  lookups := rfl
  shuffles := rfl
  products := by decide
  kind := rfl
  sigmas := rfl
  rotations := by decide
  exprs := by
    intro e he
    simp only [System.exprs, exSystem88, List.flatten_cons, List.flatten_nil, List.append_nil, List.flatMap_cons,
      List.flatMap_nil, List.cons_append, List.nil_append, List.mem_cons, List.not_mem_nil, or_false] at he
    rcases he with rfl | rfl | rfl | rfl | rfl <;>
      simp [Plonk.Legal, Shape.numColumns, exShape100, exKey100, exCircuit88]
  keys := by decide
  phases := by decide
  sorted := by decide

theorem ex100_setting : Setting exHalo2 exShape100 exSystem88 exKey88 exExt16 exItem4 exItem16 3 35 where
  eval := exHorner_eq
  domain := exRows_radix2
  rows := rfl
  offset := rfl
  extDomain := exExt16_radix2
  extOffset := rfl
  gen := by decide +kernel
  itemFor := exItem4_for
  itemExt := exItem16_for
  threads := by decide
  verifierThreads := by decide
  size := by decide
  extended := by decide +kernel
  bound := by decide
  queried := exSystem88_queried
  shuffles := by decide
  columns := by decide
  blinding := by decide
  key := exKey88_fits
  selects := exKey88_selects
  zeta := exZeta

/-- The verifier. -/
def exVerify100 (proof : List (Msg F97 F97)) : Option Bool := verify exHalo2 exShape100 exSystem88 5 exVk100 exAddr exDeref
  (fun com claims st pf => gwcVerify (fun a b : F97 => a * b) 1 com (transcript exHalo2) exGwc claims st pf) [[]] proof

/-- The proof. -/
def exProof100 (work : Work F97 F97) : Option (List (Msg F97 F97)) := createProof exHalo2 exShape100 exKey100 work exAddr exDeref
  (fun poly claims st => (gwcCreate 2 poly (transcript exHalo2) exGwc claims st).map (·.1)) [[]]

-- the run: the proof is accepted; not with another advice column, another quotient or another value
example : (exProof100 exWork100).bind exVerify100 = some true := by decide +kernel
example : (exProof100 { exWork100 with advice := fun _ _ _ _ _ => [81, 64, 23, 31] }).bind exVerify100 = some false := by decide +kernel
example : (exProof100 { exWork100 with quotient := fun _ => [1, 79, 88, 91, 68, 15, 91, 15, 6] }).bind exVerify100 = some false := by
  decide +kernel
example : ((exProof100 exWork100).bind fun l => exVerify100 (l.set 13 (.scalar 9))) = some false := by decide +kernel

/-- The circuit of the run. -/
def exCircuit100 : CircuitPoly.Circuit F97 where
  polys := ⟨exCircuit88.polys.fixed, [[8, 21, 96, 74]], [], []⟩
  products := [[80, 23, 18, 74]]
  lookups := [⟨[71, 40, 27, 57], [28, 22, 72, 77], [5, 8, 48, 41]⟩]
  shuffles := [[82, 5, 16, 92]]

def exCh100 : Plonk.Challenges F97 := ⟨53, 19, 58, 37⟩

theorem exCircuit100_fits : exCircuit100.Fits exSystem88 4 4 where
  exprs := exCircuit88_fits.exprs
  keys := exCircuit88_fits.keys
  columns := by intro k; cases k <;> decide
  sets := by decide +kernel
  products := by decide
  numLookups := rfl
  lookups := by decide
  numShuffles := rfl
  shuffles := by decide

/-- What the prover has in the run. -/
theorem ex100_run {d : Held F97} {pts : Points F97} {w : Writer F97 F97}
    (h : prove exHalo2 exShape100 exKey100 exWork100 [[]] ⟨[], []⟩ = some ((d, pts), w)) :
    d.circuit exShape100 exKey100 0 = exCircuit100 ∧ d.ch = exCh100 ∧ d.x = 39 := by
  have get {α : Type} (f : Held F97 → α) (v : α)
      (e : (prove exHalo2 exShape100 exKey100 exWork100 [[]] ⟨[], []⟩).map (fun a => f a.1.1) = some v) : f d = v := by
    rw [h, Option.map_some] at e
    exact Option.some_inj.1 e
  have r1 := get (fun d => (d.circuit exShape100 exKey100 0).polys.fixed) exCircuit100.polys.fixed (by decide +kernel)
  have r2 := get (fun d => (d.circuit exShape100 exKey100 0).polys.advice) exCircuit100.polys.advice (by decide +kernel)
  have r3 := get (fun d => (d.circuit exShape100 exKey100 0).polys.inst) exCircuit100.polys.inst (by decide +kernel)
  have r4 := get (fun d => (d.circuit exShape100 exKey100 0).polys.challenges) exCircuit100.polys.challenges (by decide +kernel)
  have r5 := get (fun d => (d.circuit exShape100 exKey100 0).products) exCircuit100.products (by decide +kernel)
  have r6 := get (fun d => (d.circuit exShape100 exKey100 0).lookups.map fun l => [l.product, l.input, l.table])
    [[[71, 40, 27, 57], [28, 22, 72, 77], [5, 8, 48, 41]]] (by decide +kernel)
  have r7 := get (fun d => (d.circuit exShape100 exKey100 0).shuffles) exCircuit100.shuffles (by decide +kernel)
  have r8 := get (fun d => [d.theta, d.beta, d.gamma, d.y]) [53, 19, 58, 37] (by decide +kernel)
  refine ⟨?_, ?_, get (fun d => d.x) 39 (by decide +kernel)⟩
  · generalize d.circuit exShape100 exKey100 0 = c at *
    obtain ⟨⟨a1, a2, a3, a4⟩, a5, a6, a7⟩ := c
    dsimp only at r1 r2 r3 r4 r5 r6 r7
    rw [r1, r2, r3, r4, r5, r7]
    obtain ⟨⟨b1, b2, b3⟩, b4, rfl⟩ : ∃ b l, a6 = b :: l := by
      cases a6 with
      | nil => cases r6
      | cons b l => exact ⟨b, l, rfl⟩
    rw [List.map_cons] at r6
    obtain ⟨r6, r9⟩ := List.cons.inj r6
    obtain ⟨rfl, r6⟩ := List.cons.inj r6
    obtain ⟨rfl, r6⟩ := List.cons.inj r6
    obtain ⟨rfl, -⟩ := List.cons.inj r6
    rw [List.map_eq_nil_iff.1 r9]
    rfl
  · obtain ⟨q1, r8⟩ := List.cons.inj r8
    obtain ⟨q2, r8⟩ := List.cons.inj r8
    obtain ⟨q3, r8⟩ := List.cons.inj r8
    obtain ⟨q4, -⟩ := List.cons.inj r8
    rw [Held.ch, q1, q2, q3, q4]
    rfl

/-- The order of the numbers. -/
instance exOrder97 : LinearOrder F97 := LinearOrder.lift' (fun x : F97 => (show ZMod 97 from x).val) (fun _ _ h => ZMod.val_injective 97 h)

/-- The values in the rows, computed. -/
theorem onRows97 : CircuitPoly.onRows (22 : F97) 4 = fun p => (List.range 4).map fun j => Dense.horner p (22 ^ j) := by
  funext p
  simp only [CircuitPoly.onRows, Dense.horner_eq]

/-- The table. -/
theorem ex100_table : CircuitPoly.rowTable (22 : F97) 4 exCircuit100.polys =
    ⟨[[1, 1, 0, 0], [7, 5, 3, 2], [7, 5, 0, 0]], [[5, 7, 9, 11]], [], []⟩ := by
  rw [CircuitPoly.rowTable, onRows97]
  congr 1

/-- The witness is good and the columns are those that the code computes. -/
theorem ex100_honest {d : Held F97} (r1 : d.circuit exShape100 exKey100 0 = exCircuit100) (r2 : d.ch = exCh100) :
    d.Honest exHalo2 exShape100 exSystem88 exKey100 exKey88 5 0 := by
  have q1 : d.theta = 53 := congrArg (·.theta) r2
  have q2 : d.beta = 19 := congrArg (·.beta) r2
  have q3 : d.gamma = 58 := congrArg (·.gamma) r2
  have hT : CircuitPoly.rowTable exHalo2.domain.gen exHalo2.domain.size exCircuit100.polys = _ := ex100_table
  have hO : CircuitPoly.onRows exHalo2.domain.gen exHalo2.domain.size = _ := onRows97
  constructor
  · rw [r1, hT]
    decide +kernel
  · rw [r1, hT, hO]
    obtain ⟨store, h1, h2⟩ := Option.bind_eq_some_iff.1 (show ((Cycle.run (Cycle.Store.new 2 4) [((0, 0), (1, 1)), ((0, 1), (1, 0))]).bind fun store =>
      Cycle.generate 2 2 4 4 (22 : F97) 5 store) = some (exKey88.sigmas.map fun p => (List.range 4).map fun j => Dense.horner p (22 ^ j)) by
        decide +kernel)
    refine ⟨2, [((⟨0, by decide⟩, ⟨0, by decide⟩), (⟨1, by decide⟩, ⟨1, by decide⟩)),
      ((⟨0, by decide⟩, ⟨1, by decide⟩), (⟨1, by decide⟩, ⟨0, by decide⟩))], store, fun _ => 20, 0, 2, 1, by decide, by decide,
      by decide, by decide +kernel, h1, h2, ?_, ?_⟩
    · rw [q2, q3]
      decide +kernel
    · rw [q2, q3]
      decide +kernel
  · intro m a l ha hl
    rw [r1] at *
    rw [hT, hO, q1, q2, q3]
    obtain ⟨rfl, h⟩ : m = 0 ∧ True := by
      refine ⟨?_, trivial⟩
      by_contra h
      rw [List.getElem?_eq_none (by simp [exSystem88]; omega)] at ha
      cases ha
    obtain rfl := Option.some_inj.1 ha
    obtain rfl := Option.some_inj.1 hl
    refine ⟨by decide +kernel, by decide +kernel, by decide +kernel, fun n => [1, 2, 4, 4].getD n 30, 4, 5, 1, ?_, ?_⟩
    · decide +kernel
    · decide +kernel
  · intro m a l ha hl
    rw [r1] at *
    rw [hT, hO, q1, q3]
    obtain ⟨rfl, h⟩ : m = 0 ∧ True := by
      refine ⟨?_, trivial⟩
      by_contra h
      rw [List.getElem?_eq_none (by simp [exSystem88]; omega)] at ha
      cases ha
    obtain rfl := Option.some_inj.1 ha
    obtain rfl := Option.some_inj.1 hl
    exact ⟨by decide +kernel, by decide +kernel, fun _ => 40, 0, 1, 1, by decide +kernel⟩

-- the hypotheses of the theorem hold of the run
example : ∃ proof, exProof100 exWork100 = some proof ∧ ∀ rest, exVerify100 (proof ++ rest) = some true := by
  obtain ⟨d, pts, w, l, proof, h1, h2, h3, h4⟩ := C100_gwc (e := LinearMap.mul F97 F97) (g2 := 1) (g := 1) (tau := 6) (n := 4)
    (scheme := exGwc) ex100_fits ex100_instances ex100_work ex100_sizes (by decide) ex100_shape Sched.rev Sched.seq ex100_setting 5
    (by decide +kernel) (by decide) exDeref_exAddr (fun a h => (mul_one a).symm.trans h) ⟨rfl, rfl, rfl⟩
    (by unfold Setup.For; decide +kernel) (by unfold Scheme.For; decide +kernel)
    (fun l hl => by
      rw [commit_eq (g := (1 : F97)) (tau := 6) (n := 4) (by unfold Setup.For; decide +kernel), if_pos (show l.length ≤ 4 from hl), commitment, ← exHorner_eq]
      exact congrArg some (mul_one _))
  obtain ⟨r1, r2, r3⟩ := ex100_run h2
  obtain ⟨h, k1, k2⟩ := h4 fun i hi => by
    obtain rfl : i = 0 := by simpa using hi
    exact satisfies_of_honest (by rw [r1]; exact exCircuit100_fits) (by decide) (by decide) (by decide) (by decide) (ex100_honest r1 r2)
  have q : ((prove exHalo2 exShape100 exKey100 exWork100 [[]] ⟨[], []⟩).bind fun a =>
      a.1.1.quotient 3 Sched.rev Sched.seq exRows exExt16 exItem4 exItem16 exSystem88 exKey88 5 35 exShape100 exKey100) =
      some [92, 79, 88, 91, 68, 15, 91, 15, 6] := by decide +kernel
  rw [h2, Option.bind_some] at q
  have : h = [92, 79, 88, 91, 68, 15, 91, 15, 6] := Option.some_inj.1 (k1.symm.trans q)
  refine ⟨proof, h1, fun rest => k2 (by rw [this]; rfl) ?_ rest⟩
  rw [r3]
  decide +kernel

end Tachyon.Props
