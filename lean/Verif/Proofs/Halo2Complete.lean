import Verif.Proofs.Halo2Log
import Verif.Props.CircuitPoly
import Verif.Props.Vanishing
import Verif.Spec.Halo2Complete
/-! The value that the verifier of halo2 expects is that of the prover's quotient. -/
namespace Tachyon.Halo2
open Tachyon.FFT Tachyon.Group Tachyon.Poly Tachyon.Vanishing Tachyon.Parallel Polynomial
open Tachyon.CircuitPoly (System ProvingKey CircuitEvals)

variable {P F : Type} [Field F] [DecidableEq F]

theorem rotate_spec {env : Env P F} (hd : env.domain.Valid) (hoff : env.domain.offset = 1) {r : ℤ} (h1 : -2 ^ 63 < r) (h2 : r < 2 ^ 63)
    (x : F) : rotate env r x = some (env.domain.gen ^ r * x) := by
  rw [rotate, Domain.getElement_spec hd h1 h2, Option.map_some, Domain.elem, hoff, one_mul, mul_comm]
  congr 2
  rw [← zpow_natCast, Int.toNat_of_nonneg (Int.emod_nonneg _ (by have := hd.pos; omega))]
  conv_rhs => rw [← Int.mul_ediv_add_emod r env.domain.size, zpow_add₀ hd.gen_ne, zpow_mul, zpow_natCast, hd.prim.pow_eq_one, one_zpow, one_mul]

theorem points_spec {env : Env P F} (hd : env.domain.Valid) (hoff : env.domain.offset = 1) {b : ℕ} (hb : b + 2 ≤ 2 ^ 63) {x : F}
    {pts : Points F} (h : points env b x = some pts) :
    pts = ⟨x, env.domain.gen * x, env.domain.gen⁻¹ * x, env.domain.gen ^ (-((b : ℤ) + 1)) * x⟩ := by
  rw [points, rotate_spec hd hoff (by omega) (by omega), Option.bind_some, rotate_spec hd hoff (by omega) (by omega), Option.bind_some,
    rotate_spec hd hoff (by omega) (by omega), Option.map_some, Option.some_inj] at h
  rw [← h, zpow_one, zpow_neg_one]

theorem filterMap_all {α β : Type} {f : α → Option β} {l : List α} (h : ∀ a ∈ l, (f a).isSome) : (l.filterMap f).length = l.length := by
  induction l with
  | nil => rfl
  | cons a l ih =>
    obtain ⟨b, hb⟩ := Option.isSome_iff_exists.1 (h a (by simp))
    rw [List.filterMap_cons_some hb, List.length_cons, List.length_cons, ih fun a ha => h a (by simp [ha])]

theorem zipWith_zip {α β γ : Type} (f : α → β → γ) (l : List α) (l' : List β) : List.zipWith f l l' = (l.zip l').map fun q => f q.1 q.2 := by
  induction l generalizing l' with
  | nil => rfl
  | cons a l ih => cases l' with
    | nil => rfl
    | cons b l' => rw [List.zipWith_cons_cons, List.zip_cons_cons, List.map_cons, ih]

/-- What the prover holds belongs to the constraint system. -/
theorem circuit_fits {env : Env P F} {s : Shape} {sys : System F} {key : Key F} {pk : ProvingKey F} (sf : s.For sys key pk) {work : Work P F}
    {instances : List (List (List F))} (hcols : ∀ c ∈ instances, c.length = s.instanceColumns) (hz : Sizes env s key work instances)
    {d : Held F} (hd : d.Fits s instances env)
    (hprep : ∀ x ∈ d.prepared, ∀ p ∈ x, ∀ q ∈ p.toList, Opens env.n q) (hprod : ∀ x ∈ d.products, ∀ p ∈ x, Opens env.n p)
    (hgr : ∀ x ∈ d.grands, ∀ p ∈ x, Opens env.n p) (hsh : ∀ x ∈ d.shuffles, ∀ p ∈ x, Opens env.n p)
    (hadv : ∀ i j, Opens env.n (d.advice i j))
    (hch : ∀ i, (d.challenges i).isSome ↔ ∃ ph ∈ Keygen.getPhases s.advicePhases, s.challengePhases[i]? = some ph)
    {i : ℕ} (hi : i < instances.length) : (d.circuit s key i).Fits sys env.n s.degree := by
  have hinst : d.instancePolys.getD i [] = (instances[i]).map env.ifft := by
    rw [hd.instancePolys, List.getD_eq_getElem _ _ (by simpa using hi), List.getElem_map]
  have hlen : ∀ k, ((d.circuit s key i).polys.columns k).length = s.numColumns key k := by
    intro k
    cases k with
    | fixed => rfl
    | advice => simp [Held.circuit, Plonk.Table.columns, Shape.numColumns]
    | inst =>
      show (d.instancePolys.getD i []).length = s.instanceColumns
      rw [hinst, List.length_map, hcols _ (List.getElem_mem hi)]
  have hchl : (d.circuit s key i).polys.challenges.length = s.challengePhases.length := by
    show ((List.range s.challengePhases.length).filterMap d.challenges).length = _
    rw [filterMap_all, List.length_range]
    intro j hj
    rw [List.mem_range] at hj
    exact (hch j).2 ⟨_, sf.phases _ (List.getElem_mem hj), List.getElem?_eq_getElem hj⟩
  have hP : d.products.getD i [] = d.products[i]'(by rw [hd.products]; exact hi) := List.getD_eq_getElem _ _ _
  have hG : d.grands.getD i [] = d.grands[i]'(by rw [hd.grands]; exact hi) := List.getD_eq_getElem _ _ _
  have hR : d.prepared.getD i [] = d.prepared[i]'(by rw [hd.prepared]; exact hi) := List.getD_eq_getElem _ _ _
  have hS : d.shuffles.getD i [] = d.shuffles[i]'(by rw [hd.shuffles]; exact hi) := List.getD_eq_getElem _ _ _
  refine ⟨fun e he => Plonk.Legal.mono (fun k x hx => by rw [hlen]; exact hx) (fun j hj => by rw [hchl]; exact hj) e (sf.exprs e he),
    fun k hk => by rw [hlen]; exact sf.keys k hk, ?_, ?_, ?_, ?_, ?_, ?_, ?_⟩
  · intro k p hp
    cases k with
    | fixed => exact (hz.fixed p hp).2
    | advice =>
      obtain ⟨j, -, rfl⟩ := List.mem_map.1 hp
      exact (hadv i j).2
    | inst =>
      replace hp : p ∈ d.instancePolys.getD i [] := hp
      rw [hinst] at hp
      obtain ⟨col, hc, rfl⟩ := List.mem_map.1 hp
      exact (hz.instances _ (List.getElem_mem hi) col hc).2
  · show (d.products.getD i []).length = _
    rw [hP, hd.products' _ (List.getElem_mem _), sf.products]
  · intro p hp
    replace hp : p ∈ d.products.getD i [] := hp
    rw [hP] at hp
    exact (hprod _ (List.getElem_mem _) p hp).2
  · show (List.zipWith Prepared.cosets (d.grands.getD i []) (d.prepared.getD i [])).length = _
    rw [hG, hR, List.length_zipWith, hd.grands' _ (List.getElem_mem _), hd.prepared' _ (List.getElem_mem _), Nat.min_self, sf.lookups]
  · intro l hl
    replace hl : l ∈ List.zipWith Prepared.cosets (d.grands.getD i []) (d.prepared.getD i []) := hl
    rw [hG, hR, zipWith_zip] at hl
    obtain ⟨⟨g, q⟩, hm, rfl⟩ := List.mem_map.1 hl
    have h1 := (List.of_mem_zip hm).1
    have h2 := (List.of_mem_zip hm).2
    have hg := (hgr _ (List.getElem_mem _) g h1).2
    have hq := hprep _ (List.getElem_mem _) q h2
    cases q with
    | pair a b => exact ⟨hg, (hq a (by simp [Prepared.toList])).2, (hq b (by simp [Prepared.toList])).2⟩
    | single m => exact ⟨hg, Nat.zero_le _, Nat.zero_le _⟩
  · show (d.shuffles.getD i []).length = _
    rw [hS, hd.shuffles' _ (List.getElem_mem _), sf.shuffles]
  · intro p hp
    replace hp : p ∈ d.shuffles.getD i [] := hp
    rw [hS] at hp
    exact (hsh _ (List.getElem_mem _) p hp).2

/-- The values in the proof are those of the polynomials of the circuit. -/
theorem circuit_values {env : Env P F} {s : Shape} {sys : System F} {key : Key F} {pk : ProvingKey F} (sf : s.For sys key pk)
    {instances : List (List (List F))} (hcols : ∀ c ∈ instances, c.length = s.instanceColumns)
    (hiq : ∀ q ∈ s.instanceQueries, q.1 < s.instanceColumns) (haq : ∀ q ∈ s.adviceQueries, q.1 < s.advicePhases.length)
    (he : ∀ l x, env.eval l x = (dpoly l).eval x) (hv : env.domain.Valid) (hoff : env.domain.offset = 1)
    {d : Held F} (hd : d.Fits s instances env)
    (hch : ∀ i, (d.challenges i).isSome ↔ ∃ ph ∈ Keygen.getPhases s.advicePhases, s.challengePhases[i]? = some ph)
    {pts : Points F} (hpts : points env s.blinding d.x = some pts) (hb : s.blinding + 2 ≤ 2 ^ 63) {p : Proof P F} (ho : p.Of env s key d pts)
    {i : ℕ} (hi : i < instances.length) :
    ∃ v, p.circuitEvals i = some v ∧ CircuitEvals.Of sys env.domain.gen d.x (-((s.blinding : ℤ) + 1)) (d.circuit s key i) v := by
  have hpt := points_spec hv hoff hb hpts
  have hinst : d.instancePolys[i]? = some ((instances[i]).map env.ifft) := by
    rw [hd.instancePolys, List.getElem?_map, List.getElem?_eq_getElem hi, Option.map_some]
  have hil : d.instancePolys.length = instances.length := by rw [hd.instancePolys, List.length_map]
  have hP : d.products[i]? = some (d.products.getD i []) := by
    rw [List.getD_eq_getElem _ _ (by rw [hd.products]; exact hi), List.getElem?_eq_getElem]
  have hG : d.grands[i]? = some (d.grands.getD i []) := by
    rw [List.getD_eq_getElem _ _ (by rw [hd.grands]; exact hi), List.getElem?_eq_getElem]
  have hR : d.prepared[i]? = some (d.prepared.getD i []) := by
    rw [List.getD_eq_getElem _ _ (by rw [hd.prepared]; exact hi), List.getElem?_eq_getElem]
  have hS : d.shuffles[i]? = some (d.shuffles.getD i []) := by
    rw [List.getD_eq_getElem _ _ (by rw [hd.shuffles]; exact hi), List.getElem?_eq_getElem]
  have hRm : d.prepared.getD i [] ∈ d.prepared := List.mem_of_getElem? hR
  set looks : List (CircuitPoly.LookupEvals F) := ((d.grands.getD i []).zip (d.prepared.getD i [])).map fun q =>
    ⟨env.eval q.1 pts.x, env.eval q.1 pts.next, env.eval (q.2.cosets q.1).input pts.x, env.eval (q.2.cosets q.1).input pts.prev,
      env.eval (q.2.cosets q.1).table pts.x⟩ with hlooks
  have hlook : ((d.grands.getD i []).zip (d.prepared.getD i [])).mapM (fun q => (lookupValues env pts q).toCircuit) =
      some looks := by
    refine FloorPlan.mapM_eq fun q hq => ?_
    have hk := hd.kind _ hRm q.2 (List.of_mem_zip hq).2
    rw [sf.kind] at hk
    obtain ⟨g, q⟩ := q
    cases q with
    | pair a b => rfl
    | single m => exact hk.elim
  have hval : ∀ (poly : ℕ → Option (List F)) (q : ℕ × ℤ), q ∈ s.instanceQueries ++ s.adviceQueries ++ s.fixedQueries →
      valueAt env poly d.x q = (dpoly ((poly q.1).getD [])).eval (env.domain.gen ^ q.2 * d.x) := by
    intro poly q hq
    obtain ⟨h1, h2⟩ := sf.rotations q hq
    rw [valueAt, rotate_spec hv hoff h1 h2, Option.getD_some, he]
  refine ⟨⟨⟨p.evals.fixedEvals, s.adviceQueries.map (valueAt env (fun j => some (d.advice i j)) d.x),
    s.instanceQueries.map (valueAt env (((instances[i]).map env.ifft)[·]?) d.x), p.challenges⟩,
    (productValues env pts (d.products.getD i [])).map (·.1), (productValues env pts (d.products.getD i [])).map (·.2.1),
    (productValues env pts (d.products.getD i [])).map (·.2.2), looks, (d.shuffles.getD i []).map fun p => (env.eval p pts.x, env.eval p pts.next)⟩,
    ?_, ?_⟩
  · rw [Proof.circuitEvals, ho.evals]
    simp only [Held.values, List.getElem?_map, hinst, Option.map_some, Option.bind_some, hP, hS, List.getElem?_zip_eq_some, hil,
      List.getElem?_range hi]
    rw [show (d.prepared.zip d.grands)[i]? = some (d.prepared.getD i [], d.grands.getD i []) from List.getElem?_zip_eq_some.2 ⟨hR, hG⟩]
    simp only [Option.map_some, Option.bind_some]
    rw [List.mapM_map]
    refine (congrArg (fun o => Option.bind o _) hlook).trans ?_
    rw [Option.bind_some]
  · refine ⟨?_, ?_, ?_, ?_, ?_, ?_, ?_⟩
    · intro k
      cases k with
      | fixed =>
        show p.evals.fixedEvals = sys.fixedQueries.map _
        rw [ho.evals, ← sf.fixedQueries]
        refine List.map_congr_left fun q hq => ?_
        rw [hval _ _ (by simp [hq]), CircuitPoly.colPolys]
        show _ = (dpoly (key.fixed.getD q.1 [])).eval _
        rw [List.getD_eq_getElem?_getD]
      | advice =>
        show s.adviceQueries.map _ = sys.adviceQueries.map _
        rw [← sf.adviceQueries]
        refine List.map_congr_left fun q hq => ?_
        rw [hval _ _ (by simp [hq]), CircuitPoly.colPolys]
        show _ = (dpoly (((List.range s.advicePhases.length).map (d.advice i)).getD q.1 [])).eval _
        rw [List.getD_eq_getElem _ _ (by simpa using haq q hq), List.getElem_map, List.getElem_range, Option.getD_some]
      | inst =>
        show s.instanceQueries.map _ = sys.instQueries.map _
        rw [← sf.instQueries]
        refine List.map_congr_left fun q hq => ?_
        rw [hval _ _ (by simp [hq]), CircuitPoly.colPolys]
        show _ = (dpoly ((d.instancePolys.getD i []).getD q.1 [])).eval _
        rw [List.getD_eq_getElem?_getD (l := d.instancePolys), hinst, Option.getD_some, List.getD_eq_getElem?_getD]
    · show p.challenges = (List.range s.challengePhases.length).filterMap d.challenges
      rw [ho.challenges]
      refine byPhase_sorted sf.sorted fun j hj => ?_
      obtain ⟨ph, h1, h2⟩ := (hch j).1 hj
      exact ⟨ph, List.mem_range.1 h1, h2⟩
    · show (productValues env pts (d.products.getD i [])).map (·.1) = (d.products.getD i []).map _
      rw [productValues, List.map_map]
      conv_rhs => rw [← List.zipIdx_map_fst 0 (d.products.getD i []), List.map_map]
      simp only [he, hpt, Function.comp_def]
    · show (productValues env pts (d.products.getD i [])).map (·.2.1) = (d.products.getD i []).map _
      rw [productValues, List.map_map]
      conv_rhs => rw [← List.zipIdx_map_fst 0 (d.products.getD i []), List.map_map]
      simp only [he, hpt, Function.comp_def]
    · intro j hj
      replace hj : j + 1 < (d.products.getD i []).length := hj
      show ((productValues env pts (d.products.getD i [])).map (·.2.2))[j]? = some (some ((dpoly ((d.products.getD i []).getD j [])).eval _))
      rw [productValues, List.getElem?_map, List.getElem?_map, List.getElem?_zipIdx, List.getElem?_eq_getElem (by omega), Option.map_some,
        Option.map_some, Option.map_some]
      simp only [Nat.zero_add]
      rw [if_pos (by omega), he, hpt, List.getD_eq_getElem (d.products.getD i []) _ (Nat.lt_of_succ_lt hj)]
    · show _ = (List.zipWith Prepared.cosets (d.grands.getD i []) (d.prepared.getD i [])).map _
      rw [zipWith_zip, List.map_map]
      refine List.map_congr_left fun q hq => ?_
      obtain ⟨g, q⟩ := q
      cases q <;> simp only [he, hpt, Function.comp_def, Prepared.cosets]
    · show _ = (d.shuffles.getD i []).map _
      simp only [he, hpt]

/-- The verifier expects the value of the quotient at `x`, if the prover has computed it as it does and the constraints hold in the rows. -/
theorem run_fits [Zero P] {env : Env P F} {s : Shape} {sys : System F} {key : Key F} {pk : ProvingKey F} {vk : VerifyingKey P F}
    {work : Work P F} {instances : List (List (List F))} (hf : Fits env s key vk instances) (hi : InstancesFit env s instances)
    (hw : work.Fits s) (hz : Sizes env s key work instances) (sf : s.For sys key pk) (hn : env.n = env.domain.size)
    {d : Held F} {pts : Points F} {w : Writer P F} {l : Log P F}
    (hp : prove env s key work instances ⟨[], []⟩ = some ((d, pts), w)) (hsch : Schedule env s work instances.length d l w.log)
    {i : ℕ} (hii : i < instances.length) : (d.circuit s key i).Fits sys env.domain.size s.degree := by
  obtain ⟨d', pts', w', h1, h2, h3, -, h5, h6, -⟩ := prove_read hf hi hw
  rw [hp] at h1
  obtain ⟨⟨rfl, rfl⟩, rfl⟩ : (d = d' ∧ pts = pts') ∧ w = w' := by simpa using h1
  rw [← hn]
  refine circuit_fits sf hf.columns hz h2 ?_ ?_ ?_ ?_ (h5 _ ⟨by simp [DClean], Nat.zero_le _⟩ hz.advice) h6 hii
  · rw [hsch.prepared]
    intro x hx
    obtain ⟨j, -, rfl⟩ := List.mem_map.1 hx
    exact hz.prepared _ j
  · rw [hsch.products]
    intro x hx
    obtain ⟨j, -, rfl⟩ := List.mem_map.1 hx
    exact hz.products _ j
  · rw [hsch.grands]
    intro x hx
    obtain ⟨j, -, rfl⟩ := List.mem_map.1 hx
    exact hz.grands _ j
  · rw [hsch.shuffles]
    intro x hx
    obtain ⟨j, -, rfl⟩ := List.mem_map.1 hx
    exact hz.shuffles _ j

theorem expected_value [Zero P] {env : Env P F} {s : Shape} {sys : System F} {key : Key F} {pk : ProvingKey F} {vk : VerifyingKey P F}
    {work : Work P F} {instances : List (List (List F))} (hf : Fits env s key vk instances) (hi : InstancesFit env s instances)
    (hw : work.Fits s) (hz : Sizes env s key work instances) (sf : s.For sys key pk) (he : ∀ l x, env.eval l x = (dpoly l).eval x)
    {threads : ℕ} (o o' : Sched) {ext : Domain F} (hd : env.domain.Radix2) (hn : env.n = env.domain.size) (hd1 : env.domain.offset = 1)
    (hext : ext.Radix2) (hext1 : ext.offset = 1) (hgen : ext.gen ^ 2 ^ (ext.logSize - env.domain.logSize) = env.domain.gen)
    {item item' : Item F} (hit : item.For env.domain) (hit' : item'.For ext) (ht : 0 < threads) (ht' : threads ≤ 2 ^ 63)
    (htv : 0 < env.threads) (htv' : env.threads < 128) (hsz : env.domain.size ≤ 2 ^ 30)
    (hke : extendedK s.degree env.domain.logSize = some ext.logSize) (hbd : env.domain.size * s.degree ≤ 2 ^ 63) (hq : sys.Queried)
    (hs1 : sys.shuffles.length ≤ 1) (hcols : sys.columns.length < 2 ^ 64) (hb : s.blinding + 2 ≤ env.domain.size)
    (hk : pk.Fits sys env.domain.size) (hsel : pk.Selects env.domain.gen env.domain.size (env.domain.size - (s.blinding + 1)))
    {zeta : F} (hzeta : IsPrimitiveRoot zeta 3) (delta : F)
    {d : Held F} {pts : Points F} {w : Writer P F} {l : Log P F} {p : Proof P F}
    (hp : prove env s key work instances ⟨[], []⟩ = some ((d, pts), w)) (ho : p.Of env s key d pts)
    (hsch : Schedule env s work instances.length d l w.log)
    (hv : ∀ i < instances.length, ∀ q ∈ (d.circuit s key i).constraints sys pk env.domain.gen delta s.blinding s.degree d.ch,
      ∀ j < env.domain.size, q.eval (env.domain.gen ^ j) = 0) :
    ∃ h, d.quotient threads o o' env.domain ext item item' sys pk delta zeta s key = some h ∧
      (work.quotient (d.log2 env l ++ [.squeeze]) = h → d.x ^ env.n ≠ 1 →
        p.expected env s sys delta instances.length = some ((dpoly h).eval d.x)) := by
  obtain ⟨d', pts', w', h1, h2, h3, -, h5, h6, -⟩ := prove_read hf hi hw
  rw [hp] at h1
  obtain ⟨⟨rfl, rfl⟩, rfl⟩ : (d = d' ∧ pts = pts') ∧ w = w' := by simpa using h1
  have hil : d.instancePolys.length = instances.length := by rw [h2.instancePolys, List.length_map]
  have hfits : ∀ i < instances.length, (d.circuit s key i).Fits sys env.domain.size s.degree :=
    fun i hii => run_fits hf hi hw hz sf hn hp hsch hii
  have hmem : ∀ c ∈ (List.range d.instancePolys.length).map (d.circuit s key), ∃ i < instances.length, c = d.circuit s key i := by
    intro c hc
    obtain ⟨i, hi, rfl⟩ := List.mem_map.1 hc
    exact ⟨i, by rw [← hil]; exact List.mem_range.1 hi, rfl⟩
  obtain ⟨column, h, coeffs, c1, c2, c3, c4⟩ := Props.C88_complete (threads' := env.threads) o o' hd hd1 hext hext1 hgen hit hit' ht ht' htv
    htv' hsz sf.degree hke hbd hq hs1 hcols hb hk hsel (circuits := (List.range d.instancePolys.length).map (d.circuit s key))
    (fun c hc => by obtain ⟨i, hi, rfl⟩ := hmem c hc; exact hfits i hi)
    (by
      intro h0
      have := congrArg List.length h0
      rw [List.length_map, List.length_range, hil, List.length_nil] at this
      exact hf.circuits (List.length_eq_zero_iff.1 this))
    hzeta delta d.ch (fun _ : List F => (0 : F)) 0 (fun _ _ => rfl)
    (fun c hc => by obtain ⟨i, hi, rfl⟩ := hmem c hc; exact hv i hi)
  refine ⟨h, by rw [Held.quotient, c1, Option.bind_some, c2], fun hwq hx => ?_⟩
  have hx' : d.x ^ env.domain.size ≠ 1 := by rw [← hn]; exact hx
  obtain ⟨comb, k1, -, k3⟩ := c4 d.x hx'
  have hvals : ∀ i < instances.length, ∃ v, p.circuitEvals i = some v ∧
      CircuitEvals.Of sys env.domain.gen d.x (-((s.blinding : ℤ) + 1)) (d.circuit s key i) v := fun i hi =>
    circuit_values sf hf.columns hf.instanceQueries hf.adviceQueries he hd.1 hd1 h2 h6 h3 (by omega) ho hi
  choose v hv1 hv2 using hvals
  have hvs : (List.range instances.length).mapM p.circuitEvals =
      some ((List.range instances.length).attach.map fun i => v i.1 (List.mem_range.1 i.2)) := by
    conv_lhs => rw [← List.attach_map_subtype_val (List.range instances.length), List.mapM_map]
    exact FloorPlan.mapM_eq fun i _ => hv1 i.1 _
  have hall := k3 ((List.range instances.length).attach.map fun i => v i.1 (List.mem_range.1 i.2)) (by
    rw [hil]
    conv => arg 2; rw [← List.attach_map_subtype_val (List.range instances.length), List.map_map]
    rw [List.forall₂_map_left_iff, List.forall₂_map_right_iff, List.forall₂_same]
    exact fun i _ => hv2 i.1 _)
  have hlast : (dpoly comb).eval d.x = (dpoly h).eval d.x := by
    obtain ⟨coeffs', comb', e1, e2, -, -, -, -, -, e8⟩ := Props.C87_pieces (fun _ : List F => (0 : F)) 0 (fun _ _ => rfl) hf.rows hf.degree
      hf.bound h (by rw [← hwq]; exact hz.quotient _) d.x
    rw [hn] at e1 e2
    rw [c3] at e1
    obtain rfl := Option.some.inj e1
    rw [k1] at e2
    obtain rfl := Option.some.inj e2
    exact e8
  rw [Proof.expected, hvs, Option.bind_some, ho.x, ho.theta, ho.beta, ho.gamma, ho.y, ho.evals, ← hlast, ← hall]
  congr 1
  show key.sigmas.map (fun q => env.eval q d.x) = _
  simp only [he, sf.sigmas]

end Tachyon.Halo2
