import Verif.Proofs.Halo2Protocol
/-! The openings of the prover and of the verifier of halo2. -/
namespace Tachyon.Halo2
open Tachyon.FFT Tachyon.Vanishing

set_option linter.unusedSectionVars false

variable {P F : Type} [Field F] [DecidableEq F]

theorem mem_columns {env : Env P F} {place : ℕ → Place} {poly : ℕ → Option (List F)} {x : F} {queries : List (ℕ × ℤ)}
    {columns : ℕ} (hc : ∀ q ∈ queries, q.1 < columns) (hp : ∀ j < columns, (poly j).isSome) {o : Opening F}
    (ho : o ∈ queries.map (columnOpening env place poly x)) :
    ∃ j < columns, ∃ f, poly j = some f ∧ o.place = place j ∧ o.value = env.eval f o.point := by
  obtain ⟨q, hq, rfl⟩ := List.mem_map.1 ho
  obtain ⟨f, hf⟩ := Option.isSome_iff_exists.1 (hp _ (hc q hq))
  exact ⟨q.1, hc q hq, f, hf, rfl, by simp [columnOpening, valueAt, hf]⟩

theorem mem_openProducts {env : Env P F} {pts : Points F} {i : ℕ} {products : List (List F)} {o : Opening F}
    (ho : o ∈ openProducts env pts i products) : ∃ j f, products[j]? = some f ∧ o.place = .product i j ∧ o.value = env.eval f o.point := by
  rw [openProducts, List.mem_append, List.mem_flatMap, List.mem_map] at ho
  rcases ho with ⟨⟨f, j⟩, hp, ho⟩ | ⟨⟨f, j⟩, hp, rfl⟩
  · have := List.mem_zipIdx_iff_getElem?.1 hp
    simp only [List.mem_cons, List.not_mem_nil, or_false] at ho
    rcases ho with rfl | rfl <;> exact ⟨j, f, this, rfl, rfl⟩
  · have := List.mem_zipIdx_iff_getElem?.1 (List.mem_reverse.1 (List.mem_of_mem_drop hp))
    exact ⟨j, f, this, rfl, rfl⟩

theorem mem_openShuffles {env : Env P F} {pts : Points F} {i : ℕ} {shuffles : List (List F)} {o : Opening F}
    (ho : o ∈ openShuffles env pts i shuffles) : ∃ j f, shuffles[j]? = some f ∧ o.place = .shuffle i j ∧ o.value = env.eval f o.point := by
  rw [openShuffles, List.mem_flatMap] at ho
  obtain ⟨⟨f, j⟩, hp, ho⟩ := ho
  have := List.mem_zipIdx_iff_getElem?.1 hp
  simp only [List.mem_cons, List.not_mem_nil, or_false] at ho
  rcases ho with rfl | rfl <;> exact ⟨j, f, this, rfl, rfl⟩

theorem mem_openLookups {env : Env P F} {pts : Points F} {i : ℕ} {prepared : List (Prepared (List F))} {grands : List (List F)}
    {os : List (Opening F)} (h : openLookups env pts i prepared grands = some os) {o : Opening F} (ho : o ∈ os) :
    ∃ j f, o.value = env.eval f o.point ∧ ((grands[j]? = some f ∧ o.place = .grand i j) ∨
      (∃ g, prepared[j]? = some (.pair f g) ∧ o.place = .input i j) ∨ (∃ g, prepared[j]? = some (.pair g f) ∧ o.place = .table i j) ∨
      (prepared[j]? = some (.single f) ∧ o.place = .single i j)) := by
  unfold openLookups at h
  split at h
  · cases h
  · obtain rfl := Option.some.inj h
    rw [List.mem_flatMap] at ho
    obtain ⟨⟨⟨g, q⟩, j⟩, hp, ho⟩ := ho
    have hz := List.mem_zipIdx_iff_getElem?.1 hp
    rw [List.getElem?_zip_eq_some] at hz
    obtain ⟨h1, h2⟩ := hz
    cases q with
    | pair a b =>
      simp only [List.mem_cons, List.not_mem_nil, or_false] at ho
      rcases ho with rfl | rfl | rfl | rfl | rfl
      · exact ⟨j, g, rfl, Or.inl ⟨h1, rfl⟩⟩
      · exact ⟨j, a, rfl, Or.inr (Or.inl ⟨b, h2, rfl⟩)⟩
      · exact ⟨j, b, rfl, Or.inr (Or.inr (Or.inl ⟨a, h2, rfl⟩))⟩
      · exact ⟨j, a, rfl, Or.inr (Or.inl ⟨b, h2, rfl⟩)⟩
      · exact ⟨j, g, rfl, Or.inl ⟨h1, rfl⟩⟩
    | single m =>
      simp only [List.mem_cons, List.not_mem_nil, or_false] at ho
      rcases ho with rfl | rfl | rfl
      · exact ⟨j, g, rfl, Or.inl ⟨h1, rfl⟩⟩
      · exact ⟨j, g, rfl, Or.inl ⟨h1, rfl⟩⟩
      · exact ⟨j, m, rfl, Or.inr (Or.inr (Or.inr ⟨h2, rfl⟩))⟩

theorem openings_match [AddCommGroup P] [Module F P] {env : Env P F} {s : Shape} {key : Key F} {vk : VerifyingKey P F}
    {instances : List (List (List F))} (hf : Fits env s key vk instances) (hi : InstancesFit env s instances) {d : Held F}
    (hd : d.Fits s instances env) {pts : Points F} (hpts : points env s.blinding d.x = some pts) {p : Proof P F}
    (hp : p.Of env s key d pts) {comb : List F} (hcomb : combinedH env.n (Group.squareTimes env.k d.x) d.h = some comb)
    (hver : verifierH (Group.squareTimes env.k d.x) ((pieces env.n d.h).map env.commit) = env.commit comb) :
    ∃ os, proverOpenings env s key d pts = some (comb, os) ∧
      verifierOpenings env s vk instances p (env.eval comb d.x) = some os ∧
      os.length = openings s instances.length key.sigmas.length ∧ ∀ o ∈ os, Backed env s key vk instances d comb p o := by
  have hr := hf.rotations
  simp only [List.mem_append] at hr
  have hx : pts.x = d.x := by
    rw [points] at hpts
    obtain ⟨u, _, h⟩ := Option.bind_eq_some_iff.1 hpts
    obtain ⟨v, _, h⟩ := Option.bind_eq_some_iff.1 h
    obtain ⟨z, _, rfl⟩ := Option.map_eq_some_iff.1 h
    rfl
  have hl : d.instancePolys.length = instances.length := by rw [hd.instancePolys, List.length_map]
  set m := instances.length with hm
  have hm0 : 0 < m := List.length_pos_iff.2 hf.circuits
  -- one circuit
  have hcirc : ∀ i < m, ∃ os, openCircuit env s d pts i = some os ∧ verifierCircuit env s instances p pts i = some os ∧
      os.length = (s.adviceQueries.length + if s.queryInstance then s.instanceQueries.length else 0) + (s.products * 3 - 1) +
        s.lookups * perLookup s.lookupType + s.shuffles * 2 ∧ ∀ o ∈ os, Backed env s key vk instances d comb p o := by
    intro i hi'
    have i0 : i < d.instancePolys.length := by omega
    have i1 : i < d.products.length := by rw [hd.products]; exact hi'
    have i2 : i < d.prepared.length := by rw [hd.prepared]; exact hi'
    have i3 : i < d.grands.length := by rw [hd.grands]; exact hi'
    have i4 : i < d.shuffles.length := by rw [hd.shuffles]; exact hi'
    have hgp : d.grands[i].length = d.prepared[i].length := by
      rw [hd.grands' _ (List.getElem_mem i3), hd.prepared' _ (List.getElem_mem i2)]
    obtain ⟨ol, ol1, ol2⟩ := verifierLookups_eq env pts i hgp
    have hcol : ∀ c ∈ instances, ∀ q ∈ s.instanceQueries, q.1 < c.length := fun c hc q hq => by
      rw [hf.columns c hc]; exact hf.instanceQueries q hq
    have hpoly : d.instancePolys[i] = instances[i].map env.ifft := by simp [hd.instancePolys]
    set inst : List (Opening F) := if s.queryInstance then
      s.instanceQueries.map (columnOpening env (.inst i) (d.instancePolys[i][·]?) d.x) else [] with hinst
    set adv := s.adviceQueries.map (columnOpening env (.advice i) (fun j => some (d.advice i j)) d.x) with hadv
    refine ⟨inst ++ adv ++ openProducts env pts i d.products[i] ++ ol ++ openShuffles env pts i d.shuffles[i], ?_, ?_, ?_, ?_⟩
    · have e1 : (if s.queryInstance then (d.instancePolys[i]?).bind fun polys =>
          openColumns env (.inst i) (polys[·]?) d.x s.instanceQueries else some []) = some inst := by
        rw [hinst]
        split
        · rw [List.getElem?_eq_getElem i0, Option.bind_some]
          refine openColumns_eq env _ _ (fun q hq => ?_) fun q hq => hr q (by simp [hq])
          have := hcol instances[i] (List.getElem_mem hi') q hq
          rw [hpoly]; simpa using this
        · rfl
      have e2 : openColumns env (.advice i) (fun j => if j < s.advicePhases.length then some (d.advice i j) else none) d.x
          s.adviceQueries = some adv := by
        rw [openColumns_eq env _ _ (fun q hq => by rw [if_pos (hf.adviceQueries q hq)]; rfl) fun q hq => hr q (by simp [hq])]
        refine congrArg some (List.map_congr_left fun q hq => ?_)
        rw [columnOpening, columnOpening, valueAt_congr (g := fun j => some (d.advice i j)) (by rw [if_pos (hf.adviceQueries q hq)])]
      rw [openCircuit, e1, e2, List.getElem?_eq_getElem i1, List.getElem?_eq_getElem i2, List.getElem?_eq_getElem i3,
        List.getElem?_eq_getElem i4]
      simp only [Option.bind_some, Option.map_some]
      rw [ol1]
      rfl
    · have e1 : (if s.queryInstance then (instances[i]?).bind fun c => (p.evals.instanceEvals[i]?).bind fun e =>
          verifierColumns env (.inst i) c.length p.x s.instanceQueries e else some []) = some inst := by
        rw [hinst]
        split
        · rw [hp.evals, hp.x, List.getElem?_eq_getElem hi', Option.bind_some, Held.values, List.getElem?_map,
            List.getElem?_eq_getElem i0, Option.map_some, Option.bind_some]
          exact verifierColumns_eq env _ _ _ (hcol _ (List.getElem_mem hi')) fun q hq => hr q (by simp [hq])
        · rfl
      have e2 : ((p.evals.adviceEvals[i]?).bind fun e => verifierColumns env (.advice i) s.advicePhases.length p.x s.adviceQueries e) =
          some adv := by
        rw [hp.evals, hp.x, Held.values]
        simp only [List.getElem?_map]
        rw [List.getElem?_range i0, Option.map_some, Option.bind_some]
        exact verifierColumns_eq env _ _ _ hf.adviceQueries fun q hq => hr q (by simp [hq])
      have e3 : ((p.products[i]?).bind fun c => (p.evals.productEvals[i]?).bind fun e => verifierProducts pts i c.length e) =
          some (openProducts env pts i d.products[i]) := by
        rw [hp.products, hp.evals, Held.values, List.getElem?_map]
        simp only [List.getElem?_map]
        rw [List.getElem?_eq_getElem i1]
        simp only [Option.map_some, Option.bind_some, List.length_map]
        exact verifierProducts_eq env pts i _
      have e4 : ((p.grands[i]?).bind fun c => (p.evals.lookupEvals[i]?).bind fun e => verifierLookups pts i c.length e) = some ol := by
        have : (d.prepared.zip d.grands)[i]? = some (d.prepared[i], d.grands[i]) := by
          rw [List.getElem?_zip_eq_some]
          exact ⟨List.getElem?_eq_getElem i2, List.getElem?_eq_getElem i3⟩
        rw [hp.grands, hp.evals, Held.values, List.getElem?_map]
        simp only [List.getElem?_map]
        rw [List.getElem?_eq_getElem i3, this]
        simp only [Option.map_some, Option.bind_some, List.length_map]
        exact ol2
      have e5 : ((p.shuffles[i]?).bind fun c => (p.evals.shuffleEvals[i]?).bind fun e => verifierShuffles pts i c.length e) =
          some (openShuffles env pts i d.shuffles[i]) := by
        rw [hp.shuffles, hp.evals, Held.values, List.getElem?_map]
        simp only [List.getElem?_map]
        rw [List.getElem?_eq_getElem i4]
        simp only [Option.map_some, Option.bind_some, List.length_map]
        exact verifierShuffles_eq env pts i _
      rw [verifierCircuit, e1, e2, e3, e4, e5]
      rfl
    · have hli : inst.length = if s.queryInstance then s.instanceQueries.length else 0 := by
        rw [hinst]; split <;> simp
      simp only [List.length_append, hli, hadv, List.length_map, length_openProducts, length_openShuffles,
        length_openLookups ol1 (hd.kind _ (List.getElem_mem i2)), hd.products' _ (List.getElem_mem i1),
        hd.grands' _ (List.getElem_mem i3), hd.shuffles' _ (List.getElem_mem i4)]
      omega
    · intro o ho
      simp only [List.mem_append] at ho
      rcases ho with (((ho | ho) | ho) | ho) | ho
      · rw [hinst] at ho
        split at ho
        · next hq =>
          obtain ⟨j, hj, f, e1, e2, e3⟩ := mem_columns (columns := instances[i].length) (hcol _ (List.getElem_mem hi'))
            (fun j hj => by rw [hpoly]; simpa using hj) ho
          refine ⟨f, ?_, e3, ?_⟩
          · rw [e2]
            simp only [Held.polyAt]
            rw [List.getElem?_eq_getElem i0, Option.bind_some, e1]
          · rw [hpoly, List.getElem?_map, List.getElem?_eq_getElem hj, Option.map_some] at e1
            obtain rfl := Option.some.inj e1
            rw [e2]
            simp only [Proof.commitAt, commitColumns]
            rw [List.getElem?_eq_getElem hi', Option.bind_some, List.getElem?_map, List.getElem?_eq_getElem hj, Option.map_some,
              hi.pad hq _ (List.getElem_mem hi') _ (List.getElem_mem hj), hi.poly hq _ (List.getElem_mem hi') _ (List.getElem_mem hj)]
        · cases ho
      · obtain ⟨j, hj, f, e1, e2, e3⟩ := mem_columns (columns := s.advicePhases.length) hf.adviceQueries (fun j hj => rfl) ho
        obtain rfl := Option.some.inj e1
        refine ⟨_, ?_, e3, ?_⟩
        · rw [e2]; simp only [Held.polyAt]; rw [if_pos ⟨i0, hj⟩]
        · rw [e2]; simp only [Proof.commitAt]; rw [if_pos ⟨hi', hj⟩, hp.advice i i0 j hj]
      · obtain ⟨j, f, e1, e2, e3⟩ := mem_openProducts ho
        refine ⟨f, ?_, e3, ?_⟩
        · rw [e2]; simp only [Held.polyAt]; rw [List.getElem?_eq_getElem i1, Option.bind_some, e1]
        · rw [e2]; simp only [Proof.commitAt, hp.products]
          rw [List.getElem?_map, List.getElem?_eq_getElem i1, Option.map_some, Option.bind_some, List.getElem?_map, e1]; rfl
      · obtain ⟨j, f, e3, h | ⟨g, h⟩ | ⟨g, h⟩ | h⟩ := mem_openLookups ol1 ho <;> obtain ⟨e1, e2⟩ := h <;>
          refine ⟨f, ?_, e3, ?_⟩ <;> rw [e2] <;> simp only [Held.polyAt, Proof.commitAt, hp.grands, hp.prepared, List.getElem?_map] <;>
          first
          | rw [List.getElem?_eq_getElem i3, Option.bind_some, e1]
          | (rw [List.getElem?_eq_getElem i3, Option.map_some, Option.bind_some, List.getElem?_map, e1]; rfl)
          | (rw [List.getElem?_eq_getElem i2, Option.bind_some, e1]; rfl)
          | (rw [List.getElem?_eq_getElem i2, Option.map_some, Option.bind_some, List.getElem?_map, e1]; rfl)
      · obtain ⟨j, f, e1, e2, e3⟩ := mem_openShuffles ho
        refine ⟨f, ?_, e3, ?_⟩
        · rw [e2]; simp only [Held.polyAt]; rw [List.getElem?_eq_getElem i4, Option.bind_some, e1]
        · rw [e2]; simp only [Proof.commitAt, hp.shuffles]
          rw [List.getElem?_map, List.getElem?_eq_getElem i4, Option.map_some, Option.bind_some, List.getElem?_map, e1]; rfl
  classical
  choose! f f1 f2 f3 f4 using hcirc
  have hC : (List.range m).mapM (openCircuit env s d pts) = some ((List.range m).map f) :=
    FloorPlan.mapM_eq fun i hi' => f1 i (List.mem_range.1 hi')
  have hV : (List.range m).mapM (verifierCircuit env s instances p pts) = some ((List.range m).map f) :=
    FloorPlan.mapM_eq fun i hi' => f2 i (List.mem_range.1 hi')
  have hfix1 := openColumns_eq env .fixed (poly := (key.fixed[·]?)) d.x (queries := s.fixedQueries)
    (fun q hq => by simpa using hf.fixedQueries q hq) fun q hq => hr q (by simp [hq])
  have hfix2 := verifierColumns_eq env .fixed (key.fixed[·]?) d.x hf.fixedQueries fun q hq => hr q (by simp [hq])
  set fixed := s.fixedQueries.map (columnOpening env .fixed (key.fixed[·]?) d.x) with hfixed
  set sigmas := key.sigmas.zipIdx.map fun p => opened env (.sigma p.2) p.1 pts.x with hsig
  have hflat : ((List.range m).map f).flatten.length = m * ((s.adviceQueries.length + if s.queryInstance then s.instanceQueries.length else 0) +
      (s.products * 3 - 1) + s.lookups * perLookup s.lookupType + s.shuffles * 2) := by
    rw [← List.flatMap_def, length_flatMap_const fun i hi' => f3 i (List.mem_range.1 hi'), List.length_range]
  have hp0 : d.products[0]?.map List.length = some s.products := by
    have i1 : 0 < d.products.length := by rw [hd.products]; exact hm0
    rw [List.getElem?_eq_getElem i1, Option.map_some, hd.products' _ (List.getElem_mem i1)]
  obtain ⟨p0, hp0, hp0'⟩ := Option.map_eq_some_iff.1 hp0
  refine ⟨((List.range m).map f).flatten ++ fixed ++ sigmas ++ [opened env .quotient comb d.x, opened env .random d.random d.x], ?_, ?_, ?_, ?_⟩
  · rw [proverOpenings, hcomb, Option.bind_some, hp0, Option.bind_some, hl, hC, Option.bind_some, hfix1, Option.bind_some]
    simp only []
    rw [if_neg]
    simp only [ne_eq, not_not, List.length_append, hflat, hsig, hfixed, List.length_map, List.length_zipIdx, List.length_cons, List.length_nil,
      vanishingOpenings, permutationOpenings, shuffleOpenings, hp0', hd.prepared, hd.shuffles, ← hm]
    rw [if_neg (by omega : ¬ m = 0)]
    have hlk : lookupOpenings s.lookupType m s.lookups = m * (s.lookups * perLookup s.lookupType) := by
      cases s.lookupType <;> simp [lookupOpenings, perLookup, Nat.mul_assoc]
    rw [hlk]
    by_cases h0 : s.products = 0
    · rw [if_pos h0, hf.noSigmas h0, h0]; simp; ring
    · rw [if_neg h0]; ring
  · rw [verifierOpenings, hp.x, hpts, Option.bind_some, ← hm, hV, Option.bind_some, if_neg (by omega)]
    have hvf : vk.fixed.length = key.fixed.length := by rw [hf.fixed, List.length_map]
    have hfe : p.evals.fixedEvals = s.fixedQueries.map (valueAt env (key.fixed[·]?) d.x) := by rw [hp.evals]; rfl
    rw [hvf, hfe, hfix2, Option.bind_some, mapM_range0 (g := fun p => opened env (.sigma p.2) p.1 pts.x) key.sigmas
      (by rw [hf.sigmas, List.length_map]) fun j hj => ?_]
    · rw [Option.map_some, hp.evals]
      rfl
    · have : p.evals.sigmaEvals = key.sigmas.map fun p => env.eval p d.x := by rw [hp.evals]; rfl
      rw [this, List.getElem?_map, List.getElem?_eq_getElem hj, hx]
      rfl
  · simp only [List.length_append, hflat, hsig, hfixed, List.length_map, List.length_zipIdx, List.length_cons, List.length_nil, openings]
    cases s.lookupType <;> rfl
  · intro o ho
    simp only [List.mem_append, List.mem_cons, List.not_mem_nil, or_false] at ho
    rcases ho with ((ho | ho) | ho) | rfl | rfl
    · rw [List.mem_flatten] at ho
      obtain ⟨l, hl', ho⟩ := ho
      obtain ⟨i, hi', rfl⟩ := List.mem_map.1 hl'
      exact f4 i (List.mem_range.1 hi') o ho
    · obtain ⟨j, hj, g, e1, e2, e3⟩ := mem_columns (columns := key.fixed.length) hf.fixedQueries (fun j hj => by simpa using hj) ho
      refine ⟨g, ?_, e3, ?_⟩
      · rw [e2]; exact e1
      · rw [e2]; simp only [Proof.commitAt]; rw [hf.fixed, List.getElem?_map, e1]; rfl
    · obtain ⟨⟨g, j⟩, hp', rfl⟩ := List.mem_map.1 ho
      have := List.mem_zipIdx_iff_getElem?.1 hp'
      refine ⟨g, this, rfl, ?_⟩
      change vk.sigmas[j]? = _
      rw [hf.sigmas, List.getElem?_map]
      simp only at this
      rw [this]; rfl
    · refine ⟨comb, rfl, rfl, ?_⟩
      change some (verifierH _ p.h) = _
      rw [hp.h, hp.x, hver]
    · refine ⟨d.random, rfl, rfl, ?_⟩
      change some p.random = _
      rw [hp.random]

end Tachyon.Halo2
