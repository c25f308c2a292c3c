import Verif.Proofs.TwoAdicFriVerify
import Verif.Props.Fri
/-! Completeness of `TwoAdicFRI`. -/
namespace Tachyon.TwoAdicFri
open Polynomial Tachyon.Fri Tachyon.Parallel _root_.Tachyon.TwoAdicFri.Spec

variable {K Com Data Prf W S : Type} [Field K] [DecidableEq K]

/-! ### The reduced openings are values of a polynomial of low degree -/

omit [DecidableEq K] in
theorem dot_poly (a : K) (ps : List K[X]) {d : ℕ} (hp : ∀ p ∈ ps, p.degree < d) :
    ∃ P : K[X], P.degree < d ∧ ∀ x, P.eval x = dot a (evalAll ps x) := by
  induction ps with
  | nil => exact ⟨0, by simp, by simp [evalAll, dot]⟩
  | cons p ps ih =>
    obtain ⟨P, h1, h2⟩ := ih fun p hp' => hp p (by simp [hp'])
    refine ⟨p + C a * P, ?_, ?_⟩
    · refine (degree_add_le _ _).trans_lt (max_lt (hp p (by simp)) ?_)
      rw [← smul_eq_C_mul]; exact (degree_smul_le a P).trans_lt h1
    · intro x
      simp only [eval_add, eval_mul, eval_C, h2, evalAll, List.map_cons, dot]

omit [DecidableEq K] in
/-- The quotients of polynomials by `X - z` are polynomials. -/
theorem combine_poly (a : K) (l : List (List K[X] × K)) {d : ℕ} (hp : ∀ e ∈ l, ∀ p ∈ e.1, p.degree < d) :
    ∃ Q : K[X], Q.degree < d ∧ ∀ x, (∀ e ∈ l, x ≠ e.2) →
      Q.eval x = combine a x (l.map fun e => (e.2, evalAll e.1 x, evalAll e.1 e.2)) := by
  induction l with
  | nil => exact ⟨0, by simp, by simp [combine]⟩
  | cons e l ih =>
    obtain ⟨Q, h1, h2⟩ := ih fun e he => hp e (by simp [he])
    obtain ⟨P, g1, g2⟩ := dot_poly a e.1 (hp e (by simp))
    have hroot : (P - C (P.eval e.2)).IsRoot e.2 := by simp
    have hmul := mul_divByMonic_eq_iff_isRoot.2 hroot
    have hdeg : ((P - C (P.eval e.2)) /ₘ (X - C e.2)).degree < d := by
      by_cases h0 : P = 0
      · rw [h0]; simp [h0] at g1 ⊢
      · refine (degree_divByMonic_le _ _).trans_lt ((degree_sub_le _ _).trans_lt (max_lt g1 ?_))
        refine degree_C_le.trans_lt ?_
        have : (0 : WithBot ℕ) ≤ P.degree := by rwa [zero_le_degree_iff]
        exact this.trans_lt g1
    refine ⟨(P - C (P.eval e.2)) /ₘ (X - C e.2) + C (a ^ e.1.length) * Q, ?_, ?_⟩
    · refine (degree_add_le _ _).trans_lt (max_lt hdeg ?_)
      rw [← smul_eq_C_mul]; exact (degree_smul_le _ Q).trans_lt h1
    · intro x hx
      have hxz : x - e.2 ≠ 0 := sub_ne_zero.2 (hx e (by simp))
      have := congrArg (eval x) hmul
      rw [eval_mul] at this
      simp only [eval_sub, eval_X, eval_C, g2] at this
      rw [eval_add, eval_mul, eval_C, h2 x fun e he => hx e (by simp [he]), List.map_cons, combine]
      congr 1
      · rw [eq_div_iff hxz, mul_comm]; simpa [g2] using this
      · simp [evalAll]

omit [DecidableEq K] in
theorem place_pow {A : ℕ} {W' g : K} (hW : IsPrimitiveRoot W' (2 ^ A)) {h : ℕ} (i : ℕ) :
    place A W' g h i ^ 2 ^ A = g ^ 2 ^ A := by
  rw [place, mul_pow, ← pow_mul, ← pow_mul, ← mul_assoc, mul_comm _ (2 ^ A), pow_mul, hW.pow_eq_one, one_pow,
    mul_one]

omit [DecidableEq K] in
/-- The reduced openings of the prover are a codeword. -/
theorem redAt_codeword {A b : ℕ} {W' g : K} (hW : IsPrimitiveRoot W' (2 ^ A)) (a : K) {ms : List (Mat K)}
    (hm : ∀ m ∈ ms, m.Ok A b g) (h : ℕ) :
    Fri.Spec.Codeword (W' ^ 2 ^ (A - h)) h (2 ^ (h - b)) (redAt A W' g a ms h) := by
  have hcl : ∀ x, claimsAt h ms x = ((ms.filter fun m => m.log = h).flatMap fun m =>
      m.points.map fun z => (m.polys, z)).map fun e => (e.2, evalAll e.1 x, evalAll e.1 e.2) := by
    intro x
    rw [claimsAt, List.map_flatMap]
    simp only [List.map_map, Function.comp_def]
  obtain ⟨Q, h1, h2⟩ := combine_poly a ((ms.filter fun m => m.log = h).flatMap fun m =>
      m.points.map fun z => (m.polys, z)) (d := 2 ^ (h - b)) (by
    intro e he p hp
    simp only [List.mem_flatMap, List.mem_filter, decide_eq_true_eq, List.mem_map] at he
    obtain ⟨m, ⟨hm1, rfl⟩, z, -, rfl⟩ := he
    exact (hm m hm1).deg p hp)
  refine ⟨Q.comp (C g * X), ?_, ?_⟩
  · by_cases hQ : Q.comp (C g * X) = 0
    · rw [hQ, degree_zero]; exact WithBot.bot_lt_coe _
    · have hQ0 : Q ≠ 0 := by rintro rfl; simp at hQ
      rw [degree_eq_natDegree hQ0] at h1
      rw [degree_eq_natDegree hQ]
      have := natDegree_comp_le (p := Q) (q := C g * X)
      have h3 : (C g * X : K[X]).natDegree ≤ 1 := (natDegree_C_mul_le g X).trans natDegree_X_le
      have h4 : Q.natDegree < 2 ^ (h - b) := by exact_mod_cast h1
      have h5 : (Q.comp (C g * X)).natDegree < 2 ^ (h - b) :=
        this.trans_lt ((Nat.mul_le_mul_left _ h3).trans_lt (by simpa using h4))
      exact_mod_cast h5
  · intro i _
    rw [eval_comp]
    simp only [eval_mul, eval_C, eval_X]
    change redAt A W' g a ms h i = Q.eval (place A W' g h i)
    rw [h2, redAt, hcl]
    intro e he hx
    simp only [List.mem_flatMap, List.mem_filter, decide_eq_true_eq, List.mem_map] at he
    obtain ⟨m, ⟨hm1, -⟩, z, hz, rfl⟩ := he
    apply (hm m hm1).out z hz
    dsimp only at hx
    rw [← hx, place_pow hW]

/-! ### The input of FRI -/

omit [DecidableEq K] in
theorem friInput_eq (A : ℕ) (W' g a : K) [DecidableEq K] (ms : List (Mat K)) :
    (stateOf A W' g a ms).openings.reverse.filter (· ≠ []) =
      ((List.range 32).reverse.filter (HasHeight ms)).map fun h => Fri.Spec.vec h (redAt A W' g a ms h) := by
  rw [stateOf]
  dsimp only
  rw [← List.map_reverse]
  induction (List.range 32).reverse with
  | nil => rfl
  | cons h l ih =>
    rw [List.map_cons, List.filter_cons, ih, List.filter_cons]
    have hne : Fri.Spec.vec h (redAt A W' g a ms h) ≠ [] := by
      intro e
      have := congrArg List.length e
      simp [Fri.Spec.vec] at this
    by_cases hh : HasHeight ms h
    · simp [hh, hne]
    · simp [hh]

/-- The head of the descending list of heights. -/
theorem filter_range_reverse (P : ℕ → Bool) {n N : ℕ} (hn : n < N) (hP : P n = true)
    (hmax : ∀ k, P k = true → k ≤ n) :
    (List.range N).reverse.filter P = n :: (List.range n).reverse.filter P := by
  induction N with
  | zero => omega
  | succ N ih =>
    rw [List.range_succ, List.reverse_append, List.reverse_singleton, List.singleton_append, List.filter_cons]
    rcases Nat.lt_or_eq_of_le (Nat.lt_succ_iff.1 hn) with hlt | rfl
    · rw [if_neg (by intro h; have := hmax N h; omega), ih hlt]
    · rw [if_pos hP]

theorem mapM_forall₂ {α β : Type} {f : α → Option β} {P : α → β → Prop} (l : List α)
    (h : ∀ a ∈ l, ∃ b, f a = some b ∧ P a b) : ∃ bs, l.mapM f = some bs ∧ List.Forall₂ P l bs := by
  induction l with
  | nil => exact ⟨[], rfl, List.Forall₂.nil⟩
  | cons a l ih =>
    obtain ⟨b, h1, h2⟩ := h a (by simp)
    obtain ⟨bs, h3, h4⟩ := ih fun a ha => h a (by simp [ha])
    exact ⟨b :: bs, by rw [List.mapM_cons, h1, h3]; rfl, List.Forall₂.cons h2 h4⟩

theorem zipPoints_eq {α β γ : Type} (f : γ → α) (g : γ → β) (l : List γ) :
    zipPoints (l.map f) (l.map g) = some (l.map fun x => (f x, g x)) := by
  induction l with
  | nil => rfl
  | cons x l ih => rw [List.map_cons, List.map_cons, zipPoints, ih]; rfl

omit [DecidableEq K] in
theorem maxRows_eq (A : ℕ) (W' g : K) {ms : List (Mat K × FFT.Domain K)} {k : ℕ} (hk : TopLog ms k) :
    maxRows (ms.map fun m => m.1.rows A W' g) = 2 ^ k := by
  have hl : ((ms.map fun m => m.1.rows A W' g).map List.length) = ms.map fun m => 2 ^ m.1.log := by
    rw [List.map_map]; exact List.map_congr_left fun m _ => by simp [Mat.rows]
  rw [maxRows, hl]
  apply le_antisymm
  · apply foldl_max_le (Nat.zero_le _)
    intro x hx
    obtain ⟨m, hm, rfl⟩ := List.mem_map.1 hx
    exact Nat.pow_le_pow_right (by omega) (hk.1 m hm)
  · obtain ⟨m, hm, he⟩ := hk.2
    exact (le_foldl_max _ 0).2 _ (List.mem_map.2 ⟨m, hm, by rw [he]⟩)

omit [DecidableEq K] in
theorem exists_topLog {ms : List (Mat K × FFT.Domain K)} (h : ms ≠ []) : ∃ k, TopLog ms k := by
  induction ms with
  | nil => exact absurd rfl h
  | cons m ms ih =>
    by_cases h0 : ms = []
    · subst h0; exact ⟨m.1.log, by simp [TopLog]⟩
    · obtain ⟨k, h1, h2⟩ := ih h0
      refine ⟨max m.1.log k, ?_, ?_⟩
      · intro m' hm'
        rcases List.mem_cons.1 hm' with rfl | hm'
        · exact le_max_left _ _
        · exact (h1 m' hm').trans (le_max_right _ _)
      · rcases le_total m.1.log k with hle | hle
        · obtain ⟨m', hm', e⟩ := h2
          exact ⟨m', by simp [hm'], by rw [max_eq_right hle, e]⟩
        · exact ⟨m, by simp, by rw [max_eq_left hle]⟩

/-! ### Completeness -/

theorem zip_map_self {α β : Type} (f : α → β) (l : List α) : l.zip (l.map f) = l.map fun x => (x, f x) := by
  induction l with
  | nil => rfl
  | cons x l ih => rw [List.map_cons, List.zip_cons_cons, ih, List.map_cons]

theorem div_div_pow {n k l i : ℕ} (h1 : l ≤ k) (h2 : k ≤ n) : i / 2 ^ (n - k) / 2 ^ (k - l) = i / 2 ^ (n - l) := by
  rw [Nat.div_div_eq_div_mul, ← pow_add, show n - k + (k - l) = n - l by omega]

omit [DecidableEq K] in
theorem maxHeight_eq {b : ℕ} {ms : List (Mat K × FFT.Domain K)} (hd : DomainsFit b ms) {k : ℕ}
    (hk : TopLog ms k) :
    maxHeight b (ms.map fun m => (⟨m.2, m.1.points, m.1.values⟩ : Claim K)) = k := by
  rw [maxHeight, List.map_map]
  apply le_antisymm
  · apply foldl_max_le (Nat.zero_le _)
    intro x hx
    obtain ⟨m, hm, rfl⟩ := List.mem_map.1 hx
    have := hk.1 m hm
    rw [← (hd m hm).2] at this
    exact this
  · obtain ⟨m, hm, he⟩ := hk.2
    refine (le_foldl_max _ 0).2 _ (List.mem_map.2 ⟨m, hm, ?_⟩)
    rw [← he, ← (hd m hm).2]; rfl

omit [DecidableEq K] in
theorem mkClaims_eq (m : Mat K) (d : FFT.Domain K) (x : K) :
    mkClaims (evalAll m.polys x) ⟨d, m.points, m.values⟩ = matClaims m x := by
  rw [mkClaims, Mat.values, zip_map_self, List.map_map, matClaims]
  rfl

/-- The opening of the prover at a place, and what the verifier makes of it. -/
theorem open_reduce {p : Pcs K Com Data Prf} {A : ℕ} {W' : K} (h : p.env.Good A W') (hb : 0 < p.cfg.logBlowup)
    (a : K) {rs : List (Round K Com Data)} (hne : ∀ r ∈ rs, r.mats ≠ [])
    (hok : ∀ r ∈ rs, ∀ m ∈ r.mats, m.1.Ok A p.cfg.logBlowup p.gen)
    (hdom : ∀ r ∈ rs, DomainsFit p.cfg.logBlowup r.mats) (hop : ∀ r ∈ rs, r.Opens A W' p) {n : ℕ}
    (hn : TopLog (rs.flatMap Round.mats) n) {i : ℕ} (hi : i < 2 ^ n) :
    ∃ x, openInput p.mmcs n (rs.map Round.data) i = some x ∧
      reduceInput p a n (rs.map Round.claims) i x =
        some (((List.range (n + 1)).reverse.filter (HasHeight ((rs.flatMap Round.mats).map Prod.fst))).map
          fun h => (h, redAt A W' p.gen a ((rs.flatMap Round.mats).map Prod.fst) h (i / 2 ^ (n - h)))) := by
  have hn' : n ≤ A ∧ n ≤ 31 := by
    obtain ⟨m, hm, e⟩ := hn.2
    obtain ⟨r, hr, hm⟩ := List.mem_flatMap.1 hm
    rw [← e]; exact ⟨(hok r hr m hm).le, (hok r hr m hm).le31⟩
  have hlen : ∀ r ∈ rs, ∀ m ∈ r.mats, m.1.log ≤ n := fun r hr m hm =>
    hn.1 m (List.mem_flatMap.2 ⟨r, hr, hm⟩)
  let rowsOf : Round K Com Data → List (List K) := fun r => r.mats.map fun m =>
    evalAll m.1.polys (place A W' p.gen m.1.log (i / 2 ^ (n - m.1.log)))
  obtain ⟨x, hx1, hx2⟩ := mapM_forall₂ (f := fun r : Round K Com Data =>
      (Bits.checkedLog2 (BitVec.ofNat 64 (maxRows (p.mmcs.matrices r.data)))).bind fun log =>
        (shiftIndex i n log).bind fun i => p.mmcs.openAt (i % 2 ^ 32) r.data)
    (P := fun r y => y.1 = rowsOf r ∧ ∀ k, TopLog r.mats k →
      p.mmcs.verify r.com (r.mats.map fun m => 2 ^ m.1.log) (i / 2 ^ (n - k)) y.1 y.2 = true) rs (by
    intro r hr
    obtain ⟨k, hk⟩ := exists_topLog (hne r hr)
    have hkn : k ≤ n := by
      obtain ⟨m, hm, e⟩ := hk.2
      rw [← e]; exact hlen r hr m hm
    have hlt := div_lt hi hkn
    obtain ⟨prf, h1, h2⟩ := (hop r hr).2 k hk (i / 2 ^ (n - k)) hlt
    have hrows : (r.mats.map fun m => evalAll m.1.polys (place A W' p.gen m.1.log
        (i / 2 ^ (n - k) / 2 ^ (k - m.1.log)))) = rowsOf r :=
      List.map_congr_left fun m hm => by rw [div_div_pow (hk.1 m hm) hkn]
    rw [hrows] at h1 h2
    refine ⟨(rowsOf r, prf), ?_, rfl, ?_⟩
    · rw [(hop r hr).1, maxRows_eq _ _ _ hk, checkedLog2_pow (by omega), Option.bind_some,
        shiftIndex_eq hn'.2, if_pos hkn, Option.bind_some, Nat.mod_eq_of_lt, h1]
      exact hlt.trans_le (Nat.pow_le_pow_right (by omega) (by omega))
    · intro k' hk'
      have : k' = k := by
        obtain ⟨m, hm, e⟩ := hk.2
        obtain ⟨m', hm', e'⟩ := hk'.2
        have h1 := hk'.1 m hm
        have h2 := hk.1 m' hm'
        omega
      rw [this]; exact h2)
  rw [List.forall₂_iff_zip] at hx2
  obtain ⟨hxl, hx2⟩ := hx2
  refine ⟨x, ?_, ?_⟩
  · rw [openInput, List.mapM_map]; exact hx1
  · rw [reduceInput_iff h hb hn'.1 hn'.2 hi]
    · have hitems : ((rs.map Round.claims).zip x).flatMap (fun q =>
          roundItems p.cfg.logBlowup (q.1.2, q.2.1)) = (rs.flatMap Round.mats).map fun m =>
            (m.1.log, matClaims m.1 (place A W' p.gen m.1.log (i / 2 ^ (n - m.1.log)))) := by
        have e1 : (rs.map Round.claims).zip x = (rs.zip x).map fun q => (q.1.claims, q.2) := by
          rw [List.zip_map_left]; rfl
        rw [e1, List.flatMap_map, List.map_flatMap]
        have e2 : rs = (rs.zip x).map Prod.fst := (List.map_fst_zip hxl.le).symm
        conv_rhs => rw [e2, List.flatMap_map]
        rw [List.flatMap_def, List.flatMap_def]
        congr 1
        refine List.map_congr_left fun q hq => ?_
        obtain ⟨h1, -⟩ := hx2 (a := q.1) (b := q.2) hq
        have hr := (List.of_mem_zip hq).1
        simp only [roundItems, Round.claims, h1, rowsOf]
        rw [List.zip_map', List.map_map]
        refine List.map_congr_left fun m hm => ?_
        simp only [Function.comp, height, (hdom q.1 hr m hm).2, mkClaims_eq]
      rw [hitems]
      refine ⟨⟨by simp [hxl], ?_⟩, ?_⟩
      · intro q hq
        rw [List.zip_map_left, List.mem_map] at hq
        obtain ⟨⟨r, y⟩, hq, rfl⟩ := hq
        obtain ⟨h1, h2⟩ := hx2 hq
        have hr := (List.of_mem_zip hq).1
        obtain ⟨k, hk⟩ := exists_topLog (hne r hr)
        have hmh := maxHeight_eq (hdom r hr) hk
        refine ⟨by simpa [Round.claims] using hne r hr, ?_, ?_, ?_, ?_⟩
        · simp only [Prod.map, Round.claims]
          rw [hmh]
          obtain ⟨m, hm, e⟩ := hk.2
          rw [← e]; exact hlen r hr m hm
        · simp only [Prod.map, Round.claims, id]
          rw [hmh, List.map_map]
          have := h2 k hk
          rwa [show (r.mats.map fun m => 2 ^ m.1.log) = r.mats.map ((fun c => 2 ^ height p.cfg.logBlowup c) ∘
            fun m => (⟨m.2, m.1.points, m.1.values⟩ : Claim K)) from
            List.map_congr_left fun m hm => by
              simp only [Function.comp, height]; rw [← (hdom r hr m hm).2]] at this
        · simp [Round.claims, h1, rowsOf]
        · intro q hq
          simp only [Prod.map, Round.claims, id, h1, rowsOf] at hq
          rw [List.zip_map', List.mem_map] at hq
          obtain ⟨m, hm, rfl⟩ := hq
          simp only [height]
          rw [(hdom r hr m hm).2]
          refine ⟨by simp [Mat.values], ?_⟩
          intro q hq
          simp only [Mat.values] at hq
          rw [zip_map_self, List.mem_map] at hq
          obtain ⟨z, hz, rfl⟩ := hq
          refine ⟨?_, by simp [evalAll]⟩
          intro e
          apply (hok r hr m hm).out z hz
          dsimp only at e
          rw [← e, place_pow h.prim]
      · have hh : heights n ((rs.flatMap Round.mats).map fun m =>
            (m.1.log, matClaims m.1 (place A W' p.gen m.1.log (i / 2 ^ (n - m.1.log))))) =
            (List.range (n + 1)).reverse.filter (HasHeight ((rs.flatMap Round.mats).map Prod.fst)) := by
          rw [heights]
          apply List.filter_congr
          intro k _
          simp [HasHeight, Function.comp_def]
        rw [hh]
        refine List.map_congr_left fun k _ => ?_
        rw [redAt]
        congr 2
        rw [collect, claimsAt, List.filter_map, List.filter_map, List.flatMap_map, List.flatMap_map,
          List.flatMap_def, List.flatMap_def]
        congr 1
        refine (List.map_congr_left fun m hm => ?_).symm
        rw [List.mem_filter] at hm
        have : m.1.log = k := by simpa using hm.2
        rw [this]; rfl
    · intro q hq c hc
      obtain ⟨r, hr, rfl⟩ := List.mem_map.1 hq
      obtain ⟨m, hm, rfl⟩ := List.mem_map.1 hc
      refine ⟨(hdom r hr m hm).1, ?_⟩
      have := hlen r hr m hm
      simp only [height, (hdom r hr m hm).2]; omega

/-- Completeness. -/
theorem create_verify {Com' Data' Prf' : Type} {p : Pcs K Com Data Prf} {A : ℕ} {W' : K} (h : p.env.Good A W')
    (ht : p.env.threads < 128) (hl : 0 < p.lanes) (hg : p.gen ≠ 0) (hb : 0 < p.cfg.logBlowup)
    {fmmcs : Mmcs K Com' Data' Prf'} (hm : fmmcs.Lawful) {ch : Chal K Com' W S} (hch : ch.Lawful)
    (hgrind : ∀ s, ∃ w s', ch.grind p.cfg.powBits s = some (w, s')) {rs : List (Round K Com Data)}
    (hrs : rs ≠ []) (hne : ∀ r ∈ rs, r.mats ≠ [])
    (hok : ∀ r ∈ rs, ∀ m ∈ r.mats, m.1.Ok A p.cfg.logBlowup p.gen)
    (hdom : ∀ r ∈ rs, DomainsFit p.cfg.logBlowup r.mats) (hop : ∀ r ∈ rs, r.Opens A W' p)
    (hcols : ∀ h, numCols h ((rs.flatMap Round.mats).map Prod.fst) < 2 ^ 64) (s : S) (dchecks dchecks' : Bool) :
    ∃ proof s', createOpeningProof p fmmcs ch dchecks (rs.map Round.data)
          (rs.map fun r => r.mats.map fun m => m.1.points) s =
        some ((rs.map fun r => r.mats.map fun m => m.1.values, proof), s') ∧
      verifyOpeningProof p fmmcs ch dchecks' (rs.map Round.claims) proof s = some true := by
  obtain ⟨n, hn⟩ := exists_topLog (ms := rs.flatMap Round.mats) (by
    intro h0
    obtain ⟨r, l, rfl⟩ := List.exists_cons_of_ne_nil hrs
    rw [List.flatMap_cons, List.append_eq_nil_iff] at h0
    exact hne r (by simp) h0.1)
  have hall : ∀ m ∈ (rs.flatMap Round.mats).map Prod.fst, m.Ok A p.cfg.logBlowup p.gen := by
    intro m hm
    obtain ⟨x, hx, rfl⟩ := List.mem_map.1 hm
    obtain ⟨r, hr, hx⟩ := List.mem_flatMap.1 hx
    exact hok r hr x hx
  have hnb : p.cfg.logBlowup < n ∧ n ≤ A ∧ n ≤ 31 := by
    obtain ⟨m, hm, e⟩ := hn.2
    have := hall m.1 (List.mem_map.2 ⟨m, hm, rfl⟩)
    rw [← e]; exact ⟨this.blowup, this.le, this.le31⟩
  set ms := (rs.flatMap Round.mats).map Prod.fst with hms
  set as := ch.sampleExt s with has
  have hflat : (rs.map fun r => r.mats.map Prod.fst).flatten = ms := by
    rw [hms, List.map_flatMap, List.flatMap_def]
  -- the input of FRI
  have hP : HasHeight ms n = true := by
    obtain ⟨m, hm, e⟩ := hn.2
    rw [HasHeight, List.any_eq_true]
    exact ⟨m.1, List.mem_map.2 ⟨m, hm, rfl⟩, by simpa using e⟩
  have hPmax : ∀ k, HasHeight ms k = true → k ≤ n := by
    intro k hk
    rw [HasHeight, List.any_eq_true] at hk
    obtain ⟨m, hm, e⟩ := hk
    obtain ⟨x, hx, rfl⟩ := List.mem_map.1 hm
    have := hn.1 x hx
    have e' : x.1.log = k := by simpa using e
    omega
  have hlist : ∀ N, n < N → (List.range N).reverse.filter (HasHeight ms) =
      n :: (List.range n).reverse.filter (HasHeight ms) := fun N hN => filter_range_reverse _ hN hP hPmax
  set rest := (List.range n).reverse.filter (HasHeight ms) with hrest
  have hpair : (n :: rest).Pairwise (· > ·) := by
    rw [← hlist (n + 1) (by omega)]
    apply List.Pairwise.filter
    rw [List.pairwise_reverse]
    exact List.pairwise_lt_range
  have hlow : ∀ k ∈ n :: rest, p.cfg.logBlowup < k := by
    intro k hk
    rw [← hlist (n + 1) (by omega), List.mem_filter, HasHeight, List.any_eq_true] at hk
    obtain ⟨-, m, hm, e⟩ := hk
    have e' : m.log = k := by simpa using e
    rw [← e']; exact (hall m hm).blowup
  obtain ⟨proof, s', e1, e2, e3⟩ := Props.C76_complete (n := n) (f := redAt A W' p.gen as.1 ms n)
    (inputs := rest.map fun h => (h, redAt A W' p.gen as.1 ms h)) h hm hch hgrind hb hnb.1 hnb.2.1 (by omega)
    (by
      have : (n, redAt A W' p.gen as.1 ms n) :: rest.map (fun h => (h, redAt A W' p.gen as.1 ms h)) =
        (n :: rest).map fun h => (h, redAt A W' p.gen as.1 ms h) := rfl
      rw [this, List.pairwise_map]
      exact hpair)
    (by
      intro q hq
      obtain ⟨k, hk, rfl⟩ := List.mem_map.1 hq
      exact hlow k (by simp [hk]))
    (by
      intro q hq
      have : (n, redAt A W' p.gen as.1 ms n) :: rest.map (fun h => (h, redAt A W' p.gen as.1 ms h)) =
        (n :: rest).map fun h => (h, redAt A W' p.gen as.1 ms h) := rfl
      rw [this] at hq
      obtain ⟨k, hk, rfl⟩ := List.mem_map.1 hq
      exact redAt_codeword h.prim as.1 hall k)
    (openInput := openInput p.mmcs n (rs.map Round.data))
    (openInput' := reduceInput p as.1 n (rs.map Round.claims))
    (by
      intro i hi
      obtain ⟨x, x1, x2⟩ := open_reduce h hb as.1 hne hok hdom hop hn hi
      refine ⟨x, x1, x2.trans ?_⟩
      rw [← hms, hlist (n + 1) (by omega), List.map_cons, List.map_cons, List.map_map]
      rfl) as.2 dchecks dchecks'
  refine ⟨proof, s', ?_, ?_⟩
  · have hmats : (rs.map Round.data).map p.mmcs.matrices =
        rs.map fun r => r.mats.map fun m => m.1.rows A W' p.gen := by
      rw [List.map_map]
      exact List.map_congr_left fun r hr => (hop r hr).1
    have hmax : ((rs.map fun r => r.mats.map fun m => m.1.rows A W' p.gen).map maxRows).foldl max 0 =
        2 ^ n := by
      rw [List.map_map]
      apply le_antisymm
      · apply foldl_max_le (Nat.zero_le _)
        intro x hx
        obtain ⟨r, hr, rfl⟩ := List.mem_map.1 hx
        obtain ⟨k, hk⟩ := exists_topLog (hne r hr)
        simp only [Function.comp]
        rw [maxRows_eq _ _ _ hk]
        obtain ⟨m, hm, e⟩ := hk.2
        rw [← e]
        exact Nat.pow_le_pow_right (by omega) (hn.1 m (List.mem_flatMap.2 ⟨r, hr, hm⟩))
      · obtain ⟨m, hm, e⟩ := hn.2
        obtain ⟨r, hr, hm⟩ := List.mem_flatMap.1 hm
        obtain ⟨k, hk⟩ := exists_topLog (hne r hr)
        have hkn : n ≤ k := by rw [← e]; exact hk.1 m hm
        refine (Nat.pow_le_pow_right (by omega) hkn).trans ?_
        refine (le_foldl_max _ 0).2 _ (List.mem_map.2 ⟨r, hr, ?_⟩)
        simp only [Function.comp]
        rw [maxRows_eq _ _ _ hk]
    have hzip2 : ((rs.map fun r => (r.mats.map fun m => m.1.rows A W' p.gen,
        r.mats.map fun m => m.1.points)).mapM fun r => zipPoints r.1 r.2) =
        some (rs.map fun r => r.mats.map fun m => (m.1.rows A W' p.gen, m.1.points)) := by
      rw [List.mapM_map]
      exact mapM_map_some _ _ _ fun r _ => zipPoints_eq _ _ _
    obtain ⟨inv, i1, i2⟩ := inverseDenominators_eq h ht p.gen
      (ms.map fun m => (m.log, m.rows A W' p.gen, m.points)) (by
        intro x hx
        obtain ⟨m, hm, rfl⟩ := List.mem_map.1 hx
        exact ⟨by simp [Mat.rows], (hall m hm).le31, (hall m hm).le⟩) (by
        obtain ⟨m, hm, e⟩ := hn.2
        exact ⟨_, List.mem_map.2 ⟨m.1, List.mem_map.2 ⟨m, hm, rfl⟩, rfl⟩, by dsimp only; omega⟩)
    have hfl : (rs.map fun r => r.mats.map fun m => (m.1.rows A W' p.gen, m.1.points)).flatten =
        (ms.map fun m => (m.log, m.rows A W' p.gen, m.points)).map Prod.snd := by
      rw [← hflat, List.map_map, List.map_flatten, List.map_map]
      congr 1
      refine List.map_congr_left fun r _ => ?_
      simp [Function.comp_def]
    have hor := openRounds_eq h hl hg as.1 (inv := inv) (rs.map fun r => r.mats.map Prod.fst)
      (by rw [hflat]; exact hall)
      (by
        rw [hflat]
        intro m hm z hz
        exact i2 (m.log, m.rows A W' p.gen, m.points) (List.mem_map.2 ⟨m, hm, rfl⟩) z hz) []
      (by rw [hflat]; exact hcols)
    rw [hflat, stateOf_nil, List.nil_append, List.map_map, List.map_map] at hor
    have hor1 : (rs.map ((fun ms => ms.map fun m : Mat K => (m.rows A W' p.gen, m.points)) ∘
        fun r => r.mats.map Prod.fst)) =
        rs.map fun r => r.mats.map fun m => (m.1.rows A W' p.gen, m.1.points) :=
      List.map_congr_left fun r _ => by simp [Function.comp_def]
    have hor2 : (rs.map ((fun ms => ms.map Mat.values) ∘ fun r => r.mats.map Prod.fst)) =
        rs.map fun r => r.mats.map fun m => m.1.values :=
      List.map_congr_left fun r _ => by simp [Function.comp_def]
    rw [hor1, hor2] at hor
    unfold createOpeningProof
    dsimp only
    rw [hmats, hmax, checkedLog2_pow (by omega), Option.bind_some, zipPoints_eq, Option.bind_some, hzip2,
      Option.bind_some, hfl, i1, Option.bind_some, hor, Option.bind_some]
    dsimp only
    rw [friInput_eq, hlist 32 (by omega), ← has]
    have hin : ((n, redAt A W' p.gen as.1 ms n) :: rest.map fun h => (h, redAt A W' p.gen as.1 ms h)).map
        (fun q => Fri.Spec.vec q.1 q.2) = (n :: rest).map fun h => Fri.Spec.vec h (redAt A W' p.gen as.1 ms h) := by
      simp [Function.comp_def]
    rw [hin] at e1
    rw [e1, Option.map_some]
  · unfold verifyOpeningProof
    dsimp only
    rw [e2, show n - p.cfg.logBlowup + p.cfg.logBlowup = n by omega, ← has]
    exact e3

end Tachyon.TwoAdicFri
