import Verif.Proofs.TwoAdicFriComplete
import Verif.Props.BatchFFT
/-! `Commit` of `TwoAdicFRI`, and the random combination of claims. -/
namespace Tachyon.TwoAdicFri
open Polynomial Tachyon.Fri Tachyon.Parallel _root_.Tachyon.TwoAdicFri.Spec

variable {K Com Data Prf W S : Type} [Field K] [DecidableEq K]

omit [Field K] [DecidableEq K] in
theorem cols_eq {mat : List (List K)} {c : ℕ} (h : ∀ r ∈ mat, r.length = c) (hm : 0 < mat.length) :
    cols mat = c := by
  cases mat with
  | nil => simp at hm
  | cons r mat => exact h r (by simp)

omit [DecidableEq K] in
theorem column_getD (mat : List (List K)) (i j : ℕ) :
    (FFT.column mat j).getD i 0 = (mat.getD i []).getD j 0 := by
  rw [FFT.column, List.getD_eq_getElem?_getD, List.getElem?_map, List.getD_eq_getElem?_getD (l := mat)]
  cases mat[i]? <;> simp

omit [DecidableEq K] in
theorem comp_eval (P : K[X]) (c x : K) : (P.comp (C c * X)).eval x = P.eval (c * x) := by
  simp [eval_comp]

omit [DecidableEq K] in
theorem interp_eq {d : FFT.Domain K} (hd : d.Valid) {P : K[X]} (hP : P.degree < d.size) {v : ℕ → K}
    (hv : ∀ i < d.size, P.eval (d.gen ^ i) = v i) :
    Lagrange.interpolate (Finset.range d.size) (fun i => d.offset * d.gen ^ i) v =
      P.comp (C d.offsetInv * X) := by
  refine (Lagrange.eq_interpolate_of_eval_eq _ ?_ ?_ ?_).symm
  · intro i hi j hj e
    exact hd.prim.pow_inj (by simpa using hi) (by simpa using hj) (mul_left_cancel₀ hd.offset e)
  · rw [Finset.card_range]
    by_cases h0 : P = 0
    · rw [h0, zero_comp]; simp
    · have h1 := (natDegree_lt_iff_degree_lt h0).2 hP
      refine degree_le_natDegree.trans_lt (Nat.cast_lt.2 (lt_of_le_of_lt ?_ h1))
      refine natDegree_comp_le.trans ?_
      calc _ ≤ P.natDegree * 1 := Nat.mul_le_mul_left _ ((natDegree_C_mul_le _ X).trans natDegree_X_le)
        _ = _ := mul_one _
  · intro i hi
    rw [comp_eval, hd.offsetInv, inv_mul_cancel_left₀ hd.offset]
    exact hv i (by simpa using hi)

/-- The extended matrix. -/
theorem lde_rows {p : Pcs K Com Data Prf} {A : ℕ} {W' : K} (h : p.env.Good A W') (o : FFT.Sched)
    {rcfg : FFT.RootConfig K} (hcfg : rcfg.Valid) (hA : A ≤ rcfg.twoAdicity)
    (hroot : ∀ k ≤ A, FFT.getRootOfUnity rcfg (2 ^ k) = some (some (W' ^ 2 ^ (A - k))))
    {cache : FFT.Domain K → Option (FFT.Item K)}
    (hcache : ∀ d' : FFT.Domain K, d'.Radix2 → 0 < d'.logSize → ∃ it, cache d' = some it ∧ it.ForBatch d')
    {d : FFT.Domain K} (hd : d.Radix2) (hk : 0 < d.logSize) (hle : d.logSize + p.cfg.logBlowup ≤ A)
    {mat : List (List K)} {c : ℕ} (hr : mat.length = d.size) (hc : ∀ row ∈ mat, row.length = c)
    (pts : List K) :
    ((cache d).bind fun item => FFT.cosetLDE p.env.threads o p.lanes rcfg cache d item mat (cols mat)
        p.cfg.logBlowup (p.gen * d.offsetInv) (mat.length * 2 ^ p.cfg.logBlowup) (cols mat) false) =
      some ((matOf p.cfg.logBlowup d mat pts).rows A W' p.gen) := by
  have hA63 := h.le
  have hcols : cols mat = c := cols_eq hc (by rw [hr]; exact hd.1.pos)
  obtain ⟨item, hi1, hi2⟩ := hcache d hd hk
  rw [hi1, Option.bind_some, hcols]
  obtain ⟨P, w, h1, h2, h3, h4⟩ := Props.C62_cosetLDE o p.lanes (cols := c) hcfg hcache hd hk hi2 h.threads.1
    h.threads.2 (a := p.cfg.logBlowup) (by omega) (by omega) (p.gen * d.offsetInv)
    (outRows := mat.length * 2 ^ p.cfg.logBlowup) (outCols := c) (fun _ => ⟨by rw [hr], rfl⟩) hr hc false
  rw [h4, Option.some.injEq, Mat.rows]
  have hw : w = W' ^ 2 ^ (A - (d.logSize + p.cfg.logBlowup)) := by
    have := hroot _ hle
    rw [h2] at this
    simpa using this
  refine List.map_congr_left fun i _ => ?_
  rw [matOf, evalAll, List.map_map, hcols]
  refine List.map_congr_left fun j hj => ?_
  have hj' : j < c := by simpa using hj
  obtain ⟨g1, g2⟩ := h1 j hj'
  rw [Function.comp, interp_eq hd.1 g1 (v := fun i => (mat.getD i []).getD j 0)
    (fun i hi => by rw [g2 i hi, column_getD]), comp_eval, place, hw]
  simp only [Bool.false_eq_true, if_false]
  congr 1
  ring

/-- `Commit`. -/
theorem commit_opens {p : Pcs K Com Data Prf} {A : ℕ} {W' : K} (h : p.env.Good A W') (o : FFT.Sched)
    {rcfg : FFT.RootConfig K} (hcfg : rcfg.Valid) (hA : A ≤ rcfg.twoAdicity)
    (hroot : ∀ k ≤ A, FFT.getRootOfUnity rcfg (2 ^ k) = some (some (W' ^ 2 ^ (A - k))))
    {cache : FFT.Domain K → Option (FFT.Item K)}
    (hcache : ∀ d' : FFT.Domain K, d'.Radix2 → 0 < d'.logSize → ∃ it, cache d' = some it ∧ it.ForBatch d')
    (hm : LawfulMany p.mmcs) {l : List (FFT.Domain K × List (List K) × List K)} (hne : l ≠ [])
    (hl : ∀ x ∈ l, x.1.Radix2 ∧ 0 < x.1.logSize ∧ x.1.logSize + p.cfg.logBlowup ≤ min A 62 ∧
      x.2.1.length = x.1.size ∧ ∃ c > 0, ∀ row ∈ x.2.1, row.length = c) :
    ∃ com data, commit p o rcfg cache (l.map Prod.fst) (l.map fun x => x.2.1) = some (com, data) ∧
      (Round.mk (l.map fun x => (matOf p.cfg.logBlowup x.1 x.2.1 x.2.2, x.1)) com data).Opens A W' p := by
  have hmap : ((l.map Prod.fst).zipIdx.mapM fun c => (l.map fun x => x.2.1)[c.2]?.bind fun mat =>
      if c.1.size ≠ mat.length then none
      else (cache c.1).bind fun item => FFT.cosetLDE p.env.threads o p.lanes rcfg cache c.1 item mat (cols mat)
          p.cfg.logBlowup (p.gen * c.1.offsetInv) (mat.length * 2 ^ p.cfg.logBlowup) (cols mat) false) =
      some (l.map fun x => (matOf p.cfg.logBlowup x.1 x.2.1 x.2.2).rows A W' p.gen) := by
    rw [List.zipIdx_map, List.mapM_map,
      mapM_map_some _ (fun q => (matOf p.cfg.logBlowup q.1.1 q.1.2.1 q.1.2.2).rows A W' p.gen)]
    · congr 1
      conv_rhs => rw [← List.zipIdx_map_fst 0 l, List.map_map]
      rfl
    · rintro ⟨x, i⟩ hq
      have hx := List.mk_mem_zipIdx_iff_getElem?.1 hq
      obtain ⟨h1, h2, h3, h4, c, -, h6⟩ := hl x (List.mem_of_getElem? hx)
      simp only [Function.comp, Prod.map, id, List.getElem?_map, hx, Option.map_some, Option.bind_some]
      rw [if_neg (by rw [h4]; simp)]
      exact lde_rows h o hcfg hA hroot hcache h1 h2 (h3.trans (min_le_left _ _)) h4 h6 _
  obtain ⟨k, hk1, hk2⟩ := exists_topLog (ms := l.map fun x => (matOf p.cfg.logBlowup x.1 x.2.1 x.2.2, x.1))
    (by simpa using hne)
  have hkb : k ≤ 62 := by
    obtain ⟨m, hm', e⟩ := hk2
    obtain ⟨x, hx, rfl⟩ := List.mem_map.1 hm'
    rw [← e]; exact (hl x hx).2.2.1.trans (min_le_right _ _)
  obtain ⟨com, data, c1, c2, c3⟩ := hm.commit (l.map fun x => (x.1.logSize + p.cfg.logBlowup,
    (matOf p.cfg.logBlowup x.1 x.2.1 x.2.2).rows A W' p.gen)) k hkb (by
      intro y hy
      obtain ⟨x, hx, rfl⟩ := List.mem_map.1 hy
      refine ⟨hk1 _ (List.mem_map.2 ⟨x, hx, rfl⟩), by simp [Mat.rows, matOf], ?_⟩
      obtain ⟨h1, h2, h3, h4, c, h5, h6⟩ := hl x hx
      have hcols := cols_eq h6 (by rw [h4]; exact h1.1.pos)
      refine ⟨c, h5, ?_⟩
      intro r hr
      simp only [Mat.rows, List.mem_map] at hr
      obtain ⟨i, -, rfl⟩ := hr
      simp [evalAll, matOf, hcols]) (by
      obtain ⟨m, hm', e⟩ := hk2
      obtain ⟨x, hx, rfl⟩ := List.mem_map.1 hm'
      exact ⟨_, List.mem_map.2 ⟨x, hx, rfl⟩, e⟩)
  rw [List.map_map] at c1 c2
  refine ⟨com, data, ?_, ?_, ?_⟩
  · rw [commit, hmap, Option.bind_some]
    exact c1
  · rw [c2, List.map_map]; rfl
  · intro k' hk' i hi
    have hkk : k' = k := by
      obtain ⟨m, hm1, e⟩ := hk2
      obtain ⟨m', hm', e'⟩ := hk'.2
      have h1 := hk'.1 m hm1
      have h2 := hk1 m' hm'
      omega
    subst hkk
    obtain ⟨prf, p1, p2⟩ := c3 i hi
    rw [List.map_map] at p1
    rw [List.map_map, List.map_map] at p2
    have hrow : (l.map ((fun x : ℕ × List (List K) => x.2.getD (i / 2 ^ (k' - x.1)) []) ∘
        fun x => (x.1.logSize + p.cfg.logBlowup, (matOf p.cfg.logBlowup x.1 x.2.1 x.2.2).rows A W' p.gen))) =
        l.map ((fun m : Mat K × FFT.Domain K => evalAll m.1.polys (place A W' p.gen m.1.log
          (i / 2 ^ (k' - m.1.log)))) ∘ fun x => (matOf p.cfg.logBlowup x.1 x.2.1 x.2.2, x.1)) := by
      refine List.map_congr_left fun x hx => ?_
      have hle : x.1.logSize + p.cfg.logBlowup ≤ k' := hk'.1 _ (List.mem_map.2 ⟨x, hx, rfl⟩)
      have hlt := div_lt hi hle
      simp only [Function.comp, Mat.rows]
      rw [List.getD_eq_getElem?_getD, List.getElem?_map, List.getElem?_range (by simpa [matOf] using hlt)]
      rfl
    rw [hrow] at p1 p2
    refine ⟨prf, ?_, ?_⟩
    · rw [p1, List.map_map]
    · simp only [List.map_map]
      exact p2

/-! ### The combination of claims -/

omit [DecidableEq K] in
/-- A list that vanishes for sufficiently many challenges is zero. -/
theorem dot_zero {v : List K} {S : Finset K} (hS : v.length ≤ S.card) (h : ∀ a ∈ S, dot a v = 0) :
    ∀ x ∈ v, x = 0 := by
  by_cases hv : v = []
  · simp [hv]
  have hpos : 0 < v.length := List.length_pos_of_ne_nil hv
  have hP : (∑ c ∈ Finset.range v.length, C (v.getD c 0) * X ^ c : K[X]) = 0 := by
    apply eq_zero_of_natDegree_lt_card_of_eval_eq_zero' _ S
    · intro a ha
      refine Eq.trans ?_ (h a ha)
      rw [eval_finsetSum, dot_eq_sum]
      refine Finset.sum_congr rfl fun c _ => ?_
      rw [eval_mul, eval_C, eval_pow, eval_X, mul_comm]
    · refine lt_of_lt_of_le ?_ hS
      refine lt_of_le_of_lt (natDegree_sum_le_of_forall_le (n := v.length - 1) _ _ fun c hc => ?_) (by omega)
      have : c < v.length := by simpa using hc
      exact (natDegree_C_mul_X_pow_le _ _).trans (by omega)
  intro x hx
  obtain ⟨i, hi, rfl⟩ := List.mem_iff_getElem.1 hx
  have := congrArg (fun P => coeff P i) hP
  simp only [finsetSum_coeff, coeff_C_mul, coeff_X_pow, coeff_zero, mul_ite, mul_one, mul_zero] at this
  rw [Finset.sum_ite_eq, if_pos (by simpa using hi)] at this
  simpa [List.getD_eq_getElem?_getD, hi] using this

omit [DecidableEq K] in
theorem dot_append (a : K) (v w : List K) : dot a (v ++ w) = dot a v + a ^ v.length * dot a w := by
  induction v with
  | nil => simp [dot]
  | cons x v ih => rw [List.cons_append, dot, ih, dot, List.length_cons]; ring

omit [DecidableEq K] in
theorem dot_sub (a : K) (v w : List K) (h : v.length = w.length) :
    dot a (List.zipWith (· - ·) v w) = dot a v - dot a w := by
  induction v generalizing w with
  | nil =>
    rw [List.length_nil, eq_comm, List.length_eq_zero_iff] at h
    simp [h, dot]
  | cons x v ih =>
    cases w with
    | nil => simp at h
    | cons y w =>
      rw [List.zipWith_cons_cons, dot, dot, dot, ih w (by simpa using h)]; ring

omit [DecidableEq K] in
theorem dot_replicate (a : K) (n : ℕ) : dot a (List.replicate n (0 : K)) = 0 := by
  induction n with
  | zero => rfl
  | succ n ih => rw [List.replicate_succ, dot, ih]; ring

/-- The errors of the claims at `z`. -/
def errors (z : K) (l : List (List K[X] × K × List K)) : List K :=
  l.flatMap fun e => if e.2.1 = z then List.zipWith (· - ·) (evalAll e.1 z) e.2.2
    else List.replicate e.1.length 0

theorem mul_degree {P Q : K[X]} {d t : ℕ} (hP : P.degree < (d : WithBot ℕ)) (hQ : Q.natDegree ≤ t) :
    (P * Q).degree < ((d + t : ℕ) : WithBot ℕ) := by
  by_cases h0 : P = 0
  · rw [h0, zero_mul, degree_zero]; exact WithBot.bot_lt_coe _
  · have h1 := (natDegree_lt_iff_degree_lt h0).2 hP
    refine degree_le_natDegree.trans_lt (Nat.cast_lt.2 (lt_of_le_of_lt natDegree_mul_le ?_))
    omega

theorem combine_mul (a : K) {d : ℕ} (hd : 0 < d) (T : Finset K) {z₀ : K} (hz : z₀ ∈ T)
    (l : List (List K[X] × K × List K))
    (hl : ∀ e ∈ l, e.2.1 ∈ T ∧ e.1.length = e.2.2.length ∧ ∀ p ∈ e.1, p.degree < (d : WithBot ℕ)) :
    ∃ M : K[X], M.degree < ((d + T.card : ℕ) : WithBot ℕ) ∧
      (∀ x ∉ T, M.eval x = (∏ t ∈ T, (x - t)) *
        combine a x (l.map fun e => (e.2.1, evalAll e.1 x, e.2.2))) ∧
      M.eval z₀ = (∏ t ∈ T.erase z₀, (z₀ - t)) * dot a (errors z₀ l) := by
  induction l with
  | nil => exact ⟨0, by rw [degree_zero]; exact WithBot.bot_lt_coe _, by simp [combine], by simp [errors, dot]⟩
  | cons e l ih =>
    obtain ⟨M, h1, h2, h3⟩ := ih fun e he => hl e (by simp [he])
    obtain ⟨g1, g2, g3⟩ := hl e (by simp)
    obtain ⟨P, p1, p2⟩ := dot_poly a e.1 g3
    refine ⟨(P - C (dot a e.2.2)) * Lagrange.nodal (T.erase e.2.1) id + C (a ^ e.1.length) * M, ?_, ?_, ?_⟩
    · refine (degree_add_le _ _).trans_lt (max_lt (mul_degree ?_ ?_) ?_)
      · exact (degree_sub_le _ _).trans_lt (max_lt p1 (degree_C_le.trans_lt (by exact_mod_cast hd)))
      · rw [Lagrange.natDegree_nodal]; exact Finset.card_erase_le
      · rw [← smul_eq_C_mul]; exact (degree_smul_le _ M).trans_lt h1
    · intro x hx
      have hne : x - e.2.1 ≠ 0 := fun h0 => hx (by rw [sub_eq_zero.1 h0]; exact g1)
      rw [eval_add, eval_mul, eval_mul, eval_sub, eval_C, eval_C, h2 x hx, p2, Lagrange.eval_nodal,
        List.map_cons, combine, ← Finset.mul_prod_erase T _ g1, evalAll, List.length_map]
      simp only [id]
      field_simp
    · rw [eval_add, eval_mul, eval_mul, eval_sub, eval_C, eval_C, h3, p2, Lagrange.eval_nodal]
      simp only [id]
      have hlen : (if e.2.1 = z₀ then List.zipWith (· - ·) (evalAll e.1 z₀) e.2.2
          else List.replicate e.1.length 0).length = e.1.length := by
        split <;> simp [evalAll, g2]
      rw [show errors z₀ (e :: l) = _ ++ errors z₀ l from List.flatMap_cons, dot_append, hlen]
      by_cases he : e.2.1 = z₀
      · rw [if_pos he, dot_sub _ _ _ (by simpa [evalAll] using g2), he]; ring
      · rw [if_neg he, dot_replicate, Finset.prod_eq_zero (i := z₀) (Finset.mem_erase.2 ⟨fun h => he h.symm, hz⟩)
          (sub_self _)]
        ring

/-- False claims are seen for all but a few challenges. -/
theorem combine_sound {d : ℕ} (hd : 0 < d) (l : List (List K[X] × K × List K))
    (hl : ∀ e ∈ l, e.1.length = e.2.2.length ∧ ∀ p ∈ e.1, p.degree < (d : WithBot ℕ)) (D : Finset K)
    (hD : ∀ x ∈ D, ∀ e ∈ l, x ≠ e.2.1) (hcard : d + l.length ≤ D.card) (S : Finset K)
    (hS : (l.map fun e => e.1.length).sum ≤ S.card)
    (hcode : ∀ a ∈ S, ∃ Q : K[X], Q.degree < (d : WithBot ℕ) ∧ ∀ x ∈ D,
      Q.eval x = combine a x (l.map fun e => (e.2.1, evalAll e.1 x, e.2.2))) :
    ∀ e ∈ l, e.2.2 = evalAll e.1 e.2.1 := by
  intro e he
  set T := (l.map fun e => e.2.1).toFinset with hT
  have hzT : ∀ e ∈ l, e.2.1 ∈ T := fun e he => by
    rw [hT, List.mem_toFinset]; exact List.mem_map.2 ⟨e, he, rfl⟩
  have hTc : T.card ≤ l.length := by
    rw [hT]; exact (List.toFinset_card_le _).trans (by simp)
  have hz := dot_zero (v := errors e.2.1 l) (S := S) (by
    refine le_trans (le_of_eq ?_) hS
    rw [errors, List.length_flatMap]
    congr 1
    refine List.map_congr_left fun f hf => ?_
    split <;> simp [evalAll, (hl f hf).1]) (by
    intro a ha
    obtain ⟨Q, q1, q2⟩ := hcode a ha
    obtain ⟨M, m1, m2, m3⟩ := combine_mul a hd T (hzT e he) l fun f hf => ⟨hzT f hf, hl f hf⟩
    have hDT : ∀ x ∈ D, x ∉ T := by
      intro x hx hxT
      rw [hT, List.mem_toFinset, List.mem_map] at hxT
      obtain ⟨f, hf, e'⟩ := hxT
      exact hD x hx f hf e'.symm
    have hzero : Q * Lagrange.nodal T id - M = 0 := by
      apply eq_zero_of_degree_lt_of_eval_finset_eq_zero D
      · refine (degree_sub_le _ _).trans_lt (max_lt ?_ ?_)
        · refine (mul_degree q1 (t := T.card) (by rw [Lagrange.natDegree_nodal])).trans_le ?_
          exact_mod_cast (by omega)
        · refine m1.trans_le ?_
          exact_mod_cast (by omega)
      · intro x hx
        rw [eval_sub, eval_mul, q2 x hx, m2 x (hDT x hx), Lagrange.eval_nodal]
        simp only [id]; ring
    have h0 := congrArg (eval e.2.1) hzero
    rw [eval_sub, eval_mul, m3, Lagrange.eval_nodal, Finset.prod_eq_zero (hzT e he) (by simp), mul_zero,
      eval_zero, zero_sub, neg_eq_zero] at h0
    refine (mul_eq_zero.1 h0).resolve_left ?_
    refine Finset.prod_ne_zero_iff.2 fun t ht => ?_
    exact sub_ne_zero.2 (Finset.mem_erase.1 ht).1.symm)
  have hlen : e.2.2.length = (evalAll e.1 e.2.1).length := by simp [evalAll, (hl e he).1]
  apply List.ext_getElem hlen
  intro i h1 h2
  have hmem : (evalAll e.1 e.2.1)[i] - e.2.2[i] ∈ errors e.2.1 l := by
    rw [errors, List.mem_flatMap]
    refine ⟨e, he, ?_⟩
    rw [if_pos rfl, List.mem_iff_getElem]
    exact ⟨i, by simp; omega, by simp⟩
  exact (sub_eq_zero.1 (hz _ hmem)).symm

/-! ### The verifier sees the values through the combination only -/

theorem addPoints_same (a x : K) (row zs : List K) {vs vs' : List (List K)}
    (h : List.Forall₂ (fun ys ys' => ys.length = ys'.length ∧ dot a ys = dot a ys') vs vs') (st : K × K) :
    addPoints a x row zs vs st = addPoints a x row zs vs' st := by
  induction zs generalizing vs vs' st with
  | nil => rfl
  | cons z zs ih =>
    rw [addPoints, addPoints]
    cases h with
    | nil => rfl
    | cons h1 h2 =>
      rename_i ys ys' l l'
      simp only [List.head?_cons, Option.bind_some, List.tail_cons]
      cases Group.inv? (x - z) with
      | none => rfl
      | some den =>
        rw [Option.bind_some, Option.bind_some]
        by_cases hlen : ys.length = row.length
        · rw [if_neg (not_not.2 hlen), if_neg (not_not.2 (h1.1.symm.trans hlen)), ih h2,
            addColumns_eq _ _ _ _ hlen, addColumns_eq _ _ _ _ (h1.1.symm.trans hlen), h1.2]
        · rw [if_pos hlen, if_pos (by rw [← h1.1]; exact hlen)]

theorem reduceMatrix_same (p : Pcs K Com Data Prf) (a : K) (n i : ℕ) {c c' : Claim K}
    (h : SameUnder a c c') (row : List K) (m : List (ℕ × K × K)) :
    reduceMatrix p a n i c row m = reduceMatrix p a n i c' row m := by
  obtain ⟨h1, h2, h3⟩ := h
  unfold reduceMatrix
  rw [h1, h2]
  have : ∀ x : K, addPoints a x row c'.points c.values = addPoints a x row c'.points c'.values :=
    fun x => funext fun st => addPoints_same a x row _ h3 st
  simp only [this]

theorem reduceMatrices_same (p : Pcs K Com Data Prf) (a : K) (n i : ℕ) {cs cs' : List (Claim K)}
    (h : List.Forall₂ (SameUnder a) cs cs') (rows : List (List K)) (m : List (ℕ × K × K)) :
    reduceMatrices p a n i cs rows m = reduceMatrices p a n i cs' rows m := by
  induction h generalizing rows m with
  | nil => rfl
  | cons h1 _ ih =>
    cases rows with
    | nil => rfl
    | cons row rows =>
      rw [reduceMatrices, reduceMatrices, reduceMatrix_same p a n i h1]
      congr 1
      exact funext fun m => ih rows m

omit [DecidableEq K] in
theorem forall₂_map_domain {a : K} {cs cs' : List (Claim K)} (h : List.Forall₂ (SameUnder a) cs cs') {β : Type}
    (f : FFT.Domain K → β) : (cs.map fun c => f c.domain) = cs'.map fun c => f c.domain := by
  induction h with
  | nil => rfl
  | cons h1 _ ih => rw [List.map_cons, List.map_cons, ih, h1.1]

theorem reduceRounds_same (p : Pcs K Com Data Prf) (a : K) (n i : ℕ) {rs rs' : List (Com × List (Claim K))}
    (h : List.Forall₂ (fun r r' => r.1 = r'.1 ∧ List.Forall₂ (SameUnder a) r.2 r'.2) rs rs')
    (inps : List (List (List K) × Prf)) (m : List (ℕ × K × K)) :
    reduceRounds p a n i rs inps m = reduceRounds p a n i rs' inps m := by
  induction h generalizing inps m with
  | nil => rfl
  | cons h1 h2 ih =>
    rename_i r r' l l'
    cases inps with
    | nil => rfl
    | cons inp inps =>
      rw [reduceRounds, reduceRounds]
      have : reduceRound p a n i r.1 r.2 inp m = reduceRound p a n i r'.1 r'.2 inp m := by
        unfold reduceRound
        rw [h1.1, forall₂_map_domain h1.2 fun d => d.size * 2 ^ p.cfg.logBlowup]
        simp only [reduceMatrices_same p a n i h1.2]
      rw [this]
      congr 1
      exact funext fun m => ih inps m

theorem verify_same {Com' Data' Prf' : Type} (p : Pcs K Com Data Prf) (fmmcs : Mmcs K Com' Data' Prf')
    (ch : Chal K Com' W S) (dchecks : Bool) {rs rs' : List (Com × List (Claim K))}
    (proof : Proof K Com' Prf' (List (List (List K) × Prf)) W) (s : S)
    (h : List.Forall₂ (fun r r' => r.1 = r'.1 ∧ List.Forall₂ (SameUnder (ch.sampleExt s).1) r.2 r'.2) rs rs') :
    verifyOpeningProof p fmmcs ch dchecks rs proof s = verifyOpeningProof p fmmcs ch dchecks rs' proof s := by
  unfold verifyOpeningProof
  have : ∀ n, reduceInput p (ch.sampleExt s).1 n rs = reduceInput p (ch.sampleExt s).1 n rs' := by
    intro n
    funext i inp
    rw [reduceInput, reduceInput, reduceRounds_same p _ n i h]
  simp only [this]

end Tachyon.TwoAdicFri
