import Verif.Proofs.PairingLine
import Verif.Proofs.Parallel
/-! The prepared coefficients are those of the lines of Miller's algorithm, and the loops over them
compute Miller's algorithm for every pair at once. -/
namespace Tachyon.Pairing
open WeierstrassCurve.Affine Tachyon.Parallel

variable {α β γ k K L : Type} [CommRing k] [Field K] [DecidableEq K] [CommRing L] {o : Ops α β γ}
  {R1 : α → k → Prop} {R2 : β → K → Prop} {R12 : γ → L → Prop} {ι : k →+* K} {j : K →+* L} {w : L}
  {ξ : K} {p : ℕ} {b : K}

/-- The lines of Miller's algorithm. -/
noncomputable def steps (Q : (twist b).Pt) : List ℤ → (twist b).Pt → List ((twist b).Pt × (twist b).Pt)
  | [], _ => []
  | d :: ds, T =>
    if d = 0 then (T, T) :: steps Q ds (T + T)
    else (T, T) :: (T + T, d • Q) :: steps Q ds (T + T + d • Q)

/-- The point Miller's algorithm ends with. -/
noncomputable def endPoint (Q : (twist b).Pt) : List ℤ → (twist b).Pt → (twist b).Pt
  | [], T => T
  | d :: ds, T => endPoint Q ds (T + T + d • Q)

/-- No step of the algorithm needs a vertical line. -/
def Valid (Q : (twist b).Pt) : List ℤ → (twist b).Pt → Prop
  | [], _ => True
  | d :: ds, T => T + T ≠ 0 ∧ (d = 0 ∨ (T + T ≠ d • Q ∧ T + T + d • Q ≠ 0)) ∧ Valid Q ds (T + T + d • Q)

theorem endPoint_eq (Q : (twist b).Pt) (ds : List ℤ) : ∀ m : ℤ, endPoint Q ds (m • Q) = fromDigits ds m • Q := by
  induction ds with
  | nil => intro m; rfl
  | cons d ds ih =>
    intro m
    have : m • Q + m • Q + d • Q = (2 * m + d) • Q := by rw [← add_zsmul, ← add_zsmul, ← two_mul]
    rw [endPoint, fromDigits, this, ih]

theorem le_fromDigits {ds : List ℤ} (hd : ∀ d ∈ ds, d = 0 ∨ d = 1 ∨ d = -1) :
    ∀ m : ℤ, 1 ≤ m → m ≤ fromDigits ds m := by
  induction ds with
  | nil => intro m _; exact le_rfl
  | cons d ds ih =>
    intro m hm
    have := hd d (by simp)
    have := ih (fun e he => hd e (by simp [he])) (2 * m + d) (by omega)
    rw [fromDigits]; omega

/-- The steps are valid when the order of `Q` is more than the final multiple plus 2. -/
theorem valid_of_order {Q : (twist b).Pt} {ds : List ℤ} (hd : ∀ d ∈ ds, d = 0 ∨ d = 1 ∨ d = -1) :
    ∀ m : ℤ, 1 ≤ m → (∀ i : ℤ, 0 < i → i ≤ fromDigits ds m + 2 → i • Q ≠ 0) → Valid Q ds (m • Q) := by
  induction ds with
  | nil => intro m _ _; trivial
  | cons d ds ih =>
    intro m hm ho
    have hd0 := hd d (by simp)
    have hds : ∀ e ∈ ds, e = 0 ∨ e = 1 ∨ e = -1 := fun e he => hd e (by simp [he])
    have hle := le_fromDigits hds (2 * m + d) (by omega)
    rw [fromDigits] at ho
    have e2 : m • Q + m • Q = (2 * m) • Q := by rw [← add_zsmul, ← two_mul]
    have e3 : m • Q + m • Q + d • Q = (2 * m + d) • Q := by rw [e2, ← add_zsmul]
    refine ⟨?_, ?_, ?_⟩
    · rw [e2]; exact ho _ (by omega) (by omega)
    · right
      constructor
      · rw [e2]; intro e
        exact ho (2 * m - d) (by omega) (by omega) (by rw [sub_zsmul, e, ← sub_eq_add_neg, sub_self])
      · rw [e3]; exact ho _ (by omega) (by omega)
    · rw [e3]; exact ih hds _ (by omega) ho

section
variable (h : o.Implements R1 R2 R12 ι j w ξ p)
include h

theorem prepareGo_rep {cfg : Config β} (hb : R2 cfg.b b) {q : Point β} {Q : (twist b).Pt} (hq : q.Rep R2 b Q)
    (hQ : Q ≠ 0) {ds : List ℤ} (hd : ∀ d ∈ ds, d = 0 ∨ d = 1 ∨ d = -1) :
    ∀ {r : G2Projective β} {T : (twist b).Pt}, r.Rep R2 b T → Valid Q ds T →
      (prepareGo o cfg q (q.neg o.fp2) ds r).1.Rep R2 b (endPoint Q ds T) ∧
      List.Forall₂ (fun c s => EllCoeff.Rep R2 cfg.twistM c s.1 s.2)
        (prepareGo o cfg q (q.neg o.fp2) ds r).2 (steps Q ds T) := by
  induction ds with
  | nil => intro r T hr _; exact ⟨hr, .nil⟩
  | cons d ds ih =>
    intro r T hr ⟨v1, v2, v3⟩
    have hds : ∀ e ∈ ds, e = 0 ∨ e = 1 ∨ e = -1 := fun e he => hd e (by simp [he])
    obtain ⟨d1, d2⟩ := G2Projective.double_rep h hb hr v1
    have hnq := Point.neg_rep h hq
    rcases hd d (by simp) with rfl | rfl | rfl
    · rw [zero_zsmul, add_zero] at v3
      obtain ⟨i1, i2⟩ := ih hds d1 v3
      have e1 : endPoint Q (0 :: ds) T = endPoint Q ds (T + T) := by rw [endPoint, zero_zsmul, add_zero]
      rw [e1]
      simp only [prepareGo, steps, if_true, if_neg (show ¬((0 : ℤ) = 1) by decide),
        if_neg (show ¬((0 : ℤ) = -1) by decide)]
      exact ⟨i1, .cons d2 i2⟩
    · obtain ⟨va, vb⟩ := v2.resolve_left (by decide)
      rw [one_zsmul] at va vb v3
      obtain ⟨a1, a2⟩ := G2Projective.add_rep h (cfg := cfg) d1 hq hQ va vb
      obtain ⟨i1, i2⟩ := ih hds a1 v3
      have e1 : endPoint Q (1 :: ds) T = endPoint Q ds (T + T + Q) := by rw [endPoint, one_zsmul]
      rw [e1]
      simp only [prepareGo, steps, if_true, if_neg (show ¬((1 : ℤ) = 0) by decide), one_zsmul]
      exact ⟨i1, .cons d2 (.cons a2 i2)⟩
    · obtain ⟨va, vb⟩ := v2.resolve_left (by decide)
      rw [neg_one_zsmul] at va vb v3
      obtain ⟨a1, a2⟩ := G2Projective.add_rep h (cfg := cfg) d1 hnq (neg_ne_zero.mpr hQ) va vb
      obtain ⟨i1, i2⟩ := ih hds a1 v3
      have e1 : endPoint Q (-1 :: ds) T = endPoint Q ds (T + T + -Q) := by rw [endPoint, neg_one_zsmul]
      rw [e1]
      simp only [prepareGo, steps, if_true, if_neg (show ¬((-1 : ℤ) = 0) by decide),
        if_neg (show ¬((-1 : ℤ) = 1) by decide), neg_one_zsmul]
      exact ⟨i1, .cons d2 (.cons a2 i2)⟩

end

/-! ## The loops over the pairs -/

/-- The pair has the point `(xP, yP)` and its remaining coefficients are those of the lines `ss`. -/
def Pair.Rep (R1 : α → k → Prop) (R2 : β → K → Prop) (twistM : Bool) (q : Pair α β) (xP yP : k)
    (ss : List ((twist b).Pt × (twist b).Pt)) : Prop :=
  R1 q.g1.x xP ∧ R1 q.g1.y yP ∧
    List.Forall₂ (fun c s => EllCoeff.Rep R2 twistM c s.1 s.2) (q.ellCoeffs.drop q.idx) ss

section Loops
variable [Nontrivial L] (h : o.Implements R1 R2 R12 ι j w ξ p) {cfg : Config β} {u : L}
  (hu : if cfg.twistM then u * w = 1 else u = w) {I : Type} (xs ys : I → k)
include h hu

theorem ellAll_rep (hd : I → (twist b).Pt × (twist b).Pt) (tl : I → List ((twist b).Pt × (twist b).Pt)) :
    ∀ {ps : List (Pair α β)} {is : List I} {f : γ} {F : L}, R12 f F →
      List.Forall₂ (fun q i => Pair.Rep R1 R2 cfg.twistM q (xs i) (ys i) (hd i :: tl i)) ps is →
      ∃ f' ps' C, ellAll o cfg f ps = some (f', ps') ∧ Removed j C ∧
        R12 f' (F * (C * (is.map fun i => line j u (j (ι (xs i))) (j (ι (ys i))) (hd i).1 (hd i).2).prod)) ∧
        List.Forall₂ (fun q i => Pair.Rep R1 R2 cfg.twistM q (xs i) (ys i) (tl i)) ps' is := by
  intro ps
  induction ps with
  | nil =>
    intro is f F hf hps
    obtain rfl := List.forall₂_nil_left_iff.mp hps
    exact ⟨f, [], 1, rfl, Removed.one, by simpa using hf, .nil⟩
  | cons q ps ih =>
    intro is f F hf hps
    obtain ⟨i, is, hq, hps1, rfl⟩ := List.forall₂_cons_left_iff.mp hps
    obtain ⟨hx, hy, hcs⟩ := hq
    obtain ⟨c, cs, hc, hcs, ecs⟩ := List.forall₂_cons_right_iff.mp hcs
    obtain ⟨C1, hC1, r1⟩ := ell_rep h hu hf hc hx hy
    obtain ⟨f', ps', C2, e, hC2, r2, hps'⟩ := ih r1 hps1
    have hget : q.ellCoeffs[q.idx]? = some c := by
      have := congrArg (·[0]?) ecs
      simpa using this
    have hdrop : q.ellCoeffs.drop (q.idx + 1) = cs := by
      have := congrArg List.tail ecs
      simpa using this
    refine ⟨f', { q with idx := q.idx + 1 } :: ps', C1 * C2, ?_, hC1.mul hC2, ?_, .cons ⟨hx, hy, ?_⟩ hps'⟩
    · simp only [ellAll, hget, Option.bind_some, e, Option.map_some]
    · convert r2 using 1
      simp only [List.map_cons, List.prod_cons]
      ring
    · dsimp only; rw [hdrop]; exact hcs

omit [Nontrivial L] h hu in
theorem prod_map_sq (is : List I) (f : I → L) : (is.map fun i => f i ^ 2).prod = (is.map f).prod ^ 2 := by
  induction is with
  | nil => simp
  | cons i is ih => simp only [List.map_cons, List.prod_cons, ih, mul_pow]

omit [Nontrivial L] h hu in
theorem prod_map_mul' (is : List I) (f g : I → L) :
    (is.map fun i => f i * g i).prod = (is.map f).prod * (is.map g).prod := by
  induction is with
  | nil => simp
  | cons i is ih => simp only [List.map_cons, List.prod_cons, ih]; ring

theorem millerGo_rep (Q : I → (twist b).Pt) (rest : I → List ((twist b).Pt × (twist b).Pt)) {is : List I}
    {ds : List ℤ} (hd : ∀ d ∈ ds, d = 0 ∨ d = 1 ∨ d = -1) :
    ∀ {skip : Bool} (T : I → (twist b).Pt) (v : I → L) {ps : List (Pair α β)} {f : γ} {C : L}, Removed j C →
      R12 f (C * (is.map v).prod) →
      (skip = true → C = 1 ∧ ∀ i, v i = 1) →
      List.Forall₂ (fun q i => Pair.Rep R1 R2 cfg.twistM q (xs i) (ys i) (steps (Q i) ds (T i) ++ rest i)) ps is →
      ∃ f' ps' C', millerGo o cfg skip ds f ps = some (f', ps') ∧ Removed j C' ∧
        R12 f' (C' * (is.map fun i => miller j u (j (ι (xs i))) (j (ι (ys i))) (Q i) ds (T i) (v i)).prod) ∧
        List.Forall₂ (fun q i => Pair.Rep R1 R2 cfg.twistM q (xs i) (ys i) (rest i)) ps' is := by
  induction ds with
  | nil =>
    intro skip T v ps f C hC hf _ hps
    exact ⟨f, ps, C, rfl, hC, by simpa only [miller] using hf, by simpa only [steps, List.nil_append] using hps⟩
  | cons d ds ih =>
    intro skip T v ps f C hC hf hskip hps
    have hds : ∀ e ∈ ds, e = 0 ∨ e = 1 ∨ e = -1 := fun e he => hd e (by simp [he])
    have hsq : R12 (if skip then f else o.fp12.square f) (C * C * (is.map fun i => v i ^ 2).prod) := by
      cases hs : skip with
      | true =>
        obtain ⟨rfl, hv⟩ := hskip hs
        have hv' : v = fun _ => 1 := funext hv
        subst hv'
        simpa using hf
      | false =>
        have := h.fp12.square hf
        rw [if_neg (by decide), prod_map_sq]
        convert this using 1; ring
    by_cases hd0 : d = 0
    · subst hd0
      simp only [steps, if_true, List.cons_append] at hps
      obtain ⟨f1, ps1, C1, e1, hC1, r1, hps1⟩ := ellAll_rep h hu xs ys (fun i => (T i, T i)) _ hsq hps
      obtain ⟨f', ps', C', e', hC', r', hps'⟩ := ih hds (fun i => T i + T i)
        (fun i => v i ^ 2 * line j u (j (ι (xs i))) (j (ι (ys i))) (T i) (T i)) (skip := false)
        ((hC.sq).mul hC1) (by rw [prod_map_mul']; convert r1 using 1; ring) (by simp) hps1
      refine ⟨f', ps', C', ?_, hC', by simpa only [miller, if_true] using r', hps'⟩
      simp only [millerGo, e1, Option.bind_some]
      rw [if_neg (by decide)]; exact e'
    · simp only [steps, if_neg hd0, List.cons_append] at hps
      obtain ⟨f1, ps1, C1, e1, hC1, r1, hps1⟩ := ellAll_rep h hu xs ys (fun i => (T i, T i)) _ hsq hps
      obtain ⟨f2, ps2, C2, e2, hC2, r2, hps2⟩ :=
        ellAll_rep h hu xs ys (fun i => (T i + T i, d • Q i)) _ r1 hps1
      obtain ⟨f', ps', C', e', hC', r', hps'⟩ := ih hds (fun i => T i + T i + d • Q i)
        (fun i => v i ^ 2 * line j u (j (ι (xs i))) (j (ι (ys i))) (T i) (T i) *
          line j u (j (ι (xs i))) (j (ι (ys i))) (T i + T i) (d • Q i)) (skip := false)
        (((hC.sq).mul hC1).mul hC2) (by rw [prod_map_mul', prod_map_mul']; convert r2 using 1; ring) (by simp) hps2
      refine ⟨f', ps', C', ?_, hC', by simpa only [miller, if_neg hd0] using r', hps'⟩
      simp only [millerGo, e1, e2, Option.bind_some]
      rw [if_pos ((hd d (by simp)).resolve_left hd0)]; exact e'

theorem millerChunks_rep (Q : I → (twist b).Pt) (rest : I → List ((twist b).Pt × (twist b).Pt)) {is : List I}
    {ds : List ℤ} (hd : ∀ d ∈ ds, d = 0 ∨ d = 1 ∨ d = -1) (skip : Bool) (T : I → (twist b).Pt)
    {ps : List (Pair α β)} (hlen : ps.length + 4 ≤ 2 ^ 64)
    (hps : List.Forall₂ (fun q i => Pair.Rep R1 R2 cfg.twistM q (xs i) (ys i) (steps (Q i) ds (T i) ++ rest i)) ps is) :
    ∃ f' ps' C', millerChunks o cfg skip ds ps = some (f', ps') ∧ Removed j C' ∧
      R12 f' (C' * (is.map fun i => miller j u (j (ι (xs i))) (j (ι (ys i))) (Q i) ds (T i) 1).prod) ∧
      List.Forall₂ (fun q i => Pair.Rep R1 R2 cfg.twistM q (xs i) (ys i) (rest i)) ps' is := by
  have hl := hps.length_eq
  have key : ∀ cs : List (ℕ × ℕ), ∀ {g : γ} {G C : L}, Removed j C → R12 g (C * G) → ∃ rs C',
      (cs.mapM fun c => millerGo o cfg skip ds o.fp12.one (chunkOf ps 4 c)) = some rs ∧ Removed j C' ∧
      R12 ((rs.map (·.1)).foldl o.fp12.mul g) (C' * (G * ((cs.flatMap (chunkOf is 4)).map fun i =>
        miller j u (j (ι (xs i))) (j (ι (ys i))) (Q i) ds (T i) 1).prod)) ∧
      List.Forall₂ (fun q i => Pair.Rep R1 R2 cfg.twistM q (xs i) (ys i) (rest i)) (rs.flatMap (·.2))
        (cs.flatMap (chunkOf is 4)) := by
    intro cs
    induction cs with
    | nil =>
      intro g G C hC hg
      exact ⟨[], C, rfl, hC, by simpa using hg, .nil⟩
    | cons c cs ih =>
      intro g G C hC hg
      have hc : List.Forall₂ (fun q i => Pair.Rep R1 R2 cfg.twistM q (xs i) (ys i) (steps (Q i) ds (T i) ++ rest i))
          (chunkOf ps 4 c) (chunkOf is 4 c) := List.forall₂_take _ (List.forall₂_drop _ hps)
      obtain ⟨f1, ps1, C1, e1, hC1, r1, hps1⟩ := millerGo_rep h hu xs ys Q rest hd (skip := skip) T
        (fun _ => (1 : L)) Removed.one (by simpa using h.fp12.one) (by simp) hc
      obtain ⟨rs, C', e2, hC', r2, hps2⟩ := ih (hC.mul hC1)
        (G := G * ((chunkOf is 4 c).map fun i => miller j u (j (ι (xs i))) (j (ι (ys i))) (Q i) ds (T i) 1).prod)
        (by convert h.fp12.mul hg r1 using 1; ring)
      refine ⟨(f1, ps1) :: rs, C', ?_, hC', ?_, ?_⟩
      · simp [List.mapM_cons, e1, e2]
      · simp only [List.map_cons, List.foldl_cons, List.flatMap_cons, List.map_append, List.prod_append]
        convert r2 using 1; ring
      · simp only [List.flatMap_cons]
        exact List.rel_append hps1 hps2
  obtain ⟨rs, C', e1, hC', r1, hps'⟩ := key (invocations ps.length 4) (g := o.fp12.one) (G := 1) Removed.one
    (by simpa using h.fp12.one)
  have hfl : (invocations ps.length 4).flatMap (chunkOf is 4) = is := by
    rw [hl]; exact flatMap_chunkOf is (by norm_num) (by rw [← hl]; exact hlen)
  rw [hfl] at r1 hps'
  rw [one_mul] at r1
  exact ⟨_, _, C', by simp only [millerChunks, e1, Option.map_some], hC', r1, hps'⟩

end Loops

end Tachyon.Pairing
