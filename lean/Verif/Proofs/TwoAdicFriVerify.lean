import Verif.Proofs.TwoAdicFriOpen
/-! The reduced openings of the verifier of `TwoAdicFRI`. -/
namespace Tachyon.TwoAdicFri
open Polynomial Tachyon.Fri Tachyon.Parallel _root_.Tachyon.TwoAdicFri.Spec

variable {K Com Data Prf W S : Type} [Field K] [DecidableEq K]

omit [DecidableEq K] in
theorem addColumns_eq (a d : K) (vs ys : List K) (h : ys.length = vs.length) (st : K × K) :
    addColumns a d vs ys st = (st.1 + st.2 * ((dot a vs - dot a ys) * d), st.2 * a ^ vs.length) := by
  induction vs generalizing ys st with
  | nil =>
    rw [List.length_nil, List.length_eq_zero_iff] at h
    subst h
    simp [addColumns, dot]
  | cons v vs ih =>
    cases ys with
    | nil => simp at h
    | cons y ys =>
      rw [addColumns, ih ys (by simpa using h)]
      simp only [dot, List.length_cons, Prod.mk.injEq]
      exact ⟨by ring, by ring⟩

theorem addPoints_iff (a x : K) (row : List K) (zs : List K) (vs : List (List K)) (st st' : K × K) :
    addPoints a x row zs vs st = some st' ↔
      (zs.length ≤ vs.length ∧ ∀ q ∈ zs.zip vs, x ≠ q.1 ∧ q.2.length = row.length) ∧
      st' = (st.1 + st.2 * combine a x ((zs.zip vs).map fun q => (q.1, row, q.2)),
        st.2 * a ^ width ((zs.zip vs).map fun q => (q.1, row, q.2))) := by
  induction zs generalizing vs st with
  | nil => simp [addPoints, combine, width, eq_comm]
  | cons z zs ih =>
    rw [addPoints, Group.inv?]
    by_cases hx : x - z = 0
    · rw [if_pos hx]
      simp only [Option.bind_none, reduceCtorEq, false_iff]
      rintro ⟨⟨h1, h2⟩, -⟩
      cases vs with
      | nil => simp at h1
      | cons ys vs => exact (h2 (z, ys) (by simp)).1 (sub_eq_zero.1 hx)
    · rw [if_neg hx, Option.bind_some]
      cases vs with
      | nil => simp
      | cons ys vs =>
        rw [List.head?_cons, Option.bind_some]
        by_cases hl : ys.length = row.length
        · rw [if_neg (by simpa using hl), List.tail_cons, ih, addColumns_eq _ _ _ _ hl]
          have hxz : x ≠ z := fun e => hx (by rw [e, sub_self])
          have e1 : (st.1 + st.2 * ((dot a row - dot a ys) * (x - z)⁻¹) + st.2 * a ^ row.length *
              combine a x ((zs.zip vs).map fun q => (q.1, row, q.2)),
              st.2 * a ^ row.length * a ^ width ((zs.zip vs).map fun q => (q.1, row, q.2))) =
              (st.1 + st.2 * combine a x (((z :: zs).zip (ys :: vs)).map fun q => (q.1, row, q.2)),
                st.2 * a ^ width (((z :: zs).zip (ys :: vs)).map fun q => (q.1, row, q.2))) := by
            rw [List.zip_cons_cons, List.map_cons, combine]
            simp only [width, List.map_cons, List.sum_cons, Prod.mk.injEq]
            exact ⟨by ring, by ring⟩
          rw [e1]
          apply and_congr_left'
          simp only [List.zip_cons_cons, List.length_cons, Nat.add_le_add_iff_right, List.mem_cons,
            forall_eq_or_imp]
          exact ⟨fun h => ⟨h.1, ⟨hxz, hl⟩, h.2⟩, fun h => ⟨h.1, h.2.2⟩⟩
        · rw [if_pos (by simpa using hl)]
          simp only [reduceCtorEq, false_iff]
          rintro ⟨⟨-, h2⟩, -⟩
          exact hl (h2 (z, ys) (by simp)).2

/-! ### The B-tree -/

/-- `h` put into a descending list. -/
def insertDesc (h : ℕ) : List ℕ → List ℕ
  | [] => [h]
  | k :: l => if k = h then k :: l else if k < h then h :: k :: l else k :: insertDesc h l

theorem mem_insertDesc_lt {h N : ℕ} (hh : h < N) {l : List ℕ} (hl : ∀ k ∈ l, k < N) :
    ∀ k ∈ insertDesc h l, k < N := by
  induction l with
  | nil => simpa [insertDesc] using hh
  | cons k l ih =>
    rw [insertDesc]
    split
    · exact hl
    · split
      · intro k' hk'; rcases List.mem_cons.1 hk' with rfl | hk'
        · exact hh
        · exact hl _ hk'
      · intro k' hk'; rcases List.mem_cons.1 hk' with rfl | hk'
        · exact hl _ (by simp)
        · exact ih (fun x hx => hl x (by simp [hx])) _ hk'

theorem insertDesc_filter (P : ℕ → Bool) (h N : ℕ) (hN : h < N) :
    insertDesc h ((List.range N).reverse.filter P) =
      (List.range N).reverse.filter fun k => P k || decide (h = k) := by
  have hgt : ∀ N (P : ℕ → Bool), insertDesc N ((List.range N).reverse.filter P) =
      N :: (List.range N).reverse.filter P := by
    intro N P
    have hl : ∀ k ∈ (List.range N).reverse.filter P, k < N := by
      intro k hk; simp only [List.mem_filter, List.mem_reverse, List.mem_range] at hk; exact hk.1
    cases he : (List.range N).reverse.filter P with
    | nil => rfl
    | cons k l =>
      have := hl k (by rw [he]; simp)
      rw [insertDesc, if_neg (by omega), if_pos this]
  have hcong : ∀ N, (List.range N).reverse.filter (fun k => P k || decide (N = k)) =
      (List.range N).reverse.filter P := by
    intro N
    apply List.filter_congr
    intro k hk
    simp only [List.mem_reverse, List.mem_range] at hk
    have : N ≠ k := by omega
    simp [this]
  induction N with
  | zero => omega
  | succ N ih =>
    rw [List.range_succ, List.reverse_append, List.reverse_singleton, List.singleton_append,
      List.filter_cons, List.filter_cons]
    rcases Nat.lt_or_eq_of_le (Nat.lt_succ_iff.1 hN) with hlt | rfl
    · have hne : h ≠ N := by omega
      simp only [hne, decide_false, Bool.or_false]
      split
      · rw [insertDesc, if_neg (by omega), if_neg (by omega), ih hlt]
      · exact ih hlt
    · simp only [decide_true, Bool.or_true, if_true]
      split
      · rw [insertDesc, if_pos rfl, hcong]
      · rw [hgt, hcong]

omit [DecidableEq K] in
theorem update_eq (h : ℕ) (f : K × K → Option (K × K)) (v : ℕ → K × K) (L : List ℕ)
    (hL : L.Pairwise (· > ·)) (hv : h ∉ L → v h = (0, 1)) :
    update h f (L.map fun k => (k, v k)) =
      (f (v h)).map fun r => (insertDesc h L).map fun k => (k, if k = h then r else v k) := by
  induction L with
  | nil => rw [List.map_nil, update, hv (by simp)]; simp [insertDesc]
  | cons k L ih =>
    have hgt := (List.pairwise_cons.1 hL).1
    rw [List.map_cons, update, insertDesc]
    by_cases e : k = h
    · subst e
      rw [if_pos rfl, if_pos rfl]
      congr 1
      funext r
      rw [List.map_cons, if_pos rfl]
      congr 1
      refine List.map_congr_left fun k' hk' => ?_
      rw [if_neg (by have := hgt k' hk'; omega)]
    · simp only [if_neg e]
      by_cases hlt : k < h
      · have hn : h ∉ k :: L := by
          intro hm
          rcases List.mem_cons.1 hm with rfl | hm
          · exact e rfl
          · have := hgt h hm; omega
        simp only [if_pos hlt, hv hn]
        congr 1
        funext r
        rw [List.map_cons, if_pos rfl, List.map_cons, if_neg e]
        congr 2
        refine List.map_congr_left fun k' hk' => ?_
        rw [if_neg (by rintro rfl; exact hn (by simp [hk']))]
      · simp only [if_neg hlt]
        rw [ih (List.pairwise_cons.1 hL).2 fun hn => hv (by
          intro hm; rcases List.mem_cons.1 hm with rfl | hm
          · exact e rfl
          · exact hn hm), Option.map_map]
        congr 1
        funext r
        simp [e]

/-- The state of the verifier after some claims. -/
def vstate (a : K) (x : ℕ → K) (n : ℕ) (items : List (ℕ × List (K × List K × List K))) : List (ℕ × K × K) :=
  (heights n items).map fun h => (h, combine a (x h) (collect h items), a ^ width (collect h items))

omit [Field K] [DecidableEq K] in
theorem collect_append (h : ℕ) (l l' : List (ℕ × List (K × List K × List K))) :
    collect h (l ++ l') = collect h l ++ collect h l' := by simp [collect]

omit [Field K] [DecidableEq K] in
theorem width_append (l l' : List (K × List K × List K)) : width (l ++ l') = width l + width l' := by
  simp [width]

omit [Field K] [DecidableEq K] in
theorem heights_pairwise (n : ℕ) (items : List (ℕ × List (K × List K × List K))) :
    (heights n items).Pairwise (· > ·) := by
  apply List.Pairwise.filter
  rw [List.pairwise_reverse]
  exact List.pairwise_lt_range

omit [Field K] [DecidableEq K] in
theorem mem_heights {n h : ℕ} {items : List (ℕ × List (K × List K × List K))} :
    h ∈ heights n items ↔ h ≤ n ∧ ∃ e ∈ items, e.1 = h := by
  simp [heights]

omit [DecidableEq K] in
/-- A further matrix. -/
theorem update_vstate (a : K) (x : ℕ → K) {n h : ℕ} (hn : h ≤ n) (items : List (ℕ × List (K × List K × List K)))
    (cl : List (K × List K × List K)) (f : K × K → Option (K × K)) (P : Prop)
    (hf : ∀ st st', f st = some st' ↔ P ∧ st' = (st.1 + st.2 * combine a (x h) cl, st.2 * a ^ width cl))
    (m' : List (ℕ × K × K)) :
    update h f (vstate a x n items) = some m' ↔ P ∧ m' = vstate a x n (items ++ [(h, cl)]) := by
  rw [vstate, update_eq h f (fun k => (combine a (x k) (collect k items), a ^ width (collect k items))) _
    (heights_pairwise _ _)]
  · have hh : insertDesc h (heights n items) = heights n (items ++ [(h, cl)]) := by
      rw [heights, insertDesc_filter _ _ _ (by omega), heights]
      apply List.filter_congr
      intro k _
      simp
    have hval : ∀ k, (if k = h then (combine a (x h) (collect h items) + a ^ width (collect h items) *
        combine a (x h) cl, a ^ width (collect h items) * a ^ width cl)
        else (combine a (x k) (collect k items), a ^ width (collect k items))) =
        (combine a (x k) (collect k (items ++ [(h, cl)])), a ^ width (collect k (items ++ [(h, cl)]))) := by
      intro k
      rw [collect_append]
      by_cases e : k = h
      · subst e
        have : collect k [(k, cl)] = cl := by simp [collect]
        rw [if_pos rfl, this, combine_append, width_append, pow_add]
      · have e' : ¬ h = k := fun h => e h.symm
        have : collect k [(h, cl)] = [] := by simp [collect, e']
        rw [if_neg e, this, List.append_nil]
    rw [hh, Option.map_eq_some_iff]
    constructor
    · rintro ⟨r, h1, rfl⟩
      obtain ⟨hP, rfl⟩ := (hf _ _).1 h1
      refine ⟨hP, ?_⟩
      rw [vstate]
      exact List.map_congr_left fun k _ => by rw [hval]
    · rintro ⟨hP, rfl⟩
      refine ⟨_, (hf _ _).2 ⟨hP, rfl⟩, ?_⟩
      rw [vstate]
      exact List.map_congr_left fun k _ => by rw [hval]
  · intro hm
    have : collect h items = [] := by
      rw [collect, List.filter_eq_nil_iff.2, List.flatMap_nil]
      intro e he hd
      exact hm (mem_heights.2 ⟨hn, e, he, by simpa using hd⟩)
    rw [this]; simp [combine, width]

/-! ### The loops -/

theorem shiftIndex_eq {n l : ℕ} (hn : n ≤ 31) (i : ℕ) :
    shiftIndex i n l = if l ≤ n then some (i / 2 ^ (n - l)) else none := by
  rw [shiftIndex]
  by_cases h : l ≤ n
  · rw [if_pos h, if_neg (by omega)]
  · rw [if_neg h, if_pos (by omega)]

/-- The point of the verifier for height `h`. -/
def pointAt (A : ℕ) (W' g : K) (n i h : ℕ) : K := place A W' g h (i / 2 ^ (n - h))

theorem div_lt {n i h : ℕ} (hi : i < 2 ^ n) (hh : h ≤ n) : i / 2 ^ (n - h) < 2 ^ h := by
  rw [Nat.div_lt_iff_lt_mul (by positivity), ← pow_add, show h + (n - h) = n by omega]
  exact hi

theorem reduceMatrix_iff {p : Pcs K Com Data Prf} {A : ℕ} {W' : K} (h : p.env.Good A W')
    (hb : 0 < p.cfg.logBlowup) {n i : ℕ} (hnA : n ≤ A) (h31 : n ≤ 31) (hi : i < 2 ^ n) (a : K) (c : Claim K)
    (row : List K) (items : List (ℕ × List (K × List K × List K))) (m' : List (ℕ × K × K)) :
    reduceMatrix p a n i c row (vstate a (pointAt A W' p.gen n i) n items) = some m' ↔
      (height p.cfg.logBlowup c ≤ n ∧
        ClaimOk (pointAt A W' p.gen n i (height p.cfg.logBlowup c)) row c) ∧
      m' = vstate a (pointAt A W' p.gen n i) n (items ++ [(height p.cfg.logBlowup c, mkClaims row c)]) := by
  rw [reduceMatrix]
  rw [← height, shiftIndex_eq h31]
  by_cases hh : height p.cfg.logBlowup c ≤ n
  · rw [if_pos hh, Option.bind_some]
    have hlt := div_lt hi hh
    obtain ⟨r, e1, e2⟩ := FFT.reverseBitsLen_rv (k := height p.cfg.logBlowup c) (by rw [height]; omega)
      (by omega) hlt
    have h32 : FFT.rv (height p.cfg.logBlowup c) (i / 2 ^ (n - height p.cfg.logBlowup c)) < 2 ^ 32 :=
      (FFT.rv_lt _ _).trans_le (Nat.pow_le_pow_right (by omega) (by omega))
    rw [e1, Option.bind_some, h.root _ (hh.trans hnA), Option.bind_some, e2, Nat.mod_eq_of_lt h32, ← place,
      ← pointAt]
    have := update_vstate a (pointAt A W' p.gen n i) hh items (mkClaims row c)
      (addPoints a (pointAt A W' p.gen n i (height p.cfg.logBlowup c)) row c.points c.values)
      (ClaimOk (pointAt A W' p.gen n i (height p.cfg.logBlowup c)) row c)
      (fun st st' => addPoints_iff _ _ _ _ _ _ _) m'
    rw [this]
    simp [hh]
  · rw [if_neg hh]; simp [hh]

theorem reduceMatrices_iff {p : Pcs K Com Data Prf} {A : ℕ} {W' : K} (h : p.env.Good A W')
    (hb : 0 < p.cfg.logBlowup) {n i : ℕ} (hnA : n ≤ A) (h31 : n ≤ 31) (hi : i < 2 ^ n) (a : K)
    (cs : List (Claim K)) (rows : List (List K)) (items : List (ℕ × List (K × List K × List K)))
    (m' : List (ℕ × K × K)) :
    reduceMatrices p a n i cs rows (vstate a (pointAt A W' p.gen n i) n items) = some m' ↔
      (cs.length ≤ rows.length ∧ ∀ q ∈ cs.zip rows, height p.cfg.logBlowup q.1 ≤ n ∧
        ClaimOk (pointAt A W' p.gen n i (height p.cfg.logBlowup q.1)) q.2 q.1) ∧
      m' = vstate a (pointAt A W' p.gen n i) n (items ++ roundItems p.cfg.logBlowup (cs, rows)) := by
  induction cs generalizing rows items with
  | nil => simp [reduceMatrices, roundItems, eq_comm]
  | cons c cs ih =>
    cases rows with
    | nil => simp [reduceMatrices]
    | cons row rows =>
      rw [reduceMatrices, Option.bind_eq_some_iff]
      have key : roundItems p.cfg.logBlowup (c :: cs, row :: rows) =
          (height p.cfg.logBlowup c, mkClaims row c) :: roundItems p.cfg.logBlowup (cs, rows) := rfl
      rw [key]
      simp only [reduceMatrix_iff h hb hnA h31 hi, List.zip_cons_cons, List.length_cons,
        Nat.add_le_add_iff_right, List.mem_cons, forall_eq_or_imp]
      constructor
      · rintro ⟨m1, ⟨h1, rfl⟩, h2⟩
        rw [ih] at h2
        refine ⟨⟨h2.1.1, h1, h2.1.2⟩, ?_⟩
        rw [h2.2, List.append_assoc, List.singleton_append]
      · rintro ⟨⟨h1, h2, h3⟩, rfl⟩
        refine ⟨_, ⟨h2, rfl⟩, ?_⟩
        rw [ih]
        refine ⟨⟨h1, h3⟩, ?_⟩
        rw [List.append_assoc, List.singleton_append]

omit [Field K] [DecidableEq K] in
theorem foldl_max_pow (b : ℕ) (cs : List (Claim K)) (k : ℕ) :
    (cs.map fun c => 2 ^ height b c).foldl max (2 ^ k) = 2 ^ ((cs.map (height b)).foldl max k) := by
  induction cs generalizing k with
  | nil => rfl
  | cons c cs ih =>
    rw [List.map_cons, List.foldl_cons, List.map_cons, List.foldl_cons, ← ih]
    congr 1
    exact ((pow_right_mono₀ (by norm_num : (1 : ℕ) ≤ 2)).map_max).symm

theorem le_foldl_max (l : List ℕ) (k : ℕ) : k ≤ l.foldl max k ∧ ∀ x ∈ l, x ≤ l.foldl max k := by
  induction l generalizing k with
  | nil => simp
  | cons y l ih =>
    obtain ⟨h1, h2⟩ := ih (max k y)
    rw [List.foldl_cons]
    refine ⟨(le_max_left _ _).trans h1, fun x hx => ?_⟩
    rcases List.mem_cons.1 hx with rfl | hx
    · exact (le_max_right _ _).trans h1
    · exact h2 x hx

theorem foldl_max_le {l : List ℕ} {k B : ℕ} (hk : k ≤ B) (h : ∀ x ∈ l, x ≤ B) : l.foldl max k ≤ B := by
  induction l generalizing k with
  | nil => exact hk
  | cons y l ih => exact ih (max_le hk (h y (by simp))) fun x hx => h x (by simp [hx])

omit [Field K] [DecidableEq K] in
theorem max_dims {b : ℕ} {cs : List (Claim K)} (hne : cs ≠ []) :
    (cs.map fun c => 2 ^ height b c).foldl max 0 = 2 ^ maxHeight b cs := by
  cases cs with
  | nil => exact absurd rfl hne
  | cons c cs =>
    rw [List.map_cons, List.foldl_cons, Nat.zero_max, foldl_max_pow, maxHeight, List.map_cons, List.foldl_cons,
      Nat.zero_max]

theorem reduceRound_iff {p : Pcs K Com Data Prf} {A : ℕ} {W' : K} (h : p.env.Good A W')
    (hb : 0 < p.cfg.logBlowup) {n i : ℕ} (hnA : n ≤ A) (h31 : n ≤ 31) (hi : i < 2 ^ n) (a : K) (com : Com)
    (cs : List (Claim K)) (hcs : ∀ c ∈ cs, c.domain.size = 2 ^ c.domain.logSize ∧ height p.cfg.logBlowup c ≤ 63)
    (inp : List (List K) × Prf) (items : List (ℕ × List (K × List K × List K))) (m' : List (ℕ × K × K)) :
    reduceRound p a n i com cs inp (vstate a (pointAt A W' p.gen n i) n items) = some m' ↔
      RoundOk p A W' n i com cs inp ∧
      m' = vstate a (pointAt A W' p.gen n i) n (items ++ roundItems p.cfg.logBlowup (cs, inp.1)) := by
  rw [reduceRound]
  have hd : (cs.map fun c => c.domain.size * 2 ^ p.cfg.logBlowup) =
      cs.map fun c => 2 ^ height p.cfg.logBlowup c :=
    List.map_congr_left fun c hc => by rw [(hcs c hc).1, height, pow_add]
  rw [hd]
  by_cases hne : cs = []
  · subst hne
    rw [List.map_nil, List.foldl_nil, show Bits.checkedLog2 (BitVec.ofNat 64 0) = none by decide +kernel]
    simp [RoundOk]
  · rw [max_dims hne]
    have h63 : maxHeight p.cfg.logBlowup cs ≤ 63 := by
      apply foldl_max_le (by omega)
      intro x hx
      obtain ⟨c, hc, rfl⟩ := List.mem_map.1 hx
      exact (hcs c hc).2
    rw [checkedLog2_pow h63, Option.bind_some, shiftIndex_eq h31]
    by_cases hM : maxHeight p.cfg.logBlowup cs ≤ n
    · have h32 : i / 2 ^ (n - maxHeight p.cfg.logBlowup cs) < 2 ^ 32 :=
        (div_lt hi hM).trans_le (Nat.pow_le_pow_right (by omega) (by omega))
      rw [if_pos hM, Option.bind_some, Nat.mod_eq_of_lt h32]
      by_cases hv : p.mmcs.verify com (cs.map fun c => 2 ^ height p.cfg.logBlowup c)
          (i / 2 ^ (n - maxHeight p.cfg.logBlowup cs)) inp.1 inp.2 = true
      · rw [if_pos hv, reduceMatrices_iff h hb hnA h31 hi]
        apply and_congr_left'
        have hall : ∀ q ∈ cs.zip inp.1, height p.cfg.logBlowup q.1 ≤ n := fun q hq =>
          ((le_foldl_max (cs.map (height p.cfg.logBlowup)) 0).2 _
            (List.mem_map.2 ⟨q.1, (List.of_mem_zip hq).1, rfl⟩)).trans hM
        constructor
        · rintro ⟨h1, h2⟩
          exact ⟨hne, hM, hv, h1, fun q hq => (h2 q hq).2⟩
        · rintro ⟨-, -, -, h1, h2⟩
          exact ⟨h1, fun q hq => ⟨hall q hq, h2 q hq⟩⟩
      · rw [if_neg hv]
        simp only [reduceCtorEq, false_iff]
        rintro ⟨⟨-, -, h1, -⟩, -⟩
        exact hv h1
    · rw [if_neg hM]
      simp only [Option.bind_none, reduceCtorEq, false_iff]
      rintro ⟨⟨-, h1, -⟩, -⟩
      exact hM h1

theorem reduceRounds_iff {p : Pcs K Com Data Prf} {A : ℕ} {W' : K} (h : p.env.Good A W')
    (hb : 0 < p.cfg.logBlowup) {n i : ℕ} (hnA : n ≤ A) (h31 : n ≤ 31) (hi : i < 2 ^ n) (a : K)
    (rs : List (Com × List (Claim K)))
    (hrs : ∀ r ∈ rs, ∀ c ∈ r.2, c.domain.size = 2 ^ c.domain.logSize ∧ height p.cfg.logBlowup c ≤ 63)
    (inps : List (List (List K) × Prf)) (items : List (ℕ × List (K × List K × List K)))
    (m' : List (ℕ × K × K)) :
    reduceRounds p a n i rs inps (vstate a (pointAt A W' p.gen n i) n items) = some m' ↔
      (rs.length ≤ inps.length ∧ ∀ q ∈ rs.zip inps, RoundOk p A W' n i q.1.1 q.1.2 q.2) ∧
      m' = vstate a (pointAt A W' p.gen n i) n
        (items ++ (rs.zip inps).flatMap fun q => roundItems p.cfg.logBlowup (q.1.2, q.2.1)) := by
  induction rs generalizing inps items with
  | nil => simp [reduceRounds, eq_comm]
  | cons r rs ih =>
    cases inps with
    | nil => simp [reduceRounds]
    | cons inp inps =>
      have ih' := ih fun r hr => hrs r (by simp [hr])
      rw [reduceRounds, Option.bind_eq_some_iff]
      simp only [reduceRound_iff h hb hnA h31 hi _ _ _ (hrs r (by simp)), List.zip_cons_cons, List.length_cons,
        Nat.add_le_add_iff_right, List.mem_cons, forall_eq_or_imp, List.flatMap_cons]
      constructor
      · rintro ⟨m1, ⟨h1, rfl⟩, h2⟩
        rw [ih'] at h2
        refine ⟨⟨h2.1.1, h1, h2.1.2⟩, ?_⟩
        rw [h2.2, List.append_assoc]
      · rintro ⟨⟨h1, h2, h3⟩, rfl⟩
        refine ⟨_, ⟨h2, rfl⟩, ?_⟩
        rw [ih']
        exact ⟨⟨h1, h3⟩, by rw [List.append_assoc]⟩

/-- The callback of the verifier. -/
theorem reduceInput_iff {p : Pcs K Com Data Prf} {A : ℕ} {W' : K} (h : p.env.Good A W')
    (hb : 0 < p.cfg.logBlowup) {n i : ℕ} (hnA : n ≤ A) (h31 : n ≤ 31) (hi : i < 2 ^ n) (a : K)
    (rs : List (Com × List (Claim K)))
    (hrs : ∀ r ∈ rs, ∀ c ∈ r.2, c.domain.size = 2 ^ c.domain.logSize ∧ height p.cfg.logBlowup c ≤ 63)
    (inps : List (List (List K) × Prf)) (ros : List (ℕ × K)) :
    reduceInput p a n rs i inps = some ros ↔
      (rs.length ≤ inps.length ∧ ∀ q ∈ rs.zip inps, RoundOk p A W' n i q.1.1 q.1.2 q.2) ∧
      ros = (heights n ((rs.zip inps).flatMap fun q => roundItems p.cfg.logBlowup (q.1.2, q.2.1))).map fun h =>
        (h, combine a (place A W' p.gen h (i / 2 ^ (n - h))) (collect h
          ((rs.zip inps).flatMap fun q => roundItems p.cfg.logBlowup (q.1.2, q.2.1)))) := by
  have h0 : ([] : List (ℕ × K × K)) = vstate a (pointAt A W' p.gen n i) n [] := by simp [vstate, heights]
  rw [reduceInput, Option.map_eq_some_iff, h0]
  simp only [reduceRounds_iff h hb hnA h31 hi _ _ hrs, List.nil_append]
  constructor
  · rintro ⟨m, ⟨h1, rfl⟩, rfl⟩
    exact ⟨h1, by rw [vstate, List.map_map]; rfl⟩
  · rintro ⟨h1, rfl⟩
    exact ⟨_, ⟨h1, rfl⟩, by rw [vstate, List.map_map]; rfl⟩

end Tachyon.TwoAdicFri
