import Verif.Proofs.MMCSVerify
namespace Tachyon.MMCS

section
variable {F P D : Type*} {o : Ops F P D}

/-- No collision: both functions are injective. -/
theorem injective_of (hn : ¬ Spec.Collision o.hash o.compress) :
    (∀ a b, o.hash a = o.hash b → a = b) ∧
    ∀ a b c d, o.compress a b = o.compress c d → a = c ∧ b = d := by
  constructor
  · intro a b h
    by_contra hab
    exact hn (.inl ⟨a, b, hab, h⟩)
  · intro a b c d h
    by_contra hab
    exact hn (.inr ⟨a, b, c, d, fun he => hab (by simpa using he), h⟩)

theorem step_inj (hn : ¬ Spec.Collision o.hash o.compress) {i : ℕ} {a b c d : D}
    (h : step o i a b = step o i c d) : a = c ∧ b = d := by
  unfold step at h
  by_cases hi : i % 2 = 0
  · rw [if_pos hi, if_pos hi] at h; exact (injective_of hn).2 _ _ _ _ h
  · rw [if_neg hi, if_neg hi] at h; exact ((injective_of hn).2 _ _ _ _ h).symm

theorem injectOpened_inj (hn : ¬ Spec.Collision o.hash o.compress) {op op' : List (List F)}
    {ds : List (ℕ × ℕ)} {a b r : D} (h : injectOpened o op ds a = some r)
    (h' : injectOpened o op' ds b = some r) :
    a = b ∧ ∃ v, openedValues o op ds = some v ∧ openedValues o op' ds = some v := by
  unfold injectOpened at h h'
  by_cases he : ds.isEmpty
  · rw [if_pos he] at h h'
    obtain rfl := List.isEmpty_iff.1 he
    exact ⟨(Option.some.inj h).trans (Option.some.inj h').symm, [], rfl, rfl⟩
  · rw [if_neg he, Option.map_eq_some_iff] at h h'
    obtain ⟨v, hv, h1⟩ := h
    obtain ⟨w, hw, h2⟩ := h'
    obtain ⟨e1, e2⟩ := (injective_of hn).2 _ _ _ _ (h1.trans h2.symm)
    obtain rfl := (injective_of hn).1 _ _ e2
    exact ⟨e1, v, hv, hw⟩

theorem verifyGo_inj (hn : ¬ Spec.Collision o.hash o.compress) {op op' : List (List F)} :
    ∀ (p p' : List D) {a b r : D} {i layer : ℕ} {s : List (ℕ × ℕ)}, p.length = p'.length →
    verifyGo o op p a i layer s = some r → verifyGo o op' p' b i layer s = some r →
    a = b ∧ p = p'
  | [], [], a, b, r, i, layer, s, _, h, h' =>
    ⟨(Option.some.inj h).trans (Option.some.inj h').symm, rfl⟩
  | x :: p, y :: p', a, b, r, i, layer, s, hl, h, h' => by
    unfold verifyGo at h h'
    split at h
    · rename_i c hc
      split at h'
      · rename_i d hd
        obtain ⟨rfl, rfl⟩ := verifyGo_inj hn p p' (by simpa using hl) h h'
        obtain ⟨e, -⟩ := injectOpened_inj hn hc hd
        obtain ⟨rfl, rfl⟩ := step_inj hn e
        exact ⟨rfl, rfl⟩
      · cases h'
    · cases h

theorem verifyGo_values (hn : ¬ Spec.Collision o.hash o.compress) {op op' : List (List F)}
    {s : List (ℕ × ℕ)} (hs : s.Pairwise fun a b => b.2 ≤ a.2) :
    ∀ (j : ℕ) (p p' : List D) {a b r : D} {i : ℕ}, p.length = p'.length → j ≤ p.length →
    verifyGo o op p a i (2 ^ j) (s.filter fun d => decide (Nat.clog 2 d.2 < j)) = some r →
    verifyGo o op' p' b i (2 ^ j) (s.filter fun d => decide (Nat.clog 2 d.2 < j)) = some r →
    ∀ t < j, ∃ v, openedValues o op (s.filter fun d => decide (Nat.clog 2 d.2 = t)) = some v ∧
      openedValues o op' (s.filter fun d => decide (Nat.clog 2 d.2 = t)) = some v
  | 0, _, _, _, _, _, _, _, _, _, _, t, ht => absurd ht (by omega)
  | j + 1, [], _, _, _, _, _, _, hj, _, _, _, _ => absurd hj (by simp)
  | j + 1, x :: p, y :: p', a, b, r, i, hl, hj, h, h', t, ht => by
    obtain ⟨s1, s2⟩ := sorted_step hs j
    unfold verifyGo at h h'
    rw [show 2 ^ (j + 1) / 2 = 2 ^ j by rw [Nat.pow_succ]; omega, s1, s2] at h h'
    split at h
    · rename_i c hc
      split at h'
      · rename_i d hd
        obtain ⟨rfl, -⟩ := verifyGo_inj hn p p' (by simpa using hl) h h'
        by_cases htj : t = j
        · subst htj
          exact (injectOpened_inj hn hc hd).2
        · exact verifyGo_values hn hs j p p' (by simpa using hl) (by simpa using hj) h h' t (by omega)
      · cases h'
    · cases h

theorem flat_length_congr (hf : ∀ x y, (o.flat x).length = (o.flat y).length) : ∀ {r r' : List F},
    r.length = r'.length → (r.flatMap o.flat).length = (r'.flatMap o.flat).length
  | [], [], _ => rfl
  | x :: r, y :: r', h => by
    rw [List.flatMap_cons, List.flatMap_cons, List.length_append, List.length_append, hf x y,
      flat_length_congr hf (r := r) (r' := r') (by simpa using h)]

theorem flatMap_flat_inj (hf : ∀ x y, (o.flat x).length = (o.flat y).length)
    (hi : ∀ x y, o.flat x = o.flat y → x = y) : ∀ {r r' : List F},
    r.length = r'.length → r.flatMap o.flat = r'.flatMap o.flat → r = r'
  | [], [], _, _ => rfl
  | x :: r, y :: r', h, e => by
    rw [List.flatMap_cons, List.flatMap_cons] at e
    obtain ⟨e1, e2⟩ := List.append_inj e (hf x y)
    rw [hi x y e1, flatMap_flat_inj hf hi (by simpa using h) e2]

theorem openedValues_cons {op : List (List F)} {d : ℕ × ℕ} {ds : List (ℕ × ℕ)} {v : List P}
    (h : openedValues o op (d :: ds) = some v) :
    ∃ r w, op[d.1]? = some r ∧ openedValues o op ds = some w ∧ v = r.flatMap o.flat ++ w := by
  unfold openedValues at h ⊢
  rw [List.mapM_cons] at h
  cases hr : op[d.1]? with
  | none => rw [hr] at h; simp at h
  | some r =>
    cases hw : ds.mapM fun d => op[d.1]?.map fun r => r.flatMap o.flat with
    | none => rw [hr, hw] at h; simp at h
    | some w =>
      rw [hr, hw] at h
      refine ⟨r, w.flatten, rfl, rfl, ?_⟩
      simpa using h.symm

theorem openedValues_inj (hf : ∀ x y, (o.flat x).length = (o.flat y).length)
    (hi : ∀ x y, o.flat x = o.flat y → x = y) {op op' : List (List F)}
    (hw : op.map List.length = op'.map List.length) : ∀ (ds : List (ℕ × ℕ)) {v : List P},
    openedValues o op ds = some v → openedValues o op' ds = some v →
    ∀ d ∈ ds, op[d.1]? = op'[d.1]?
  | d :: ds, v, h, h', e, he => by
    obtain ⟨r, w, hr, hw1, hv⟩ := openedValues_cons h
    obtain ⟨r', w', hr', hw1', hv'⟩ := openedValues_cons h'
    have hlen : r.length = r'.length := by
      have := congrArg (fun l : List ℕ => l[d.1]?) hw
      simpa [hr, hr'] using this
    obtain ⟨e1, rfl⟩ := List.append_inj (hv.symm.trans hv') (flat_length_congr hf hlen)
    rcases List.mem_cons.1 he with rfl | he
    · rw [hr, hr', flatMap_flat_inj hf hi hlen e1]
    · exact openedValues_inj hf hi hw ds hw1 hw1' e he

/-- Two accepted openings with the same dimensions are equal if there is no collision. -/
theorem computeRoot_inj (hn : ¬ Spec.Collision o.hash o.compress)
    (hf : ∀ x y, (o.flat x).length = (o.flat y).length)
    (hi : ∀ x y, o.flat x = o.flat y → x = y) {heights : List ℕ} {index : ℕ} {op op' : List (List F)}
    {p p' : List D} {r : D} (hw : op.map List.length = op'.map List.length)
    (hl : p.length = p'.length) (hk : ∀ h ∈ heights, Nat.clog 2 h ≤ p.length)
    (h : computeRoot o heights index op p = some r)
    (h' : computeRoot o heights index op' p' = some r) : op = op' ∧ p = p' := by
  have hlen : heights.length = op.length := by
    by_contra hc
    unfold computeRoot at h
    rw [if_pos hc] at h
    cases h
  have hlen' : heights.length = op'.length := by
    by_contra hc
    unfold computeRoot at h'
    rw [if_pos hc] at h'
    cases h'
  unfold computeRoot at h h'
  rw [if_neg (by simpa using hlen)] at h
  rw [if_neg (by simpa using hlen')] at h'
  change (match (dims heights).insertionSort higher with
    | [] => none
    | _ :: _ => _) = _ at h
  change (match (dims heights).insertionSort higher with
    | [] => none
    | _ :: _ => _) = _ at h'
  have hperm := List.perm_insertionSort higher (dims heights)
  have hsort := List.pairwise_insertionSort higher (dims heights)
  have hmem : ∀ d, d ∈ (dims heights).insertionSort higher ↔ d ∈ dims heights :=
    fun d => hperm.mem_iff
  generalize (dims heights).insertionSort higher = s at *
  cases s with
  | nil => cases h
  | cons d rest =>
    dsimp only at h h'
    have hall : (d :: rest).filter (fun x => decide (Nat.clog 2 x.2 < Nat.clog 2 d.2 + 1)) =
        d :: rest := by
      rw [List.filter_eq_self]
      intro x hx
      rw [decide_eq_true_iff]
      apply Nat.lt_succ_of_le
      apply Nat.clog_mono_right
      rcases List.mem_cons.1 hx with rfl | hx
      · exact le_rfl
      · exact (List.pairwise_cons.1 hsort).1 x hx
    obtain ⟨s1, s2⟩ := sorted_step (s := d :: rest) hsort (Nat.clog 2 d.2)
    rw [hall] at s1 s2
    rw [bitCeil_eq d.2, s1, s2] at h h'
    have hdp : Nat.clog 2 d.2 ≤ p.length :=
      hk d.2 (List.mem_of_getElem? (dims_mem ((hmem d).1 (by simp))))
    split at h
    · rename_i v hv
      split at h'
      · rename_i v' hv'
        obtain ⟨e1, e2⟩ := verifyGo_inj hn p p' hl h h'
        obtain rfl := (injective_of hn).1 _ _ e1
        refine ⟨?_, e2⟩
        have hvals := verifyGo_values hn hsort (Nat.clog 2 d.2) p p' hl hdp h h'
        have hone : ∀ x ∈ d :: rest, op[x.1]? = op'[x.1]? := by
          intro x hx
          have hxd : Nat.clog 2 x.2 < Nat.clog 2 d.2 + 1 := by
            have := List.filter_eq_self.1 hall x hx
            simpa using this
          have hxm : x ∈ (d :: rest).filter fun y => decide (Nat.clog 2 y.2 = Nat.clog 2 x.2) :=
            List.mem_filter.2 ⟨hx, by simp⟩
          rcases Nat.lt_or_ge (Nat.clog 2 x.2) (Nat.clog 2 d.2) with hlt | hge
          · obtain ⟨u, hu, hu'⟩ := hvals _ hlt
            exact openedValues_inj hf hi hw _ hu hu' x hxm
          · have hxe : Nat.clog 2 x.2 = Nat.clog 2 d.2 := by omega
            rw [hxe] at hxm
            exact openedValues_inj hf hi hw _ hv hv' x hxm
        apply List.ext_getElem?
        intro t
        rcases Nat.lt_or_ge t heights.length with ht | ht
        · refine hone (t, heights[t]) ((hmem _).2 ?_)
          unfold dims
          rw [List.mem_map]
          refine ⟨(heights[t], t), ?_, rfl⟩
          rw [List.mem_zipIdx_iff_getElem?]
          simp [ht]
        · rw [List.getElem?_eq_none (by omega), List.getElem?_eq_none (by omega)]
      · cases h'
    · cases h

end
end Tachyon.MMCS
