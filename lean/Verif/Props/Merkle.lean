import Verif.Proofs.Merkle
/-! C41: binary Merkle tree. -/
namespace Tachyon.Props
open Tachyon.Merkle Tachyon.FFT

variable {L H : Type*}

/-- C41: committing to `2 ^ k` leaves gives the recursive hash, and node `j` of depth `d` is stored at
`2 ^ d - 1 + j` and holds the recursive hash of its leaves; for every threshold from two, every order
of the parallel loops and whatever the storage held before. -/
theorem C41_commit (h : Hasher L H) (dflt : H) {k t maxSize : ℕ} (o : Sched) (store : List H)
    (leaves : List L) (hk1 : 1 ≤ k) (hk : k < 63) (ht : 1 ≤ t) (hn : leaves.length = 2 ^ k)
    (hmax : leaves.length ≤ maxSize) :
    ∃ s, commit h dflt maxSize (2 ^ t) o store leaves =
        some (some (s, Spec.root h.leaf h.parent dflt k leaves)) ∧
      s.length = 2 ^ (k + 1) - 1 ∧
      ∀ d j, d ≤ k → j < 2 ^ d → s[2 ^ d - 1 + j]? = some (Spec.root h.leaf h.parent dflt (k - d)
        ((leaves.drop (j * 2 ^ (k - d))).take (2 ^ (k - d)))) := by
  obtain ⟨s0, e0, l0, g0⟩ := fillLeaves_good (h := h) (dflt := dflt) (maxSize := maxSize) o
    (store := store) hk hn (by omega)
  obtain ⟨s, e, l, g⟩ := buildAll_good (h := h) (dflt := dflt) (t := t) o hk hk1 ht hn l0 g0
  have hk0 : 0 < 2 ^ k := by positivity
  refine ⟨s, ?_, by rw [Nat.pow_succ]; omega, fun d j hd hj => ?_⟩
  · have h0 : s[0]? = some (Spec.root h.leaf h.parent dflt k leaves) := by
      rw [g 0 (by omega), nv_eq h dflt k leaves (d := 0) (j := 0) (by simp) (by simp), val_zero hn]
    unfold commit
    rw [e0]
    dsimp only
    rw [e]
    simp only [Option.bind_some, rootOf, h0, Option.map_some]
  · have h1 : 0 < 2 ^ d := by positivity
    have h2 := Nat.pow_le_pow_right (n := 2) (by omega) hd
    rw [g _ (by omega), nv_eq h dflt k leaves hj (by omega), val]

/-- C41: the storage and the root do not depend on the threshold, the order of the loops, the old
contents of the storage or the bound on the size. -/
theorem C41_deterministic (h : Hasher L H) (dflt dflt' : H) {k t t' maxSize maxSize' : ℕ} (o o' : Sched)
    (store store' : List H) (leaves : List L) (hk1 : 1 ≤ k) (hk : k < 63) (ht : 1 ≤ t) (ht' : 1 ≤ t')
    (hn : leaves.length = 2 ^ k) (hmax : leaves.length ≤ maxSize) (hmax' : leaves.length ≤ maxSize') :
    commit h dflt maxSize (2 ^ t) o store leaves = commit h dflt' maxSize' (2 ^ t') o' store' leaves := by
  have hr : ∀ (m : ℕ) (l : List L), l.length = 2 ^ m →
      Spec.root h.leaf h.parent dflt m l = Spec.root h.leaf h.parent dflt' m l := by
    intro m
    induction m with
    | zero =>
      intro l hl
      match l, hl with
      | [x], _ => rfl
    | succ m ih =>
      intro l hl
      rw [Nat.pow_succ] at hl
      rw [Spec.root, Spec.root, ih _ (by rw [List.length_take]; omega),
        ih _ (by rw [List.length_drop]; omega)]
  obtain ⟨s, e, l, g⟩ := C41_commit h dflt o store leaves hk1 hk ht hn hmax
  obtain ⟨s', e', l', g'⟩ := C41_commit h dflt' o' store' leaves hk1 hk ht' hn hmax'
  have hs : s = s' := by
    apply List.ext_getElem?
    intro i
    obtain ⟨d, j, hj, he⟩ := exists_depth i
    by_cases hd : d ≤ k
    · have hdk : 2 ^ k = 2 ^ d * 2 ^ (k - d) := by rw [← Nat.pow_add]; congr 1; omega
      have hjd : j * 2 ^ (k - d) + 2 ^ (k - d) ≤ 2 ^ k := by
        rw [hdk, ← Nat.succ_mul]; exact Nat.mul_le_mul_right _ hj
      have hi : i = 2 ^ d - 1 + j := by have : 0 < 2 ^ d := by positivity
                                        omega
      rw [hi, g d j hd hj, g' d j hd hj, hr]
      rw [List.length_take, List.length_drop]; omega
    · have := Nat.pow_le_pow_right (n := 2) (by omega) (show k + 1 ≤ d by omega)
      rw [List.getElem?_eq_none (by omega), List.getElem?_eq_none (by omega)]
  rw [e, e', hs, hr k leaves hn]

/-- C41: `Commit` returns `false` when the number of leaves is no power of two or too large. -/
theorem C41_rejects (h : Hasher L H) (dflt : H) (maxSize threshold : ℕ) (o : Sched) (store : List H)
    (leaves : List L) (hlen : leaves.length < 2 ^ 64)
    (hbad : (¬ ∃ k, leaves.length = 2 ^ k) ∨ maxSize < leaves.length) :
    commit h dflt maxSize threshold o store leaves = some none := by
  have : fillLeaves h dflt maxSize o store leaves = some none := by
    unfold fillLeaves
    by_cases hp : Bits.isPowerOfTwo (BitVec.ofNat 64 leaves.length) = true
    · have hp' := hp
      rw [Bits.isPowerOfTwo_iff, BitVec.toNat_ofNat, Nat.mod_eq_of_lt hlen] at hp'
      rcases hbad with hb | hb
      · exact absurd hp' hb
      · rw [if_neg (by simpa using hp), if_pos hb]
    · rw [if_pos hp]
  unfold commit
  rw [this]

/-- C41: the opening created for index `i` has the height of the tree as its length, the bits of `i` as
its directions, and verifies for leaf `i`. -/
theorem C41_open [DecidableEq H] (h : Hasher L H) (dflt : H) {k t maxSize : ℕ} (o : Sched)
    (store : List H) (leaves : List L) (hk1 : 1 ≤ k) (hk : k < 63) (ht : 1 ≤ t)
    (hn : leaves.length = 2 ^ k) (hmax : leaves.length ≤ maxSize) {i : ℕ} (hi : i < leaves.length)
    {s : List H} {root : H}
    (hc : commit h dflt maxSize (2 ^ t) o store leaves = some (some (s, root))) :
    ∃ p, createProof dflt s i = some p ∧ p.map Prod.fst = (List.range k).map i.testBit ∧
      verifyProof h root (h.leaf leaves[i]) p = true := by
  obtain ⟨s', e, l, g⟩ := C41_commit h dflt o store leaves hk1 hk ht hn hmax
  rw [e] at hc
  simp only [Option.some.injEq, Prod.mk.injEq] at hc
  obtain ⟨rfl, rfl⟩ := hc
  have hk0 : 0 < 2 ^ k := by positivity
  have hgood : ∀ j, j + 1 < 2 * 2 ^ k → Good h dflt k leaves s' j := by
    intro j hj
    obtain ⟨d, m, hm, he⟩ := exists_depth j
    have hd : d ≤ k := by
      by_contra hc
      have := Nat.pow_le_pow_right (n := 2) (by omega) (show k + 1 ≤ d by omega)
      rw [Nat.pow_succ] at this; omega
    unfold Good
    rw [nv_eq h dflt k leaves hm he, val, ← g d m hd hm]
    have : 0 < 2 ^ d := by positivity
    congr 1; omega
  rw [Nat.pow_succ] at l
  have hkk : k < 2 ^ k := Nat.lt_two_pow_self
  obtain ⟨p, e1, b, f⟩ := pathsGo_good hgood k (fuel := s'.length / 2 + i) (j := i) le_rfl (by omega)
    (by omega)
  have hpl : p.length = k := by simpa using congrArg List.length b
  have hlog : Nat.log2 s'.length = k := by
    rw [Nat.log2_eq_iff (by omega), Nat.pow_succ]; omega
  refine ⟨p, ?_, b, ?_⟩
  · unfold createProof
    rw [show s'.length / 2 + i = 2 ^ k - 1 + i by omega] at e1 ⊢
    rw [e1]
    dsimp only
    rw [if_neg (by omega), hlog, hpl, Nat.sub_self, List.replicate_zero, List.append_nil]
  · unfold verifyProof
    rw [decide_eq_true_iff, ← val_zero hn, ← f]
    congr 1
    rw [val, Nat.sub_self, Nat.pow_zero, Nat.mul_one, List.drop_eq_getElem_cons hi]
    rfl

/-- C41: two different openings with the same directions that verify against one root give a
collision. -/
theorem C41_bind [DecidableEq H] (h : Hasher L H) {root x y : H} {p q : List (Path H)}
    (hd : p.map Prod.fst = q.map Prod.fst) (hp : verifyProof h root x p = true)
    (hq : verifyProof h root y q = true) (hne : x ≠ y ∨ p ≠ q) : Spec.Collision h.parent := by
  unfold verifyProof at hp hq
  rw [decide_eq_true_iff] at hp hq
  exact foldPath_collision hd hne (hp.trans hq.symm)

/-- C41: an opening of the committed root whose directions are the bits of `i` is for leaf `i`, or gives
a collision. -/
theorem C41_bind_leaf [DecidableEq H] (h : Hasher L H) (dflt : H) {k t maxSize : ℕ} (o : Sched)
    (store : List H) (leaves : List L) (hk1 : 1 ≤ k) (hk : k < 63) (ht : 1 ≤ t)
    (hn : leaves.length = 2 ^ k) (hmax : leaves.length ≤ maxSize) {i : ℕ} (hi : i < leaves.length)
    {s : List H} {root x : H} {p : List (Path H)}
    (hc : commit h dflt maxSize (2 ^ t) o store leaves = some (some (s, root)))
    (hd : p.map Prod.fst = (List.range k).map i.testBit) (hp : verifyProof h root x p = true) :
    (x = h.leaf leaves[i] ∧ createProof dflt s i = some p) ∨ Spec.Collision h.parent := by
  obtain ⟨q, e, b, v⟩ := C41_open h dflt o store leaves hk1 hk ht hn hmax hi hc
  by_cases hx : x = h.leaf leaves[i] ∧ p = q
  · exact .inl ⟨hx.1, by rw [e, hx.2]⟩
  · refine .inr (C41_bind h (hd.trans b.symm) hp v ?_)
    by_cases h1 : x = h.leaf leaves[i]
    · exact .inr fun h2 => hx ⟨h1, h2⟩
    · exact .inl h1

/-- C41: equal roots of equally many leaves mean equal leaf hashes, or give a collision. -/
theorem C41_bind_root (h : Hasher L H) (dflt : H) : ∀ (k : ℕ) (l l' : List L), l.length = 2 ^ k →
    l'.length = 2 ^ k →
    Spec.root h.leaf h.parent dflt k l = Spec.root h.leaf h.parent dflt k l' →
    l.map h.leaf = l'.map h.leaf ∨ Spec.Collision h.parent
  | 0, [x], [y], _, _, he => .inl (by simpa [Spec.root] using he)
  | k + 1, l, l', hl, hl', he => by
    rw [Nat.pow_succ] at hl hl'
    rw [Spec.root, Spec.root] at he
    have t1 : (l.take (2 ^ k)).length = 2 ^ k := by rw [List.length_take]; omega
    have t2 : (l'.take (2 ^ k)).length = 2 ^ k := by rw [List.length_take]; omega
    have d1 : (l.drop (2 ^ k)).length = 2 ^ k := by rw [List.length_drop]; omega
    have d2 : (l'.drop (2 ^ k)).length = 2 ^ k := by rw [List.length_drop]; omega
    by_cases hc : Spec.Collision h.parent
    · exact .inr hc
    · have hpair := not_imp_comm.1 (fun hne => ⟨_, _, _, _, hne, he⟩ :
        ¬ _ = _ → Spec.Collision h.parent) hc
      rw [Prod.mk.injEq] at hpair
      rcases C41_bind_root h dflt k _ _ t1 t2 hpair.1 with h1 | h1
      · rcases C41_bind_root h dflt k _ _ d1 d2 hpair.2 with h2 | h2
        · left
          rw [← List.take_append_drop (2 ^ k) l, ← List.take_append_drop (2 ^ k) l', List.map_append,
            List.map_append, h1, h2]
        · exact .inr h2
      · exact .inr h1

/-- C41 (finding): `VerifyOpeningProof` does not know the height of the tree: with a shorter proof an
inner node of the tree is accepted as a leaf. -/
theorem C41_inner_node [DecidableEq H] (h : Hasher L H) (dflt : H) (k : ℕ) (leaves : List L) :
    verifyProof h (Spec.root h.leaf h.parent dflt (k + 1) leaves)
      (Spec.root h.leaf h.parent dflt k (leaves.take (2 ^ k)))
      [(false, Spec.root h.leaf h.parent dflt k (leaves.drop (2 ^ k)))] = true := by
  simp [verifyProof, foldPath, Spec.root]

/-- C41 (finding): committing to a single leaf reads past the storage, whatever the threshold. -/
theorem C41_single_leaf (h : Hasher L H) (dflt : H) (maxSize threshold : ℕ) (o : Sched)
    (store : List H) (x : L) (hmax : 1 ≤ maxSize) (ht : 1 ≤ threshold) :
    commit h dflt maxSize threshold o store [x] = none := by
  obtain ⟨s, e, l, -⟩ := fillLeaves_good (h := h) (dflt := dflt) (leaves := [x]) (k := 0)
    (maxSize := maxSize) o (store := store) (by omega) rfl (by simpa using hmax)
  have hl : s.length = 1 := by simpa using l
  unfold commit
  rw [e]
  dsimp only
  have : buildAll h threshold o 1 s = none := by
    unfold buildAll buildTree buildLevel parentStep
    rw [if_neg (by omega)]
    match s, hl with
    | [a], _ => rfl
  rw [show [x].length = 1 from rfl, this]
  rfl

theorem setHash_length {s s' : List H} {i : ℕ} {x : H} (e : setHash s i x = some s') :
    s'.length = s.length := by
  unfold setHash at e
  split at e
  · obtain rfl := Option.some.inj e; exact List.length_set
  · cases e

theorem foldlM_length {ι : Type*} {step : List H → ι → Option (List H)}
    (hs : ∀ s x s', step s x = some s' → s'.length = s.length) : ∀ (l : List ι) {s s' : List H},
    l.foldlM step s = some s' → s'.length = s.length
  | [], s, s', e => by rw [List.foldlM_nil] at e; obtain rfl := Option.some.inj e; rfl
  | x :: l, s, s', e => by
    rw [List.foldlM_cons] at e
    cases h1 : step s x with
    | none => rw [h1] at e; cases e
    | some t => rw [h1] at e; exact (foldlM_length hs l e).trans (hs s x t h1)

theorem buildLevel_length (h : Hasher L H) {s s' : List H} {lo hi : ℕ}
    (e : buildLevel h s lo hi = some s') : s'.length = s.length := by
  refine foldlM_length (fun s x s' e => ?_) _ e
  unfold parentStep at e
  split at e
  · exact setHash_length e
  · cases e

theorem buildTree_length (h : Hasher L H) : ∀ (fuel : ℕ) {s s' : List H} {lo hi : ℕ},
    buildTree h fuel s lo hi = some s' → s'.length = s.length
  | 0, _, _, _, _, e => by cases e
  | fuel + 1, s, s', lo, hi, e => by
    unfold buildTree at e
    split at e
    · cases h1 : buildLevel h s lo hi with
      | none => rw [h1] at e; cases e
      | some t =>
        rw [h1] at e
        exact (buildTree_length h fuel e).trans (buildLevel_length h h1)
    · obtain rfl := Option.some.inj e; rfl

/-- A fold one of whose steps always fails. -/
theorem foldlM_none {ι : Type*} {step : List H → ι → Option (List H)} {n : ℕ} {x : ι}
    (hs : ∀ s x s', step s x = some s' → s'.length = s.length)
    (hx : ∀ s : List H, s.length = n → step s x = none) : ∀ (l : List ι) {s : List H},
    x ∈ l → s.length = n → l.foldlM step s = none
  | y :: l, s, hm, hl => by
    rw [List.foldlM_cons]
    cases h1 : step s y with
    | none => rfl
    | some t =>
      rcases List.mem_cons.1 hm with rfl | hm
      · rw [hx s hl] at h1; cases h1
      · exact foldlM_none hs hx l hm ((hs s y t h1).trans hl)

/-- C41 (finding): the threshold 1, which the setter accepts, makes every commitment to two leaves or
more read past the storage. -/
theorem C41_threshold_one (h : Hasher L H) (dflt : H) {k maxSize : ℕ} (o : Sched) (store : List H)
    (leaves : List L) (hk1 : 1 ≤ k) (hk : k < 63) (hn : leaves.length = 2 ^ k)
    (hmax : leaves.length ≤ maxSize) : commit h dflt maxSize 1 o store leaves = none := by
  obtain ⟨s, e, l, -⟩ := fillLeaves_good (h := h) (dflt := dflt) (maxSize := maxSize) o
    (store := store) hk hn (by omega)
  have hk2 := Nat.pow_le_pow_right (n := 2) (by omega) hk1
  unfold commit
  rw [e]
  dsimp only
  have : buildAll h 1 o leaves.length s = none := by
    unfold buildAll
    rw [if_pos (by omega), show (leaves.length + 1 - 1) / 1 = leaves.length by omega,
      foldlM_none (step := subtreeStep h leaves.length 1) (n := s.length) (x := leaves.length - 1)
        (fun s x s' e => buildTree_length h 65 e) ?_ _ ?_ rfl]
    · intro s' hs'
      unfold subtreeStep buildTree
      rw [if_pos (by omega)]
      have : buildLevel h s' (leaves.length - 1 + (leaves.length - 1) * 1)
          (leaves.length - 1 + (leaves.length - 1) * 1 + 1) = none := by
        unfold buildLevel
        rw [show ((leaves.length - 1 + (leaves.length - 1) * 1 + 1) -
          (leaves.length - 1 + (leaves.length - 1) * 1) + 1) / 2 = 1 by omega]
        have hps : parentStep h s' (leaves.length - 1 + (leaves.length - 1) * 1 + 2 * 0) = none := by
          unfold parentStep
          rw [List.getElem?_eq_none (l := s')
            (i := leaves.length - 1 + (leaves.length - 1) * 1 + 2 * 0 + 1) (by omega)]
          split
          · rename_i h1 h2; cases h2
          · rfl
        rw [show List.range 1 = [0] from rfl, List.foldlM_cons, hps]
        rfl
      rw [this]
    · rw [(o.one_perm _).mem_iff, List.mem_range]; omega
  rw [this]
  rfl

/-! ### Examples: the tree of the unit test -/

/-- The hasher of binary_merkle_tree_unittest.cc. -/
def exHasher : Hasher ℕ ℕ := ⟨id, fun a b => a + 2 * b⟩

example : commit exHasher 0 8 4 .rev [] (List.range 8) =
    some (some ([126, 18, 54, 2, 8, 14, 20, 0, 1, 2, 3, 4, 5, 6, 7], 126)) := by decide +kernel

example : commit exHasher 0 8 4 .rev [] (List.range 8) =
    commit exHasher 9 100 1024 .seq [5, 5] (List.range 8) :=
  C41_deterministic exHasher 0 9 (k := 3) (t := 2) (t' := 10) _ _ _ _ _ (by decide) (by decide)
    (by decide) (by decide) (by decide) (by decide) (by decide)

example : createProof 0 [126, 18, 54, 2, 8, 14, 20, 0, 1, 2, 3, 4, 5, 6, 7] 1 =
    some [(true, 0), (false, 8), (false, 54)] := by decide +kernel

example : verifyProof exHasher 126 1 [(true, 0), (false, 8), (false, 54)] = true := by decide +kernel

example : verifyProof exHasher 126 2 [(true, 0), (false, 8), (false, 54)] = false := by decide +kernel

example : commit exHasher 0 8 1 .seq [] [1, 2] = none := by decide +kernel

example : commit exHasher 0 8 4 .seq [] [1, 2, 3] = some none := by decide +kernel

end Tachyon.Props
