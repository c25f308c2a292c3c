import Verif.Proofs.MMCSBind
/-! C65: Merkle tree over matrices of different heights. -/
namespace Tachyon.Props
open Tachyon.MMCS

variable {F P D : Type*}

/-- C65: the layers of digests are those of the recursive definition and the root is the top one; for every
number of lanes, with and without the debug checks. -/
theorem C65_commit {o : Ops F P D} {lanes : ℕ} (ho : o.Implements lanes) {leaves : List (List (List F))}
    (hv : Valid leaves) (hl : 0 < lanes) (hl2 : lanes ≤ 2 ^ 62) {k : ℕ} (hk : IsHeight leaves k)
    (dchecks : Bool) :
    commit o lanes dchecks leaves = some (Spec.node o.flat o.hash o.compress o.dflt k leaves k 0,
      (List.range (k + 1)).map fun l =>
        (List.range (2 ^ (k - l))).map (Spec.node o.flat o.hash o.compress o.dflt k leaves l)) := by
  unfold commit
  rw [buildLayers_eq ho hv hl hl2 hk]
  dsimp only
  have : getRoot ((List.range (k + 1)).map fun l => (List.range (2 ^ (k - l))).map (nd o k leaves l)) =
      some (nd o k leaves k 0) := by
    rw [getRoot, List.range_succ, List.map_append]
    simp
  rw [this]
  rfl

/-- C65: an opening consists of row `index >> (k - ⌈log₂ rows⌉)` of every matrix and `k` siblings, and it
verifies against the root; provided those rows exist. -/
theorem C65_open [DecidableEq D] {o : Ops F P D} {lanes : ℕ} (ho : o.Implements lanes)
    {leaves : List (List (List F))} (hv : Valid leaves) (hl : 0 < lanes) (hl2 : lanes ≤ 2 ^ 62) {k : ℕ}
    (hk : IsHeight leaves k) {dchecks : Bool} {root : D} {layers : List (List D)}
    (hc : commit o lanes dchecks leaves = some (root, layers)) {index : ℕ} (hi : index < 2 ^ k)
    (hrow : ∀ m ∈ leaves, index / 2 ^ (k - Nat.clog 2 m.length) < m.length) :
    ∃ proof, createProof leaves layers index =
        some (leaves.map fun m => m.getD (index / 2 ^ (k - Nat.clog 2 m.length)) [], proof) ∧
      proof.length = k ∧
      verifyProof o root (leaves.map List.length) index
        (leaves.map fun m => m.getD (index / 2 ^ (k - Nat.clog 2 m.length)) []) proof = some true := by
  rw [C65_commit ho hv hl hl2 hk, Option.some.injEq, Prod.mk.injEq] at hc
  obtain ⟨rfl, rfl⟩ := hc
  refine ⟨_, createProof_eq hk hi hrow _, by simp, ?_⟩
  unfold verifyProof
  have := computeRoot_eq (o := o) hv hk hi hrow
  unfold openedRow at this
  rw [this]
  simp

/-- C65: two accepted openings of the same index, with rows of the same widths and proofs of the same
length that covers the height of the tree, are equal, or they give a collision. -/
theorem C65_bind [DecidableEq D] (o : Ops F P D)
    (hf : ∀ x y, (o.flat x).length = (o.flat y).length) (hinj : ∀ x y, o.flat x = o.flat y → x = y)
    {root : D} {heights : List ℕ} {index : ℕ} {opened opened' : List (List F)} {proof proof' : List D}
    (hw : opened.map List.length = opened'.map List.length) (hl : proof.length = proof'.length)
    (hk : ∀ h ∈ heights, h ≤ 2 ^ proof.length)
    (h : verifyProof o root heights index opened proof = some true)
    (h' : verifyProof o root heights index opened' proof' = some true) :
    (opened = opened' ∧ proof = proof') ∨ Spec.Collision o.hash o.compress := by
  by_cases hn : Spec.Collision o.hash o.compress
  · exact .inr hn
  · left
    unfold verifyProof at h h'
    rw [Option.map_eq_some_iff] at h h'
    obtain ⟨r, hr, e⟩ := h
    obtain ⟨r', hr', e'⟩ := h'
    obtain rfl := of_decide_eq_true e
    obtain rfl := of_decide_eq_true e'
    exact computeRoot_inj hn hf hinj hw hl (fun x hx => Nat.clog_le_of_le_pow (hk x hx)) hr hr'

/-- C65: an accepted opening of the committed root has the rows of the committed matrices, or it gives a
collision. -/
theorem C65_bind_rows [DecidableEq D] {o : Ops F P D} {lanes : ℕ} (ho : o.Implements lanes)
    (hinj : ∀ x y, o.flat x = o.flat y → x = y)
    {leaves : List (List (List F))} (hv : Valid leaves) (hl : 0 < lanes) (hl2 : lanes ≤ 2 ^ 62) {k : ℕ}
    (hk : IsHeight leaves k) {dchecks : Bool} {root : D} {layers : List (List D)}
    (hc : commit o lanes dchecks leaves = some (root, layers)) {index : ℕ} (hi : index < 2 ^ k)
    (hrow : ∀ m ∈ leaves, index / 2 ^ (k - Nat.clog 2 m.length) < m.length)
    {opened : List (List F)} {proof : List D} (hp : proof.length = k)
    (hw : opened.map List.length =
      leaves.map fun m => (m.getD (index / 2 ^ (k - Nat.clog 2 m.length)) []).length)
    (h : verifyProof o root (leaves.map List.length) index opened proof = some true) :
    (opened = leaves.map fun m => m.getD (index / 2 ^ (k - Nat.clog 2 m.length)) []) ∧
        createProof leaves layers index = some (opened, proof) ∨
      Spec.Collision o.hash o.compress := by
  obtain ⟨p, e, hpl, hok⟩ := C65_open ho hv hl hl2 hk hc hi hrow
  rcases C65_bind o ho.flat_length hinj (by rw [hw, List.map_map]; rfl) (hp.trans hpl.symm) (by
    intro x hx
    obtain ⟨m, hm, rfl⟩ := List.mem_map.1 hx
    rw [hp, ← Nat.clog_le_iff_le_pow (by omega)]
    exact hk.2 m hm) h hok with ⟨h1, h2⟩ | hcol
  · exact .inl ⟨h1, by rw [h1, h2]; exact e⟩
  · exact .inr hcol

/-- C65: a different number of opened rows and dimensions fails a `CHECK`. -/
theorem C65_verify_lengths [DecidableEq D] (o : Ops F P D) (root : D) {heights : List ℕ} (index : ℕ)
    {opened : List (List F)} (proof : List D) (h : heights.length ≠ opened.length) :
    verifyProof o root heights index opened proof = none := by
  unfold verifyProof computeRoot
  rw [if_pos h]
  rfl

/-- C65: debug builds refuse matrices whose numbers of rows differ but round up to the same power. -/
theorem C65_dcheck (o : Ops F P D) (lanes : ℕ) {a b : List (List F)} (hab : b.length < a.length)
    (hc : Nat.clog 2 a.length = Nat.clog 2 b.length) :
    commit o lanes true [a, b] = none ∧ commit o lanes true [b, a] = none := by
  have h1 : [a, b].insertionSort taller = [a, b] := by
    rw [List.insertionSort_cons, List.insertionSort_cons, List.insertionSort_nil, List.orderedInsert_nil,
      List.orderedInsert_cons, if_pos (show taller a b from hab.le)]
  have h2 : [b, a].insertionSort taller = [a, b] := by
    rw [List.insertionSort_cons, List.insertionSort_cons, List.insertionSort_nil, List.orderedInsert_nil,
      List.orderedInsert_cons, if_neg (show ¬ taller b a from by unfold taller; omega),
      List.orderedInsert_nil]
  have h3 : heightsOk [a, b] = false := by
    unfold heightsOk
    rw [bitCeil_eq, bitCeil_eq, hc, Bool.and_eq_false_iff]
    left
    rw [decide_eq_false_iff_not]
    omega
  constructor <;> unfold commit buildLayers
  · rw [h1]; dsimp only; rw [h3]; rfl
  · rw [h2]; dsimp only; rw [h3]; rfl

/-! ### Findings and examples, with the free hash on pairs of numbers -/

/-- Digests as terms: no two different inputs collide. -/
inductive ExD
  | dflt
  | leaf (l : List ℕ)
  | node (a b : ExD)
deriving DecidableEq

/-- Two lanes; elements are numbers with one coefficient. -/
def exMM : Ops ℕ ℕ ExD where
  flat x := [x]
  hash := .leaf
  compress := .node
  packedHash rs := rs.map .leaf
  packedCompress := List.zipWith .node
  dflt := .dflt

theorem exMM_implements : exMM.Implements 2 :=
  ⟨fun _ _ => rfl, fun _ _ _ => rfl, fun _ _ _ _ => rfl⟩

theorem exMM_no_collision : ¬ Spec.Collision exMM.hash exMM.compress := by
  rintro (⟨a, b, hab, h⟩ | ⟨a, b, c, d, hab, h⟩)
  · exact hab (ExD.leaf.inj h)
  · obtain ⟨rfl, rfl⟩ := ExD.node.inj h
    exact hab rfl

/-- Three matrices: three rows of width two, two rows of width one, three rows of width one. -/
def exLeaves : List (List (List ℕ)) := [[[1, 2], [3, 4], [5, 6]], [[7], [8]], [[9], [10], [11]]]

example : IsHeight exLeaves 2 := by
  constructor
  · exact ⟨[[1, 2], [3, 4], [5, 6]], by decide, by decide +kernel⟩
  · decide +kernel

example : Valid exLeaves := ⟨by decide, by decide, by decide, by decide +kernel, by decide +kernel⟩

example : (commit exMM 2 true exLeaves).map Prod.fst =
    some (.node (.node (.node (.leaf [1, 2, 9]) (.leaf [3, 4, 10])) (.leaf [7]))
      (.node (.node (.leaf [5, 6, 11]) .dflt) (.leaf [8]))) := by decide +kernel

example : (createProof exLeaves (((commit exMM 2 true exLeaves).map Prod.snd).getD []) 2) =
    some ([[5, 6], [8], [11]],
      [.dflt, .node (.node (.leaf [1, 2, 9]) (.leaf [3, 4, 10])) (.leaf [7])]) := by decide +kernel

example : verifyProof exMM (.node (.node (.node (.leaf [1, 2, 9]) (.leaf [3, 4, 10])) (.leaf [7]))
      (.node (.node (.leaf [5, 6, 11]) .dflt) (.leaf [8]))) [3, 2, 3] 2 [[5, 6], [8], [11]]
      [.dflt, .node (.node (.leaf [1, 2, 9]) (.leaf [3, 4, 10])) (.leaf [7])] = some true := by
  decide +kernel

/-- C65 (finding): the widths in the dimensions are not compared with the opened rows, so values can move
between matrices of the same height: the opening of the example is also accepted with rows `[5]` and
`[6, 11]`. -/
theorem C65_widths_unchecked : verifyProof exMM
    (.node (.node (.node (.leaf [1, 2, 9]) (.leaf [3, 4, 10])) (.leaf [7]))
      (.node (.node (.leaf [5, 6, 11]) .dflt) (.leaf [8]))) [3, 2, 3] 2 [[5], [8], [6, 11]]
      [.dflt, .node (.node (.leaf [1, 2, 9]) (.leaf [3, 4, 10])) (.leaf [7])] = some true := by
  decide +kernel

/-- C65 (finding): the length of the proof is not compared with the height. A shorter proof is accepted for
the root of a subtree, and the rows of the smaller matrices are then never looked at: any value is accepted
for the second matrix here. -/
theorem C65_length_unchecked (x : List ℕ) :
    verifyProof exMM (.leaf [1, 2]) [4, 1] 0 [[1, 2], x] [] = some true := by
  simp only [verifyProof, computeRoot, exMM]
  simp [List.zipIdx, List.insertionSort, higher, openedValues, verifyGo, List.takeWhile, bitCeil]

/-- C65 (finding): a valid row index of the tallest matrix can lead past the rows of a smaller matrix:
with eight and three rows, opening index 7 reads row 3 of three. -/
theorem C65_open_out_of_bounds :
    (createProof [[[0], [1], [2], [3], [4], [5], [6], [7]], [[8], [9], [10]]]
      (((commit exMM 2 true [[[0], [1], [2], [3], [4], [5], [6], [7]], [[8], [9], [10]]]).map
        Prod.snd).getD []) 7) = none := by decide +kernel

/-- C65 (finding): without the debug check, a matrix whose number of rows differs from that of the tallest
one but rounds up to the same power is left out of the commitment, and so is everything below it: the root
does not depend on the matrices with three rows and one row. -/
theorem C65_release_ignores :
    commit exMM 2 false [[[0], [1], [2], [3]], [[4], [5], [6]], [[7]]] =
      commit exMM 2 false [[[0], [1], [2], [3]], [[14], [15], [16]], [[17]]] ∧
    commit exMM 2 false [[[0], [1], [2], [3]], [[4], [5], [6]], [[7]]] ≠ none := by decide +kernel

end Tachyon.Props
