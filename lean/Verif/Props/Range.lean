import Verif.Model.Range
/-! C105: ranges of integers. -/
namespace Tachyon.Props
open Tachyon.Range

/-- The types of integers: signed ones in two's complement and unsigned ones, of at most 64 bits. -/
structure IntTy (t : Ty) : Prop where
  bits : ∃ w, 1 ≤ w ∧ w ≤ 64 ∧ if t.signed then t.hi = 2 ^ (w - 1) - 1 ∧ t.lo = -2 ^ (w - 1) else t.hi = 2 ^ w - 1 ∧ t.lo = 0

theorem IntTy.limits {t : Ty} (h : IntTy t) : 0 ≤ t.hi ∧ t.hi < 2 ^ 64 ∧ t.lo ≤ 0 ∧ (t.signed = false → t.lo = 0) := by
  obtain ⟨w, h1, h2, h⟩ := h.bits
  have hp : ∀ n, n ≤ 64 → (1 : Int) ≤ 2 ^ n ∧ (2 : Int) ^ n ≤ 2 ^ 64 := fun n hn => by
    have a := Nat.pow_le_pow_right (n := 2) (by omega) hn
    have b := Nat.one_le_two_pow (n := n)
    have e : ((2 ^ n : Nat) : Int) = 2 ^ n := by simp
    have e' : ((2 ^ 64 : Nat) : Int) = 2 ^ 64 := by simp
    omega
  have a := hp w h2
  have b := hp (w - 1) (by omega)
  cases hs : t.signed with
  | true => rw [hs, if_pos rfl] at h; refine ⟨by omega, by omega, by omega, by simp⟩
  | false => rw [hs, if_neg (by decide)] at h; refine ⟨by omega, by omega, by omega, fun _ => h.2⟩

/-- `int`, `uint32_t` and `size_t`. -/
def int32Ty : Ty := ⟨-2 ^ 31, 2 ^ 31 - 1, true⟩
def uint32Ty : Ty := ⟨0, 2 ^ 32 - 1, false⟩
def uint64Ty : Ty := ⟨0, 2 ^ 64 - 1, false⟩

example : IntTy int32Ty ∧ IntTy uint32Ty ∧ IntTy uint64Ty := ⟨⟨32, by decide⟩, ⟨32, by decide⟩, ⟨64, by decide⟩⟩

theorem wrap_in {t : Ty} {x : Int} (h : t.lo ≤ x) (h' : x ≤ t.hi) : t.wrap x = some x := by rw [Ty.wrap, if_pos ⟨h, h'⟩]

/-- A loop between two values in order. -/
theorem visit_spec (t : Ty) : ∀ (n : Nat) (a b : Int), t.lo ≤ a → b ≤ t.hi → a ≤ b → b - a ≤ n →
    ∃ l, visit t n a b = some l ∧ l.Pairwise (· < ·) ∧ (l.length : Int) = b - a ∧ ∀ v, v ∈ l ↔ a ≤ v ∧ v < b := by
  intro n
  induction n with
  | zero =>
    intro a b h1 h2 h3 h4
    have : a = b := by simp at h4; omega
    exact ⟨[], by rw [visit, if_pos this], List.Pairwise.nil, by simp; omega, fun v => by simp; omega⟩
  | succ n ih =>
    intro a b h1 h2 h3 h4
    by_cases he : a = b
    · exact ⟨[], by rw [visit, if_pos he], List.Pairwise.nil, by simp; omega, fun v => by simp; omega⟩
    · obtain ⟨l, e1, e2, e3, e4⟩ := ih (a + 1) b (by omega) h2 (by omega) (by push_cast at h4; omega)
      refine ⟨a :: l, ?_, List.pairwise_cons.2 ⟨fun v hv => by have := (e4 v).1 hv; omega, e2⟩, by rw [List.length_cons]; push_cast; omega, fun v => ?_⟩
      · rw [visit, if_neg he, wrap_in (by omega) (by omega), Option.bind_some, e1, Option.map_some]
      · rw [List.mem_cons, e4]
        omega

theorem contains_iff (si ei : Bool) (a b v : Int) :
    (Range.mk si ei a b).contains v = true ↔ (if si then a ≤ v else a < v) ∧ (if ei then v ≤ b else v < b) := by
  cases si <;> cases ei <;> simp [Range.contains]

/-- The ranges for which loops are right: the start is not behind the end (for ranges without both, before it), and an end that is included is not
the largest value. -/
def Range.Proper (t : Ty) (r : Range) : Prop :=
  t.lo ≤ r.lower ∧ r.upper ≤ t.hi ∧ (if r.startIncl || r.endIncl then r.lower ≤ r.upper else r.lower < r.upper) ∧
    (r.endIncl = true → r.upper < t.hi)

/-- C105: a loop over a proper range ends, and visits every value that is in the range once, in increasing order, and no others; `GetSize` is
their number unless the difference overflows, which it does not for unsigned types. -/
theorem C105_elements {t : Ty} (ht : IntTy t) (r : Range) (h : Range.Proper t r) (n : Nat) (hn : r.upper - r.lower < n) :
    ∃ l, r.elements t n = some l ∧ l.Pairwise (· < ·) ∧ (∀ v, v ∈ l ↔ r.contains v = true) ∧
      (t.signed = false ∨ r.upper - r.lower < t.hi → r.size t = some l.length) := by
  obtain ⟨l1, l2, l3, l4⟩ := ht.limits
  obtain ⟨si, ei, a, b⟩ := r
  obtain ⟨h1, h2, h3, h4⟩ := h
  simp only at h1 h2 h3 h4 hn
  have key : ∀ x y : Int, Range.first t ⟨si, ei, a, b⟩ = some x → Range.last t ⟨si, ei, a, b⟩ = some y → t.lo ≤ x → y ≤ t.hi → x ≤ y →
      y - x ≤ n → (∀ v, (x ≤ v ∧ v < y) ↔ Range.contains ⟨si, ei, a, b⟩ v = true) →
      (t.signed = false ∨ b - a < t.hi → Range.size t ⟨si, ei, a, b⟩ = some (y - x)) →
      ∃ l, Range.elements t n ⟨si, ei, a, b⟩ = some l ∧ l.Pairwise (· < ·) ∧ (∀ v, v ∈ l ↔ Range.contains ⟨si, ei, a, b⟩ v = true) ∧
        (t.signed = false ∨ b - a < t.hi → Range.size t ⟨si, ei, a, b⟩ = some (l.length : Int)) := by
    intro x y e1 e2 g1 g2 g3 g4 g5 g6
    obtain ⟨l, f1, f2, f3, f4⟩ := visit_spec t n x y g1 g2 g3 g4
    exact ⟨l, by rw [Range.elements, e1, Option.bind_some, e2, Option.bind_some, f1], f2, fun v => (f4 v).trans (g5 v), fun hd => by
      rw [g6 hd, f3]⟩
  have hd : t.signed = false ∨ b - a < t.hi → b - a ≤ t.hi := by
    rintro (hs | hs)
    · have := l4 hs; omega
    · omega
  cases si <;> cases ei
  · simp only [Bool.or_self, Bool.false_eq_true, if_false] at h3
    refine key (a + 1) b ?_ rfl (by omega) h2 (by omega) (by omega) (fun v => by simp [Range.contains]; omega) fun hs => ?_
    · simp only [Range.first, Bool.false_eq_true, if_false]
      exact wrap_in (by omega) (by omega)
    · have := hd hs
      rw [Range.size, if_neg (by simp [Range.isEmpty]; omega)]
      simp only
      rw [wrap_in (by omega) (by omega), Option.bind_some]
      simp only [Bool.and_self, Bool.or_self, Bool.false_eq_true, if_false]
      rw [wrap_in (by omega) (by omega), Option.map_some, Int.emod_eq_of_lt (by omega) (by omega)]
      congr 1
      omega
  · simp only [Bool.or_true, if_true] at h3
    have h4 := h4 rfl
    refine key (a + 1) (b + 1) ?_ ?_ (by omega) (by omega) (by omega) (by omega) (fun v => by simp [Range.contains]; omega) fun hs => ?_
    · simp only [Range.first, Bool.false_eq_true, if_false]
      exact wrap_in (by omega) (by omega)
    · simp only [Range.last, if_true]
      exact wrap_in (by omega) (by omega)
    · have := hd hs
      rw [Range.size]
      by_cases e : a = b
      · rw [if_pos (by simp [Range.isEmpty]; omega)]
        congr 1
        omega
      · rw [if_neg (by simp [Range.isEmpty]; omega)]
        simp only
        rw [wrap_in (by omega) (by omega), Option.bind_some]
        simp only [Bool.false_and, Bool.or_true, Bool.false_eq_true, if_false, if_true]
        rw [Int.emod_eq_of_lt (by omega) (by omega)]
        congr 1
        omega
  · simp only [Bool.true_or, if_true] at h3
    refine key a b rfl rfl h1 h2 h3 (by omega) (fun v => by simp [Range.contains]) fun hs => ?_
    have := hd hs
    rw [Range.size]
    by_cases e : a = b
    · rw [if_pos (by simp [Range.isEmpty]; omega)]
      congr 1
      omega
    · rw [if_neg (by simp [Range.isEmpty]; omega)]
      simp only
      rw [wrap_in (by omega) (by omega), Option.bind_some]
      simp only [Bool.and_false, Bool.true_or, Bool.false_eq_true, if_false, if_true]
      rw [Int.emod_eq_of_lt (by omega) (by omega)]
  · simp only [Bool.true_or, if_true] at h3
    have h4 := h4 rfl
    refine key a (b + 1) rfl ?_ h1 (by omega) (by omega) (by omega) (fun v => by simp [Range.contains]; omega) fun hs => ?_
    · simp only [Range.last, if_true]
      exact wrap_in (by omega) (by omega)
    · have := hd hs
      have h5 : b - a < t.hi := by
        rcases hs with hs | hs
        · have := l4 hs; omega
        · exact hs
      rw [Range.size, if_neg (by simp [Range.isEmpty]; omega)]
      simp only
      rw [wrap_in (by omega) (by omega), Option.bind_some]
      simp only [Bool.and_self, if_true]
      rw [wrap_in (by omega) (by omega), Option.map_some, Int.emod_eq_of_lt (by omega) (by omega)]
      congr 1
      omega

/-- C105: what `IsEmpty` says: then the range contains nothing; and it says so exactly then, for ranges that include an end. -/
theorem C105_isEmpty (r : Range) : (r.isEmpty = true → ∀ v, r.contains v = false) ∧
    ((r.startIncl || r.endIncl) = true → (∀ v, r.contains v = false) → r.isEmpty = true) := by
  obtain ⟨si, ei, a, b⟩ := r
  constructor
  · intro h v
    cases si <;> cases ei <;> simp [Range.isEmpty] at h <;> simp [Range.contains] <;> omega
  · intro h h'
    cases si <;> cases ei
    · simp at h
    · have := h' b
      simp [Range.contains] at this
      simp [Range.isEmpty]
      omega
    · have := h' a
      simp [Range.contains] at this
      simp [Range.isEmpty]
      omega
    · have := h' a
      simp [Range.contains] at this
      simp [Range.isEmpty]
      omega

/-- C105: an intersection contains what both ranges contain. -/
theorem C105_intersect (r s : Range) (h : r.startIncl = s.startIncl) (h' : r.endIncl = s.endIncl) (v : Int) :
    (r.intersect s).contains v = true ↔ r.contains v = true ∧ s.contains v = true := by
  obtain ⟨si, ei, a, b⟩ := r
  obtain ⟨si', ei', a', b'⟩ := s
  simp only at h h'
  subst h h'
  show Range.contains ⟨si, ei, max a a', min b b'⟩ v = true ↔ _
  cases si <;> cases ei <;> simp only [contains_iff] <;> simp <;> omega

/-- C105: finding: a range without both ends that contains nothing is not empty for `IsEmpty`. -/
theorem C105_open_not_empty (a : Int) : (Range.mk false false a (a + 1)).isEmpty = false ∧ ∀ v, (Range.mk false false a (a + 1)).contains v = false :=
  ⟨by simp [Range.isEmpty]; omega, fun v => by simp [Range.contains]; omega⟩

/-- C105: finding: a loop does not stop at once where the start is behind the end (or, for ranges without both, at it), though such a range
contains nothing; for signed types it overflows. -/
theorem C105_reversed (t : Ty) (r : Range) (hl : t.lo ≤ r.lower ∧ r.lower < t.hi) (hu : t.lo ≤ r.upper ∧ r.upper < t.hi)
    (h : if r.startIncl && r.endIncl then r.upper + 1 < r.lower else if r.startIncl || r.endIncl then r.upper < r.lower else r.upper ≤ r.lower)
    (n : Nat) : (∀ v, r.contains v = false) ∧ r.elements t n ≠ some [] ∧ (t.signed = true → r.elements t n = none) := by
  obtain ⟨si, ei, a, b⟩ := r
  simp only at hl hu h
  have hvisit : ∀ (n : Nat) (x y : Int), t.lo ≤ x → x ≤ t.hi → y < x → visit t n x y ≠ some [] ∧ (t.signed = true → visit t n x y = none) := by
    intro n
    induction n with
    | zero =>
      intro x y h1 h2 h3
      rw [visit, if_neg (by omega)]
      exact ⟨by simp, fun _ => rfl⟩
    | succ n ih =>
      intro x y h1 h2 h3
      rw [visit, if_neg (by omega)]
      constructor
      · intro e
        obtain ⟨z, -, e⟩ := Option.bind_eq_some_iff.1 e
        obtain ⟨w, -, e⟩ := Option.map_eq_some_iff.1 e
        simp at e
      · intro hs
        by_cases hx : x = t.hi
        · rw [Ty.wrap, if_neg (by omega), if_pos hs]
          rfl
        · rw [wrap_in (by omega) (by omega), Option.bind_some, (ih (x + 1) y (by omega) (by omega) (by omega)).2 hs]
          rfl
  have key : ∀ x y : Int, Range.first t ⟨si, ei, a, b⟩ = some x → Range.last t ⟨si, ei, a, b⟩ = some y → t.lo ≤ x → x ≤ t.hi → y < x →
      Range.elements t n ⟨si, ei, a, b⟩ ≠ some [] ∧ (t.signed = true → Range.elements t n ⟨si, ei, a, b⟩ = none) := by
    intro x y e1 e2 h1 h2 h3
    rw [Range.elements, e1, Option.bind_some, e2, Option.bind_some]
    exact hvisit n x y h1 h2 h3
  have hfirst : Range.first t ⟨si, ei, a, b⟩ = some (if si then a else a + 1) := by
    cases si <;> simp [Range.first]
    exact wrap_in (by omega) (by omega)
  have hlast : Range.last t ⟨si, ei, a, b⟩ = some (if ei then b + 1 else b) := by
    cases ei <;> simp [Range.last]
    exact wrap_in (by omega) (by omega)
  refine ⟨fun v => ?_, key _ _ hfirst hlast ?_ ?_ ?_⟩ <;> cases si <;> cases ei <;> simp [Range.contains] at h ⊢ <;> omega

/-- C105: finding: an end that is included and is the largest value overflows: for signed types there is no loop; for unsigned types a loop over
all values visits none of them, and `GetSize` is zero. -/
theorem C105_largest {t : Ty} (ht : IntTy t) (n : Nat) (si : Bool) (a : Int) :
    (t.signed = true → Range.elements t n ⟨si, true, a, t.hi⟩ = none) ∧
    (t.signed = false → (all t true true).elements t n = some [] ∧ (all t true true).size t = some 0 ∧
      ∀ v, t.lo ≤ v → v ≤ t.hi → (all t true true).contains v = true) := by
  obtain ⟨l1, l2, l3, l4⟩ := ht.limits
  have hw : t.signed = false → t.wrap (t.hi + 1) = some 0 := fun hs => by
    rw [Ty.wrap, if_neg (by omega), hs, if_neg (by decide), Int.emod_self]
  constructor
  · intro hs
    have : Range.last t ⟨si, true, a, t.hi⟩ = none := by
      simp only [Range.last, if_true]
      rw [Ty.wrap, if_neg (by omega), if_pos hs]
    rw [Range.elements, this]
    cases Range.first t ⟨si, true, a, t.hi⟩ <;> rfl
  · intro hs
    have h0 := l4 hs
    refine ⟨?_, ?_, fun v h1 h2 => (contains_iff true true t.lo t.hi v).2 ⟨h1, h2⟩⟩
    · simp only [Range.elements, Range.first, Range.last, all, if_true, Option.bind_some]
      rw [hw hs, Option.bind_some, h0]
      cases n <;> simp [visit]
    · rw [Range.size, if_neg (by simp [Range.isEmpty, all]; omega)]
      simp only [all, Bool.and_self, if_true]
      rw [h0, Int.sub_zero, wrap_in (by omega) (by omega), Option.bind_some, hw hs]
      rfl

/-- C105: finding: without an end that is included, `All` and `From` do not contain the largest value; with it they contain everything (from the start
on), and so does `Until` below its end. -/
theorem C105_limits (t : Ty) (si ei : Bool) (a v : Int) (h : t.lo ≤ v ∧ v ≤ t.hi) :
    ((starting t true ei a).contains v = true ↔ a ≤ v ∧ (ei = true ∨ v ≠ t.hi)) ∧
    ((all t true ei).contains v = true ↔ ei = true ∨ v ≠ t.hi) ∧
    ((ending t true ei a).contains v = true ↔ v < a ∨ ei = true ∧ v = a) ∧
    ((all t si false).contains t.hi = false) := by
  have e1 := contains_iff true ei a t.hi v
  have e2 := contains_iff true ei t.lo t.hi v
  have e3 := contains_iff true ei t.lo a v
  have e4 := contains_iff si false t.lo t.hi t.hi
  refine ⟨e1.trans ?_, e2.trans ?_, e3.trans ?_, Bool.eq_false_iff.2 fun hc => ?_⟩
  · cases ei <;> simp <;> omega
  · cases ei <;> simp <;> omega
  · cases ei <;> simp <;> omega
  · have := (e4.1 hc).2
    simp at this

example : (Range.mk true false 3 6).elements int32Ty 10 = some [3, 4, 5] ∧ (Range.mk false true 3 6).elements int32Ty 10 = some [4, 5, 6] ∧
    (Range.mk false false 3 6).elements int32Ty 10 = some [4, 5] ∧ (Range.mk true true (-1) 1).elements int32Ty 10 = some [-1, 0, 1] ∧
    (Range.mk true true (-1) 1).size int32Ty = some 3 := by decide

example : Range.Proper uint32Ty ⟨true, false, 3, 6⟩ ∧ ¬ Range.Proper uint32Ty ⟨true, true, 3, 2 ^ 32 - 1⟩ := by
  constructor
  · refine ⟨by decide, by decide, by decide, by decide⟩
  · rintro ⟨-, -, -, h⟩
    exact absurd (h rfl) (by decide)

end Tachyon.Props
