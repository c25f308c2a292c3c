import Verif.Model.ExampleCircuits
import Mathlib.Data.Nat.Fib.Basic
import Mathlib.Tactic.Ring
import Mathlib.Tactic.LinearCombination
/-! Lemmas for the example circuits. -/
namespace Tachyon.Examples

variable {F : Type} [Field F] [DecidableEq F]

/-- The value of what is copied, for values of the advice and the instances. -/
def Ref.val (val : ℕ → ℕ → ℕ → F) (inst : ℕ → ℕ → F) : Ref F → F
  | .cell r c o => val r c o
  | .inst c r => inst c r
  | .const c => c

/-- Values satisfy a circuit: in every row all gates vanish, with one for the selectors that are enabled there and zero for the others, and what
is copied is equal. -/
def Satisfied (gates : (ℕ → F) → (ℕ → ℕ → F) → List F) (l : Layout F) (val : ℕ → ℕ → ℕ → F) (inst : ℕ → ℕ → F) : Prop :=
  (∀ r o, ∀ g ∈ gates (fun s => if (s, r, o) ∈ l.enabled then 1 else 0) (fun c k => val r c (o + k)), g = 0) ∧
    ∀ p ∈ l.copies, p.1.val val inst = p.2.val val inst

/-- The sequence from two values on. -/
def fibFrom (x y : F) : ℕ → F
  | 0 => y
  | n + 1 => fibFrom y (x + y) n

theorem fibFrom_eq (n : ℕ) : ∀ x y : F, fibFrom x y n = (Nat.fib n : F) * x + (Nat.fib (n + 1) : F) * y := by
  induction n with
  | zero => intro x y; simp [fibFrom]
  | succ n ih =>
    intro x y
    rw [fibFrom, ih, Nat.fib_add_two (n := n), Nat.cast_add]
    ring

/-! ### The first circuit -/

theorem fib1Loop_mono (n : ℕ) : ∀ (l : Layout F) (b c : Cell F),
    (∀ e ∈ l.enabled, e ∈ (fib1Loop n l b c).2.enabled) ∧ ∀ p ∈ l.copies, p ∈ (fib1Loop n l b c).2.copies := by
  induction n with
  | zero => intro l b c; exact ⟨fun _ h => h, fun _ h => h⟩
  | succ n ih =>
    intro l b c
    rw [fib1Loop]
    obtain ⟨h1, h2⟩ := ih (fib1Row l b c).2 c (fib1Row l b c).1
    exact ⟨fun e he => h1 e (by
      simp only [fib1Row, Layout.copyAdvice, Layout.copy, Layout.assign, Layout.enable, Layout.region, List.mem_append]; exact .inl he),
      fun p hp => h2 p (by
      simp only [fib1Row, Layout.copyAdvice, Layout.copy, Layout.assign, Layout.enable, Layout.region, List.mem_append]; exact .inl (.inl hp))⟩

theorem fib1Loop_sound (val : ℕ → ℕ → ℕ → F) (inst : ℕ → ℕ → F) (n : ℕ) : ∀ (l : Layout F) (b c : Cell F),
    (∀ e ∈ (fib1Loop n l b c).2.enabled, val e.2.1 0 e.2.2 + val e.2.1 1 e.2.2 = val e.2.1 2 e.2.2) →
    (∀ p ∈ (fib1Loop n l b c).2.copies, p.1.val val inst = p.2.val val inst) →
    (fib1Loop n l b c).1.ref.val val inst = fibFrom (b.ref.val val inst) (c.ref.val val inst) n := by
  induction n with
  | zero => intro l b c _ _; rfl
  | succ n ih =>
    intro l b c h1 h2
    rw [fib1Loop] at h1 h2 ⊢
    rw [ih _ _ _ h1 h2, fibFrom]
    obtain ⟨m1, m2⟩ := fib1Loop_mono n (fib1Row l b c).2 c (fib1Row l b c).1
    have g := h1 _ (m1 (0, l.regions, 0) (by
      simp [fib1Row, Layout.copyAdvice, Layout.copy, Layout.assign, Layout.enable, Layout.region]))
    have ca := h2 _ (m2 (.cell l.regions 0 0, b.ref) (by
      simp [fib1Row, Layout.copyAdvice, Layout.copy, Layout.assign, Layout.enable, Layout.region, Cell.ref]))
    have cb := h2 _ (m2 (.cell l.regions 1 0, c.ref) (by
      simp [fib1Row, Layout.copyAdvice, Layout.copy, Layout.assign, Layout.enable, Layout.region, Cell.ref]))
    simp only [Ref.val] at g ca cb
    have : (fib1Row l b c).1.ref.val val inst = val l.regions 2 0 := rfl
    rw [this, ← g, ca, cb]
    rfl

/-- What is copied is in one of the first regions. -/
def Ref.below (n : ℕ) : Ref F → Prop
  | .cell r _ _ => r < n
  | _ => True

theorem Ref.val_congr {n : ℕ} {v w : ℕ → ℕ → ℕ → F} (inst : ℕ → ℕ → F) (h : ∀ r c o, r < n → v r c o = w r c o) (x : Ref F) (hx : x.below n) :
    x.val v inst = x.val w inst := by
  cases x with
  | cell r c o => exact h r c o hx
  | inst c r => rfl
  | const c => rfl

theorem Ref.below_mono {n m : ℕ} (h : n ≤ m) (x : Ref F) (hx : x.below n) : x.below m := by
  cases x with
  | cell r c o => exact Nat.lt_of_lt_of_le hx h
  | inst c r => trivial
  | const c => trivial

/-- A layout whose own advice satisfies a relation at the selectors that are enabled, and its copies. -/
structure Good (P : (ℕ → ℕ → F) → Prop) (inst : ℕ → ℕ → F) (l : Layout F) : Prop where
  below : ∀ e ∈ l.enabled, e.2.1 < l.regions
  gate : ∀ e ∈ l.enabled, P fun c k => l.advice e.2.1 c (e.2.2 + k)
  cells : ∀ p ∈ l.copies, p.1.below l.regions ∧ p.2.below l.regions
  copies : ∀ p ∈ l.copies, p.1.val l.advice inst = p.2.val l.advice inst

/-- A cell of the layout. -/
def Cell.On (l : Layout F) (x : Cell F) : Prop := x.region < l.regions ∧ l.advice x.region x.col x.offset = x.value

/-- A new region with advice of its own, selectors and copies. -/
theorem Good.extend {P : (ℕ → ℕ → F) → Prop} {inst : ℕ → ℕ → F} {l m : Layout F} (h : Good P inst l) (hr : m.regions = l.regions + 1)
    (ha : ∀ r c o, r < l.regions → m.advice r c o = l.advice r c o) {es : List (ℕ × ℕ × ℕ)} (he : m.enabled = l.enabled ++ es)
    (hes : ∀ e ∈ es, e.2.1 = l.regions ∧ P fun c k => m.advice e.2.1 c (e.2.2 + k)) {ps : List (Ref F × Ref F)} (hp : m.copies = l.copies ++ ps)
    (hps : ∀ p ∈ ps, p.1.below m.regions ∧ p.2.below m.regions ∧ p.1.val m.advice inst = p.2.val m.advice inst) : Good P inst m where
  below e hm := by
    rw [he, List.mem_append] at hm
    rcases hm with hm | hm
    · have := h.below e hm; omega
    · have := (hes e hm).1; omega
  gate e hm := by
    rw [he, List.mem_append] at hm
    rcases hm with hm | hm
    · have h1 := h.gate e hm
      have h2 : (fun c k => m.advice e.2.1 c (e.2.2 + k)) = fun c k => l.advice e.2.1 c (e.2.2 + k) := by
        funext c k; exact ha _ _ _ (h.below e hm)
      rw [h2]; exact h1
    · exact (hes e hm).2
  cells p hm := by
    rw [hp, List.mem_append] at hm
    rcases hm with hm | hm
    · have := h.cells p hm
      exact ⟨Ref.below_mono (by omega) _ this.1, Ref.below_mono (by omega) _ this.2⟩
    · exact ⟨(hps p hm).1, (hps p hm).2.1⟩
  copies p hm := by
    rw [hp, List.mem_append] at hm
    rcases hm with hm | hm
    · have h1 := h.cells p hm
      rw [Ref.val_congr inst ha _ h1.1, Ref.val_congr inst ha _ h1.2]
      exact h.copies p hm
    · exact (hps p hm).2.2

theorem Cell.On.extend {l m : Layout F} {x : Cell F} (h : x.On l) (hr : m.regions = l.regions + 1)
    (ha : ∀ r c o, r < l.regions → m.advice r c o = l.advice r c o) : x.On m :=
  ⟨by have := h.1; omega, by rw [ha _ _ _ h.1]; exact h.2⟩

theorem Good.new (P : (ℕ → ℕ → F) → Prop) (inst : ℕ → ℕ → F) : Good P inst (Layout.new : Layout F) :=
  ⟨by simp [Layout.new], by simp [Layout.new], by simp [Layout.new], by simp [Layout.new]⟩

/-- The relation of the first circuit. -/
def Add1 (q : ℕ → ℕ → F) : Prop := q 0 0 + q 1 0 = q 2 0

theorem fib1Row_good {inst : ℕ → ℕ → F} {l : Layout F} (h : Good Add1 inst l) {b c : Cell F} (hb : b.On l) (hc : c.On l) :
    Good Add1 inst (fib1Row l b c).2 ∧ c.On (fib1Row l b c).2 ∧ (fib1Row l b c).1.On (fib1Row l b c).2 ∧
      (fib1Row l b c).1.value = b.value + c.value := by
  have ha : ∀ r k o, r < l.regions → (fib1Row l b c).2.advice r k o = l.advice r k o := by
    intro r k o hr
    have : r ≠ l.regions := by omega
    simp [fib1Row, Layout.copyAdvice, Layout.copy, Layout.assign, Layout.enable, Layout.region, this]
  have hr : (fib1Row l b c).2.regions = l.regions + 1 := rfl
  have v0 : (fib1Row l b c).2.advice l.regions 0 0 = b.value := by
    simp [fib1Row, Layout.copyAdvice, Layout.copy, Layout.assign, Layout.enable, Layout.region]
  have v1 : (fib1Row l b c).2.advice l.regions 1 0 = c.value := by
    simp [fib1Row, Layout.copyAdvice, Layout.copy, Layout.assign, Layout.enable, Layout.region]
  have v2 : (fib1Row l b c).2.advice l.regions 2 0 = b.value + c.value := by
    simp [fib1Row, Layout.copyAdvice, Layout.copy, Layout.assign, Layout.enable, Layout.region]
  have hbx := Cell.On.extend hb hr ha
  have hcx := Cell.On.extend hc hr ha
  refine ⟨h.extend hr ha (es := [(0, l.regions, 0)]) rfl ?_ (ps := [(.cell l.regions 0 0, b.ref), (.cell l.regions 1 0, c.ref)])
    (by simp [fib1Row, Layout.copyAdvice, Layout.copy, Layout.assign, Layout.enable, Layout.region, Cell.ref]) ?_, hcx,
    ⟨by rw [hr]; exact Nat.lt_succ_self _, v2⟩, rfl⟩
  · intro e he
    rw [List.mem_singleton] at he
    subst he
    exact ⟨rfl, by show _ + _ = _; simp only [Nat.add_zero]; rw [v0, v1, v2]⟩
  · intro p hp
    simp only [List.mem_cons, List.not_mem_nil, or_false] at hp
    rcases hp with rfl | rfl
    · exact ⟨by show l.regions < _; omega, hbx.1, v0.trans hbx.2.symm⟩
    · exact ⟨by show l.regions < _; omega, hcx.1, v1.trans hcx.2.symm⟩

theorem fib1Loop_good {inst : ℕ → ℕ → F} (n : ℕ) : ∀ {l : Layout F} {b c : Cell F}, Good Add1 inst l → b.On l → c.On l →
    Good Add1 inst (fib1Loop n l b c).2 ∧ (fib1Loop n l b c).1.On (fib1Loop n l b c).2 ∧
      (fib1Loop n l b c).1.value = fibFrom b.value c.value n := by
  induction n with
  | zero => intro l b c h hb hc; exact ⟨h, hc, rfl⟩
  | succ n ih =>
    intro l b c h hb hc
    obtain ⟨h1, h2, h3, h4⟩ := fib1Row_good h hb hc
    obtain ⟨i1, i2, i3⟩ := ih h1 h2 h3
    rw [fib1Loop, fibFrom, ← h4]
    exact ⟨i1, i2, i3⟩

theorem fib1First_good (inst : ℕ → ℕ → F) : Good Add1 inst (fib1First inst Layout.new).2.2 ∧ (fib1First inst Layout.new).1.On (fib1First inst Layout.new).2.2 ∧
    (fib1First inst Layout.new).2.1.On (fib1First inst Layout.new).2.2 := by
  refine ⟨(Good.new Add1 inst).extend rfl (fun r c o hr => absurd hr (Nat.not_lt_zero _)) (es := [(0, 0, 0)]) rfl ?_
    (ps := [(.cell 0 0 0, .inst 0 0), (.cell 0 1 0, .inst 0 1)]) rfl ?_, ⟨Nat.zero_lt_one, ?_⟩, ⟨Nat.zero_lt_one, ?_⟩⟩
  · intro e he
    rw [List.mem_singleton] at he
    subst he
    exact ⟨rfl, by simp [Add1, fib1First, Layout.fromInstance, Layout.copy, Layout.assign, Layout.enable, Layout.region, Layout.new]⟩
  · intro p hp
    simp only [List.mem_cons, List.not_mem_nil, or_false] at hp
    rcases hp with rfl | rfl
    · exact ⟨Nat.zero_lt_one, trivial, by simp [Ref.val, fib1First, Layout.fromInstance, Layout.copy, Layout.assign, Layout.enable, Layout.region, Layout.new]⟩
    · exact ⟨Nat.zero_lt_one, trivial, by simp [Ref.val, fib1First, Layout.fromInstance, Layout.copy, Layout.assign, Layout.enable, Layout.region, Layout.new]⟩
  · simp [fib1First, Layout.fromInstance, Layout.copy, Layout.assign, Layout.enable, Layout.region, Layout.new]
  · simp [fib1First, Layout.fromInstance, Layout.copy, Layout.assign, Layout.enable, Layout.region, Layout.new]

/-! ### The second circuit -/

/-- What the loop of the second circuit does. -/
theorem fib2Loop_spec (rows : ℕ) (n : ℕ) : ∀ (row : ℕ) (l : Layout F) (a b : Cell F), 2 ≤ row → b.region = 0 → b.col = 0 → b.offset + 1 = row →
    l.advice 0 0 (row - 1) = b.value → l.advice 0 0 (row - 2) = a.value →
    (∀ o, (0, 0, o) ∈ (fib2Loop rows n row l a b).2.enabled ↔ (0, 0, o) ∈ l.enabled ∨ row ≤ o ∧ o < row + n ∧ o < rows - 2) ∧
    (∀ s r o, (s, r, o) ∈ (fib2Loop rows n row l a b).2.enabled → (s, r, o) ∈ l.enabled ∨ s = 0 ∧ r = 0) ∧
    (fib2Loop rows n row l a b).2.copies = l.copies ∧
    (fib2Loop rows n row l a b).1.ref = .cell 0 0 (row + n - 1) ∧
    (∀ r c o, o < row → (fib2Loop rows n row l a b).2.advice r c o = l.advice r c o) ∧
    ∀ o, row ≤ o → o < row + n → (fib2Loop rows n row l a b).2.advice 0 0 o =
      (fib2Loop rows n row l a b).2.advice 0 0 (o - 2) + (fib2Loop rows n row l a b).2.advice 0 0 (o - 1) := by
  induction n with
  | zero =>
    intro row l a b h2 hr hc ho hv hw
    refine ⟨fun o => by simp [fib2Loop]; omega, fun s r o h => .inl h, rfl, ?_, fun r c o _ => rfl, fun o h1 h2 => by omega⟩
    show Ref.cell b.region b.col b.offset = _
    rw [hr, hc]
    congr 1
    omega
  | succ n ih =>
    intro row l a b h2 hr hc ho hv hw
    rw [fib2Loop]
    generalize hl : (if row < rows - 2 then l.enable 0 0 row else l) = l'
    have hadv : l'.advice = l.advice := by subst hl; split <;> rfl
    have hcop : l'.copies = l.copies := by subst hl; split <;> rfl
    have hen : ∀ e, e ∈ l'.enabled ↔ e ∈ l.enabled ∨ row < rows - 2 ∧ e = (0, 0, row) := by
      intro e
      subst hl
      split
      · rename_i h
        simp [Layout.enable, h]
      · rename_i h
        simp [h]
    have e1 : (l'.assign 0 0 row (a.value + b.value)).2.advice 0 0 row = a.value + b.value := by simp [Layout.assign]
    have e2 : ∀ r c o, o < row → (l'.assign 0 0 row (a.value + b.value)).2.advice r c o = l.advice r c o := by
      intro r c o hlt
      have : o ≠ row := by omega
      simp [Layout.assign, this, hadv]
    obtain ⟨i1, i1', i2, i3, i4, i5⟩ := ih (row + 1) (l'.assign 0 0 row (a.value + b.value)).2 b (l'.assign 0 0 row (a.value + b.value)).1 (by omega) rfl rfl rfl
      (by rw [Nat.add_sub_cancel]; exact e1) (by
        rw [show row + 1 - 2 = row - 1 by omega, e2 0 0 (row - 1) (by omega)]; exact hv)
    refine ⟨fun o => ?_, fun s r o h => ?_, i2.trans hcop, i3.trans (by congr 1; omega), fun r c o hlt => (i4 r c o (by omega)).trans (e2 r c o hlt),
      fun o h3 h4 => ?_⟩
    · rw [i1]
      show (_ ∈ l'.enabled) ∨ _ ↔ _
      rw [hen]
      constructor
      · rintro ((h | ⟨h, e⟩) | h)
        · exact .inl h
        · simp only [Prod.mk.injEq, true_and] at e
          right; omega
        · right; omega
      · rintro (h | h)
        · exact .inl (.inl h)
        · by_cases e : o = row
          · subst e; exact .inl (.inr ⟨h.2.2, rfl⟩)
          · right; omega
    · rcases i1' s r o h with h | h
      · have := (hen _).1 h
        rcases this with h | ⟨-, h⟩
        · exact .inl h
        · simp only [Prod.mk.injEq] at h
          exact .inr ⟨h.1, h.2.1⟩
      · exact .inr h
    · by_cases e : o = row
      · subst e
        rw [i4 0 0 o (by omega), i4 0 0 (o - 2) (by omega), i4 0 0 (o - 1) (by omega), e1, e2 0 0 (o - 2) (by omega), e2 0 0 (o - 1) (by omega), hv, hw]
      · exact i5 o (by omega) (by omega)

/-- A column in which every value is the sum of the two before it. -/
theorem fib_column (v : ℕ → F) (n : ℕ) (h : ∀ o, 2 ≤ o → o < n → v o = v (o - 2) + v (o - 1)) :
    ∀ k, k + 1 < n → v (k + 1) = (Nat.fib k : F) * v 0 + (Nat.fib (k + 1) : F) * v 1 := by
  intro k
  induction k using Nat.strong_induction_on with
  | _ k ih =>
    intro hk
    match k with
    | 0 => simp
    | 1 =>
      have := h 2 (by omega) (by omega)
      simp at this ⊢
      exact this
    | k + 2 =>
      have e := h (k + 3) (by omega) (by omega)
      have a := ih k (by omega) (by omega)
      have b := ih (k + 1) (by omega) (by omega)
      rw [show k + 3 - 2 = k + 1 by omega, show k + 3 - 1 = k + 1 + 1 by omega, a, b] at e
      have f1 : Nat.fib (k + 2) = Nat.fib k + Nat.fib (k + 1) := Nat.fib_add_two
      have f2 : Nat.fib (k + 2 + 1) = Nat.fib (k + 1) + Nat.fib (k + 2) := Nat.fib_add_two
      have e' : v (k + 2 + 1) = _ := e
      rw [e', f2, show k + 1 + 1 = k + 2 from rfl, f1]
      push_cast
      ring

end Tachyon.Examples
