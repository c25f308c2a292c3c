import Verif.Spec.Air
import Verif.Spec.F7
import Mathlib.Algebra.Polynomial.Degree.Lemmas
import Mathlib.Algebra.Polynomial.Eval.Degree
/-! C103: constraint systems of AIR. -/
namespace Tachyon.Props
open Tachyon.Air

section
variable {F : Type} [Field F] [DecidableEq F]

theorem air_plain {s : System F} {pub : List F} {main : Matrix F} {pre : Option (Matrix F)} (ha : s.accepts pub main pre = true) (i : ℕ) :
    ∀ e : Expr F, e.Plain s → e.evaluate pub main pre i = some (e.value id (varsAt pub main pre i)) := by
  simp only [System.accepts, Bool.and_eq_true, decide_eq_true_eq] at ha
  obtain ⟨⟨⟨hp, hm⟩, -⟩, hpre⟩ := ha
  intro e
  induction e with
  | constant c => exact fun _ => rfl
  | sum l r hl hr => exact fun h => by rw [Expr.evaluate, hl h.1, hr h.2]; rfl
  | product l r hl hr => exact fun h => by rw [Expr.evaluate, hl h.1, hr h.2]; rfl
  | negated e he => exact fun h => by rw [Expr.evaluate, he h]; rfl
  | scaled e s' he => exact fun h => by rw [Expr.evaluate, he h]; rfl
  | firstRow e => exact fun h => h.elim
  | lastRow e => exact fun h => h.elim
  | transition e => exact fun h => h.elim
  | other => exact fun h => h.elim
  | variable_ t row col =>
    cases t with
    | public_ =>
      intro h
      have h : row < s.numPublic := h
      simp only [Expr.evaluate, Expr.value, varsAt]
      rw [List.getD_eq_getElem?_getD, List.getElem?_eq_getElem (by omega)]
      rfl
    | main =>
      intro h
      have h : row < 2 ∧ col < s.mainWidth := h
      simp only [Expr.evaluate, Expr.value, varsAt, Matrix.window]
      rw [if_pos ⟨h.1, by omega⟩]
    | preprocessed =>
      intro h
      have h : row < 2 ∧ col < s.preWidth := h
      cases pre with
      | none => simp only [decide_eq_true_eq] at hpre; omega
      | some p =>
        simp only [Bool.and_eq_true, decide_eq_true_eq] at hpre
        simp only [Expr.evaluate, Expr.value, varsAt, Matrix.window, Option.bind_some, Option.elim]
        rw [if_pos ⟨h.1, by omega⟩]
    | permutation => exact fun _ => rfl
    | challenge => exact fun _ => rfl

theorem air_checkAll (value : Expr F → Option F) (cs : List (Expr F)) (h : ∀ c ∈ cs, ∃ v, value c = some v) :
    checkAll value cs = some (decide (∀ c ∈ cs, value c = some 0)) := by
  induction cs with
  | nil => simp [checkAll]
  | cons c cs ih =>
    obtain ⟨v, hv⟩ := h c (List.mem_cons_self ..)
    rw [checkAll, hv, Option.bind_some, ih fun d hd => h d (List.mem_cons_of_mem _ hd)]
    by_cases h0 : v = 0
    · simp [h0, hv]
    · simp [h0, hv]

theorem air_checkWindows (s : System F) (pub : List F) (main : Matrix F) (pre : Option (Matrix F)) (n : ℕ) : ∀ i : ℕ,
    (∀ j < n, ∀ c ∈ s.constraints, ∃ v, Expr.evaluate pub main pre (i + j) c = some v) →
    checkWindows s pub main pre n i = some (decide (∀ j < n, ∀ c ∈ s.constraints, Expr.evaluate pub main pre (i + j) c = some 0)) := by
  induction n with
  | zero => intro i _; simp [checkWindows]
  | succ n ih =>
    intro i h
    rw [checkWindows, air_checkAll (Expr.evaluate pub main pre i) _ (h 0 (by omega)), Option.bind_some]
    have hrec := ih (i + 1) (fun j hj c hc => by
      obtain ⟨v, hv⟩ := h (j + 1) (by omega) c hc
      exact ⟨v, by rw [show i + 1 + j = i + (j + 1) by omega]; exact hv⟩)
    have hsplit : (∀ j < n + 1, ∀ c ∈ s.constraints, Expr.evaluate pub main pre (i + j) c = some 0) ↔
        (∀ c ∈ s.constraints, Expr.evaluate pub main pre i c = some 0) ∧
          ∀ j < n, ∀ c ∈ s.constraints, Expr.evaluate pub main pre (i + 1 + j) c = some 0 := by
      refine ⟨fun hh => ⟨fun c hc => hh 0 (by omega) c hc, fun j hj c hc => ?_⟩, fun hh j hj c hc => ?_⟩
      · rw [show i + 1 + j = i + (j + 1) by omega]
        exact hh (j + 1) (by omega) c hc
      · cases j with
        | zero => exact hh.1 c hc
        | succ j =>
          rw [show i + (j + 1) = i + 1 + j by omega]
          exact hh.2 j (by omega) c hc
    rw [hrec]
    by_cases h0 : ∀ c ∈ s.constraints, Expr.evaluate pub main pre i c = some 0
    · rw [decide_eq_true h0, if_pos rfl]
      exact congrArg some (decide_eq_decide.2 ⟨fun h' => hsplit.2 ⟨h0, h'⟩, fun h' => (hsplit.1 h').2⟩)
    · rw [decide_eq_false h0, if_neg (by decide)]
      simp only [hsplit, h0, false_and, decide_false]

/-- A system with these constraints, in this order. -/
def airSystem (numPublic mainWidth preWidth : ℕ) (first last trans plain : List (Expr F)) : System F :=
  plain.foldl System.enforce (trans.foldl System.enforceTransition (last.foldl System.enforceLastRow
    (first.foldl System.enforceFirstRow (System.new numPublic mainWidth preWidth))))

theorem air_foldl (f : Expr F → Expr F) (es : List (Expr F)) : ∀ s : System F,
    es.foldl (fun s e => s.enforce (f e)) s = { s with constraints := s.constraints ++ es.map f } := by
  induction es with
  | nil => intro s; simp
  | cons e es ih => intro s; rw [List.foldl_cons, ih]; simp [System.enforce]

theorem airSystem_eq (a b c : ℕ) (first last trans plain : List (Expr F)) : airSystem a b c first last trans plain =
    ⟨a, b, c, first.map .firstRow ++ last.map .lastRow ++ trans.map .transition ++ plain⟩ := by
  have h1 := air_foldl (F := F) Expr.firstRow first (System.new a b c)
  have h2 := air_foldl (F := F) Expr.lastRow last
  have h3 := air_foldl (F := F) Expr.transition trans
  have h4 := air_foldl (F := F) id plain
  show plain.foldl (fun s e => s.enforce (id e)) (trans.foldl (fun s e => s.enforce (.transition e))
    (last.foldl (fun s e => s.enforce (.lastRow e)) (first.foldl (fun s e => s.enforce (.firstRow e)) (System.new a b c)))) = _
  rw [h1, h2, h3, h4]
  simp [System.new]

/-- C103: for all traces with at least two rows, `IsSatisfied` says whether the constraints of the first row vanish in the rows 0 and 1, those of the
last row in the last two rows, and those of transitions, and all others, in every two rows that follow each other. -/
theorem C103_satisfied (numPublic mainWidth preWidth : ℕ) (first last trans plain : List (Expr F)) (pub : List F) (main : Matrix F)
    (pre : Option (Matrix F)) (n : ℕ) (hn : main.rows = n + 2)
    (ha : (airSystem numPublic mainWidth preWidth first last trans plain).accepts pub main pre = true)
    (hp : ∀ e ∈ first ++ last ++ trans ++ plain, e.Plain (airSystem numPublic mainWidth preWidth first last trans plain)) :
    ∃ b, (airSystem numPublic mainWidth preWidth first last trans plain).isSatisfied pub main pre = some b ∧
      (b = true ↔ (∀ e ∈ first, e.value id (varsAt pub main pre 0) = 0) ∧ (∀ e ∈ last, e.value id (varsAt pub main pre n) = 0) ∧
        ∀ i ≤ n, ∀ e ∈ trans ++ plain, e.value id (varsAt pub main pre i) = 0) := by
  set s := airSystem numPublic mainWidth preWidth first last trans plain with hs
  have hcs : s.constraints = first.map .firstRow ++ last.map .lastRow ++ trans.map .transition ++ plain := by rw [hs, airSystem_eq]
  have hev : ∀ i, ∀ e ∈ first ++ last ++ trans ++ plain, e.evaluate pub main pre i = some (e.value id (varsAt pub main pre i)) :=
    fun i e he => air_plain ha i e (hp e he)
  have hf : ∀ i, ∀ e ∈ first, Expr.evaluate pub main pre i (.firstRow e) = some (if i = 0 then e.value id (varsAt pub main pre i) else 0) := by
    intro i e he
    rw [Expr.evaluate, hev i e (by simp [he])]
    split <;> rfl
  have hl : ∀ i, ∀ e ∈ last, Expr.evaluate pub main pre i (.lastRow e) = some (if i = n then e.value id (varsAt pub main pre i) else 0) := by
    intro i e he
    rw [Expr.evaluate, hev i e (by simp [he]), hn]
    by_cases h : i = n
    · simp [h]
    · simp [h]
  have ht : ∀ i, ∀ e ∈ trans, Expr.evaluate pub main pre i (.transition e) = some (e.value id (varsAt pub main pre i)) := by
    intro i e he
    rw [Expr.evaluate, hev i e (by simp [he])]
  refine ⟨decide (∀ j < main.rows - 1, ∀ c ∈ s.constraints, Expr.evaluate pub main pre (0 + j) c = some 0), ?_, ?_⟩
  · rw [System.isSatisfied, ha, if_neg (by decide)]
    refine air_checkWindows s pub main pre _ 0 fun j _ c hc => ?_
    rw [hcs] at hc
    simp only [List.mem_append, List.mem_map] at hc
    rcases hc with ((⟨e, he, rfl⟩ | ⟨e, he, rfl⟩) | ⟨e, he, rfl⟩) | he
    · exact ⟨_, hf _ e he⟩
    · exact ⟨_, hl _ e he⟩
    · exact ⟨_, ht _ e he⟩
    · exact ⟨_, hev _ c (by simp [he])⟩
  · rw [decide_eq_true_eq, hcs, hn]
    simp only [Nat.zero_add]
    constructor
    · intro h
      refine ⟨fun e he => ?_, fun e he => ?_, fun i hi e he => ?_⟩
      · have := h 0 (by omega) (.firstRow e) (by simp [he])
        rwa [hf 0 e he, if_pos rfl, Option.some.injEq] at this
      · have := h n (by omega) (.lastRow e) (by simp [he])
        rwa [hl n e he, if_pos rfl, Option.some.injEq] at this
      · rcases List.mem_append.1 he with he | he
        · have := h i (by omega) (.transition e) (by simp [he])
          rwa [ht i e he, Option.some.injEq] at this
        · have := h i (by omega) e (by simp [he])
          rwa [hev i e (by simp [he]), Option.some.injEq] at this
    · rintro ⟨h1, h2, h3⟩ j hj c hc
      simp only [List.mem_append, List.mem_map] at hc
      rcases hc with ((⟨e, he, rfl⟩ | ⟨e, he, rfl⟩) | ⟨e, he, rfl⟩) | he
      · rw [hf j e he]
        split
        · rename_i h; subst h; rw [h1 e he]
        · rfl
      · rw [hl j e he]
        split
        · rename_i h; subst h; rw [h2 e he]
        · rfl
      · rw [ht j e he, h3 j (by omega) e (by simp [he])]
      · rw [hev j c (by simp [he]), h3 j (by omega) c (by simp [he])]

/-- C103: `IsSatisfied` fails for public values, a trace or preprocessed columns of the wrong size. -/
theorem C103_sizes (s : System F) (pub : List F) (main : Matrix F) (pre : Option (Matrix F))
    (h : pub.length ≠ s.numPublic ∨ main.cols ≠ s.mainWidth ∨ main.rows = 0 ∨ (pre = none ∧ s.preWidth ≠ 0) ∨
      ∃ p, pre = some p ∧ (p.cols ≠ s.preWidth ∨ p.rows ≠ main.rows)) : s.isSatisfied pub main pre = none := by
  have : s.accepts pub main pre = false := by
    by_contra hne
    rw [Bool.not_eq_false] at hne
    simp only [System.accepts, Bool.and_eq_true, decide_eq_true_eq] at hne
    obtain ⟨⟨⟨h1, h2⟩, h3⟩, h4⟩ := hne
    rcases h with h | h | h | ⟨rfl, h⟩ | ⟨p, rfl, h⟩
    · exact h h1
    · exact h h2
    · omega
    · exact h (by simpa using h4)
    · simp only [Bool.and_eq_true, decide_eq_true_eq] at h4
      rcases h with h | h
      · exact h h4.1
      · exact h h4.2
  rw [System.isSatisfied, this]
  rfl

/-- C103: finding: a trace of one row satisfies all systems of its size, whatever their constraints are. -/
theorem C103_one_row (s : System F) (pub : List F) (main : Matrix F) (pre : Option (Matrix F)) (h : main.rows = 1)
    (ha : s.accepts pub main pre = true) : s.isSatisfied pub main pre = some true := by
  rw [System.isSatisfied, ha, if_neg (by decide), h]
  rfl

/-- C103: finding: a constraint on single rows is not checked in the last row, whatever is in it. -/
theorem C103_last_row_free (s : System F) (pub : List F) (main : Matrix F) (pre : Option (Matrix F)) (hs : ∀ e ∈ s.constraints, e.Plain s ∧ e.OneRow)
    (ha : s.accepts pub main pre = true) (row : ℕ → F) : s.isSatisfied pub { main with entry := fun i c => if i + 1 = main.rows then row c else main.entry i c } pre =
      s.isSatisfied pub main pre := by
  set main' : Matrix F := { main with entry := fun i c => if i + 1 = main.rows then row c else main.entry i c } with hm
  have ha' : s.accepts pub main' pre = true := ha
  have hval : ∀ i, i + 1 < main.rows → ∀ e : Expr F, e.OneRow → e.value id (varsAt pub main' pre i) = e.value id (varsAt pub main pre i) := by
    intro i hi e
    induction e with
    | constant c => exact fun _ => rfl
    | sum l r hl hr => exact fun h => by rw [Expr.value, hl h.1, hr h.2, ← Expr.value]
    | product l r hl hr => exact fun h => by rw [Expr.value, hl h.1, hr h.2, ← Expr.value]
    | negated e he => exact fun h => by rw [Expr.value, he h, ← Expr.value]
    | scaled e s' he => exact fun h => by rw [Expr.value, he h, ← Expr.value]
    | firstRow e => exact fun _ => rfl
    | lastRow e => exact fun _ => rfl
    | transition e => exact fun _ => rfl
    | other => exact fun _ => rfl
    | variable_ t r c =>
      cases t with
      | main =>
        intro h
        have h : r = 0 := h
        subst h
        show (if i + 0 + 1 = main.rows then row c else main.entry (i + 0) c) = main.entry (i + 0) c
        rw [if_neg (by omega)]
      | public_ => exact fun _ => rfl
      | preprocessed => exact fun _ => rfl
      | permutation => exact fun _ => rfl
      | challenge => exact fun _ => rfl
  have hev : ∀ j < main.rows - 1, ∀ c ∈ s.constraints, Expr.evaluate pub main' pre (0 + j) c = Expr.evaluate pub main pre (0 + j) c := by
    intro j hj c hc
    rw [air_plain ha' _ c (hs c hc).1, air_plain ha _ c (hs c hc).1, hval _ (by omega) c (hs c hc).2]
  rw [System.isSatisfied, System.isSatisfied, ha, ha', if_neg (by decide), if_neg (by decide)]
  show checkWindows s pub main' pre (main.rows - 1) 0 = _
  rw [air_checkWindows s pub main' pre _ 0 (fun j _ c hc => ⟨_, air_plain ha' _ c (hs c hc).1⟩),
    air_checkWindows s pub main pre _ 0 (fun j _ c hc => ⟨_, air_plain ha _ c (hs c hc).1⟩)]
  have : (∀ j < main.rows - 1, ∀ c ∈ s.constraints, Expr.evaluate pub main' pre (0 + j) c = some 0) ↔
      ∀ j < main.rows - 1, ∀ c ∈ s.constraints, Expr.evaluate pub main pre (0 + j) c = some 0 := by
    refine forall_congr' fun j => forall_congr' fun hj => forall_congr' fun c => forall_congr' fun hc => ?_
    rw [hev j hj c hc]
  simp only [this]

/-- C103: finding: a variable of a challenge or a permutation is silently zero, so a constraint on it is no constraint. -/
theorem C103_challenge (pub : List F) (main : Matrix F) (pre : Option (Matrix F)) (i row col : ℕ) :
    Expr.evaluate pub main pre i (.variable_ .challenge row col : Expr F) = some 0 ∧
    Expr.evaluate pub main pre i (.variable_ .permutation row col : Expr F) = some 0 := ⟨rfl, rfl⟩

/-- C103: `Degree` bounds the degree of what a constraint becomes when its variables are polynomials. -/
theorem C103_degree (s : System F) (e : Expr F) (he : e.Plain s) (x : VarType → ℕ → ℕ → Polynomial F) (d : ℕ) (hd : ∀ t r c, (x t r c).natDegree ≤ t.degree * d) :
    (e.value Polynomial.C x).natDegree ≤ e.degree * d ∧
    ∀ z, (e.value Polynomial.C x).eval z = e.value id fun t r c => (x t r c).eval z := by
  induction e with
  | constant c => exact ⟨by simp [Expr.value], fun z => by simp [Expr.value]⟩
  | sum l r hl hr =>
    obtain ⟨l1, l2⟩ := hl he.1
    obtain ⟨r1, r2⟩ := hr he.2
    refine ⟨(Polynomial.natDegree_add_le _ _).trans (max_le ?_ ?_), fun z => ?_⟩
    · exact l1.trans (Nat.mul_le_mul_right d (le_max_left _ _))
    · exact r1.trans (Nat.mul_le_mul_right d (le_max_right _ _))
    · rw [Expr.value, Polynomial.eval_add, l2, r2, ← Expr.value]
  | product l r hl hr =>
    obtain ⟨l1, l2⟩ := hl he.1
    obtain ⟨r1, r2⟩ := hr he.2
    refine ⟨Polynomial.natDegree_mul_le.trans ?_, fun z => ?_⟩
    · rw [Expr.degree, Nat.add_mul]
      exact Nat.add_le_add l1 r1
    · rw [Expr.value, Polynomial.eval_mul, l2, r2, ← Expr.value]
  | negated e h =>
    obtain ⟨h1, h2⟩ := h he
    exact ⟨by rw [Expr.value, Polynomial.natDegree_neg]; exact h1, fun z => by rw [Expr.value, Polynomial.eval_neg, h2, ← Expr.value]⟩
  | scaled e c h =>
    obtain ⟨h1, h2⟩ := h he
    refine ⟨?_, fun z => by rw [Expr.value, Polynomial.eval_mul, Polynomial.eval_C, h2]; rfl⟩
    exact (Polynomial.natDegree_mul_C_le _ _).trans h1
  | firstRow e => exact he.elim
  | lastRow e => exact he.elim
  | transition e => exact he.elim
  | other => exact he.elim
  | variable_ t r c => exact ⟨hd t r c, fun z => rfl⟩

end

/-- The Fibonacci numbers modulo 7: two public values at the start and one at the end. -/
def fib103 : System F7 := airSystem 3 2 0
  [.sum (.variable_ .public_ 0 0) (.negated (.variable_ .main 0 0)), .sum (.variable_ .public_ 1 0) (.negated (.variable_ .main 0 1))]
  [.sum (.variable_ .main 1 1) (.negated (.variable_ .public_ 2 0))]
  [.sum (.variable_ .main 1 0) (.negated (.variable_ .main 0 1)),
    .sum (.variable_ .main 1 1) (.negated (.sum (.variable_ .main 0 0) (.variable_ .main 0 1)))] []

def trace103 : Matrix F7 := ⟨5, 2, fun i c => (([[1, 1], [1, 2], [2, 3], [3, 5], [5, 1]] : List (List F7)).getD i []).getD c 0⟩

example : fib103.isSatisfied [1, 1, 1] trace103 none = some true ∧ fib103.isSatisfied [1, 1, 2] trace103 none = some false ∧
    fib103.isSatisfied [1, 1] trace103 none = none := by decide

/-- Finding: one row of anything. -/
example : fib103.isSatisfied [1, 1, 1] ⟨1, 2, fun _ _ => 4⟩ none = some true := by decide

end Tachyon.Props
