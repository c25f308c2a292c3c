import Verif.Proofs.ExampleCircuits
import Verif.Spec.F97
/-! C106: what the example circuits prove. -/
namespace Tachyon.Props
open Tachyon.Examples

variable {F : Type} [Field F] [DecidableEq F]

/-! ## `Fibonacci1Circuit` -/

/-- C106: whatever values satisfy the circuit with `n` rows after the first one, the third public value is that of the Fibonacci sequence from the
first two. -/
theorem C106_fib1_sound (n : ℕ) (inst0 inst : ℕ → ℕ → F) (val : ℕ → ℕ → ℕ → F) (h : Satisfied fib1Gates (fib1 inst0 n) val inst) :
    inst 0 2 = (Nat.fib (n + 1) : F) * inst 0 0 + (Nat.fib (n + 2) : F) * inst 0 1 := by
  obtain ⟨hg, hc⟩ := h
  generalize hf : fib1First inst0 Layout.new = f at *
  have hb : f.1.ref.val val inst = val 0 1 0 := by subst hf; rfl
  have hc' : f.2.1.ref.val val inst = val 0 2 0 := by subst hf; rfl
  have gate : ∀ e ∈ (fib1Loop n f.2.2 f.1 f.2.1).2.enabled, val e.2.1 0 e.2.2 + val e.2.1 1 e.2.2 = val e.2.1 2 e.2.2 := by
    have hz : ∀ e ∈ (fib1Loop n f.2.2 f.1 f.2.1).2.enabled, e.1 = 0 := by
      have : ∀ (n : ℕ) (l : Layout F) (b c : Cell F), (∀ e ∈ l.enabled, e.1 = 0) → ∀ e ∈ (fib1Loop n l b c).2.enabled, e.1 = 0 := by
        intro n
        induction n with
        | zero => intro l b c h; exact h
        | succ n ih =>
          intro l b c h
          rw [fib1Loop]
          refine ih _ _ _ fun e he => ?_
          simp only [fib1Row, Layout.copyAdvice, Layout.copy, Layout.assign, Layout.enable, Layout.region, List.mem_append,
            List.mem_singleton] at he
          rcases he with he | rfl
          · exact h e he
          · rfl
      refine this n _ _ _ fun e he => ?_
      subst hf
      have : e = (0, 0, 0) := List.mem_singleton.1 he
      rw [this]
    intro e he
    have := hg e.2.1 e.2.2 _ (List.mem_singleton.2 rfl)
    have hmem : (0, e.2.1, e.2.2) ∈ (fib1 inst0 n).enabled := by
      have : (0, e.2.1, e.2.2) = e := Prod.ext (hz e he).symm rfl
      rw [this]
      simp only [fib1, hf]
      exact he
    dsimp only at this
    rw [if_pos hmem, one_mul, sub_eq_zero] at this
    exact this
  have cop : ∀ p ∈ (fib1Loop n f.2.2 f.1 f.2.1).2.copies, p.1.val val inst = p.2.val val inst := fun p hp =>
    hc p (by simp only [fib1, hf, Layout.copy, List.mem_append]; exact .inl hp)
  obtain ⟨m1, m2⟩ := fib1Loop_mono n f.2.2 f.1 f.2.1
  have g0 := gate _ (m1 (0, 0, 0) (by subst hf; exact List.mem_singleton.2 rfl))
  have c0 := cop _ (m2 (.cell 0 0 0, .inst 0 0) (by subst hf; exact List.mem_cons_self))
  have c1 := cop _ (m2 (.cell 0 1 0, .inst 0 1) (by subst hf; exact List.mem_cons_of_mem _ List.mem_cons_self))
  have out := hc ((fib1Loop n f.2.2 f.1 f.2.1).1.ref, .inst 0 2) (by simp only [fib1, hf, Layout.copy, List.mem_append, List.mem_singleton, or_true])
  have key := fib1Loop_sound val inst n f.2.2 f.1 f.2.1 gate cop
  rw [hb, hc'] at key
  simp only at out
  rw [key] at out
  simp only [Ref.val] at c0 c1 out g0
  rw [← g0, c0, c1] at out
  have e : fibFrom (inst 0 1) (inst 0 0 + inst 0 1) n = fibFrom (inst 0 0) (inst 0 1) (n + 1) := rfl
  rw [e, fibFrom_eq] at out
  exact out.symm

/-- C106: for that public value the prover's own advice satisfies the circuit. -/
theorem C106_fib1_complete (n : ℕ) (inst : ℕ → ℕ → F) (h : inst 0 2 = (Nat.fib (n + 1) : F) * inst 0 0 + (Nat.fib (n + 2) : F) * inst 0 1) :
    Satisfied fib1Gates (fib1 inst n) (fib1 inst n).advice inst := by
  obtain ⟨h1, h2, h3⟩ := fib1First_good inst
  obtain ⟨g, o, v⟩ := fib1Loop_good n h1 h2 h3
  have hv : (fib1Loop n (fib1First inst Layout.new).2.2 (fib1First inst Layout.new).1 (fib1First inst Layout.new).2.1).1.value = inst 0 2 := by
    rw [v, h]
    have : fibFrom (fib1First inst Layout.new).1.value (fib1First inst Layout.new).2.1.value n = fibFrom (inst 0 0) (inst 0 1) (n + 1) := rfl
    rw [this, fibFrom_eq]
  refine ⟨fun r k x hx => ?_, fun p hp => ?_⟩
  · rw [fib1Gates, List.mem_singleton] at hx
    subst hx
    split
    · rename_i he
      have : _ + _ = _ := g.gate _ he
      rw [one_mul, sub_eq_zero]
      exact this
    · rw [zero_mul]
  · simp only [fib1, Layout.copy, List.mem_append, List.mem_singleton] at hp
    rcases hp with hp | rfl
    · exact g.copies p hp
    · exact o.2.trans hv

/-- C106: the circuit of the code, with seven rows after the first one. -/
theorem C106_fib1 (inst : ℕ → ℕ → F) : (∃ val, Satisfied fib1Gates (fib1 inst 7) val inst) ↔ inst 0 2 = 21 * inst 0 0 + 34 * inst 0 1 := by
  have e : ((Nat.fib (7 + 1) : ℕ) : F) = 21 ∧ ((Nat.fib (7 + 2) : ℕ) : F) = 34 :=
    ⟨by rw [show Nat.fib (7 + 1) = 21 by decide]; norm_cast, by rw [show Nat.fib (7 + 2) = 34 by decide]; norm_cast⟩
  constructor
  · rintro ⟨val, h⟩
    have := C106_fib1_sound 7 inst inst val h
    rwa [e.1, e.2] at this
  · intro h
    exact ⟨_, C106_fib1_complete 7 inst (by rw [e.1, e.2]; exact h)⟩

/-! ## `Fibonacci2Circuit` -/

theorem fib2_spec (inst : ℕ → ℕ → F) (rows : ℕ) (hr : 4 ≤ rows) :
    (∀ o, (0, 0, o) ∈ (fib2 inst rows).enabled ↔ o < rows - 2) ∧ (∀ s r o, (s, r, o) ∈ (fib2 inst rows).enabled → s = 0 ∧ r = 0) ∧
    (fib2 inst rows).copies = [(.cell 0 0 0, .inst 0 0), (.cell 0 0 1, .inst 0 1), (.cell 0 0 (rows - 1), .inst 0 2)] ∧
    (fib2 inst rows).advice 0 0 0 = inst 0 0 ∧ (fib2 inst rows).advice 0 0 1 = inst 0 1 ∧
    ∀ o, 2 ≤ o → o < rows → (fib2 inst rows).advice 0 0 o = (fib2 inst rows).advice 0 0 (o - 2) + (fib2 inst rows).advice 0 0 (o - 1) := by
  have key := fib2Loop_spec rows (rows - 2) 2
    ((((Layout.new.region.2.enable 0 0 0).enable 0 0 1).fromInstance inst 0 0 0 0 0).2.fromInstance inst 0 1 0 0 1).2
    (((Layout.new.region.2.enable 0 0 0).enable 0 0 1).fromInstance inst 0 0 0 0 0).1
    ((((Layout.new.region.2.enable 0 0 0).enable 0 0 1).fromInstance inst 0 0 0 0 0).2.fromInstance inst 0 1 0 0 1).1
    (Nat.le_refl _) rfl rfl rfl
    (by simp [Layout.fromInstance, Layout.copy, Layout.assign]) (by simp [Layout.fromInstance, Layout.copy, Layout.assign])
  obtain ⟨i1, i1', i2, i3, i4, i5⟩ := key
  refine ⟨fun o => (i1 o).trans ?_, fun s r o h => ?_, ?_, ?_, ?_, fun o h1 h2 => i5 o h1 (by omega)⟩
  · have : (0, 0, o) ∈ ((((Layout.new.region.2.enable 0 0 0).enable 0 0 1).fromInstance inst 0 0 0 0 0).2.fromInstance inst 0 1 0 0 1).2.enabled ↔
        o = 0 ∨ o = 1 := by simp [Layout.fromInstance, Layout.copy, Layout.assign, Layout.enable, Layout.region, Layout.new]
    rw [this]
    omega
  · rcases i1' s r o h with h | h
    · simp [Layout.fromInstance, Layout.copy, Layout.assign, Layout.enable, Layout.region, Layout.new] at h
      rcases h with ⟨h1, h2, -⟩ | ⟨h1, h2, -⟩ <;> exact ⟨h1, h2⟩
    · exact h
  · show _ ++ _ = _
    refine (congrArg₂ (· ++ ·) i2 (congrArg (fun x => [(x, Ref.inst 0 2)]) i3)).trans ?_
    rw [show 2 + (rows - 2) - 1 = rows - 1 by omega]
    rfl
  · exact (i4 0 0 0 (by omega)).trans (by simp [Layout.fromInstance, Layout.copy, Layout.assign])
  · exact (i4 0 0 1 (by omega)).trans (by simp [Layout.fromInstance, Layout.copy, Layout.assign])

/-- C106: the same of the circuit in one column, for every number of rows from four on. -/
theorem C106_fib2 (rows : ℕ) (hr : 4 ≤ rows) (inst0 inst : ℕ → ℕ → F) :
    (∀ val, Satisfied fib2Gates (fib2 inst0 rows) val inst →
      inst 0 2 = (Nat.fib (rows - 2) : F) * inst 0 0 + (Nat.fib (rows - 1) : F) * inst 0 1) ∧
    (inst 0 2 = (Nat.fib (rows - 2) : F) * inst 0 0 + (Nat.fib (rows - 1) : F) * inst 0 1 →
      Satisfied fib2Gates (fib2 inst rows) (fib2 inst rows).advice inst) := by
  constructor
  · rintro val ⟨hg, hc⟩
    obtain ⟨h1, -, h3, -⟩ := fib2_spec inst0 rows hr
    rw [h3] at hc
    have c0 : val 0 0 0 = inst 0 0 := hc _ List.mem_cons_self
    have c1 : val 0 0 1 = inst 0 1 := hc _ (List.mem_cons_of_mem _ List.mem_cons_self)
    have c2 : val 0 0 (rows - 1) = inst 0 2 := hc _ (List.mem_cons_of_mem _ (List.mem_cons_of_mem _ List.mem_cons_self))
    have hv := fib_column (fun o => val 0 0 o) rows (fun o h2 hlt => by
      have := hg 0 (o - 2) _ (List.mem_singleton.2 rfl)
      dsimp only at this
      rw [if_pos ((h1 (o - 2)).2 (by omega)), one_mul, sub_eq_zero, Nat.add_zero, show o - 2 + 1 = o - 1 by omega, show o - 2 + 2 = o by omega] at this
      exact this.symm) (rows - 2) (by omega)
    rw [show rows - 2 + 1 = rows - 1 by omega, c0, c1, c2] at hv
    exact hv
  · intro h
    obtain ⟨h1, h2, h3, h4, h5, h6⟩ := fib2_spec inst rows hr
    have hv := fib_column (fun o => (fib2 inst rows).advice 0 0 o) rows h6 (rows - 2) (by omega)
    rw [show rows - 2 + 1 = rows - 1 by omega, h4, h5, ← h] at hv
    refine ⟨fun r k x hx => ?_, fun p hp => ?_⟩
    · rw [fib2Gates, List.mem_singleton] at hx
      subst hx
      split
      · rename_i he
        obtain ⟨-, rfl⟩ := h2 _ _ _ he
        have := h6 (k + 2) (by omega) (by have := (h1 k).1 he; omega)
        rw [one_mul, sub_eq_zero, this, Nat.add_sub_cancel, show k + 2 - 1 = k + 1 by omega, Nat.add_zero]
      · rw [zero_mul]
    · rw [h3] at hp
      simp only [List.mem_cons, List.not_mem_nil, or_false] at hp
      rcases hp with rfl | rfl | rfl
      · exact h4
      · exact h5
      · exact hv

/-! ## `IsZeroChip` and `Fibonacci3Circuit` -/

/-- C106: where the gate vanishes and is enabled, the expression of the chip is one if the value is zero and zero if it is not, whatever the
prover chose as the inverse; and for every value there is a choice with which the gate vanishes. -/
theorem C106_isZero (q value : F) (hq : q ≠ 0) :
    (∀ inv, isZeroGate q value inv = 0 → isZeroExpr value inv = if value = 0 then 1 else 0) ∧ isZeroGate q value value⁻¹ = 0 := by
  constructor
  · intro inv h
    unfold isZeroGate at h
    split
    · rename_i h0
      rw [isZeroExpr, h0, zero_mul, sub_zero]
    · rename_i h0
      exact (mul_eq_zero.1 h).resolve_left (mul_ne_zero hq h0)
  · by_cases h : value = 0
    · rw [isZeroGate, h, mul_zero, zero_mul]
    · rw [isZeroGate, isZeroExpr, mul_inv_cancel₀ h, sub_self, mul_zero]

/-- C106: with different `a` and `b` the third circuit can be made; whatever values satisfy it, the output is `c` if `a` and `b` are equal, and else
their difference; and the prover's advice satisfies it. -/
theorem C106_fib3 (a b c : F) (h : a ≠ b) : ∃ l, fib3 a b c = some l ∧
    (∀ val inst, Satisfied fib3Gates l val inst → val 0 3 0 = if val 0 0 0 = val 0 1 0 then val 0 2 0 else val 0 0 0 - val 0 1 0) ∧
    (∀ inst, Satisfied fib3Gates l l.advice inst) ∧ l.advice 0 0 0 = a ∧ l.advice 0 1 0 = b ∧ l.advice 0 2 0 = c ∧ l.advice 0 3 0 = a - b := by
  have hab : a - b ≠ 0 := sub_ne_zero.2 h
  obtain ⟨l, hl, he, hcop, v0, v1, v2, v3, v4⟩ : ∃ l, fib3 a b c = some l ∧ l.enabled = [(0, 0, 0)] ∧ l.copies = [] ∧ l.advice 0 0 0 = a ∧
      l.advice 0 1 0 = b ∧ l.advice 0 2 0 = c ∧ l.advice 0 3 0 = a - b ∧ l.advice 0 4 0 = (a - b)⁻¹ := by
    refine ⟨_, by simp only [fib3, isZeroAssign, if_neg hab, if_neg h, Option.map_some]; rfl, rfl, rfl, ?_, ?_, ?_, ?_, ?_⟩ <;>
      simp [Layout.assign, Layout.enable, Layout.region, Layout.new]
  refine ⟨l, hl, fun val inst hs => ?_, fun inst => ⟨fun r o g hg => ?_, fun p hp => by simp [hcop] at hp⟩, v0, v1, v2, v3⟩
  · have hg := hs.1 0 0
    simp only [he, List.mem_singleton, if_true, fib3Gates, List.mem_cons, List.not_mem_nil, or_false, forall_eq_or_imp, forall_eq, Nat.add_zero,
      one_mul] at hg
    obtain ⟨g1, g2, g3⟩ := hg
    have hz := (C106_isZero 1 (val 0 0 0 - val 0 1 0) one_ne_zero).1 _ g1
    rw [hz] at g2 g3
    by_cases e : val 0 0 0 = val 0 1 0
    · rw [if_pos (sub_eq_zero.2 e), one_mul, sub_eq_zero] at g2
      rw [if_pos e, g2]
    · rw [if_neg (sub_ne_zero.2 e), sub_zero, one_mul, sub_eq_zero] at g3
      rw [if_neg e, g3]
  · by_cases e : r = 0 ∧ o = 0
    · obtain ⟨rfl, rfl⟩ := e
      simp only [he, List.mem_singleton, if_true, fib3Gates, List.mem_cons, List.not_mem_nil, or_false, Nat.add_zero, one_mul, v0, v1, v2, v3, v4] at hg
      rcases hg with rfl | rfl | rfl
      · exact (C106_isZero 1 (a - b) one_ne_zero).2
      · rw [isZeroExpr, mul_inv_cancel₀ hab, sub_self, zero_mul]
      · rw [sub_self, mul_zero]
    · have hne : ∀ s : ℕ, (s, r, o) ∉ l.enabled := fun s hs => by
        rw [he, List.mem_singleton, Prod.mk.injEq, Prod.mk.injEq] at hs
        exact e hs.2
      simp only [fib3Gates, isZeroGate, if_neg (hne 0), List.mem_cons, List.not_mem_nil, or_false, zero_mul, or_self] at hg
      exact hg

/-- C106: finding: with equal `a` and `b` (as in the default constructor) the inverse is written through an empty `optional`. -/
theorem C106_fib3_equal (a c : F) : fib3 a a c = none := by simp [fib3, isZeroAssign]

/-! ## `SimpleCircuit` -/

theorem simple_spec (k a b : F) : (simple k a b).enabled = [(0, 3, 0), (0, 4, 0), (0, 5, 0)] ∧
    (simple k a b).copies = [(.cell 2 0 0, .const k), (.cell 3 0 0, .cell 0 0 0), (.cell 3 1 0, .cell 1 0 0), (.cell 4 0 0, .cell 3 0 1),
      (.cell 4 1 0, .cell 3 0 1), (.cell 5 0 0, .cell 2 0 0), (.cell 5 1 0, .cell 4 0 1), (.cell 5 0 1, .inst 0 0)] := ⟨rfl, rfl⟩

/-- C106: whatever values satisfy the simple circuit, the public value is the constant times the square of the product of the two private ones; and
the prover's advice satisfies it for that public value. -/
theorem C106_simple (k a b : F) :
    (∀ val inst, Satisfied simpleGates (simple k a b) val inst → inst 0 0 = k * (val 0 0 0 * val 1 0 0) ^ 2) ∧
    (∀ inst, inst 0 0 = k * (a * b) ^ 2 → Satisfied simpleGates (simple k a b) (simple k a b).advice inst) ∧
    (simple k a b).advice 0 0 0 = a ∧ (simple k a b).advice 1 0 0 = b := by
  obtain ⟨he, hc⟩ := simple_spec k a b
  have adv : (simple k a b).advice 0 0 0 = a ∧ (simple k a b).advice 1 0 0 = b ∧ (simple k a b).advice 2 0 0 = k ∧
      (simple k a b).advice 3 0 0 = a ∧ (simple k a b).advice 3 1 0 = b ∧ (simple k a b).advice 3 0 1 = a * b ∧
      (simple k a b).advice 4 0 0 = a * b ∧ (simple k a b).advice 4 1 0 = a * b ∧ (simple k a b).advice 4 0 1 = a * b * (a * b) ∧
      (simple k a b).advice 5 0 0 = k ∧ (simple k a b).advice 5 1 0 = a * b * (a * b) ∧ (simple k a b).advice 5 0 1 = k * (a * b * (a * b)) := by
    refine ⟨?_, ?_, ?_, ?_, ?_, ?_, ?_, ?_, ?_, ?_, ?_, ?_⟩ <;>
      simp [simple, mul, loadPrivate, loadConstant, Layout.fromConstant, Layout.copyAdvice, Layout.copy, Layout.assign, Layout.enable, Layout.region,
        Layout.new]
  obtain ⟨v1, v2, v3, v4, v5, v6, v7, v8, v9, v10, v11, v12⟩ := adv
  refine ⟨fun val inst hs => ?_, fun inst hi => ⟨fun r o g hg => ?_, fun p hp => ?_⟩, v1, v2⟩
  · have g : ∀ r, r = 3 ∨ r = 4 ∨ r = 5 → val r 0 0 * val r 1 0 = val r 0 1 := fun r hr => by
      have := hs.1 r 0 _ (List.mem_singleton.2 rfl)
      dsimp only at this
      rw [if_pos (by rw [he]; rcases hr with rfl | rfl | rfl <;> simp), one_mul, sub_eq_zero] at this
      exact this
    have cs := hs.2
    simp only [hc, List.mem_cons, List.not_mem_nil, or_false, forall_eq_or_imp, forall_eq, Ref.val] at cs
    obtain ⟨c1, c2, c3, c4, c5, c6, c7, c8⟩ := cs
    have g3 := g 3 (by simp)
    have g4 := g 4 (by simp)
    have g5 := g 5 (by simp)
    rw [← c8, ← g5, c6, c1, c7, ← g4, c4, c5, ← g3, c2, c3, pow_two]
  · rw [simpleGates, List.mem_singleton] at hg
    subst hg
    split
    · rename_i hm
      rw [he] at hm
      simp only [List.mem_cons, Prod.mk.injEq, true_and, List.not_mem_nil, or_false] at hm
      rcases hm with ⟨rfl, rfl⟩ | ⟨rfl, rfl⟩ | ⟨rfl, rfl⟩
      · simp only [Nat.add_zero, Nat.zero_add]; rw [v4, v5, v6]; ring
      · simp only [Nat.add_zero, Nat.zero_add]; rw [v7, v8, v9]; ring
      · simp only [Nat.add_zero, Nat.zero_add]; rw [v10, v11, v12]; ring
    · rw [zero_mul]
  · rw [hc] at hp
    simp only [List.mem_cons, List.not_mem_nil, or_false] at hp
    rcases hp with rfl | rfl | rfl | rfl | rfl | rfl | rfl | rfl <;> simp only [Ref.val]
    · exact v3
    · rw [v4, v1]
    · rw [v5, v2]
    · rw [v7, v6]
    · rw [v8, v6]
    · rw [v10, v3]
    · rw [v11, v9]
    · rw [v12, hi, pow_two]

/-! ## Examples -/

/-- Public values of the circuits: one, one and the tenth Fibonacci number. -/
def fibInst (_ row : ℕ) : F97 := if row = 2 then 55 else 1

example : Satisfied fib1Gates (fib1 fibInst 7) (fib1 fibInst 7).advice fibInst := C106_fib1_complete 7 fibInst (by decide)
example : Satisfied fib2Gates (fib2 fibInst 10) (fib2 fibInst 10).advice fibInst := (C106_fib2 10 (by decide) fibInst fibInst).2 (by decide)
example : ¬ ∃ val, Satisfied fib1Gates (fib1 (fun _ _ => (1 : F97)) 7) val fun _ _ => 1 := by
  rw [C106_fib1]
  decide
example : (fib3 (5 : F97) 3 9).map (fun l => l.advice 0 3 0) = some 2 ∧ (simple (7 : F97) 2 3).advice 5 0 1 = 58 := by decide

end Tachyon.Props
