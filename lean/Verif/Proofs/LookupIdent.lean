import Verif.Spec.LookupChunk
/-! Identifiers of tables (C90). -/
universe u
namespace Tachyon.LookupChunk
open Plonk CircuitPoly

/-- The first character, if any, is not a digit. -/
def Stop (x : List Char) : Prop := ∀ c ∈ x.head?, c.isDigit = false

theorem digit_of_mem {n : ℕ} {c : Char} (h : c ∈ decimal n) : c.isDigit = true :=
  Nat.isDigit_of_mem_toDigits (by decide) (by decide) h

theorem decimal_ne_nil (n : ℕ) : decimal n ≠ [] := Nat.toDigits_ne_nil

theorem decimal_inj {m n : ℕ} (h : decimal m = decimal n) : m = n := by
  have := congrArg (fun l => Nat.ofDigitChars 10 l 0) h
  simpa [decimal, Nat.ofDigitChars_ten_toDigits] using this

theorem takeWhile_stop {l x : List Char} (hl : ∀ c ∈ l, c.isDigit = true) (hx : Stop x) :
    (l ++ x).takeWhile Char.isDigit = l := by
  induction l with
  | nil =>
    cases x with
    | nil => rfl
    | cons c x => simp [hx c (by simp)]
  | cons d l ih =>
    have := hl d (by simp)
    simp only [List.cons_append, List.takeWhile_cons, this, if_true]
    rw [ih fun c hc => hl c (by simp [hc])]

theorem decimal_append {m n : ℕ} {x y : List Char} (hx : Stop x) (hy : Stop y) (h : decimal m ++ x = decimal n ++ y) :
    m = n ∧ x = y := by
  have h1 := congrArg (List.takeWhile Char.isDigit) h
  rw [takeWhile_stop (fun c => digit_of_mem) hx, takeWhile_stop (fun c => digit_of_mem) hy] at h1
  rw [h1] at h
  exact ⟨decimal_inj h1, List.append_cancel_left h⟩

theorem decimal_head (n : ℕ) : ∃ c l, decimal n = c :: l ∧ c.isDigit = true := by
  cases h : decimal n with
  | nil => exact absurd h (decimal_ne_nil n)
  | cons c l => exact ⟨c, l, rfl, digit_of_mem (n := n) (by simp [h])⟩

theorem decimal_ne_cons {n : ℕ} {x y : List Char} {c : Char} (hc : c.isDigit = false) : decimal n ++ x ≠ c :: y := by
  obtain ⟨d, l, h, hd⟩ := decimal_head n
  rw [h]
  intro e
  simp only [List.cons_append, List.cons.injEq] at e
  rw [e.1, hc] at hd
  exact absurd hd (by decide)

theorem stop_cons {c : Char} {x : List Char} (hc : c.isDigit = false) : Stop (c :: x) := by
  intro d hd
  simp only [List.head?_cons, Option.mem_def, Option.some.injEq] at hd
  exact hd ▸ hc

theorem decimalInt_append {i j : ℤ} {x y : List Char} (hx : Stop x) (hy : Stop y)
    (h : decimalInt i ++ x = decimalInt j ++ y) : i = j ∧ x = y := by
  unfold decimalInt at h
  split at h <;> split at h
  · simp only [List.cons_append, List.cons.injEq, true_and] at h
    obtain ⟨h1, h2⟩ := decimal_append hx hy h
    exact ⟨by omega, h2⟩
  · exact absurd h.symm (decimal_ne_cons (by decide))
  · exact absurd h (decimal_ne_cons (by decide))
  · obtain ⟨h1, h2⟩ := decimal_append hx hy h
    exact ⟨by omega, h2⟩

theorem queryIdent_append {q r : Query} {x y : List Char} (h : queryIdent q ++ x = queryIdent r ++ y) :
    q.column = r.column ∧ q.rotation = r.rotation ∧ x = y := by
  unfold queryIdent at h
  simp only [List.append_assoc, List.cons_append, List.nil_append] at h
  obtain ⟨h1, h2⟩ := decimal_append (stop_cons (by decide)) (stop_cons (by decide)) h
  simp only [List.cons.injEq, true_and] at h2
  obtain ⟨h3, h4⟩ := decimalInt_append (stop_cons (by decide)) (stop_cons (by decide)) h2
  simp only [List.cons.injEq, true_and] at h4
  exact ⟨h1, h3, h4⟩

section
variable {F : Type u} (canon : F → ℕ)

/-- The first character of an identifier: a digit or one of a few others. -/
theorem identifier_head (e : Expr F) :
    ∃ c l, identifier canon e = c :: l ∧ (c.isDigit = true ∨ c ∈ ['(', '*', 'f', 'a', 'i', 'c', 's']) := by
  cases e with
  | constant v =>
    obtain ⟨c, l, h, hc⟩ := decimal_head (canon v)
    exact ⟨c, l, h, Or.inl hc⟩
  | _ => exact ⟨_, _, rfl, Or.inr (by decide)⟩

theorem identifier_ne_minus (e : Expr F) {x y : List Char} : identifier canon e ++ x ≠ '-' :: y := by
  obtain ⟨c, l, h, hc⟩ := identifier_head canon e
  rw [h]
  intro h1
  simp only [List.cons_append, List.cons.injEq] at h1
  rw [h1.1] at hc
  revert hc
  decide

theorem stop_identifier {e : Expr F} (he : NotConstant e) (x : List Char) : Stop (identifier canon e ++ x) := by
  cases e with
  | constant v => exact absurd he id
  | _ => exact stop_cons (by decide)

/-- Reading an identifier back. -/
theorem identifier_append (hcanon : Function.Injective canon) (e : Expr F) : ∀ (e' : Expr F) (x y : List Char),
    NoScaled e → NoScaled e' → Stop x → Stop y → identifier canon e ++ x = identifier canon e' ++ y →
      forget e = forget e' ∧ x = y := by
  induction e with
  | constant v =>
    intro e' x y _ h' hx hy h
    cases e' with
    | constant w =>
      obtain ⟨h1, h2⟩ := decimal_append hx hy h
      rw [hcanon h1]
      exact ⟨rfl, h2⟩
    | scaled => exact absurd h' id
    | _ => exact absurd h (decimal_ne_cons (by decide))
  | scaled e s _ => intro _ _ _ h; exact absurd h id
  | neg e ih =>
    intro e' x y he h' hx hy h
    cases e' with
    | constant w => exact absurd h.symm (decimal_ne_cons (by decide))
    | scaled => exact absurd h' id
    | neg e' =>
      simp only [identifier, List.append_assoc, List.cons_append, List.nil_append, List.cons.injEq, true_and] at h
      obtain ⟨h1, h2⟩ := ih e' _ _ he h' (stop_cons (by decide)) (stop_cons (by decide)) h
      simp only [List.cons.injEq, true_and] at h2
      exact ⟨by simp only [forget, h1], h2⟩
    | sum a b =>
      simp only [identifier, List.append_assoc, List.cons_append, List.nil_append, List.cons.injEq, true_and] at h
      exact absurd h.symm (identifier_ne_minus canon a)
    | prod a b =>
      simp only [identifier, List.append_assoc, List.cons_append, List.nil_append, List.cons.injEq, true_and] at h
      exact absurd h.symm (identifier_ne_minus canon a)
    | _ => simp [identifier] at h
  | sum a b iha ihb =>
    intro e' x y he h' hx hy h
    cases e' with
    | constant w => exact absurd h.symm (decimal_ne_cons (by decide))
    | scaled => exact absurd h' id
    | neg e' =>
      simp only [identifier, List.append_assoc, List.cons_append, List.nil_append, List.cons.injEq, true_and] at h
      exact absurd h (identifier_ne_minus canon a)
    | sum a' b' =>
      simp only [identifier, List.append_assoc, List.cons_append, List.nil_append, List.cons.injEq, true_and] at h
      obtain ⟨h1, h2⟩ := iha a' _ _ he.1 h'.1 (stop_cons (by decide)) (stop_cons (by decide)) h
      simp only [List.cons.injEq, true_and] at h2
      obtain ⟨h3, h4⟩ := ihb b' _ _ he.2 h'.2 (stop_cons (by decide)) (stop_cons (by decide)) h2
      simp only [List.cons.injEq, true_and] at h4
      exact ⟨by simp only [forget, h1, h3], h4⟩
    | prod a' b' =>
      simp only [identifier, List.append_assoc, List.cons_append, List.nil_append, List.cons.injEq, true_and] at h
      obtain ⟨_, h2⟩ := iha a' _ _ he.1 h'.1 (stop_cons (by decide)) (stop_cons (by decide)) h
      simp at h2
    | _ => simp [identifier] at h
  | prod a b iha ihb =>
    intro e' x y he h' hx hy h
    cases e' with
    | constant w => exact absurd h.symm (decimal_ne_cons (by decide))
    | scaled => exact absurd h' id
    | neg e' =>
      simp only [identifier, List.append_assoc, List.cons_append, List.nil_append, List.cons.injEq, true_and] at h
      exact absurd h (identifier_ne_minus canon a)
    | prod a' b' =>
      simp only [identifier, List.append_assoc, List.cons_append, List.nil_append, List.cons.injEq, true_and] at h
      obtain ⟨h1, h2⟩ := iha a' _ _ he.1 h'.1 (stop_cons (by decide)) (stop_cons (by decide)) h
      simp only [List.cons.injEq, true_and] at h2
      obtain ⟨h3, h4⟩ := ihb b' _ _ he.2 h'.2 (stop_cons (by decide)) (stop_cons (by decide)) h2
      simp only [List.cons.injEq, true_and] at h4
      exact ⟨by simp only [forget, h1, h3], h4⟩
    | sum a' b' =>
      simp only [identifier, List.append_assoc, List.cons_append, List.nil_append, List.cons.injEq, true_and] at h
      obtain ⟨_, h2⟩ := iha a' _ _ he.1 h'.1 (stop_cons (by decide)) (stop_cons (by decide)) h
      simp at h2
    | _ => simp [identifier] at h
  | fixed q =>
    intro e' x y _ h' hx hy h
    cases e' with
    | constant w => exact absurd h.symm (decimal_ne_cons (by decide))
    | scaled => exact absurd h' id
    | fixed r =>
      simp only [identifier, List.cons_append, List.nil_append, List.cons.injEq, true_and] at h
      obtain ⟨h1, h2, h3⟩ := queryIdent_append h
      exact ⟨by simp only [forget, h1, h2], h3⟩
    | _ => simp [identifier] at h
  | advice q =>
    intro e' x y _ h' hx hy h
    cases e' with
    | constant w => exact absurd h.symm (decimal_ne_cons (by decide))
    | scaled => exact absurd h' id
    | advice r =>
      simp only [identifier, List.cons_append, List.nil_append, List.cons.injEq, true_and] at h
      obtain ⟨h1, h2, h3⟩ := queryIdent_append h
      exact ⟨by simp only [forget, h1, h2], h3⟩
    | _ => simp [identifier] at h
  | inst q =>
    intro e' x y _ h' hx hy h
    cases e' with
    | constant w => exact absurd h.symm (decimal_ne_cons (by decide))
    | scaled => exact absurd h' id
    | inst r =>
      simp only [identifier, List.cons_append, List.nil_append, List.cons.injEq, true_and] at h
      obtain ⟨h1, h2, h3⟩ := queryIdent_append h
      exact ⟨by simp only [forget, h1, h2], h3⟩
    | _ => simp [identifier] at h
  | challenge i =>
    intro e' x y _ h' hx hy h
    cases e' with
    | constant w => exact absurd h.symm (decimal_ne_cons (by decide))
    | scaled => exact absurd h' id
    | challenge j =>
      simp only [identifier, List.append_assoc, List.cons_append, List.nil_append, List.cons.injEq, true_and] at h
      obtain ⟨h1, h2⟩ := decimal_append (stop_cons (by decide)) (stop_cons (by decide)) h
      simp only [List.cons.injEq, true_and] at h2
      exact ⟨by rw [h1], h2⟩
    | _ => simp [identifier] at h
  | selector i =>
    intro e' x y _ h' hx hy h
    cases e' with
    | constant w => exact absurd h.symm (decimal_ne_cons (by decide))
    | scaled => exact absurd h' id
    | selector j =>
      simp only [identifier, List.append_assoc, List.cons_append, List.nil_append, List.cons.injEq, true_and] at h
      obtain ⟨h1, h2⟩ := decimal_append (stop_cons (by decide)) (stop_cons (by decide)) h
      simp only [List.cons.injEq, true_and] at h2
      exact ⟨by rw [h1], h2⟩
    | _ => simp [identifier] at h

theorem stop_table {t : List (Expr F)} (ht : Plain t) : Stop (tableIdentifier canon t) := by
  cases t with
  | nil => intro c hc; simp [tableIdentifier] at hc
  | cons e t =>
    simp only [tableIdentifier, List.flatMap_cons]
    exact stop_identifier canon (ht e (by simp)).2 _

theorem tableIdentifier_inj (hcanon : Function.Injective canon) : ∀ (t t' : List (Expr F)), Plain t → Plain t' →
    tableIdentifier canon t = tableIdentifier canon t' → t.map forget = t'.map forget := by
  intro t
  induction t with
  | nil =>
    intro t' _ _ h
    cases t' with
    | nil => rfl
    | cons e t' =>
      obtain ⟨c, l, hc, _⟩ := identifier_head canon e
      simp [tableIdentifier, hc] at h
  | cons e t ih =>
    intro t' ht ht' h
    cases t' with
    | nil =>
      obtain ⟨c, l, hc, _⟩ := identifier_head canon e
      simp [tableIdentifier, hc] at h
    | cons e' t' =>
      have p : Plain t := fun a ha => ht a (by simp [ha])
      have p' : Plain t' := fun a ha => ht' a (by simp [ha])
      simp only [tableIdentifier, List.flatMap_cons] at h
      obtain ⟨h1, h2⟩ := identifier_append canon hcanon e e' _ _ (ht e (by simp)).1 (ht' e' (by simp)).1
        (stop_table canon p) (stop_table canon p') h
      simp only [List.map_cons, h1, ih t' p p' h2]

theorem identifier_forget (e : Expr F) : identifier canon (forget e) = identifier canon e := by
  induction e <;> simp_all [forget, identifier, queryIdent]

theorem tableIdentifier_congr {t t' : List (Expr F)} (h : t.map forget = t'.map forget) :
    tableIdentifier canon t = tableIdentifier canon t' := by
  have key : ∀ l : List (Expr F), tableIdentifier canon l = (l.map forget).flatMap (identifier canon) := by
    intro l
    simp [tableIdentifier, List.flatMap_map, identifier_forget]
  rw [key, key, h]

end

section
variable {F : Type u} [Field F]

theorem rowValueSel_forget (t : Table F) (sel : ℕ → F) (i s : ℤ) (n : ℕ) (e : Expr F) :
    Selector.rowValueSel t sel i s n (forget e) = Selector.rowValueSel t sel i s n e := by
  unfold Selector.rowValueSel
  induction e <;> simp_all [forget, Selector.denoteSel]

theorem holds_congr {t : Table F} {sel : ℕ → ℕ → F} {n : ℕ} {input tab tab' : List (Expr F)}
    (h : tab.map forget = tab'.map forget) : Holds t sel n input tab ↔ Holds t sel n input tab' := by
  have key : ∀ (l : List (Expr F)) (s : ℕ → F) (j : ℤ), l.map (Selector.rowValueSel t s j 1 n) =
      (l.map forget).map (Selector.rowValueSel t s j 1 n) := by
    intro l s j
    simp [rowValueSel_forget]
  unfold Holds
  simp only [key tab, key tab', h]

end
end Tachyon.LookupChunk
