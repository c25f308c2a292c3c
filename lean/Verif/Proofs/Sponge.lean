import Verif.Model.Sponge
import Verif.Spec.Sponge
import Mathlib.Data.List.GetD
import Mathlib.Tactic.Conv
/-!
# Lemmas on the duplex sponge
-/
namespace Tachyon.Sponge
open Spec
variable {F : Type}

/-- The permutation keeps the width, and there is room for an element. -/
structure Params.Ok (p : Params F) : Prop where
  rate : 0 < p.rate
  permute : ∀ s, s.length = p.capacity + p.rate → (p.permute s).length = p.capacity + p.rate

/-- A state of the right size. -/
structure State.Ok (p : Params F) (st : State F) : Prop where
  elems : st.elems.length = p.capacity + p.rate
  next : st.next ≤ p.rate

theorem set_eq_modify [Add F] (s : List F) (k : ℕ) (x y : F) (h : s[k]? = some y) :
    s.set k (y + x) = s.modify k (· + x) := by
  apply List.ext_getElem?
  intro i
  rw [List.getElem?_set, List.getElem?_modify]
  have hk : k < s.length := by
    rw [List.getElem?_eq_some_iff] at h
    exact h.1
  by_cases e : k = i
  · subst e
    have hy : s[k] = y := by
      rw [List.getElem?_eq_getElem hk] at h
      exact Option.some.inj h
    simp [hk, hy]
  · simp [e]

section
variable [Add F] (p : Params F)

omit [Add F] in
theorem turn_stay {s : List F} {i : ℕ} {b : Bool} (h : i < p.rate) : turn p b ⟨s, b, i⟩ = (s, i) := by
  unfold turn; rw [if_pos ⟨rfl, h⟩]

theorem absorb1_stay {s : List F} {i : ℕ} (x : F) (h : i < p.rate) :
    absorb1 p ⟨s, true, i⟩ x = ⟨s.modify (p.capacity + i) (· + x), true, i + 1⟩ := by
  unfold absorb1; rw [turn_stay p h]

theorem absorb1_full {s : List F} (x : F) (hr : 0 < p.rate) :
    absorb1 p ⟨s, true, p.rate⟩ x = absorb1 p ⟨p.permute s, true, 0⟩ x := by
  rw [absorb1_stay p x hr]
  unfold absorb1 turn
  rw [if_neg (by simp)]

theorem addAt_eq (xs : List F) (s : List F) (start : ℕ) (hs : s.length = p.capacity + p.rate)
    (h : start + xs.length ≤ p.rate) :
    ∃ t, addAt (p.capacity + start) xs s = some t ∧ t.length = p.capacity + p.rate ∧
      xs.foldl (absorb1 p) ⟨s, true, start⟩ = ⟨t, true, start + xs.length⟩ := by
  induction xs generalizing s start with
  | nil => exact ⟨s, rfl, hs, rfl⟩
  | cons x xs ih =>
    rw [List.length_cons] at h
    have hk : p.capacity + start < s.length := by omega
    have hy : s[p.capacity + start]? = some s[p.capacity + start] := List.getElem?_eq_getElem hk
    obtain ⟨t, e, l, f⟩ := ih (s.modify (p.capacity + start) (· + x)) (start + 1)
      (by rw [List.length_modify]; exact hs) (by omega)
    refine ⟨t, ?_, l, ?_⟩
    · rw [addAt, hy, Option.bind_some, set_eq_modify _ _ _ _ hy]
      exact e
    · rw [List.foldl_cons, absorb1_stay p x (by omega), f, List.length_cons]
      congr 1
      omega

theorem absorbLoop_eq (hp : p.Ok) (fuel : ℕ) (xs s : List F) (start : ℕ)
    (hs : s.length = p.capacity + p.rate) (h : start < p.rate) (hf : xs.length < fuel) :
    absorbLoop p fuel s start xs = some (xs.foldl (absorb1 p) ⟨s, true, start⟩) ∧
      (xs.foldl (absorb1 p) ⟨s, true, start⟩).Ok p := by
  induction fuel generalizing xs s start with
  | zero => omega
  | succ fuel ih =>
    unfold absorbLoop
    by_cases hl : start + xs.length ≤ p.rate
    · rw [if_pos hl]
      obtain ⟨t, e, l, f⟩ := addAt_eq p xs s start hs hl
      rw [e, f]
      exact ⟨rfl, l, hl⟩
    · rw [if_neg hl]
      have hlen : (xs.take (p.rate - start)).length = p.rate - start := by
        rw [List.length_take]; omega
      obtain ⟨t, e, l, f⟩ := addAt_eq p (xs.take (p.rate - start)) s start hs (by omega)
      rw [e, Option.bind_some]
      have hd : (xs.drop (p.rate - start)).length = xs.length - (p.rate - start) := List.length_drop
      have key : xs.foldl (absorb1 p) ⟨s, true, start⟩ =
          (xs.drop (p.rate - start)).foldl (absorb1 p) ⟨p.permute t, true, 0⟩ := by
        conv_lhs => rw [← List.take_append_drop (p.rate - start) xs]
        rw [List.foldl_append, f, hlen, show start + (p.rate - start) = p.rate by omega]
        cases hx : xs.drop (p.rate - start) with
        | nil => rw [hx] at hd; simp at hd; omega
        | cons x r => rw [List.foldl_cons, List.foldl_cons, absorb1_full p x hp.rate]
      rw [key]
      exact ih _ _ _ (hp.permute _ l) hp.rate (by omega)

end

/-! ## Squeezing -/

theorem slice_eq [Zero F] (s : List F) (k n : ℕ) (h : k + n ≤ s.length) :
    slice s k n = some ((List.range' k n).map fun i => s.getD i 0) := by
  unfold slice
  induction n generalizing k with
  | zero => rfl
  | succ n ih =>
    have hk : k < s.length := by omega
    rw [List.range'_succ, List.mapM_cons, ih (k + 1) (by omega), List.getElem?_eq_getElem hk, List.map_cons,
      List.getD_eq_getElem _ _ hk]
    rfl

theorem squeeze1_stay [Zero F] (p : Params F) {s : List F} {i : ℕ} (h : i < p.rate) :
    squeeze1 p ⟨s, false, i⟩ = (s.getD (p.capacity + i) 0, ⟨s, false, i + 1⟩) := by
  unfold squeeze1; rw [turn_stay p h]

theorem squeeze1_full [Zero F] (p : Params F) {s : List F} (hr : 0 < p.rate) :
    squeeze1 p ⟨s, false, p.rate⟩ = squeeze1 p ⟨p.permute s, false, 0⟩ := by
  rw [squeeze1_stay p hr]
  unfold squeeze1 turn
  rw [if_neg (by simp)]

theorem squeezeN_stay [Zero F] (p : Params F) (n : ℕ) (s : List F) (start : ℕ) (h : start + n ≤ p.rate) :
    squeezeN p n ⟨s, false, start⟩ =
      ((List.range' (p.capacity + start) n).map fun i => s.getD i 0, ⟨s, false, start + n⟩) := by
  induction n generalizing start with
  | zero => rfl
  | succ n ih =>
    rw [squeezeN, squeeze1_stay p (by omega), ih (start + 1) (by omega), List.range'_succ,
      List.map_cons]
    simp only [Prod.mk.injEq, List.cons.injEq, State.mk.injEq, true_and]
    exact ⟨by rw [Nat.add_assoc], by omega⟩

theorem squeezeN_add [Zero F] (p : Params F) (m n : ℕ) (st : State F) :
    squeezeN p (m + n) st =
      ((squeezeN p m st).1 ++ (squeezeN p n (squeezeN p m st).2).1, (squeezeN p n (squeezeN p m st).2).2) := by
  induction m generalizing st with
  | zero => simp [squeezeN]
  | succ m ih =>
    rw [show m + 1 + n = (m + n) + 1 by omega, squeezeN, ih, squeezeN]
    rfl

theorem squeezeLoop_eq [Zero F] (p : Params F) (hp : p.Ok) (fuel n : ℕ) (s : List F) (start : ℕ)
    (hs : s.length = p.capacity + p.rate) (h : start < p.rate) (hf : n < fuel)
    (hn : start = 0 ∨ n ≠ p.rate) :
    squeezeLoop p fuel s start n = some (squeezeN p n ⟨s, false, start⟩) ∧
      (squeezeN p n ⟨s, false, start⟩).2.Ok p := by
  induction fuel generalizing n s start with
  | zero => omega
  | succ fuel ih =>
    unfold squeezeLoop
    by_cases hl : start + n ≤ p.rate
    · rw [if_pos hl, slice_eq _ _ _ (by omega), squeezeN_stay p n s start hl]
      exact ⟨rfl, hs, hl⟩
    · have hne : n ≠ p.rate := by
        rcases hn with e | e
        · subst e; omega
        · exact e
      rw [if_neg hl, slice_eq _ _ _ (by omega), Option.bind_some, if_pos hne]
      have e1 : n = (p.rate - start) + (n - (p.rate - start)) := by omega
      obtain ⟨m, hm⟩ : ∃ m, n - (p.rate - start) = m + 1 := ⟨n - (p.rate - start) - 1, by omega⟩
      have key : squeezeN p n ⟨s, false, start⟩ =
          ((List.range' (p.capacity + start) (p.rate - start)).map (fun i => s.getD i 0) ++
            (squeezeN p (n - (p.rate - start)) ⟨p.permute s, false, 0⟩).1,
           (squeezeN p (n - (p.rate - start)) ⟨p.permute s, false, 0⟩).2) := by
        conv_lhs => rw [e1]
        rw [squeezeN_add, squeezeN_stay p _ s start (by omega),
          show start + (p.rate - start) = p.rate by omega, hm, squeezeN, squeeze1_full p hp.rate, squeezeN]
      obtain ⟨i1, i2⟩ := ih (n - (p.rate - start)) (p.permute s) 0 (hp.permute _ hs) hp.rate (by omega) (Or.inl rfl)
      rw [i1, key]
      exact ⟨rfl, i2⟩

end Tachyon.Sponge
