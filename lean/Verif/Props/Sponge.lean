import Verif.Proofs.Sponge
/-!
# C71: the duplex sponge of Poseidon
-/
namespace Tachyon.Props
open Tachyon.Sponge Tachyon.Sponge.Spec
variable {F : Type}

/-- **C71.** `Absorb` of a list with an element or more adds them one after the other to the elements of the rate
part, with a permutation when the sponge was squeezed before and whenever a block is used up; it stays
within the state, and the result does not depend on how the elements are split into calls. -/
theorem C71_absorb [Add F] (p : Params F) (hp : p.Ok) (st : State F) (h : st.Ok p) (xs : List F) (hx : xs ≠ []) :
    absorb p st xs = some (xs.foldl (absorb1 p) st) ∧ (xs.foldl (absorb1 p) st).Ok p := by
  obtain ⟨s, b, i⟩ := st
  obtain ⟨hs, hi⟩ := h
  obtain ⟨x, r, rfl⟩ := List.exists_cons_of_ne_nil hx
  unfold absorb
  cases b with
  | true =>
    by_cases e : i = p.rate
    · subst e
      have key : (x :: r).foldl (absorb1 p) ⟨s, true, p.rate⟩ =
          (x :: r).foldl (absorb1 p) ⟨p.permute s, true, 0⟩ := by
        rw [List.foldl_cons, List.foldl_cons, absorb1_full p x hp.rate]
      rw [if_pos rfl, if_pos rfl, key]
      exact absorbLoop_eq p hp _ _ _ _ (hp.permute _ hs) hp.rate (by omega)
    · rw [if_pos rfl, if_neg e]
      have hi' : i ≤ p.rate := hi
      exact absorbLoop_eq p hp _ _ _ _ hs (show i < p.rate by omega) (by omega)
  | false =>
    have key : (x :: r).foldl (absorb1 p) ⟨s, false, i⟩ =
        (x :: r).foldl (absorb1 p) ⟨p.permute s, true, 0⟩ := by
      rw [List.foldl_cons, List.foldl_cons, absorb1_stay p x hp.rate]
      unfold absorb1 turn
      rw [if_neg (by simp)]
    rw [if_neg (by simp), key]
    exact absorbLoop_eq p hp _ _ _ _ (hp.permute _ hs) hp.rate (by omega)

/-- **C71.** `Absorb` of an empty list is not without effect: it permutes the state if the sponge was squeezed or
its block is full. -/
theorem C71_absorb_empty [Add F] (p : Params F) (st : State F) (h : st.next ≤ p.rate) :
    absorb p st [] = some (if st.absorbing = true ∧ st.next < p.rate then st else ⟨p.permute st.elems, true, 0⟩) := by
  obtain ⟨s, b, i⟩ := st
  have h' : i ≤ p.rate := h
  unfold absorb absorbLoop
  cases b with
  | true =>
    by_cases e : i = p.rate
    · subst e
      simp [addAt]
    · have : i < p.rate := by omega
      simp [addAt, e, this, h']
  | false => simp [addAt]

/-- **C71.** `SqueezeNativeFieldElements` of one element or more gives the elements of the rate part one after the other,
with a permutation when the sponge was absorbing before and whenever a block is used up, except when a
whole block is asked for in the middle of a block. -/
theorem C71_squeeze [Zero F] (p : Params F) (hp : p.Ok) (st : State F) (h : st.Ok p) (n : ℕ) (hn : 0 < n)
    (hb : st.absorbing = true ∨ st.next = 0 ∨ st.next = p.rate ∨ n ≠ p.rate) :
    squeeze p st n = some (squeezeN p n st) ∧ (squeezeN p n st).2.Ok p := by
  obtain ⟨s, b, i⟩ := st
  obtain ⟨hs, hi⟩ := h
  obtain ⟨m, rfl⟩ : ∃ m, n = m + 1 := ⟨n - 1, by omega⟩
  have hi' : i ≤ p.rate := hi
  unfold squeeze
  cases b with
  | true =>
    have key : squeezeN p (m + 1) ⟨s, true, i⟩ = squeezeN p (m + 1) ⟨p.permute s, false, 0⟩ := by
      have : squeeze1 p ⟨s, true, i⟩ = squeeze1 p ⟨p.permute s, false, 0⟩ := by
        rw [squeeze1_stay p hp.rate]
        unfold squeeze1 turn
        rw [if_neg (by simp)]
      rw [squeezeN, this, squeezeN]
    rw [if_pos rfl, key]
    exact squeezeLoop_eq p hp _ _ _ _ (hp.permute _ hs) hp.rate (by omega) (Or.inl rfl)
  | false =>
    by_cases e : i = p.rate
    · subst e
      have key : squeezeN p (m + 1) ⟨s, false, p.rate⟩ = squeezeN p (m + 1) ⟨p.permute s, false, 0⟩ := by
        rw [squeezeN, squeeze1_full p hp.rate, squeezeN]
      rw [if_neg (by simp), if_pos rfl, key]
      exact squeezeLoop_eq p hp _ _ _ _ (hp.permute _ hs) hp.rate (by omega) (Or.inl rfl)
    · rw [if_neg (by simp), if_neg e]
      refine squeezeLoop_eq p hp _ _ _ _ hs (show i < p.rate by omega) (by omega) ?_
      rcases hb with hb | hb | hb | hb
      · exact absurd hb (by simp)
      · exact Or.inl hb
      · exact absurd hb e
      · exact Or.inr hb

/-- **C71.** Squeezing no element permutes as well, unless the sponge is in the middle of a block. -/
theorem C71_squeeze_none [Zero F] (p : Params F) (st : State F) (h : st.Ok p) :
    squeeze p st 0 =
      some ([], if st.absorbing = false ∧ st.next < p.rate then st else ⟨p.permute st.elems, false, 0⟩) := by
  obtain ⟨s, b, i⟩ := st
  have h' : i ≤ p.rate := h.next
  unfold squeeze squeezeLoop slice
  cases b with
  | true => simp
  | false =>
    by_cases e : i = p.rate
    · subst e
      simp
    · have : i < p.rate := by omega
      simp [e, this, h']

/-- **C71.** The claim that squeezing is independent of the calls is false: when a whole block is asked for in the middle
of a block, `SqueezeInternal` does not permute (poseidon_sponge_base.h:230 compares the remaining size with the
rate before the elements squeezed are subtracted), and the elements handed out before come again, for every
permutation. -/
theorem C71_squeeze_repeats [Zero F] (p : Params F) (s : List F) (i : ℕ)
    (hs : s.length = p.capacity + p.rate) (h0 : 0 < i) (h1 : i < p.rate) :
    squeeze p ⟨s, false, i⟩ p.rate =
      some ((List.range' (p.capacity + i) (p.rate - i)).map (fun k => s.getD k 0) ++
        (List.range' p.capacity i).map (fun k => s.getD k 0), ⟨s, false, i⟩) := by
  unfold squeeze
  rw [if_neg (by simp), if_neg (show ¬ (i = p.rate) by omega)]
  obtain ⟨f, hf⟩ : ∃ f, p.rate = f + 1 := ⟨p.rate - 1, by omega⟩
  have e : ∀ fuel, squeezeLoop p (fuel + 2) s i p.rate =
      some ((List.range' (p.capacity + i) (p.rate - i)).map (fun k => s.getD k 0) ++
        (List.range' p.capacity i).map (fun k => s.getD k 0), ⟨s, false, i⟩) := by
    intro fuel
    unfold squeezeLoop
    rw [if_neg (by omega), slice_eq _ _ _ (by omega), Option.bind_some, if_neg (by simp),
      show p.rate - (p.rate - i) = i by omega]
    unfold squeezeLoop
    rw [if_pos (by omega), Nat.add_zero, Nat.zero_add, slice_eq _ _ _ (by omega)]
    rfl
  have := e f
  rw [show f + 2 = p.rate + 1 by omega] at this
  exact this

/-- A call. -/
inductive SpongeCall (F : Type) where
  | absorb (xs : List F)
  | squeeze (n : ℕ)

/-- The calls for which the sponge works: something is absorbed or squeezed, and not exactly a block is squeezed. -/
def SpongeCall.Fine (p : Params F) : SpongeCall F → Prop
  | .absorb xs => xs ≠ []
  | .squeeze n => 0 < n ∧ n ≠ p.rate

/-- The outputs of a list of calls. -/
def runCalls [Add F] (p : Params F) : List (SpongeCall F) → State F → Option (List (List F))
  | [], _ => some []
  | .absorb xs :: cs, st => (absorb p st xs).bind fun st => runCalls p cs st
  | .squeeze n :: cs, st => (squeeze p st n).bind fun r => (runCalls p cs r.2).map (r.1 :: ·)

/-- The outputs of the sponge that works on one element at a time. -/
def specCalls [Add F] [Zero F] (p : Params F) : List (SpongeCall F) → State F → List (List F)
  | [], _ => []
  | .absorb xs :: cs, st => specCalls p cs (xs.foldl (absorb1 p) st)
  | .squeeze n :: cs, st => (squeezeN p n st).1 :: specCalls p cs (squeezeN p n st).2

/-- **C71.** Every history of such calls, from the new sponge on, gives the outputs of the sponge that works on one element
at a time. -/
theorem C71_history [Add F] [Zero F] (p : Params F) (hp : p.Ok) (cs : List (SpongeCall F)) (hc : ∀ c ∈ cs, c.Fine p) :
    runCalls p cs (State.new (p.capacity + p.rate)) = some (specCalls p cs (State.new (p.capacity + p.rate))) := by
  have main : ∀ st : State F, st.Ok p → runCalls p cs st = some (specCalls p cs st) := by
    induction cs with
    | nil => exact fun _ _ => rfl
    | cons c cs ih =>
      intro st h
      have ih := ih fun c hc' => hc c (List.mem_cons_of_mem _ hc')
      have hf := hc c List.mem_cons_self
      cases c with
      | absorb xs =>
        obtain ⟨e, h'⟩ := C71_absorb p hp st h xs hf
        rw [runCalls, e]
        exact ih _ h'
      | squeeze n =>
        obtain ⟨e, h'⟩ := C71_squeeze p hp st h n hf.1 (Or.inr (Or.inr (Or.inr hf.2)))
        rw [runCalls, e, Option.bind_some, ih _ h']
        rfl
  exact main _ ⟨by simp [State.new], Nat.zero_le _⟩

/-! A sponge of rate 2 and capacity 1 whose permutation is `x ↦ 2 x + 1` in each place. -/

def toySponge : Params ℤ := ⟨2, 1, fun s => s.map fun x => 2 * x + 1⟩

example : toySponge.Ok := ⟨by decide, by intro s h; simpa [toySponge] using h⟩
example : absorb toySponge (State.new 3) [5, 6, 7] = some ⟨[1, 18, 13], true, 1⟩ := by decide
example : (squeeze toySponge ⟨[1, 18, 13], true, 1⟩ 3).map Prod.fst = some [37, 27, 75] := by decide
/-- One and then two elements: 37, 27 and again 37. -/
example : ((squeeze toySponge ⟨[1, 18, 13], true, 1⟩ 1).bind fun r =>
    (squeeze toySponge r.2 2).map fun q => r.1 ++ q.1) = some [37, 27, 37] := by decide
/-- An empty list between absorbing and squeezing changes the output. -/
example : ((absorb toySponge (State.new 3) [5, 6]).bind fun st => (squeeze toySponge st 1).map Prod.fst) = some [11] ∧
    (((absorb toySponge (State.new 3) [5, 6]).bind fun st => absorb toySponge st []).bind fun st =>
      (squeeze toySponge st 1).map Prod.fst) = some [23] := by decide

end Tachyon.Props
