import Verif.Spec.FloorPlan
import Mathlib.Data.List.Perm.Basic
import Mathlib.Data.List.Nodup
import Mathlib.Order.MinMax
/-! First fit of the floor planner (C91). -/
namespace Tachyon.FloorPlan

/-- Disjoint intervals in order, none of them empty. -/
def Sorted (l : List Alloc) : Prop := (l.Pairwise fun a b => a.stop ≤ b.start) ∧ ∀ a ∈ l, 0 < a.length

theorem sorted_cons {a : Alloc} {l : List Alloc} (h : Sorted (a :: l)) :
    Sorted l ∧ (∀ b ∈ l, a.stop ≤ b.start) ∧ 0 < a.length :=
  ⟨⟨(List.pairwise_cons.1 h.1).2, fun b hb => h.2 b (by simp [hb])⟩, (List.pairwise_cons.1 h.1).1, h.2 a (by simp)⟩

theorem mem_insertAlloc {a : Alloc} {l : List Alloc} (hs : Sorted l) (ha : 0 < a.length) (hf : Free l a.start a.length)
    (x : Alloc) : x ∈ insertAlloc a l ↔ x = a ∨ x ∈ l := by
  induction l with
  | nil => simp [insertAlloc]
  | cons b l ih =>
    obtain ⟨h1, h2, h3⟩ := sorted_cons hs
    have hb := hf b (by simp)
    simp only [insertAlloc]
    split
    · simp
    · split
      · rw [List.mem_cons, ih h1 fun y hy => hf y (by simp [hy])]
        simp only [List.mem_cons]
        tauto
      · omega

theorem sorted_insertAlloc {a : Alloc} {l : List Alloc} (hs : Sorted l) (ha : 0 < a.length)
    (hf : Free l a.start a.length) : Sorted (insertAlloc a l) := by
  refine ⟨?_, fun x hx => ?_⟩
  · induction l with
    | nil => simp [insertAlloc]
    | cons b l ih =>
      obtain ⟨h1, h2, h3⟩ := sorted_cons hs
      have hb := hf b (by simp)
      have hf' : Free l a.start a.length := fun y hy => hf y (by simp [hy])
      simp only [insertAlloc]
      split
      · refine List.pairwise_cons.2 ⟨?_, hs.1⟩
        intro y hy
        have hab : a.stop ≤ b.start := by unfold Alloc.stop; omega
        rcases List.mem_cons.1 hy with rfl | hy
        · exact hab
        · have := h2 y hy
          unfold Alloc.stop at this hab ⊢
          omega
      · split
        · refine List.pairwise_cons.2 ⟨?_, ih h1 hf'⟩
          intro y hy
          rcases (mem_insertAlloc h1 ha hf' y).1 hy with rfl | hy
          · unfold Alloc.stop; omega
          · exact h2 y hy
        · exact hs.1
  · rcases (mem_insertAlloc hs ha hf x).1 hx with rfl | hx
    · exact ha
    · exact hs.2 x hx

theorem free_insertAlloc {a : Alloc} {l : List Alloc} (hs : Sorted l) (ha : 0 < a.length) (hf : Free l a.start a.length)
    (r len : ℕ) : Free (insertAlloc a l) r len ↔ (r + len ≤ a.start ∨ a.stop ≤ r) ∧ Free l r len := by
  unfold Free
  simp only [mem_insertAlloc hs ha hf, forall_eq_or_imp, Alloc.stop]

/-- The row `r` with `len` rows lies in an interval. -/
def Inside (s : ℕ × Option ℕ) (r len : ℕ) : Prop := s.1 ≤ r ∧ ∀ e ∈ s.2, r + len ≤ e

/-- The end of an interval is not behind `stop`. -/
def EndsBy (stop : Option ℕ) (s : ℕ × Option ℕ) : Prop := ∀ x ∈ stop, ∃ e, s.2 = some e ∧ e ≤ x

theorem freeLast_spec (stop : Option ℕ) (row : ℕ) :
    (∀ s ∈ freeLast stop row, row ≤ s.1 ∧ EndsBy stop s ∧ ∀ e ∈ s.2, s.1 < e) ∧
    (freeLast stop row).Pairwise (fun s t => ∃ e, s.2 = some e ∧ e ≤ t.1) ∧
    ∀ r len, 0 < len → row ≤ r → (∀ x ∈ stop, r + len ≤ x) → ∃ s ∈ freeLast stop row, Inside s r len := by
  unfold freeLast
  cases stop with
  | none =>
    refine ⟨?_, by simp, ?_⟩
    · simp [EndsBy]
    · intro r len _ h _
      exact ⟨(row, none), by simp, h, by simp⟩
  | some x =>
    by_cases h : row < x
    · simp only [Option.all_some, h, decide_true, if_true]
      refine ⟨?_, by simp, ?_⟩
      · simp [EndsBy, h]
      · intro r len _ h1 h2
        exact ⟨(row, some x), by simp, h1, by simpa using h2⟩
    · simp only [Option.all_some, h, decide_false, Bool.false_eq_true, if_false]
      refine ⟨by simp, by simp, ?_⟩
      intro r len h0 h1 h2
      have := h2 x rfl
      omega

theorem freeGo_spec (stop : Option ℕ) : ∀ (l : List Alloc) (row : ℕ), Sorted l →
    (∀ s ∈ freeGo stop l row, row ≤ s.1 ∧ EndsBy stop s ∧ ∀ e ∈ s.2, s.1 < e) ∧
    (freeGo stop l row).Pairwise (fun s t => ∃ e, s.2 = some e ∧ e ≤ t.1) ∧
    ∀ r len, 0 < len → row ≤ r → (∀ x ∈ stop, r + len ≤ x) →
      (Free l r len ↔ ∃ s ∈ freeGo stop l row, Inside s r len) := by
  intro l
  induction l with
  | nil =>
    intro row _
    obtain ⟨h1, h2, h3⟩ := freeLast_spec stop row
    refine ⟨h1, h2, fun r len h4 h5 h6 => ?_⟩
    simp only [freeGo]
    exact ⟨fun _ => h3 r len h4 h5 h6, fun _ => by simp [Free]⟩
  | cons a l ih =>
    intro row hs
    obtain ⟨hs', ha, hpos⟩ := sorted_cons hs
    simp only [freeGo]
    by_cases hstop : (stop.any fun e => decide (e ≤ a.start)) = true
    · rw [if_pos hstop]
      obtain ⟨h1, h2, h3⟩ := freeLast_spec stop row
      refine ⟨h1, h2, fun r len h4 h5 h6 => ⟨fun _ => h3 r len h4 h5 h6, fun _ => ?_⟩⟩
      obtain ⟨x, hx, hxa⟩ : ∃ x ∈ stop, x ≤ a.start := by
        cases stop with
        | none => simp at hstop
        | some x => exact ⟨x, rfl, by simpa using hstop⟩
      have h7 := h6 x hx
      intro b hb
      left
      rcases List.mem_cons.1 hb with rfl | hb
      · omega
      · have := ha b hb
        unfold Alloc.stop at this
        omega
    · rw [if_neg hstop]
      obtain ⟨h1, h2, h3⟩ := ih (max row a.stop) hs'
      have hstop' : ∀ x ∈ stop, a.start < x := by
        intro x hx
        by_contra hc
        apply hstop
        rw [Option.mem_def.1 hx]
        simp
        omega
      have hfirst : ∀ s ∈ (if row < a.start then [(row, some a.start)] else [] : List (ℕ × Option ℕ)),
          s = (row, some a.start) ∧ row < a.start := by
        intro s hs
        split at hs
        · next h => exact ⟨by simpa using hs, h⟩
        · simp at hs
      refine ⟨?_, ?_, ?_⟩
      · intro s hs
        rcases List.mem_append.1 hs with hs | hs
        · obtain ⟨rfl, h⟩ := hfirst s hs
          refine ⟨le_rfl, fun x hx => ⟨a.start, rfl, (hstop' x hx).le⟩, ?_⟩
          intro e he
          simp only [Option.mem_def, Option.some.injEq] at he
          omega
        · obtain ⟨g1, g2, g3⟩ := h1 s hs
          exact ⟨by omega, g2, g3⟩
      · refine List.pairwise_append.2 ⟨by split <;> simp, h2, ?_⟩
        intro s hs t ht
        obtain ⟨rfl, h⟩ := hfirst s hs
        refine ⟨a.start, rfl, ?_⟩
        have := (h1 t ht).1
        unfold Alloc.stop at this
        omega
      · intro r len h4 h5 h6
        constructor
        · intro hf
          rcases hf a (by simp) with h | h
          · refine ⟨(row, some a.start), ?_, h5, by simpa using h⟩
            rw [if_pos (by omega)]
            simp
          · have hf' : Free l r len := fun b hb => hf b (by simp [hb])
            obtain ⟨s, hs, hi⟩ := (h3 r len h4 (by unfold Alloc.stop; omega) h6).1 hf'
            exact ⟨s, List.mem_append_right _ hs, hi⟩
        · rintro ⟨s, hs, hi⟩
          rcases List.mem_append.1 hs with hs | hs
          · obtain ⟨rfl, h⟩ := hfirst s hs
            have := hi.2 a.start rfl
            intro b hb
            left
            rcases List.mem_cons.1 hb with rfl | hb
            · exact this
            · have := ha b hb
              unfold Alloc.stop at this
              omega
          · have hr : max row a.stop ≤ r := (h1 s hs).1.trans hi.1
            have hf := (h3 r len h4 hr h6).2 ⟨s, hs, hi⟩
            intro b hb
            rcases List.mem_cons.1 hb with rfl | hb
            · right
              unfold Alloc.stop at hr
              omega
            · exact hf b hb

section
variable {C : Type} [DecidableEq C]

/-- All columns are free. -/
def AllFree (p : Plan C) (cs : List C) (r len : ℕ) : Prop := ∀ c ∈ cs, Free (p.allocs c) r len

/-- The plan with a region in some columns. -/
def Placed (p p' : Plan C) (cs : List C) (a : Alloc) : Prop :=
  ∀ c, p'.allocs c = if c ∈ cs then insertAlloc a (p.allocs c) else p.allocs c

/-- What the keys of the plan may become. -/
def KeysOk (p p' : Plan C) (cs : List C) (all : Bool) : Prop :=
  (∀ c ∈ p.keys, c ∈ p'.keys) ∧ (∀ c ∈ p'.keys, c ∈ p.keys ∨ c ∈ cs) ∧ (all = true → ∀ c ∈ cs, c ∈ p'.keys)

/-- What first fit does: the least row in the range where all columns are free, if any. -/
def FitSpec (cs : List C) (len start : ℕ) (slack : Option ℕ) (p : Plan C) (r : Option (Option ℕ × Plan C)) : Prop :=
  ∃ row p', r = some (row, p') ∧
    match row with
    | some x => start ≤ x ∧ (∀ s ∈ slack, x ≤ start + s) ∧ AllFree p cs x len ∧
        (∀ y, start ≤ y → y < x → ¬ AllFree p cs y len) ∧ Placed p p' cs ⟨x, len⟩ ∧ KeysOk p p' cs true
    | none => (∀ y, start ≤ y → (∀ s ∈ slack, y ≤ start + s) → ¬ AllFree p cs y len) ∧ p'.allocs = p.allocs ∧
        KeysOk p p' cs false

omit [DecidableEq C] in
theorem allFree_congr {p q : Plan C} (h : p.allocs = q.allocs) {cs : List C} {r len : ℕ} :
    AllFree p cs r len ↔ AllFree q cs r len := by
  unfold AllFree
  rw [h]

theorem trySpaces_spec {rec : ℕ → Option ℕ → Plan C → Option (Option ℕ × Plan C)} {c : C} {cs : List C} {len : ℕ}
    {slack stop : Option ℕ} {A : C → List Alloc} (hlen : 0 < len) (hc : c ∉ cs) (start : ℕ)
    (hstop : stop = slack.map fun x => start + len + x)
    (hrec : ∀ s sl p, p.allocs = A → FitSpec cs len s sl p (rec s sl p)) :
    ∀ (sp : List (ℕ × Option ℕ)) (p : Plan C), p.allocs = A → c ∈ p.keys →
      (∀ s ∈ sp, start ≤ s.1 ∧ EndsBy stop s ∧ ∀ e ∈ s.2, s.1 < e) →
      sp.Pairwise (fun s t => ∃ e, s.2 = some e ∧ e ≤ t.1) →
      ∃ row p', trySpaces rec c len slack stop sp p = some (row, p') ∧
        match row with
        | some x => (∃ s ∈ sp, Inside s x len) ∧ AllFree p cs x len ∧
            (∀ y, (∃ s ∈ sp, Inside s y len) → AllFree p cs y len → x ≤ y) ∧ Placed p p' (c :: cs) ⟨x, len⟩ ∧
            KeysOk p p' (c :: cs) true
        | none => (∀ y, (∃ s ∈ sp, Inside s y len) → ¬ AllFree p cs y len) ∧ p'.allocs = p.allocs ∧
            KeysOk p p' (c :: cs) false := by
  intro sp
  induction sp with
  | nil =>
    intro p hp hk _ _
    exact ⟨none, p, rfl, by simp, rfl, fun _ h => h, fun _ h => Or.inl h, by simp⟩
  | cons s sp ih =>
    obtain ⟨s, e⟩ := s
    intro p hp hk h1 h2
    obtain ⟨g1, g2, g3⟩ := h1 (s, e) (by simp)
    simp only at g1 g3
    obtain ⟨q1, q2⟩ := List.pairwise_cons.1 h2
    have h1' : ∀ s ∈ sp, start ≤ s.1 ∧ EndsBy stop s ∧ ∀ e ∈ s.2, s.1 < e := fun t ht => h1 t (by simp [ht])
    simp only [trySpaces]
    -- the first check
    have hcheck : (slack.any fun x => (e.map fun e => (e : ℤ) - s - len).any fun y => decide ((x : ℤ) < y)) = false := by
      cases slack with
      | none => rfl
      | some x =>
        obtain ⟨e', he', hle⟩ := g2 (start + len + x) (by rw [hstop]; rfl)
        simp only at he'
        rw [he']
        simp
        omega
    rw [hcheck]
    simp only [Bool.false_eq_true, if_false]
    by_cases hroom : ((e.map fun e => (e : ℤ) - s - len).all fun y => decide (0 ≤ y)) = true
    · rw [if_pos hroom]
      obtain ⟨row, p', hr, hspec⟩ := hrec s ((e.map fun e => (e : ℤ) - s - len).map Int.toNat) p hp
      rw [hr]
      simp only [Option.bind_some]
      -- inside this interval
      have hinside : ∀ y, Inside (s, e) y len ↔
          s ≤ y ∧ ∀ t ∈ ((e.map fun e => (e : ℤ) - s - len).map Int.toNat), y ≤ s + t := by
        intro y
        unfold Inside
        cases e with
        | none => simp
        | some e =>
          simp at hroom
          simp
          intro _
          omega
      cases row with
      | some x =>
        simp only at hspec
        obtain ⟨a1, a2, a3, a4, a5, a6⟩ := hspec
        have hin : Inside (s, e) x len := (hinside x).2 ⟨a1, a2⟩
        have hcheck2 : (stop.any fun e => decide (e < x + len)) = false := by
          cases hst : stop with
          | none => rfl
          | some z =>
            obtain ⟨e', he', hle⟩ := g2 z (by rw [hst]; rfl)
            simp only at he'
            have := hin.2 e' (by simp [he'])
            simp
            omega
        simp only [hcheck2, Bool.false_eq_true, if_false]
        refine ⟨some x, _, rfl, ⟨(s, e), by simp, hin⟩, a3, ?_, ?_, ?_⟩
        · rintro y ⟨t, ht, hy⟩ hfree
          by_contra hlt
          rcases List.mem_cons.1 ht with rfl | ht
          · exact a4 y hy.1 (by omega) hfree
          · obtain ⟨e', he', hle⟩ := q1 t ht
            simp only at he'
            have h5 := hin.2 e' (by simp [he'])
            have := hy.1
            omega
        · intro d
          simp only [Plan.insert]
          by_cases hd : d = c
          · subst hd
            rw [if_pos rfl, if_pos (by simp), a5 d, if_neg hc]
          · rw [if_neg hd, a5 d]
            simp [hd]
        · refine ⟨a6.1, fun d hd => ?_, fun _ d hd => ?_⟩
          · rcases a6.2.1 d hd with h | h
            · exact Or.inl h
            · exact Or.inr (by simp [h])
          · rcases List.mem_cons.1 hd with rfl | hd
            · exact a6.1 _ hk
            · exact a6.2.2 rfl d hd
      | none =>
        simp only at hspec ⊢
        obtain ⟨a1, a2, a3⟩ := hspec
        obtain ⟨row, p'', hr', hspec'⟩ := ih p' (by rw [a2, hp]) (a3.1 c hk) h1' q2
        refine ⟨row, p'', hr', ?_⟩
        have hcur : ∀ y, Inside (s, e) y len → ¬ AllFree p cs y len := fun y hy => a1 y hy.1 ((hinside y).1 hy).2
        have hkeys : ∀ b, KeysOk p' p'' (c :: cs) b → KeysOk p p'' (c :: cs) b := by
          rintro b ⟨k1, k2, k3⟩
          refine ⟨fun d hd => k1 d (a3.1 d hd), fun d hd => ?_, k3⟩
          rcases k2 d hd with h | h
          · rcases a3.2.1 d h with h | h
            · exact Or.inl h
            · exact Or.inr (by simp [h])
          · exact Or.inr h
        cases row with
        | some x =>
          simp only at hspec' ⊢
          obtain ⟨⟨t, ht, hi⟩, b2, b3, b4, b5⟩ := hspec'
          refine ⟨⟨t, by simp [ht], hi⟩, (allFree_congr a2).1 b2, ?_, ?_, hkeys _ b5⟩
          · rintro y ⟨t', ht', hy⟩ hfree
            rcases List.mem_cons.1 ht' with rfl | ht'
            · exact absurd hfree (hcur y hy)
            · exact b3 y ⟨t', ht', hy⟩ ((allFree_congr a2).2 hfree)
          · intro d
            rw [b4 d, a2]
        | none =>
          simp only at hspec' ⊢
          obtain ⟨b1, b2, b3⟩ := hspec'
          refine ⟨?_, by rw [b2, a2], hkeys _ b3⟩
          rintro y ⟨t', ht', hy⟩
          rcases List.mem_cons.1 ht' with rfl | ht'
          · exact hcur y hy
          · exact fun hfree => b1 y ⟨t', ht', hy⟩ ((allFree_congr a2).2 hfree)
    · rw [if_neg hroom]
      obtain ⟨row, p', hr', hspec'⟩ := ih p hp hk h1' q2
      refine ⟨row, p', hr', ?_⟩
      have hno : ∀ y, ¬ Inside (s, e) y len := by
        rintro y ⟨h3, h4⟩
        apply hroom
        cases e with
        | none => rfl
        | some e =>
          have := h4 e rfl
          simp only at h3
          simp
          omega
      cases row with
      | some x =>
        simp only at hspec' ⊢
        obtain ⟨⟨t, ht, hi⟩, b2, b3, b4, b5⟩ := hspec'
        refine ⟨⟨t, by simp [ht], hi⟩, b2, ?_, b4, b5⟩
        rintro y ⟨t', ht', hy⟩ hfree
        rcases List.mem_cons.1 ht' with rfl | ht'
        · exact absurd hy (hno y)
        · exact b3 y ⟨t', ht', hy⟩ hfree
      | none =>
        simp only at hspec' ⊢
        obtain ⟨b1, b2, b3⟩ := hspec'
        refine ⟨?_, b2, b3⟩
        rintro y ⟨t', ht', hy⟩
        rcases List.mem_cons.1 ht' with rfl | ht'
        · exact absurd hy (hno y)
        · exact b1 y ⟨t', ht', hy⟩

theorem touch_keys (p : Plan C) (c : C) : c ∈ (p.touch c).keys ∧ (∀ d ∈ p.keys, d ∈ (p.touch c).keys) ∧
    ∀ d ∈ (p.touch c).keys, d ∈ p.keys ∨ d = c := by
  unfold Plan.touch
  simp only
  split
  · next h => exact ⟨h, fun _ h => h, fun _ h => Or.inl h⟩
  · exact ⟨by simp, fun _ h => by simp [h], fun d h => by simpa using h⟩

theorem firstFit_spec {len : ℕ} (hlen : 0 < len) : ∀ (cs : List C), cs.Nodup → ∀ (start : ℕ) (slack : Option ℕ)
    (p : Plan C), (∀ c ∈ cs, Sorted (p.allocs c)) → FitSpec cs len start slack p (firstFit cs len start slack p) := by
  intro cs
  induction cs with
  | nil =>
    intro _ start slack p _
    refine ⟨some start, p, rfl, le_rfl, fun s _ => by omega, by simp [AllFree], fun y _ _ => by omega, fun c => by simp,
      fun _ h => h, fun _ h => Or.inl h, by simp⟩
  | cons c cs ih =>
    intro hnd start slack p hs
    obtain ⟨hc, hnd'⟩ := List.nodup_cons.1 hnd
    simp only [firstFit, freeIntervals]
    obtain ⟨f1, f2, f3⟩ := freeGo_spec (slack.map fun x => start + len + x) (p.allocs c) start (hs c (by simp))
    have hrec : ∀ s sl (q : Plan C), q.allocs = p.allocs → FitSpec cs len s sl q (firstFit cs len s sl q) := by
      intro s sl q hq
      refine ih hnd' s sl q fun d hd => ?_
      rw [hq]
      exact hs d (by simp [hd])
    obtain ⟨t1, t2, t3⟩ := touch_keys p c
    obtain ⟨row, p', hr, hspec⟩ := trySpaces_spec (A := p.allocs) hlen hc start rfl hrec _ (p.touch c) rfl t1 f1 f2
    refine ⟨row, p', hr, ?_⟩
    have hkeys : ∀ b, KeysOk (p.touch c) p' (c :: cs) b → KeysOk p p' (c :: cs) b := by
      rintro b ⟨k1, k2, k3⟩
      refine ⟨fun d hd => k1 d (t2 d hd), fun d hd => ?_, k3⟩
      rcases k2 d hd with h | h
      · rcases t3 d h with h | h
        · exact Or.inl h
        · exact Or.inr (by simp [h])
      · exact Or.inr h
    have hbound : ∀ y, (∀ s ∈ slack, y ≤ start + s) →
        ∀ x ∈ slack.map fun x => start + len + x, y + len ≤ x := by
      intro y hy x hx
      obtain ⟨s, hs, rfl⟩ := Option.map_eq_some_iff.1 hx
      have := hy s hs
      omega
    have hall : ∀ y, AllFree p (c :: cs) y len ↔ Free (p.allocs c) y len ∧ AllFree p cs y len := by
      intro y
      simp [AllFree]
    cases row with
    | some x =>
      simp only at hspec ⊢
      obtain ⟨⟨s, hs', hi⟩, b2, b3, b4, b5⟩ := hspec
      have hx : start ≤ x := (f1 s hs').1.trans hi.1
      have hslack : ∀ s ∈ slack, x ≤ start + s := by
        intro z hz
        obtain ⟨e, he, hle⟩ := (f1 s hs').2.1 (start + len + z) (by rw [Option.mem_def.1 hz]; rfl)
        have := hi.2 e he
        omega
      refine ⟨hx, hslack, (hall x).2 ⟨(f3 x len hlen hx (hbound x hslack)).2 ⟨s, hs', hi⟩, b2⟩, ?_, b4, hkeys _ b5⟩
      intro y hy hlt hf
      obtain ⟨hf1, hf2⟩ := (hall y).1 hf
      have := b3 y ((f3 y len hlen hy (hbound y fun s hs => by have := hslack s hs; omega)).1 hf1) hf2
      omega
    | none =>
      simp only at hspec ⊢
      obtain ⟨b1, b2, b3⟩ := hspec
      refine ⟨?_, b2, hkeys _ b3⟩
      intro y hy hsl hf
      obtain ⟨hf1, hf2⟩ := (hall y).1 hf
      exact b1 y ((f3 y len hlen hy (hbound y hsl)).1 hf1) hf2

end
end Tachyon.FloorPlan
