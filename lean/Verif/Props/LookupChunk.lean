import Verif.Proofs.LookupMeaning
import Verif.Spec.F97
/-!
# C90: lookups with several inputs

For the log-derivative lookups a constraint system collects the inputs of every table under an identifier of the table, and
then splits them into arguments of bounded degree.
-/
universe u
namespace Tachyon.Props
open Plonk CircuitPoly LookupChunk

section
variable {F : Type u}

/-- Two tables without scaled expressions, whose expressions are not constants by themselves, have the same identifier exactly
if they are the same up to the indices of the queries. -/
theorem C90_identifier {canon : F → ℕ} (hcanon : Function.Injective canon) {t t' : List (Expr F)} (ht : Plain t)
    (ht' : Plain t') : tableIdentifier canon t = tableIdentifier canon t' ↔ t.map forget = t'.map forget :=
  ⟨tableIdentifier_inj canon hcanon t t' ht ht', tableIdentifier_congr canon⟩

/-- The lookups fail exactly if an input contains a simple selector. -/
theorem C90_simple (canon : F → ℕ) (simple : ℕ → Bool) (calls : List (List (Expr F × Expr F))) :
    lookupAll canon simple calls [] = none ↔ ∃ c ∈ calls, ∃ p ∈ c, Selector.simpleOf simple p.1 ≠ [] :=
  lookupAll_none canon simple calls []

/-- The map has every lookup exactly once, and every table once. -/
theorem C90_map {canon : F → ℕ} (hcanon : Function.Injective canon) {simple : ℕ → Bool}
    {calls : List (List (Expr F × Expr F))} {m : LookupMap F} (hc : ∀ c ∈ calls, Plain (c.map Prod.snd))
    (h : lookupAll canon simple calls [] = some m) :
    (m.flatMap fun p => p.2.inputs.map fun i => (p.2.table.map forget, i)).Perm
        (calls.map fun c => ((c.map Prod.snd).map forget, c.map Prod.fst)) ∧
      (m.Pairwise fun p q => p.2.table.map forget ≠ q.2.table.map forget) ∧
      (m.Pairwise fun p q => p.1 < q.1) ∧ ∀ p ∈ m, p.1 = tableIdentifier canon p.2.table := by
  obtain ⟨h1, h2, h3⟩ := lookupAll_spec (P := Plain) h (by simp) hc (by simp)
  refine ⟨?_, ?_, h3, fun p hp => (h2 p hp).1⟩
  · have := mapPairs_forget hcanon hc (fun p hp => ⟨(h2 p hp).1, (h2 p hp).2.2⟩) (by simpa [entries] using h1)
    simpa [mapPairs, List.map_flatMap, Function.comp_def] using this
  · refine h3.imp_of_mem ?_
    intro p q hp hq hlt e
    have : p.1 = q.1 := by
      rw [(h2 p hp).1, (h2 q hq).1]
      exact tableIdentifier_congr canon e
    rw [this] at hlt
    exact absurd hlt (List.lt_irrefl _)

/-- Whatever the map is, every input is in exactly one argument. -/
theorem C90_inputs {gates : List (List (Expr F))} {minimum M : Option ℕ} {m : LookupMap F} {as : List (MultiArgument F)}
    (h : chunkLookups gates minimum m = some (as, M)) :
    (as.flatMap fun a => a.inputs).Perm (m.flatMap fun p => p.2.inputs) := by
  unfold chunkLookups at h
  split at h
  · next hm =>
    simp only [List.isEmpty_iff] at hm
    simp only [Option.some.injEq, Prod.mk.injEq] at h
    rw [← h.1, hm]
    simp
  · obtain ⟨ds, _, h⟩ := Option.bind_eq_some_iff.1 h
    obtain ⟨as', h1, h2⟩ := Option.map_eq_some_iff.1 h
    simp only [Prod.mk.injEq] at h2
    rw [← h2.1]
    simpa [allInputs] using chunkTables_perm h1

/-- If only the first table of the map has several inputs, every input stays with its table. The minimum degree is one more
than the smallest power of two that the gates and each lookup on its own need, if it was not larger before; no argument
exceeds it unless an input is constant. No input of the first table would have fitted an earlier argument. -/
theorem C90_chunk {gates : List (List (Expr F))} {minimum : Option ℕ} {k : List Char} {t : Tracker F} {m : LookupMap F}
    (hm : ∀ p ∈ (k, t) :: m, p.2.table ≠ [] ∧ p.2.inputs ≠ [] ∧ ∀ i ∈ p.2.inputs, i.length = p.2.table.length)
    (hone : ∀ p ∈ m, p.2.inputs.length = 1) :
    ∃ as r M, M = max (minimum.getD 0) (2 ^ r + 1) ∧ chunkLookups gates minimum ((k, t) :: m) = some (as, some M) ∧
      (∀ j, r ≤ j ↔ (∀ g ∈ gates, ∀ e ∈ g, degree e ≤ 2 ^ j) ∧
        ∀ p ∈ (k, t) :: m, ∀ i ∈ p.2.inputs, max 3 (maxDegree p.2.table + 2) + maxDegree i ≤ 2 ^ j) ∧
      (as.flatMap fun a => a.inputs.map fun i => (a.table, i)).Perm
        (((k, t) :: m).flatMap fun p => p.2.inputs.map fun i => (p.2.table, i)) ∧
      (∀ a ∈ as, requiredDegree a = some (argDegree a)) ∧
      ((∀ p ∈ (k, t) :: m, ∀ i ∈ p.2.inputs, 1 ≤ maxDegree i) → ∀ a ∈ as, argDegree a ≤ M) ∧
      ∃ l, as = l ++ (m.map fun p => ⟨p.2.inputs, p.2.table⟩) ∧ (∀ a ∈ l, a.table = t.table) ∧
        l.Pairwise fun a b => ∀ i ∈ b.inputs, M < argDegree a + maxDegree i := by
  obtain ⟨as, r, h1, h2, h3, h4, ⟨l, h5, h6, h7⟩, h8⟩ := chunkLookups_spec (gates := gates) (minimum := minimum) hm
    fun p hp => List.length_eq_one_iff.1 (hone p hp)
  refine ⟨as, r, _, rfl, h1, fun j => (h2 j).symm, h3, ?_, h8, l, h5, fun a ha => (h6 a ha).1, ?_⟩
  · intro a ha
    rw [requiredDegree_eq (h4 a ha), cost_eq]
  · refine List.Pairwise.imp ?_ h7
    intro a b h i hi
    have := h i hi
    rw [cost_eq] at this
    exact this

variable [Field F]

/-- The map means what the lookups mean. -/
theorem C90_map_meaning {canon : F → ℕ} (hcanon : Function.Injective canon) {simple : ℕ → Bool}
    {calls : List (List (Expr F × Expr F))} {m : LookupMap F} (hc : ∀ c ∈ calls, Plain (c.map Prod.snd))
    (h : lookupAll canon simple calls [] = some m) (t : Table F) (sel : ℕ → ℕ → F) (n : ℕ) :
    (∀ p ∈ m, ∀ i ∈ p.2.inputs, Holds t sel n i p.2.table) ↔
      ∀ c ∈ calls, Holds t sel n (c.map Prod.fst) (c.map Prod.snd) := by
  have h1 := (C90_map hcanon hc h).1
  constructor
  · intro hh c hc'
    have hmem := h1.mem_iff.2 (List.mem_map_of_mem hc')
    simp only [List.mem_flatMap, List.mem_map, Prod.mk.injEq] at hmem
    obtain ⟨p, hp, i, hi, e1, e2⟩ := hmem
    rw [← e2]
    exact (holds_congr e1).1 (hh p hp i hi)
  · intro hh p hp i hi
    have hmem : (p.2.table.map forget, i) ∈ m.flatMap fun p => p.2.inputs.map fun i => (p.2.table.map forget, i) :=
      List.mem_flatMap.2 ⟨p, hp, List.mem_map.2 ⟨i, hi, rfl⟩⟩
    have := h1.mem_iff.1 hmem
    simp only [List.mem_map, Prod.mk.injEq] at this
    obtain ⟨c, hc', e1, e2⟩ := this
    rw [← e2]
    exact (holds_congr e1).1 (hh c hc')

/-- If all lookups are into one table or all into different tables, the arguments mean what the lookups mean, and the
degrees of the arguments are bounded by the new minimum degree. -/
theorem C90_lookups {canon : F → ℕ} (hcanon : Function.Injective canon) {simple : ℕ → Bool}
    {calls : List (List (Expr F × Expr F))} (hne : calls ≠ []) (hw : ∀ c ∈ calls, c ≠ [])
    (hs : ∀ c ∈ calls, ∀ p ∈ c, Selector.simpleOf simple p.1 = [])
    (hc : ∀ c ∈ calls, Plain (c.map Prod.snd))
    (htab : (∀ c ∈ calls, ∀ c' ∈ calls, (c.map Prod.snd).map forget = (c'.map Prod.snd).map forget) ∨
      calls.Pairwise fun c c' => (c.map Prod.snd).map forget ≠ (c'.map Prod.snd).map forget)
    (gates : List (List (Expr F))) (minimum : Option ℕ) :
    ∃ m as M, lookupAll canon simple calls [] = some m ∧ chunkLookups gates minimum m = some (as, some M) ∧
      (∀ t sel n, (∀ a ∈ as, ∀ i ∈ a.inputs, Holds t sel n i a.table) ↔
        ∀ c ∈ calls, Holds t sel n (c.map Prod.fst) (c.map Prod.snd)) ∧
      ((∀ c ∈ calls, ∃ p ∈ c, 1 ≤ degree p.1) → ∀ a ∈ as, ∃ d ≤ M, requiredDegree a = some d) := by
  cases h : lookupAll canon simple calls [] with
  | none =>
    obtain ⟨c, hc', p, hp, hs'⟩ := (C90_simple canon simple calls).1 h
    exact absurd (hs c hc' p hp) hs'
  | some m =>
    obtain ⟨h1, h2, h3⟩ := lookupAll_spec (P := fun t => ∃ c ∈ calls, t = c.map Prod.snd) h (by simp)
      (fun c hc => ⟨c, hc, rfl⟩) (by simp)
    replace h1 : (entries m).Perm
      (calls.map fun c => (tableIdentifier canon (c.map Prod.snd), c.map Prod.fst)) := by simpa [entries] using h1
    have hfits : ∀ p ∈ m, p.2.Fits := by
      refine fits_of_mem h hw fun c hc1 c' hc2 e => ?_
      have := congrArg List.length (tableIdentifier_inj canon hcanon _ _ (hc c hc1) (hc c' hc2) e)
      simpa using this
    have hinput : ∀ p ∈ m, ∀ i ∈ p.2.inputs, ∃ c ∈ calls, c.map Prod.fst = i := by
      intro p hp i hi
      have hmem := h1.mem_iff.1 (mem_entries.2 ⟨p, hp, rfl, hi⟩ : (p.1, i) ∈ entries m)
      simp only [List.mem_map, Prod.mk.injEq] at hmem
      obtain ⟨c, hc', _, e⟩ := hmem
      exact ⟨c, hc', e⟩
    cases m with
    | nil =>
      exfalso
      have := h1.length_eq
      simp only [entries, List.flatMap_nil, List.length_nil, List.length_map] at this
      exact hne (List.length_eq_zero_iff.1 this.symm)
    | cons q m =>
      obtain ⟨k, t⟩ := q
      have hone : ∀ p ∈ m, p.2.inputs.length = 1 := by
        rcases htab with hsame | hdiff
        · intro p hp
          exfalso
          obtain ⟨e1, _, c, hc1, ec⟩ := h2 (k, t) (by simp)
          obtain ⟨e2, _, c', hc2, ec'⟩ := h2 p (by simp [hp])
          have hlt := (List.pairwise_cons.1 h3).1 p hp
          simp only at e1 ec hlt
          rw [e1, e2, ec, ec', tableIdentifier_congr canon (hsame c hc1 c' hc2)] at hlt
          exact List.lt_irrefl _ hlt
        · intro p hp
          have hnd : ((entries ((k, t) :: m)).map Prod.fst).Nodup := by
            rw [(h1.map Prod.fst).nodup_iff, List.map_map]
            refine List.Pairwise.map _ (R := fun c c' => (c.map Prod.snd).map forget ≠ (c'.map Prod.snd).map forget
              ∧ Plain (c.map Prod.snd) ∧ Plain (c'.map Prod.snd)) ?_ ?_
            · rintro c c' ⟨hne', p1, p2⟩ e
              exact hne' (tableIdentifier_inj canon hcanon _ _ p1 p2 e)
            · exact hdiff.imp_of_mem fun hc1 hc2 hne' => ⟨hne', hc _ hc1, hc _ hc2⟩
          exact List.length_eq_one_iff.2 (single_of_nodup (fun p hp => (h2 p hp).2.1) hnd p (by simp [hp]))
      obtain ⟨as, r, M, hM, g1, _, g3, g4, g5, _⟩ := C90_chunk (gates := gates) (minimum := minimum) hfits hone
      refine ⟨(k, t) :: m, as, M, rfl, g1, fun tab sel n => ?_, fun hd a ha => ⟨_, g5 ?_ a ha, g4 a ha⟩⟩
      · rw [← C90_map_meaning hcanon hc h tab sel n]
        constructor
        · intro hh p hp i hi
          have hmem := g3.mem_iff.2 (List.mem_flatMap.2 ⟨p, hp, List.mem_map.2 ⟨i, hi, rfl⟩⟩)
          simp only [List.mem_flatMap, List.mem_map, Prod.mk.injEq] at hmem
          obtain ⟨a, ha, j, hj, e1, e2⟩ := hmem
          rw [← e1, ← e2]
          exact hh a ha j hj
        · intro hh a ha i hi
          have hmem := g3.mem_iff.1 (List.mem_flatMap.2 ⟨a, ha, List.mem_map.2 ⟨i, hi, rfl⟩⟩)
          simp only [List.mem_flatMap, List.mem_map, Prod.mk.injEq] at hmem
          obtain ⟨p, hp, j, hj, e1, e2⟩ := hmem
          rw [← e1, ← e2]
          exact hh p hp j hj
      · intro p hp i hi
        obtain ⟨c, hc', e⟩ := hinput p hp i hi
        obtain ⟨x, hx, hdeg⟩ := hd c hc'
        have : degree x.1 ≤ maxDegree i := by
          rw [← e]
          exact (foldr_max_le' _ _).1 le_rfl _ (List.mem_map_of_mem (List.mem_map_of_mem hx))
        omega

end

/-! What fails. -/

/-- The number of an element of the field with ninety-seven elements. -/
def exLkCanon (x : F97) : ℕ := ZMod.val (n := 97) x

theorem exLkCanon_injective : Function.Injective exLkCanon := ZMod.val_injective 97

/-- The current row of a fixed column. -/
def exLkF (c : ℕ) : Expr F97 := .fixed ⟨some 0, 0, c⟩

/-- The current row of an advice column. -/
def exLkA (c : ℕ) : Expr F97 := .advice ⟨some 0, 0, c⟩

/-- The arguments of some lookups, without gates. -/
def exLkArgs (calls : List (List (Expr F97 × Expr F97))) : Option (List (MultiArgument F97) × Option ℕ) :=
  (lookupAll exLkCanon (fun _ => false) calls []).bind (chunkLookups [] none)

/-- The lookups of the first column into one table and of two columns into another. -/
def exLkCalls : List (List (Expr F97 × Expr F97)) := [[(exLkA 0, exLkF 0)], [(exLkA 1, exLkF 1)], [(exLkA 2, exLkF 1)]]

/-- With two tables an input can end up with the wrong table: the arguments can hold though a lookup does not, and a lookup
can hold though the arguments do not. -/
theorem C90_tables_fails : ∃ as M, exLkArgs exLkCalls = some (as, M) ∧
    (∃ t, (∀ a ∈ as, ∀ i ∈ a.inputs, Holds t (fun _ _ => 0) 2 i a.table) ∧
      ¬ ∀ c ∈ exLkCalls, Holds t (fun _ _ => 0) 2 (c.map Prod.fst) (c.map Prod.snd)) ∧
    (∃ t, (∀ c ∈ exLkCalls, Holds t (fun _ _ => 0) 2 (c.map Prod.fst) (c.map Prod.snd)) ∧
      ¬ ∀ a ∈ as, ∀ i ∈ a.inputs, Holds t (fun _ _ => 0) 2 i a.table) := by
  refine ⟨[⟨[[exLkA 0], [exLkA 2]], [exLkF 0]⟩, ⟨[[exLkA 1]], [exLkF 1]⟩], some 5, by rfl, ?_, ?_⟩
  · refine ⟨⟨[[1, 2], [3, 4]], [[1, 1], [3, 3], [1, 1]], [], []⟩, ?_, ?_⟩ <;> unfold Holds <;> decide +kernel
  · refine ⟨⟨[[1, 2], [3, 4]], [[1, 1], [3, 3], [3, 3]], [], []⟩, ?_, ?_⟩ <;> unfold Holds <;> decide +kernel

/-- If the two tables have different numbers of columns, the next degree that is computed fails. -/
theorem C90_width_fails : exLkArgs [[(exLkA 0, exLkF 0)], [(exLkA 1, exLkF 1), (exLkA 2, exLkF 2)], [(exLkA 3, exLkF 1), (exLkA 4, exLkF 2)],
    [(exLkA 5, exLkF 1), (exLkA 6, exLkF 2)]] = none := by rfl

/-- Two tables that differ below a scaled expression have the same identifier, and the lookup into the second becomes one into
the first. -/
theorem C90_scaled_fails :
    tableIdentifier exLkCanon [.scaled (exLkF 0) 2] = tableIdentifier exLkCanon [.scaled (exLkF 1) 2] ∧
    ∃ m, lookupAll exLkCanon (fun _ => false) [[(exLkA 0, .scaled (exLkF 0) 2)], [(exLkA 1, .scaled (exLkF 1) 2)]] [] = some m ∧
      m.map (fun p => p.2.table) = [[.scaled (exLkF 0) 2]] ∧
      ∃ t, (∀ p ∈ m, ∀ i ∈ p.2.inputs, Holds t (fun _ _ => 0) 2 i p.2.table) ∧
        ¬ Holds t (fun _ _ => 0) 2 [exLkA 1] [.scaled (exLkF 1) 2] := by
  refine ⟨rfl, _, rfl, rfl, ⟨[[1, 2], [3, 4]], [[2, 4], [2, 2]], [], []⟩, ?_, ?_⟩
  · unfold Holds; decide +kernel
  · unfold Holds; decide +kernel

/-- Constants next to one another are not told apart. -/
theorem C90_constants_fails :
    tableIdentifier exLkCanon [.constant 1, .constant 23] = tableIdentifier exLkCanon [.constant 12, .constant 3] := by rfl

/-- Inputs that are constants are taken for free, so that the degree of an argument can exceed the minimum degree. -/
theorem C90_degree_fails : ∃ a, exLkArgs [[(.constant 1, exLkF 0)], [(.constant 2, exLkF 0)], [(.constant 3, exLkF 0)]] =
    some ([a], some 5) ∧ requiredDegree a = some 6 := ⟨_, rfl, rfl⟩

/-! Examples. -/

example : tableIdentifier exLkCanon [.sum (exLkF 3) (.prod (.constant 12) (.advice ⟨none, -1, 4⟩))] =
    "(fixed[3][0]+(12*advice[4][-1]))".toList := by decide +kernel

example : tableIdentifier exLkCanon [exLkF 1, exLkF 0] ≠ tableIdentifier exLkCanon [exLkF 1, exLkF 10] :=
  fun h => by
    have := (C90_identifier exLkCanon_injective (t := [exLkF 1, exLkF 0]) (t' := [exLkF 1, exLkF 10]) (by simp [Plain, exLkF, NoScaled,
      NotConstant]) (by simp [Plain, exLkF, NoScaled, NotConstant])).1 h
    simp [exLkF, forget] at this

example : lookupAll exLkCanon (fun s => s == 1) [[(.prod (.selector 1) (exLkA 0), exLkF 0)]] [] = none :=
  (C90_simple _ _ _).2 ⟨_, List.mem_singleton_self _, _, List.mem_singleton_self _, by
    simp [Selector.simpleOf, Selector.selectorsOf]⟩

/-- Four lookups into one table: two arguments. -/
def exLkOne : List (List (Expr F97 × Expr F97)) := [[(exLkA 0, exLkF 0)], [(exLkA 1, exLkF 0)], [(exLkA 2, exLkF 0)], [(exLkA 3, exLkF 0)]]

example : exLkArgs exLkOne = some ([⟨[[exLkA 0], [exLkA 1]], [exLkF 0]⟩, ⟨[[exLkA 2], [exLkA 3]], [exLkF 0]⟩], some 5) := by rfl

theorem exLkOne_plain : ∀ c ∈ exLkOne, Plain (c.map Prod.snd) := by simp [exLkOne, Plain, exLkF, NoScaled, NotConstant]

example : ∃ m as M, lookupAll exLkCanon (fun _ => false) exLkOne [] = some m ∧
    chunkLookups [[.prod (exLkA 0) (exLkA 1)]] none m = some (as, some M) ∧
      (∀ t sel n, (∀ a ∈ as, ∀ i ∈ a.inputs, Holds t sel n i a.table) ↔
        ∀ c ∈ exLkOne, Holds t sel n (c.map Prod.fst) (c.map Prod.snd)) ∧
      ((∀ c ∈ exLkOne, ∃ p ∈ c, 1 ≤ degree p.1) → ∀ a ∈ as, ∃ d ≤ M, requiredDegree a = some d) :=
  C90_lookups exLkCanon_injective (by simp [exLkOne]) (by simp [exLkOne])
    (by simp [exLkOne, Selector.simpleOf, exLkA]) exLkOne_plain (Or.inl (by simp [exLkOne])) _ _

example (m : LookupMap F97) (h : lookupAll exLkCanon (fun _ => false) exLkOne [] = some m) :
    m.Pairwise fun p q => p.2.table.map forget ≠ q.2.table.map forget := (C90_map exLkCanon_injective exLkOne_plain h).2.1

example : ∃ as r M, M = max ((some 9).getD 0) (2 ^ r + 1) ∧
    chunkLookups [] (some 9) [(['t'], ⟨[exLkF 0], [[exLkA 0], [.prod (exLkA 1) (exLkA 2)]]⟩), (['u'], ⟨[exLkF 1], [[exLkA 0]]⟩)] =
      some (as, some M) := by
  obtain ⟨as, r, M, h1, h2, _⟩ := C90_chunk (F := F97) (gates := []) (minimum := some 9) (k := ['t'])
    (t := ⟨[exLkF 0], [[exLkA 0], [.prod (exLkA 1) (exLkA 2)]]⟩) (m := [(['u'], ⟨[exLkF 1], [[exLkA 0]]⟩)]) (by simp) (by simp)
  exact ⟨as, r, M, h1, h2⟩

example (as : List (MultiArgument F97)) (M : Option ℕ) (m : LookupMap F97)
    (_ : lookupAll exLkCanon (fun _ => false) exLkCalls [] = some m) (h : chunkLookups [] none m = some (as, M)) :
    (as.flatMap fun a => a.inputs).Perm (m.flatMap fun p => p.2.inputs) := C90_inputs h

example (m : LookupMap F97) (h : lookupAll exLkCanon (fun _ => false) exLkOne [] = some m) (t : Table F97) :
    (∀ p ∈ m, ∀ i ∈ p.2.inputs, Holds t (fun _ _ => 0) 4 i p.2.table) ↔
      ∀ c ∈ exLkOne, Holds t (fun _ _ => 0) 4 (c.map Prod.fst) (c.map Prod.snd) :=
  C90_map_meaning exLkCanon_injective exLkOne_plain h t _ 4

end Tachyon.Props
