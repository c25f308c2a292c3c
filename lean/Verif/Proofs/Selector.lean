import Verif.Spec.Selector
import Verif.Proofs.Graph
import Mathlib.Algebra.BigOperators.Group.Finset.Basic
import Mathlib.Tactic.LinearCombination
import Mathlib.Data.List.Sublists
/-! Lemmas for C89: the combinations of the selector compressor. -/
universe u
namespace Tachyon.Selector
open Plonk CircuitPoly

/-- The description at a position. -/
def dget (ds : List Desc) (i : ℕ) : Desc := ds.getD i ⟨0, [], 0⟩

theorem dget_of_get {ds : List Desc} {i : ℕ} {d : Desc} (h : ds[i]? = some d) : dget ds i = d := by
  simp [dget, h]

theorem get_dget {ds : List Desc} {i : ℕ} (h : i < ds.length) : ds[i]? = some (dget ds i) := by
  simp [dget, h]

theorem orthogonal_iff {a b : List Bool} :
    orthogonal a b = true ↔ ∀ i, ¬(a.getD i false = true ∧ b.getD i false = true) := by
  unfold orthogonal
  induction a generalizing b with
  | nil => simp
  | cons x a ih =>
    cases b with
    | nil => simp
    | cons y b =>
      simp only [List.zip_cons_cons, List.all_cons, Bool.and_eq_true, ih]
      constructor
      · rintro ⟨h1, h2⟩ i
        cases i with
        | zero => revert h1; cases x <;> cases y <;> simp
        | succ i => simpa using h2 i
      · intro h
        exact ⟨by have := h 0; revert this; cases x <;> cases y <;> simp, fun i => by simpa using h (i + 1)⟩

theorem orthogonal_symm {a b : List Bool} : orthogonal a b = orthogonal b a := by
  rw [Bool.eq_iff_iff, orthogonal_iff, orthogonal_iff]
  exact forall_congr' fun i => by tauto

theorem isExclusive_eq {ds : List Desc} {i j : ℕ} (hij : i < j) (hj : j < ds.length) :
    isExclusive (exclusion ds) j i = some (!orthogonal (dget ds j).activations (dget ds i).activations) := by
  have hi : i < ds.length := by omega
  unfold isExclusive exclusion
  rw [max_eq_left hij.le, min_eq_right hij.le]
  simp only [List.getElem?_mapIdx, get_dget hj, Option.map_some, Option.bind_some, List.getElem?_map,
    List.getElem?_take_of_lt hij, get_dget hi]

/-- Two positions whose selectors are never active in the same row. -/
def Orth (ds : List Desc) (i j : ℕ) : Prop := orthogonal (dget ds i).activations (dget ds j).activations = true

theorem anyExclusive_eq {ds : List Desc} {j : ℕ} (hj : j < ds.length) : ∀ {is : List ℕ}, (∀ i ∈ is, i < j) →
    ∃ b, anyExclusive (exclusion ds) j is = some b ∧ (b = false ↔ ∀ i ∈ is, Orth ds i j)
  | [], _ => ⟨false, rfl, by simp⟩
  | i :: is, h => by
    obtain ⟨b, hb, hb'⟩ := anyExclusive_eq hj (is := is) fun x hx => h x (by simp [hx])
    rw [anyExclusive, isExclusive_eq (h i (by simp)) hj, Option.bind_some]
    by_cases ho : Orth ds i j
    · have ho' : orthogonal (dget ds j).activations (dget ds i).activations = true := by
        rw [orthogonal_symm]; exact ho
      refine ⟨b, by simp [ho', hb], ?_⟩
      rw [hb']; simp [ho]
    · have ho' : orthogonal (dget ds j).activations (dget ds i).activations = false := by
        rw [orthogonal_symm]; simpa [Orth] using ho
      exact ⟨true, by simp [ho'], by simp [ho]⟩

theorem joinLoop_spec (ds : List Desc) (sel : Desc) (D : ℕ) : ∀ (js : List ℕ) (s : Join),
    js.Pairwise (· < ·) → (∀ j ∈ js, j < ds.length) → (∀ x ∈ s.members, ∀ j ∈ js, x < j) →
    s.added.length = ds.length → s.d = sel.maxDegree - 1 → s.d + s.combination.length ≤ D →
    s.members.Pairwise (Orth ds) →
    ∃ new added', joinLoop ds (exclusion ds) sel D js s =
        some ⟨s.d, s.combination ++ new.map (dget ds), s.members ++ new, added'⟩ ∧
      new.Sublist js ∧ (∀ j ∈ new, s.added[j]? = some false) ∧ added'.length = ds.length ∧
      (∀ j, added'[j]? = if j ∈ new then some true else s.added[j]?) ∧
      (s.members ++ new).Pairwise (Orth ds) ∧ s.d + (s.combination.length + new.length) ≤ D
  | [], s, _, _, _, hl, _, hD, ho => ⟨[], s.added, by simp [joinLoop], by simp, by simp, hl, by simp, by simpa using ho,
      by simpa using hD⟩
  | j :: js, s, hp, hj, hm, hl, hd, hD, ho => by
    rw [List.pairwise_cons] at hp
    have hjl := hj j (by simp)
    have hskip := joinLoop_spec ds sel D js s hp.2 (fun x hx => hj x (by simp [hx]))
      (fun x hx y hy => hm x hx y (by simp [hy])) hl hd hD ho
    have hskip' : ∃ new added', joinLoop ds (exclusion ds) sel D js s =
          some ⟨s.d, s.combination ++ new.map (dget ds), s.members ++ new, added'⟩ ∧
        new.Sublist (j :: js) ∧ (∀ j ∈ new, s.added[j]? = some false) ∧ added'.length = ds.length ∧
        (∀ j, added'[j]? = if j ∈ new then some true else s.added[j]?) ∧
        (s.members ++ new).Pairwise (Orth ds) ∧ s.d + (s.combination.length + new.length) ≤ D := by
      obtain ⟨new, added', h1, h2, h3⟩ := hskip
      exact ⟨new, added', h1, h2.trans (List.sublist_cons_self _ _), h3⟩
    rw [joinLoop]
    split
    · exact ⟨[], s.added, by simp, by simp, by simp, hl, by simp, by simpa using ho, by simpa using hD⟩
    · have ha : s.added[j]? = some (s.added.getD j false) := by simp [hl, hjl]
      rw [ha, Option.bind_some]
      split
      · exact hskip'
      · rename_i hna
        obtain ⟨b, hb, hb'⟩ := anyExclusive_eq (ds := ds) hjl (is := s.members) fun x hx => hm x hx j (by simp)
        rw [hb, Option.bind_some]
        split
        · exact hskip'
        · rename_i hbf
          have hbo := hb'.1 (by simpa using hbf)
          have hmax : max s.d (sel.maxDegree - 1) = s.d := by rw [hd]; simp
          simp only [hmax]
          split
          · exact hskip'
          · rename_i hfit
            rw [get_dget hjl, Option.bind_some]
            obtain ⟨new, added', h1, h2, h3, h4, h5, h6, h7⟩ := joinLoop_spec ds sel D js
              ⟨s.d, s.combination ++ [dget ds j], s.members ++ [j], s.added.set j true⟩ hp.2
              (fun x hx => hj x (by simp [hx]))
              (fun x hx y hy => by
                rcases List.mem_append.1 hx with hx | hx
                · exact hm x hx y (by simp [hy])
                · rw [List.mem_singleton.1 hx]; exact hp.1 y hy)
              (by simpa using hl) hd (by simp only [List.length_append, List.length_singleton]; omega)
              (by
                rw [List.pairwise_append]
                exact ⟨ho, by simp, fun x hx y hy => by rw [List.mem_singleton.1 hy]; exact hbo x hx⟩)
            have hjn : j ∉ new := fun h => lt_irrefl _ (hp.1 j (h2.subset h))
            refine ⟨j :: new, added', ?_, h2.cons_cons j, ?_, h4, ?_, ?_, ?_⟩
            · rw [h1]; simp
            · intro x hx
              rcases List.mem_cons.1 hx with rfl | hx
              · rw [ha]; simpa using hna
              · have := h3 x hx
                have hne : j ≠ x := fun h => hjn (h ▸ hx)
                simpa [List.getElem?_set_ne hne] using this
            · intro x
              rw [h5]
              by_cases hxn : x ∈ new
              · simp [hxn]
              · by_cases hxj : x = j
                · subst hxj; simp [hxn, hl, hjl]
                · simp [hxn, hxj, List.getElem?_set_ne (Ne.symm hxj)]
            · simpa using h6
            · simp only [List.length_append, List.length_cons, List.length_nil] at h7 ⊢; omega

section
variable {F : Type u} [Field F] [DecidableEq F]

/-- What holds of the positions of a combination. -/
structure GoodGroup (ds : List Desc) (D : ℕ) (g : List ℕ) : Prop where
  ne : g ≠ []
  lt : g.Pairwise (· < ·)
  bound : ∀ j ∈ g, j < ds.length
  orth : g.Pairwise (Orth ds)
  degree : ∀ h ∈ g.head?, (dget ds h).maxDegree - 1 + g.length ≤ D

theorem combineLoop_spec (ds : List Desc) (D n : ℕ) (hD : ∀ d ∈ ds, 0 < d.maxDegree ∧ d.maxDegree ≤ D) :
    ∀ (m k : ℕ) (added : List Bool) (st : State F), k + m = ds.length → added.length = ds.length →
      (∀ j < k, added[j]? = some true) →
      ∃ gs : List (List ℕ), combineLoop ds (exclusion ds) D n (List.range' k m) added st =
          some ((gs.map (List.map (dget ds))).foldl (construct n) st) ∧
        gs.flatten.Nodup ∧ (∀ j, j ∈ gs.flatten ↔ added[j]? = some false) ∧ ∀ g ∈ gs, GoodGroup ds D g
  | 0, k, added, st, hk, hl, ha => by
    refine ⟨[], by simp [combineLoop], by simp, fun j => ?_, by simp⟩
    simp only [List.flatten_nil, List.not_mem_nil, false_iff]
    intro h
    by_cases hj : j < k
    · rw [ha j hj] at h; simp at h
    · rw [List.getElem?_eq_none (by omega)] at h; simp at h
  | m + 1, k, added, st, hk, hl, ha => by
    have hkl : k < ds.length := by omega
    have hka : added[k]? = some (added.getD k false) := by simp [hl, hkl]
    rw [List.range'_succ, combineLoop, hka, Option.bind_some]
    split
    · rename_i hadd
      refine combineLoop_spec ds D n hD m (k + 1) added st (by omega) hl fun j hj => ?_
      rcases Nat.lt_succ_iff_lt_or_eq.1 hj with hj | rfl
      · exact ha j hj
      · rw [hka, hadd]
    · rename_i hadd
      have hsel := hD _ (List.mem_of_getElem? (get_dget hkl))
      rw [get_dget hkl, Option.bind_some, if_neg (by omega)]
      obtain ⟨new, added', h1, h2, h3, h4, h5, h6, h7⟩ := joinLoop_spec ds (dget ds k) D
        (List.range' (k + 1) (ds.length - (k + 1)))
        ⟨(dget ds k).maxDegree - 1, [dget ds k], [k], added.set k true⟩ List.pairwise_lt_range'
        (fun j hj => by have := List.mem_range'_1.1 hj; omega)
        (fun x hx j hj => by have := List.mem_range'_1.1 hj; rw [List.mem_singleton.1 hx]; omega)
        (by simpa using hl) rfl (by simp only [List.length_singleton]; omega) (by simp)
      rw [h1, Option.bind_some]
      have hnk : ∀ j ∈ new, k < j ∧ j < ds.length := fun j hj => by
        have := List.mem_range'_1.1 (h2.subset hj); omega
      have hkn : k ∉ new := fun h => lt_irrefl _ (hnk k h).1
      obtain ⟨gs, g1, g2, g3, g4⟩ := combineLoop_spec ds D n hD m (k + 1) added'
        (construct n st ([dget ds k] ++ new.map (dget ds))) (by omega) h4 fun j hj => by
          rw [h5]
          split
          · rfl
          · rcases Nat.lt_succ_iff_lt_or_eq.1 hj with hj | rfl
            · rw [List.getElem?_set_ne (by omega)]; exact ha j hj
            · simp [hl, hkl]
      refine ⟨(k :: new) :: gs, ?_, ?_, ?_, ?_⟩
      · rw [g1]; simp
      · rw [List.flatten_cons, List.nodup_append]
        refine ⟨?_, g2, ?_⟩
        · rw [List.nodup_cons]
          exact ⟨hkn, h2.nodup List.nodup_range'⟩
        · rintro a hm1 b hm2 rfl
          rw [g3, h5] at hm2
          rcases List.mem_cons.1 hm1 with rfl | hx
          · simp [hkn, hl, hkl] at hm2
          · simp [hx] at hm2
      · intro j
        rw [List.flatten_cons, List.mem_append, g3, h5, List.mem_cons]
        by_cases hjk : j = k
        · subst hjk
          rw [hka]
          simpa using hadd
        · by_cases hjn : j ∈ new
          · have := h3 j hjn
            rw [List.getElem?_set_ne (Ne.symm hjk)] at this
            simp [hjn, this]
          · simp [hjn, hjk, List.getElem?_set_ne (Ne.symm hjk)]
      · intro g hg
        rcases List.mem_cons.1 hg with rfl | hg
        · refine ⟨by simp, ?_, ?_, by simpa using h6, ?_⟩
          · rw [List.pairwise_cons]
            exact ⟨fun j hj => (hnk j hj).1, List.Pairwise.sublist h2 List.pairwise_lt_range'⟩
          · intro j hj
            rcases List.mem_cons.1 hj with rfl | hj
            · exact hkl
            · exact (hnk j hj).2
          · intro h hh
            simp only [List.head?_cons, Option.mem_def, Option.some.injEq] at hh
            subst hh
            simp only [List.length_cons, List.length_nil] at h7 ⊢
            omega
        · exact g4 g hg

end
end Tachyon.Selector
