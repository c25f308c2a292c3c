import Verif.Proofs.SelectorCompress
/-! Lemmas for C89: the values and degrees of the replacements. -/
universe u
namespace Tachyon.Selector
open Plonk CircuitPoly

section
variable {F : Type u} [Field F] [DecidableEq F]

theorem Combination.length_le {selectors : List (List Bool)} {degrees : List ℕ} {D : ℕ} {g : List ℕ}
    (h : Combination selectors degrees D g) (hD : 1 ≤ D) : g.length ≤ D := by
  rcases h.degree with h1 | ⟨_, h2⟩
  · omega
  · rcases g with _ | ⟨x, g⟩
    · simp
    · have := h2 x (by simp); omega

omit [DecidableEq F] in
/-- The value of the column of a combination. -/
theorem column_value {selectors : List (List Bool)} {degrees : List ℕ} {D n i : ℕ} {g : List ℕ}
    (h : Combination selectors degrees D g) (hn : ∀ s ∈ g, (selectors.getD s []).length = n) (hi : i < n) :
    (∀ r s : ℕ, g[r]? = some s → active selectors s i = true →
      (colOf (g.map (desc selectors degrees)) (1 : F) (List.replicate n 0)).getD i 0 = 1 + (r : F)) ∧
    ((∀ s ∈ g, active selectors s i = false) →
      (colOf (g.map (desc selectors degrees)) (1 : F) (List.replicate n 0)).getD i 0 = 0) := by
  have hl : ∀ d ∈ g.map (desc selectors degrees), d.activations.length = n := fun d hd => by
    obtain ⟨s, hs, rfl⟩ := List.mem_map.1 hd
    exact hn s hs
  constructor
  · intro r s hr ha
    refine colOf_active hi _ _ _ r (desc selectors degrees s) (by simp) hl ?_ (by simp [hr]) ha
    rw [List.pairwise_map]
    exact h.orth.imp fun {a b} hab => orthogonal_iff.2 hab
  · intro ha
    rw [colOf_none hi _ _ _ (by simp) hl fun d hd => by
      obtain ⟨s, hs, rfl⟩ := List.mem_map.1 hd
      exact ha s hs]
    simp [hi]

/-- The replacement of a selector is worth `rootConst` where the selector is active, and zero elsewhere. -/
theorem member_value {selectors : List (List Bool)} {degrees : List ℕ} {D n i : ℕ} {g : List ℕ}
    (h : Combination selectors degrees D g) (hn : ∀ s ∈ g, (selectors.getD s []).length = n) (hi : i < n)
    (hc : CharAbove F D) (hD : 1 ≤ D) {q : Kind → Query → F} {ch : ℕ → F} {x : Expr F}
    (hx : denote id q ch x = (colOf (g.map (desc selectors degrees)) (1 : F) (List.replicate n 0)).getD i 0)
    {r s : ℕ} (hr : g[r]? = some s) :
    denote id q ch (rootExpr x (1 + (r : F)) g.length 1 x) =
      if active selectors s i then rootConst g.length r else 0 := by
  have hlen := h.length_le hD
  have hrl : r < g.length := (List.getElem?_eq_some_iff.1 hr).1
  obtain ⟨hv1, hv0⟩ := column_value (F := F) h hn hi
  rw [show denote id q ch (rootExpr x (1 + (r : F)) g.length 1 x) = _ from denote_rootExpr (RingHom.id F) q ch x _ _ _ _]
  simp only [RingHom.id_apply]
  have hx' : denote (RingHom.id F) q ch x = _ := hx
  rw [hx']
  by_cases ha : active selectors s i = true
  · rw [hv1 r s hr ha, if_pos ha]; rfl
  · rw [if_neg ha]
    by_cases hall : ∀ t ∈ g, active selectors t i = false
    · rw [hv0 hall, zero_mul]
    · push Not at hall
      obtain ⟨t, ht, hta⟩ := hall
      obtain ⟨r', hr', hrt⟩ := List.getElem_of_mem ht
      have hrt' : g[r']? = some t := by rw [List.getElem?_eq_getElem hr', hrt]
      rw [hv1 r' t hrt' (by simpa using hta)]
      refine mul_eq_zero_of_right _ (Finset.prod_eq_zero (Finset.mem_range.2 hr') ?_)
      have hne : r' ≠ r := by
        rintro rfl
        rw [hr] at hrt'
        simp only [Option.some.injEq] at hrt'
        subst hrt'
        exact hta (by simpa using ha)
      rw [if_pos, sub_self]
      have := cast_ne hc (i := 1 + r') (j := 1 + r) (by omega) (by omega) (by omega)
      push_cast at this
      exact this

theorem member_degree {x : Expr F} (hx : degree x = 1) {len r : ℕ} (hr : r < len) :
    1 ≤ degree (rootExpr x (1 + (r : F)) len 1 x) ∧ degree (rootExpr x (1 + (r : F)) len 1 x) ≤ len := by
  rw [degree_rootExpr x _ hx, hx]
  have : ((Finset.range len).filter fun j : ℕ => (1 : F) + (j : F) ≠ 1 + (r : F)).card ≤ ((Finset.range len).erase r).card :=
    Finset.card_le_card fun j hj => by
      rw [Finset.mem_filter] at hj
      rw [Finset.mem_erase]
      exact ⟨fun h => hj.2 (by rw [h]), hj.1⟩
  rw [Finset.card_erase_of_mem (Finset.mem_range.2 hr), Finset.card_range] at this
  omega

theorem rootExpr_selectors (x : Expr F) (a : F) (hx : selectorsOf x = []) : ∀ (k : ℕ) (root : F) (e : Expr F),
    selectorsOf e = [] → selectorsOf (rootExpr x a k root e) = []
  | 0, _, _, h => h
  | k + 1, root, e, h => by
    rw [rootExpr]
    refine rootExpr_selectors x a hx k _ _ ?_
    split
    · simp [selectorsOf, h, hx]
    · exact h

omit [Field F] [DecidableEq F] in
theorem replace_selectors {rs : List (Option (Expr F))} : ∀ e e' : Expr F,
    (∀ s ∈ selectorsOf e, ∀ r, rs[s]? = some (some r) → selectorsOf r = []) → replace rs e = some e' →
    selectorsOf e' = []
  | .constant _, e', _, h => by simp only [replace, Option.some.injEq] at h; subst h; rfl
  | .selector i, e', hr, h => by
    simp only [replace, Option.bind_eq_some_iff] at h
    obtain ⟨r, h1, rfl⟩ := h
    exact hr i (by simp [selectorsOf]) _ h1
  | .fixed x, e', _, h => by simp only [replace, Option.some.injEq] at h; subst h; rfl
  | .advice x, e', _, h => by simp only [replace, Option.some.injEq] at h; subst h; rfl
  | .inst x, e', _, h => by simp only [replace, Option.some.injEq] at h; subst h; rfl
  | .challenge _, e', _, h => by simp only [replace, Option.some.injEq] at h; subst h; rfl
  | .neg e, e', hr, h => by
    simp only [replace, Option.map_eq_some_iff] at h
    obtain ⟨r, h1, rfl⟩ := h
    exact replace_selectors e r hr h1
  | .scaled e _, e', hr, h => by
    simp only [replace, Option.map_eq_some_iff] at h
    obtain ⟨r, h1, rfl⟩ := h
    exact replace_selectors e r hr h1
  | .sum a b, e', hr, h => by
    simp only [replace, Option.bind_eq_some_iff, Option.map_eq_some_iff] at h
    obtain ⟨l, h1, r, h2, rfl⟩ := h
    simp [selectorsOf, replace_selectors a l (fun s hs => hr s (by simp [selectorsOf, hs])) h1,
      replace_selectors b r (fun s hs => hr s (by simp [selectorsOf, hs])) h2]
  | .prod a b, e', hr, h => by
    simp only [replace, Option.bind_eq_some_iff, Option.map_eq_some_iff] at h
    obtain ⟨l, h1, r, h2, rfl⟩ := h
    simp [selectorsOf, replace_selectors a l (fun s hs => hr s (by simp [selectorsOf, hs])) h1,
      replace_selectors b r (fun s hs => hr s (by simp [selectorsOf, hs])) h2]

theorem length_le_flatten {α : Type u} : ∀ {gs : List (List α)}, (∀ g ∈ gs, g ≠ []) → gs.length ≤ gs.flatten.length
  | [], _ => by simp
  | g :: gs, h => by
    have := length_le_flatten (gs := gs) fun x hx => h x (by simp [hx])
    have := List.length_pos_iff.2 (h g (by simp))
    simp only [List.length_cons, List.flatten_cons, List.length_append]
    omega

omit [Field F] [DecidableEq F] in
theorem forall₂_right {α β : Type u} {R : α → β → Prop} {l : List α} {l' : List β} (h : List.Forall₂ R l l') {y : β}
    (hy : y ∈ l') : ∃ x ∈ l, R x y := by
  induction h with
  | nil => simp at hy
  | cons hab _ ih =>
    rcases List.mem_cons.1 hy with rfl | hy
    · exact ⟨_, by simp, hab⟩
    · obtain ⟨x, hx, hr⟩ := ih hy
      exact ⟨x, by simp [hx], hr⟩

omit [Field F] [DecidableEq F] in
theorem forall₂_imp_mem {α β : Type u} {R S : α → β → Prop} {l : List α} {l' : List β} (h : List.Forall₂ R l l')
    (hs : ∀ x ∈ l, ∀ y, R x y → S x y) : List.Forall₂ S l l' := by
  induction h with
  | nil => exact .nil
  | cons hab _ ih => exact .cons (hs _ (by simp) _ hab) (ih fun x hx => hs x (by simp [hx]))

omit [Field F] [DecidableEq F] in
theorem ArgReplaced.imp {R S : Expr F → Expr F → Prop} {a a' : Argument F} (h : ArgReplaced R a a')
    (hs : ∀ e ∈ a.inputs ++ a.targets, ∀ e', R e e' → S e e') : ArgReplaced S a a' :=
  ⟨forall₂_imp_mem h.1 fun e he => hs e (by simp [he]), forall₂_imp_mem h.2 fun e he => hs e (by simp [he])⟩

omit [DecidableEq F] in
/-- A value with selectors depends only on those of the expression. -/
theorem denoteSel_congr {q : Kind → Query → F} {ch sel sel' : ℕ → F} : ∀ e : Expr F,
    (∀ s ∈ selectorsOf e, sel s = sel' s) → denoteSel id q ch sel e = denoteSel id q ch sel' e
  | .constant _, _ => rfl
  | .selector i, h => h i (by simp [selectorsOf])
  | .fixed _, _ => rfl
  | .advice _, _ => rfl
  | .inst _, _ => rfl
  | .challenge _, _ => rfl
  | .neg e, h => by rw [denoteSel, denoteSel, denoteSel_congr e h]
  | .scaled e _, h => by rw [denoteSel, denoteSel, denoteSel_congr e h]
  | .sum a b, h => by
    rw [denoteSel, denoteSel, denoteSel_congr a fun s hs => h s (by simp [selectorsOf, hs]),
      denoteSel_congr b fun s hs => h s (by simp [selectorsOf, hs])]
  | .prod a b, h => by
    rw [denoteSel, denoteSel, denoteSel_congr a fun s hs => h s (by simp [selectorsOf, hs]),
      denoteSel_congr b fun s hs => h s (by simp [selectorsOf, hs])]

omit [DecidableEq F] in
/-- An expression without simple selectors. -/
theorem denoteSel_complex {simple : ℕ → Bool} {q : Kind → Query → F} {ch : ℕ → F} {c : ℕ → F} {on : ℕ → Bool}
    (hc : ∀ s, simple s = false → c s = 1) (e : Expr F) (h : simpleOf simple e = []) :
    denoteSel id q ch (fun s => if on s then c s else 0) e = denoteSel id q ch (fun s => if on s then 1 else 0) e :=
  denoteSel_congr e fun s hs => by
    have : simple s = false := by
      have := List.filter_eq_nil_iff.1 h s hs
      simpa using this
    rw [hc s this]

omit [DecidableEq F] in
/-- An expression that is a product with a simple selector. -/
theorem denoteSel_gated {simple : ℕ → Bool} {q : Kind → Query → F} {ch : ℕ → F} {c : ℕ → F} {on : ℕ → Bool}
    (hc : ∀ s, simple s = false → c s = 1) (s : ℕ) : ∀ e : Expr F, Gated simple s e →
    denoteSel id q ch (fun s => if on s then c s else 0) e =
      c s * denoteSel id q ch (fun s => if on s then 1 else 0) e
  | .constant _, h => h.elim
  | .selector i, h => by
    have : i = s := h
    subst this
    simp [denoteSel]
  | .fixed _, h => h.elim
  | .advice _, h => h.elim
  | .inst _, h => h.elim
  | .challenge _, h => h.elim
  | .neg e, h => by rw [denoteSel, denoteSel, denoteSel_gated hc s e h]; ring
  | .scaled e _, h => by rw [denoteSel, denoteSel, denoteSel_gated hc s e h]; ring
  | .sum _ _, h => h.elim
  | .prod a b, h => by
    rcases h with ⟨h1, h2⟩ | ⟨h1, h2⟩
    · rw [denoteSel, denoteSel, denoteSel_gated hc s a h1, denoteSel_complex hc b h2]; ring
    · rw [denoteSel, denoteSel, denoteSel_gated hc s b h2, denoteSel_complex hc a h1]; ring

/-- `compress` gives an equivalent constraint system, and the map of the selectors. -/
theorem compress_values {cs : CS F} {selectors : List (List Bool)} {n D : ℕ} (hp : cs.Proper)
    (hlen : selectors.length = cs.numSelectors) (hn : ∀ a ∈ selectors, a.length = n)
    (hdeg : computeDegree cs.sys = some D) (hc : CharAbove F D) :
    ∃ cs' map cols c, compress cs selectors = some (cs', map, cols) ∧ Compressed cs selectors n cs' cols c ∧
      map.length = cs.numSelectors ∧
      ∀ s < cs.numSelectors, ∃ k : ℕ, ∃ r : F, k < cols.length ∧ map[s]? = some (cs.numFixed + k) ∧ r ≠ 0 ∧
        ∀ i < n, active selectors s i = true ↔ (cols.getD k []).getD i 0 = r := by
  obtain ⟨gs, degrees, rs, map, gates, lookups, shuffles, hd, hcomp, hmap, hfl, hmem, hcomb, hpos, hg, hlk, hsh⟩ :=
    compress_spec hp hlen hn hdeg
  have hD := (computeDegree_bounds hdeg).1
  have hwhere : ∀ s < cs.numSelectors, ∃ (k : ℕ) (g : List ℕ) (r : ℕ), gs[k]? = some g ∧ g[r]? = some s := fun s hs => by
    obtain ⟨g, hg, hs⟩ := List.mem_flatten.1 ((hmem s).2 hs)
    obtain ⟨k, hk⟩ := List.getElem?_of_mem hg
    obtain ⟨r, hr⟩ := List.getElem?_of_mem hs
    exact ⟨k, g, r, hk, hr⟩
  have hrow : ∀ g ∈ gs, ∀ s ∈ g, (selectors.getD s []).length = n := fun g hg s hs => by
    have : s < selectors.length := by rw [hlen]; exact (hmem s).1 (List.mem_flatten.2 ⟨g, hg, hs⟩)
    simp only [List.getD_eq_getElem?_getD, List.getElem?_eq_getElem this, Option.getD_some]
    exact hn _ (List.getElem_mem _)
  have hcs : ∀ s, ∃ c : F, c ≠ 0 ∧ (cs.simple s = false → c = 1) ∧ (s < cs.numSelectors → ∃ (k : ℕ) (g : List ℕ) (r : ℕ),
      gs[k]? = some g ∧ g[r]? = some s ∧ c = rootConst g.length r) := fun s => by
    by_cases hs : s < cs.numSelectors
    · obtain ⟨k, g, r, hk, hr⟩ := hwhere s hs
      have hG := hcomb g (List.mem_of_getElem? hk)
      have hrl : r < g.length := (List.getElem?_eq_some_iff.1 hr).1
      refine ⟨rootConst g.length r, rootConst_ne hc (hG.length_le (by omega)) hrl, fun hsim => ?_,
        fun _ => ⟨k, g, r, hk, hr, rfl⟩⟩
      rcases hG.degree with h1 | ⟨h1, _⟩
      · have : r = 0 := by omega
        rw [h1, this, rootConst_one]
      · refine absurd ?_ (h1 s (List.mem_of_getElem? hr))
        rw [hd]
        exact maxDeg_complex hsim
    · exact ⟨1, one_ne_zero, fun _ => rfl, fun h => absurd h hs⟩
  choose c hc0 hc1 hcv using hcs
  generalize hcols : (gs.map fun g => colOf (F := F) (g.map (desc selectors degrees)) 1 (List.replicate n 0)) = cols
    at hcomp
  have hcl : cols.length = gs.length := by rw [← hcols, List.length_map]
  have hrep : ∀ e, FixedBelow cs.numFixed e → (∀ s ∈ selectorsOf e, s < cs.numSelectors) → ∀ e', replace rs e = some e' →
      Replaced selectors cs.numFixed n cols c e e' := by
    intro e hf hs e' he t scale ht i hi
    unfold rowValue rowValueSel
    refine replace_value (R := F) (nf := cs.numFixed) ?_ ?_ ?_ e e' he hf fun s hse r hrs => ?_
    · intro x hx
      simp only [Table.columns, addFixed]
      rw [List.getD_append _ _ _ _ (by omega)]
    · rfl
    · rfl
    · obtain ⟨k, g, r', hk, hr', hcr⟩ := hcv s (hs s hse)
      have hG := hcomb g (List.mem_of_getElem? hk)
      have := (hpos k g r' s hk hr').2
      rw [hrs] at this
      simp only [Option.some.injEq] at this
      subst this
      have hkl : k < gs.length := (List.getElem?_eq_some_iff.1 hk).1
      have hmod : ((i : ℤ) % (n : ℤ)).toNat = i := by
        rw [Int.emod_eq_of_lt (by omega) (by omega)]; simp
      rw [hcr, member_value (F := F) hG (hrow g (List.mem_of_getElem? hk)) hi hc (by omega) ?_ hr']
      simp only [queryExpr, denote, Table.columns, addFixed, zero_mul, add_zero, hmod]
      rw [List.getD_append_right _ _ _ _ (by omega), ht, Nat.add_sub_cancel_left, ← hcols]
      simp [hk]
  have hsel0 : ∀ (s : ℕ) r, s < cs.numSelectors → rs[s]? = some (some r) → selectorsOf r = [] := fun s r hs hr => by
    obtain ⟨k, g, r', hk, hr'⟩ := hwhere s hs
    have := (hpos k g r' s hk hr').2
    rw [hr] at this
    simp only [Option.some.injEq] at this
    subst this
    exact rootExpr_selectors _ _ rfl _ _ _ rfl
  have hno : ∀ e, (∀ s ∈ selectorsOf e, s < cs.numSelectors) → ∀ e', replace rs e = some e' → selectorsOf e' = [] := by
    intro e hs e' h
    exact replace_selectors e e' (fun s hse r hr => hsel0 s r (hs s hse) hr) h
  refine ⟨_, _, _, c, hcomp, ?_, hmap, ?_⟩
  · refine
      { numFixed := by simp [hcl]
        fewer := ?_
        rows := ?_
        queries := by simp [hcl]
        same := ⟨rfl, rfl, rfl, rfl⟩
        nonzero := hc0
        complex := hc1
        gates := ?_
        lookups := ?_
        shuffles := ?_
        noSelectors := ?_ }
    · rw [hcl, ← hfl]
      exact length_le_flatten fun g hg' => (hcomb g hg').ne
    · intro col hcol
      rw [← hcols] at hcol
      obtain ⟨g, hg', rfl⟩ := List.mem_map.1 hcol
      refine colOf_length _ _ _ (by simp) fun d hd' => ?_
      obtain ⟨s, hs, rfl⟩ := List.mem_map.1 hd'
      exact hrow g hg' s hs
    · exact forall₂_imp_mem hg fun g hgm g' h => forall₂_imp_mem h fun e he e' =>
        hrep e (hp.fixed g hgm e he) (hp.selectors g hgm e he) e'
    · exact forall₂_imp_mem hlk fun a ha a' h => h.imp fun e he e' =>
        hrep e (hp.fixedLookups a (by simp [ha]) e he) (hp.selectorsLookups a (by simp [ha]) e he) e'
    · exact forall₂_imp_mem hsh fun a ha a' h => h.imp fun e he e' =>
        hrep e (hp.fixedLookups a (by simp [ha]) e he) (hp.selectorsLookups a (by simp [ha]) e he) e'
    · intro e' he'
      simp only [System.exprs, List.mem_append, List.mem_flatMap, List.mem_flatten] at he'
      rcases he' with (⟨g', hg', he'⟩ | ⟨a', ha', he'⟩) | ⟨a', ha', he'⟩
      · obtain ⟨g, hgm, h⟩ := forall₂_right hg hg'
        obtain ⟨e, he, h⟩ := forall₂_right h he'
        exact hno e (hp.selectors g hgm e he) e' h
      · obtain ⟨a, ha, h⟩ := forall₂_right hlk ha'
        rcases he' with he' | he'
        · obtain ⟨e, he, h⟩ := forall₂_right h.1 he'
          exact hno e (hp.selectorsLookups a (by simp [ha]) e (by simp [he])) e' h
        · obtain ⟨e, he, h⟩ := forall₂_right h.2 he'
          exact hno e (hp.selectorsLookups a (by simp [ha]) e (by simp [he])) e' h
      · obtain ⟨a, ha, h⟩ := forall₂_right hsh ha'
        rcases he' with he' | he'
        · obtain ⟨e, he, h⟩ := forall₂_right h.1 he'
          exact hno e (hp.selectorsLookups a (by simp [ha]) e (by simp [he])) e' h
        · obtain ⟨e, he, h⟩ := forall₂_right h.2 he'
          exact hno e (hp.selectorsLookups a (by simp [ha]) e (by simp [he])) e' h
  · intro s hs
    obtain ⟨k, g, r, hk, hr⟩ := hwhere s hs
    have hG := hcomb g (List.mem_of_getElem? hk)
    have hgl := hG.length_le (by omega)
    have hrl : r < g.length := (List.getElem?_eq_some_iff.1 hr).1
    have hkl : k < gs.length := (List.getElem?_eq_some_iff.1 hk).1
    have hr0 : (1 + (r : F)) ≠ 0 := by
      have := hc (1 + r) (by omega) (by omega)
      push_cast at this
      exact this
    refine ⟨k, 1 + (r : F), by omega, (hpos k g r s hk hr).1, hr0, fun i hi => ?_⟩
    have hcol : cols.getD k [] = colOf (g.map (desc selectors degrees)) 1 (List.replicate n 0) := by
      rw [← hcols]; simp [hk]
    obtain ⟨hv1, hv0⟩ := column_value (F := F) hG (hrow g (List.mem_of_getElem? hk)) hi
    rw [hcol]
    refine ⟨fun ha => hv1 r s hr ha, fun hv => ?_⟩
    by_contra ha
    by_cases hall : ∀ t ∈ g, active selectors t i = false
    · rw [hv0 hall] at hv; exact hr0 hv.symm
    · push Not at hall
      obtain ⟨t, ht, hta⟩ := hall
      obtain ⟨r', hr', hrt⟩ := List.getElem_of_mem ht
      have hrt' : g[r']? = some t := by rw [List.getElem?_eq_getElem hr', hrt]
      rw [hv1 r' t hrt' (by simpa using hta)] at hv
      have hne : r' ≠ r := by
        rintro rfl
        rw [hr] at hrt'
        simp only [Option.some.injEq] at hrt'
        subst hrt'
        exact hta (by simpa using ha)
      have := cast_ne hc (i := 1 + r') (j := 1 + r) (by omega) (by omega) (by omega)
      push_cast at this
      exact this hv

end
end Tachyon.Selector
