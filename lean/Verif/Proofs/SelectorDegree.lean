import Verif.Proofs.SelectorValue
/-! Lemmas for C89: the degree of the compressed constraint system. -/
universe u
namespace Tachyon.Selector
open Plonk CircuitPoly

section
variable {F : Type u}

theorem maxExprDegree_congr {l l' : List (Expr F)} (h : List.Forall₂ (fun e e' => degree e' = degree e) l l') :
    maxExprDegree l' = maxExprDegree l := by
  unfold maxExprDegree
  generalize 1 = d
  induction h generalizing d with
  | nil => rfl
  | cons hab _ ih => simp only [List.foldl_cons, hab]; exact ih _

theorem lookupDegrees_congr {l l' : List (Argument F)}
    (h : List.Forall₂ (ArgReplaced fun e e' => degree e' = degree e) l l') :
    l'.mapM lookupDegree = l.mapM lookupDegree := by
  induction h with
  | nil => rfl
  | cons hab _ ih =>
    simp only [List.mapM_cons, ih]
    unfold lookupDegree
    rw [hab.1.length_eq, hab.2.length_eq, maxExprDegree_congr hab.1, maxExprDegree_congr hab.2]

theorem shuffleDegrees_congr {l l' : List (Argument F)}
    (h : List.Forall₂ (ArgReplaced fun e e' => degree e' = degree e) l l') :
    l'.map shuffleDegree = l.map shuffleDegree := by
  induction h with
  | nil => rfl
  | cons hab _ ih =>
    simp only [List.map_cons, ih]
    unfold shuffleDegree
    rw [maxExprDegree_congr hab.1, maxExprDegree_congr hab.2]

theorem maxOr_zero_le {l : List ℕ} {D : ℕ} (h : ∀ x ∈ l, x ≤ D) : maxOr 0 l ≤ D := by
  unfold maxOr
  rcases hm : l.max? with _ | m
  · simp
  · exact h m (List.max?_eq_some_iff.1 hm).1

theorem forall₂_left {α β : Type u} {R : α → β → Prop} {l : List α} {l' : List β} (h : List.Forall₂ R l l') {x : α}
    (hx : x ∈ l) : ∃ y ∈ l', R x y := by
  induction h with
  | nil => simp at hx
  | cons hab _ ih =>
    rcases List.mem_cons.1 hx with rfl | hx
    · exact ⟨_, by simp, hab⟩
    · obtain ⟨y, hy, hr⟩ := ih hx
      exact ⟨y, by simp [hy], hr⟩

variable [Field F] [DecidableEq F]

theorem compress_degree {cs : CS F} {selectors : List (List Bool)} {n D : ℕ} (hp : cs.Proper)
    (hlen : selectors.length = cs.numSelectors) (hn : ∀ a ∈ selectors, a.length = n)
    (hdeg : computeDegree cs.sys = some D)
    (hmono : ∀ s t, s < t → gateDegree cs s ≠ 0 → gateDegree cs t ≤ gateDegree cs s) :
    ∃ cs' map cols, compress cs selectors = some (cs', map, cols) ∧ computeDegree cs'.sys = some D := by
  obtain ⟨gs, degrees, rs, map, gates, lookups, shuffles, hd, hcomp, hmap, hfl, hmem, hcomb, hpos, hg, hlk, hsh⟩ :=
    compress_spec hp hlen hn hdeg
  refine ⟨_, _, _, hcomp, ?_⟩
  have hDe := (computeDegree_bounds hdeg).2
  have hcs : ∀ s, ∃ x : ℕ, s < cs.numSelectors → ∃ (k : ℕ) (g : List ℕ) (r : ℕ),
      gs[k]? = some g ∧ g[r]? = some s ∧ x = g.length - 1 := fun s => by
    by_cases hs : s < cs.numSelectors
    · obtain ⟨g, hg, hs⟩ := List.mem_flatten.1 ((hmem s).2 hs)
      obtain ⟨k, hk⟩ := List.getElem?_of_mem hg
      obtain ⟨r, hr⟩ := List.getElem?_of_mem hs
      exact ⟨_, fun _ => ⟨k, g, r, hk, hr, rfl⟩⟩
    · exact ⟨0, fun h => absurd h hs⟩
  choose extra hextra using hcs
  have hr : ∀ s < cs.numSelectors, ∀ r, rs[s]? = some (some r) →
      1 ≤ degree r ∧ degree r ≤ 1 + (if cs.simple s then extra s else 0) := fun s hs r hrs => by
    obtain ⟨k, g, r', hk, hr', hx⟩ := hextra s hs
    have hG := hcomb g (List.mem_of_getElem? hk)
    have := (hpos k g r' s hk hr').2
    rw [hrs] at this
    simp only [Option.some.injEq] at this
    subst this
    have hrl : r' < g.length := (List.getElem?_eq_some_iff.1 hr').1
    have hmd := member_degree (F := F) (x := queryExpr cs.numFixed cs.sys.fixedQueries k) rfl hrl
    refine ⟨hmd.1, hmd.2.trans ?_⟩
    rw [hx]
    split
    · omega
    · rename_i hsim
      rcases hG.degree with h1 | ⟨h1, _⟩
      · omega
      · refine absurd ?_ (h1 s (List.mem_of_getElem? hr'))
        rw [hd]
        exact maxDeg_complex (by simpa using hsim)
  have hnone : ∀ a ∈ cs.sys.lookups ++ cs.sys.shuffles, ∀ e ∈ a.inputs ++ a.targets, ∀ e', replace rs e = some e' →
      degree e' = degree e := fun a ha e he e' h => by
    have := replace_degree (simple := cs.simple) (extra := extra) e e' h fun s hs r hrs =>
      hr s (hp.selectorsLookups a ha e he s hs) r hrs
    rw [hp.noneLookups a ha e he] at this
    simp only [List.map_nil, List.sum_nil] at this
    omega
  have hgate : ∀ g ∈ cs.sys.gates, ∀ e ∈ g, ∀ e', replace rs e = some e' → degree e ≤ degree e' ∧ degree e' ≤ D :=
      fun g hgm e he e' h => by
    have hrd := replace_degree (simple := cs.simple) (extra := extra) e e' h fun s hs r hrs =>
      hr s (hp.selectors g hgm e he s hs) r hrs
    refine ⟨hrd.1, hrd.2.trans ?_⟩
    have hef : e ∈ cs.sys.gates.flatten := List.mem_flatten.2 ⟨g, hgm, he⟩
    have hone := hp.one g hgm e he
    rcases hsim : simpleOf cs.simple e with _ | ⟨s, ss⟩
    · simpa using hDe e hef
    · rw [hsim] at hone
      have hss : ss = [] := List.length_eq_zero_iff.1 (by simpa using hone)
      subst hss
      have hsm : s ∈ simpleOf cs.simple e := by simp [hsim]
      have hse := (List.mem_filter.1 hsm).1
      obtain ⟨k, g', r, hk, hr', hx⟩ := hextra s (hp.selectors g hgm e he s hse)
      have hG := hcomb g' (List.mem_of_getElem? hk)
      simp only [List.map_cons, List.map_nil, List.sum_cons, List.sum_nil, add_zero, hx]
      have hde : degree e ≤ gateDegree cs s := le_maxDeg hef hsm
      have hpos1 : 0 < degree e := degree_pos_of_selector e (List.ne_nil_of_mem hse)
      rcases hG.degree with h1 | ⟨h1, h2⟩
      · have := hDe e hef; omega
      · rcases hgl : g' with _ | ⟨x, xs⟩
        · exact absurd hgl hG.ne
        · have hhead := h2 x (by simp [hgl])
          have hx0 := h1 x (by simp [hgl])
          rw [hd] at hhead hx0
          have hle : gateDegree cs s ≤ gateDegree cs x := by
            have hsg : s ∈ g' := List.mem_of_getElem? hr'
            rw [hgl] at hsg
            rcases List.mem_cons.1 hsg with rfl | hsx
            · exact le_rfl
            · have hlt := hG.lt
              rw [hgl, List.pairwise_cons] at hlt
              exact hmono x s (hlt.1 s hsx) hx0
          rw [← hgl]
          have hrl : r < g'.length := (List.getElem?_eq_some_iff.1 hr').1
          omega
  have hlk' : List.Forall₂ (ArgReplaced fun e e' => degree e' = degree e) cs.sys.lookups lookups :=
    forall₂_imp_mem hlk fun a ha a' h => h.imp fun e he e' => hnone a (by simp [ha]) e he e'
  have hsh' : List.Forall₂ (ArgReplaced fun e e' => degree e' = degree e) cs.sys.shuffles shuffles :=
    forall₂_imp_mem hsh fun a ha a' h => h.imp fun e he e' => hnone a (by simp [ha]) e he e'
  have hup : maxOr 0 (gates.flatten.map degree) ≤ D := by
    refine maxOr_zero_le fun x hx => ?_
    obtain ⟨e', he', rfl⟩ := List.mem_map.1 hx
    obtain ⟨g', hg', he'⟩ := List.mem_flatten.1 he'
    obtain ⟨g, hgm, h⟩ := forall₂_right hg hg'
    obtain ⟨e, he, h⟩ := forall₂_right h he'
    exact (hgate g hgm e he e' h).2
  have hlow : maxOr 0 (cs.sys.gates.flatten.map degree) ≤ maxOr 0 (gates.flatten.map degree) := by
    refine maxOr_zero_le fun x hx => ?_
    obtain ⟨e, he, rfl⟩ := List.mem_map.1 hx
    obtain ⟨g, hgm, he⟩ := List.mem_flatten.1 he
    obtain ⟨g', hg', h⟩ := forall₂_left hg hgm
    obtain ⟨e', he', h⟩ := forall₂_left h he
    exact (hgate g hgm e he e' h).1.trans (maxOr_le (List.mem_map.2 ⟨e', List.mem_flatten.2 ⟨g', hg', he'⟩, rfl⟩))
  unfold computeDegree at hdeg ⊢
  obtain ⟨ls, hls, hmax⟩ := Option.map_eq_some_iff.1 hdeg
  simp only [lookupDegrees_congr hlk', shuffleDegrees_congr hsh', hls, Option.map_some, Option.some.injEq]
  omega

end
end Tachyon.Selector
