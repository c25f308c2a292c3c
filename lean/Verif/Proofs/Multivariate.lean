import Verif.Spec.Multivariate
import Verif.Proofs.Sumcheck
import Mathlib.Algebra.MvPolynomial.Eval
import Mathlib.Algebra.MvPolynomial.Degrees
import Mathlib.Data.Prod.Lex
import Mathlib.Data.List.TakeWhile
/-! Lemmas for `C94`. -/
universe u
namespace Tachyon.Multivariate
open MvPolynomial Tachyon.Parallel Tachyon.Sumcheck

variable {F : Type u} [Field F]

theorem den_nil : den ([] : List (Term F)) = 0 := rfl

theorem den_cons (t : Term F) (ts : List (Term F)) : den (t :: ts) = monomial t.literal.exps t.coeff + den ts := by
  simp [den]

theorem den_append (as bs : List (Term F)) : den (as ++ bs) = den as + den bs := by simp [den]

theorem den_neg : ∀ ts : List (Term F), den (ts.map Term.neg) = -den ts
  | [] => by simp [den]
  | t :: ts => by rw [List.map_cons, den_cons, den_cons, den_neg ts, Term.neg, map_neg]; ring

theorem exps_nil : Lit.exps [] = 0 := rfl

theorem exps_cons (e : Elem) (a : Lit) : Lit.exps (e :: a) = Finsupp.single e.var e.exp + Lit.exps a := by simp [Lit.exps]

theorem degree_eq : ∀ a : Lit, Lit.degree a = (Lit.exps a).degree
  | [] => by simp [Lit.degree, exps_nil]
  | e :: a => by
    rw [exps_cons, map_add, Finsupp.degree_single, ← degree_eq a]
    simp [Lit.degree]

theorem exps_zero {a : Lit} (h : Lit.degree a = 0) : Lit.exps a = 0 := by
  rw [degree_eq] at h
  exact (Finsupp.degree_eq_zero_iff _).1 h

theorem eq_exps {a b : Lit} (h : Lit.eq a b = true) : a.exps = b.exps := by
  simp only [Lit.eq, decide_eq_true_eq] at h
  rcases h with ⟨h, h'⟩ | rfl
  · rw [exps_zero h, exps_zero h']
  · rfl

/-! ### Evaluation -/

theorem foldlM_iff {α β : Type*} {f : β → α → Option β} {P : α → Prop} {g : β → α → β}
    (h : ∀ b a, P a → f b a = some (g b a)) (h' : ∀ b a, ¬ P a → f b a = none) :
    ∀ (l : List α) (b : β) (v : β), l.foldlM f b = some v ↔ (∀ a ∈ l, P a) ∧ v = l.foldl g b
  | [], b, v => by simp [eq_comm]
  | a :: l, b, v => by
    rw [List.foldlM_cons]
    by_cases hp : P a
    · rw [h b a hp, Option.bind_eq_bind, Option.bind_some, foldlM_iff h h' l]
      simp [hp]
    · rw [h' b a hp]
      simp [hp]

theorem mapM_id_iff {α : Type*} : ∀ (l : List (Option α)) (r : List α), l.mapM id = some r ↔ l = r.map some
  | [], r => by cases r <;> simp
  | none :: l, r => by cases r <;> simp
  | some x :: l, [] => by
    simp only [List.mapM_cons, id, Option.bind_eq_bind, Option.bind_some, List.map_nil]
    cases l.mapM id <;> simp
  | some x :: l, y :: r => by
    have := mapM_id_iff l r
    simp only [List.mapM_cons, id, Option.bind_eq_bind, Option.bind_some, List.map_cons, List.cons.injEq, Option.some.injEq]
    rw [← this]
    cases l.mapM id <;> simp

/-- `ParallelizeMap` over a container with a callback that may fail for some elements. -/
theorem parallelizeMap_iff {α : Type*} {threads : ℕ} {xs : List α} {f : List α → Option F} {P : α → Prop} {g : List α → F}
    (ht : 0 < threads) (h : xs.length + threads ≤ 2 ^ 64) (h2 : 2 * xs.length ≤ 2 ^ 64)
    (hf : ∀ l v, f l = some v ↔ (∀ a ∈ l, P a) ∧ v = g l) (fold : List F → F) (G : List α → F)
    (hG : ∀ ls : List (List α), fold (ls.map g) = G ls.flatten) (v : F) :
    ((parallelizeMap threads xs fun _ _ chunk => f chunk).mapM id).map fold = some v ↔ (∀ a ∈ xs, P a) ∧ v = G xs := by
  obtain ⟨cs, l, -, h3, h4⟩ := parallelizeMap_chunks (fun _ _ chunk => f chunk) ht h h2
  rw [h4, Option.map_eq_some_iff]
  have key : ∀ l' : List (List α), ∀ r, (l'.map f).mapM id = some r ↔ (∀ a ∈ l'.flatten, P a) ∧ r = l'.map g := by
    intro l' r
    rw [mapM_id_iff]
    induction l' generalizing r with
    | nil => cases r <;> simp
    | cons c l' ih =>
      cases r with
      | nil => simp
      | cons x r =>
        rw [List.map_cons, List.map_cons, List.cons.injEq, ih, hf]
        simp only [List.flatten_cons, List.mem_append, List.map_cons, List.cons.injEq]
        constructor
        · rintro ⟨⟨h1, h2⟩, h3, h4⟩
          exact ⟨fun a ha => ha.elim (h1 a) (h3 a), h2, h4⟩
        · rintro ⟨h1, h2, h3⟩
          exact ⟨⟨fun a ha => h1 a (.inl ha), h2⟩, fun a ha => h1 a (.inr ha), h3⟩
  have h5 : (l.map fun c => f (chunkOf xs cs c)) = (l.map (chunkOf xs cs)).map f := by rw [List.map_map]; rfl
  rw [h5]
  have h6 : (l.map (chunkOf xs cs)).flatten = xs := by rw [← List.flatMap_def, h3]
  constructor
  · rintro ⟨r, h7, h8⟩
    rw [key, h6] at h7
    obtain ⟨h9, rfl⟩ := h7
    rw [hG, h6] at h8
    exact ⟨h9, h8.symm⟩
  · rintro ⟨h7, rfl⟩
    refine ⟨_, (key _ _).2 ⟨by rwa [h6], rfl⟩, ?_⟩
    rw [hG, h6]

/-- The point as a function. -/
def at' (point : List F) (i : ℕ) : F := point.getD i 0

theorem evaluateElems_iff (point : List F) (es : List Elem) (v : F) :
    evaluateElems point es = some v ↔ (∀ e ∈ es, e.var < point.length) ∧ v = (es.map fun e => at' point e.var ^ e.exp).prod := by
  rw [evaluateElems, foldlM_iff (P := fun e => e.var < point.length) (g := fun acc e => acc * at' point e.var ^ e.exp), foldl_mul,
    one_mul]
  · intro b a ha
    simp [at', List.getD, List.getElem?_eq_getElem ha]
  · intro b a ha
    rw [List.getElem?_eq_none (by omega)]
    rfl

theorem prod_flatten {α : Type*} (w : α → F) (l : List (List α)) :
    ((l.map fun c => (c.map w).prod).foldl (· * ·) 1) = (l.flatten.map w).prod := by
  have := foldl_mul (fun x : F => x) (l.map fun c => (c.map w).prod) 1
  rw [this, List.map_id', one_mul]
  clear this
  induction l with
  | nil => rfl
  | cons c l ih => rw [List.map_cons, List.prod_cons, List.flatten_cons, List.map_append, List.prod_append, ih]

theorem evaluateLit_iff {threads : ℕ} {point : List F} {a : Lit} (ht : 0 < threads) (h : a.length + threads ≤ 2 ^ 64)
    (h2 : 2 * a.length ≤ 2 ^ 64) (v : F) :
    Lit.evaluate threads point a = some v ↔
      (∀ e ∈ a, e.var < point.length) ∧ v = (a.map fun e => at' point e.var ^ e.exp).prod := by
  rw [Lit.evaluate]
  exact parallelizeMap_iff (P := fun e : Elem => e.var < point.length) ht h h2 (fun l v => evaluateElems_iff point l v) _
    (fun a : List Elem => (a.map fun e => at' point e.var ^ e.exp).prod)
    (fun ls => prod_flatten _ ls) v

theorem exps_prod (x : ℕ → F) : ∀ a : Lit, (a.map fun e => x e.var ^ e.exp).prod = (Lit.exps a).prod fun i n => x i ^ n
  | [] => by simp [exps_nil]
  | e :: a => by
    rw [exps_cons, Finsupp.prod_add_index' (by simp) (by intros; rw [pow_add]), ← exps_prod x a, Finsupp.prod_single_index (by simp)]
    simp

theorem evaluateTerms_iff {threads : ℕ} {point : List F} (ht : 0 < threads) (all : List (Term F))
    (h : ∀ t ∈ all, Fits threads t.literal) (ts : List {t : Term F // t ∈ all}) (v : F) :
    evaluateTerms threads point (ts.map Subtype.val) = some v ↔ (∀ t ∈ ts, ∀ e ∈ t.val.literal, e.var < point.length) ∧
      v = (ts.map fun t => t.val.coeff * (t.val.literal.map fun e => at' point e.var ^ e.exp).prod).sum := by
  rw [evaluateTerms, List.foldlM_map, foldlM_iff (P := fun t : {t : Term F // t ∈ all} => ∀ e ∈ t.val.literal, e.var < point.length)
    (g := fun acc t => acc + t.val.coeff * (t.val.literal.map fun e => at' point e.var ^ e.exp).prod), foldl_add, zero_add]
  · intro b t ht'
    rw [(evaluateLit_iff ht (h _ t.2).1 (h _ t.2).2 _).2 ⟨ht', rfl⟩]
    rfl
  · intro b t ht'
    cases hv : Lit.evaluate threads point t.val.literal with
    | none => rfl
    | some v => exact absurd ((evaluateLit_iff ht (h _ t.2).1 (h _ t.2).2 _).1 hv).1 ht'

theorem eval_den (x : ℕ → F) (ts : List (Term F)) :
    eval x (den ts) = (ts.map fun t => t.coeff * (t.literal.map fun e => x e.var ^ e.exp).prod).sum := by
  induction ts with
  | nil => simp [den]
  | cons t ts ih => rw [den_cons, map_add, ih, eval_monomial, List.map_cons, List.sum_cons, exps_prod]

theorem parallelizeMap_map {α β γ : Type*} (threads : ℕ) (xs : List α) (i : α → β) (f : List β → γ) :
    (parallelizeMap threads (xs.map i) fun _ _ chunk => f chunk) = parallelizeMap threads xs fun _ _ chunk => f (chunk.map i) := by
  simp [parallelizeMap, chunkOf, List.map_take, List.map_drop]

theorem sum_flatten' {α : Type*} (w : α → F) (l : List (List α)) :
    ((l.map fun c => (c.map w).sum).foldl (· + ·) 0) = (l.flatten.map w).sum := by
  have := foldl_add (fun x : F => x) (l.map fun c => (c.map w).sum) 0
  rw [this, List.map_id', zero_add, sum_flatten]

theorem evaluate_iff {threads : ℕ} {p : Poly F} {point : List F} (ht : 0 < threads) (hp : Fits threads p.terms)
    (h : ∀ t ∈ p.terms, Fits threads t.literal) (v : F) :
    p.evaluate threads point = some v ↔ (∃ n, p.numVars = some n ∧ point.length ≤ n) ∧
      (∀ t ∈ p.terms, ∀ e ∈ t.literal, e.var < point.length) ∧ v = eval (at' point) (den p.terms) := by
  rw [Poly.evaluate, Option.bind_eq_some_iff]
  constructor
  · rintro ⟨n, h1, h2⟩
    split_ifs at h2 with h3 h4
    · rw [List.isEmpty_iff] at h4
      refine ⟨⟨n, h1, by omega⟩, by simp [h4], ?_⟩
      rw [h4, den_nil, map_zero]
      simpa using h2.symm
    · rw [← List.attach_map_subtype_val p.terms, parallelizeMap_map] at h2
      rw [parallelizeMap_iff ht (by simpa using hp.1) (by simpa using hp.2)
        (fun l v => evaluateTerms_iff ht p.terms h l v) _
        (fun ts => (ts.map fun t => t.val.coeff * (t.val.literal.map fun e => at' point e.var ^ e.exp).prod).sum)
        (fun ls => sum_flatten' _ ls)] at h2
      refine ⟨⟨n, h1, by omega⟩, fun t ht => h2.1 ⟨t, ht⟩ (by simp), ?_⟩
      rw [h2.2, eval_den]
      conv_rhs => rw [← List.attach_map_subtype_val p.terms, List.map_map]
      rfl
  · rintro ⟨⟨n, h1, h2⟩, h3, rfl⟩
    refine ⟨n, h1, ?_⟩
    rw [if_neg (by omega)]
    split_ifs with h4
    · rw [List.isEmpty_iff] at h4
      rw [h4, den_nil, map_zero]
    · rw [← List.attach_map_subtype_val p.terms, parallelizeMap_map]
      rw [parallelizeMap_iff ht (by simpa using hp.1) (by simpa using hp.2)
        (fun l v => evaluateTerms_iff ht p.terms h l v) _
        (fun ts => (ts.map fun t => t.val.coeff * (t.val.literal.map fun e => at' point e.var ^ e.exp).prod).sum)
        (fun ls => sum_flatten' _ ls)]
      refine ⟨fun t _ => h3 t.1 t.2, ?_⟩
      rw [eval_den, List.attach_map_subtype_val]
      conv_lhs => rw [← List.attach_map_subtype_val p.terms, List.map_map]
      rfl

/-! ### The order of the literals -/

/-- What the comparison of literals looks at. -/
def key (a : Lit) : ℕ ×ₗ (ℕ ×ₗ ℕ) :=
  match a.getLast? with
  | none => toLex (0, toLex (0, 0))
  | some e => if e.exp = 0 then toLex (0, toLex (0, 0)) else toLex (e.var + 1, toLex (e.exp, a.length))

theorem valid_last {a : Lit} (h : a.Valid) : ∃ e, a.getLast? = some e ∧ (e.exp = 0 → a = [⟨0, 0⟩]) := by
  rcases h with rfl | ⟨h, -, h'⟩
  · exact ⟨⟨0, 0⟩, rfl, fun _ => rfl⟩
  · refine ⟨a.getLast h, List.getLast?_eq_some_getLast h, fun h0 => ?_⟩
    have := h' _ (List.getLast_mem h)
    omega

theorem lt_key {a b : Lit} (ha : a.Valid) (hb : b.Valid) : Lit.lt a b = some (decide (key a < key b)) := by
  obtain ⟨x, hx, hx'⟩ := valid_last ha
  obtain ⟨y, hy, hy'⟩ := valid_last hb
  rw [Lit.lt, hx, hy, Option.bind_some, Option.map_some, key, key, hx, hy]
  congr 1
  by_cases x0 : x.exp = 0
  · have ha' := hx' x0
    subst ha'
    by_cases y0 : y.exp = 0
    · have hb' := hy' y0
      subst hb'
      obtain rfl : (⟨0, 0⟩ : Elem) = x := by simpa using hx
      obtain rfl : (⟨0, 0⟩ : Elem) = y := by simpa using hy
      simp
    · have hne : x ≠ y := by rintro rfl; exact y0 x0
      rw [if_neg hne, Elem.lt, if_neg (by simp [x0])]
      simp [x0, y0, Prod.Lex.toLex_lt_toLex, Nat.pos_of_ne_zero]
  · by_cases y0 : y.exp = 0
    · have hne : x ≠ y := by rintro rfl; exact x0 y0
      rw [if_neg hne, Elem.lt, if_neg (by simp [y0])]
      simp [x0, y0, Prod.Lex.toLex_lt_toLex]
    · obtain ⟨xv, xe⟩ := x
      obtain ⟨yv, ye⟩ := y
      simp only [] at x0 y0
      by_cases he : (⟨xv, xe⟩ : Elem) = ⟨yv, ye⟩
      · obtain ⟨rfl, rfl⟩ := Elem.mk.inj he
        simp [x0, Prod.Lex.toLex_lt_toLex]
      · rw [if_neg he, Elem.lt, if_pos ⟨x0, y0⟩]
        by_cases hv : xv = yv
        · subst hv
          have : xe ≠ ye := fun h => he (by rw [h])
          simp [x0, y0, Prod.Lex.toLex_lt_toLex, this]
        · simp [x0, y0, Prod.Lex.toLex_lt_toLex, hv]

/-- The exponents of a literal with increasing variables. -/
theorem exps_apply : ∀ {a : Lit}, a.Pairwise (fun x y => x.var < y.var) → ∀ e ∈ a, a.exps e.var = e.exp
  | [], _, e, he => by simp at he
  | x :: a, h, e, he => by
    rw [List.pairwise_cons] at h
    have hz : ∀ y : ℕ, (∀ z ∈ a, y < z.var) → Lit.exps a y = 0 := by
      intro y
      clear h he
      induction a with
      | nil => intro _; rfl
      | cons z a ih =>
        intro hz
        rw [exps_cons, Finsupp.add_apply, ih fun w hw => hz w (by simp [hw]), Finsupp.single_apply,
          if_neg (by have := hz z (by simp); omega)]
    rw [exps_cons, Finsupp.add_apply, Finsupp.single_apply]
    rcases List.mem_cons.1 he with rfl | he'
    · rw [if_pos rfl, hz _ h.1, Nat.add_zero]
    · rw [if_neg (by have := h.1 e he'; omega), exps_apply h.2 e he', Nat.zero_add]

theorem exps_ne {a : Lit} {i : ℕ} (h : a.exps i ≠ 0) : ∃ e ∈ a, e.var = i := by
  induction a with
  | nil => exact absurd rfl h
  | cons x a ih =>
    rw [exps_cons, Finsupp.add_apply, Finsupp.single_apply] at h
    by_cases hx : x.var = i
    · exact ⟨x, by simp, hx⟩
    · rw [if_neg hx, Nat.zero_add] at h
      obtain ⟨e, he, h'⟩ := ih h
      exact ⟨e, by simp [he], h'⟩

/-- Literals in normal form with the same exponents are equal. -/
theorem exps_injective {a b : Lit} (ha : a.Valid) (hb : b.Valid) (h : a.exps = b.exps) : a = b := by
  have const : Lit.exps [⟨0, 0⟩] = 0 := exps_zero rfl
  have pos : ∀ {a : Lit}, a ≠ [] → a.Pairwise (fun x y => x.var < y.var) → (∀ e ∈ a, 0 < e.exp) → a.exps ≠ 0 := by
    intro a h0 hs hp hz
    have := exps_apply hs _ (List.getLast_mem h0)
    have h' := hp _ (List.getLast_mem h0)
    rw [hz, Finsupp.zero_apply] at this
    omega
  rcases ha with rfl | ⟨ha0, ha, ha'⟩ <;> rcases hb with rfl | ⟨hb0, hb, hb'⟩
  · rfl
  · exact absurd (h.symm.trans const) (pos hb0 hb hb')
  · exact absurd (h.trans const) (pos ha0 ha ha')
  · have sub : ∀ {a b : Lit}, a.Pairwise (fun x y => x.var < y.var) → (∀ e ∈ a, 0 < e.exp) →
        b.Pairwise (fun x y => x.var < y.var) → a.exps = b.exps → ∀ e ∈ a, e ∈ b := by
      intro a b ha ha' hb h e he
      have h1 := exps_apply ha e he
      have h2 := ha' e he
      rw [h] at h1
      obtain ⟨e', he', h3⟩ := exps_ne (a := b) (i := e.var) (by omega)
      have h4 := exps_apply hb e' he'
      rw [h3, h1] at h4
      obtain rfl : e = e' := by
        cases e; cases e'
        simp_all
      exact he'
    have nd : ∀ {a : Lit}, a.Pairwise (fun x y => x.var < y.var) → a.Nodup := fun h =>
      h.imp fun {x y} h => by rintro rfl; exact lt_irrefl _ h
    have hp : a.Perm b := (List.perm_ext_iff_of_nodup (nd ha) (nd hb)).2 fun e =>
      ⟨sub ha ha' hb h e, sub hb hb' ha h.symm e⟩
    exact hp.eq_of_pairwise (le := fun x y => x.var < y.var) (fun x y _ _ h1 h2 => absurd h1 (by omega)) ha hb

/-! ### Sums -/

variable [DecidableEq F]

omit [DecidableEq F] in
theorem den_signed (negation : Bool) (ts : List (Term F)) :
    den (ts.map (signed negation)) = if negation then -den ts else den ts := by
  cases negation
  · have : (signed false : Term F → Term F) = id := by funext t; rfl
    rw [this, List.map_id]; rfl
  · have : (signed true : Term F → Term F) = Term.neg := by funext t; rfl
    rw [this, den_neg]; rfl

omit [DecidableEq F] in
theorem signed_literal (negation : Bool) (t : Term F) : (signed negation t).literal = t.literal := by cases negation <;> rfl

/-- The sum or the difference. -/
def signedDen {M : Type*} [AddGroup M] (negation : Bool) (x y : M) : M := if negation then x - y else x + y

theorem mergeTerms_den {negation : Bool} : ∀ {as bs cs : List (Term F)}, Agree as bs → mergeTerms negation as bs = some cs →
    den cs = signedDen negation (den as) (den bs)
  | [], bs, cs, _, h => by
    simp only [mergeTerms, Option.some.injEq] at h
    rw [← h, den_signed, den_nil]
    cases negation <;> simp [signedDen]
  | a :: as, bs, cs, hag, h => by
    have ih : ∀ {bs cs}, Agree as bs → mergeTerms negation as bs = some cs → den cs = signedDen negation (den as) (den bs) :=
      fun h1 h2 => mergeTerms_den h1 h2
    rw [mergeTerms] at h
    induction bs generalizing cs with
    | nil =>
      simp only [mergeInto, Option.some.injEq] at h
      rw [← h, den_nil]
      cases negation <;> simp [signedDen]
    | cons b bs ihb =>
      have hag' : Agree as (b :: bs) := fun x hx y hy => hag x (by simp [hx]) y hy
      simp only [mergeInto, Option.bind_eq_some_iff] at h
      obtain ⟨l, hl, h⟩ := h
      cases l with
      | true =>
        simp only [if_true, Option.map_eq_some_iff] at h
        obtain ⟨ds, h1, rfl⟩ := h
        rw [den_cons, den_cons a as, ih hag' h1]
        cases negation
        · simp only [signedDen, Bool.false_eq_true, if_false]; ring
        · simp only [signedDen, if_true]; ring
      | false =>
        simp only [Bool.false_eq_true, if_false, Option.bind_eq_some_iff] at h
        obtain ⟨g, hg, h⟩ := h
        cases g with
        | true =>
          simp only [if_true, Option.map_eq_some_iff] at h
          obtain ⟨ds, h1, rfl⟩ := h
          have := ihb _ (fun x hx y hy => hag x hx y (by simp [hy])) h1
          rw [den_cons, this, signed_literal, den_cons b]
          cases negation
          · simp only [signedDen, signed, Bool.false_eq_true, if_false]; ring
          · simp only [signedDen, signed, Term.neg, if_true, map_neg]; ring
        | false =>
          simp only [Bool.false_eq_true, if_false, Option.map_eq_some_iff] at h
          obtain ⟨ds, h1, h2⟩ := h
          have h3 := ih (fun x hx y hy => hag x (by simp [hx]) y (by simp [hy])) h1
          have h4 := hag a (by simp) b (by simp) hl hg
          have h5 : den cs = monomial a.literal.exps (signedSum negation a.coeff b.coeff) + den ds := by
            rw [← h2]
            split_ifs with h6
            · rw [h6, map_zero, zero_add]
            · rw [den_cons]
          rw [h5, h3, den_cons, den_cons, ← h4]
          cases negation
          · simp only [signedDen, signedSum, Bool.false_eq_true, if_false, map_add]; ring
          · simp only [signedDen, signedSum, if_true, map_sub]; ring

theorem compactGo_den : ∀ (ts : List (Term F)) (w : Term F), den (compactGo w ts) = den (w :: ts)
  | [], w => rfl
  | r :: rs, w => by
    rw [compactGo]
    split_ifs with h
    · rw [compactGo_den rs, den_cons, den_cons, den_cons, map_add, eq_exps h]; ring
    · rw [den_cons, compactGo_den rs, den_cons w]

theorem den_filter : ∀ ts : List (Term F), den (ts.filter fun t => decide (t.coeff ≠ 0)) = den ts
  | [] => rfl
  | t :: ts => by
    rw [List.filter_cons]
    split_ifs with h
    · rw [den_cons, den_filter ts, den_cons]
    · have h0 : t.coeff = 0 := by simpa using h
      rw [den_filter ts, den_cons, h0, map_zero, zero_add]

omit [DecidableEq F] in
theorem den_constants (ts : List (Term F)) (h : ∀ t ∈ ts, t.isConstant = true) :
    den ts = monomial 0 ((ts.map Term.coeff).foldl (· + ·) 0) := by
  have := foldl_add (fun x : F => x) (ts.map Term.coeff) 0
  rw [this, List.map_id', zero_add]
  clear this
  induction ts with
  | nil => simp [den]
  | cons t ts ih =>
    have h0 : t.literal.exps = 0 := exps_zero (by simpa [Term.isConstant] using h t (by simp))
    rw [den_cons, ih fun t ht => h t (by simp [ht]), List.map_cons, List.sum_cons, map_add, h0]

theorem compact_den {ts cs : List (Term F)} (h : compact ts = some cs) : den cs = den ts ∧ ∀ t ∈ cs, t.coeff ≠ 0 := by
  cases ts with
  | nil => cases h
  | cons t ts =>
    simp only [compact, Option.some.injEq] at h
    subst h
    refine ⟨?_, fun t ht => by simpa using (List.mem_filter.1 ht).2⟩
    rw [den_filter, den_cons, ← compactGo_den ts t]
    conv_rhs => rw [← List.takeWhile_append_dropWhile (p := Term.isConstant) (l := compactGo t ts), den_append,
      den_constants _ fun t ht => List.mem_takeWhile_imp ht]
    rw [constant, exps_zero rfl]

/-! ### Normal forms -/

/-- Sorted by the keys. -/
def Sorted (ts : List (Term F)) : Prop :=
  (∀ t ∈ ts, t.literal.Valid ∧ t.coeff ≠ 0) ∧ ts.Pairwise fun s t => key s.literal < key t.literal

omit [DecidableEq F] in
theorem normal_iff {ts : List (Term F)} : Normal ts ↔ Sorted ts := by
  have h : ∀ s t : Term F, s.literal.Valid → t.literal.Valid →
      (Lit.lt s.literal t.literal = some true ↔ key s.literal < key t.literal) := fun s t hs ht => by rw [lt_key hs ht]; simp
  constructor
  · exact fun ⟨h1, h2⟩ => ⟨h1, h2.imp_of_mem fun {s t} hs ht h3 => (h s t (h1 s hs).1 (h1 t ht).1).1 h3⟩
  · exact fun ⟨h1, h2⟩ => ⟨h1, h2.imp_of_mem fun {s t} hs ht h3 => (h s t (h1 s hs).1 (h1 t ht).1).2 h3⟩

omit [DecidableEq F] in
theorem Sorted.tail {t : Term F} {ts : List (Term F)} (h : Sorted (t :: ts)) : Sorted ts :=
  ⟨fun s hs => h.1 s (by simp [hs]), (List.pairwise_cons.1 h.2).2⟩

omit [DecidableEq F] in
theorem Sorted.cons {t : Term F} {ts : List (Term F)} (h1 : t.literal.Valid) (h2 : t.coeff ≠ 0)
    (h3 : ∀ s ∈ ts, key t.literal < key s.literal) (h : Sorted ts) : Sorted (t :: ts) :=
  ⟨fun s hs => by rcases List.mem_cons.1 hs with rfl | hs; exacts [⟨h1, h2⟩, h.1 s hs], List.pairwise_cons.2 ⟨h3, h.2⟩⟩

omit [DecidableEq F] in
theorem signed_coeff {negation : Bool} {t : Term F} (h : t.coeff ≠ 0) : (signed negation t).coeff ≠ 0 := by
  cases negation
  · exact h
  · exact neg_ne_zero.2 h

theorem mergeTerms_sorted {negation : Bool} : ∀ {as bs : List (Term F)}, Sorted as → Sorted bs →
    ∃ cs, mergeTerms negation as bs = some cs ∧ Sorted cs ∧ ∀ c ∈ cs, ∃ t ∈ as ++ bs, key t.literal = key c.literal
  | [], bs, _, hb => by
    refine ⟨_, rfl, ⟨fun t ht => ?_, ?_⟩, fun c hc => ?_⟩
    · obtain ⟨s, hs, rfl⟩ := List.mem_map.1 ht
      rw [signed_literal]
      exact ⟨(hb.1 s hs).1, signed_coeff (hb.1 s hs).2⟩
    · rw [List.pairwise_map]
      exact hb.2.imp fun h => by rwa [signed_literal, signed_literal]
    · obtain ⟨s, hs, rfl⟩ := List.mem_map.1 hc
      exact ⟨s, by simpa using hs, by rw [signed_literal]⟩
  | a :: as, bs, ha, hb => by
    have ih : ∀ {bs}, Sorted bs → ∃ cs, mergeTerms negation as bs = some cs ∧ Sorted cs ∧
      ∀ c ∈ cs, ∃ t ∈ as ++ bs, key t.literal = key c.literal := fun h => mergeTerms_sorted ha.tail h
    have ha1 : ∀ t ∈ as, key a.literal < key t.literal := (List.pairwise_cons.1 ha.2).1
    obtain ⟨hav, ha0⟩ := ha.1 a (by simp)
    rw [mergeTerms]
    induction bs with
    | nil => exact ⟨_, rfl, ha, fun c hc => ⟨c, by simpa using hc, rfl⟩⟩
    | cons b bs ihb =>
      obtain ⟨hbv, hb0⟩ := hb.1 b (by simp)
      have hb1 : ∀ t ∈ bs, key b.literal < key t.literal := (List.pairwise_cons.1 hb.2).1
      rw [mergeInto, lt_key hav hbv, Option.bind_some]
      by_cases hl : key a.literal < key b.literal
      · obtain ⟨cs, h1, h2, h3⟩ := ih hb
        rw [decide_eq_true hl, if_pos rfl, h1, Option.map_some]
        refine ⟨_, rfl, h2.cons hav ha0 fun s hs => ?_, fun c hc => ?_⟩
        · obtain ⟨t, ht, h4⟩ := h3 s hs
          rw [← h4]
          rcases List.mem_append.1 ht with ht | ht
          · exact ha1 t ht
          · rcases List.mem_cons.1 ht with rfl | ht
            · exact hl
            · exact hl.trans (hb1 t ht)
        · rcases List.mem_cons.1 hc with rfl | hc
          · exact ⟨c, by simp, rfl⟩
          · obtain ⟨t, ht, h4⟩ := h3 c hc
            exact ⟨t, by simp only [List.cons_append, List.mem_cons]; exact .inr ht, h4⟩
      · rw [decide_eq_false hl, if_neg (by simp), lt_key hbv hav, Option.bind_some]
        by_cases hg : key b.literal < key a.literal
        · obtain ⟨cs, h1, h2, h3⟩ := ihb hb.tail
          rw [decide_eq_true hg, if_pos rfl, h1, Option.map_some]
          refine ⟨_, rfl, h2.cons (by rwa [signed_literal]) (signed_coeff hb0) fun s hs => ?_, fun c hc => ?_⟩
          · obtain ⟨t, ht, h4⟩ := h3 s hs
            rw [← h4, signed_literal]
            rcases List.mem_append.1 ht with ht | ht
            · rcases List.mem_cons.1 ht with rfl | ht
              · exact hg
              · exact hg.trans (ha1 t ht)
            · exact hb1 t ht
          · rcases List.mem_cons.1 hc with rfl | hc
            · exact ⟨b, by simp, by rw [signed_literal]⟩
            · obtain ⟨t, ht, h4⟩ := h3 c hc
              refine ⟨t, ?_, h4⟩
              rcases List.mem_append.1 ht with ht | ht
              · exact List.mem_append_left _ ht
              · exact List.mem_append_right _ (by simp [ht])
        · have he : key a.literal = key b.literal := le_antisymm (not_lt.1 hg) (not_lt.1 hl)
          obtain ⟨cs, h1, h2, h3⟩ := ih hb.tail
          have h5 : ∀ s ∈ cs, key a.literal < key s.literal := fun s hs => by
            obtain ⟨t, ht, h4⟩ := h3 s hs
            rw [← h4]
            rcases List.mem_append.1 ht with ht | ht
            · exact ha1 t ht
            · rw [he]; exact hb1 t ht
          have h6 : ∀ c ∈ cs, ∃ t ∈ (a :: as) ++ (b :: bs), key t.literal = key c.literal := fun c hc => by
            obtain ⟨t, ht, h4⟩ := h3 c hc
            refine ⟨t, ?_, h4⟩
            rcases List.mem_append.1 ht with ht | ht
            · exact List.mem_append_left _ (by simp [ht])
            · exact List.mem_append_right _ (by simp [ht])
          rw [decide_eq_false hg, if_neg (by simp), h1, Option.map_some]
          refine ⟨_, rfl, ?_, ?_⟩
          · split_ifs with h7
            · exact h2
            · exact h2.cons hav h7 h5
          · split_ifs with h7
            · exact h6
            · intro c hc
              rcases List.mem_cons.1 hc with rfl | hc
              · exact ⟨a, by simp, rfl⟩
              · exact h6 c hc

omit [DecidableEq F] in
theorem valid_degree {a : Lit} (h : a.Valid) (h0 : Lit.degree a = 0) : a = [⟨0, 0⟩] :=
  exps_injective h (.inl rfl) ((exps_zero h0).trans (exps_zero rfl).symm)

theorem valid_eq {a b : Lit} (ha : a.Valid) (hb : b.Valid) : Lit.eq a b = true ↔ a = b := by
  constructor
  · exact fun h => exps_injective ha hb (eq_exps h)
  · rintro rfl; simp [Lit.eq]

theorem compactGo_sorted : ∀ {ts : List (Term F)} {w : Term F}, Sorted (w :: ts) → compactGo w ts = w :: ts
  | [], _, _ => rfl
  | r :: rs, w, h => by
    rw [compactGo, if_neg, compactGo_sorted h.tail]
    rw [valid_eq (h.1 w (by simp)).1 (h.1 r (by simp)).1]
    intro he
    have := (List.pairwise_cons.1 h.2).1 r (by simp)
    rw [he] at this
    exact lt_irrefl _ this

theorem compact_sorted {ts : List (Term F)} (h : Sorted ts) (h0 : ts ≠ []) : compact ts = some ts := by
  cases ts with
  | nil => exact absurd rfl h0
  | cons t ts =>
    rw [compact, compactGo_sorted h]
    have hall : ∀ l : List (Term F), (∀ s ∈ l, s ∈ t :: ts) → l.filter (fun t => decide (t.coeff ≠ 0)) = l := fun l hl =>
      List.filter_eq_self.2 fun s hs => by simpa using (h.1 s (hl s hs)).2
    by_cases hc : t.isConstant = true
    · have ht := valid_degree (h.1 t (by simp)).1 (by simpa [Term.isConstant] using hc)
      have hnext : ∀ s ∈ ts, s.isConstant = false := fun s hs => by
        by_contra hs'
        have h1 := valid_degree (h.1 s (by simp [hs])).1 (by simpa [Term.isConstant] using hs')
        have := (List.pairwise_cons.1 h.2).1 s hs
        rw [ht, h1] at this
        exact lt_irrefl _ this
      have h2 : ts.takeWhile Term.isConstant = [] ∧ ts.dropWhile Term.isConstant = ts := by
        cases ts with
        | nil => simp
        | cons s ts =>
          have := hnext s (by simp)
          simp [List.takeWhile_cons, List.dropWhile_cons, this]
      simp only [List.takeWhile_cons, List.dropWhile_cons, hc, if_true, h2.1, h2.2, List.map_cons, List.map_nil, List.foldl_cons,
        List.foldl_nil, zero_add]
      have h3 : constant t.coeff = t := by rw [constant, ← ht]
      rw [h3, hall _ fun s hs => hs]
    · simp only [List.takeWhile_cons, List.dropWhile_cons, hc, List.map_nil, List.foldl_nil]
      simp only [Bool.false_eq_true, if_false, List.map_nil, List.foldl_nil]
      rw [List.filter_cons, if_neg (by simp [constant]), hall _ fun s hs => hs]

omit [DecidableEq F] in
theorem coeff_not {m : ℕ →₀ ℕ} : ∀ {ts : List (Term F)}, (∀ t ∈ ts, t.literal.exps ≠ m) → coeff m (den ts) = 0
  | [], _ => by simp [den]
  | t :: ts, h => by
    rw [den_cons, coeff_add, coeff_monomial, if_neg (h t (by simp)), coeff_not fun s hs => h s (by simp [hs]), add_zero]

omit [DecidableEq F] in
theorem coeff_mem : ∀ {ts : List (Term F)}, Sorted ts → ∀ t ∈ ts, coeff t.literal.exps (den ts) = t.coeff
  | [], _, t, ht => by simp at ht
  | s :: ts, h, t, ht => by
    have hne : ∀ u ∈ ts, u.literal.exps ≠ s.literal.exps := fun u hu he => by
      have h1 := exps_injective (h.1 u (by simp [hu])).1 (h.1 s (by simp)).1 he
      have := (List.pairwise_cons.1 h.2).1 u hu
      rw [h1] at this
      exact lt_irrefl _ this
    rw [den_cons, coeff_add, coeff_monomial]
    rcases List.mem_cons.1 ht with rfl | ht
    · rw [if_pos rfl, coeff_not hne, add_zero]
    · rw [if_neg fun he => hne t ht he.symm, coeff_mem h.tail t ht, zero_add]

omit [DecidableEq F] in
theorem den_ne {ts : List (Term F)} (h : Sorted ts) (h0 : ts ≠ []) : den ts ≠ 0 := by
  intro hz
  have h1 := coeff_mem h _ (List.getLast_mem h0)
  rw [hz, coeff_zero] at h1
  exact (h.1 _ (List.getLast_mem h0)).2 h1.symm

omit [DecidableEq F] in
theorem den_injective {as bs : List (Term F)} (ha : Sorted as) (hb : Sorted bs) (h : den as = den bs) : as = bs := by
  have sub : ∀ {as bs : List (Term F)}, Sorted as → Sorted bs → den as = den bs → ∀ t ∈ as, t ∈ bs := by
    intro as bs ha hb h t ht
    have h1 := coeff_mem ha t ht
    have h2 := ha.1 t ht
    rw [h] at h1
    have : ∃ s ∈ bs, s.literal.exps = t.literal.exps := by
      by_contra hno
      push_neg at hno
      rw [coeff_not hno] at h1
      exact h2.2 h1.symm
    obtain ⟨s, hs, he⟩ := this
    have h3 := coeff_mem hb s hs
    rw [he, h1] at h3
    have h4 := exps_injective (hb.1 s hs).1 h2.1 he
    obtain rfl : s = t := by
      cases s; cases t
      simp_all
    exact hs
  have nd : ∀ {as : List (Term F)}, Sorted as → as.Nodup := fun h => h.2.imp fun {x y} h => by rintro rfl; exact lt_irrefl _ h
  have hp : as.Perm bs := (List.perm_ext_iff_of_nodup (nd ha) (nd hb)).2 fun t => ⟨sub ha hb h t, sub hb ha h.symm t⟩
  exact hp.eq_of_pairwise (le := fun s t => key s.literal < key t.literal) (fun x y _ _ h1 h2 => absurd h1 (lt_asymm h2)) ha.2 hb.2

theorem termsEq_iff : ∀ {as bs : List (Term F)}, (∀ t ∈ as, t.literal.Valid) → (∀ t ∈ bs, t.literal.Valid) →
    (termsEq as bs = true ↔ as = bs)
  | [], [], _, _ => by simp [termsEq]
  | [], _ :: _, _, _ => by simp [termsEq]
  | _ :: _, [], _, _ => by simp [termsEq]
  | a :: as, b :: bs, ha, hb => by
    have := termsEq_iff (fun t ht => ha t (by simp [ht])) (fun t ht => hb t (by simp [ht])) (as := as) (bs := bs)
    rw [termsEq, Bool.and_eq_true, Bool.and_eq_true, this, valid_eq (ha a (by simp)) (hb b (by simp)), decide_eq_true_eq]
    cases a; cases b
    simp

theorem eq_iff {p q : Poly F} (hp : Sorted p.terms) (hq : Sorted q.terms) : p.eq q = true ↔ den p.terms = den q.terms := by
  have h : p.eq q = true ↔ p.terms = q.terms := by
    rw [Poly.eq]
    split_ifs with h1 h2
    · rw [List.isEmpty_iff] at h1 ⊢
      rw [h1, eq_comm]
    · rw [List.isEmpty_iff] at h1 h2
      rw [h2]
      simp [h1]
    · exact termsEq_iff (fun t ht => (hp.1 t ht).1) fun t ht => (hq.1 t ht).1
  rw [h]
  exact ⟨fun h => by rw [h], den_injective hp hq⟩

omit [DecidableEq F] in
theorem mapM_lt {a : Lit} (ha : a.Valid) {ts : List (Term F)} (h : ∀ t ∈ ts, t.literal.Valid) :
    (ts.mapM fun t => (Lit.lt t.literal a).map fun l => (t, l)) = some (ts.map fun t => (t, decide (key t.literal < key a))) := by
  induction ts with
  | nil => rfl
  | cons t ts ih =>
    rw [List.mapM_cons, lt_key (h t (by simp)) ha, ih fun t ht => h t (by simp [ht])]
    rfl

theorem index_eq {p : Poly F} {a : Lit} (hp : Sorted p.terms) (ha : a.Valid)
    (hs : ∀ t ∈ p.terms, key t.literal = key a → t.literal = a) : p.index a = some (coeff a.exps (den p.terms)) := by
  obtain ⟨n, ts⟩ := p
  simp only [] at hp hs
  simp only [Poly.index, lowerBound]
  rw [mapM_lt ha fun t ht => (hp.1 t ht).1, Option.bind_some]
  induction ts with
  | nil => simp [den]
  | cons t ts ih =>
    have h1 : ∀ u ∈ ts, key t.literal < key u.literal := (List.pairwise_cons.1 hp.2).1
    have hv := (hp.1 t (by simp)).1
    by_cases hl : key t.literal < key a
    · rw [List.map_cons, List.dropWhile_cons_of_pos (by simpa using hl), ih hp.tail fun u hu => hs u (by simp [hu]), den_cons,
        coeff_add, coeff_monomial, if_neg, zero_add]
      intro he
      rw [exps_injective hv ha he] at hl
      exact lt_irrefl _ hl
    · rw [List.map_cons, List.dropWhile_cons_of_neg (by simpa using hl)]
      have h2 : ((t, decide (key t.literal < key a)) :: ts.map fun t => (t, decide (key t.literal < key a))).any Prod.snd = false := by
        rw [List.any_eq_false]
        intro x hx
        rcases List.mem_cons.1 hx with rfl | hx
        · simpa using hl
        · obtain ⟨u, hu, rfl⟩ := List.mem_map.1 hx
          have := h1 u hu
          simp only [decide_eq_true_eq]
          exact fun h => hl (this.trans h)
      rw [h2, if_neg (by simp), List.head?_cons, Option.map_some, Option.map_some]
      congr 1
      simp only []
      have h3 : ∀ u ∈ ts, u.literal.exps ≠ a.exps := fun u hu he => by
        have h4 := h1 u hu
        rw [exps_injective (hp.1 u (by simp [hu])).1 ha he] at h4
        exact hl h4
      rw [den_cons, coeff_add, coeff_monomial, coeff_not h3, add_zero]
      by_cases he : t.literal = a
      · rw [if_pos ((valid_eq hv ha).2 he), he, if_pos rfl]
      · rw [if_neg fun h => he ((valid_eq hv ha).1 h), if_neg fun h => he (exps_injective hv ha h)]

/-! ### Degree and difference with itself -/

omit [DecidableEq F] in
theorem degree_last {ts : List (Term F)} (h0 : ts ≠ []) : degree ts = some (Lit.degree (ts.getLast h0).literal) := by
  match ts, h0 with
  | [t], _ => simp only [degree, List.getLast_singleton]; split_ifs with h <;> simp [h]
  | s :: t :: ts, _ => simp [degree, List.getLast?_eq_some_getLast]

omit [DecidableEq F] in
theorem sum_eq_degree (s : ℕ →₀ ℕ) : (s.sum fun _ e => e) = s.degree := rfl

omit [DecidableEq F] in
theorem degree_le {ts : List (Term F)} (h : Sorted ts) {d : ℕ} (hd : degree ts = some d) : d ≤ (den ts).totalDegree := by
  have h0 : ts ≠ [] := by rintro rfl; simp [degree] at hd
  rw [degree_last h0, Option.some.injEq] at hd
  have h1 := coeff_mem h _ (List.getLast_mem h0)
  have h2 : (ts.getLast h0).literal.exps ∈ (den ts).support := by
    rw [mem_support_iff, h1]; exact (h.1 _ (List.getLast_mem h0)).2
  rw [← hd, degree_eq, ← sum_eq_degree]
  exact le_totalDegree h2

omit [DecidableEq F] in
theorem support_den {ts : List (Term F)} {m : ℕ →₀ ℕ} (h : m ∈ (den ts).support) : ∃ t ∈ ts, t.literal.exps = m := by
  by_contra hno
  push_neg at hno
  rw [mem_support_iff, coeff_not hno] at h
  exact h rfl

omit [DecidableEq F] in
theorem totalDegree_le {ts : List (Term F)} {d : ℕ} (h : ∀ t ∈ ts, Lit.degree t.literal ≤ d) : (den ts).totalDegree ≤ d := by
  rw [totalDegree, Finset.sup_le_iff]
  intro m hm
  obtain ⟨t, ht, rfl⟩ := support_den hm
  rw [sum_eq_degree, ← degree_eq]
  exact h t ht

omit [DecidableEq F] in
/-- In one variable. -/
theorem degree_one {ts : List (Term F)} (h : Sorted ts) {v : ℕ} (hv : ∀ t ∈ ts, ∀ e ∈ t.literal, e.var = v ∨ e.exp = 0) {d : ℕ}
    (hd : degree ts = some d) : (den ts).totalDegree = d := by
  refine le_antisymm (totalDegree_le fun t ht => ?_) (degree_le h hd)
  have h0 : ts ≠ [] := by rintro rfl; simp at ht
  rw [degree_last h0, Option.some.injEq] at hd
  have form : ∀ t ∈ ts, t.literal = [⟨0, 0⟩] ∨ ∃ e, 0 < e ∧ t.literal = [⟨v, e⟩] := by
    intro t ht
    rcases (h.1 t ht).1 with h1 | ⟨h1, h2, h3⟩
    · exact .inl h1
    · right
      have hvar : ∀ e ∈ t.literal, e.var = v := fun e he => (hv t ht e he).resolve_right (by have := h3 e he; omega)
      match hl : t.literal, h1 with
      | [e], _ =>
        rw [hl] at hvar h3
        refine ⟨e.exp, h3 e (by simp), ?_⟩
        rw [← hvar e (by simp)]
      | e :: f :: l, _ =>
        rw [hl] at hvar h2
        have h4 := (List.pairwise_cons.1 h2).1 f (by simp)
        have h5 := hvar e (by simp)
        have h6 := hvar f (by simp)
        omega
  by_cases he : t = ts.getLast h0
  · rw [← hd, ← he]
  · have hlt : key t.literal < key (ts.getLast h0).literal := by
      have h1 : ts = ts.dropLast ++ [ts.getLast h0] := (List.dropLast_append_getLast h0).symm
      have h2 := h.2
      rw [h1, List.pairwise_append] at h2
      refine h2.2.2 t ?_ _ (by simp)
      rw [h1] at ht
      rcases List.mem_append.1 ht with ht | ht
      · exact ht
      · exact absurd (List.mem_singleton.1 ht) he
    rw [← hd]
    rcases form t ht with h1 | ⟨e, he, h1⟩
    · rw [h1]; simp [Lit.degree]
    · rcases form _ (List.getLast_mem h0) with h2 | ⟨e', he', h2⟩
      · rw [h1, h2] at hlt
        simp [key, he.ne', Prod.Lex.toLex_lt_toLex] at hlt
      · rw [h1, h2] at hlt ⊢
        simp only [key, List.getLast?_singleton, he.ne', he'.ne', if_false, Prod.Lex.toLex_lt_toLex, lt_irrefl, true_and, false_or,
          List.length_singleton, and_false, or_false] at hlt
        simp only [Lit.degree, List.map_cons, List.map_nil, List.sum_cons, List.sum_nil]
        omega

theorem mergeTerms_self : ∀ {ts : List (Term F)}, (∀ t ∈ ts, t.literal ≠ []) → mergeTerms true ts ts = some []
  | [], _ => rfl
  | t :: ts, h => by
    have h1 : Lit.lt t.literal t.literal = some false := by
      rw [Lit.lt, List.getLast?_eq_some_getLast (h t (by simp))]
      simp
    rw [mergeTerms, mergeInto, h1, Option.bind_some, if_neg (by simp), Option.bind_some, if_neg (by simp),
      mergeTerms_self fun t ht => h t (by simp [ht])]
    simp [signedSum]

end Tachyon.Multivariate
