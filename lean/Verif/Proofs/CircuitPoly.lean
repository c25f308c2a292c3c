import Verif.Spec.CircuitPoly
import Verif.Props.Graph
import Verif.Props.Vanishing
/-! Lemmas about the circuit polynomial. -/
universe u
namespace Tachyon.CircuitPoly
open Plonk FFT Parallel Vanishing Tachyon.Group Polynomial Poly

/-- The accumulation of constraints by powers of `y`. -/
def fold {R : Type u} [CommRing R] (y : R) (l : List R) (v : R) : R := l.foldl (fun v c => v * y + c) v

section
variable {R : Type u} [CommRing R]

theorem fold_append (y : R) (l l' : List R) (v : R) : fold y (l ++ l') v = fold y l' (fold y l v) := by
  simp [fold]

theorem fold_nil (y v : R) : fold y [] v = v := rfl

theorem fold_cons (y c : R) (l : List R) (v : R) : fold y (c :: l) v = fold y l (v * y + c) := rfl

theorem fold_zero (y : R) (l : List R) : fold y l 0 = combination y l := by
  induction l using List.reverseRecOn with
  | nil => simp [fold, combination]
  | append_singleton l v ih =>
    rw [fold_append, ih, fold_cons, fold_nil, combination, combination, List.length_append, List.length_singleton,
      Finset.sum_range_succ, Finset.sum_mul]
    congr 1
    · refine Finset.sum_congr rfl fun i hi => ?_
      rw [Finset.mem_range] at hi
      rw [List.getD_append _ _ _ _ hi, mul_assoc, ← pow_succ]
      congr 2; omega
    · simp

theorem map_combination {S : Type*} [CommRing S] (φ : R →+* S) (y : R) (l : List R) :
    φ (∑ i ∈ Finset.range l.length, l.getD i 0 * y ^ (l.length - 1 - i)) =
      ∑ i ∈ Finset.range (l.map φ).length, (l.map φ).getD i 0 * φ y ^ ((l.map φ).length - 1 - i) := by
  rw [map_sum, List.length_map]
  refine Finset.sum_congr rfl fun i hi => ?_
  rw [Finset.mem_range] at hi
  rw [map_mul, map_pow, List.getD_eq_getElem _ _ hi, List.getD_eq_getElem _ _ (by simpa using hi), List.getElem_map]

/-- The values of an environment. -/
def LookupEnv.map {S : Type u} (φ : R → S) (l : LookupEnv R) : LookupEnv S :=
  ⟨φ l.z, φ l.zNext, φ l.permInput, φ l.permInputPrev, φ l.permTable, φ l.input, φ l.table⟩

def ShuffleEnv.map {S : Type u} (φ : R → S) (l : ShuffleEnv R) : ShuffleEnv S :=
  ⟨φ l.z, φ l.zNext, φ l.input, φ l.target⟩

def Env.map {S : Type u} (φ : R → S) (E : Env R) : Env S where
  first := φ E.first
  last := φ E.last
  active := φ E.active
  x := φ E.x
  gates := E.gates.map φ
  m := E.m
  cols := fun j => φ (E.cols j)
  sigmas := fun j => φ (E.sigmas j)
  sets := E.sets
  z := fun j => φ (E.z j)
  zNext := fun j => φ (E.zNext j)
  zLast := fun j => φ (E.zLast j)
  lookups := E.lookups.map (LookupEnv.map φ)
  shuffles := E.shuffles.map (ShuffleEnv.map φ)

theorem map_permConstraints {S : Type u} [CommRing S] (φ : R →+* S) (β γ δ : R) (len : ℕ) (E : Env R) :
    (permConstraints β γ δ len E).map φ = permConstraints (φ β) (φ γ) (φ δ) len (E.map φ) := by
  unfold permConstraints
  by_cases h : E.sets = 0
  · rw [if_pos h, if_pos (show (E.map φ).sets = 0 from h)]; rfl
  · rw [if_neg h, if_neg (show ¬ (E.map φ).sets = 0 from h)]
    simp only [List.map_append, List.map_cons, List.map_nil, List.map_map, map_mul, map_sub, map_one, map_pow]
    congr 1
    · congr 1
      refine List.map_congr_left fun k _ => ?_
      simp [Env.map]
    · refine List.map_congr_left fun k _ => ?_
      simp [Env.map, map_prod]

theorem map_lookupConstraints {S : Type u} [CommRing S] (φ : R →+* S) (β γ : R) (E : Env R) (l : LookupEnv R) :
    (lookupConstraints β γ E l).map φ = lookupConstraints (φ β) (φ γ) (E.map φ) (l.map φ) := by
  simp [lookupConstraints, Env.map, LookupEnv.map]

theorem map_shuffleConstraints {S : Type u} [CommRing S] (φ : R →+* S) (γ : R) (E : Env R) (l : ShuffleEnv R) :
    (shuffleConstraints γ E l).map φ = shuffleConstraints (φ γ) (E.map φ) (l.map φ) := by
  simp [shuffleConstraints, Env.map, ShuffleEnv.map]

theorem map_constraints {S : Type u} [CommRing S] (φ : R →+* S) (β γ δ : R) (len : ℕ) (E : Env R) :
    (constraints β γ δ len E).map φ = constraints (φ β) (φ γ) (φ δ) len (E.map φ) := by
  unfold constraints
  rw [List.map_append, List.map_append, List.map_append, map_permConstraints, List.map_flatMap, List.map_flatMap]
  simp only [map_lookupConstraints, map_shuffleConstraints]
  congr 1
  · congr 1
    rw [show (E.map φ).lookups = E.lookups.map (LookupEnv.map φ) from rfl, List.flatMap_map]
  · rw [show (E.map φ).shuffles = E.shuffles.map (ShuffleEnv.map φ) from rfl, List.flatMap_map]

end

section
variable {F : Type u} [Field F]

/-- The list holds the values of the polynomial on the coset. -/
def Vals (s ω : F) (n : ℕ) (P : F[X]) (e : List F) : Prop := ∀ j < n, e.getD j 0 = P.eval (s * ω ^ j)

theorem getIndex_some {n idx : ℕ} (hn : 0 < n) (hn' : n ≤ 2 ^ 30) (hi : idx < n) {r : ℤ} (h1 : -2 ^ 30 ≤ r)
    (h2 : r ≤ 2 ^ 30) : getIndex r idx 1 n = some ((((idx : ℤ) + r) % n).toNat) := by
  have := getIndex_eq (r := r) (idx := idx) (scale := 1) (n := n) hn (by omega) (by omega)
  rw [this, mul_one]

theorem toNat_lt {n : ℕ} (hn : 0 < n) (z : ℤ) : (z % n).toNat < n := by
  have h3 := Int.emod_nonneg z (b := n) (by omega)
  have h4 := Int.emod_lt_of_pos z (b := n) (by omega)
  omega

/-- Reading in a rotated row. -/
theorem Vals.rotate {s ω : F} {n : ℕ} {P : F[X]} {e : List F} (h : Vals s ω n P e) (hn : 0 < n) (hω : ω ^ n = 1)
    (idx : ℕ) (r : ℤ) : e.getD (((idx : ℤ) + r) % n).toNat 0 = (P.comp (C (ω ^ r) * X)).eval (s * ω ^ idx) := by
  have h0 : ω ≠ 0 := by
    rintro rfl
    rw [zero_pow (by omega)] at hω
    exact zero_ne_one hω
  have h3 := Int.emod_nonneg ((idx : ℤ) + r) (b := n) (by omega)
  rw [h _ (toNat_lt hn _), eval_comp, eval_mul, eval_C, eval_X]
  congr 1
  have h5 : ω ^ (((idx : ℤ) + r) % n).toNat = ω ^ ((idx : ℤ) + r) := by
    rw [← zpow_natCast, Int.toNat_of_nonneg h3]
    conv_rhs => rw [← Int.emod_add_mul_ediv ((idx : ℤ) + r) n]
    rw [zpow_add₀ h0, zpow_mul, zpow_natCast, hω, one_zpow, mul_one]
  rw [h5, zpow_add₀ h0, zpow_natCast]
  ring

/-! ### The permutation evaluator -/

theorem permLinks_eq (b : Builder F) (idx rLast : ℕ) : ∀ (zs : List (List F)) (v : F),
    permLinks b idx rLast zs v = fold b.ch.y ((List.range (zs.length - 1)).map fun i =>
      at' b.lFirst idx * (at' (zs.getD (i + 1) []) idx - at' (zs.getD i []) rLast)) v
  | [], v => rfl
  | [z], v => rfl
  | z :: z' :: zs, v => by
    rw [permLinks, permLinks_eq b idx rLast (z' :: zs)]
    simp only [List.length_cons, Nat.add_sub_cancel]
    rw [List.range_succ_eq_map, List.map_cons, fold_cons, List.map_map]
    rfl

theorem permRight_eq (b : Builder F) (idx : ℕ) : ∀ (cs : List (List F)) (r d : F),
    permRight b idx cs r d = (r * ∏ j ∈ Finset.range cs.length, (at' (cs.getD j []) idx + d * b.delta ^ j + b.ch.gamma),
      d * b.delta ^ cs.length)
  | [], r, d => by simp [permRight]
  | c :: cs, r, d => by
    rw [permRight, permRight_eq b idx cs, List.length_cons, Finset.prod_range_succ']
    simp only [List.getD_cons_succ, List.getD_cons_zero, pow_zero, mul_one]
    refine Prod.ext ?_ (by simp only; ring)
    simp only [pow_succ']
    rw [mul_assoc, mul_comm (at' c idx + d + b.ch.gamma)]
    congr 2
    exact Finset.prod_congr rfl fun j _ => by ring

theorem permLeft_eq (b : Builder F) (idx : ℕ) : ∀ (cs ss : List (List F)) (l : F), cs.length ≤ ss.length →
    permLeft b idx cs ss l = some (l * ∏ j ∈ Finset.range cs.length,
      (at' (cs.getD j []) idx + b.ch.beta * at' (ss.getD j []) idx + b.ch.gamma))
  | [], _, l, _ => by simp [permLeft]
  | c :: cs, [], l, h => by simp at h
  | c :: cs, s :: ss, l, h => by
    rw [permLeft, permLeft_eq b idx cs ss _ (by simpa using h), List.length_cons, Finset.prod_range_succ']
    simp only [List.getD_cons_succ, List.getD_cons_zero]
    congr 1
    ring

theorem length_chunk {α : Type*} (l : List α) (k len : ℕ) :
    ((l.drop (k * len)).take len).length = min ((k + 1) * len) l.length - k * len := by
  rw [List.length_take, List.length_drop, Nat.add_mul]; omega

theorem getD_chunk {α : Type*} (l : List α) (x : α) (k len j : ℕ) (h : j < len) :
    ((l.drop (k * len)).take len).getD j x = l.getD (k * len + j) x := by
  rw [List.getD_eq_getElem?_getD, List.getD_eq_getElem?_getD, List.getElem?_take_of_lt h, List.getElem?_drop]

/-- The set of columns `k`. -/
def setValue (b : Builder F) (idx rNext : ℕ) (cols sigmas : List (List F)) (d : F) (z : List F) (k : ℕ) : F :=
  at' b.lActive idx *
    (at' z rNext * ∏ j ∈ Finset.Ico (k * b.chunkLen) (min ((k + 1) * b.chunkLen) cols.length),
        (at' (cols.getD j []) idx + b.ch.beta * at' (sigmas.getD j []) idx + b.ch.gamma) -
      at' z idx * ∏ j ∈ Finset.Ico (k * b.chunkLen) (min ((k + 1) * b.chunkLen) cols.length),
        (at' (cols.getD j []) idx + d * b.delta ^ j + b.ch.gamma))

theorem permSets_eq (b : Builder F) (idx rNext : ℕ) (cols sigmas : List (List F)) (hs : sigmas.length = cols.length)
    (d : F) : ∀ (zs : List (List F)) (k : ℕ) (v e : F), (k + zs.length - 1) * b.chunkLen ≤ cols.length →
    (zs ≠ [] → e = d * b.delta ^ (k * b.chunkLen)) →
    permSets b idx rNext zs ((List.range' k zs.length).map fun k => (cols.drop (k * b.chunkLen)).take b.chunkLen)
      ((List.range' k zs.length).map fun k => (sigmas.drop (k * b.chunkLen)).take b.chunkLen) e v =
      some (fold b.ch.y ((List.range zs.length).map fun i =>
        setValue b idx rNext cols sigmas d (zs.getD i []) (k + i)) v)
  | [], k, v, e, _, _ => rfl
  | z :: zs, k, v, e, h, he => by
    obtain rfl := he (by simp)
    rw [List.length_cons] at h ⊢
    rw [List.range'_succ, List.map_cons, List.map_cons, permSets, permLeft_eq _ _ _ _ _ (by
      rw [length_chunk, length_chunk, hs]), Option.bind_some]
    simp only
    rw [permRight_eq, List.range_succ_eq_map, List.map_cons, fold_cons, List.map_map]
    have hv : ∀ (P Q : ℕ → F), (∀ j < b.chunkLen, P j = Q (k * b.chunkLen + j)) →
        ∏ j ∈ Finset.range ((cols.drop (k * b.chunkLen)).take b.chunkLen).length, P j =
        ∏ j ∈ Finset.Ico (k * b.chunkLen) (min ((k + 1) * b.chunkLen) cols.length), Q j := by
      intro P Q hPQ
      rw [Finset.prod_Ico_eq_prod_range, length_chunk]
      refine Finset.prod_congr rfl fun j hj => hPQ j ?_
      rw [Finset.mem_range, Nat.add_mul] at hj
      omega
    rw [permSets_eq b idx rNext cols sigmas hs d zs (k + 1) _ _ (by
      rw [show k + 1 + zs.length - 1 = k + (zs.length + 1) - 1 by omega]; exact h)]
    · congr 2
      · refine List.map_congr_left fun i _ => ?_
        simp only [Function.comp, List.getD_cons_succ]
        congr 1; omega
      · simp only [List.getD_cons_zero, Nat.add_zero, setValue]
        rw [hv _ (fun j => at' (cols.getD j []) idx + b.ch.beta * at' (sigmas.getD j []) idx + b.ch.gamma),
          hv _ (fun j => at' (cols.getD j []) idx + d * b.delta ^ j + b.ch.gamma)]
        · ring
        · intro j hj
          rw [getD_chunk _ _ _ _ _ hj, pow_add]; ring
        · intro j hj
          rw [getD_chunk _ _ _ _ _ hj, getD_chunk _ _ _ _ _ hj]
    · intro hne
      have hpos : 0 < zs.length := List.length_pos_iff.2 hne
      have h2 : (k + 1) * b.chunkLen ≤ cols.length :=
        (Nat.mul_le_mul_right _ (by omega)).trans h
      rw [length_chunk, Nat.min_eq_left h2, mul_assoc, ← pow_add]
      have := Nat.add_mul k 1 b.chunkLen
      rw [show k * b.chunkLen + ((k + 1) * b.chunkLen - k * b.chunkLen) = (k + 1) * b.chunkLen by omega]

theorem chunkNum_le {m len : ℕ} (h : 0 < len) : (GrandProduct.chunkNum m len - 1) * len ≤ m := by
  obtain ⟨-, h2⟩ := ceilDiv_bounds (a := m) h (n := GrandProduct.chunkNum m len) rfl
  rw [Nat.sub_mul]; omega

/-- What a row of the permutation argument is about: the list of its constraints. -/
theorem permRow_eq (b : Builder F) (products cols sigmas : List (List F)) (hs : sigmas.length = cols.length)
    (hlen : 0 < b.chunkLen) (hp : products.length = GrandProduct.chunkNum cols.length b.chunkLen)
    (h0 : products ≠ []) {idx rLast rNext : ℕ} (h1 : getIndex b.lastRotation idx 1 b.n = some rLast)
    (h2 : getIndex 1 idx 1 b.n = some rNext) (betaTerm v : F) (E : Env F) (hf : at' b.lFirst idx = E.first)
    (hl : at' b.lLast idx = E.last) (ha : at' b.lActive idx = E.active) (hm : E.m = cols.length)
    (hset : E.sets = products.length) (hx : b.deltaStart * betaTerm = b.ch.beta * E.x)
    (hz : ∀ i < products.length, at' (products.getD i []) idx = E.z i)
    (hzn : ∀ i < products.length, at' (products.getD i []) rNext = E.zNext i)
    (hzl : ∀ i < products.length, at' (products.getD i []) rLast = E.zLast i)
    (hc : ∀ j < cols.length, at' (cols.getD j []) idx = E.cols j)
    (hsg : ∀ j < cols.length, at' (sigmas.getD j []) idx = E.sigmas j) :
    permRow b products (chunked b.chunkLen cols) (chunked b.chunkLen sigmas) idx betaTerm v =
      some (fold b.ch.y (permConstraints b.ch.beta b.ch.gamma b.delta b.chunkLen E) v) := by
  have hpos : 0 < products.length := List.length_pos_iff.2 h0
  have e1 : products.head? = some (products.getD 0 []) := by
    cases products with
    | nil => exact absurd rfl h0
    | cons => rfl
  have e2 : products.getLast? = some (products.getD (products.length - 1) []) := by
    rw [List.getLast?_eq_getElem?, List.getD_eq_getElem?_getD, List.getElem?_eq_getElem (by omega)]; rfl
  rw [permRow, e1, Option.bind_some, e2, Option.bind_some, h1, Option.bind_some, h2, Option.bind_some, chunked, chunked,
    hs, ← hp, List.range_eq_range', permSets_eq b idx rNext cols sigmas hs (b.ch.beta * E.x) products 0 _ _ (by
      rw [Nat.zero_add, hp]; exact chunkNum_le hlen) (fun _ => by rw [hx]; simp), permLinks_eq]
  congr 1
  rw [permConstraints, if_neg (by omega), fold_append, fold_append, hset]
  congr 1
  · refine List.map_congr_left fun k hk => ?_
    rw [List.mem_range] at hk
    rw [Nat.zero_add, setValue, ha, hzn k hk, hz k hk, hm]
    congr 2
    · congr 1
      refine Finset.prod_congr rfl fun j hj => ?_
      rw [Finset.mem_Ico] at hj
      rw [hc j (by omega), hsg j (by omega)]
    · congr 1
      refine Finset.prod_congr rfl fun j hj => ?_
      rw [Finset.mem_Ico] at hj
      rw [hc j (by omega)]; ring
  · congr 1
    · refine List.map_congr_left fun i hi => ?_
      rw [List.mem_range] at hi
      rw [hf, hz _ (by omega), hzl _ (by omega)]
    · rw [fold_cons, fold_cons, fold_nil, hz 0 hpos, hz _ (by omega), hf, hl]
      ring

/-- The loop over the rows. -/
theorem permRows_eq (b : Builder F) (products : List (List F)) (cols cosets : List (List (List F))) (L : ℕ → List F)
    (x : F) : ∀ (vs : List F) (idx : ℕ), (∀ i < vs.length, ∀ v, permRow b products cols cosets (idx + i)
      (x * b.omega ^ (idx + i)) v = some (fold b.ch.y (L (idx + i)) v)) →
    permRows b products cols cosets (x * b.omega ^ idx) idx vs =
      some (vs.mapIdx fun i v => fold b.ch.y (L (idx + i)) v)
  | [], _, _ => rfl
  | v :: vs, idx, h => by
    have h0 := h 0 (by simp) v
    rw [Nat.add_zero] at h0
    rw [permRows, h0, Option.bind_some, mul_assoc, ← pow_succ, permRows_eq b products cols cosets L x vs (idx + 1)
      (fun i hi v => by
        have := h (i + 1) (by simpa using hi) v
        rwa [show idx + (i + 1) = idx + 1 + i by omega] at this)]
    rw [Option.map_some, List.mapIdx_cons]
    congr 2
    refine List.mapIdx_eq_mapIdx_iff.2 fun i _ => ?_
    rw [show idx + (i + 1) = idx + 1 + i by omega]

theorem permChunk_eq (b : Builder F) (keys : List Key) (products sigmas cols : List (List F)) (L : ℕ → List F)
    (start : ℕ) (chunk : List F) (hk : keys.mapM (Key.column b.table) = some cols) (hlen : 0 < b.chunkLen)
    (h0 : products = [] → ∀ i < chunk.length, L (start + i) = [])
    (h : products ≠ [] → ∀ i < chunk.length, ∀ v, permRow b products (chunked b.chunkLen cols) (chunked b.chunkLen sigmas)
      (start + i) (b.current * b.omega ^ (start + i)) v = some (fold b.ch.y (L (start + i)) v)) (hb : start < 2 ^ 64) :
    permChunk b keys products sigmas start chunk = some (chunk.mapIdx fun i v => fold b.ch.y (L (start + i)) v) := by
  unfold permChunk
  by_cases hp : products = []
  · subst hp
    rw [if_pos List.isEmpty_nil]
    congr 1
    refine (List.ext_getElem (by simp) fun i h1 h2 => ?_)
    rw [List.getElem_mapIdx, h0 rfl i h1, fold_nil]
  · rw [if_neg (by simpa using hp), if_neg (by omega), hk, Option.bind_some, Group.powSize_eq _ hb]
    exact permRows_eq b products _ _ L b.current chunk start (h hp)

/-! ### Lookups and shuffles -/

theorem lookupRows_eq (b : Builder F) (g : Graph F) (c : LookupCosets F) (L : ℕ → List F) (a : ℕ → F) :
    ∀ (vs ims : List F) (idx : ℕ), ims.length = g.num →
    (∀ i < vs.length, ∀ ims : List F, ims.length = g.num → ∃ ims' : List F, ims'.length = g.num ∧
      g.evaluate b.table b.ch b.n ims ((idx + i : ℕ) : ℤ) 1 0 = some (a (idx + i), ims')) →
    (∀ i < vs.length, ∀ v, lookupRow b c (idx + i) (a (idx + i)) v = some (fold b.ch.y (L (idx + i)) v)) →
    lookupRows b g c ims idx vs = some (vs.mapIdx fun i v => fold b.ch.y (L (idx + i)) v)
  | [], _, _, _, _, _ => rfl
  | v :: vs, ims, idx, hl, h1, h2 => by
    obtain ⟨ims', hl', e⟩ := h1 0 (by simp) ims hl
    have e2 := h2 0 (by simp) v
    rw [Nat.add_zero] at e e2
    rw [lookupRows, e, Option.bind_some, e2, Option.bind_some,
      lookupRows_eq b g c L a vs ims' (idx + 1) hl' (fun i hi => by
        have := h1 (i + 1) (by simpa using hi)
        rwa [show idx + (i + 1) = idx + 1 + i by omega] at this) (fun i hi v => by
        have := h2 (i + 1) (by simpa using hi) v
        rwa [show idx + (i + 1) = idx + 1 + i by omega] at this)]
    rw [Option.map_some, List.mapIdx_cons]
    congr 2
    refine List.mapIdx_eq_mapIdx_iff.2 fun i _ => ?_
    rw [show idx + (i + 1) = idx + 1 + i by omega]

theorem shuffleRows_eq (b : Builder F) (gi gs : Graph F) (c : List F) (L : ℕ → List F) (a s : ℕ → F) :
    ∀ (vs ims ims' : List F) (idx : ℕ), ims.length = gi.num → ims'.length = gs.num →
    (∀ i < vs.length, ∀ ims : List F, ims.length = gi.num → ∃ ims' : List F, ims'.length = gi.num ∧
      gi.evaluate b.table b.ch b.n ims ((idx + i : ℕ) : ℤ) 1 0 = some (a (idx + i), ims')) →
    (∀ i < vs.length, ∀ ims : List F, ims.length = gs.num → ∃ ims' : List F, ims'.length = gs.num ∧
      gs.evaluate b.table b.ch b.n ims ((idx + i : ℕ) : ℤ) 1 0 = some (s (idx + i), ims')) →
    (∀ i < vs.length, ∀ v, shuffleRow b c (idx + i) (a (idx + i)) (s (idx + i)) v =
      some (fold b.ch.y (L (idx + i)) v)) →
    shuffleRows b gi gs c ims ims' idx vs = some (vs.mapIdx fun i v => fold b.ch.y (L (idx + i)) v)
  | [], _, _, _, _, _, _, _, _ => rfl
  | v :: vs, ims, ims', idx, hl, hl', h1, h1', h2 => by
    obtain ⟨im, hm, e⟩ := h1 0 (by simp) ims hl
    obtain ⟨im', hm', e'⟩ := h1' 0 (by simp) ims' hl'
    have e2 := h2 0 (by simp) v
    rw [Nat.add_zero] at e e' e2
    rw [shuffleRows, e, Option.bind_some, e', Option.bind_some, e2, Option.bind_some,
      shuffleRows_eq b gi gs c L a s vs im im' (idx + 1) hm hm' (fun i hi => by
        have := h1 (i + 1) (by simpa using hi)
        rwa [show idx + (i + 1) = idx + 1 + i by omega] at this) (fun i hi => by
        have := h1' (i + 1) (by simpa using hi)
        rwa [show idx + (i + 1) = idx + 1 + i by omega] at this) (fun i hi v => by
        have := h2 (i + 1) (by simpa using hi) v
        rwa [show idx + (i + 1) = idx + 1 + i by omega] at this)]
    rw [Option.map_some, List.mapIdx_cons]
    congr 2
    refine List.mapIdx_eq_mapIdx_iff.2 fun i _ => ?_
    rw [show idx + (i + 1) = idx + 1 + i by omega]

theorem lookupRow_eq (b : Builder F) (c : LookupCosets F) {idx rNext rPrev : ℕ}
    (h1 : getIndex 1 idx 1 b.n = some rNext) (h2 : getIndex (-1) idx 1 b.n = some rPrev) (E : Env F) (l : LookupEnv F)
    (hf : at' b.lFirst idx = E.first) (hl : at' b.lLast idx = E.last) (ha : at' b.lActive idx = E.active)
    (hz : at' c.product idx = l.z) (hzn : at' c.product rNext = l.zNext) (hi : at' c.input idx = l.permInput)
    (hip : at' c.input rPrev = l.permInputPrev) (ht : at' c.table idx = l.permTable) (v : F) :
    lookupRow b c idx ((l.input + b.ch.beta) * (l.table + b.ch.gamma)) v =
      some (fold b.ch.y (lookupConstraints b.ch.beta b.ch.gamma E l) v) := by
  simp only [lookupRow, h1, h2, Option.bind_some, Option.map_some, hf, hl, ha, hz, hzn, hi, hip, ht, lookupConstraints,
    fold_cons, fold_nil]
  congr 1
  ring

theorem shuffleRow_eq (b : Builder F) (c : List F) {idx rNext : ℕ} (h1 : getIndex 1 idx 1 b.n = some rNext) (E : Env F)
    (l : ShuffleEnv F) (hf : at' b.lFirst idx = E.first) (hl : at' b.lLast idx = E.last)
    (ha : at' b.lActive idx = E.active) (hz : at' c idx = l.z) (hzn : at' c rNext = l.zNext) (v : F) :
    shuffleRow b c idx (l.input + b.ch.gamma) (l.target + b.ch.gamma) v =
      some (fold b.ch.y (shuffleConstraints b.ch.gamma E l) v) := by
  simp only [shuffleRow, h1, Option.map_some, hf, hl, ha, hz, hzn, shuffleConstraints, fold_cons, fold_nil]

/-- A loop whose iterations rewrite a chunk row by row. -/
theorem foldlM_chunk {α : Type*} (y : F) (step : List F → α → Option (List F)) (L : α → ℕ → List F) (m : ℕ) :
    ∀ (l : List α) (chunk : List F), chunk.length = m → (∀ a ∈ l, ∀ chunk : List F, chunk.length = m →
      step chunk a = some (chunk.mapIdx fun i v => fold y (L a i) v)) →
    l.foldlM step chunk = some (chunk.mapIdx fun i v => fold y (l.flatMap fun a => L a i) v)
  | [], chunk, _, _ => by
    simp only [List.foldlM_nil, List.flatMap_nil, fold_nil]
    show some chunk = _
    congr 1
    refine (List.ext_getElem (by simp) fun i h1 h2 => ?_)
    rw [List.getElem_mapIdx]
  | a :: l, chunk, hm, h => by
    rw [List.foldlM_cons, h a (by simp) chunk hm]
    show l.foldlM step _ = _
    rw [foldlM_chunk y step L m l _ (by simpa using hm) (fun x hx => h x (by simp [hx]))]
    congr 1
    refine (List.ext_getElem (by simp) fun i h1 h2 => ?_)
    simp only [List.getElem_mapIdx, List.flatMap_cons, fold_append]

end
end Tachyon.CircuitPoly
