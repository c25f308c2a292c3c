import Verif.Proofs.Vanishing
import Verif.Proofs.FloorConst
import Verif.Spec.Halo2Protocol
/-! Lemmas on the messages of halo2. -/
namespace Tachyon.Halo2
open Tachyon.FFT Tachyon.Vanishing

section
variable {P F : Type}

/-- `f` writes `ms` to the proof. -/
def Writes {α : Type} (f : Write P F α) (ms : List (Msg P F)) (a : α) : Prop :=
  ∀ w, f w = some (a, ⟨w.log ++ ms.map .absorb, w.proof ++ ms⟩)

/-- `f` tells the transcript `ms`. -/
def Tells {α : Type} (f : Write P F α) (ms : List (Msg P F)) (a : α) : Prop :=
  ∀ w, f w = some (a, ⟨w.log ++ ms.map .absorb, w.proof⟩)

/-- `g` reads `ms` and gives `b`. -/
def Reads {β : Type} (g : Read P F β) (ms : List (Msg P F)) (b : β) : Prop :=
  ∀ log tail, g ⟨log, ms ++ tail⟩ = some (b, ⟨log ++ ms.map .absorb, tail⟩)

/-- `g` tells the transcript `ms`. -/
def Hears {β : Type} (g : Read P F β) (ms : List (Msg P F)) (b : β) : Prop :=
  ∀ r, g r = some (b, ⟨r.log ++ ms.map .absorb, r.rest⟩)

theorem bind_run {σ α β : Type} (f : StateT σ Option α) (k : α → StateT σ Option β) (s : σ) :
    (f >>= k) s = (f s).bind fun p => k p.1 p.2 := by
  change StateT.bind f k s = _
  unfold StateT.bind
  cases f s <;> rfl

theorem run_bind {σ α β : Type} {f : StateT σ Option α} {k : α → StateT σ Option β} {s s' : σ} {a : α} (h : f s = some (a, s')) :
    (f >>= k) s = k a s' := by
  rw [bind_run, h]; rfl

theorem give_some {σ α : Type} {a : Option α} {b : α} (h : a = some b) (s : σ) : give a s = some (b, s) := by
  rw [h]; rfl

theorem pure_run {σ α : Type} (a : α) (s : σ) : (pure a : StateT σ Option α) s = some (a, s) := rfl

theorem map_run {σ α β : Type} (g : α → β) (f : StateT σ Option α) (s : σ) : (g <$> f) s = (f s).map fun p => (g p.1, p.2) := by
  change StateT.map g f s = _
  unfold StateT.map
  cases f s <;> rfl

theorem Writes.pure {α : Type} (a : α) : Writes (P := P) (F := F) (pure a) [] a := by
  intro w; rw [pure_run]; simp

theorem Writes.bind {α β : Type} {f : Write P F α} {k : α → Write P F β} {ms ms' : List (Msg P F)} {a : α} {b : β}
    (hf : Writes f ms a) (hk : Writes (k a) ms' b) : Writes (f >>= k) (ms ++ ms') b := by
  intro w
  rw [bind_run, hf w]
  simp [hk _]

theorem Tells.pure {α : Type} (a : α) : Tells (P := P) (F := F) (pure a) [] a := by
  intro w; rw [pure_run]; simp

theorem Tells.bind {α β : Type} {f : Write P F α} {k : α → Write P F β} {ms ms' : List (Msg P F)} {a : α} {b : β}
    (hf : Tells f ms a) (hk : Tells (k a) ms' b) : Tells (f >>= k) (ms ++ ms') b := by
  intro w
  rw [bind_run, hf w]
  simp [hk _]

theorem Reads.pure {α : Type} (a : α) : Reads (P := P) (F := F) (pure a) [] a := by
  intro log tail; rw [pure_run]; simp

theorem Reads.bind {α β : Type} {f : Read P F α} {k : α → Read P F β} {ms ms' : List (Msg P F)} {a : α} {b : β}
    (hf : Reads f ms a) (hk : Reads (k a) ms' b) : Reads (f >>= k) (ms ++ ms') b := by
  intro log tail
  rw [bind_run, List.append_assoc, hf log _]
  simp [hk _ _]

theorem Hears.pure {α : Type} (a : α) : Hears (P := P) (F := F) (pure a) [] a := by
  intro w; rw [pure_run]; simp

theorem Hears.bind {α β : Type} {f : Read P F α} {k : α → Read P F β} {ms ms' : List (Msg P F)} {a : α} {b : β}
    (hf : Hears f ms a) (hk : Hears (k a) ms' b) : Hears (f >>= k) (ms ++ ms') b := by
  intro w
  rw [bind_run, hf w]
  simp [hk _]

theorem Writes.cast {α : Type} {f : Write P F α} {ms ms' : List (Msg P F)} {a : α} (h : Writes f ms a) (e : ms = ms') : Writes f ms' a := e ▸ h

theorem Tells.cast {α : Type} {f : Write P F α} {ms ms' : List (Msg P F)} {a : α} (h : Tells f ms a) (e : ms = ms') : Tells f ms' a := e ▸ h

theorem Hears.cast {α : Type} {f : Read P F α} {ms ms' : List (Msg P F)} {a : α} (h : Hears f ms a) (e : ms = ms') : Hears f ms' a := e ▸ h

theorem Reads.cast {α : Type} {f : Read P F α} {ms ms' : List (Msg P F)} {a : α} (h : Reads f ms a) (e : ms = ms') : Reads f ms' a := e ▸ h

theorem writes_write (m : Msg P F) : Writes (write m) [m] () := fun _ => rfl
theorem tells_tell (m : Msg P F) : Tells (tell m) [m] () := fun _ => rfl
theorem hears_hear (m : Msg P F) : Hears (hear m) [m] () := fun _ => rfl
theorem reads_point (c : P) : Reads (F := F) readPoint [.point c] c := fun _ _ => rfl
theorem reads_scalar (v : F) : Reads (P := P) readScalar [.scalar v] v := fun _ _ => rfl

theorem writes_give {α : Type} (a : α) : Writes (P := P) (F := F) (give (some a)) [] a := by
  intro w; simp [give]

/-- Forgetting the result. -/
theorem Writes.unit {α : Type} {f : Write P F α} {ms : List (Msg P F)} {a : α} (hf : Writes f ms a) :
    Writes (f >>= fun _ => Pure.pure ()) ms () :=
  (Writes.bind (k := fun _ => Pure.pure ()) hf (Writes.pure ())).cast (List.append_nil ms)

theorem Tells.unit {α : Type} {f : Write P F α} {ms : List (Msg P F)} {a : α} (hf : Tells f ms a) :
    Tells (f >>= fun _ => Pure.pure ()) ms () :=
  (Tells.bind (k := fun _ => Pure.pure ()) hf (Tells.pure ())).cast (List.append_nil ms)

theorem Hears.unit {α : Type} {f : Read P F α} {ms : List (Msg P F)} {a : α} (hf : Hears f ms a) :
    Hears (f >>= fun _ => Pure.pure ()) ms () :=
  (Hears.bind (k := fun _ => Pure.pure ()) hf (Hears.pure ())).cast (List.append_nil ms)

theorem Writes.forEach {ι α : Type} {f : ι → Write P F α} {ms : ι → List (Msg P F)} {a : ι → α} :
    ∀ {l : List ι}, (∀ i ∈ l, Writes (f i) (ms i) (a i)) → Writes (forEach f l) (l.flatMap ms) (l.map a)
  | [], _ => Writes.pure _
  | i :: l, h => by
    have h1 := h i (by simp)
    have h2 := Writes.forEach (l := l) fun j hj => h j (by simp [hj])
    refine (Writes.bind (k := fun a => Halo2.forEach f l >>= fun as => Pure.pure (a :: as)) h1
      (Writes.bind (k := fun as => Pure.pure (a i :: as)) h2 (Writes.pure (a i :: l.map a)))).cast ?_
    simp

theorem Tells.forEach {ι α : Type} {f : ι → Write P F α} {ms : ι → List (Msg P F)} {a : ι → α} :
    ∀ {l : List ι}, (∀ i ∈ l, Tells (f i) (ms i) (a i)) → Tells (forEach f l) (l.flatMap ms) (l.map a)
  | [], _ => Tells.pure _
  | i :: l, h => by
    have h1 := h i (by simp)
    have h2 := Tells.forEach (l := l) fun j hj => h j (by simp [hj])
    refine (Tells.bind (k := fun a => Halo2.forEach f l >>= fun as => Pure.pure (a :: as)) h1
      (Tells.bind (k := fun as => Pure.pure (a i :: as)) h2 (Tells.pure (a i :: l.map a)))).cast ?_
    simp

theorem Hears.forEach {ι α : Type} {f : ι → Read P F α} {ms : ι → List (Msg P F)} {a : ι → α} :
    ∀ {l : List ι}, (∀ i ∈ l, Hears (f i) (ms i) (a i)) → Hears (forEach f l) (l.flatMap ms) (l.map a)
  | [], _ => Hears.pure _
  | i :: l, h => by
    have h1 := h i (by simp)
    have h2 := Hears.forEach (l := l) fun j hj => h j (by simp [hj])
    refine (Hears.bind (k := fun a => Halo2.forEach f l >>= fun as => Pure.pure (a :: as)) h1
      (Hears.bind (k := fun as => Pure.pure (a i :: as)) h2 (Hears.pure (a i :: l.map a)))).cast ?_
    simp

/-- A loop that reads an element of a list in each iteration. -/
theorem Reads.forEach {ι κ α : Type} {f : ι → Read P F α} {ms : κ → List (Msg P F)} {a : κ → α} :
    ∀ {l : List ι} {xs : List κ}, List.Forall₂ (fun i x => Reads (f i) (ms x) (a x)) l xs →
      Reads (forEach f l) (xs.flatMap ms) (xs.map a)
  | _, _, .nil => Reads.pure _
  | _, _, .cons (l₁ := l) (l₂ := xs) (a := i) (b := x) h1 h => by
    have h2 := Reads.forEach h
    refine (Reads.bind (k := fun a => Halo2.forEach f l >>= fun as => Pure.pure (a :: as)) h1
      (Reads.bind (k := fun as => Pure.pure (a x :: as)) h2 (Reads.pure (a x :: xs.map a)))).cast ?_
    simp

theorem forall₂_const {ι κ : Type} {R : κ → Prop} : ∀ {l : List ι} {xs : List κ}, l.length = xs.length → (∀ x ∈ xs, R x) →
    List.Forall₂ (fun _ x => R x) l xs
  | [], [], _, _ => .nil
  | _ :: _, _ :: _, hl, h => .cons (h _ (by simp)) (forall₂_const (by simpa using hl) fun y hy => h y (by simp [hy]))

theorem Reads.many {κ α : Type} {f : Read P F α} {ms : κ → List (Msg P F)} {a : κ → α} {n : ℕ} {xs : List κ}
    (hn : xs.length = n) (h : ∀ x ∈ xs, Reads f (ms x) (a x)) : Reads (readMany f n) (xs.flatMap ms) (xs.map a) :=
  Reads.forEach (forall₂_const (by simp [hn]) h)

/-- A loop over as many as there are lists. -/
theorem Reads.all {ι κ α : Type} {f : Read P F α} {ms : κ → List (Msg P F)} {a : κ → α} {l : List ι} {xs : List κ}
    (hn : l.length = xs.length) (h : ∀ x ∈ xs, Reads f (ms x) (a x)) : Reads (Halo2.forEach (fun _ => f) l) (xs.flatMap ms) (xs.map a) :=
  Reads.forEach (forall₂_const hn h)

end

set_option linter.unusedSectionVars false

variable {P F : Type} [Field F] [DecidableEq F]

/-! ### Commitments -/

/-- The batch has the size of what is committed to. -/
theorem writes_commitAll [Zero P] (env : Env P F) (batch : Bool) {count : ℕ} {polys : List (List F)} (h : count = polys.length) :
    Writes (commitAll env batch count polys) (polys.map fun p => .point (env.commit p)) () := by
  unfold commitAll
  subst h
  split
  · rw [if_neg (by omega), Nat.sub_self, List.replicate_zero, List.append_nil]
    have := (Writes.forEach (f := fun c : P => write (P := P) (F := F) (.point c)) (ms := fun c => [.point c]) (a := fun _ => ())
      (l := polys.map env.commit) fun i _ => writes_write _).unit
    exact this.cast (by simp [List.flatMap_map, ← List.map_eq_flatMap])
  · have := (Writes.forEach (f := fun p : List F => write (P := P) (F := F) (.point (env.commit p)))
      (ms := fun p => [.point (env.commit p)]) (a := fun _ => ()) (l := polys) fun i _ => writes_write _).unit
    exact this.cast (by simp [← List.map_eq_flatMap])

theorem batchCount_eq {α : Type} {l : List (List α)} {c : ℕ} (h : ∀ x ∈ l, x.length = c) : batchCount l = l.flatten.length := by
  have : l.flatten.length = l.length * c := by
    induction l with
    | nil => simp
    | cons a l ih => simp [h a (by simp), ih fun x hx => h x (by simp [hx]), Nat.succ_mul, Nat.add_comm]
  rw [this]
  cases l with
  | nil => simp [batchCount]
  | cons a l => simp [batchCount, h a (by simp)]

theorem preparedCount_eq (s : Shape) {l : List (List (Prepared (List F)))} {c : ℕ} (h : ∀ x ∈ l, x.length = c)
    (hk : ∀ x ∈ l, ∀ p ∈ x, s.lookupType.Kind p) : preparedCount s l = (l.flatten.flatMap Prepared.toList).length := by
  have hk' : ∀ p ∈ l.flatten, s.lookupType.Kind p := by
    intro p hp
    obtain ⟨x, hx, hp⟩ := List.mem_flatten.1 hp
    exact hk x hx p hp
  unfold preparedCount
  rw [batchCount_eq h]
  generalize l.flatten = m at hk'
  induction m with
  | nil => cases s.lookupType <;> rfl
  | cons p m ih =>
    have ih := ih fun q hq => hk' q (by simp [hq])
    have hp := hk' p (by simp)
    rw [List.flatMap_cons, List.length_append, ← ih, List.length_cons]
    cases ht : s.lookupType <;> rw [ht] at hp <;> cases p <;> simp only [LookupType.Kind] at hp <;>
      simp only [Prepared.toList, List.length_cons, List.length_nil] <;> omega

/-! ### Instances -/

theorem tells_instances (env : Env P F) (s : Shape) (columns : List (List F)) :
    Tells (tellInstances env s columns) (instanceMsgs env s columns) () := by
  unfold tellInstances instanceMsgs
  refine Tells.unit (a := columns.map fun _ => ()) (Tells.forEach fun c _ => ?_)
  cases s.queryInstance
  · have := (Tells.forEach (f := fun v : F => tell (P := P) (.scalar v)) (ms := fun v => [.scalar v]) (a := fun _ => ()) (l := c)
      fun i _ => tells_tell _).unit
    exact this.cast (by simp [← List.map_eq_flatMap])
  · exact tells_tell _

theorem hears_instances (env : Env P F) (s : Shape) {columns : List (List F)}
    (hp : s.queryInstance = true → ∀ col ∈ columns, env.commitEvals (resizeZero env.n col) = env.commitEvals col) :
    Hears (hearInstances env s columns) (instanceMsgs env s columns) () := by
  unfold hearInstances instanceMsgs
  cases hq : s.queryInstance
  · simp only [Bool.false_eq_true, if_false]
    refine Hears.unit (a := columns.map fun c => c.map fun _ => ()) (Hears.forEach fun c _ => ?_)
    have := Hears.forEach (f := fun v : F => hear (P := P) (.scalar v)) (ms := fun v => [.scalar v]) (a := fun _ => ()) (l := c)
      fun i _ => hears_hear _
    exact this.cast (by simp [← List.map_eq_flatMap])
  · simp only [if_true]
    have := (Hears.forEach (f := fun c : P => hear (F := F) (.point c)) (ms := fun c => [.point c]) (a := fun _ => ())
      (l := commitColumns env columns) fun i _ => hears_hear _).unit
    refine this.cast ?_
    rw [commitColumns, List.map_congr_left fun c hc => hp hq c hc]
    simp [← List.map_eq_flatMap]

/-! ### Evaluations -/

theorem rotate_isSome {env : Env P F} {r : ℤ} {x : F} (h : (env.domain.getElement r).isSome) : (rotate env r x).isSome := by
  simpa [rotate] using h

theorem writes_evaluate (env : Env P F) (p : List F) (x : F) : Writes (evaluate env p x) [.scalar (env.eval p x)] () := writes_write _

theorem writes_columns (env : Env P F) {poly : ℕ → Option (List F)} (x : F) {queries : List (ℕ × ℤ)}
    (hp : ∀ q ∈ queries, (poly q.1).isSome) (hr : ∀ q ∈ queries, (env.domain.getElement q.2).isSome) :
    Writes (evaluateColumns env poly x queries) ((queries.map (valueAt env poly x)).map .scalar) () := by
  unfold evaluateColumns
  refine (Writes.unit (a := queries.map fun _ => ()) (Writes.forEach (ms := fun q => [.scalar (valueAt env poly x q)])
    fun q hq => ?_)).cast (by simp [← List.map_eq_flatMap])
  obtain ⟨p, e1⟩ := Option.isSome_iff_exists.1 (hp q hq)
  obtain ⟨y, e2⟩ := Option.isSome_iff_exists.1 (rotate_isSome (x := x) (hr q hq))
  rw [e1, e2]
  have := Writes.bind (k := fun p => give (some y) >>= fun point => evaluate env p point) (writes_give (P := P) p)
    (Writes.bind (k := fun point => evaluate env p point) (writes_give y) (writes_evaluate env p y))
  simpa [valueAt, e1, e2] using this

/-- As messages. -/
def productMsgs (v : F × F × Option F) : List (Msg P F) := [.scalar v.1, .scalar v.2.1] ++ (v.2.2.map Msg.scalar).toList

theorem writes_products (env : Env P F) (pts : Points F) (products : List (List F)) :
    Writes (evaluateProducts env pts products) ((productValues env pts products).flatMap productMsgs) () := by
  unfold evaluateProducts productValues
  rw [List.flatMap_map]
  refine Writes.unit (a := products.zipIdx.map fun _ => ()) (Writes.forEach fun p _ => ?_)
  refine (Writes.bind (writes_evaluate env p.1 pts.x) (Writes.bind (writes_evaluate env p.1 pts.next)
    (ms' := if p.2 ≠ products.length - 1 then [.scalar (env.eval p.1 pts.last)] else []) (b := ()) ?_)).cast ?_
  · split
    · exact writes_evaluate _ _ _
    · exact Writes.pure _
  · unfold productMsgs
    split <;> simp

theorem reads_products (env : Env P F) (pts : Points F) (products : List (List F)) {size : ℕ} (hs : products.length = size) :
    Reads (P := P) (readProductEvals size) ((productValues env pts products).flatMap productMsgs) (productValues env pts products) := by
  unfold readProductEvals productValues
  rw [List.flatMap_map]
  refine Reads.forEach (κ := List F × ℕ) ?_
  rw [List.forall₂_iff_get]
  refine ⟨by simp [hs], fun i h1 h2 => ?_⟩
  simp only [List.get_eq_getElem, List.getElem_range, List.getElem_zipIdx, Nat.zero_add]
  have hi : i < products.length := by simpa using h2
  intro log tail
  subst hs
  by_cases h : i = products.length - 1
  · simp [bind_run, map_run, readScalar, productMsgs, h]
  · simp [bind_run, map_run, readScalar, productMsgs, h]

/-- As messages. -/
def lookupMsgs : LookupEvals F → List (Msg P F)
  | .pair a b c d e => [.scalar a, .scalar b, .scalar c, .scalar d, .scalar e]
  | .single a b c => [.scalar a, .scalar b, .scalar c]

theorem writes_lookups (env : Env P F) (pts : Points F) {prepared : List (Prepared (List F))} {grands : List (List F)}
    (hl : grands.length = prepared.length) :
    Writes (evaluateLookups env pts prepared grands) (((grands.zip prepared).map (lookupValues env pts)).flatMap lookupMsgs) () := by
  unfold evaluateLookups
  rw [if_neg (by simpa using hl), List.flatMap_map]
  refine Writes.unit (a := (grands.zip prepared).map fun _ => ()) (Writes.forEach fun p _ => ?_)
  obtain ⟨g, p⟩ := p
  cases p with
  | pair input table =>
    exact Writes.bind (writes_evaluate _ _ _) (Writes.bind (writes_evaluate _ _ _) (Writes.bind (writes_evaluate _ _ _)
      (Writes.bind (writes_evaluate _ _ _) (writes_evaluate _ _ _))))
  | single m => exact Writes.bind (writes_evaluate _ _ _) (Writes.bind (writes_evaluate _ _ _) (writes_evaluate _ _ _))

theorem reads_lookup (env : Env P F) (s : Shape) (pts : Points F) (p : List F × Prepared (List F)) (hk : s.lookupType.Kind p.2) :
    Reads (P := P) (readLookupEvals s) (lookupMsgs (lookupValues env pts p)) (lookupValues env pts p) := by
  obtain ⟨g, p⟩ := p
  unfold readLookupEvals
  cases ht : s.lookupType <;> rw [ht] at hk <;> cases p <;> simp only [LookupType.Kind] at hk
  · intro log tail
    simp only [bind_run, pure_run, readScalar, lookupMsgs, lookupValues, List.cons_append, List.nil_append, Option.bind_some, List.append_assoc,
      List.map_cons, List.map_nil]
  · intro log tail
    simp only [bind_run, pure_run, readScalar, lookupMsgs, lookupValues, List.cons_append, List.nil_append, Option.bind_some, List.append_assoc,
      List.map_cons, List.map_nil]

theorem writes_shuffles (env : Env P F) (pts : Points F) (shuffles : List (List F)) :
    Writes (evaluateShuffles env pts shuffles)
      ((shuffles.map fun p => (env.eval p pts.x, env.eval p pts.next)).flatMap fun v => [.scalar v.1, .scalar v.2]) () := by
  unfold evaluateShuffles
  rw [List.flatMap_map]
  exact Writes.unit (a := shuffles.map fun _ => ()) (Writes.forEach fun p _ =>
    Writes.bind (writes_evaluate _ _ _) (writes_evaluate _ _ _))

theorem reads_shuffle (v : F × F) : Reads (P := P) readShuffleEvals [.scalar v.1, .scalar v.2] v := by
  intro log tail
  simp only [readShuffleEvals, bind_run, pure_run, readScalar, List.cons_append, List.nil_append, Option.bind_some, List.append_assoc,
    List.map_cons, List.map_nil]

theorem reads_prepared (env : Env P F) (s : Shape) {p : Prepared (List F)} (hk : s.lookupType.Kind p) :
    Reads (F := F) (readPrepared s) (p.toList.map fun q => .point (env.commit q)) (p.map env.commit) := by
  unfold readPrepared
  cases ht : s.lookupType <;> rw [ht] at hk <;> cases p <;> simp only [LookupType.Kind] at hk
  · intro log tail
    simp only [bind_run, pure_run, readPoint, Prepared.toList, Prepared.map, List.cons_append, List.nil_append, Option.bind_some, List.append_assoc,
      List.map_cons, List.map_nil]
  · intro log tail
    simp only [bind_run, pure_run, readPoint, Prepared.toList, Prepared.map, List.cons_append, List.nil_append, Option.bind_some,
      List.map_cons, List.map_nil]

/-! ### Advice columns and challenges -/

theorem reads_row (env : Env P F) (s : Shape) (work : Work P F) (phase i : ℕ) (log : Log P F) (known : ℕ → Option F) :
    ∀ (l : List ℕ) (t : ℕ → ℕ → P),
    Reads (F := F) (foldEach (readCell s phase i) l t)
      ((l.filterMap fun j => if s.advicePhases[j]? = some phase then some (i, j, work.advice log known phase i j) else none).map
        fun c => .point (env.commit c.2.2))
      ((l.filterMap fun j => if s.advicePhases[j]? = some phase then some (i, j, work.advice log known phase i j) else none).foldl
        (fun t c => setAt t c.1 c.2.1 (env.commit c.2.2)) t)
  | [], t => Reads.pure _
  | j :: l, t => by
    by_cases h : s.advicePhases[j]? = some phase
    · have ih := reads_row env s work phase i log known l (setAt t i j (env.commit (work.advice log known phase i j)))
      intro lg tail
      have := ih (lg ++ [.absorb (.point (env.commit (work.advice log known phase i j)))]) tail
      simp only [foldEach, readCell, bind_run, h, if_true, List.filterMap_cons, List.map_cons, List.foldl_cons, readPoint, pure_run,
        List.cons_append, Option.bind_some]
      rw [this]
      simp
    · have ih := reads_row env s work phase i log known l t
      intro lg tail
      simp only [foldEach, readCell, bind_run, h, if_false, List.filterMap_cons, pure_run, Option.bind_some]
      exact ih lg tail

theorem reads_phase (env : Env P F) (s : Shape) (work : Work P F) (phase : ℕ) (log : Log P F) (known : ℕ → Option F) :
    ∀ (l : List ℕ) (t : ℕ → ℕ → P),
    Reads (F := F) (foldEach (fun i => foldEach (readCell s phase i) (List.range s.advicePhases.length)) l t)
      ((l.flatMap fun i => (List.range s.advicePhases.length).filterMap fun j =>
        if s.advicePhases[j]? = some phase then some (i, j, work.advice log known phase i j) else none).map
        fun c => .point (env.commit c.2.2))
      ((l.flatMap fun i => (List.range s.advicePhases.length).filterMap fun j =>
        if s.advicePhases[j]? = some phase then some (i, j, work.advice log known phase i j) else none).foldl
        (fun t c => setAt t c.1 c.2.1 (env.commit c.2.2)) t)
  | [], t => Reads.pure _
  | i :: l, t => by
    have h1 := reads_row env s work phase i log known (List.range s.advicePhases.length) t
    have h2 := Reads.bind h1 (reads_phase env s work phase log known l _)
    rw [List.flatMap_cons, List.map_append, List.foldl_append]
    exact h2

theorem setAt_rel (commit : List F → P) {i j : ℕ} : ∀ (cols : List (ℕ × ℕ × List F)) (t : ℕ → ℕ → List F) (t' : ℕ → ℕ → P),
    ((∃ c ∈ cols, c.1 = i ∧ c.2.1 = j) ∨ t' i j = commit (t i j)) →
    (cols.foldl (fun t c => setAt t c.1 c.2.1 (commit c.2.2)) t') i j =
      commit ((cols.foldl (fun t c => setAt t c.1 c.2.1 c.2.2) t) i j)
  | [], t, t', h => by simpa using h
  | c :: cols, t, t', h => by
    rw [List.foldl_cons, List.foldl_cons]
    refine setAt_rel commit cols _ _ ?_
    by_cases hc : i = c.1 ∧ j = c.2.1
    · right; simp [setAt, hc]
    · rcases h with ⟨d, hd, h1, h2⟩ | h
      · rcases List.mem_cons.1 hd with rfl | hd
        · exact absurd ⟨h1.symm, h2.symm⟩ hc
        · exact Or.inl ⟨d, hd, h1, h2⟩
      · right; simp only [setAt, if_neg hc]; exact h

theorem setAt_good {good : List F → Prop} : ∀ (cols : List (ℕ × ℕ × List F)) (t : ℕ → ℕ → List F), (∀ i j, good (t i j)) →
    (∀ c ∈ cols, good c.2.2) → ∀ i j, good ((cols.foldl (fun t c => setAt t c.1 c.2.1 c.2.2) t) i j)
  | [], _, h, _ => h
  | c :: cols, t, h, hc => by
    refine setAt_good cols _ (fun i j => ?_) fun d hd => hc d (by simp [hd])
    simp only [setAt]
    split
    · exact hc c (by simp)
    · exact h i j

theorem challenges_match (env : Env P F) (s : Shape) (phase : ℕ) (rest : List (Msg P F)) :
    ∀ (l : List ℕ) (start : ℕ) (known : ℕ → Option F) (w : Writer P F) (cs : List F),
    (∀ k < l.length, s.challengePhases[start + k]? = l[k]?) →
    (∀ i, start ≤ i → (known i).isSome → s.challengePhases[i]? ≠ some phase) →
    ∃ known' w', foldEach (challengeStep env s phase) (List.range' start l.length) known w = some (known', w') ∧ w'.proof = w.proof ∧
      foldEach (askStep env phase) l cs ⟨w.log, rest⟩ =
        some (cs ++ (List.range' start l.length).filterMap fun i => if s.challengePhases[i]? = some phase then known' i else none,
          ⟨w'.log, rest⟩) ∧
      (∀ i, (start ≤ i ∧ s.challengePhases[i]? = some phase) ∨ known' i = known i) ∧
      ∀ i, start ≤ i → i < start + l.length → s.challengePhases[i]? = some phase → (known' i).isSome
  | [], start, known, w, cs, _, _ => by
    refine ⟨known, w, rfl, rfl, ?_, fun i => Or.inr rfl, fun i h1 h2 => ?_⟩
    · simp [foldEach, pure_run]
    · simp at h2; omega
  | ph :: l, start, known, w, cs, hl, hk => by
    have h0 : s.challengePhases[start]? = some ph := by simpa using hl 0 (by simp)
    have hl' : ∀ k < l.length, s.challengePhases[start + 1 + k]? = l[k]? := by
      intro k hk'
      have := hl (k + 1) (by simpa using hk')
      rw [← Nat.add_assoc, Nat.add_right_comm] at this
      simpa using this
    simp only [List.length_cons, List.range'_succ, foldEach, bind_run, List.filterMap_cons, challengeStep, askStep]
    by_cases hp : ph = phase
    · subst hp
      have hn : (known start).isSome = false := by
        by_contra h
        exact hk start le_rfl (by cases h' : (known start).isSome <;> simp_all) h0
      obtain ⟨known', w', e1, e2, e3, e4, e5⟩ := challenges_match env s ph rest l (start + 1)
        (fun i' => if i' = start then some (env.squeeze w.log) else known i') ⟨w.log ++ [.squeeze], w.proof⟩
        (cs ++ [env.squeeze w.log]) hl' (by
          intro i hi h
          rw [if_neg (by omega)] at h
          exact hk i (by omega) h)
      have hs : known' start = some (env.squeeze w.log) := by
        rcases e4 start with ⟨h, _⟩ | h
        · omega
        · rw [h, if_pos rfl]
      refine ⟨known', w', ?_, e2, ?_, ?_, ?_⟩
      · simp only [h0, if_true, bind_run, challenge, Option.bind_some, hn, Bool.false_eq_true, if_false, pure_run]
        exact e1
      · simp only [if_true, bind_run, asked, Option.bind_some, pure_run, h0, hs]
        rw [e3]
        simp
      · intro i
        rcases e4 i with ⟨h, h'⟩ | h
        · exact Or.inl ⟨by omega, h'⟩
        · by_cases hi : i = start
          · subst hi; exact Or.inl ⟨le_rfl, h0⟩
          · right; rw [h, if_neg hi]
      · intro i h1 h2 h3
        by_cases hi : i = start
        · subst hi; rw [hs]; rfl
        · exact e5 i (by omega) (by omega) h3
    · obtain ⟨known', w', e1, e2, e3, e4, e5⟩ := challenges_match env s phase rest l (start + 1) known w cs hl'
        fun i hi h => hk i (by omega) h
      have h0' : s.challengePhases[start]? ≠ some phase := by rw [h0]; simpa using hp
      refine ⟨known', w', ?_, e2, ?_, ?_, ?_⟩
      · rw [if_neg h0', pure_run]
        exact e1
      · rw [if_neg (Ne.symm hp), pure_run, if_neg h0']
        exact e3
      · intro i
        rcases e4 i with ⟨h, h'⟩ | h
        · exact Or.inl ⟨by omega, h'⟩
        · exact Or.inr h
      · intro i h1 h2 h3
        by_cases hi : i = start
        · subst hi; exact absurd h3 h0'
        · exact e5 i (by omega) (by omega) h3

theorem count_columns (s : Shape) (work : Work P F) (circuits phase : ℕ) (log : Log P F) (known : ℕ → Option F) :
    (s.advicePhases.filter (· = phase)).length * circuits = (adviceColumns s work circuits phase log known).length := by
  have h1 : ∀ (i : ℕ) (l : List ℕ) (start : ℕ), (∀ k < l.length, s.advicePhases[start + k]? = l[k]?) →
      ((List.range' start l.length).filterMap fun j =>
        if s.advicePhases[j]? = some phase then some (i, j, work.advice log known phase i j) else none).length =
      (l.filter (· = phase)).length := by
    intro i l
    induction l with
    | nil => intro start _; rfl
    | cons a l ih =>
      intro start h
      have h0 : s.advicePhases[start]? = some a := by simpa using h 0 (by simp)
      have ih := ih (start + 1) (by
        intro k hk
        have := h (k + 1) (by simpa using hk)
        rw [← Nat.add_assoc, Nat.add_right_comm] at this
        simpa using this)
      rw [List.length_cons, List.range'_succ, List.filterMap_cons, h0]
      by_cases hp : a = phase
      · simp [hp, ih]
      · simp [hp, ih]
  unfold adviceColumns
  rw [List.length_flatMap]
  have : ∀ i, ((List.range s.advicePhases.length).filterMap fun j =>
      if s.advicePhases[j]? = some phase then some (i, j, work.advice log known phase i j) else none).length =
      (s.advicePhases.filter (· = phase)).length := by
    intro i
    rw [List.range_eq_range']
    exact h1 i s.advicePhases 0 (by simp)
  simp [this, Nat.mul_comm]

theorem phases_match [Zero P] (env : Env P F) (s : Shape) (work : Work P F) (circuits : ℕ) :
    ∀ (phs : List ℕ) (t : ℕ → ℕ → List F) (known : ℕ → Option F) (t' : ℕ → ℕ → P) (cs : List F) (w : Writer P F), phs.Nodup →
    (∀ i, (known i).isSome → ∀ ph ∈ phs, s.challengePhases[i]? ≠ some ph) →
    ∃ t2 known2 t2' w2 ms, foldEach (advicePhase env s work circuits) phs (t, known) w = some ((t2, known2), w2) ∧
      w2.proof = w.proof ++ ms ∧
      (∀ tail, foldEach (readPhase env s circuits) phs (t', cs) ⟨w.log, ms ++ tail⟩ = some ((t2', cs ++ byPhase s known2 phs), ⟨w2.log, tail⟩)) ∧
      (∀ i j, ((∃ ph ∈ phs, i < circuits ∧ s.advicePhases[j]? = some ph) ∨ t' i j = env.commit (t i j)) →
        t2' i j = env.commit (t2 i j)) ∧
      (∀ i, (∃ ph ∈ phs, s.challengePhases[i]? = some ph) ∨ known2 i = known i) ∧
      (∀ i, ∀ ph ∈ phs, s.challengePhases[i]? = some ph → (known2 i).isSome) ∧
      ∀ good : List F → Prop, (∀ log known ph i j, good (work.advice log known ph i j)) → (∀ i j, good (t i j)) → ∀ i j, good (t2 i j)
  | [], t, known, t', cs, w, _, _ => by
    refine ⟨t, known, t', w, [], rfl, by simp, fun tail => ?_, fun i j h => ?_, fun i => Or.inr rfl, by simp, fun _ _ h => h⟩
    · simp [foldEach, pure_run, byPhase]
    · simpa using h
  | ph :: phs, t, known, t', cs, w, hn, hk => by
    rw [List.nodup_cons] at hn
    set cols := adviceColumns s work circuits ph w.log known with hcols
    set ms1 : List (Msg P F) := (cols.map (·.2.2)).map fun p => .point (env.commit p) with hms1
    have hc := writes_commitAll (P := P) env s.batch (count := (s.advicePhases.filter (· = ph)).length * circuits)
      (polys := cols.map (·.2.2)) (by rw [List.length_map]; exact count_columns s work circuits ph w.log known)
    obtain ⟨known1, w1, e1, e2, _, e4, e5⟩ := challenges_match env s ph [] s.challengePhases 0 known
      ⟨w.log ++ ms1.map .absorb, w.proof ++ ms1⟩ [] (by simp) fun i _ h => hk i h ph (by simp)
    have e3 : ∀ (tail : List (Msg P F)), foldEach (askStep env ph) s.challengePhases cs ⟨w.log ++ ms1.map .absorb, tail⟩ =
        some (cs ++ (List.range s.challengePhases.length).filterMap fun i =>
          if s.challengePhases[i]? = some ph then known1 i else none, ⟨w1.log, tail⟩) := by
      intro tail
      obtain ⟨k', w', a1, _, a3, _, _⟩ := challenges_match env s ph tail s.challengePhases 0 known
        ⟨w.log ++ ms1.map .absorb, w.proof ++ ms1⟩ cs (by simp) fun i _ h => hk i h ph (by simp)
      rw [e1] at a1
      obtain ⟨rfl, rfl⟩ := Prod.mk.inj (Option.some.inj a1)
      rw [List.range_eq_range']
      exact a3
    have hk1 : ∀ i, (known1 i).isSome → ∀ p ∈ phs, s.challengePhases[i]? ≠ some p := by
      intro i h p hp
      rcases e4 i with ⟨_, h'⟩ | h'
      · rw [h']
        intro e
        exact hn.1 (Option.some.inj e ▸ hp)
      · rw [h'] at h
        exact hk i h p (by simp [hp])
    obtain ⟨t2, known2, t2', w2, ms, f1, f2, f3, f4, f5, f6, f7⟩ := phases_match env s work circuits phs
      (cols.foldl (fun t c => setAt t c.1 c.2.1 c.2.2) t) known1
      (cols.foldl (fun t c => setAt t c.1 c.2.1 (env.commit c.2.2)) t')
      (cs ++ (List.range s.challengePhases.length).filterMap fun i => if s.challengePhases[i]? = some ph then known1 i else none)
      w1 hn.2 hk1
    refine ⟨t2, known2, t2', w2, ms1 ++ ms, ?_, ?_, fun tail => ?_, fun i j h => ?_, fun i => ?_, fun i p hp h => ?_, fun good hg ht =>
      f7 good hg (setAt_good cols _ ht ?_)⟩
    · simp only [foldEach, advicePhase, bind_run, written, Option.bind_some]
      rw [← hcols, hc w]
      simp only [Option.bind_some, updateChallenges, List.range_eq_range']
      rw [e1]
      exact f1
    · rw [f2, e2]; simp
    · have hr := reads_phase env s work ph w.log known (List.range circuits) t' w.log (ms ++ tail)
      have hm : ((List.range circuits).flatMap fun i => (List.range s.advicePhases.length).filterMap fun j =>
        if s.advicePhases[j]? = some ph then some (i, j, work.advice w.log known ph i j) else none) = cols := rfl
      rw [hm] at hr
      have hm2 : (cols.map fun c => Msg.point (F := F) (env.commit c.2.2)) = ms1 := by rw [hms1, List.map_map]; rfl
      rw [hm2] at hr
      rw [foldEach, bind_run, readPhase, bind_run, List.append_assoc, hr]
      simp only [Option.bind_some, bind_run]
      rw [e3]
      simp only [Option.bind_some, pure_run]
      rw [f3 tail]
      have : byPhase s known2 (ph :: phs) = ((List.range s.challengePhases.length).filterMap fun i =>
          if s.challengePhases[i]? = some ph then known1 i else none) ++ byPhase s known2 phs := by
        rw [byPhase, List.flatMap_cons]
        congr 1
        refine List.filterMap_congr fun i _ => ?_
        split
        · next h =>
          rcases f5 i with ⟨p, hp, h'⟩ | h'
          · exact absurd (Option.some.inj (h.symm.trans h') ▸ hp) hn.1
          · exact h'
        · rfl
      rw [this, List.append_assoc]
    · refine f4 i j ?_
      rcases h with ⟨p, hp, hi, hj⟩ | h
      · rcases List.mem_cons.1 hp with rfl | hp
        · right
          refine setAt_rel env.commit cols t t' (Or.inl ⟨(i, j, work.advice w.log known p i j), ?_, rfl, rfl⟩)
          rw [hcols, adviceColumns, List.mem_flatMap]
          refine ⟨i, List.mem_range.2 hi, List.mem_filterMap.2 ⟨j, List.mem_range.2 ?_, by rw [if_pos hj]⟩⟩
          exact (List.getElem?_eq_some_iff.1 hj).1
        · exact Or.inl ⟨p, hp, hi, hj⟩
      · exact Or.inr (setAt_rel env.commit cols t t' (Or.inr h))
    · rcases f5 i with ⟨p, hp, h⟩ | h
      · exact Or.inl ⟨p, by simp [hp], h⟩
      · rcases e4 i with ⟨_, h'⟩ | h'
        · exact Or.inl ⟨ph, by simp, h'⟩
        · exact Or.inr (h.trans h')
    · rcases List.mem_cons.1 hp with rfl | hp
      · rcases f5 i with ⟨q, hq, h'⟩ | h'
        · exact f6 i q hq h'
        · rw [h']
          refine e5 i (Nat.zero_le _) ?_ h
          rw [Nat.zero_add]
          exact (List.getElem?_eq_some_iff.1 h).1
      · exact f6 i p hp h
    · intro c hc
      rw [hcols, adviceColumns, List.mem_flatMap] at hc
      obtain ⟨i, _, hc⟩ := hc
      obtain ⟨j, _, hc⟩ := List.mem_filterMap.1 hc
      split at hc
      · obtain rfl := Option.some.inj hc
        exact hg _ _ _ _ _
      · cases hc

/-! ### All evaluations -/

/-- The evaluations of a proof as messages. -/
def evalMsgs (s : Shape) (e : Evals F) : List (Msg P F) :=
  (if s.queryInstance then e.instanceEvals.flatMap fun l => l.map .scalar else []) ++ (e.adviceEvals.flatMap fun l => l.map .scalar) ++
    e.fixedEvals.map .scalar ++ [.scalar e.randomEval] ++ e.sigmaEvals.map .scalar ++
    (e.productEvals.flatMap fun l => l.flatMap productMsgs) ++ (e.lookupEvals.flatMap fun l => l.flatMap lookupMsgs) ++
    (e.shuffleEvals.flatMap fun l => l.flatMap fun v => [.scalar v.1, .scalar v.2])

theorem valueAt_congr {env : Env P F} {f g : ℕ → Option (List F)} {x : F} {q : ℕ × ℤ} (h : f q.1 = g q.1) :
    valueAt env f x q = valueAt env g x q := by
  unfold valueAt; rw [h]

/-- What is asked of the polynomials at the end. -/
structure Held.Fits (s : Shape) (instances : List (List (List F))) (env : Env P F) (d : Held F) : Prop where
  instancePolys : d.instancePolys = instances.map (·.map env.ifft)
  prepared : d.prepared.length = instances.length
  prepared' : ∀ x ∈ d.prepared, x.length = s.lookups
  kind : ∀ x ∈ d.prepared, ∀ p ∈ x, s.lookupType.Kind p
  products : d.products.length = instances.length
  products' : ∀ x ∈ d.products, x.length = s.products
  grands : d.grands.length = instances.length
  grands' : ∀ x ∈ d.grands, x.length = s.lookups
  shuffles : d.shuffles.length = instances.length
  shuffles' : ∀ x ∈ d.shuffles, x.length = s.shuffles

theorem writes_all {env : Env P F} {s : Shape} {key : Key F} {vk : VerifyingKey P F} {instances : List (List (List F))}
    (hf : Fits env s key vk instances) {d : Held F} (hd : d.Fits s instances env) (pts : Points F) (hx : pts.x = d.x) :
    Writes (evaluateAll env s key instances.length d pts) (evalMsgs s (d.values env s key pts)) () := by
  have hr := hf.rotations
  simp only [List.mem_append] at hr
  have hl : d.instancePolys.length = instances.length := by rw [hd.instancePolys, List.length_map]
  have h1 : Writes (forEach (fun polys : List (List F) => evaluateColumns env (polys[·]?) d.x s.instanceQueries) d.instancePolys)
      ((d.values env s key pts).instanceEvals.flatMap fun l => l.map .scalar) (d.instancePolys.map fun _ => ()) := by
    simp only [Held.values, List.flatMap_map]
    refine Writes.forEach fun c hc => writes_columns env d.x (fun q hq => ?_) fun q hq => hr q (by simp [hq])
    rw [hd.instancePolys] at hc
    obtain ⟨c', hc', rfl⟩ := List.mem_map.1 hc
    have := hf.instanceQueries q hq
    rw [← hf.columns c' hc'] at this
    simpa using this
  have h2 : Writes (forEach (fun i => evaluateColumns env
      (fun j => if j < s.advicePhases.length then some (d.advice i j) else none) d.x s.adviceQueries) (List.range instances.length))
      ((d.values env s key pts).adviceEvals.flatMap fun l => l.map .scalar) ((List.range instances.length).map fun _ => ()) := by
    simp only [Held.values, List.flatMap_map, hl]
    refine Writes.forEach fun i _ => ?_
    refine (writes_columns env d.x (fun q hq => ?_) fun q hq => hr q (by simp [hq])).cast ?_
    · rw [if_pos (hf.adviceQueries q hq)]; rfl
    · congr 1
      exact List.map_congr_left fun q hq => valueAt_congr (by rw [if_pos (hf.adviceQueries q hq)])
  have h3 : Writes (evaluateColumns env (key.fixed[·]?) d.x s.fixedQueries) ((d.values env s key pts).fixedEvals.map .scalar) () := by
    refine writes_columns env d.x (fun q hq => ?_) fun q hq => hr q (by simp [hq])
    simpa using hf.fixedQueries q hq
  have h5 : Writes (forEach (fun p => evaluate env p pts.x) key.sigmas) ((d.values env s key pts).sigmaEvals.map .scalar)
      (key.sigmas.map fun _ => ()) := by
    refine (Writes.forEach fun p _ => writes_evaluate env p pts.x).cast ?_
    simp [Held.values, hx, ← List.map_eq_flatMap]
  have h6 : Writes (forEach (evaluateProducts env pts) d.products)
      ((d.values env s key pts).productEvals.flatMap fun l => l.flatMap productMsgs) (d.products.map fun _ => ()) := by
    simp only [Held.values, List.flatMap_map]
    exact Writes.forEach fun p _ => writes_products env pts p
  have h7 : Writes (forEach (fun p : List (Prepared (List F)) × List (List F) => evaluateLookups env pts p.1 p.2)
      (d.prepared.zip d.grands)) ((d.values env s key pts).lookupEvals.flatMap fun l => l.flatMap lookupMsgs)
      ((d.prepared.zip d.grands).map fun _ => ()) := by
    simp only [Held.values]
    rw [List.flatMap_map]
    refine Writes.forEach fun p hp => writes_lookups env pts ?_
    obtain ⟨p1, p2⟩ := p
    obtain ⟨q1, q2⟩ := List.of_mem_zip hp
    rw [hd.grands' _ q2, hd.prepared' _ q1]
  have h8 : Writes (forEach (evaluateShuffles env pts) d.shuffles)
      ((d.values env s key pts).shuffleEvals.flatMap fun l => l.flatMap fun v => [.scalar v.1, .scalar v.2])
      (d.shuffles.map fun _ => ()) := by
    simp only [Held.values]
    rw [List.flatMap_map]
    exact Writes.forEach fun p _ => writes_shuffles env pts p
  unfold evaluateAll evalMsgs
  cases hq : s.queryInstance
  · simp only [Bool.false_eq_true, if_false]
    exact Writes.cast (Writes.bind h2 (Writes.bind h3 (Writes.bind (writes_evaluate env d.random d.x) (Writes.bind h5 (Writes.bind h6
      (Writes.bind h7 (Writes.unit h8))))))) (by simp [Held.values])
  · simp only [if_true]
    exact Writes.cast (Writes.bind h1 (Writes.bind h2 (Writes.bind h3 (Writes.bind (writes_evaluate env d.random d.x) (Writes.bind h5 (Writes.bind h6
      (Writes.bind h7 (Writes.unit h8)))))))) (by simp [Held.values])

theorem reads_scalars {l : List F} {n : ℕ} (hn : l.length = n) : Reads (P := P) (readMany readScalar n) (l.map .scalar) l := by
  have := Reads.many (P := P) (f := readScalar) (ms := fun v : F => [.scalar v]) (a := id) hn fun v _ => reads_scalar v
  rw [List.map_id] at this
  exact this.cast (by simp [← List.map_eq_flatMap])

theorem reads_points {commit : List F → P} {l : List (List F)} {n : ℕ} (hn : l.length = n) :
    Reads (F := F) (readMany readPoint n) (l.map fun p => .point (commit p)) (l.map commit) := by
  have := Reads.many (F := F) (f := readPoint) (ms := fun p : List F => [.point (commit p)]) (a := commit) hn fun v _ => reads_point _
  exact this.cast (by simp [← List.map_eq_flatMap])

theorem zip_flip_length {α β : Type} {a : List α} {b : List β} (h : a.length = b.length) : (b.zip a).length = b.length := by
  simp [h]

theorem reads_all {env : Env P F} {s : Shape} {key : Key F} {vk : VerifyingKey P F} {instances : List (List (List F))}
    (hf : Fits env s key vk instances) (hi : InstancesFit env s instances) {d : Held F} (hd : d.Fits s instances env) (pts : Points F) :
    Reads (readEvals env s vk instances d.x (d.products.map (·.map env.commit)) (d.grands.map (·.map env.commit))
      (d.shuffles.map (·.map env.commit))) (evalMsgs s (d.values env s key pts)) (d.values env s key pts) := by
  have hr := hf.rotations
  simp only [List.mem_append] at hr
  have hl : d.instancePolys.length = instances.length := by rw [hd.instancePolys, List.length_map]
  have h1 : Reads (P := P) (readInstanceEvals env s instances d.x)
      (if s.queryInstance then (d.values env s key pts).instanceEvals.flatMap fun l => l.map .scalar else [])
      (d.values env s key pts).instanceEvals := by
    unfold readInstanceEvals
    split
    · have := Reads.all (P := P) (f := readMany readScalar s.instanceQueries.length) (ms := fun l : List F => l.map .scalar) (a := id)
        (l := List.range instances.length) (xs := (d.values env s key pts).instanceEvals) (by simp [Held.values, hl]) (by
          intro l hl
          simp only [Held.values, List.mem_map] at hl
          obtain ⟨c, _, rfl⟩ := hl
          exact reads_scalars (by simp))
      rwa [List.map_id] at this
    · next hq =>
      rw [hi.values (by simpa using hq)]
      have : (instances.mapM fun c => s.instanceQueries.mapM fun q => (c[q.1]?).bind fun col =>
          (rotate env q.2 d.x).map (env.eval (env.ifft col))) = some (d.values env s key pts).instanceEvals := by
        simp only [Held.values, hd.instancePolys, List.map_map]
        refine FloorPlan.mapM_eq fun c hc => FloorPlan.mapM_eq fun q hq => ?_
        have hq' := hf.instanceQueries q hq
        rw [← hf.columns c hc] at hq'
        obtain ⟨y, e2⟩ := Option.isSome_iff_exists.1 (rotate_isSome (x := d.x) (hr q (by simp [hq])))
        simp [valueAt, e2, hq']
      rw [this]
      intro log tail
      simp [give]
  have h2 : Reads (P := P) (forEach (fun _ => readMany readScalar s.adviceQueries.length) (List.range instances.length))
      ((d.values env s key pts).adviceEvals.flatMap fun l => l.map .scalar) (d.values env s key pts).adviceEvals := by
    have := Reads.all (P := P) (f := readMany readScalar s.adviceQueries.length) (ms := fun l : List F => l.map .scalar) (a := id)
      (l := List.range instances.length) (xs := (d.values env s key pts).adviceEvals) (by simp [Held.values, hl]) (by
        intro l hl
        simp only [Held.values, List.mem_map] at hl
        obtain ⟨c, _, rfl⟩ := hl
        exact reads_scalars (by simp))
    rwa [List.map_id] at this
  have h3 : Reads (P := P) (readMany readScalar s.fixedQueries.length) ((d.values env s key pts).fixedEvals.map .scalar)
      (d.values env s key pts).fixedEvals := reads_scalars (by simp [Held.values])
  have h5 : Reads (P := P) (readMany readScalar vk.sigmas.length) ((d.values env s key pts).sigmaEvals.map .scalar)
      (d.values env s key pts).sigmaEvals := reads_scalars (by simp [Held.values, hf.sigmas])
  have h6 : Reads (P := P) (forEach (fun c : List P => readProductEvals c.length) (d.products.map (·.map env.commit)))
      ((d.values env s key pts).productEvals.flatMap fun l => l.flatMap productMsgs) (d.values env s key pts).productEvals := by
    simp only [Held.values, List.flatMap_map]
    refine Reads.forEach ?_
    rw [List.forall₂_map_left_iff, List.forall₂_same]
    exact fun p _ => reads_products env pts p (by simp)
  have h7 : Reads (P := P) (forEach (fun c : List P => readMany (readLookupEvals s) c.length) (d.grands.map (·.map env.commit)))
      ((d.values env s key pts).lookupEvals.flatMap fun l => l.flatMap lookupMsgs) (d.values env s key pts).lookupEvals := by
    simp only [Held.values]
    rw [List.flatMap_map]
    refine Reads.forEach ?_
    rw [List.forall₂_iff_get]
    refine ⟨by simp [hd.grands, hd.prepared], fun i g1 g2 => ?_⟩
    simp only [List.length_map] at g1
    have g3 : i < d.prepared.length := by rw [hd.prepared, ← hd.grands]; exact g1
    simp only [List.get_eq_getElem, List.getElem_map, List.getElem_zip, List.length_map]
    have e1 : (d.grands[i].zip d.prepared[i]).length = d.grands[i].length := zip_flip_length (by
      rw [hd.prepared' _ (List.getElem_mem g3), hd.grands' _ (List.getElem_mem g1)])
    have := Reads.many (P := P) (f := readLookupEvals s) (ms := fun p => lookupMsgs (lookupValues env pts p))
      (a := lookupValues env pts) e1 (by
        intro p hp
        obtain ⟨p1, p2⟩ := p
        exact reads_lookup env s pts _ (hd.kind _ (List.getElem_mem g3) _ (List.of_mem_zip hp).2))
    rw [List.flatMap_map]
    exact this
  have h8 : Reads (P := P) (forEach (fun c : List P => readMany readShuffleEvals c.length) (d.shuffles.map (·.map env.commit)))
      ((d.values env s key pts).shuffleEvals.flatMap fun l => l.flatMap fun v => [.scalar v.1, .scalar v.2])
      (d.values env s key pts).shuffleEvals := by
    simp only [Held.values]
    rw [List.flatMap_map]
    refine Reads.forEach ?_
    rw [List.forall₂_map_left_iff, List.forall₂_same]
    intro l _
    have := Reads.many (P := P) (f := readShuffleEvals) (ms := fun v : F × F => [.scalar v.1, .scalar v.2]) (a := id)
      (n := (l.map env.commit).length) (xs := l.map fun p => (env.eval p pts.x, env.eval p pts.next)) (by simp) fun v _ => reads_shuffle v
    rw [List.map_id] at this
    exact this
  unfold readEvals evalMsgs
  exact Reads.cast (Reads.bind h1 (Reads.bind h2 (Reads.bind h3 (Reads.bind (reads_scalar (d.values env s key pts).randomEval) (Reads.bind h5
    (Reads.bind h6 (Reads.bind h7 (Reads.bind h8 (Reads.pure (d.values env s key pts)))))))))) (by simp)

/-! ### The proof -/

theorem truncateH_pieces {n degree : ℕ} (hn : 0 < n) (hd : 0 < degree) (hb : n * degree ≤ 2 ^ 64) (q : List F) :
    ∃ h, truncateH n degree q = some h ∧ (pieces n h).length = degree - 1 := by
  refine ⟨_, by rw [truncateH, if_neg (by omega)], ?_⟩
  have hl : (resizeZero (n * (degree - 1)) q).length = n * (degree - 1) := by
    simp [resizeZero]; omega
  rw [pieces_eq hn hl (by
    calc n * (degree - 1) + n = n * (degree - 1 + 1) := by ring
      _ = n * degree := by rw [Nat.sub_add_cancel hd]
      _ ≤ _ := hb)]
  simp

theorem reads_lists {env : Env P F} {l : List (List (List F))} {m n : ℕ} (hm : l.length = m) (hn : ∀ x ∈ l, x.length = n) :
    Reads (F := F) (forEach (fun _ => readMany readPoint n) (List.range m)) (l.flatten.map fun p => .point (env.commit p))
      (l.map (·.map env.commit)) := by
  refine (Reads.all (f := readMany readPoint n) (ms := fun x : List (List F) => x.map fun p => Msg.point (F := F) (env.commit p))
    (a := fun x => x.map env.commit) (by simp [hm]) fun x hx => reads_points (hn x hx)).cast ?_
  rw [List.map_flatten, List.flatMap_def]

theorem getPhases_nodup (l : List ℕ) : (Keygen.getPhases l).Nodup := List.nodup_range

theorem mem_getPhases {l : List ℕ} {j ph : ℕ} (h : l[j]? = some ph) : ph ∈ Keygen.getPhases l := by
  have : ph ≤ l.foldl max 0 := by
    have hm := List.mem_of_getElem? h
    exact ((FloorPlan.foldl_max_le_iff l 0 _).1 le_rfl).2 ph hm
  rw [Keygen.getPhases, List.mem_range]; omega

theorem prove_read [Zero P] {env : Env P F} {s : Shape} {key : Key F} {vk : VerifyingKey P F} {work : Work P F}
    {instances : List (List (List F))} (hf : Fits env s key vk instances) (hi : InstancesFit env s instances) (hw : work.Fits s) :
    ∃ d pts w, prove env s key work instances ⟨[], []⟩ = some ((d, pts), w) ∧ d.Fits s instances env ∧
      points env s.blinding d.x = some pts ∧
      (∃ w1, generateAdvice env s work instances.length
        ⟨.absorb (.scalar key.repr) :: (instances.flatMap (instanceMsgs env s)).map .absorb, []⟩ = some ((d.advice, d.challenges), w1) ∧
        Schedule env s work instances.length d w1.log w.log) ∧
      (∀ good : List F → Prop, good [] → (∀ log known ph i j, good (work.advice log known ph i j)) → ∀ i j, good (d.advice i j)) ∧
      (∀ i, (d.challenges i).isSome ↔ ∃ ph ∈ Keygen.getPhases s.advicePhases, s.challengePhases[i]? = some ph) ∧
      ∃ p, (∀ tail, readProof env s vk instances ⟨[], w.proof ++ tail⟩ = some (p, ⟨w.log, tail⟩)) ∧ p.Of env s key d pts := by
  set m := instances.length with hm
  set log0 : Log P F := [.absorb (.scalar key.repr)] ++ (instances.flatMap (instanceMsgs env s)).map .absorb with hlog0
  have ht : Tells (forEach (tellInstances env s) instances) (instances.flatMap (instanceMsgs env s)) (instances.map fun _ => ()) :=
    Tells.forEach fun c _ => tells_instances env s c
  have hh : Hears (forEach (hearInstances env s) instances) (instances.flatMap (instanceMsgs env s)) (instances.map fun _ => ()) :=
    Hears.forEach fun c hc => hears_instances env s fun hq col hcol => hi.pad hq c hc col hcol
  obtain ⟨advice, known, advice', w1, ms1, a1, a2, a3, a4, a5, a6, a7⟩ := phases_match env s work m (Keygen.getPhases s.advicePhases)
    (fun _ _ => []) (fun _ => none) (fun _ _ => 0) [] ⟨log0, []⟩ (getPhases_nodup _) (by simp)
  rw [List.nil_append] at a2
  set theta := env.squeeze w1.log with htheta
  set l1 := w1.log ++ [.squeeze] with hl1
  set prepared := (List.range m).map (work.prepared l1) with hprep
  have hprep1 : ∀ x ∈ prepared, x.length = s.lookups := by
    intro x hx; obtain ⟨i, _, rfl⟩ := List.mem_map.1 hx; exact hw.prepared _ _
  have hprep2 : ∀ x ∈ prepared, ∀ p ∈ x, s.lookupType.Kind p := by
    intro x hx; obtain ⟨i, _, rfl⟩ := List.mem_map.1 hx; exact hw.kind _ _
  set ms2 : List (Msg P F) := (prepared.flatten.flatMap Prepared.toList).map fun p => .point (env.commit p) with hms2
  have b1 := writes_commitAll (P := P) env s.batch (preparedCount_eq s hprep1 hprep2)
  set w2 : Writer P F := ⟨l1 ++ ms2.map .absorb, w1.proof ++ ms2⟩ with hw2
  set beta := env.squeeze w2.log with hbeta
  set gamma := env.squeeze (w2.log ++ [.squeeze]) with hgamma
  set l2 := w2.log ++ [.squeeze] ++ [.squeeze] with hl2
  set products := (List.range m).map (work.products l2) with hprod
  set grands := (List.range m).map (work.grands l2) with hgr
  set shuffles := (List.range m).map (work.shuffles l2) with hsh
  have hprod1 : ∀ x ∈ products, x.length = s.products := by
    intro x hx; obtain ⟨i, _, rfl⟩ := List.mem_map.1 hx; exact hw.products _ _
  have hgr1 : ∀ x ∈ grands, x.length = s.lookups := by
    intro x hx; obtain ⟨i, _, rfl⟩ := List.mem_map.1 hx; exact hw.grands _ _
  have hsh1 : ∀ x ∈ shuffles, x.length = s.shuffles := by
    intro x hx; obtain ⟨i, _, rfl⟩ := List.mem_map.1 hx; exact hw.shuffles _ _
  set ms3 : List (Msg P F) := (products.flatten ++ grands.flatten ++ shuffles.flatten ++ [[1]]).map fun p => .point (env.commit p)
    with hms3
  have b2 := writes_commitAll (P := P) env s.batch (count := batchCount products + batchCount grands + batchCount shuffles + 1)
    (polys := products.flatten ++ grands.flatten ++ shuffles.flatten ++ [[1]]) (by
      rw [batchCount_eq hprod1, batchCount_eq hgr1, batchCount_eq hsh1]; simp only [List.length_append, List.length_singleton])
  set w3 : Writer P F := ⟨l2 ++ ms3.map .absorb, w2.proof ++ ms3⟩ with hw3
  set y := env.squeeze w3.log with hy
  set l3 := w3.log ++ [.squeeze] with hl3
  obtain ⟨h, c1, c2⟩ := truncateH_pieces hf.rows hf.degree hf.bound (work.quotient l3)
  set ms4 : List (Msg P F) := (pieces env.n h).map fun p => .point (env.commit p) with hms4
  have b3 := writes_commitAll (P := P) env s.batch (count := s.degree - 1) (polys := pieces env.n h) c2.symm
  set w4 : Writer P F := ⟨l3 ++ ms4.map .absorb, w3.proof ++ ms4⟩ with hw4
  set x := env.squeeze w4.log with hx
  obtain ⟨pts, hpts, hptsx⟩ : ∃ pts, points env s.blinding x = some pts ∧ pts.x = x := by
    obtain ⟨u, e1⟩ := Option.isSome_iff_exists.1 (rotate_isSome (x := x) hf.prev)
    obtain ⟨v, e2⟩ := Option.isSome_iff_exists.1 (rotate_isSome (x := x) hf.next)
    obtain ⟨z, e3⟩ := Option.isSome_iff_exists.1 (rotate_isSome (x := x) hf.last)
    exact ⟨⟨x, v, u, z⟩, by rw [points, e1, e2, e3]; rfl, rfl⟩
  set d : Held F := ⟨instances.map (·.map env.ifft), advice, known, theta, prepared, beta, gamma, products, grands, shuffles, [1],
    y, h, x⟩ with hd
  have hfits : d.Fits s instances env := ⟨rfl, by simp [hd, hprep, hm], hprep1, hprep2, by simp [hd, hprod, hm], hprod1,
    by simp [hd, hgr, hm], hgr1, by simp [hd, hsh, hm], hsh1⟩
  have b4 := writes_all hf hfits pts hptsx
  set ms5 : List (Msg P F) := evalMsgs s (d.values env s key pts) with hms5
  have hbad : ¬(instances.any (·.length ≠ s.instanceColumns) ∨ instances = []) := by
    rintro (hb | hb)
    · rw [List.any_eq_true] at hb
      obtain ⟨c, hc, hne⟩ := hb
      exact absurd (hf.columns c hc) (by simpa using hne)
    · exact hf.circuits hb
  have g1 : d.log1 env w1.log = w2.log := by
    simp only [Held.log1, told, hw2, hl1, hms2, List.map_map]; rfl
  have g2 : d.log1 env w1.log ++ [.squeeze, .squeeze] = l2 := by rw [g1, hl2]; simp
  have g3 : d.log2 env w1.log = w3.log := by
    rw [Held.log2, g2, hw3]
    simp only [told, hms3, List.map_map]
    rfl
  have g4 : d.log3 env w1.log = w4.log := by
    rw [Held.log3, g3, ← hl3, hw4]
    simp only [told, hms4, List.map_map]
    rfl
  have hsch : Schedule env s work m d w1.log (w4.log ++ [.squeeze] ++ ms5.map .absorb) := by
    refine ⟨rfl, rfl, ?_, ?_, ?_, ?_, ?_, rfl, ?_, ?_, ?_, ?_⟩
    · rw [g1]
    · rw [g1]
    · rw [g2]
    · rw [g2]
    · rw [g2]
    · rw [g3]
    · rw [g3]; exact c1
    · rw [g4]
    · rw [g4]; exact List.prefix_append _ _
  refine ⟨d, pts, ⟨w4.log ++ [.squeeze] ++ ms5.map .absorb, w4.proof ++ ms5⟩, ?_, hfits, hpts,
    ⟨w1, a1, hsch⟩, fun good h0 hg => a7 good hg fun _ _ => h0, fun i => ⟨fun hsome => ?_, fun ⟨ph, hph, he⟩ => a6 i ph hph he⟩,
    ?_⟩
  · unfold prove
    refine (run_bind (give_some (if_neg hbad) _)).trans ?_
    refine (run_bind (tells_tell _ _)).trans ?_
    refine (run_bind (ht _)).trans ?_
    refine (run_bind a1).trans ?_
    refine (run_bind (s' := ⟨l1, w1.proof⟩) rfl).trans ?_
    refine (run_bind (s' := ⟨l1, w1.proof⟩) (a := l1) rfl).trans ?_
    refine (run_bind (b1 _)).trans ?_
    refine (run_bind (s' := ⟨w2.log ++ [.squeeze], w2.proof⟩) rfl).trans ?_
    refine (run_bind (s' := ⟨l2, w2.proof⟩) rfl).trans ?_
    refine (run_bind (s' := ⟨l2, w2.proof⟩) (a := l2) rfl).trans ?_
    refine (run_bind (b2 _)).trans ?_
    refine (run_bind (s' := ⟨l3, w3.proof⟩) rfl).trans ?_
    refine (run_bind (s' := ⟨l3, w3.proof⟩) (a := l3) rfl).trans ?_
    refine (run_bind (give_some c1 _)).trans ?_
    refine (run_bind (b3 _)).trans ?_
    refine (run_bind (s' := ⟨w4.log ++ [.squeeze], w4.proof⟩) (a := x) rfl).trans ?_
    refine (run_bind (give_some hpts _)).trans ?_
    exact (run_bind (b4 _)).trans rfl
  · rcases a5 i with h' | h'
    · exact h'
    · change (known i).isSome at hsome
      rw [h'] at hsome; cases hsome
  · refine ⟨⟨advice', byPhase s known (Keygen.getPhases s.advicePhases), theta, prepared.map (·.map (·.map env.commit)), beta, gamma,
      products.map (·.map env.commit), grands.map (·.map env.commit), shuffles.map (·.map env.commit), env.commit [1], y,
      (pieces env.n h).map env.commit, x, d.values env s key pts⟩, fun tail => ?_, ?_⟩
    · unfold readProof
      have hrp : Reads (F := F) (forEach (fun _ => readMany (readPrepared s) s.lookups) (List.range m)) ms2
          (prepared.map (·.map (·.map env.commit))) := by
        refine (Reads.all (f := readMany (readPrepared s) s.lookups)
          (ms := fun x : List (Prepared (List F)) => x.flatMap fun p => p.toList.map fun q => Msg.point (F := F) (env.commit q))
          (a := fun x => x.map (·.map env.commit)) (l := List.range m) (xs := prepared) (by simp [hprep]) fun x hx =>
            Reads.many (hprep1 x hx) fun p hp => reads_prepared env s (hprep2 x hx p hp)).cast ?_
        rw [hms2]
        generalize prepared = l
        induction l with
        | nil => rfl
        | cons a l ih => rw [List.flatMap_cons, ih, List.flatten_cons, List.flatMap_append, List.map_append, List.map_flatMap (l := a)]
      have hq := reads_points (commit := env.commit) c2
      have hrq : Reads (F := F) (readQuotient s) ms4 ((pieces env.n h).map env.commit) := by
        rw [readQuotient, if_neg (by have := hf.degree; omega)]; exact hq
      have e : w4.proof ++ ms5 ++ tail = ms1 ++ (ms2 ++ (products.flatten.map (fun p => Msg.point (env.commit p)) ++
          (grands.flatten.map (fun p => Msg.point (env.commit p)) ++ (shuffles.flatten.map (fun p => Msg.point (env.commit p)) ++
          ([Msg.point (env.commit [1])] ++ (ms4 ++ (ms5 ++ tail))))))) := by
        simp [hw4, hw3, hw2, hms3, a2]
      have el : l1 ++ ms2.map .absorb ++ [.squeeze] ++ [.squeeze] ++ (products.flatten.map fun p => Msg.point (env.commit p)).map .absorb ++
          (grands.flatten.map fun p => Msg.point (env.commit p)).map .absorb ++
          (shuffles.flatten.map fun p => Msg.point (env.commit p)).map .absorb ++ [Msg.point (env.commit [1])].map .absorb = w3.log := by
        simp [hw3, hms3, hl2, hw2]
      rw [e, hf.repr]
      refine (run_bind (hears_hear _ _)).trans ?_
      refine (run_bind (hh _)).trans ?_
      refine (run_bind (a3 _)).trans ?_
      refine (run_bind (a := theta) (s' := ⟨l1, _⟩) rfl).trans ?_
      refine (run_bind (hrp _ _)).trans ?_
      refine (run_bind (a := beta) (s' := ⟨w2.log ++ [.squeeze], _⟩) rfl).trans ?_
      refine (run_bind (a := gamma) (s' := ⟨l2, _⟩) rfl).trans ?_
      refine (run_bind (reads_lists (by simp [hprod, hm]) hprod1 _ _)).trans ?_
      refine (run_bind (reads_lists (by simp [hgr, hm]) hgr1 _ _)).trans ?_
      refine (run_bind (reads_lists (by simp [hsh, hm]) hsh1 _ _)).trans ?_
      refine (run_bind (reads_point _ _ _)).trans ?_
      rw [el]
      refine (run_bind (a := y) (s' := ⟨l3, _⟩) rfl).trans ?_
      refine (run_bind (hrq _ _)).trans ?_
      refine (run_bind (a := x) (s' := ⟨w4.log ++ [.squeeze], _⟩) rfl).trans ?_
      exact (run_bind (reads_all hf hi hfits pts _ _)).trans rfl
    · exact ⟨fun i hi' j hj => a4 i j (Or.inl ⟨s.advicePhases[j], mem_getPhases (List.getElem?_eq_getElem hj), by simpa [hd] using hi',
        List.getElem?_eq_getElem hj⟩), rfl, rfl, rfl, rfl, rfl, rfl, rfl, rfl, rfl, rfl, rfl, rfl, rfl⟩

/-! ### Openings -/

theorem mapM_iff {α β : Type} {f : α → Option β} : ∀ {l : List α} {r : List β}, l.mapM f = some r ↔ l.map f = r.map some
  | [], r => by cases r <;> simp
  | a :: l, r => by
    rw [List.mapM_cons]
    cases h : f a with
    | none => cases r <;> simp [h]
    | some b =>
      have ih : ∀ r', l.mapM f = some r' ↔ l.map f = r'.map some := fun r' => mapM_iff
      cases r with
      | nil => cases h' : l.mapM f <;> simp [h, h']
      | cons c r =>
        simp only [List.map_cons, h, List.cons.injEq, Option.some.injEq, ← ih]
        cases h' : l.mapM f <;> simp [h', eq_comm]

theorem mapM_range {α β : Type} {f : ℕ → Option β} {g : α × ℕ → β} : ∀ (l : List α) (start : ℕ),
    (∀ j (hj : j < l.length), f (start + j) = some (g (l[j], start + j))) →
    (List.range' start l.length).mapM f = some ((l.zipIdx start).map g)
  | [], _, _ => rfl
  | a :: l, start, h => by
    have h0 := h 0 (by simp)
    have h1 := mapM_range (f := f) (g := g) l (start + 1) fun j hj => by
      have := h (j + 1) (by simpa using hj)
      rw [← Nat.add_assoc, Nat.add_right_comm] at this
      simpa using this
    rw [List.length_cons, List.range'_succ, List.mapM_cons, h1]
    simp only [Nat.add_zero, List.getElem_cons_zero] at h0
    rw [h0]
    rfl

theorem mapM_range0 {α β : Type} {f : ℕ → Option β} {g : α × ℕ → β} (l : List α) {n : ℕ} (hn : n = l.length)
    (h : ∀ j (hj : j < l.length), f j = some (g (l[j], j))) : (List.range n).mapM f = some (l.zipIdx.map g) := by
  rw [hn, List.range_eq_range']
  exact mapM_range l 0 fun j hj => by simpa using h j hj

theorem mapM_range0_reverse {α β : Type} {f : ℕ → Option β} {g : α × ℕ → β} (l : List α) {n : ℕ} (hn : n = l.length)
    (h : ∀ j (hj : j < l.length), f j = some (g (l[j], j))) : (List.range n).reverse.mapM f = some (l.zipIdx.reverse.map g) := by
  have := mapM_range0 l hn h
  rw [mapM_iff] at this ⊢
  rw [List.map_reverse, this, List.map_reverse, List.map_reverse]

/-- The opening of a column for a query. -/
def columnOpening (env : Env P F) (place : ℕ → Place) (poly : ℕ → Option (List F)) (x : F) (q : ℕ × ℤ) : Opening F :=
  ⟨place q.1, (rotate env q.2 x).getD 0, valueAt env poly x q⟩

theorem openColumns_eq (env : Env P F) (place : ℕ → Place) {poly : ℕ → Option (List F)} (x : F) {queries : List (ℕ × ℤ)}
    (hp : ∀ q ∈ queries, (poly q.1).isSome) (hr : ∀ q ∈ queries, (env.domain.getElement q.2).isSome) :
    openColumns env place poly x queries = some (queries.map (columnOpening env place poly x)) := by
  refine FloorPlan.mapM_eq fun q hq => ?_
  obtain ⟨p, e1⟩ := Option.isSome_iff_exists.1 (hp q hq)
  obtain ⟨y, e2⟩ := Option.isSome_iff_exists.1 (rotate_isSome (x := x) (hr q hq))
  simp [e1, e2, columnOpening, valueAt, opened]

theorem verifierColumns_eq (env : Env P F) (place : ℕ → Place) (poly : ℕ → Option (List F)) (x : F) {queries : List (ℕ × ℤ)} {columns : ℕ}
    (hc : ∀ q ∈ queries, q.1 < columns) (hr : ∀ q ∈ queries, (env.domain.getElement q.2).isSome) :
    verifierColumns env place columns x queries (queries.map (valueAt env poly x)) =
      some (queries.map (columnOpening env place poly x)) := by
  have : queries.map (columnOpening env place poly x) = queries.zipIdx.map fun q => columnOpening env place poly x q.1 := by
    conv_lhs => rw [← List.zipIdx_map_fst 0 queries, List.map_map]
    rfl
  rw [this]
  refine FloorPlan.mapM_eq fun q hq => ?_
  have hq' := List.mem_zipIdx_iff_getElem?.1 hq
  have hm := List.mem_of_getElem? hq'
  obtain ⟨y, e2⟩ := Option.isSome_iff_exists.1 (rotate_isSome (x := x) (hr _ hm))
  simp [e2, hc _ hm, columnOpening, hq']

theorem verifierProducts_eq (env : Env P F) (pts : Points F) (i : ℕ) (products : List (List F)) :
    verifierProducts pts i products.length (productValues env pts products) = some (openProducts env pts i products) := by
  unfold verifierProducts
  rcases products.eq_nil_or_concat with rfl | ⟨l, a, rfl⟩
  · rfl
  rw [List.concat_eq_append]
  set ps := l ++ [a] with hps
  have hget : ∀ j (hj : j < ps.length), (productValues env pts ps)[j]? = some (env.eval ps[j] pts.x, env.eval ps[j] pts.next,
      if j ≠ ps.length - 1 then some (env.eval ps[j] pts.last) else none) := by
    intro j hj
    rw [productValues, List.getElem?_map, List.getElem?_zipIdx, List.getElem?_eq_getElem hj]
    simp
  have hne : (productValues env pts ps).isEmpty = false := by
    rw [productValues, hps]; simp
  rw [hne]
  simp only [Bool.false_eq_true, if_false]
  rw [mapM_range0 (g := fun p => [(⟨.product i p.2, pts.x, env.eval p.1 pts.x⟩ : Opening F),
    ⟨.product i p.2, pts.next, env.eval p.1 pts.next⟩]) ps rfl fun j hj => by rw [hget j hj]; rfl, Option.bind_some]
  have hlen : ps.length - 1 = l.length := by simp [hps]
  rw [mapM_range0_reverse (g := fun p => (⟨.product i p.2, pts.last, env.eval p.1 pts.last⟩ : Opening F)) l hlen fun j hj => by
    have hj' : j < ps.length := by rw [hps, List.length_append]; omega
    rw [hget j hj', Option.bind_some, if_pos (by omega)]
    simp [hps, List.getElem_append_left hj]]
  rw [Option.map_some, openProducts, List.flatMap_def]
  congr 2
  have : ps.zipIdx.reverse.drop 1 = l.zipIdx.reverse := by
    rw [hps, List.zipIdx_append, List.reverse_append]
    simp
  rw [this]
  rfl

theorem verifierLookups_eq (env : Env P F) (pts : Points F) (i : ℕ) {prepared : List (Prepared (List F))} {grands : List (List F)}
    (hl : grands.length = prepared.length) : ∃ os, openLookups env pts i prepared grands = some os ∧
    verifierLookups pts i grands.length ((grands.zip prepared).map (lookupValues env pts)) = some os := by
  refine ⟨_, by rw [openLookups, if_neg (by simpa using hl)], ?_⟩
  unfold verifierLookups
  rw [mapM_range0 (g := fun p => match p.1.2 with
    | .pair input table => [opened env (.grand i p.2) p.1.1 pts.x, opened env (.input i p.2) input pts.x,
        opened env (.table i p.2) table pts.x, opened env (.input i p.2) input pts.prev, opened env (.grand i p.2) p.1.1 pts.next]
    | .single m => [opened env (.grand i p.2) p.1.1 pts.x, opened env (.grand i p.2) p.1.1 pts.next,
        opened env (.single i p.2) m pts.x]) (grands.zip prepared) (by simp [hl]) fun j hj => ?_]
  · rw [Option.map_some, List.flatMap_def]
    rfl
  · rw [List.getElem?_map, List.getElem?_eq_getElem hj]
    generalize (grands.zip prepared)[j] = p
    obtain ⟨g, p⟩ := p
    cases p <;> rfl

theorem verifierShuffles_eq (env : Env P F) (pts : Points F) (i : ℕ) (shuffles : List (List F)) :
    verifierShuffles pts i shuffles.length (shuffles.map fun p => (env.eval p pts.x, env.eval p pts.next)) =
      some (openShuffles env pts i shuffles) := by
  unfold verifierShuffles
  rw [mapM_range0 (g := fun p => [opened env (.shuffle i p.2) p.1 pts.x, opened env (.shuffle i p.2) p.1 pts.next]) shuffles rfl
    fun j hj => by rw [List.getElem?_map, List.getElem?_eq_getElem hj]; rfl]
  rw [Option.map_some, openShuffles, List.flatMap_def]

theorem length_flatMap_const {α β : Type} {f : α → List β} {c : ℕ} : ∀ {l : List α}, (∀ a ∈ l, (f a).length = c) →
    (l.flatMap f).length = l.length * c
  | [], _ => by simp
  | a :: l, h => by
    rw [List.flatMap_cons, List.length_append, h a (by simp), length_flatMap_const fun b hb => h b (by simp [hb]), List.length_cons]
    ring

theorem length_openProducts (env : Env P F) (pts : Points F) (i : ℕ) (products : List (List F)) :
    (openProducts env pts i products).length = products.length * 3 - 1 := by
  rw [openProducts, List.length_append, length_flatMap_const (c := 2) (by simp)]
  simp
  omega

/-- The number of openings of a lookup. -/
def perLookup : LookupType → ℕ
  | .halo2 => 5
  | .logDerivative => 3

theorem length_openLookups {env : Env P F} {s : Shape} {pts : Points F} {i : ℕ} {prepared : List (Prepared (List F))}
    {grands : List (List F)} {os : List (Opening F)} (h : openLookups env pts i prepared grands = some os)
    (hk : ∀ p ∈ prepared, s.lookupType.Kind p) : os.length = grands.length * perLookup s.lookupType := by
  unfold openLookups at h
  split at h
  · cases h
  · next hl =>
    obtain rfl := Option.some.inj h
    rw [length_flatMap_const (c := perLookup s.lookupType)]
    · simp [show grands.length = prepared.length by simpa using hl]
    · intro p hp
      obtain ⟨⟨g, q⟩, j⟩ := p
      have hq := hk q (List.of_mem_zip (List.mem_of_getElem? (List.mem_zipIdx_iff_getElem?.1 hp))).2
      cases ht : s.lookupType <;> rw [ht] at hq <;> cases q <;> simp [LookupType.Kind, perLookup] at hq ⊢

theorem length_openShuffles (env : Env P F) (pts : Points F) (i : ℕ) (shuffles : List (List F)) :
    (openShuffles env pts i shuffles).length = shuffles.length * 2 := by
  rw [openShuffles, length_flatMap_const (c := 2) (by simp)]
  simp

end Tachyon.Halo2
