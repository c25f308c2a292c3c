import Verif.Proofs.Buffer
import Verif.Spec.CircomFile
/-! Lemmas about the parsers of circom's files. -/
namespace Tachyon.CircomFile
open Tachyon.Buffer

variable {α β : Type} {env : Env}

theorem bindR_iff {r : Buf → Option (Option α × Buf)} {f : α → Buf → Option (Option β × Buf)} {b b'' : Buf} {c : β} :
    bindR r f b = some (some c, b'') ↔ ∃ a b', r b = some (some a, b') ∧ f a b' = some (some c, b'') := by
  unfold bindR
  constructor
  · intro h
    split at h
    · next a b' e => exact ⟨a, b', e, h⟩
    · simp at h
    · simp at h
  · rintro ⟨a, b', h1, h2⟩
    rw [h1]; exact h2

theorem pureR_iff {a c : α} {b b' : Buf} : pureR a b = some (some c, b') ↔ c = a ∧ b' = b := by
  rw [pureR, Option.some.injEq, Prod.mk.injEq, Option.some.injEq, eq_comm, @eq_comm _ b]

/-- `Dec` without a condition on the offset. -/
def Reads (r : Buf → Option (Option α × Buf)) (D : α → List Byte → Prop) : Prop :=
  ∀ b : Buf, b.endian = .little → b.data.length < 2 ^ 64 → ∀ a b',
    r b = some (some a, b') ↔ ∃ bs, D a bs ∧ bs <+: b.data.drop b.off ∧ b' = { b with off := b.off + bs.length }

/-- Reading behind the end fails. -/
def Strict (r : Buf → Option (Option α × Buf)) : Prop :=
  ∀ b : Buf, b.data.length < b.off → ∀ a b', r b ≠ some (some a, b')

theorem Strict.bind {r : Buf → Option (Option α × Buf)} (h : Strict r) (f : α → Buf → Option (Option β × Buf)) :
    Strict (bindR r f) := by
  intro b hb a b' e
  obtain ⟨x, b1, h1, -⟩ := bindR_iff.1 e
  exact h b hb _ _ h1

theorem strict_bytes (n : ℕ) : Strict fun b => readBytesAt b b.off n := by
  intro b hb a b' e
  simp only [readBytesAt] at e
  split at e
  · simp at e
  · rw [if_pos (by omega)] at e; simp at e

theorem strict_num (n : ℕ) : Strict (num env n) := by
  intro b hb a b' e
  rw [num, readIntAt, Option.map_eq_some_iff] at e
  obtain ⟨⟨x, y⟩, h1, h2⟩ := e
  cases x with
  | none => simp at h2
  | some x => exact strict_bytes n b hb x y h1

theorem strict_ptr (size n : ℕ) : Strict (readPtr size n) := by
  intro b hb a b' e
  rw [readPtr, readPtrAt] at e
  by_cases h : 2 ^ 64 ≤ b.off + size * n % 2 ^ 64
  · rw [if_pos h] at e; simp at e
  · rw [if_neg h, if_pos (by omega)] at e; simp at e

theorem Reads.of_dec {r : Buf → Option (Option α × Buf)} {D : α → List Byte → Prop} (h : Dec .little r D) (hs : Strict r)
    (hne : ∀ a bs, D a bs → bs ≠ []) : Reads r D := by
  intro b he hl a b'
  by_cases ho : b.off ≤ b.data.length
  · exact h b he ho hl a b'
  · refine iff_of_false (hs b (by omega) _ _) ?_
    rintro ⟨bs, hD, hp, -⟩
    rw [List.drop_eq_nil_of_le (by omega)] at hp
    exact hne _ _ hD (List.prefix_nil.1 hp)

theorem Reads.congr {r : Buf → Option (Option α × Buf)} {D D' : α → List Byte → Prop} (h : ∀ a bs, D a bs ↔ D' a bs)
    (hr : Reads r D) : Reads r D' := by
  have : D = D' := by funext a bs; exact propext (h a bs)
  rwa [← this]

/-- What `r` reads are the bytes of the encodings of what `g` makes its results of. -/
def Enc {ρ : Type} (r : Buf → Option (Option α × Buf)) (ok : ρ → Prop) (g : ρ → α) (enc : ρ → List Byte) : Prop :=
  Dec .little r fun a bs => ∃ x, ok x ∧ a = g x ∧ bs = enc x

theorem enc_readN {ρ : Type} {r : Buf → Option (Option α × Buf)} {ok : ρ → Prop} {g : ρ → α} {enc : ρ → List Byte}
    (hr : Enc r ok g enc) (n : ℕ) : Enc (readN r n) (fun xs => xs.length = n ∧ ∀ x ∈ xs, ok x) (List.map g) (List.flatMap enc) := by
  induction n with
  | zero =>
    refine (dec_pure .little []).congr fun l bs => ?_
    constructor
    · rintro ⟨rfl, rfl⟩; exact ⟨[], by simp, rfl, rfl⟩
    · rintro ⟨xs, ⟨h, -⟩, rfl, rfl⟩
      obtain rfl := List.eq_nil_of_length_eq_zero h
      exact ⟨rfl, rfl⟩
  | succ n ih =>
    refine (dec_bind hr fun a => dec_bind ih fun l => dec_pure .little (a :: l)).congr fun l bs => ?_
    constructor
    · rintro ⟨_, _, _, ⟨x, h1, rfl, rfl⟩, ⟨_, _, _, ⟨xs, ⟨rfl, h2⟩, rfl, rfl⟩, ⟨rfl, rfl⟩, rfl⟩, rfl⟩
      exact ⟨x :: xs, ⟨rfl, by simpa using ⟨h1, h2⟩⟩, rfl, by simp⟩
    · rintro ⟨xs, ⟨hn, hx⟩, rfl, rfl⟩
      cases xs with
      | nil => simp at hn
      | cons x xs =>
        exact ⟨_, _, _, ⟨x, hx x (by simp), rfl, rfl⟩, ⟨_, _, _, ⟨xs, ⟨by simpa using hn, fun y hy => hx y (by simp [hy])⟩, rfl,
          rfl⟩, ⟨rfl, rfl⟩, rfl⟩, by simp⟩

theorem reads_readN {ρ : Type} {r : Buf → Option (Option α × Buf)} {ok : ρ → Prop} {g : ρ → α} {enc : ρ → List Byte}
    (hr : Enc r ok g enc) (hs : Strict r) (hne : ∀ x, ok x → enc x ≠ []) (n : ℕ) :
    Reads (readN r n) (fun l bs => ∃ xs : List ρ, (xs.length = n ∧ ∀ x ∈ xs, ok x) ∧ l = xs.map g ∧ bs = xs.flatMap enc) := by
  cases n with
  | zero =>
    intro b he hl a b'
    rw [readN, pureR_iff]
    constructor
    · rintro ⟨rfl, rfl⟩; exact ⟨[], ⟨[], by simp⟩, List.nil_prefix, rfl⟩
    · rintro ⟨bs, ⟨xs, ⟨h, -⟩, rfl, rfl⟩, -, rfl⟩
      obtain rfl := List.eq_nil_of_length_eq_zero h
      exact ⟨rfl, rfl⟩
  | succ n =>
    refine Reads.of_dec (enc_readN hr (n + 1)) (hs.bind _) ?_
    rintro _ _ ⟨xs, ⟨h, hW⟩, rfl, rfl⟩
    cases xs with
    | nil => simp at h
    | cons x xs => simp [hne x (hW x (by simp))]

/-! Numbers. -/

theorem encInt_little (hh : env.hostBig = false) (n v : ℕ) : encInt env .little n v = digits n v := by
  rw [encInt, if_neg]
  rintro (⟨h, -⟩ | ⟨h, -⟩)
  · cases h
  · rw [hh] at h; cases h

theorem length_digits (n v : ℕ) : (digits n v).length = n := by simp [digits]

theorem dec_num (hh : env.hostBig = false) (n : ℕ) :
    Dec .little (num env n) (fun v bs => v < 256 ^ n ∧ bs = digits n v) :=
  (dec_int env .little n).congr fun v bs => by rw [encInt_little hh]

theorem digits_inj {n u v : ℕ} (hu : u < 256 ^ n) (hv : v < 256 ^ n) (h : digits n u = digits n v) : u = v := by
  rw [← ofBytesLE_bytesLE n u hu, ← ofBytesLE_bytesLE n v hv, bytesLE_eq, bytesLE_eq, h]

theorem ofBytesLE_digits {n v : ℕ} (hv : v < 256 ^ n) : ofBytesLE (digits n v) = v := by
  rw [← bytesLE_eq, ofBytesLE_bytesLE n v hv]

/-! Pointers. -/

theorem chunks_flatten {γ : Type} (size : ℕ) : ∀ (es : List (List γ)), (∀ e ∈ es, e.length = size) → ∀ rest,
    ((List.range es.length).map fun i => ((es.flatten ++ rest).drop (size * i)).take size) = es := by
  intro es h rest
  refine List.ext_getElem (by simp) fun i h1 h2 => ?_
  rw [List.getElem_map, List.getElem_range]
  have key : ∀ (es : List (List γ)), (∀ e ∈ es, e.length = size) → ∀ i (hi : i < es.length),
      ((es.flatten ++ rest).drop (size * i)).take size = es[i] := by
    intro es
    induction es with
    | nil => intro _ i hi; simp at hi
    | cons e es ih =>
      intro he i hi
      have hl : e.length = size := he e (by simp)
      cases i with
      | zero => simp [← hl]
      | succ i =>
        have := ih (fun x hx => he x (by simp [hx])) i (by simpa using hi)
        rw [List.flatten_cons, List.append_assoc, Nat.mul_succ, Nat.add_comm, ← List.drop_drop, ← hl, List.drop_left, hl,
          this, List.getElem_cons_succ]
  exact key es h i h2

theorem flatten_chunks {γ : Type} (size : ℕ) : ∀ (n : ℕ) (d : List γ), size * n ≤ d.length →
    ((List.range n).map fun i => (d.drop (size * i)).take size).flatten = d.take (size * n) := by
  intro n d hd
  induction n with
  | zero => simp
  | succ n ih =>
    rw [List.range_succ, List.map_append, List.flatten_append, ih (by rw [Nat.mul_succ] at hd; omega)]
    simp only [List.map_cons, List.map_nil, List.flatten_cons, List.flatten_nil, List.append_nil]
    rw [Nat.mul_succ, List.take_add]

theorem length_flatten {γ : Type} {size : ℕ} {es : List (List γ)} (h : ∀ e ∈ es, e.length = size) :
    es.flatten.length = size * es.length := by
  induction es with
  | nil => simp
  | cons e es ih =>
    rw [List.flatten_cons, List.length_append, ih fun x hx => h x (by simp [hx]), h e (by simp), List.length_cons, Nat.mul_succ,
      Nat.add_comm]

theorem readPtr_iff {size n : ℕ} (hs : size * n < 2 ^ 64) {b : Buf} (hl : b.data.length < 2 ^ 64) {es : List (List Byte)}
    {b' : Buf} :
    readPtr size n b = some (some es, b') ↔ b.off ≤ b.data.length ∧ (es.length = n ∧ ∀ e ∈ es, e.length = size) ∧
      es.flatten <+: b.data.drop b.off ∧ b' = { b with off := b.off + es.flatten.length } := by
  rw [readPtr, readPtrAt, Nat.mod_eq_of_lt hs]
  by_cases hf : b.off + size * n ≤ b.data.length
  · simp only [if_neg (show ¬ 2 ^ 64 ≤ b.off + size * n by omega), if_neg (show ¬ b.data.length < b.off + size * n by omega),
      if_pos hf, Option.some.injEq, Prod.mk.injEq]
    constructor
    · rintro ⟨rfl, rfl⟩
      have hfl : ((List.range n).map fun i => (b.data.drop (b.off + size * i)).take size).flatten =
          (b.data.drop b.off).take (size * n) := by
        rw [← flatten_chunks size n (b.data.drop b.off) (by rw [List.length_drop]; omega)]
        simp only [List.drop_drop]
      refine ⟨by omega, ⟨by simp, ?_⟩, ?_, ?_⟩
      · intro e he
        obtain ⟨i, hi, rfl⟩ := List.mem_map.1 he
        rw [List.length_take, List.length_drop]
        have : size * (i + 1) ≤ size * n := Nat.mul_le_mul_left _ (List.mem_range.1 hi)
        rw [Nat.mul_succ] at this
        omega
      · rw [hfl]; exact List.take_prefix _ _
      · rw [hfl, List.length_take, List.length_drop, Nat.min_eq_left (by omega)]
    · rintro ⟨h1, ⟨rfl, h3⟩, ⟨t, ht⟩, rfl⟩
      refine ⟨?_, by rw [length_flatten h3]⟩
      have := chunks_flatten size es h3 t
      rw [ht] at this
      rw [← this]
      simp only [List.drop_drop, List.length_map, List.length_range]
  · have hno : ∀ x : Option ℕ × Buf, x = (none, b) → (match x with
        | (none, b) => some (none, b)
        | (some off, b) => if off + size * n ≤ b.data.length then
            some (some ((List.range n).map fun i => (b.data.drop (off + size * i)).take size), b) else none) ≠
        some (some es, b') := by
      rintro x rfl
      simp
    refine iff_of_false (hno _ ?_) ?_
    · by_cases h : 2 ^ 64 ≤ b.off + size * n
      · rw [if_pos h]
      · rw [if_neg h, if_pos (by omega)]
    · rintro ⟨h1, ⟨rfl, h3⟩, hp, -⟩
      have := hp.length_le
      rw [length_flatten h3, List.length_drop] at this
      omega

theorem dec_ptr {size n : ℕ} (hs : size * n < 2 ^ 64) :
    Dec .little (readPtr size n) (fun es bs => (es.length = n ∧ ∀ e ∈ es, e.length = size) ∧ bs = es.flatten) := by
  intro b _ ho hl es b'
  rw [readPtr_iff hs hl]
  constructor
  · rintro ⟨-, h1, h2, h3⟩; exact ⟨_, ⟨h1, rfl⟩, h2, h3⟩
  · rintro ⟨_, ⟨h1, rfl⟩, h2, h3⟩; exact ⟨ho, h1, h2, h3⟩

theorem dec_one {size : ℕ} (hs : size < 2 ^ 64) :
    Dec .little (readOne size) (fun e bs => e.length = size ∧ bs = e) := by
  have h : ∀ l : List (List Byte), l.length = 1 → Dec .little (match l with
      | [x] => pureR x
      | _ => fun _ => none) (fun x bs => l = [x] ∧ bs = []) := by
    rintro l hl
    obtain ⟨y, rfl⟩ := List.length_eq_one_iff.1 hl
    exact (dec_pure .little y).congr fun a bs => by simp [eq_comm]
  have h' : ∀ l : List (List Byte), l.length ≠ 1 → Dec .little (match l with
      | [x] => pureR x
      | _ => fun _ => none) (fun _ _ => False) := by
    rintro (_ | ⟨y, _ | ⟨z, l⟩⟩) hl
    · intro b _ _ _ a b'; simp
    · simp at hl
    · intro b _ _ _ a b'; simp
  refine (dec_bind (dec_ptr (size := size) (n := 1) (by omega)) (E := fun l x bs => l = [x] ∧ bs = []) fun l => ?_).congr
    fun e bs => ?_
  · by_cases hl : l.length = 1
    · exact h l hl
    · exact (h' l hl).congr fun a bs => by
        constructor
        · exact False.elim
        · rintro ⟨rfl, -⟩; simp at hl
  · constructor
    · rintro ⟨_, _, _, ⟨⟨-, h2⟩, rfl⟩, ⟨rfl, rfl⟩, rfl⟩
      exact ⟨h2 e (by simp), by simp⟩
    · rintro ⟨h1, rfl⟩
      exact ⟨[bs], bs, [], ⟨⟨rfl, by simp [h1]⟩, by simp⟩, ⟨rfl, rfl⟩, by simp⟩

/-! Sections. -/

/-- Where the walk ends. -/
def walkEnd : ℕ → List Section → ℕ
  | off, [] => off
  | off, s :: l => walkEnd ((off + 12 + s.size) % 2 ^ 64) l

theorem addSection_iff (hh : env.hostBig = false) {b b' : Buf} (he : b.endian = .little) (hl : b.data.length < 2 ^ 64)
    {s : Section} : addSection env b = some (some s, b') ↔ s.type < 2 ^ 32 ∧ s.size < 2 ^ 64 ∧ s.start = b.off + 12 ∧
      digits 4 s.type ++ digits 8 s.size <+: b.data.drop b.off ∧ b' = { b with off := (b.off + 12 + s.size) % 2 ^ 64 } := by
  have h4 := Reads.of_dec (dec_num hh 4) (strict_num 4) fun a bs h e => by
    have := length_digits 4 a; rw [← h.2, e] at this; simp at this
  have h8 := Reads.of_dec (dec_num hh 8) (strict_num 8) fun a bs h e => by
    have := length_digits 8 a; rw [← h.2, e] at this; simp at this
  rw [addSection, bindR_iff]
  constructor
  · rintro ⟨t, b1, e1, e2⟩
    obtain ⟨z, b2, e3, e4⟩ := bindR_iff.1 e2
    obtain ⟨_, ⟨k1, rfl⟩, p1, rfl⟩ := (h4 b he hl _ _).1 e1
    obtain ⟨_, ⟨k2, rfl⟩, p2, rfl⟩ := (h8 { b with off := b.off + (digits 4 t).length } he hl _ _).1 e3
    simp only [Option.some.injEq, Prod.mk.injEq, length_digits] at e4
    obtain ⟨rfl, rfl⟩ := e4
    refine ⟨k1, k2, by show b.off + 4 + 8 = _; omega, ?_, rfl⟩
    obtain ⟨r, hr⟩ := p1
    obtain ⟨r', hr'⟩ := p2
    simp only [length_digits] at hr'
    rw [← List.drop_drop, ← hr, List.drop_left' (length_digits 4 t)] at hr'
    exact ⟨r', by rw [← hr, ← hr', List.append_assoc]⟩
  · rintro ⟨k1, k2, k3, ⟨r, hr⟩, rfl⟩
    refine ⟨s.type, { b with off := b.off + 4 }, (h4 b he hl _ _).2 ⟨_, ⟨k1, rfl⟩, ⟨digits 8 s.size ++ r, by
      rw [← hr, List.append_assoc]⟩, by rw [length_digits]⟩, bindR_iff.2 ⟨s.size, { b with off := b.off + 4 + 8 }, ?_, ?_⟩⟩
    · refine (h8 { b with off := b.off + 4 } he hl _ _).2 ⟨_, ⟨k2, rfl⟩, ⟨r, ?_⟩, by rw [length_digits]⟩
      show _ = b.data.drop (b.off + 4)
      rw [← List.drop_drop, ← hr, List.append_assoc]
      exact (List.drop_left' (length_digits 4 _)).symm
    · simp only [Option.some.injEq, Prod.mk.injEq]
      cases s
      simp only at k3
      subst k3
      simp [Nat.add_assoc]

theorem readN_sections (hh : env.hostBig = false) : ∀ (n : ℕ) {b b' : Buf}, b.endian = .little → b.data.length < 2 ^ 64 →
    ∀ {l : List Section}, readN (addSection env) n b = some (some l, b') ↔
      l.length = n ∧ Walk b.data b.off l ∧ b' = { b with off := walkEnd b.off l }
  | 0, b, b', he, hl, l => by
    rw [readN, pureR_iff]
    constructor
    · rintro ⟨rfl, rfl⟩; exact ⟨rfl, .nil _, rfl⟩
    · rintro ⟨h, -, rfl⟩
      obtain rfl := List.eq_nil_of_length_eq_zero h
      exact ⟨rfl, rfl⟩
  | n + 1, b, b', he, hl, l => by
    rw [readN, bindR_iff]
    constructor
    · rintro ⟨s, b1, e1, e2⟩
      obtain ⟨l', b2, e3, e4⟩ := bindR_iff.1 e2
      obtain ⟨rfl, rfl⟩ := pureR_iff.1 e4
      obtain ⟨k1, k2, k3, k4, rfl⟩ := (addSection_iff hh he hl).1 e1
      obtain ⟨h1, h2, rfl⟩ := (readN_sections hh n (b := { b with off := (b.off + 12 + s.size) % 2 ^ 64 }) he hl).1 e3
      refine ⟨by rw [List.length_cons, h1], ?_, rfl⟩
      cases s
      simp only at k3
      subst k3
      exact .cons k1 k2 k4 h2
    · rintro ⟨h, hw, rfl⟩
      cases hw with
      | nil => simp at h
      | cons ht hs hp hw =>
        refine ⟨_, _, (addSection_iff hh he hl).2 ⟨ht, hs, rfl, hp, rfl⟩, bindR_iff.2 ⟨_, _,
          (readN_sections hh n (b := { b with off := (b.off + 12 + _) % 2 ^ 64 }) he hl).2 ⟨by simpa using h, hw, rfl⟩, rfl⟩⟩

theorem readSections_iff (hh : env.hostBig = false) (hm : 2 ^ 32 ≤ env.maxSize + 1) {b b' : Buf} (he : b.endian = .little)
    (hl : b.data.length < 2 ^ 64) {l : List Section} : readSections env b = some (some l, b') ↔ l.length < 2 ^ 32 ∧
      digits 4 l.length <+: b.data.drop b.off ∧ Walk b.data (b.off + 4) l ∧ b' = { b with off := walkEnd (b.off + 4) l } := by
  have h4 := Reads.of_dec (dec_num hh 4) (strict_num 4) fun a bs h e => by
    have := length_digits 4 a; rw [← h.2, e] at this; simp at this
  rw [readSections, bindR_iff]
  constructor
  · rintro ⟨n, b1, e1, e2⟩
    obtain ⟨_, ⟨k1, rfl⟩, p1, rfl⟩ := (h4 b he hl _ _).1 e1
    rw [resize, if_neg (by have : n < 2 ^ 32 := k1; omega)] at e2
    obtain ⟨rfl, h2, h3⟩ := (readN_sections hh n (b := { b with off := b.off + (digits 4 n).length }) he hl).1 e2
    rw [length_digits] at h2 h3
    exact ⟨k1, p1, h2, h3⟩
  · rintro ⟨k1, k2, k3, rfl⟩
    refine ⟨l.length, { b with off := b.off + 4 }, (h4 b he hl _ _).2 ⟨_, ⟨k1, rfl⟩, k2, by rw [length_digits]⟩, ?_⟩
    rw [resize, if_neg (by omega)]
    exact (readN_sections hh _ (b := { b with off := b.off + 4 }) he hl).2 ⟨rfl, k3, rfl⟩

theorem moveTo_iff {l : List Section} {t : ℕ} {b b' : Buf} {u : Unit} :
    moveTo l t b = some (some u, b') ↔ ∃ s, l.find? (fun s => decide (s.type = t)) = some s ∧ b' = { b with off := s.start } := by
  rw [moveTo]
  cases h : l.find? fun s => decide (s.type = t) with
  | none => simp
  | some s => simp [eq_comm]

/-- Moving to a section and reading what stands there. -/
theorem move_read {r : Buf → Option (Option α × Buf)} {D : α → List Byte → Prop} (hr : Reads r D)
    {f : α → Buf → Option (Option β × Buf)} {P : α → Prop} {x : β} {data : List Byte}
    (hl : data.length < 2 ^ 64) {l : List Section} {t : ℕ}
    (hf : ∀ a bs, D a bs → ∀ off, (∃ b'', f a ⟨data, off, .little, false⟩ = some (some x, b'')) ↔ P a) (off : ℕ) :
    (∃ b'', bindR (moveTo l t) (fun _ => bindR r f) ⟨data, off, .little, false⟩ = some (some x, b'')) ↔
      ∃ a bs, D a bs ∧ Holds data l t bs ∧ P a := by
  simp only [bindR_iff, moveTo_iff]
  constructor
  · rintro ⟨b'', _, _, ⟨s, hs, rfl⟩, a, b', h1, h2⟩
    obtain ⟨bs, hD, hp, rfl⟩ := (hr ⟨data, s.start, .little, false⟩ rfl hl _ _).1 h1
    exact ⟨a, bs, hD, ⟨s, hs, hp⟩, (hf a bs hD _).1 ⟨b'', h2⟩⟩
  · rintro ⟨a, bs, hD, ⟨s, hs, hp⟩, hP⟩
    obtain ⟨b'', hb⟩ := (hf a bs hD (s.start + bs.length)).2 hP
    exact ⟨b'', (), _, ⟨s, hs, rfl⟩, a, _, (hr ⟨data, s.start, .little, false⟩ rfl hl _ _).2 ⟨bs, hD, hp, rfl⟩, hb⟩

/-- Moving to a section and taking a pointer. -/
theorem move_ptr {size n : ℕ} (hsz : size * n < 2 ^ 64)
    {f : List (List Byte) → Buf → Option (Option β × Buf)} {P : List (List Byte) → Prop} {x : β} {data : List Byte}
    (hl : data.length < 2 ^ 64) {l : List Section} {t : ℕ}
    (hf : ∀ a off, (∃ b'', f a ⟨data, off, .little, false⟩ = some (some x, b'')) ↔ P a) (off : ℕ) :
    (∃ b'', bindR (moveTo l t) (fun _ => bindR (readPtr size n) f) ⟨data, off, .little, false⟩ = some (some x, b'')) ↔
      ∃ es, es.length = n ∧ HoldsAll data l t size es ∧ P es := by
  simp only [bindR_iff, moveTo_iff]
  constructor
  · rintro ⟨b'', _, _, ⟨s, hs, rfl⟩, a, b', h1, h2⟩
    obtain ⟨k1, ⟨k2, k3⟩, k4, rfl⟩ := (readPtr_iff hsz (b := ⟨data, s.start, .little, false⟩) hl).1 h1
    exact ⟨a, k2, ⟨k3, s, hs, k1, k4⟩, (hf a _).1 ⟨b'', h2⟩⟩
  · rintro ⟨a, k2, ⟨k3, s, hs, k1, k4⟩, hP⟩
    obtain ⟨b'', hb⟩ := (hf a (s.start + a.flatten.length)).2 hP
    exact ⟨b'', (), _, ⟨s, hs, rfl⟩, a, _, (readPtr_iff hsz (b := ⟨data, s.start, .little, false⟩) hl).2 ⟨k1, ⟨k2, k3⟩, k4, rfl⟩, hb⟩

/-! Headers and elements. -/

theorem enc_num (hh : env.hostBig = false) (n : ℕ) : Enc (num env n) (· < 256 ^ n) id (digits n) :=
  (dec_num hh n).congr fun v bs => by simp

theorem dec_fail : Dec .little (failR (α := α)) fun _ _ => False := by
  intro b _ _ _ a b'
  simp [failR]

theorem dec_modulus (hh : env.hostBig = false) (hm : 2 ^ 32 ≤ env.maxSize + 1) :
    Dec .little (readModulus env) fun m bs => ModOk m ∧ bs = encMod m := by
  refine (dec_bind (dec_num hh 4) (E := fun n m bs => (n % 8 = 0 ∧ n ≤ env.maxSize) ∧ bs = m ∧ bs.length = n) fun n => ?_).congr
    fun m bs => ?_
  · split
    · next h => exact dec_fail.congr fun m bs => ⟨False.elim, fun h' => h h'.1.1⟩
    · next h => exact (dec_resize (dec_bytes .little n)).congr fun m bs =>
        ⟨fun h' => ⟨⟨by omega, h'.1⟩, h'.2⟩, fun h' => ⟨h'.1.2, h'.2⟩⟩
  · constructor
    · rintro ⟨n, _, _, ⟨h1, rfl⟩, ⟨⟨h2, -⟩, rfl, rfl⟩, rfl⟩
      exact ⟨⟨h2, h1⟩, rfl⟩
    · rintro ⟨⟨h1, h2⟩, rfl⟩
      exact ⟨m.length, _, m, ⟨h2, rfl⟩, ⟨⟨h1, by omega⟩, rfl, rfl⟩, rfl⟩

theorem encMod_ne (m bs : List Byte) : encMod m ++ bs ≠ [] := fun h => by
  have := congrArg List.length h
  rw [encMod, List.length_append, List.length_append, length_digits] at this
  simp only [List.length_nil] at this
  omega

theorem strict_modulus : Strict (readModulus env) := (strict_num 4).bind _

theorem reads_wtnsHeader (hh : env.hostBig = false) (hm : 2 ^ 32 ≤ env.maxSize + 1) :
    Reads (readWtnsHeader env) fun x bs => (ModOk x.1 ∧ x.2 < 2 ^ 32) ∧ bs = encMod x.1 ++ digits 4 x.2 := by
  refine Reads.of_dec ((dec_bind (dec_modulus hh hm) fun m => dec_bind (dec_num hh 4) fun n => dec_pure .little (m, n)).congr
    fun x bs => ?_) (strict_modulus.bind _) fun x bs h => by rw [h.2]; exact encMod_ne _ _
  constructor
  · rintro ⟨m, _, _, ⟨h1, rfl⟩, ⟨n, _, _, ⟨h2, rfl⟩, ⟨rfl, rfl⟩, rfl⟩, rfl⟩
    exact ⟨⟨h1, h2⟩, by simp⟩
  · rintro ⟨⟨h1, h2⟩, rfl⟩
    exact ⟨x.1, _, _, ⟨h1, rfl⟩, ⟨x.2, _, _, ⟨h2, rfl⟩, ⟨rfl, rfl⟩, rfl⟩, by simp⟩

theorem reads_r1csHeader (hh : env.hostBig = false) (hm : 2 ^ 32 ≤ env.maxSize + 1) :
    Reads (readR1csHeader env) fun h bs => h.Ok ∧ bs = h.enc := by
  refine Reads.of_dec ((dec_bind (dec_modulus hh hm) fun m => dec_bind (dec_num hh 4) fun w => dec_bind (dec_num hh 4) fun o =>
    dec_bind (dec_num hh 4) fun i => dec_bind (dec_num hh 4) fun p => dec_bind (dec_num hh 8) fun l =>
    dec_bind (dec_num hh 4) fun c => dec_pure .little (⟨m, w, o, i, p, l, c⟩ : R1csHeader)).congr
    fun x bs => ?_) (strict_modulus.bind _) fun x bs h => by
      rw [h.2, R1csHeader.enc]; simp only [List.append_assoc]; exact encMod_ne _ _
  constructor
  · rintro ⟨m, _, _, ⟨h1, rfl⟩, ⟨w, _, _, ⟨h2, rfl⟩, ⟨o, _, _, ⟨h3, rfl⟩, ⟨i, _, _, ⟨h4, rfl⟩, ⟨p, _, _, ⟨h5, rfl⟩, ⟨l, _, _, ⟨h6, rfl⟩,
      ⟨c, _, _, ⟨h7, rfl⟩, ⟨rfl, rfl⟩, rfl⟩, rfl⟩, rfl⟩, rfl⟩, rfl⟩, rfl⟩, rfl⟩
    exact ⟨⟨h1, h2, h3, h4, h5, h6, h7⟩, by simp [R1csHeader.enc]⟩
  · rintro ⟨⟨h1, h2, h3, h4, h5, h6, h7⟩, rfl⟩
    exact ⟨x.modulus, _, _, ⟨h1, rfl⟩, ⟨x.numWires, _, _, ⟨h2, rfl⟩, ⟨x.numOutputs, _, _, ⟨h3, rfl⟩, ⟨x.numInputs, _, _, ⟨h4, rfl⟩,
      ⟨x.numPrivate, _, _, ⟨h5, rfl⟩, ⟨x.numLabels, _, _, ⟨h6, rfl⟩, ⟨x.numConstraints, _, _, ⟨h7, rfl⟩, ⟨rfl, rfl⟩, rfl⟩, rfl⟩,
      rfl⟩, rfl⟩, rfl⟩, rfl⟩, by simp [R1csHeader.enc]⟩

variable {F G1 G2 : Type} {ty : Types F G1 G2}

theorem enc_term (hh : env.hostBig = false) :
    Enc (readTerm env ty) (RawTerm.Ok ty.sizeF) (RawTerm.term ty) RawTerm.enc := by
  refine (dec_bind (dec_num hh 4) fun w => dec_bind (dec_bind (dec_bytes .little ty.sizeF) fun bs =>
    dec_pure .little (ty.fr (ofBytesLE bs))) fun c => dec_pure .little (⟨w, c⟩ : Circom.CTerm F)).congr fun t bs => ?_
  constructor
  · rintro ⟨w, _, _, ⟨h1, rfl⟩, ⟨_, _, _, ⟨_, x, _, ⟨rfl, h2⟩, ⟨rfl, rfl⟩, rfl⟩, ⟨rfl, rfl⟩, rfl⟩, rfl⟩
    exact ⟨⟨w, x⟩, ⟨h1, h2⟩, rfl, by simp [RawTerm.enc]⟩
  · rintro ⟨x, ⟨h1, h2⟩, rfl, rfl⟩
    exact ⟨x.wire, _, _, ⟨h1, rfl⟩, ⟨_, _, _, ⟨x.coeff, _, _, ⟨rfl, h2⟩, ⟨rfl, rfl⟩, rfl⟩, ⟨rfl, rfl⟩, rfl⟩, by simp [RawTerm.enc]⟩

theorem enc_lc (hh : env.hostBig = false) (hm : 2 ^ 32 ≤ env.maxSize + 1) :
    Enc (readLC env ty) (LCOk ty.sizeF) (List.map (RawTerm.term ty)) encLC := by
  refine (dec_bind (dec_num hh 4) fun n => dec_resize (enc_readN (enc_term hh) n)).congr fun l bs => ?_
  constructor
  · rintro ⟨n, _, _, ⟨h1, rfl⟩, ⟨-, xs, ⟨rfl, h2⟩, rfl, rfl⟩, rfl⟩
    exact ⟨xs, ⟨h1, h2⟩, rfl, rfl⟩
  · rintro ⟨xs, ⟨h1, h2⟩, rfl, rfl⟩
    exact ⟨xs.length, _, _, ⟨h1, rfl⟩, ⟨by omega, xs, ⟨rfl, h2⟩, rfl, rfl⟩, rfl⟩

theorem enc_constraint (hh : env.hostBig = false) (hm : 2 ^ 32 ≤ env.maxSize + 1) :
    Enc (readConstraint env ty) (RawConstraint.Ok ty.sizeF) (RawConstraint.constraint ty) RawConstraint.enc := by
  refine (dec_bind (enc_lc (ty := ty) hh hm) fun a => dec_bind (enc_lc (ty := ty) hh hm) fun b =>
    dec_bind (enc_lc (ty := ty) hh hm) fun c => dec_pure .little (⟨a, b, c⟩ : Circom.Constraint F)).congr fun l bs => ?_
  constructor
  · rintro ⟨_, _, _, ⟨a, h1, rfl, rfl⟩, ⟨_, _, _, ⟨b, h2, rfl, rfl⟩, ⟨_, _, _, ⟨c, h3, rfl, rfl⟩, ⟨rfl, rfl⟩, rfl⟩, rfl⟩, rfl⟩
    exact ⟨⟨a, b, c⟩, ⟨h1, h2, h3⟩, rfl, by simp [RawConstraint.enc]⟩
  · rintro ⟨x, ⟨h1, h2, h3⟩, rfl, rfl⟩
    exact ⟨_, _, _, ⟨x.a, h1, rfl, rfl⟩, ⟨_, _, _, ⟨x.b, h2, rfl, rfl⟩, ⟨_, _, _, ⟨x.c, h3, rfl, rfl⟩, ⟨rfl, rfl⟩, rfl⟩, rfl⟩,
      by simp [RawConstraint.enc]⟩

theorem strict_constraint : Strict (readConstraint env ty) := Strict.bind ((strict_num 4).bind _) _

theorem digits_append_ne {n v : ℕ} (hn : 0 < n) (bs : List Byte) : digits n v ++ bs ≠ [] := fun h => by
  have := congrArg List.length h
  rw [List.length_append, length_digits] at this
  simp only [List.length_nil] at this
  omega

theorem constraint_ne (c : RawConstraint) : c.enc ≠ [] := by
  rw [RawConstraint.enc, encLC, List.append_assoc, List.append_assoc]
  exact digits_append_ne (by omega) _

theorem reads_zkeyHeader (hh : env.hostBig = false) : Reads (readZKeyHeader env) fun _ bs => bs = digits 4 1 := by
  refine Reads.of_dec ((dec_bind (dec_num hh 4) (E := fun n _ bs => n = 1 ∧ bs = []) fun n => ?_).congr
    fun x bs => ?_) ((strict_num 4).bind _) fun x bs h => by
      rw [h]; intro h'; have := congrArg List.length h'; rw [length_digits] at this; simp at this
  · split
    · next h => exact dec_fail.congr fun m bs => ⟨False.elim, fun h' => h h'.1⟩
    · next h => exact (dec_pure .little ()).congr fun m bs =>
        ⟨fun h' => ⟨by omega, h'.2⟩, fun h' => ⟨rfl, h'.2⟩⟩
  · constructor
    · rintro ⟨_, _, _, ⟨-, rfl⟩, ⟨rfl, rfl⟩, rfl⟩; simp
    · rintro rfl; exact ⟨1, _, [], ⟨by norm_num, rfl⟩, ⟨rfl, rfl⟩, by simp⟩

theorem reads_grothHeader (hh : env.hostBig = false) (hm : 2 ^ 32 ≤ env.maxSize + 1) (h1 : ty.sizeG1 < 2 ^ 64)
    (h2 : ty.sizeG2 < 2 ^ 64) :
    Reads (readGrothHeader env ty) fun x bs => ∃ h : RawHeader, h.Ok ty ∧ x = h.header ty ∧ bs = h.enc := by
  refine Reads.of_dec ((dec_bind (dec_modulus hh hm) fun q => dec_bind (dec_modulus hh hm) fun r => dec_bind (dec_num hh 4) fun v =>
    dec_bind (dec_num hh 4) fun p => dec_bind (dec_num hh 4) fun d => dec_bind (dec_one h1) fun a1 => dec_bind (dec_one h1) fun b1 =>
    dec_bind (dec_one h2) fun b2 => dec_bind (dec_one h2) fun g2 => dec_bind (dec_one h1) fun d1 => dec_bind (dec_one h2) fun d2 =>
      dec_pure .little (⟨q, r, v, p, d, ty.g1 a1, ty.g1 b1, ty.g2 b2, ty.g2 g2, ty.g1 d1, ty.g2 d2⟩ : GrothHeader G1 G2)).congr
    fun x bs => ?_) (strict_modulus.bind _) fun x bs ⟨h, _, _, e⟩ => by
      rw [e, RawHeader.enc]; simp only [List.append_assoc]; exact encMod_ne _ _
  constructor
  · rintro ⟨q, _, _, ⟨k1, rfl⟩, ⟨r, _, _, ⟨k2, rfl⟩, ⟨v, _, _, ⟨k3, rfl⟩, ⟨p, _, _, ⟨k4, rfl⟩, ⟨d, _, _, ⟨k5, rfl⟩, ⟨_, a1, _, ⟨k6, rfl⟩,
      ⟨_, b1, _, ⟨k7, rfl⟩, ⟨_, b2, _, ⟨k8, rfl⟩, ⟨_, g2, _, ⟨k9, rfl⟩, ⟨_, d1, _, ⟨k10, rfl⟩, ⟨_, d2, _, ⟨k11, rfl⟩, ⟨rfl, rfl⟩,
      rfl⟩, rfl⟩, rfl⟩, rfl⟩, rfl⟩, rfl⟩, rfl⟩, rfl⟩, rfl⟩, rfl⟩, rfl⟩
    exact ⟨⟨q, r, v, p, d, a1, b1, b2, g2, d1, d2⟩, ⟨k1, k2, k3, k4, k5, k6, k7, k8, k9, k10, k11⟩, rfl, by simp [RawHeader.enc]⟩
  · rintro ⟨h, ⟨k1, k2, k3, k4, k5, k6, k7, k8, k9, k10, k11⟩, rfl, rfl⟩
    exact ⟨h.q, _, _, ⟨k1, rfl⟩, ⟨h.r, _, _, ⟨k2, rfl⟩, ⟨h.numVars, _, _, ⟨k3, rfl⟩, ⟨h.numPublic, _, _, ⟨k4, rfl⟩,
      ⟨h.domainSize, _, _, ⟨k5, rfl⟩, ⟨h.alphaG1, _, _, ⟨k6, rfl⟩, ⟨h.betaG1, _, _, ⟨k7, rfl⟩, ⟨h.betaG2, _, _, ⟨k8, rfl⟩,
      ⟨h.gammaG2, _, _, ⟨k9, rfl⟩, ⟨h.deltaG1, _, _, ⟨k10, rfl⟩, ⟨h.deltaG2, _, _, ⟨k11, rfl⟩, ⟨rfl, rfl⟩,
      rfl⟩, rfl⟩, rfl⟩, rfl⟩, rfl⟩, rfl⟩, rfl⟩, rfl⟩, rfl⟩, rfl⟩, by simp [RawHeader.enc]⟩

theorem coeffOf_enc {c : RawCoeff} (h : RawCoeff.Ok ty.sizeF c) : coeffOf ty c.enc = c.coeff ty := by
  obtain ⟨h1, h2, h3, -⟩ := h
  have e1 : c.enc.take 4 = digits 4 c.matrix := by
    rw [RawCoeff.enc, List.append_assoc, List.append_assoc, List.take_left' (length_digits 4 _)]
  have e2 : (c.enc.drop 4).take 4 = digits 4 c.constraint := by
    rw [RawCoeff.enc, List.append_assoc, List.append_assoc, List.drop_left' (length_digits 4 _), List.take_left' (length_digits 4 _)]
  have e3 : (c.enc.drop 8).take 4 = digits 4 c.signal := by
    rw [RawCoeff.enc, List.append_assoc, List.drop_left' (by simp [length_digits]), List.take_left' (length_digits 4 _)]
  have e4 : c.enc.drop 12 = c.value := by
    rw [RawCoeff.enc, List.drop_left' (by simp [length_digits])]
  rw [coeffOf, e1, e2, e3, e4, ofBytesLE_digits h1, ofBytesLE_digits h2, ofBytesLE_digits h3]; rfl

theorem enc_of_bytes {size : ℕ} {e : List Byte} (h : e.length = 12 + size) : ∃ c : RawCoeff, c.Ok size ∧ c.enc = e := by
  have key : ∀ bs : List Byte, bs.length = 4 → ofBytesLE bs < 2 ^ 32 ∧ digits 4 (ofBytesLE bs) = bs := fun bs hb => by
    have h1 := ofBytesLE_lt bs
    have h2 := bytesLE_ofBytesLE bs
    rw [hb] at h1 h2
    exact ⟨h1, by rw [← bytesLE_eq]; exact h2⟩
  obtain ⟨a1, a2⟩ := key (e.take 4) (by simp; omega)
  obtain ⟨b1, b2⟩ := key ((e.drop 4).take 4) (by simp; omega)
  obtain ⟨c1, c2⟩ := key ((e.drop 8).take 4) (by simp; omega)
  refine ⟨⟨_, _, _, e.drop 12⟩, ⟨a1, b1, c1, by simp; omega⟩, ?_⟩
  rw [RawCoeff.enc, a2, b2, c2, ← List.take_add, ← List.take_add, List.take_append_drop]

theorem reads_coefficients (hh : env.hostBig = false) (hs : 12 + ty.sizeF < 2 ^ 32) :
    Reads (readCoefficients env ty) fun x bs => ∃ cs : List RawCoeff, (cs.length < 2 ^ 32 ∧ ∀ c ∈ cs, c.Ok ty.sizeF) ∧
      x = cs.map (RawCoeff.coeff ty) ∧ bs = digits 4 cs.length ++ cs.flatMap RawCoeff.enc := by
  have hsz : ∀ n, n < 2 ^ 32 → (12 + ty.sizeF) * n < 2 ^ 64 := fun n hn =>
    lt_of_lt_of_le (Nat.mul_lt_mul'' hs hn) (by norm_num)
  have dec : Dec .little (readCoefficients env ty) fun x bs => ∃ n b1 b2, (n < 2 ^ 32 ∧ b1 = digits 4 n) ∧
      (∃ es : List (List Byte), (es.length = n ∧ ∀ e ∈ es, e.length = 12 + ty.sizeF) ∧ x = es.map (coeffOf ty) ∧ b2 = es.flatten) ∧
      bs = b1 ++ b2 := by
    intro b he ho hl a b'
    have hb := dec_bind (dec_num hh 4) (f := fun n => if n < 2 ^ 32 then bindR (readPtr (12 + ty.sizeF) n)
        (fun es => pureR (es.map (coeffOf ty))) else failR) (E := fun n x b2 => n < 2 ^ 32 ∧
        ∃ es : List (List Byte), (es.length = n ∧ ∀ e ∈ es, e.length = 12 + ty.sizeF) ∧ x = es.map (coeffOf ty) ∧ b2 = es.flatten)
      (fun n => by
        split
        · next hn =>
          refine (dec_bind (dec_ptr (hsz n hn)) fun es => dec_pure .little (es.map (coeffOf ty))).congr fun x bs => ?_
          constructor
          · rintro ⟨es, _, _, ⟨h1, rfl⟩, ⟨rfl, rfl⟩, rfl⟩; exact ⟨hn, es, h1, rfl, by simp⟩
          · rintro ⟨-, es, h1, rfl, rfl⟩; exact ⟨es, _, [], ⟨h1, rfl⟩, ⟨rfl, rfl⟩, by simp⟩
        · next hn => exact dec_fail.congr fun x bs => ⟨False.elim, fun h => hn h.1⟩) b he ho hl a b'
    have e : readCoefficients env ty b = bindR (num env 4) (fun n => if n < 2 ^ 32 then bindR (readPtr (12 + ty.sizeF) n)
        (fun es => pureR (es.map (coeffOf ty))) else failR) b := by
      rw [readCoefficients, bindR, bindR]
      split
      · next n b1 h1 =>
        obtain ⟨_, ⟨k, -⟩, -⟩ := (dec_num hh 4 b he ho hl _ _).1 h1
        rw [if_pos (show n < 2 ^ 32 from k)]
      · rfl
      · rfl
    rw [e, hb]
    constructor
    · rintro ⟨bs, ⟨n, b1, b2, h1, ⟨-, h2⟩, h3⟩, h4⟩; exact ⟨bs, ⟨n, b1, b2, h1, h2, h3⟩, h4⟩
    · rintro ⟨bs, ⟨n, b1, b2, h1, h2, h3⟩, h4⟩; exact ⟨bs, ⟨n, b1, b2, h1, ⟨h1.1, h2⟩, h3⟩, h4⟩
  refine Reads.of_dec (dec.congr fun x bs => ?_) ((strict_num 4).bind _) fun x bs ⟨_, _, _, e⟩ => by
    rw [e]; exact digits_append_ne (by omega) _
  constructor
  · rintro ⟨n, _, _, ⟨h1, rfl⟩, ⟨es, ⟨rfl, h2⟩, rfl, rfl⟩, rfl⟩
    obtain ⟨cs, hcs, rfl⟩ : ∃ cs : List RawCoeff, (∀ c ∈ cs, c.Ok ty.sizeF) ∧ cs.map RawCoeff.enc = es := by
      clear h1
      induction es with
      | nil => exact ⟨[], by simp, rfl⟩
      | cons e es ih =>
        obtain ⟨c, k1, k2⟩ := enc_of_bytes (h2 e (by simp))
        obtain ⟨cs, k3, k4⟩ := ih fun x hx => h2 x (by simp [hx])
        exact ⟨c :: cs, by simpa using ⟨k1, k3⟩, by rw [List.map_cons, k2, k4]⟩
    refine ⟨cs, ⟨by simpa using h1, hcs⟩, ?_, by rw [List.length_map, List.flatMap_def]⟩
    rw [List.map_map]
    exact List.map_congr_left fun c hc => coeffOf_enc (hcs c hc)
  · rintro ⟨cs, ⟨h1, h2⟩, rfl, rfl⟩
    refine ⟨cs.length, _, _, ⟨h1, rfl⟩, ⟨cs.map RawCoeff.enc, ⟨by simp, ?_⟩, ?_, rfl⟩, by rw [List.flatMap_def]⟩
    · intro e he
      obtain ⟨c, hc, rfl⟩ := List.mem_map.1 he
      have := (h2 c hc).2.2.2
      simp only [RawCoeff.enc, List.length_append, length_digits, this]
    · rw [List.map_map]
      exact (List.map_congr_left fun c hc => coeffOf_enc (h2 c hc)).symm

/-! Whole files. -/

theorem bindR_assoc {γ : Type} (r : Buf → Option (Option α × Buf)) (g : α → Buf → Option (Option β × Buf))
    (k : β → Buf → Option (Option γ × Buf)) : bindR (bindR r g) k = bindR r fun a => bindR (g a) k := by
  funext b
  rw [bindR, bindR, bindR]
  rcases r b with _ | ⟨_ | a, b'⟩ <;> rfl

theorem bindR_pure (a : α) (k : α → Buf → Option (Option β × Buf)) : bindR (pureR a) k = k a := rfl

/-- What comes before the sections. -/
def readStart (env : Env) : Buf → Option (Option (List ℕ × ℕ) × Buf) :=
  bindR (readN (num env 1) 4) fun m => bindR (num env 4) fun v => pureR (m, v)

theorem dec_start (hh : env.hostBig = false) : Dec .little (readStart env) fun x bs =>
    (x.1.length = 4 ∧ (∀ c ∈ x.1, c < 256) ∧ x.2 < 2 ^ 32) ∧ bs = x.1.flatMap (digits 1) ++ digits 4 x.2 := by
  refine (dec_bind (enc_readN (enc_num hh 1) 4) fun m => dec_bind (dec_num hh 4) fun v => dec_pure .little (m, v)).congr fun x bs => ?_
  constructor
  · rintro ⟨_, _, _, ⟨m, ⟨h1, h2⟩, rfl, rfl⟩, ⟨v, _, _, ⟨h3, rfl⟩, ⟨rfl, rfl⟩, rfl⟩, rfl⟩
    exact ⟨⟨by simpa using h1, by simpa using h2, h3⟩, by simp⟩
  · rintro ⟨⟨h1, h2, h3⟩, rfl⟩
    exact ⟨_, _, _, ⟨x.1, ⟨h1, by simpa using h2⟩, by simp, rfl⟩, ⟨x.2, _, _, ⟨h3, rfl⟩, ⟨rfl, rfl⟩, rfl⟩, by simp⟩

theorem digits_one (c : Byte) : digits 1 c.toNat = [c] := by
  have hc : c.toNat % 256 = c.toNat := Nat.mod_eq_of_lt c.isLt
  simp [digits, List.range_succ, hc]

theorem flatMap_digits (l : List Byte) : (l.map BitVec.toNat).flatMap (digits 1) = l := by
  induction l with
  | nil => rfl
  | cons c l ih => rw [List.map_cons, List.flatMap_cons, ih, digits_one, List.singleton_append]

theorem start_iff (hh : env.hostBig = false) {magic data : List Byte} {version : ℕ} (hm : magic.length = 4)
    (hv : version < 2 ^ 32) (hl : data.length < 2 ^ 64) {x : List ℕ × ℕ} {b : Buf}
    (h : readStart env ⟨data, 0, .little, false⟩ = some (some x, b)) : b = ⟨data, 8, .little, false⟩ ∧
      (magic ++ digits 4 version <+: data ↔ x.1 = magic.map BitVec.toNat ∧ x.2 = version) := by
  obtain ⟨bs, ⟨⟨h1, h2, h3⟩, rfl⟩, hp, rfl⟩ := (dec_start hh ⟨data, 0, .little, false⟩ rfl (Nat.zero_le _) hl _ _).1 h
  have hlen : (x.1.flatMap (digits 1)).length = 4 := by
    rw [List.length_flatMap]
    simp [length_digits, h1]
  rw [List.drop_zero] at hp
  refine ⟨by simp [hlen, length_digits], fun h' => ?_, ?_⟩
  · have e : x.1.flatMap (digits 1) ++ digits 4 x.2 = magic ++ digits 4 version := by
      rw [List.prefix_iff_eq_take.1 hp, List.prefix_iff_eq_take.1 h']
      simp [hlen, length_digits, hm]
    obtain ⟨e1, e2⟩ := List.append_inj e (by rw [hlen, hm])
    refine ⟨?_, digits_inj h3 hv e2⟩
    rw [← e1]
    clear e e1 e2 hp h hlen h1 h3
    generalize x.1 = l at h2
    induction l with
    | nil => rfl
    | cons c l ih =>
      have hc := h2 c (by simp)
      rw [List.flatMap_cons, List.map_append, ← ih fun d hd => h2 d (by simp [hd])]
      simp [digits, List.range_succ, Nat.mod_eq_of_lt hc]
  · rintro ⟨e1, rfl⟩
    rwa [e1, flatMap_digits] at hp

theorem start_total (b : Buf) : ∃ o b', readStart env b = some (o, b') := by
  obtain ⟨a, o, h, -⟩ := (safe_bind (safe_readN (safe_int env 1) 4) fun m _ _ _ =>
    safe_bind (safe_int env 4) fun v _ _ _ => safe_pure (m, v)) b
  exact ⟨a, _, h⟩

theorem parse_iff (hh : env.hostBig = false) {magic data : List Byte} {version : ℕ} (hm : magic.length = 4)
    (hv : version < 2 ^ 32) (hl : data.length < 2 ^ 64) {read : Buf → Option (Option α × Buf)} :
    (∀ a, parse env magic version read data = some (some a) ↔
      magic ++ digits 4 version <+: data ∧ ∃ b', read ⟨data, 8, .little, false⟩ = some (some a, b')) ∧
    (parse env magic version read data = some none ↔ ¬ magic ++ digits 4 version <+: data) := by
  have hp : parse env magic version read data = match readStart env ⟨data, 0, .little, false⟩ with
    | none => none
    | some (none, _) => some none
    | some (some (m, v), b) =>
      if m ≠ magic.map BitVec.toNat then some none
      else if v ≠ version then some none
      else match read b with
        | some (some a, _) => some (some a)
        | _ => none := rfl
  obtain ⟨o, b', h⟩ := start_total (env := env) ⟨data, 0, .little, false⟩
  rw [hp, h]
  cases o with
  | none =>
    have hn : ¬ magic ++ digits 4 version <+: data := fun h' => by
      have := (dec_start hh ⟨data, 0, .little, false⟩ rfl (Nat.zero_le _) hl (magic.map BitVec.toNat, version) _).2
        ⟨_, ⟨⟨by simpa using hm, by simpa using fun c _ => c.isLt, hv⟩, rfl⟩, by rw [flatMap_digits]; exact h', rfl⟩
      rw [h] at this
      simp at this
    simp [hn]
  | some x =>
    obtain ⟨m, v⟩ := x
    obtain ⟨rfl, hi⟩ := start_iff hh hm hv hl h
    simp only
    by_cases h1 : m = magic.map BitVec.toNat
    · by_cases h2 : v = version
      · rw [if_neg (by simpa using h1), if_neg (by simpa using h2)]
        have hpre := hi.2 ⟨h1, h2⟩
        rcases read ⟨data, 8, .little, false⟩ with _ | ⟨_ | a, b⟩ <;> simp [hpre]
      · rw [if_neg (by simpa using h1), if_pos h2]
        have hn : ¬ magic ++ digits 4 version <+: data := fun h' => h2 (hi.1 h').2
        simp [hn]
    · rw [if_pos h1]
      have hn : ¬ magic ++ digits 4 version <+: data := fun h' => h1 (hi.1 h').1
      simp [hn]

theorem parse_sections (hh : env.hostBig = false) (hmx : 2 ^ 32 ≤ env.maxSize + 1) {magic data : List Byte} {version : ℕ}
    (hm : magic.length = 4) (hv : version < 2 ^ 32) (hl : data.length < 2 ^ 64)
    {f : List Section → Buf → Option (Option α × Buf)} {P : List Section → Prop} {x : α}
    (hf : ∀ l off, (∃ b'', f l ⟨data, off, .little, false⟩ = some (some x, b'')) ↔ P l) :
    parse env magic version (bindR (readSections env) f) data = some (some x) ↔ ∃ l, Begins data magic version l ∧ P l := by
  have e : ∀ n : ℕ, magic ++ digits 4 version ++ digits 4 n <+: data ↔
      magic ++ digits 4 version <+: data ∧ digits 4 n <+: data.drop 8 := fun n => by
    have hlen : (magic ++ digits 4 version).length = 8 := by rw [List.length_append, hm, length_digits]
    constructor
    · rintro ⟨t, rfl⟩
      refine ⟨⟨digits 4 n ++ t, by simp⟩, ⟨t, ?_⟩⟩
      rw [List.append_assoc _ (digits 4 n), List.drop_left' hlen]
    · rintro ⟨⟨t, rfl⟩, h⟩
      rw [List.drop_left' hlen] at h
      obtain ⟨t', rfl⟩ := h
      exact ⟨t', by simp⟩
  rw [(parse_iff hh hm hv hl).1]
  simp only [bindR_iff]
  constructor
  · rintro ⟨h1, b'', l, b', h2, h3⟩
    obtain ⟨k1, k2, k3, rfl⟩ := (readSections_iff hh hmx (b := ⟨data, 8, .little, false⟩) rfl hl).1 h2
    exact ⟨l, ⟨k1, (e _).2 ⟨h1, k2⟩, k3⟩, (hf l _).1 ⟨b'', h3⟩⟩
  · rintro ⟨l, ⟨k1, k2, k3⟩, hP⟩
    obtain ⟨h1, h2⟩ := (e _).1 k2
    obtain ⟨b'', hb⟩ := (hf l (walkEnd 12 l)).2 hP
    exact ⟨h1, b'', l, _, (readSections_iff hh hmx (b := ⟨data, 8, .little, false⟩) rfl hl).2 ⟨k1, h2, k3, rfl⟩, hb⟩

theorem pure_ex {x y : α} {data : List Byte} (off : ℕ) :
    (∃ b'', pureR y ⟨data, off, .little, false⟩ = some (some x, b'')) ↔ x = y := by
  simp only [pureR_iff]
  exact ⟨fun ⟨_, h, _⟩ => h, fun h => ⟨_, h, rfl⟩⟩

theorem resize_eq {n : ℕ} (h : n ≤ env.maxSize) (r : Buf → Option (Option α × Buf)) : resize env n r = r := by
  funext b; rw [resize, if_neg (by omega)]

theorem move_points {G : Type} {size n : ℕ} {g : List Byte → G} (hs : size < 2 ^ 32) (hn : n < 2 ^ 32)
    {f : List G → Buf → Option (Option β × Buf)} {P : List G → Prop} {x : β} {data : List Byte}
    (hl : data.length < 2 ^ 64) {l : List Section} {t : ℕ}
    (hf : ∀ a off, (∃ b'', f a ⟨data, off, .little, false⟩ = some (some x, b'')) ↔ P a) (off : ℕ) :
    (∃ b'', bindR (moveTo l t) (fun _ => bindR (readPoints size g n) f) ⟨data, off, .little, false⟩ = some (some x, b'')) ↔
      ∃ ps, HoldsPoints data l t size g n ps ∧ P ps := by
  have e : bindR (readPoints size g n) f = bindR (readPtr size n) fun es => f (es.map g) := by
    rw [readPoints, bindR_assoc]; rfl
  rw [e, move_ptr (lt_of_lt_of_le (Nat.mul_lt_mul'' hs hn) (by norm_num)) hl fun a => hf (a.map g)]
  constructor
  · rintro ⟨es, h1, h2, h3⟩; exact ⟨_, ⟨es, h1, h2, rfl⟩, h3⟩
  · rintro ⟨_, ⟨es, h1, h2, rfl⟩, h3⟩; exact ⟨es, h1, h2, h3⟩

/-! No undefined behaviour. -/

/-- `r` returns, and its results satisfy `Q`. -/
def Tot (r : Buf → Option (Option α × Buf)) (Q : α → Prop) : Prop :=
  ∀ b, ∃ o b', r b = some (o, b') ∧ ∀ a, o = some a → Q a

theorem Tot.bind {r : Buf → Option (Option α × Buf)} {Q : α → Prop} {f : α → Buf → Option (Option β × Buf)} {Q' : β → Prop}
    (hr : Tot r Q) (hf : ∀ a, Q a → Tot (f a) Q') : Tot (bindR r f) Q' := by
  intro b
  obtain ⟨o, b', h, hQ⟩ := hr b
  rw [bindR, h]
  cases o with
  | none => exact ⟨none, b', rfl, by simp⟩
  | some a => exact hf a (hQ a rfl) b'

theorem tot_pure {a : α} {Q : α → Prop} (h : Q a) : Tot (pureR a) Q := fun b => ⟨some a, b, rfl, by
  rintro x ⟨rfl⟩; exact h⟩

theorem tot_fail {Q : α → Prop} : Tot (failR (α := α)) Q := fun b => ⟨none, b, rfl, by simp⟩

theorem tot_num (n : ℕ) : Tot (num env n) (· < 256 ^ n) := fun b => by
  obtain ⟨a, o, h, -⟩ := safe_int env n b
  exact ⟨a, _, h, fun x hx => int_lt (env := env) (n := n) (b := b) (by rw [← hx]; exact h)⟩

theorem tot_bytes (n : ℕ) : Tot (fun b => readBytesAt b b.off n) fun _ => True := fun b => by
  obtain ⟨a, o, h, -⟩ := safe_bytes n b
  exact ⟨a, _, h, fun _ _ => trivial⟩

theorem tot_resize {n : ℕ} (h : n ≤ env.maxSize) {r : Buf → Option (Option α × Buf)} {Q : α → Prop} (hr : Tot r Q) :
    Tot (resize env n r) Q := fun b => by
  rw [resize, if_neg (by omega)]; exact hr b

theorem tot_readN {r : Buf → Option (Option α × Buf)} {Q : α → Prop} (hr : Tot r Q) (n : ℕ) :
    Tot (readN r n) fun _ => True := by
  induction n with
  | zero => exact tot_pure trivial
  | succ n ih => exact hr.bind fun a _ => ih.bind fun l _ => tot_pure trivial

theorem tot_ptr {size n : ℕ} (h : size * n < 2 ^ 64) : Tot (readPtr size n) fun es => es.length = n := fun b => by
  rw [readPtr, readPtrAt, Nat.mod_eq_of_lt h]
  by_cases h1 : 2 ^ 64 ≤ b.off + size * n
  · rw [if_pos h1]; exact ⟨none, b, rfl, by simp⟩
  · rw [if_neg h1]
    by_cases h2 : b.data.length < b.off + size * n
    · rw [if_pos h2]; exact ⟨none, b, rfl, by simp⟩
    · rw [if_neg h2]
      simp only
      rw [if_pos (by omega)]
      exact ⟨_, _, rfl, by rintro a ⟨rfl⟩; simp⟩

theorem tot_one {size : ℕ} (h : size < 2 ^ 64) : Tot (readOne size) fun _ => True :=
  (tot_ptr (n := 1) (by omega)).bind fun l hl => by
    obtain ⟨x, rfl⟩ := List.length_eq_one_iff.1 hl
    exact tot_pure trivial

theorem tot_move (l : List Section) (t : ℕ) : Tot (moveTo l t) fun _ => True := fun b => by
  rw [moveTo]
  split
  · exact ⟨none, b, rfl, by simp⟩
  · exact ⟨_, _, rfl, fun _ _ => trivial⟩

theorem tot_sections (hm : 2 ^ 32 ≤ env.maxSize + 1) : Tot (readSections env) fun _ => True :=
  (tot_num 4).bind fun n hn => tot_resize (by have : n < 2 ^ 32 := hn; omega) (tot_readN (Q := fun _ => True)
    ((tot_num 4).bind fun t _ => (tot_num 8).bind fun s _ => fun b => ⟨_, _, rfl, fun _ _ => trivial⟩) n)

theorem tot_modulus (hm : 2 ^ 32 ≤ env.maxSize + 1) : Tot (readModulus env) fun _ => True :=
  (tot_num 4).bind fun n hn => by
    split
    · exact tot_fail
    · exact tot_resize (by have : n < 2 ^ 32 := hn; omega) (tot_bytes n)

theorem ptr_lt {size n : ℕ} (hs : size < 2 ^ 32) (hn : n < 2 ^ 32) : size * n < 2 ^ 64 :=
  lt_of_lt_of_le (Nat.mul_lt_mul'' hs hn) (by norm_num)

theorem tot_wtns (hm : 2 ^ 32 ≤ env.maxSize + 1) (hs : ty.sizeF < 2 ^ 32) : Tot (readWtns env ty) fun _ => True :=
  (tot_sections hm).bind fun l _ => (tot_move l 1).bind fun _ _ =>
    ((tot_modulus hm).bind (Q' := fun h => h.2 < 2 ^ 32) fun m _ => (tot_num 4).bind fun n hn => tot_pure hn).bind fun h hh =>
      (tot_move l 2).bind fun _ _ => (show Tot (readWtnsData ty h.2) fun _ => True from
        (tot_ptr (n := h.2) (ptr_lt hs hh)).bind fun es _ => tot_pure trivial).bind fun _ _ => tot_pure trivial

theorem tot_lc (hm : 2 ^ 32 ≤ env.maxSize + 1) : Tot (readLC env ty) fun _ => True :=
  (tot_num 4).bind fun n hn => tot_resize (by have : n < 2 ^ 32 := hn; omega) (tot_readN (Q := fun _ => True)
    ((tot_num 4).bind fun w _ => (show Tot (readField ty) fun _ => True from
      (tot_bytes ty.sizeF).bind fun _ _ => tot_pure trivial).bind fun c _ => tot_pure trivial) n)

theorem tot_r1cs (hm : 2 ^ 32 ≤ env.maxSize + 1) : Tot (readR1cs env ty) fun _ => True :=
  (tot_sections hm).bind fun l _ => (tot_move l 1).bind fun _ _ =>
    ((tot_modulus hm).bind (Q' := fun h : R1csHeader => h.numConstraints < 2 ^ 32 ∧ h.numWires < 2 ^ 32) fun m _ =>
      (tot_num 4).bind fun w hw => (tot_num 4).bind fun o _ => (tot_num 4).bind fun i _ => (tot_num 4).bind fun p _ =>
        (tot_num 8).bind fun k _ => (tot_num 4).bind fun c hc => tot_pure ⟨hc, hw⟩).bind fun h hh =>
      (tot_move l 2).bind fun _ _ => (tot_resize (by have := hh.1; omega) (tot_readN (Q := fun _ => True)
        ((tot_lc hm).bind fun a _ => (tot_lc hm).bind fun b _ => (tot_lc hm).bind fun c _ => tot_pure trivial) h.numConstraints)).bind fun cs _ =>
        (tot_move l 3).bind fun _ _ => (tot_resize (by have := hh.2; omega) (tot_readN (tot_num 8) h.numWires)).bind fun _ _ =>
          tot_pure trivial

theorem tot_points {G : Type} {size n : ℕ} {g : List Byte → G} (h : size * n < 2 ^ 64) : Tot (readPoints size g n) fun _ => True :=
  (tot_ptr h).bind fun _ _ => tot_pure trivial

theorem tot_zkey (hm : 2 ^ 32 ≤ env.maxSize + 1) (hs : 12 + ty.sizeF < 2 ^ 32) (h1 : ty.sizeG1 < 2 ^ 32) (h2 : ty.sizeG2 < 2 ^ 32) :
    Tot (readZKey env ty) fun _ => True :=
  have o1 : Tot (readOne ty.sizeG1) fun _ => True := tot_one (by omega)
  have o2 : Tot (readOne ty.sizeG2) fun _ => True := tot_one (by omega)
  (tot_sections hm).bind fun l _ => (tot_move l 1).bind fun _ _ =>
    (show Tot (readZKeyHeader env) fun _ => True from (tot_num 4).bind fun t _ => by
      split
      · exact tot_fail
      · exact tot_pure trivial).bind fun _ _ =>
    (tot_move l 2).bind fun _ _ =>
    (show Tot (readGrothHeader env ty) fun h => h.numVars < 2 ^ 32 ∧ h.domainSize < 2 ^ 32 from
      (tot_modulus hm).bind fun q _ => (tot_modulus hm).bind fun r _ => (tot_num 4).bind fun v hv => (tot_num 4).bind fun p _ =>
        (tot_num 4).bind fun d hd => o1.bind fun _ _ => o1.bind fun _ _ => o2.bind fun _ _ => o2.bind fun _ _ => o1.bind fun _ _ =>
          o2.bind fun _ _ => tot_pure ⟨hv, hd⟩).bind fun h hh =>
    (tot_move l 3).bind fun _ _ => (tot_points (ptr_lt h1 (Nat.mod_lt _ (by norm_num)))).bind fun _ _ =>
    (tot_move l 4).bind fun _ _ => (show Tot (readCoefficients env ty) fun _ => True from (tot_num 4).bind fun n hn =>
      (tot_ptr (ptr_lt hs hn)).bind fun _ _ => tot_pure trivial).bind fun _ _ =>
    (tot_move l 5).bind fun _ _ => (tot_points (ptr_lt h1 hh.1)).bind fun _ _ =>
    (tot_move l 6).bind fun _ _ => (tot_points (ptr_lt h1 hh.1)).bind fun _ _ =>
    (tot_move l 7).bind fun _ _ => (tot_points (ptr_lt h2 hh.1)).bind fun _ _ =>
    (tot_move l 8).bind fun _ _ => (tot_points (ptr_lt h1 (Nat.mod_lt _ (by norm_num)))).bind fun _ _ =>
    (tot_move l 9).bind fun _ _ => (tot_points (ptr_lt h1 hh.2)).bind fun _ _ => tot_pure trivial

/-! Files made of sections. -/

/-- The headers of the sections that stand from the offset on. -/
def secsAt : ℕ → List (ℕ × List Byte) → List Section
  | _, [] => []
  | off, s :: secs => ⟨s.1, off + 12, s.2.length⟩ :: secsAt (off + 12 + s.2.length) secs

theorem length_secsAt (off : ℕ) (secs : List (ℕ × List Byte)) : (secsAt off secs).length = secs.length := by
  induction secs generalizing off with
  | nil => rfl
  | cons s secs ih => rw [secsAt, List.length_cons, ih, List.length_cons]

theorem drop_section {data : List Byte} {off : ℕ} {s : ℕ × List Byte} {rest : List Byte}
    (h : data.drop off = encSection s ++ rest) : digits 4 s.1 ++ digits 8 s.2.length <+: data.drop off ∧
      data.drop (off + 12) = s.2 ++ rest ∧ data.drop (off + 12 + s.2.length) = rest := by
  have h12 : data.drop (off + 12) = s.2 ++ rest := by
    rw [← List.drop_drop, h, encSection, List.append_assoc, List.drop_left' (by simp [length_digits])]
  refine ⟨⟨s.2 ++ rest, by rw [h, encSection]; simp⟩, h12, ?_⟩
  rw [← List.drop_drop, h12, List.drop_left]

theorem walk_secsAt {data : List Byte} : ∀ (secs : List (ℕ × List Byte)) (off : ℕ), data.drop off = secs.flatMap encSection →
    (∀ s ∈ secs, s.1 < 2 ^ 32) → off + (secs.flatMap encSection).length < 2 ^ 64 → Walk data off (secsAt off secs)
  | [], off, _, _, _ => .nil off
  | s :: secs, off, h, ht, hl => by
    rw [List.flatMap_cons] at h hl
    obtain ⟨h1, -, h3⟩ := drop_section h
    have hlen : (encSection s).length = 12 + s.2.length := by simp [encSection, length_digits]; omega
    rw [List.length_append, hlen] at hl
    refine .cons (ht s (by simp)) (by omega) h1 ?_
    rw [Nat.mod_eq_of_lt (by omega)]
    exact walk_secsAt secs _ h3 (fun x hx => ht x (by simp [hx])) (by omega)

theorem find_secsAt {data : List Byte} {t : ℕ} {s : ℕ × List Byte} : ∀ (secs : List (ℕ × List Byte)) (off : ℕ),
    data.drop off = secs.flatMap encSection → secs.find? (fun s => decide (s.1 = t)) = some s →
    ∃ s', (secsAt off secs).find? (fun s => decide (s.type = t)) = some s' ∧ s.2 <+: data.drop s'.start ∧ s'.start ≤ data.length
  | [], _, _, h => by simp at h
  | s0 :: secs, off, h, hf => by
    rw [List.flatMap_cons] at h
    obtain ⟨-, h2, h3⟩ := drop_section h
    by_cases ht : s0.1 = t
    · rw [List.find?_cons_of_pos (by simpa using ht)] at hf
      obtain rfl := Option.some.inj hf
      refine ⟨_, by rw [secsAt, List.find?_cons_of_pos (by simpa using ht)], ⟨_, h2.symm⟩, ?_⟩
      have := congrArg List.length h
      simp only [List.length_drop, List.length_append, encSection, length_digits] at this
      show off + 12 ≤ _
      omega
    · rw [List.find?_cons_of_neg (by simpa using ht)] at hf
      obtain ⟨s', k1, k2⟩ := find_secsAt secs _ h3 hf
      exact ⟨s', by rw [secsAt, List.find?_cons_of_neg (by simpa using ht), k1], k2⟩

end Tachyon.CircomFile
