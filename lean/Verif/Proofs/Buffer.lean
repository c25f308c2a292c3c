import Verif.Spec.Buffer
import Mathlib.Tactic.Ring
import Mathlib.Data.List.Basic
/-! Lemmas on buffers. -/
namespace Tachyon.Buffer

theorem length_bytesLE (n v : ℕ) : (bytesLE n v).length = n := by
  induction n generalizing v with
  | zero => rfl
  | succ n ih => rw [bytesLE, List.length_cons, ih]

theorem bytesLE_eq (n v : ℕ) : bytesLE n v = digits n v := by
  induction n generalizing v with
  | zero => rfl
  | succ n ih =>
    rw [bytesLE, ih, digits, digits, List.range_succ_eq_map, List.map_cons, List.map_map]
    congr 1
    · apply BitVec.eq_of_toNat_eq; simp
    · refine List.map_congr_left fun i _ => ?_
      simp only [Function.comp_apply, Nat.succ_eq_add_one]
      rw [Nat.div_div_eq_div_mul, pow_succ']

theorem ofBytesLE_bytesLE (n v : ℕ) (h : v < 256 ^ n) : ofBytesLE (bytesLE n v) = v := by
  induction n generalizing v with
  | zero => simp at h; subst h; rfl
  | succ n ih =>
    rw [bytesLE, ofBytesLE, ih _ (by rw [pow_succ] at h; omega), BitVec.toNat_ofNat]
    omega

theorem ofBytesLE_lt (bs : List Byte) : ofBytesLE bs < 256 ^ bs.length := by
  induction bs with
  | nil => simp [ofBytesLE]
  | cons b bs ih =>
    rw [ofBytesLE, List.length_cons, pow_succ]
    have := b.isLt
    omega

theorem bytesLE_ofBytesLE (bs : List Byte) : bytesLE bs.length (ofBytesLE bs) = bs := by
  induction bs with
  | nil => rfl
  | cons b bs ih =>
    rw [ofBytesLE, List.length_cons, bytesLE]
    have h := b.isLt
    congr 1
    · apply BitVec.eq_of_toNat_eq
      rw [BitVec.toNat_ofNat]
      omega
    · rw [show (b.toNat + 256 * ofBytesLE bs) / 256 = ofBytesLE bs by omega, ih]

theorem sized_iff (n : ℕ) : sized n = true ↔ n = 2 ∨ n = 4 ∨ n = 8 := by
  simp [sized, or_assoc]

theorem length_encInt (env : Env) (e : Endian) (n v : ℕ) : (encInt env e n v).length = n := by
  unfold encInt digits; split <;> simp

/-- The bytes written for an integer. -/
theorem writeIntAt_eq (env : Env) (b : Buf) (off n v : ℕ) :
    writeIntAt env b off n v = writeBytesAt env b off (encInt env b.endian n v) := by
  unfold writeIntAt encInt highFirst memory
  simp only [bytesLE_eq]
  by_cases hs : n = 2 ∨ n = 4 ∨ n = 8
  · rw [if_pos ((sized_iff n).2 hs)]
    cases b.endian <;> simp [hs, apply_ite (writeBytesAt env b off)]
  · rw [if_neg (fun h => hs ((sized_iff n).1 h))]
    cases b.endian <;> simp [hs, apply_ite (writeBytesAt env b off)]

/-- The number read from bytes. -/
def decInt (env : Env) (e : Endian) (n : ℕ) (bs : List Byte) : ℕ :=
  if highFirst env e n then ofBytesLE bs.reverse else ofBytesLE bs

theorem readIntAt_eq (env : Env) (b : Buf) (off n : ℕ) :
    readIntAt env b off n = (readBytesAt b off n).map fun r => (r.1.map (decInt env b.endian n), r.2) := by
  unfold readIntAt
  congr 1
  funext r
  congr 2
  funext bs
  unfold decInt highFirst ofMemory
  by_cases hs : n = 2 ∨ n = 4 ∨ n = 8
  · rw [if_pos ((sized_iff n).2 hs), if_pos ((sized_iff n).2 hs)]
    cases b.endian <;> simp [hs]
  · rw [if_neg (fun h => hs ((sized_iff n).1 h)), if_neg (fun h => hs ((sized_iff n).1 h))]
    cases b.endian <;> simp [hs]

theorem decInt_iff (env : Env) (e : Endian) (n v : ℕ) (bs : List Byte) :
    bs.length = n ∧ v = decInt env e n bs ↔ v < 256 ^ n ∧ bs = encInt env e n v := by
  unfold decInt encInt
  constructor
  · rintro ⟨hn, hv⟩
    subst hn
    split at hv
    · rename_i h
      subst hv
      refine ⟨by simpa using ofBytesLE_lt bs.reverse, ?_⟩
      rw [if_pos h, ← bytesLE_eq]
      have := bytesLE_ofBytesLE bs.reverse
      rw [List.length_reverse] at this
      rw [this, List.reverse_reverse]
    · rename_i h
      subst hv
      refine ⟨ofBytesLE_lt bs, ?_⟩
      rw [if_neg h, ← bytesLE_eq, bytesLE_ofBytesLE]
  · rintro ⟨hv, hb⟩
    split at hb
    · rename_i h
      subst hb
      refine ⟨by simp [digits], ?_⟩
      rw [if_pos h, List.reverse_reverse, ← bytesLE_eq, ofBytesLE_bytesLE n v hv]
    · rename_i h
      subst hb
      refine ⟨by simp [digits], ?_⟩
      rw [if_neg h, ← bytesLE_eq, ofBytesLE_bytesLE n v hv]

/-! Writing. -/

theorem length_overlay (d : List Byte) (off : ℕ) (bs : List Byte) (h : off ≤ d.length) :
    (overlay d off bs).length = max d.length (off + bs.length) := by
  simp only [overlay, List.length_append, List.length_take, List.length_drop]
  omega

theorem overlay_nil (d : List Byte) (off : ℕ) : overlay d off [] = d := by simp [overlay]

theorem overlay_append (d : List Byte) (off : ℕ) (b1 b2 : List Byte) (h : off ≤ d.length) :
    overlay (overlay d off b1) (off + b1.length) b2 = overlay d off (b1 ++ b2) := by
  unfold overlay
  have h1 : (d.take off ++ b1).length = off + b1.length := by simp [h]
  rw [List.take_left' h1]
  have h2 : off + b1.length + b2.length = (d.take off ++ b1).length + b2.length := by rw [h1]
  rw [h2, List.drop_append, List.drop_eq_nil_of_le (by omega), List.nil_append, Nat.add_sub_cancel_left,
    List.drop_drop, List.length_append]
  simp [Nat.add_assoc]

/-- `w` writes the bytes `bs`. -/
def Emits (env : Env) (e : Endian) (w : Buf → Option (Bool × Buf)) (bs : List Byte) : Prop :=
  ∀ b : Buf, b.endian = e → b.off ≤ b.data.length → b.data.length < 2 ^ 64 →
    ((b.off + bs.length ≤ b.data.length ∨ (b.growable = true ∧ b.off + bs.length ≤ env.maxSize)) →
      w b = some (true, { b with data := overlay b.data b.off bs, off := b.off + bs.length })) ∧
    (b.growable = false → b.data.length < b.off + bs.length →
      ∃ k, k ≤ bs.length ∧ b.off + k ≤ b.data.length ∧
        w b = some (false, { b with data := overlay b.data b.off (bs.take k), off := b.off + k }))

theorem emits_bytes {env : Env} {e : Endian} (hm : env.maxSize < 2 ^ 64) (bs : List Byte) :
    Emits env e (fun b => writeBytesAt env b b.off bs) bs := by
  intro b he ho hl
  refine ⟨fun h => ?_, fun hg h => ⟨0, by omega, by omega, ?_⟩⟩
  · have h64 : ¬ 2 ^ 64 ≤ b.off + bs.length := by omega
    by_cases hf : b.off + bs.length ≤ b.data.length
    · simp only [writeBytesAt, if_neg h64, if_neg (Nat.not_lt.2 hf), put, if_pos hf, Option.map_some, overlay]
    · obtain ⟨hg, hx⟩ := h.resolve_left hf
      have hlen : (b.data.take (b.off + bs.length) ++ List.replicate (b.off + bs.length - b.data.length) (0 : Byte)).length
          = b.off + bs.length := by simp; omega
      simp only [writeBytesAt, if_neg h64, if_pos (Nat.lt_of_not_le hf), grow, hg, if_true, if_neg (Nat.not_lt.2 hx), put,
        hlen, le_refl, Option.map_some, overlay]
      congr 3
      rw [List.take_append_of_le_length (by simp; omega), List.take_take, Nat.min_eq_left (by omega),
        List.drop_eq_nil_of_le (by omega), List.drop_eq_nil_of_le (by omega)]
  · have : overlay b.data b.off (bs.take 0) = b.data := by rw [List.take_zero, overlay_nil]
    rw [this]
    show writeBytesAt env b b.off bs = _
    unfold writeBytesAt
    by_cases h64 : 2 ^ 64 ≤ b.off + bs.length
    · rw [if_pos h64]; rfl
    · rw [if_neg h64, if_pos h]
      cases b
      simp_all [grow]

theorem emits_nil {env : Env} {e : Endian} : Emits env e (fun b => some (true, b)) [] := by
  intro b _ _ _
  refine ⟨fun _ => by rw [overlay_nil]; rfl, fun _ h => ?_⟩
  simp at h
  omega

theorem emits_andThen {env : Env} {e : Endian} (hm : env.maxSize < 2 ^ 64) {w1 w2 : Buf → Option (Bool × Buf)}
    {b1 b2 : List Byte} (h1 : Emits env e w1 b1) (h2 : Emits env e w2 b2) :
    Emits env e (andThen w1 w2) (b1 ++ b2) := by
  intro b he ho hl
  obtain ⟨s1, f1⟩ := h1 b he ho hl
  have step : (b.off + b1.length ≤ b.data.length ∨ (b.growable = true ∧ b.off + b1.length ≤ env.maxSize)) →
      (overlay b.data b.off b1).length < 2 ^ 64 ∧ b.off + b1.length ≤ (overlay b.data b.off b1).length := by
    intro h
    rw [length_overlay _ _ _ ho]
    omega
  rw [List.length_append]
  refine ⟨fun h => ?_, fun hg h => ?_⟩
  · have h' : b.off + b1.length ≤ b.data.length ∨ (b.growable = true ∧ b.off + b1.length ≤ env.maxSize) := by
      rcases h with h | ⟨hg, h⟩
      · left; omega
      · right; exact ⟨hg, by omega⟩
    obtain ⟨hl', ho'⟩ := step h'
    rw [andThen, s1 h']
    show w2 _ = _
    rw [(h2 { b with data := overlay b.data b.off b1, off := b.off + b1.length } he ho' hl').1 ?_]
    · simp only [overlay_append _ _ _ _ ho, Nat.add_assoc]
    · show b.off + b1.length + b2.length ≤ _ ∨ _
      rw [length_overlay _ _ _ ho]
      rcases h with h | ⟨hg, h⟩
      · left; omega
      · right; exact ⟨hg, by show b.off + b1.length + b2.length ≤ _; omega⟩
  · by_cases hf : b.off + b1.length ≤ b.data.length
    · obtain ⟨hl', ho'⟩ := step (.inl hf)
      have hlen : (overlay b.data b.off b1).length = b.data.length := by rw [length_overlay _ _ _ ho]; omega
      obtain ⟨k, hk, hk', he2⟩ := (h2 { b with data := overlay b.data b.off b1, off := b.off + b1.length } he ho' hl').2 hg
        (by show (overlay b.data b.off b1).length < b.off + b1.length + b2.length; omega)
      refine ⟨b1.length + k, by omega, ?_, ?_⟩
      · have : b.off + b1.length + k ≤ (overlay b.data b.off b1).length := hk'
        omega
      · rw [andThen, s1 (.inl hf)]
        show w2 _ = _
        rw [he2]
        simp only [overlay_append _ _ _ _ ho, Nat.add_assoc]
        rw [List.take_length_add_append]
    · obtain ⟨k, hk, hk', he1⟩ := f1 hg (by omega)
      refine ⟨k, by omega, hk', ?_⟩
      rw [andThen, he1, List.take_append_of_le_length hk]

theorem emits_list {env : Env} {e : Endian} (hm : env.maxSize < 2 ^ 64) {α : Type} (w : α → Buf → Option (Bool × Buf))
    (f : α → List Byte) (l : List α) (h : ∀ a ∈ l, Emits env e (w a) (f a)) :
    Emits env e (writeList w l) (l.flatMap f) := by
  induction l with
  | nil => exact emits_nil
  | cons a l ih =>
    rw [List.flatMap_cons]
    have := emits_andThen hm (h a (by simp)) (ih fun x hx => h x (by simp [hx]))
    exact this

theorem emits_congr {env : Env} {e : Endian} {w w' : Buf → Option (Bool × Buf)} {bs : List Byte}
    (h : ∀ b, b.endian = e → w b = w' b) (hw : Emits env e w' bs) : Emits env e w bs := by
  intro b he ho hl
  rw [h b he]
  exact hw b he ho hl

theorem emits_int {env : Env} {e : Endian} (hm : env.maxSize < 2 ^ 64) (n v : ℕ) :
    Emits env e (fun b => writeIntAt env b b.off n v) (encInt env e n v) :=
  emits_congr (fun b he => by rw [writeIntAt_eq, he]) (emits_bytes hm _)

theorem memory_one (env : Env) (c : ℕ) : memory env 1 c = [BitVec.ofNat 8 c] := by
  simp [memory, bytesLE]

theorem flatMap_memory_one (env : Env) (cs : List ℕ) : cs.flatMap (memory env 1) = cs.map (BitVec.ofNat 8) := by
  induction cs with
  | nil => rfl
  | cons c cs ih => rw [List.flatMap_cons, ih, memory_one]; rfl

theorem take_str (env : Env) (v : List ℕ) : (v.flatMap (memory env 1)).take v.length = v.map (BitVec.ofNat 8) := by
  rw [flatMap_memory_one]
  exact List.take_of_length_le (by simp)

theorem writeFloatAt_native (env : Env) (b : Buf) (off : ℕ) (k : FloatKind) (v : ℕ) (h : b.endian = .native) :
    writeFloatAt env b off k v = writeBytesAt env b off (memory env k.size v) := by
  unfold writeFloatAt; rw [h]

theorem writeIntAt_native (env : Env) (b : Buf) (off n v : ℕ) (h : b.endian = .native) :
    writeIntAt env b off n v = writeBytesAt env b off (memory env n v) := by
  unfold writeIntAt; rw [h]; simp

theorem emits_write {env : Env} {e : Endian} (hm : env.maxSize < 2 ^ 64) :
    ∀ (t : Ty) (v : t.Val), t.Plain e → Emits env e (write env t v) (enc env e t v)
  | .int n, v, _ => emits_int hm n v
  | .float k, v, h => by
    obtain ⟨rfl, hk⟩ := h
    refine emits_congr (fun b he => ?_) (emits_int hm k.size v)
    show writeFloatAt env b b.off k v = writeIntAt env b b.off k.size v
    exact (writeFloatAt_native _ _ _ _ _ he).trans (writeIntAt_native _ _ _ _ _ he).symm
  | .str w, v, h => by
    have h : w = 1 := h
    subst h
    refine emits_congr (fun b _ => ?_) (emits_andThen hm (emits_int hm 8 (List.length v))
      (emits_bytes hm (List.map (BitVec.ofNat 8) v)))
    show writeStr env 1 v b = _
    unfold writeStr
    rw [take_str env v]
  | .vec t, v, h => emits_andThen hm (emits_int hm 8 (List.length v))
      (emits_list hm (write env t) (enc env e t) v fun a _ => emits_write hm t a h)
  | .arr n t, v, h => emits_list hm (write env t) (enc env e t) v fun a _ => emits_write hm t a h
  | .pair s t, v, h => emits_andThen hm (emits_write hm s v.1 h.1) (emits_write hm t v.2 h.2)

/-! Reading. -/

/-- `r` reads exactly the byte strings that `D` relates to a value. -/
def Dec {α : Type} (e : Endian) (r : Buf → Option (Option α × Buf)) (D : α → List Byte → Prop) : Prop :=
  ∀ b : Buf, b.endian = e → b.off ≤ b.data.length → b.data.length < 2 ^ 64 → ∀ a b',
    r b = some (some a, b') ↔ ∃ bs, D a bs ∧ bs <+: b.data.drop b.off ∧ b' = { b with off := b.off + bs.length }

theorem Dec.congr {α : Type} {e : Endian} {r : Buf → Option (Option α × Buf)} {D D' : α → List Byte → Prop}
    (h : ∀ a bs, D a bs ↔ D' a bs) (hr : Dec e r D) : Dec e r D' := by
  have : D = D' := by funext a bs; exact propext (h a bs)
  rwa [← this]

theorem dec_bytes (e : Endian) (size : ℕ) :
    Dec e (fun b => readBytesAt b b.off size) (fun a bs => bs = a ∧ bs.length = size) := by
  intro b _ ho hl a b'
  simp only [readBytesAt, get]
  by_cases hf : b.off + size ≤ b.data.length
  · rw [if_neg (by omega), if_neg (by omega), if_pos hf, Option.map_some]
    have hlen : ((b.data.drop b.off).take size).length = size := by simp; omega
    constructor
    · intro h
      simp only [Option.some.injEq, Prod.mk.injEq] at h
      obtain ⟨rfl, rfl⟩ := h
      exact ⟨_, ⟨rfl, hlen⟩, List.take_prefix _ _, by rw [hlen]⟩
    · rintro ⟨bs, ⟨rfl, hs⟩, hp, rfl⟩
      rw [List.prefix_iff_eq_take.1 hp, hs, hlen]
  · constructor
    · intro h
      split at h
      · simp at h
      · rw [if_pos (by omega)] at h; simp at h
    · rintro ⟨bs, ⟨rfl, hs⟩, hp, rfl⟩
      have := hp.length_le
      simp at this
      omega

theorem dec_int (env : Env) (e : Endian) (n : ℕ) :
    Dec e (fun b => readIntAt env b b.off n) (fun v bs => v < 256 ^ n ∧ bs = encInt env e n v) := by
  intro b he ho hl a b'
  subst he
  have hb := dec_bytes b.endian n b rfl ho hl
  show readIntAt env b b.off n = _ ↔ _
  rw [readIntAt_eq]
  simp only [Option.map_eq_some_iff, Prod.mk.injEq, Prod.exists]
  constructor
  · rintro ⟨x, y, hx, hv, rfl⟩
    obtain ⟨bs, rfl, rfl⟩ := hv
    obtain ⟨_, ⟨rfl, hs⟩, hp, hy⟩ := (hb _ _).1 hx
    exact ⟨_, (decInt_iff env b.endian n _ _).1 ⟨hs, rfl⟩, hp, hy⟩
  · rintro ⟨bs, hD, hp, hy⟩
    obtain ⟨hs, hv⟩ := (decInt_iff env b.endian n _ _).2 hD
    exact ⟨some bs, b', (hb _ _).2 ⟨bs, ⟨rfl, hs⟩, hp, hy⟩, ⟨bs, rfl, hv.symm⟩, rfl⟩

theorem dec_pure {α : Type} (e : Endian) (a : α) : Dec e (pureR a) (fun x bs => x = a ∧ bs = []) := by
  intro b _ _ _ x b'
  simp only [pureR, Option.some.injEq, Prod.mk.injEq]
  constructor
  · rintro ⟨rfl, rfl⟩
    exact ⟨[], ⟨rfl, rfl⟩, List.nil_prefix, rfl⟩
  · rintro ⟨bs, ⟨rfl, rfl⟩, -, rfl⟩
    exact ⟨rfl, rfl⟩

theorem dec_bind {α β : Type} {e : Endian} {r : Buf → Option (Option α × Buf)} {D : α → List Byte → Prop}
    {f : α → Buf → Option (Option β × Buf)} {E : α → β → List Byte → Prop} (hr : Dec e r D) (hf : ∀ a, Dec e (f a) (E a)) :
    Dec e (bindR r f) (fun c bs => ∃ a b1 b2, D a b1 ∧ E a c b2 ∧ bs = b1 ++ b2) := by
  intro b he ho hl c b'
  constructor
  · intro h
    unfold bindR at h
    split at h
    · rename_i a b1 hrb
      obtain ⟨bs, hD, hp, rfl⟩ := (hr b he ho hl _ _).1 hrb
      have hle := hp.length_le
      rw [List.length_drop] at hle
      obtain ⟨bs2, hE, hp2, rfl⟩ := (hf a { b with off := b.off + bs.length } he
        (by show b.off + bs.length ≤ b.data.length; omega) hl _ _).1 h
      refine ⟨bs ++ bs2, ⟨a, bs, bs2, hD, hE, rfl⟩, ?_, by simp [Nat.add_assoc]⟩
      obtain ⟨t, ht⟩ := hp
      obtain ⟨t2, ht2⟩ := hp2
      have : t = bs2 ++ t2 := by
        rw [ht2]
        show t = b.data.drop (b.off + bs.length)
        rw [← List.drop_drop, ← ht, List.drop_left]
      exact ⟨t2, by rw [← ht, this, List.append_assoc]⟩
    · simp at h
    · simp at h
  · rintro ⟨bs, ⟨a, b1, b2, hD, hE, rfl⟩, hp, rfl⟩
    obtain ⟨t, ht⟩ := hp
    have hle : (b1 ++ b2).length ≤ (b.data.drop b.off).length := by rw [← ht]; simp
    rw [List.length_drop, List.length_append] at hle
    have h1 := (hr b he ho hl a { b with off := b.off + b1.length }).2
      ⟨b1, hD, ⟨b2 ++ t, by rw [← ht, List.append_assoc]⟩, rfl⟩
    rw [bindR, h1]
    refine (hf a { b with off := b.off + b1.length } he (by show b.off + b1.length ≤ b.data.length; omega) hl _ _).2
      ⟨b2, hE, ⟨t, ?_⟩, by simp [Nat.add_assoc]⟩
    show b2 ++ t = b.data.drop (b.off + b1.length)
    rw [← List.drop_drop, ← ht, List.append_assoc, List.drop_left]

theorem dec_resize {α : Type} {env : Env} {e : Endian} {size : ℕ} {r : Buf → Option (Option α × Buf)}
    {D : α → List Byte → Prop} (hr : Dec e r D) : Dec e (resize env size r) (fun a bs => size ≤ env.maxSize ∧ D a bs) := by
  intro b he ho hl a b'
  unfold resize
  by_cases h : env.maxSize < size
  · rw [if_pos h]
    constructor
    · intro h'; simp at h'
    · rintro ⟨bs, ⟨h', -⟩, -⟩; omega
  · rw [if_neg h, hr b he ho hl]
    constructor
    · rintro ⟨bs, hD, hp⟩; exact ⟨bs, ⟨by omega, hD⟩, hp⟩
    · rintro ⟨bs, ⟨-, hD⟩, hp⟩; exact ⟨bs, hD, hp⟩

theorem dec_readN {α : Type} {e : Endian} {r : Buf → Option (Option α × Buf)} {W : α → Prop} {f : α → List Byte}
    (hr : Dec e r (fun a bs => W a ∧ bs = f a)) (n : ℕ) :
    Dec e (readN r n) (fun l bs => (l.length = n ∧ ∀ x ∈ l, W x) ∧ bs = l.flatMap f) := by
  induction n with
  | zero =>
    refine (dec_pure e []).congr fun l bs => ?_
    constructor
    · rintro ⟨rfl, rfl⟩; simp
    · rintro ⟨⟨h, -⟩, rfl⟩
      have := List.eq_nil_of_length_eq_zero h
      subst this; simp
  | succ n ih =>
    refine (dec_bind hr fun a => dec_bind ih fun l => dec_pure e (a :: l)).congr fun l bs => ?_
    constructor
    · rintro ⟨a, b1, b2, ⟨hW, rfl⟩, ⟨l', b3, b4, ⟨⟨hn, hl⟩, rfl⟩, ⟨rfl, rfl⟩, rfl⟩, rfl⟩
      refine ⟨⟨by simp [hn], ?_⟩, by simp⟩
      intro x hx
      rcases List.mem_cons.1 hx with rfl | hx
      · exact hW
      · exact hl x hx
    · rintro ⟨⟨hn, hl⟩, rfl⟩
      cases l with
      | nil => simp at hn
      | cons a l =>
        exact ⟨a, f a, l.flatMap f, ⟨hl a (by simp), rfl⟩, ⟨l, l.flatMap f, [], ⟨⟨by simpa using hn,
          fun x hx => hl x (by simp [hx])⟩, rfl⟩, ⟨rfl, rfl⟩, by simp⟩, by simp⟩

theorem ofMemory_single (env : Env) (b : Byte) : ofMemory env [b] = b.toNat := by
  simp [ofMemory, ofBytesLE]

theorem chars_one (env : Env) (bs : List Byte) : chars env 1 bs.length bs = bs.map BitVec.toNat := by
  unfold chars
  apply List.ext_getElem
  · simp
  · intro i h1 h2
    have hi : i < bs.length := by simpa using h1
    simp only [List.getElem_map, List.getElem_range, one_mul]
    rw [List.drop_eq_getElem_cons hi, List.take_succ_cons, List.take_zero, ofMemory_single]

theorem dec_read {env : Env} {e : Endian} (hm : env.maxSize < 2 ^ 64) :
    ∀ t : Ty, t.Plain e → Dec e (read env t) (fun v bs => t.Wf env v ∧ bs = enc env e t v)
  | .int n, _ => dec_int env e n
  | .float k, _ => dec_int env e k.size
  | .str w, h => by
    have h : w = 1 := h
    subst h
    show Dec e (readStr env 1) _
    refine (dec_bind (dec_int env e 8) fun size => dec_resize (dec_bind (dec_bytes e size) fun bs => dec_pure e _)).congr
      fun v bs => ?_
    constructor
    · rintro ⟨size, b1, b2, ⟨hs, rfl⟩, ⟨hmax, l, b3, b4, ⟨rfl, hl⟩, ⟨rfl, rfl⟩, rfl⟩, rfl⟩
      subst hl
      rw [one_mul, Nat.sub_self, List.replicate_zero, List.append_nil, chars_one]
      refine ⟨⟨by rw [List.length_map]; exact hmax, ?_⟩, ?_⟩
      · intro c hc
        obtain ⟨x, -, rfl⟩ := List.mem_map.1 hc
        simpa using x.isLt
      · show _ = encInt env e 8 (List.length (List.map BitVec.toNat b3)) ++ List.map (BitVec.ofNat 8) (List.map BitVec.toNat b3)
        rw [List.length_map, List.map_map]
        congr 1
        conv_lhs => rw [← List.map_id b3]
        refine List.map_congr_left fun x _ => ?_
        simp
    · rintro ⟨⟨hmax, hc⟩, rfl⟩
      have hc : ∀ c ∈ (show List ℕ from v), c < 256 ^ 1 := hc
      refine ⟨List.length v, encInt env e 8 (List.length v), List.map (BitVec.ofNat 8) v, ⟨by
        have : (256 : ℕ) ^ 8 = 2 ^ 64 := by norm_num
        omega, rfl⟩, ⟨hmax, List.map (BitVec.ofNat 8) v, List.map (BitVec.ofNat 8) v, [], ⟨rfl, by simp⟩, ⟨?_, rfl⟩, by simp⟩, rfl⟩
      rw [one_mul, Nat.sub_self, List.replicate_zero, List.append_nil]
      have := chars_one env (List.map (BitVec.ofNat 8) v)
      rw [List.length_map] at this
      rw [this, List.map_map]
      conv_lhs => rw [← List.map_id v]
      refine List.map_congr_left fun x hx => ?_
      have := hc x hx
      simp only [id, Function.comp_apply, BitVec.toNat_ofNat]
      omega
  | .vec t, h => by
    refine (dec_bind (dec_int env e 8) fun size => dec_resize (dec_readN (dec_read hm t h) size)).congr fun v bs => ?_
    constructor
    · rintro ⟨size, b1, b2, ⟨hs, rfl⟩, ⟨hmax, ⟨rfl, hW⟩, rfl⟩, rfl⟩
      exact ⟨⟨hmax, hW⟩, rfl⟩
    · rintro ⟨⟨hmax, hW⟩, rfl⟩
      refine ⟨List.length v, _, _, ⟨?_, rfl⟩, ⟨hmax, ⟨rfl, hW⟩, rfl⟩, rfl⟩
      have : (256 : ℕ) ^ 8 = 2 ^ 64 := by norm_num
      omega
  | .arr n t, h => dec_readN (dec_read hm t h) n
  | .pair s t, h => by
    refine (dec_bind (dec_read hm s h.1) fun a => dec_bind (dec_read hm t h.2) fun b => dec_pure e (a, b)).congr
      fun v bs => ?_
    constructor
    · rintro ⟨a, b1, b2, ⟨h1, rfl⟩, ⟨b, b3, b4, ⟨h2, rfl⟩, ⟨rfl, rfl⟩, rfl⟩, rfl⟩
      exact ⟨⟨h1, h2⟩, by simp [enc]⟩
    · rintro ⟨⟨h1, h2⟩, rfl⟩
      exact ⟨v.1, _, _, ⟨h1, rfl⟩, ⟨v.2, _, [], ⟨h2, rfl⟩, ⟨rfl, rfl⟩, rfl⟩, by simp [enc]⟩

/-! No access outside the buffer, for all types, offsets and contents. -/

/-- `r` ends with a result, changes nothing but the offset, and leaves it inside the buffer if it moves it. -/
def SafeR {α : Type} (r : Buf → Option (Option α × Buf)) : Prop :=
  ∀ b : Buf, ∃ a o, r b = some (a, { b with off := o }) ∧ (o = b.off ∨ o ≤ b.data.length)

theorem safe_bytes (size : ℕ) : SafeR (fun b => readBytesAt b b.off size) := by
  intro b
  simp only [readBytesAt, get]
  split
  · exact ⟨none, b.off, rfl, .inl rfl⟩
  · split
    · exact ⟨none, b.off, rfl, .inl rfl⟩
    · rename_i h
      rw [if_pos (by omega)]
      exact ⟨_, _, rfl, .inr (by omega)⟩

theorem safe_int (env : Env) (n : ℕ) : SafeR (fun b => readIntAt env b b.off n) := by
  intro b
  obtain ⟨a, o, h, ho⟩ := safe_bytes n b
  have h : readBytesAt b b.off n = _ := h
  exact ⟨a.map (decInt env b.endian n), o, by
    show readIntAt env b b.off n = _
    rw [readIntAt_eq, h]; rfl, ho⟩

theorem safe_pure {α : Type} (a : α) : SafeR (pureR a) := fun b => ⟨some a, b.off, rfl, .inl rfl⟩

theorem safe_bind {α β : Type} {r : Buf → Option (Option α × Buf)} {f : α → Buf → Option (Option β × Buf)} (hr : SafeR r)
    (hf : ∀ a b b', r b = some (some a, b') → SafeR (f a)) : SafeR (bindR r f) := by
  intro b
  obtain ⟨a, o, h, ho⟩ := hr b
  cases a with
  | none => exact ⟨none, o, by rw [bindR, h], ho⟩
  | some a =>
    obtain ⟨c, o', h', ho'⟩ := hf a _ _ h { b with off := o }
    refine ⟨c, o', by rw [bindR, h]; exact h', ?_⟩
    rcases ho' with h2 | h2
    · have h2 : o' = o := h2
      rw [h2]; exact ho
    · exact .inr h2

theorem safe_readN {α : Type} {r : Buf → Option (Option α × Buf)} (hr : SafeR r) (n : ℕ) : SafeR (readN r n) := by
  induction n with
  | zero => exact safe_pure []
  | succ n ih => exact safe_bind hr fun a _ _ _ => safe_bind ih fun l _ _ _ => safe_pure _

theorem safe_resize {α : Type} {env : Env} {size : ℕ} {r : Buf → Option (Option α × Buf)} (h : size ≤ env.maxSize)
    (hr : SafeR r) : SafeR (resize env size r) := by
  intro b
  rw [resize, if_neg (by omega)]
  exact hr b

theorem int_lt {env : Env} {n : ℕ} {a : ℕ} {b b' : Buf} (h : readIntAt env b b.off n = some (some a, b')) : a < 256 ^ n := by
  rw [readIntAt_eq] at h
  simp only [Option.map_eq_some_iff, Prod.mk.injEq, Prod.exists] at h
  obtain ⟨x, y, hx, ⟨bs, rfl, rfl⟩, rfl⟩ := h
  have hl : bs.length = n := by
    simp only [readBytesAt, get] at hx
    split at hx
    · simp at hx
    · split at hx
      · simp at hx
      · rw [if_pos (by omega)] at hx
        simp only [Option.map_some, Option.some.injEq, Prod.mk.injEq] at hx
        rw [← hx.1]
        simp; omega
  exact ((decInt_iff env b.endian n _ bs).1 ⟨hl, rfl⟩).1

theorem safe_read {env : Env} (hm : 2 ^ 64 ≤ env.maxSize + 1) : ∀ t : Ty, SafeR (read env t)
  | .int n => safe_int env n
  | .float k => safe_int env k.size
  | .str w => safe_bind (safe_int env 8) fun size _ _ h => safe_resize
      (by have := int_lt h; have : (256 : ℕ) ^ 8 = 2 ^ 64 := by norm_num
          omega) (safe_bind (safe_bytes size) fun _ _ _ _ => safe_pure _)
  | .vec t => safe_bind (safe_int env 8) fun size _ _ h => safe_resize
      (by have := int_lt h; have : (256 : ℕ) ^ 8 = 2 ^ 64 := by norm_num
          omega) (safe_readN (safe_read hm t) size)
  | .arr n t => safe_readN (safe_read hm t) n
  | .pair s t => safe_bind (safe_read hm s) fun _ _ _ _ => safe_bind (safe_read hm t) fun _ _ _ _ => safe_pure _

/-- `w` ends with a result, keeps the bytes before the offset, and the size of a buffer that cannot grow. -/
def SafeW (e : Endian) (g : Bool) (w : Buf → Option (Bool × Buf)) : Prop :=
  ∀ b : Buf, b.endian = e → b.growable = g → ∃ ok b', w b = some (ok, b') ∧ b'.endian = e ∧ b'.growable = g ∧ b.off ≤ b'.off ∧
    b.data.length ≤ b'.data.length ∧ (g = false → b'.data.length = b.data.length) ∧
    ∀ i, i < b.off → i < b.data.length → b'.data[i]? = b.data[i]?

theorem put_eq (b : Buf) (off : ℕ) (bs : List Byte) (h : off + bs.length ≤ b.data.length) :
    ∃ b', put b off bs = some b' ∧ b'.endian = b.endian ∧ b'.growable = b.growable ∧ b'.off = off + bs.length ∧
      b'.data.length = b.data.length ∧ ∀ i, i < off → b'.data[i]? = b.data[i]? := by
  refine ⟨_, if_pos h, rfl, rfl, rfl, by simp; omega, fun i hi => ?_⟩
  show (b.data.take off ++ bs ++ b.data.drop (off + bs.length))[i]? = _
  rw [List.append_assoc, List.getElem?_append_left (by simp; omega), List.getElem?_take_of_lt hi]

theorem safeW_bytes {env : Env} {e : Endian} {g : Bool} (hm : g = true → 2 ^ 64 ≤ env.maxSize + 1) (bs : List Byte) :
    SafeW e g (fun b => writeBytesAt env b b.off bs) := by
  intro b he hg
  simp only [writeBytesAt]
  split
  · exact ⟨false, b, rfl, he, hg, le_refl _, le_refl _, fun _ => rfl, fun _ _ _ => rfl⟩
  · rename_i h64
    split
    · rename_i hlt
      cases g with
      | false =>
        simp only [grow, hg, Bool.false_eq_true, if_false]
        exact ⟨false, b, rfl, he, hg, le_refl _, le_refl _, fun _ => rfl, fun _ _ _ => rfl⟩
      | true =>
        have hmx := hm rfl
        simp only [grow, hg, if_true, if_neg (show ¬ env.maxSize < b.off + bs.length by omega)]
        have hlen : (b.data.take (b.off + bs.length) ++
            List.replicate (b.off + bs.length - b.data.length) (0 : Byte)).length = b.off + bs.length := by simp; omega
        obtain ⟨b', h1, h2, h3, h4, h5, h6⟩ := put_eq { b with data := (b.data.take (b.off + bs.length) ++
              List.replicate (b.off + bs.length - b.data.length) (0 : Byte)) } b.off bs (by
              show _ ≤ List.length _
              rw [hlen])
        have h5 : b'.data.length = List.length _ := h5
        rw [hlen] at h5
        rw [hg] at h1
        refine ⟨true, b', by rw [h1]; rfl, by rw [h2]; exact he, by rw [h3]; exact hg, by omega, by omega, by simp, ?_⟩
        intro i hi hi'
        rw [h6 i hi]
        show (_ ++ _)[i]? = _
        rw [List.getElem?_append_left (by simp; omega), List.getElem?_take_of_lt (by omega)]
    · obtain ⟨b', h1, h2, h3, h4, h5, h6⟩ := put_eq b b.off bs (by omega)
      exact ⟨true, b', by rw [h1]; rfl, by rw [h2, he], by rw [h3, hg], by omega, by omega, fun _ => h5, fun i hi _ => h6 i hi⟩

theorem safeW_int {env : Env} {e : Endian} {g : Bool} (hm : g = true → 2 ^ 64 ≤ env.maxSize + 1) (n v : ℕ) :
    SafeW e g (fun b => writeIntAt env b b.off n v) := by
  intro b he hg
  simp only [writeIntAt_eq]
  exact safeW_bytes hm _ b he hg

theorem safeW_andThen {e : Endian} {g : Bool} {w1 w2 : Buf → Option (Bool × Buf)} (h1 : SafeW e g w1) (h2 : SafeW e g w2) :
    SafeW e g (andThen w1 w2) := by
  intro b he hg
  obtain ⟨ok, b1, e1, a1, c1, d1, f1, g1, i1⟩ := h1 b he hg
  cases ok with
  | false => exact ⟨false, b1, by rw [andThen, e1], a1, c1, d1, f1, g1, i1⟩
  | true =>
    obtain ⟨ok, b2, e2, a2, c2, d2, f2, g2, i2⟩ := h2 b1 a1 c1
    refine ⟨ok, b2, by rw [andThen, e1]; exact e2, a2, c2, by omega, by omega, fun h => by rw [g2 h, g1 h], fun i hi hi' => ?_⟩
    rw [i2 i (by omega) (by omega), i1 i hi hi']

theorem safeW_list {e : Endian} {g : Bool} {α : Type} {w : α → Buf → Option (Bool × Buf)} (l : List α)
    (h : ∀ a, SafeW e g (w a)) : SafeW e g (writeList w l) := by
  induction l with
  | nil => exact fun b he hg => ⟨true, b, rfl, he, hg, le_refl _, le_refl _, fun _ => rfl, fun _ _ _ => rfl⟩
  | cons a l ih => exact safeW_andThen (h a) ih

/-- No floats unless in the order of the machine. -/
def Ty.NoFloat (e : Endian) : Ty → Prop
  | .int _ => True
  | .float _ => e = .native
  | .str _ => True
  | .vec t => t.NoFloat e
  | .arr _ t => t.NoFloat e
  | .pair s t => s.NoFloat e ∧ t.NoFloat e

theorem safeW_write {env : Env} {e : Endian} {g : Bool} (hm : g = true → 2 ^ 64 ≤ env.maxSize + 1) :
    ∀ (t : Ty) (v : t.Val), t.NoFloat e → SafeW e g (write env t v)
  | .int n, v, _ => safeW_int hm n v
  | .float k, v, h => by
    intro b he hg
    have h : e = .native := h
    subst h
    have : write env (.float k) v b = writeBytesAt env b b.off (memory env k.size v) := by
      show writeFloatAt env b b.off k v = _
      exact writeFloatAt_native _ _ _ _ _ he
    rw [this]
    exact safeW_bytes hm _ b he hg
  | .str w, v, _ => safeW_andThen (safeW_int hm 8 _) (safeW_bytes hm _)
  | .vec t, v, h => safeW_andThen (safeW_int hm 8 _) (safeW_list v fun a => safeW_write hm t a h)
  | .arr n t, v, h => safeW_list v fun a => safeW_write hm t a h
  | .pair s t, v, h => safeW_andThen (safeW_write hm s v.1 h.1) (safeW_write hm t v.2 h.2)

end Tachyon.Buffer
