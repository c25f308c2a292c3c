import Verif.Proofs.Buffer
import Mathlib.Tactic.NormNum
import Mathlib.Tactic.Ring
/-! C44: serialisation through `Buffer`. -/
namespace Tachyon.Props
open Tachyon.Buffer

/-- C44: writing a value puts its bytes at the offset and nothing else, when they fit or the buffer can grow. -/
theorem C44_write (env : Env) (t : Ty) (v : t.Val) (b : Buf) (hm : env.maxSize < 2 ^ 64) (ht : t.Plain b.endian)
    (ho : b.off ≤ b.data.length) (hl : b.data.length < 2 ^ 64)
    (h : b.off + (enc env b.endian t v).length ≤ b.data.length ∨
      (b.growable = true ∧ b.off + (enc env b.endian t v).length ≤ env.maxSize)) :
    write env t v b = some (true, { b with
      data := b.data.take b.off ++ enc env b.endian t v ++ b.data.drop (b.off + (enc env b.endian t v).length)
      off := b.off + (enc env b.endian t v).length }) :=
  (emits_write hm t v ht b rfl ho hl).1 h

/-- C44: writing more than a fixed buffer holds is reported; what was written before is a prefix of the bytes, inside the
buffer. -/
theorem C44_write_fails (env : Env) (t : Ty) (v : t.Val) (b : Buf) (hm : env.maxSize < 2 ^ 64) (ht : t.Plain b.endian)
    (ho : b.off ≤ b.data.length) (hl : b.data.length < 2 ^ 64) (hg : b.growable = false)
    (h : b.data.length < b.off + (enc env b.endian t v).length) :
    ∃ k, k ≤ (enc env b.endian t v).length ∧ b.off + k ≤ b.data.length ∧
      write env t v b = some (false, { b with
        data := b.data.take b.off ++ (enc env b.endian t v).take k ++ b.data.drop (b.off + k), off := b.off + k }) := by
  obtain ⟨k, hk, hk', he⟩ := (emits_write hm t v ht b rfl ho hl).2 hg h
  refine ⟨k, hk, hk', ?_⟩
  rw [he, overlay, List.length_take, Nat.min_eq_left hk]

/-- C44: reading gives a value exactly when the buffer holds its bytes at the offset, and moves the offset behind them. -/
theorem C44_read (env : Env) (t : Ty) (b b' : Buf) (v : t.Val) (hm : env.maxSize < 2 ^ 64) (ht : t.Plain b.endian)
    (ho : b.off ≤ b.data.length) (hl : b.data.length < 2 ^ 64) :
    read env t b = some (some v, b') ↔ t.Wf env v ∧ enc env b.endian t v <+: b.data.drop b.off ∧
      b' = { b with off := b.off + (enc env b.endian t v).length } := by
  rw [dec_read hm t ht b rfl ho hl v b']
  constructor
  · rintro ⟨bs, ⟨hw, rfl⟩, hp, hb⟩; exact ⟨hw, hp, hb⟩
  · rintro ⟨hw, hp, hb⟩; exact ⟨_, ⟨hw, rfl⟩, hp, hb⟩

/-- C44: a value written to any buffer that takes it is read back, by any buffer over the same bytes in the same byte order. -/
theorem C44_roundtrip (env : Env) (t : Ty) (v : t.Val) (b b' : Buf) (g : Bool) (hm : env.maxSize < 2 ^ 64)
    (ht : t.Plain b.endian) (hv : t.Wf env v) (ho : b.off ≤ b.data.length) (hl : b.data.length < 2 ^ 64)
    (hc : b.growable = true → b.off + (enc env b.endian t v).length ≤ env.maxSize)
    (h : write env t v b = some (true, b')) :
    read env t ⟨b'.data, b.off, b.endian, g⟩ = some (some v, ⟨b'.data, b'.off, b.endian, g⟩) := by
  have hfit : b.off + (enc env b.endian t v).length ≤ b.data.length ∨
      (b.growable = true ∧ b.off + (enc env b.endian t v).length ≤ env.maxSize) := by
    by_contra hn
    push Not at hn
    have hg : b.growable = false := by
      cases hb : b.growable with
      | false => rfl
      | true => exact absurd (hc hb) (by have := hn.2 hb; omega)
    obtain ⟨k, -, -, he⟩ := C44_write_fails env t v b hm ht ho hl hg hn.1
    rw [he] at h
    simp at h
  rw [C44_write env t v b hm ht ho hl hfit] at h
  simp only [Option.some.injEq, Prod.mk.injEq, true_and] at h
  subst h
  have hlen : (b.data.take b.off ++ enc env b.endian t v ++ b.data.drop (b.off + (enc env b.endian t v).length)).length
      = max b.data.length (b.off + (enc env b.endian t v).length) := length_overlay _ _ _ ho
  refine (C44_read env t ⟨_, b.off, b.endian, g⟩ _ v hm ht ?_ ?_).2 ⟨hv, ?_, rfl⟩
  · show b.off ≤ List.length _
    rw [hlen]; omega
  · show List.length _ < _
    rw [hlen]
    rcases hfit with h | h <;> omega
  · show _ <+: List.drop b.off _
    rw [List.append_assoc, List.drop_left' (by simp [ho])]
    exact List.prefix_append _ _

/-- C44: the bytes decide the value: no two values have bytes of which one begins with the other. -/
theorem C44_prefix_free (env : Env) (e : Endian) (t : Ty) (v w : t.Val) (hm : env.maxSize < 2 ^ 64) (ht : t.Plain e)
    (hv : t.Wf env v) (hw : t.Wf env w) (hl : (enc env e t w).length < 2 ^ 64)
    (h : enc env e t v <+: enc env e t w) : v = w := by
  have h1 := (C44_read env t ⟨enc env e t w, 0, e, false⟩ _ v hm ht (Nat.zero_le _) hl).2 ⟨hv, h, rfl⟩
  have h2 := (C44_read env t ⟨enc env e t w, 0, e, false⟩ _ w hm ht (Nat.zero_le _) hl).2 ⟨hw, List.prefix_rfl, rfl⟩
  rw [h1] at h2
  simp only [Option.some.injEq, Prod.mk.injEq] at h2
  exact h2.1

/-- C44: reading any type from any contents at any offset never leaves the buffer and changes nothing but the offset, as
long as `resize` does not throw. -/
theorem C44_read_safe (env : Env) (t : Ty) (b : Buf) (hm : 2 ^ 64 ≤ env.maxSize + 1) :
    ∃ v o, read env t b = some (v, { b with off := o }) ∧ (o = b.off ∨ o ≤ b.data.length) :=
  safe_read hm t b

/-- C44: writing any value at any offset never leaves the buffer, keeps the bytes before the offset, and the size of a fixed
buffer, as long as growing does not throw and no float is converted. -/
theorem C44_write_safe (env : Env) (t : Ty) (v : t.Val) (b : Buf) (hm : b.growable = true → 2 ^ 64 ≤ env.maxSize + 1)
    (ht : t.NoFloat b.endian) :
    ∃ ok b', write env t v b = some (ok, b') ∧ b.off ≤ b'.off ∧ b.data.length ≤ b'.data.length ∧
      (b.growable = false → b'.data.length = b.data.length) ∧
      ∀ i, i < b.off → i < b.data.length → b'.data[i]? = b.data[i]? := by
  obtain ⟨ok, b', h1, -, -, h2⟩ := safeW_write hm t v ht b rfl rfl
  exact ⟨ok, b', h1, h2⟩

/-- C44: writing behind the end of a buffer that can grow fills the gap with zeros. -/
theorem C44_write_gap (env : Env) (b : Buf) (off n v : ℕ) (hg : b.growable = true) (ho : b.data.length ≤ off)
    (hn : 0 < n) (hm : off + n ≤ env.maxSize) (h64 : env.maxSize < 2 ^ 64) :
    writeIntAt env b off n v = some (true, { b with
      data := b.data ++ List.replicate (off - b.data.length) 0 ++ encInt env b.endian n v, off := off + n }) := by
  have hlen := length_encInt env b.endian n v
  have e1 : (b.data.take (off + n) ++ List.replicate (off + n - b.data.length) (0 : Byte)).length = off + n := by
    simp; omega
  have e2 : b.data.take (off + n) = b.data := List.take_of_length_le (by omega)
  rw [writeIntAt_eq, writeBytesAt, hlen, if_neg (by omega), if_pos (by omega), grow, hg, if_pos rfl, if_neg (by omega)]
  simp only [put, hlen, e1, le_refl, if_true, Option.map_some]
  rw [List.drop_eq_nil_of_le (by rw [e1]), List.append_nil, e2, List.take_append,
    List.take_of_length_le ho, List.take_replicate, Nat.min_eq_left (by omega)]

/-- C44: `ReadPtr` gives a pointer to elements inside the buffer when their size does not overflow. -/
theorem C44_readPtr (b : Buf) (off size num : ℕ) (h : size * num < 2 ^ 64) (hl : b.data.length < 2 ^ 64) :
    ((readPtrAt b off size num).1 = some off ↔ off + size * num ≤ b.data.length) ∧
    ((readPtrAt b off size num).1 = some off → (readPtrAt b off size num).2 = { b with off := off + size * num }) := by
  have e : size * num % 2 ^ 64 = size * num := Nat.mod_eq_of_lt h
  unfold readPtrAt
  simp only [e]
  by_cases h1 : 2 ^ 64 ≤ off + size * num
  · rw [if_pos h1]
    exact ⟨⟨fun h => by simp at h, fun h => by omega⟩, fun h => by simp at h⟩
  · rw [if_neg h1]
    by_cases h2 : b.data.length < off + size * num
    · rw [if_pos h2]
      exact ⟨⟨fun h => by simp at h, fun h => by omega⟩, fun h => by simp at h⟩
    · rw [if_neg h2]
      exact ⟨⟨fun _ => by omega, fun _ => rfl⟩, fun _ => rfl⟩

/-- C44: the product in `ReadPtr` overflows: `2^61` elements of 8 bytes are found in an empty buffer. -/
theorem C44_readPtr_overflow (e : Endian) : (readPtrAt ⟨[], 0, e, false⟩ 0 8 (2 ^ 61)).1 = some 0 := by
  cases e <;> decide +kernel

/-- C44: a float is converted to an integer when the byte order is given: `1.5` is written, `0x00000001` is read. -/
theorem C44_float_wrong : ∀ hostBig, ∀ e ∈ [Endian.big, Endian.little],
    (match write ⟨hostBig, 100⟩ (.float f32) (0x3FC00000 : ℕ) ⟨[], 0, e, true⟩ with
      | some (true, b) => (read ⟨hostBig, 100⟩ (.float f32) { b with off := 0 }).map fun r => r.1
      | _ => none) = some (some (1 : ℕ)) := by decide +kernel

/-- C44: only half of the bytes of a string of two characters of two bytes is written. -/
theorem C44_wide_string_wrong :
    (match write ⟨false, 100⟩ (.str 2) [0x3042, 0x3044] ⟨[], 0, .native, true⟩ with
      | some (true, b) => (read ⟨false, 100⟩ (.str 2) { b with off := 0 }).map fun r => r.1
      | _ => none) = some (some [0x3042, 0]) := by decide +kernel

/-- C44: `WriteManyAt` writes every value at the same offset. -/
theorem C44_writeManyAt (env : Env) (off : ℕ) (t : Ty) (vs : List t.Val) (v : t.Val) (b b1 : Buf)
    (h : writeManyAt env off t vs b = some (true, b1)) :
    writeManyAt env off t (vs ++ [v]) b = write env t v { b1 with off := off } := by
  induction vs generalizing b with
  | nil =>
    simp only [writeManyAt, Option.some.injEq, Prod.mk.injEq, true_and] at h
    subst h
    simp only [List.nil_append, writeManyAt, andThen]
    rcases write env t v { b with off := off } with _ | ⟨_ | _, b2⟩ <;> rfl
  | cons a vs ih =>
    simp only [writeManyAt, andThen, List.cons_append] at h ⊢
    rcases hw : write env t a { b with off := off } with _ | ⟨_ | _, b2⟩
    · rw [hw] at h; simp at h
    · rw [hw] at h; simp at h
    · rw [hw] at h
      exact ih b2 h

/-- C44: a length above the limit of `resize` ends the program instead of being reported, however short the buffer is. -/
theorem C44_resize (env : Env) (t : Ty) (b : Buf) (size : ℕ) (hm : env.maxSize < size) (hs : size < 2 ^ 64)
    (ho : b.off ≤ b.data.length) (hl : b.data.length < 2 ^ 64)
    (h : encInt env b.endian 8 size <+: b.data.drop b.off) : read env (.vec t) b = none := by
  have h1 := (dec_int env b.endian 8 b rfl ho hl size _).2 ⟨_, ⟨by norm_num; omega, rfl⟩, h, rfl⟩
  have h1 : readIntAt env b b.off 8 = _ := h1
  show bindR _ _ b = none
  rw [bindR, h1]
  exact if_pos hm

private theorem foldl_vec (f : α → ℕ) (l : List α) (k : ℕ) (h : k + (l.map f).sum < 2 ^ 64) :
    l.foldl (fun total x => (total + f x) % 2 ^ 64) k = k + (l.map f).sum := by
  induction l generalizing k with
  | nil => simp
  | cons a l ih =>
    rw [List.map_cons, List.sum_cons] at h
    rw [List.foldl_cons, Nat.mod_eq_of_lt (by omega), ih _ (by omega), List.map_cons, List.sum_cons, Nat.add_assoc]

private theorem foldl_arr (f : α → ℕ) (l : List α) (k : ℕ) (h : k + (l.map f).sum < 2 ^ 31) :
    l.foldl (fun total x => viaInt (total + f x)) k = k + (l.map f).sum := by
  induction l generalizing k with
  | nil => simp
  | cons a l ih =>
    rw [List.map_cons, List.sum_cons] at h
    have : viaInt (k + f a) = k + f a := by
      unfold viaInt
      rw [Nat.mod_eq_of_lt (by omega), if_pos (by omega)]
    rw [List.foldl_cons, this, ih _ (by omega), List.map_cons, List.sum_cons, Nat.add_assoc]

private theorem sum_length_le {f : α → List Byte} {l : List α} {a : α} (h : a ∈ l) :
    (f a).length ≤ (l.flatMap f).length := by
  induction l with
  | nil => simp at h
  | cons x l ih =>
    rw [List.flatMap_cons, List.length_append]
    rcases List.mem_cons.1 h with rfl | h
    · omega
    · have := ih h; omega

private theorem length_str (env : Env) (e : Endian) (v : List ℕ) :
    (encInt env e 8 v.length ++ v.map (BitVec.ofNat 8)).length = 8 + v.length := by
  rw [List.length_append, length_encInt, List.length_map]

private theorem sum_estimate (f : α → ℕ) (g : α → List Byte) (v : List α) (h : ∀ x ∈ v, f x = (g x).length) :
    (v.map f).sum = (v.flatMap g).length := by
  rw [List.length_flatMap, List.map_congr_left h]

/-- C44: `EstimateSize` is the number of bytes, below `2^31`. -/
theorem C44_estimate (env : Env) (e : Endian) : ∀ (t : Ty) (v : t.Val), (enc env e t v).length < 2 ^ 31 →
    estimate t v = (enc env e t v).length
  | .int n, v, _ => (length_encInt env e n v).symm
  | .float k, v, _ => (length_encInt env e k.size v).symm
  | .str w, v, h => by
    have e1 : (enc env e (.str w) v).length = 8 + List.length v := by
      exact length_str env e v
    rw [e1] at h ⊢
    exact Nat.mod_eq_of_lt (by omega)
  | .vec t, v, h => by
    have e1 : (enc env e (.vec t) v).length = 8 + (List.flatMap (enc env e t) v).length := by
      show List.length (encInt env e 8 (List.length v) ++ List.flatMap (enc env e t) v) = _
      rw [List.length_append, length_encInt]
    rw [e1] at h ⊢
    have e3 : (List.map (estimate t) v).sum = (List.flatMap (enc env e t) v).length :=
      sum_estimate (estimate t) (enc env e t) v fun x hx => C44_estimate env e t x (by
        have := sum_length_le (f := enc env e t) hx; omega)
    rw [← e3] at h ⊢
    exact foldl_vec (estimate t) v 8 (by omega)
  | .arr n t, v, h => by
    have e1 : (enc env e (.arr n t) v).length = (List.flatMap (enc env e t) v).length := rfl
    rw [e1] at h ⊢
    have e3 : (List.map (estimate t) v).sum = (List.flatMap (enc env e t) v).length :=
      sum_estimate (estimate t) (enc env e t) v fun x hx => C44_estimate env e t x (by
        have := sum_length_le (f := enc env e t) hx; omega)
    rw [← e3] at h ⊢
    have := foldl_arr (estimate t) v 0 (by omega)
    rw [Nat.zero_add] at this
    exact this
  | .pair s t, v, h => by
    have e1 : (enc env e (.pair s t) v).length = (enc env e s v.1).length + (enc env e t v.2).length := by
      show List.length (_ ++ _) = _
      rw [List.length_append]
    rw [e1] at h ⊢
    show (estimate s v.1 + estimate t v.2) % 2 ^ 64 = _
    rw [C44_estimate env e s v.1 (by omega), C44_estimate env e t v.2 (by omega), Nat.mod_eq_of_lt (by omega)]

/-- C44: the estimate of an array is the sum of the estimates as an `int`, converted to `size_t`. -/
theorem C44_estimate_array (n : ℕ) (t : Ty) (v : List t.Val) :
    (estimate (.arr n t) v : ℤ) = Int.bmod ((v.map (estimate t)).sum : ℕ) (2 ^ 32) % 2 ^ 64 := by
  have step : ∀ x : ℕ, (viaInt x : ℤ) = Int.bmod x (2 ^ 32) % 2 ^ 64 := by
    intro x
    rw [viaInt, Int.bmod_def]
    split_ifs <;> omega
  have h : ∀ (l : List t.Val) (k K : ℕ), (k : ℤ) = Int.bmod K (2 ^ 32) % 2 ^ 64 →
      ((l.foldl (fun total x => viaInt (total + estimate t x)) k : ℕ) : ℤ) =
        Int.bmod ((K + (l.map (estimate t)).sum : ℕ)) (2 ^ 32) % 2 ^ 64 := by
    intro l
    induction l with
    | nil => intro k K h; simpa using h
    | cons x l ih =>
      intro k K h
      rw [List.foldl_cons, List.map_cons, List.sum_cons, ← Nat.add_assoc]
      refine ih _ _ ?_
      rw [step]
      generalize estimate t x = y
      have e : Int.bmod ((k + y : ℕ) : ℤ) (2 ^ 32) = Int.bmod ((K + y : ℕ) : ℤ) (2 ^ 32) := by
        rw [Int.bmod_def] at h
        rw [Int.bmod_def, Int.bmod_def]
        push_cast at h ⊢
        split_ifs at h ⊢ <;> omega
      rw [e]
  have := h v 0 0 (by decide)
  rw [Nat.zero_add] at this
  exact this

/-- C44: the sum over an array is kept in an `int`: an array of one vector of `2^28` numbers of 8 bytes has `2^31 + 8` bytes, the
estimate is `2^64 - 2^31 + 8`. -/
theorem C44_estimate_overflow (env : Env) (e : Endian) :
    (enc env e (.arr 1 (.vec (.int 8))) [List.replicate (2 ^ 28) (0 : ℕ)]).length = 2 ^ 31 + 8 ∧
    estimate (.arr 1 (.vec (.int 8))) [List.replicate (2 ^ 28) (0 : ℕ)] = 2 ^ 64 - 2 ^ 31 + 8 := by
  have e1 : ∀ n : ℕ, (List.flatMap (encInt env e 8) (List.replicate n (0 : ℕ))).length = 8 * n := by
    intro n
    induction n with
    | zero => rfl
    | succ n ih => rw [List.replicate_succ, List.flatMap_cons, List.length_append, ih, length_encInt]; ring
  have e2 : ∀ n : ℕ, 8 + 8 * n < 2 ^ 64 →
      List.foldl (fun total (_ : ℕ) => (total + 8) % 2 ^ 64) 8 (List.replicate n (0 : ℕ)) = 8 + 8 * n := by
    intro n hn
    have := foldl_vec (fun _ : ℕ => 8) (List.replicate n (0 : ℕ)) 8 (by simp; omega)
    rw [this]; simp [Nat.mul_comm]
  constructor
  · show ((encInt env e 8 (List.replicate (2 ^ 28) (0 : ℕ)).length ++ List.flatMap (encInt env e 8)
      (List.replicate (2 ^ 28) (0 : ℕ))) ++ []).length = _
    rw [List.append_nil, List.length_append, e1, length_encInt]; norm_num
  · have e3 : ∀ l : List ℕ, estimate (.arr 1 (.vec (.int 8))) [l] =
        viaInt (0 + List.foldl (fun total (_ : ℕ) => (total + 8) % 2 ^ 64) 8 l) := fun _ => rfl
    refine (e3 (List.replicate (2 ^ 28) 0)).trans ?_
    rw [e2 _ (by norm_num)]
    unfold viaInt
    norm_num

/-- C44: narrow C strings have the bytes of strings. -/
theorem C44_cstring (env : Env) (cs : List ℕ) (b : Buf) : writeCStr env 1 cs b = write env (.str 1) cs b := by
  show _ = writeStr env 1 cs b
  unfold writeCStr writeStr
  rw [take_str env cs, flatMap_memory_one]

/-- The bytes of a pair of an integer of four bytes and a vector of integers of two bytes. -/
example : enc ⟨false, 100⟩ .big (.pair (.int 4) (.vec (.int 2))) ((0x01020304 : ℕ), ([0x0506, 7] : List ℕ)) =
    [1, 2, 3, 4, 0, 0, 0, 0, 0, 0, 0, 2, 5, 6, 0, 7] := by decide +kernel

example : write ⟨false, 100⟩ (.pair (.int 4) (.str 1)) ((0x01020304 : ℕ), ([97, 98] : List ℕ)) ⟨[9], 1, .little, true⟩ =
    some (true, ⟨[9, 4, 3, 2, 1, 2, 0, 0, 0, 0, 0, 0, 0, 97, 98], 15, .little, true⟩) := by decide +kernel

/-- The second member does not fit. -/
example : write ⟨false, 100⟩ (.pair (.int 2) (.int 4)) ((0x0102 : ℕ), (3 : ℕ)) ⟨[9, 9, 9, 9, 9], 1, .big, false⟩ =
    some (false, ⟨[9, 1, 2, 9, 9], 3, .big, false⟩) := by decide +kernel

example : read ⟨true, 100⟩ (.arr 2 (.int 2)) ⟨[0, 1, 2, 3, 4], 1, .native, false⟩ =
    some (some ([0x0102, 0x0304] : List ℕ), ⟨[0, 1, 2, 3, 4], 5, .native, false⟩) := by rfl

example : Ty.Plain .big (.vec (.pair (.str 1) (.arr 4 (.int 8)))) := ⟨rfl, trivial⟩

end Tachyon.Props
