import Verif.Proofs.Buffer
import Verif.Spec.Random
import Verif.Proofs.BigInt
import Mathlib.Data.List.Range
import Mathlib.Tactic.Ring
/-! Lemmas about the random number generators. -/
namespace Tachyon.Random
open Tachyon.Buffer

/-! ### `XORShiftRNG` -/

theorem shl_inj {x y : Word} (h : x ^^^ (x <<< 11) = y ^^^ (y <<< 11)) : x = y := by
  have h1 : (x ^^^ y) ^^^ ((x ^^^ y) <<< 11) = 0#32 := by
    rw [BitVec.shiftLeft_xor_distrib, show x ^^^ y ^^^ (x <<< 11 ^^^ y <<< 11) = (x ^^^ x <<< 11) ^^^ (y ^^^ y <<< 11) by ac_rfl, h,
      BitVec.xor_self]
  have h2 : x ^^^ y = (x ^^^ y) <<< 11 := BitVec.xor_eq_zero_iff.1 h1
  have h3 : x ^^^ y = (x ^^^ y) <<< (11 + 11 + 11) := by
    rw [BitVec.shiftLeft_add, BitVec.shiftLeft_add, ← h2, ← h2, ← h2]
  rw [BitVec.shiftLeft_eq_zero (by decide)] at h3
  exact BitVec.xor_eq_zero_iff.1 h3

theorem shr_inj {x y : Word} (h : x ^^^ (x >>> 8) = y ^^^ (y >>> 8)) : x = y := by
  have h1 : (x ^^^ y) ^^^ ((x ^^^ y) >>> 8) = 0#32 := by
    rw [BitVec.ushiftRight_xor_distrib, show x ^^^ y ^^^ (x >>> 8 ^^^ y >>> 8) = (x ^^^ x >>> 8) ^^^ (y ^^^ y >>> 8) by ac_rfl, h,
      BitVec.xor_self]
  have h2 : x ^^^ y = (x ^^^ y) >>> 8 := BitVec.xor_eq_zero_iff.1 h1
  have h3 : x ^^^ y = (x ^^^ y) >>> (8 + 8 + 8 + 8) := by
    rw [BitVec.shiftRight_add, BitVec.shiftRight_add, BitVec.shiftRight_add, ← h2, ← h2, ← h2, ← h2]
  rw [BitVec.ushiftRight_eq_zero (by decide)] at h3
  exact BitVec.xor_eq_zero_iff.1 h3

theorem next_injective {a b : XorShift} (h : a.next.2 = b.next.2) : a = b := by
  obtain ⟨x, y, z, w⟩ := a
  obtain ⟨x', y', z', w'⟩ := b
  simp only [XorShift.next, XorShift.mk.injEq] at h
  obtain ⟨rfl, rfl, rfl, h⟩ := h
  rw [BitVec.xor_right_inj] at h
  rw [shl_inj (shr_inj h)]

/-! ### Words and bytes -/

theorem wordOf_bytesOf (w : Word) : wordOf (bytesOf w) = w := by
  rw [wordOf, bytesOf, ofBytesLE_bytesLE _ _ (by have := w.isLt; omega), BitVec.ofNat_toNat, BitVec.setWidth_eq]

theorem length_bytesOf (w : Word) : (bytesOf w).length = 4 := length_bytesLE _ _

theorem bytesOf_wordOf {bs : List Byte} (h : bs.length = 4) : bytesOf (wordOf bs) = bs := by
  have h1 := ofBytesLE_lt bs
  rw [h] at h1
  rw [bytesOf, wordOf, BitVec.toNat_ofNat, Nat.mod_eq_of_lt (by omega), ← h, bytesLE_ofBytesLE]

theorem wordsOf_eq (n : ℕ) (bs : List Byte) : wordsOf n bs = (List.range n).map fun i => wordOf ((bs.drop (4 * i)).take 4) := by
  induction n generalizing bs with
  | zero => rfl
  | succ n ih =>
    rw [wordsOf, ih, List.range_succ_eq_map, List.map_cons, List.map_map]
    simp only [Nat.mul_zero, List.drop_zero, List.cons.injEq, true_and]
    refine List.map_congr_left fun i _ => ?_
    simp only [Function.comp, List.drop_drop]
    rw [show 4 + 4 * i = 4 * (i + 1) by omega]

theorem wordsOf_bytes (ws : List Word) (bs : List Byte) : wordsOf ws.length (ws.flatMap bytesOf ++ bs) = ws := by
  induction ws with
  | nil => rfl
  | cons w ws ih =>
    rw [List.length_cons, wordsOf, List.flatMap_cons, List.append_assoc, List.take_append_of_le_length (by rw [length_bytesOf]),
      List.take_of_length_le (by rw [length_bytesOf]), wordOf_bytesOf, List.drop_append_of_le_length (by rw [length_bytesOf]),
      List.drop_of_length_le (by rw [length_bytesOf]), List.nil_append, ih]

theorem flatMap_length (ws : List Word) : (ws.flatMap bytesOf).length = 4 * ws.length := by
  induction ws with
  | nil => rfl
  | cons w ws ih => rw [List.flatMap_cons, List.length_append, ih, length_bytesOf, List.length_cons]; omega

theorem bytes_wordsOf (n : ℕ) (bs : List Byte) (h : 4 * n ≤ bs.length) : (wordsOf n bs).flatMap bytesOf = bs.take (4 * n) := by
  induction n generalizing bs with
  | zero => simp [wordsOf]
  | succ n ih =>
    rw [wordsOf, List.flatMap_cons, ih _ (by rw [List.length_drop]; omega), bytesOf_wordOf (by rw [List.length_take]; omega),
      show 4 * (n + 1) = 4 + 4 * n by omega, List.take_add]

/-! ### `ChaCha20RNG` -/

/-- The key of a block: `k0` before block `c` and `k1` from there on. -/
def keyAt (c : ℕ) (k0 k1 : List Word) (j : ℕ) : List Word := if j < c then k0 else k1

/-- The state after `n` words. -/
def stateAt (core : List Word → List Byte) (output : List Byte) (c : ℕ) (k0 k1 : List Word) (n : ℕ) : ChaCha :=
  ⟨16 - (16 * ((n + 15) / 16) - n), blockInput k1 ((n + 15) / 16),
    if n = 0 then output else core (blockInput (keyAt c k0 k1 ((n + 15) / 16 - 1)) ((n + 15) / 16 - 1))⟩

theorem blockInput_step {key : List Word} (hk : key.length = 8) (b : ℕ) (s : ChaCha) (hs : s.input = blockInput key b)
    (core : List Word → List Byte) : s.update core = { s with output := core (blockInput key b), input := blockInput key (b + 1) } := by
  obtain ⟨i, inp, out⟩ := s
  simp only at hs
  subst hs
  have hget : ∀ b, (blockInput key b).getD 12 0 = BitVec.ofNat 32 b := by
    intro b; simp [blockInput, List.getD_eq_getElem?_getD, List.getElem?_append, hk]
  have hlo : BitVec.ofNat 32 b + 1 = BitVec.ofNat 32 (b + 1) := by rw [BitVec.ofNat_add]; rfl
  have hz : BitVec.ofNat 32 (b + 1) = 0 ↔ (b + 1) % 2 ^ 32 = 0 := by
    rw [← BitVec.toNat_inj, BitVec.toNat_ofNat]; rfl
  rw [ChaCha.update]
  simp only [hget, hlo]
  congr 1
  split
  · rename_i h0
    rw [hz] at h0
    have : (b + 1) / 2 ^ 32 = b / 2 ^ 32 + 1 := by omega
    rw [blockInput, blockInput, this]
    simp [List.set_append, hk, List.getD_eq_getElem?_getD, List.getElem?_append, BitVec.ofNat_add]
  · rename_i h0
    rw [hz] at h0
    have : (b + 1) / 2 ^ 32 = b / 2 ^ 32 := by omega
    rw [blockInput, blockInput, this]
    simp [List.set_append, hk]

theorem next_stateAt {core : List Word → List Byte} (hc : ∀ l, (core l).length = 64) {output : List Byte} {c : ℕ} {k0 k1 : List Word}
    (h1 : k1.length = 8) {n : ℕ} (hn : c ≤ (n + 15) / 16) :
    (stateAt core output c k0 k1 n).next core =
      some (streamWord core (keyAt c k0 k1 (n / 16)) n, stateAt core output c k0 k1 (n + 1)) := by
  by_cases h : n % 16 = 0
  · have hb : (n + 15) / 16 = n / 16 := by omega
    have hb' : (n + 1 + 15) / 16 = n / 16 + 1 := by omega
    have hi : (stateAt core output c k0 k1 n).index = 16 := by show 16 - (16 * ((n + 15) / 16) - n) = 16; omega
    rw [ChaCha.next, if_pos hi, blockInput_step h1 (n / 16) _ (by rw [stateAt, hb])]
    have hk : keyAt c k0 k1 (n / 16) = k1 := by rw [keyAt, if_neg (by omega)]
    have h1' : 16 - (16 * (n / 16 + 1) - (n + 1)) = 1 := by omega
    simp [ChaCha.get, hc, stateAt, hb', streamWord, h, hk, h1']
  · have hb : (n + 15) / 16 = n / 16 + 1 := by omega
    have hb' : (n + 1 + 15) / 16 = n / 16 + 1 := by omega
    have hi : (stateAt core output c k0 k1 n).index = n % 16 := by show 16 - (16 * ((n + 15) / 16) - n) = n % 16; omega
    have hlt : n % 16 < 16 := Nat.mod_lt _ (by decide)
    have h0 : n ≠ 0 := by rintro rfl; exact h rfl
    have h1' : 16 - (16 * (n / 16 + 1) - (n + 1)) = n % 16 + 1 := by omega
    have ho : (stateAt core output c k0 k1 n).output = core (blockInput (keyAt c k0 k1 (n / 16)) (n / 16)) := by
      simp [stateAt, h0, hb]
    rw [ChaCha.next, if_neg (by omega)]
    simp only [ChaCha.get, hi, ho, hc]
    rw [if_pos (by omega), Option.map_some, Nat.mul_comm]
    congr 2
    rw [stateAt, stateAt, hb, hb', h1']
    simp [h0]

theorem run_stateAt {core : List Word → List Byte} (hc : ∀ l, (core l).length = 64) {output : List Byte} {c : ℕ} {k0 k1 : List Word}
    (h1 : k1.length = 8) (m : ℕ) {n : ℕ} (hn : c ≤ (n + 15) / 16) :
    run (ChaCha.next core) m (stateAt core output c k0 k1 n) =
      some ((List.range m).map (fun i => streamWord core (keyAt c k0 k1 ((n + i) / 16)) (n + i)), stateAt core output c k0 k1 (n + m)) := by
  induction m generalizing n with
  | zero => rfl
  | succ m ih =>
    rw [run, next_stateAt hc h1 hn, Option.bind_some, ih (by omega), Option.map_some, List.range_succ_eq_map, List.map_cons, List.map_map]
    simp only [Nat.add_zero, Option.some.injEq, Prod.mk.injEq, List.cons.injEq, true_and]
    refine ⟨List.map_congr_left fun i _ => ?_, by rw [show n + 1 + m = n + (m + 1) by omega]⟩
    simp only [Function.comp]
    rw [show n + 1 + i = n + (i + 1) by omega]

theorem keyOf_eq (seed : List Byte) : wordsOf 8 seed = keyOf seed := wordsOf_eq 8 seed

theorem length_keyOf (seed : List Byte) : (keyOf seed).length = 8 := by rw [keyOf, List.length_map, List.length_range]

theorem new_eq {seed : List Byte} (h : seed.length = 32) (output : List Byte) (core : List Word → List Byte) (k0 : List Word) :
    ChaCha.new seed output = some (stateAt core output 0 k0 (keyOf seed) 0) := by
  have hk := length_keyOf seed
  rw [ChaCha.new, ChaCha.setSeed, if_neg (not_not.2 h), keyOf_eq]
  simp only [if_true, Option.some.injEq]
  rw [stateAt, blockInput]
  simp [constants, List.take_append, hk]

theorem setSeed_stateAt {seed : List Byte} (h : seed.length = 32) {core : List Word → List Byte} {output : List Byte} {k : List Word}
    (hk : k.length = 8) (n : ℕ) : (stateAt core output 0 k k n).setSeed seed =
      (true, stateAt core output ((n + 15) / 16) k (keyOf seed) n) := by
  rw [ChaCha.setSeed, if_neg (by omega), keyOf_eq]
  refine congrArg (Prod.mk true) ?_
  rw [stateAt, stateAt]
  congr 1
  · simp [blockInput, List.drop_append, hk]
  · split
    · rfl
    · rw [keyAt, keyAt, if_neg (by omega), if_pos (by omega)]

/-! ### Numbers -/

theorem or_shift (hi lo : Word) : (BitVec.shiftLeft (hi.setWidth 64) 32 ||| lo.setWidth 64 : BitVec 64).toNat = lo.toNat + 2 ^ 32 * hi.toNat := by
  have h1 := hi.isLt
  have h2 := lo.isLt
  have : (BitVec.shiftLeft (hi.setWidth 64) 32).toNat = hi.toNat * 2 ^ 32 := by
    show (hi.setWidth 64 <<< 32).toNat = _
    rw [BitVec.toNat_shiftLeft, BitVec.toNat_setWidth, Nat.shiftLeft_eq, Nat.mod_eq_of_lt (by omega : hi.toNat < 2 ^ 64), Nat.mod_eq_of_lt (by omega)]
  rw [BitVec.toNat_or, this, BitVec.toNat_setWidth, Nat.mod_eq_of_lt (by omega : lo.toNat < 2 ^ 64), ← Nat.shiftLeft_eq,
    ← Nat.shiftLeft_add_eq_or_of_lt h2, Nat.shiftLeft_eq]
  omega

theorem valueOf_eq (ws : List Word) : valueOf ws = limbsVal ws := by
  induction ws with
  | nil => rfl
  | cons w ws ih => rw [limbsVal_cons, ← ih]; rfl

theorem exists_words (n v : ℕ) (h : v < 2 ^ (32 * n)) : ∃ ws : List Word, ws.length = n ∧ limbsVal ws = v := by
  induction n generalizing v with
  | zero => exact ⟨[], rfl, by simp at h; simp [h]⟩
  | succ n ih =>
    obtain ⟨ws, h1, h2⟩ := ih (v / 2 ^ 32) (by
      rw [Nat.div_lt_iff_lt_mul (by decide), ← pow_add]
      exact h)
    refine ⟨BitVec.ofNat 32 v :: ws, by rw [List.length_cons, h1], ?_⟩
    rw [limbsVal_cons, h2, BitVec.toNat_ofNat]
    omega

theorem nextRun {S : Type} (next : S → Option (Word × S)) : ∀ (n : ℕ) (s s' : S) (ws : List Word), run next (2 * n) s = some (ws, s') →
    ∃ ls : BigInt.Limbs 64, run (nextUint64 next) n s = some (ls, s') ∧ ls.length = n ∧ limbsVal ls = valueOf ws
  | 0, s, s', ws, h => by
    simp only [Nat.mul_zero, run, Option.some.injEq, Prod.mk.injEq] at h
    obtain ⟨rfl, rfl⟩ := h
    exact ⟨[], rfl, rfl, rfl⟩
  | n + 1, s, s', ws, h => by
    rw [show 2 * (n + 1) = 2 * n + 1 + 1 by omega, run, Option.bind_eq_some_iff] at h
    obtain ⟨⟨lo, s1⟩, h1, h⟩ := h
    simp only [run, Option.map_eq_some_iff] at h
    obtain ⟨⟨ws1, s3⟩, h, e⟩ := h
    rw [Option.bind_eq_some_iff] at h
    obtain ⟨⟨hi, s2⟩, h2, h⟩ := h
    simp only [Option.map_eq_some_iff] at h
    obtain ⟨⟨ws2, s4⟩, h3, e'⟩ := h
    simp only [Prod.mk.injEq] at e e'
    obtain ⟨rfl, rfl⟩ := e'
    obtain ⟨rfl, rfl⟩ := e
    obtain ⟨ls, h4, h5, h6⟩ := nextRun next n s2 _ ws2 h3
    refine ⟨(BitVec.shiftLeft (hi.setWidth 64) 32 ||| lo.setWidth 64) :: ls, ?_, by rw [List.length_cons, h5], ?_⟩
    · rw [run, nextUint64, h1, Option.bind_some, h2, Option.map_some, Option.bind_some, h4]
      rfl
    · rw [limbsVal_cons, or_shift, h6]
      simp only [valueOf, List.foldr_cons]
      ring

end Tachyon.Random
