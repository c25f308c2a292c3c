import Verif.Proofs.Random
import Verif.Props.Transcript
import Mathlib.Data.FinEnum
import Mathlib.Data.Int.CardIntervalMod
import Mathlib.Data.Set.Card
import Mathlib.Dynamics.PeriodicPts.Lemmas
/-! C101: the random number generators. -/
namespace Tachyon.Props
open Tachyon.Buffer Tachyon.Random

/-! ## `XORShiftRNG` -/

/-- A zero of `XORShiftRNG`. -/
def zero101 : XorShift := ⟨0, 0, 0, 0⟩

/-- C101: seeded with 16 bytes, `XORShiftRNG` gives for ever the xorshift sequence of Marsaglia with those bytes as its first four numbers,
whatever it did before. -/
theorem C101_xor_stream (s : XorShift) (seed : List Byte) (h : seed.length = 16) (a : ℕ → Word)
    (h0 : ∀ i < 4, a i = wordOf ((seed.drop (4 * i)).take 4))
    (ha : ∀ i, a (i + 4) = a (i + 3) ^^^ a (i + 3) >>> 19 ^^^ (a i ^^^ a i <<< 11 ^^^ (a i ^^^ a i <<< 11) >>> 8)) :
    (s.setSeed seed).1 = true ∧ ∀ n, ∃ s', run (fun s => some s.next) n (s.setSeed seed).2 = some ((List.range n).map fun i => a (i + 4), s') := by
  rw [XorShift.setSeed, if_neg (not_not.2 h)]
  refine ⟨rfl, fun n => ?_⟩
  have key : ∀ (n k : ℕ), run (fun s : XorShift => some s.next) n ⟨a k, a (k + 1), a (k + 2), a (k + 3)⟩ =
      some ((List.range n).map (fun i => a (k + i + 4)), ⟨a (k + n), a (k + n + 1), a (k + n + 2), a (k + n + 3)⟩) := by
    intro n
    induction n with
    | zero => intro k; rfl
    | succ n ih =>
      intro k
      have := ih (k + 1)
      rw [run, Option.bind_some, XorShift.next]
      simp only [← ha]
      rw [show k + 4 = k + 1 + 3 by omega, show k + 3 = k + 1 + 2 by omega, show k + 2 = k + 1 + 1 by omega, this, Option.map_some,
        List.range_succ_eq_map, List.map_cons, List.map_map]
      simp only [Option.some.injEq, Prod.mk.injEq, List.cons.injEq]
      refine ⟨⟨trivial, List.map_congr_left fun i _ => ?_⟩, ?_⟩
      · show a (k + 1 + i + 4) = a (k + (i + 1) + 4)
        rw [show k + 1 + i = k + (i + 1) by omega]
      · rw [show k + 1 + n = k + (n + 1) by omega]
  have e := key n 0
  have e0 := h0 0 (by decide)
  have e1 := h0 1 (by decide)
  have e2 := h0 2 (by decide)
  have e3 := h0 3 (by decide)
  simp only [Nat.zero_add] at e
  refine ⟨_, Eq.trans (congrArg _ ?_) e⟩
  rw [e0, e1, e2, e3]
  rfl

/-- C101: a seed of another length is refused and changes nothing. -/
theorem C101_xor_refuse (s : XorShift) (seed : List Byte) (h : seed.length ≠ 16) : s.setSeed seed = (false, s) := by
  rw [XorShift.setSeed, if_pos h]

/-- C101: no two states of `XORShiftRNG` have the same successor, so every state comes back after some number of calls. -/
theorem C101_xor_cycle (s : XorShift) : ∃ n > 0, ((fun s : XorShift => s.next.2)^[n]) s = s := by
  have hinj : Function.Injective (fun s : XorShift => s.next.2) := fun a b h => next_injective h
  have : Finite XorShift := Finite.of_injective (fun s => ((s.x, s.y), (s.z, s.w))) (by
    rintro ⟨x, y, z, w⟩ ⟨x', y', z', w'⟩ h
    simp only [Prod.mk.injEq] at h
    obtain ⟨⟨rfl, rfl⟩, rfl, rfl⟩ := h
    rfl)
  obtain ⟨n, hn, h⟩ := hinj.mem_periodicPts s
  exact ⟨n, hn, h⟩

/-- C101: the state of zeros is never reached from another state. -/
theorem C101_xor_nonzero (s : XorShift) (h : s ≠ zero101) (n : ℕ) : ((fun s : XorShift => s.next.2)^[n]) s ≠ zero101 := by
  induction n generalizing s with
  | zero => exact h
  | succ n ih =>
    rw [Function.iterate_succ_apply]
    refine ih _ fun e => h (next_injective (e.trans ?_))
    decide

/-- C101: finding: the seed of zeros is accepted, and gives zeros for ever. -/
theorem C101_xor_zeros (s : XorShift) (n : ℕ) : (s.setSeed (List.replicate 16 0)).1 = true ∧
    run (fun s => some s.next) n (s.setSeed (List.replicate 16 0)).2 = some (List.replicate n 0, zero101) := by
  have h0 : s.setSeed (List.replicate 16 0) = (true, zero101) := by rw [XorShift.setSeed, if_neg (by simp)]; decide
  rw [h0]
  refine ⟨rfl, ?_⟩
  have : zero101.next = (0, zero101) := by decide
  induction n with
  | zero => rfl
  | succ n ih =>
    simp only at ih ⊢
    rw [run, Option.bind_some, this, ih]
    rfl

/-- C101: a state of `XORShiftRNG` is read as it was written. -/
theorem C101_xor_buffer (s : XorShift) (rest : List Byte) : XorShift.read (s.write ++ rest) = some (s, rest) := by
  obtain ⟨x, y, z, w⟩ := s
  have hl := length_bytesOf
  rw [XorShift.read, if_neg (by simp only [XorShift.write, List.length_append, hl]; omega)]
  simp [XorShift.write, List.take_append, List.drop_append, hl, List.take_of_length_le, List.drop_of_length_le, wordOf_bytesOf]

example : (run (fun s : XorShift => some s.next) 3 ⟨1, 2, 3, 4⟩).map Prod.fst = some [2061, 6175, 4] := by decide

/-! ## `ChaCha20RNG` -/

/-- C101: a new `ChaCha20RNG` gives, for every core function and every number of calls, the words of the blocks 0, 1, 2, … of its key. -/
theorem C101_chacha_stream {core : List Word → List Byte} (hc : ∀ l, (core l).length = 64) {seed : List Byte} (h : seed.length = 32)
    (output : List Byte) (n : ℕ) : ∃ s s', ChaCha.new seed output = some s ∧
      run (ChaCha.next core) n s = some ((List.range n).map (streamWord core (keyOf seed)), s') := by
  have := run_stateAt (output := output) (k0 := keyOf seed) hc (length_keyOf seed) n (n := 0) (Nat.zero_le _)
  simp only [keyAt, ite_self, Nat.zero_add] at this
  exact ⟨_, _, new_eq h output core (keyOf seed), this⟩

/-- C101: a seed of another length is refused. -/
theorem C101_chacha_refuse (s : ChaCha) (seed output : List Byte) (h : seed.length ≠ 32) :
    s.setSeed seed = (false, s) ∧ ChaCha.new seed output = none := by
  refine ⟨by rw [ChaCha.setSeed, if_pos h], ?_⟩
  rw [ChaCha.new, ChaCha.setSeed, if_pos h]
  rfl

/-- C101: the inputs of the first `2 ^ 64` blocks, and of blocks for different seeds, are all different. -/
theorem C101_chacha_blocks {seed seed' : List Byte} (h : seed.length = 32) (h' : seed'.length = 32) {b b' : ℕ} (hb : b < 2 ^ 64)
    (hb' : b' < 2 ^ 64) (e : blockInput (keyOf seed) b = blockInput (keyOf seed') b') : seed = seed' ∧ b = b' := by
  have hk := length_keyOf seed
  have hk' := length_keyOf seed'
  rw [blockInput, blockInput] at e
  obtain ⟨e1, e2⟩ := List.append_inj e (by simp [hk, hk'])
  have e3 := List.append_cancel_left e1
  refine ⟨?_, ?_⟩
  · have := congrArg (List.flatMap bytesOf) e3
    rw [← keyOf_eq, ← keyOf_eq, bytes_wordsOf 8 _ (by omega), bytes_wordsOf 8 _ (by omega), List.take_of_length_le (by omega),
      List.take_of_length_le (by omega)] at this
    exact this
  · simp only [List.cons.injEq, and_true, ← BitVec.toNat_inj, BitVec.toNat_ofNat] at e2
    omega

/-- C101: finding: `SetSeed` keeps the block that is in use and the counter. If it is called after `n` words, the rest of that block still comes
from the old seed, and what follows is the stream of the new seed from the same position, not from its start. -/
theorem C101_chacha_reseed {core : List Word → List Byte} (hc : ∀ l, (core l).length = 64) {seed seed' : List Byte} (h : seed.length = 32)
    (h' : seed'.length = 32) (output : List Byte) (n m : ℕ) : ∃ s ws s', ChaCha.new seed output = some s ∧
      run (ChaCha.next core) n s = some (ws, s') ∧ (s'.setSeed seed').1 = true ∧
      (run (ChaCha.next core) m (s'.setSeed seed').2).map Prod.fst = some ((List.range m).map fun i =>
        streamWord core (keyOf (if (n + i) / 16 < (n + 15) / 16 then seed else seed')) (n + i)) := by
  refine ⟨_, _, _, new_eq h output core (keyOf seed), run_stateAt hc (length_keyOf seed) n (Nat.zero_le _), ?_, ?_⟩
  · rw [setSeed_stateAt h' (length_keyOf seed)]
  · rw [setSeed_stateAt h' (length_keyOf seed), Nat.zero_add, run_stateAt hc (length_keyOf seed') m (le_refl _), Option.map_some]
    simp only [keyAt, apply_ite keyOf]

/-- A core function that gives the words of its input. -/
def core101 (l : List Word) : List Byte := ((l.flatMap bytesOf) ++ List.replicate 64 0).take 64

/-- Finding: after one word a seeded generator and a new one with the same seed differ. -/
example : ∃ (core : List Word → List Byte) (seed : List Byte) (s s' : ChaCha) (w w' v : Word) (t t' : ChaCha), (∀ l, (core l).length = 64) ∧
    ChaCha.new seed [] = some s ∧ s.next core = some (w, s') ∧ (s'.setSeed seed).2.next core = some (w', t) ∧ s.next core = some (v, t') ∧
    w' ≠ v := by
  refine ⟨core101, List.replicate 32 0, _, _, 0x61707865, 0x3320646E, 0x61707865, _, _, fun l => ?_, rfl, rfl, rfl, rfl, by decide⟩
  simp [core101]

/-- C101: a state of `ChaCha20RNG` is read as it was written. -/
theorem C101_chacha_buffer (s : ChaCha) (hi : s.index < 2 ^ 64) (hin : s.input.length = 16) (ho : s.output.length = 64) (rest : List Byte) :
    ChaCha.read (s.write ++ rest) = some (s, rest) := by
  obtain ⟨i, inp, out⟩ := s
  simp only at hi hin ho
  have hl := flatMap_length inp
  have h8 := length_bytesLE 8 i
  rw [ChaCha.read, ChaCha.write, if_neg (by simp only [List.length_append, hl, h8, hin, ho]; omega)]
  have e : bytesLE 8 i ++ inp.flatMap bytesOf ++ out ++ rest = bytesLE 8 i ++ (inp.flatMap bytesOf ++ (out ++ rest)) := by
    simp only [List.append_assoc]
  have d8 : (bytesLE 8 i ++ (inp.flatMap bytesOf ++ (out ++ rest))).drop 8 = inp.flatMap bytesOf ++ (out ++ rest) := List.drop_left' h8
  have d72 : (bytesLE 8 i ++ (inp.flatMap bytesOf ++ (out ++ rest))).drop 72 = out ++ rest := by
    rw [show 72 = 8 + 64 by rfl, ← List.drop_drop, d8, List.drop_left' (by omega)]
  have d136 : (bytesLE 8 i ++ (inp.flatMap bytesOf ++ (out ++ rest))).drop 136 = rest := by
    rw [show 136 = 72 + 64 by rfl, ← List.drop_drop, d72, List.drop_left' ho]
  simp only [e, d8, d72, d136, List.take_left' h8, List.take_left' ho]
  have hw := wordsOf_bytes inp (out ++ rest)
  rw [hin] at hw
  rw [hw, ofBytesLE_bytesLE _ _ (by omega)]

/-- C101: finding: `ReadFromBuffer` does not check the index. With an index above 16 the next word is read outside of the block. -/
theorem C101_chacha_index (core : List Word → List Byte) (s : ChaCha) (ho : s.output.length = 64) (h : 16 < s.index) : s.next core = none := by
  rw [ChaCha.next, if_neg (by omega)]
  simp only [ChaCha.get]
  rw [if_neg (by omega)]
  rfl

example : ∃ bs s, ChaCha.read bs = some (s, []) ∧ s.output.length = 64 ∧ 16 < s.index :=
  ⟨ChaCha.write ⟨17, List.replicate 16 0, List.replicate 64 0⟩, _, by
    have := C101_chacha_buffer ⟨17, List.replicate 16 0, List.replicate 64 0⟩ (by decide) rfl rfl []
    rw [List.append_nil] at this
    exact this, by decide, by decide⟩

/-! ## Numbers -/

/-- C101: `NextUint64` is the number of two words, the first the lower one. -/
theorem C101_uint64 {S : Type} (next : S → Option (Word × S)) (s s1 s2 : S) (lo hi : Word) (h1 : next s = some (lo, s1))
    (h2 : next s1 = some (hi, s2)) : ∃ v, nextUint64 next s = some (v, s2) ∧ v.toNat = lo.toNat + 2 ^ 32 * hi.toNat := by
  rw [nextUint64, h1, Option.bind_some, h2]
  exact ⟨_, rfl, or_shift hi lo⟩

/-- C101: `RandomFieldGenerator` takes 16 words of any generator, and gives for every odd modulus of four limbs their number modulo it. -/
theorem C101_field {S : Type} (next : S → Option (Word × S)) (m : BigInt.Limbs 64) (hm : m.length = 4) (hodd : limbsVal m % 2 = 1) (s s' : S)
    (ws : List Word) (h : run next 16 s = some (ws, s')) : ∃ x, generate next m s = some (x, s') ∧ x.length = 4 ∧
      limbsVal (PrimeField.toBigInt m x) = valueOf ws % limbsVal m := by
  obtain ⟨ls, h1, h2, h3⟩ := nextRun next 8 s s' ws h
  obtain ⟨h4, h5⟩ := C99_fromUint512 (by decide) m ls hodd (by omega)
  refine ⟨_, by rw [generate, h1]; rfl, by rw [h5, hm], ?_⟩
  rw [h4, h3]

/-- C101: of the words that the generator may give, each element of the field comes from almost equally many: the numbers differ by at most one. -/
theorem C101_uniform (m : BigInt.Limbs 64) (hm : m.length = 4) (hodd : limbsVal m % 2 = 1) (r : ℕ) (hr : r < limbsVal m) :
    ∃ e ≤ 1, {ws : List Word | ws.length = 16 ∧ ∃ x, generate takeWord m ws = some (x, []) ∧ limbsVal (PrimeField.toBigInt m x) = r}.ncard =
      2 ^ 512 / limbsVal m + e := by
  have hpos : 0 < limbsVal m := by omega
  have hrun : ∀ ws : List Word, run takeWord ws.length ws = some (ws, []) := by
    intro ws
    induction ws with
    | nil => rfl
    | cons w ws ih => rw [List.length_cons, run, takeWord, Option.bind_some, ih]; rfl
  have hbij : Set.BijOn (limbsVal : List Word → ℕ)
      {ws : List Word | ws.length = 16 ∧ ∃ x, generate takeWord m ws = some (x, []) ∧ limbsVal (PrimeField.toBigInt m x) = r}
      (((Finset.range (2 ^ 512)).filter fun v => v ≡ r [MOD limbsVal m] : Finset ℕ) : Set ℕ) := by
    have hiff : ∀ ws : List Word, ws.length = 16 → ((∃ x, generate takeWord m ws = some (x, []) ∧ limbsVal (PrimeField.toBigInt m x) = r) ↔
        limbsVal ws ≡ r [MOD limbsVal m]) := by
      intro ws h
      obtain ⟨x, h1, -, h2⟩ := C101_field takeWord m hm hodd ws [] ws (by rw [← h]; exact hrun ws)
      rw [h1, valueOf_eq] at *
      simp only [Option.some.injEq, Prod.mk.injEq, and_true, exists_eq_left', h2, Nat.ModEq, Nat.mod_eq_of_lt hr]
    refine ⟨fun ws h => ?_, fun a ha b hb e => limbsVal_inj (ha.1.trans hb.1.symm) e, fun v hv => ?_⟩
    · have h1 := limbsVal_lt ws
      rw [h.1] at h1
      simp only [Finset.coe_filter, Finset.mem_range, Set.mem_setOf_eq]
      exact ⟨h1, (hiff ws h.1).1 h.2⟩
    · simp only [Finset.coe_filter, Finset.mem_range, Set.mem_setOf_eq] at hv
      obtain ⟨ws, h1, h2⟩ := exists_words 16 v hv.1
      exact ⟨ws, ⟨h1, (hiff ws h1).2 (by rw [h2]; exact hv.2)⟩, h2⟩
  rw [hbij.ncard_eq, Set.ncard_coe_finset, ← Nat.count_eq_card_filter_range, Nat.count_modEq_card _ hpos]
  split
  · exact ⟨1, le_refl _, rfl⟩
  · exact ⟨0, by decide, rfl⟩

example : generate takeWord [7, 0, 0, 0] (List.replicate 15 0 ++ [1, 5]) = some (PrimeField.fromBigInt [7, 0, 0, 0] [1, 0, 0, 0], [5]) := by
  decide +kernel

end Tachyon.Props
