import Verif.Proofs.Serialize
import Verif.Proofs.ExtractBits
/-!
# Properties C06 and C21: byte/bit conversions and NAF recoding of big integers
-/
namespace Tachyon.Props
open Tachyon.BigInt

/-- C06: little-endian bytes of any length up to the capacity decode to the number they spell. -/
theorem C06_fromBytesLE (n : Nat) (bytes : List (BitVec 8)) (h : bytes.length ≤ 8 * n) :
    ∃ a, fromBytesLE n bytes = some a ∧ a.length = n ∧ limbsVal a = limbsVal bytes :=
  fromDigits_spec (k := 8) (by decide) rfl n bytes h

/-- C06: big-endian bytes decode to the number spelled by the reversed list. -/
theorem C06_fromBytesBE (n : Nat) (bytes : List (BitVec 8)) (h : bytes.length ≤ 8 * n) :
    ∃ a, fromBytesBE n bytes = some a ∧ a.length = n ∧ limbsVal a = limbsVal bytes.reverse :=
  fromDigits_spec (k := 8) (by decide) rfl n bytes.reverse (by simpa using h)

/-- C06: more bytes than the capacity write past the limb array (undefined behaviour). -/
theorem C06_fromBytes_overflow (n : Nat) (bytes : List (BitVec 8)) (h : 8 * n < bytes.length) :
    fromBytesLE n bytes = none ∧ fromBytesBE n bytes = none :=
  ⟨fromDigits_none (by omega) n bytes h, fromDigits_none (by omega) n _ (by simpa using h)⟩

/-- C06: byte `i` of `ToBytesLE` is `⌊a / 256^i⌋ mod 256`; `ToBytesBE` is the reverse. -/
theorem C06_toBytes (a : List (BitVec 64)) :
    (toBytesLE a).length = 8 * a.length ∧
    (∀ i (h : i < (toBytesLE a).length), ((toBytesLE a)[i]).toNat = limbsVal a / 256 ^ i % 256) ∧
    toBytesBE a = (toBytesLE a).reverse := by
  have hl : (toBytesLE a).length = 8 * a.length := by simp [toBytesLE]
  refine ⟨hl, ?_, by simp [toBytesLE, toBytesBE]⟩
  intro i h
  rw [hl] at h
  have := getDigit_spec (w := 64) (d := 8) (k := 8) rfl (by omega) a i h
  simp only [toBytesLE, List.getElem_map, List.getElem_range]
  rw [this, Nat.pow_mul]; rfl

theorem toBytesLE_val (a : List (BitVec 64)) : limbsVal (toBytesLE a) = limbsVal a := by
  have h := limbsVal_digits (limbsVal a) (fun i => getDigit 8 (a.getD (i / 8) 0#64) (i % 8))
    (8 * a.length) (fun i hi => getDigit_spec (w := 64) (d := 8) (k := 8) rfl (by omega) a i hi)
  refine h.trans (Nat.mod_eq_of_lt ?_)
  rw [← Nat.mul_assoc]
  exact limbsVal_lt a

/-- C06: bytes round-trip. -/
theorem C06_bytes_roundtrip (a : List (BitVec 64)) :
    fromBytesLE a.length (toBytesLE a) = some a ∧ fromBytesBE a.length (toBytesBE a) = some a := by
  have hl := (C06_toBytes a).1
  constructor
  · obtain ⟨b, h1, h2, h3⟩ := C06_fromBytesLE a.length (toBytesLE a) (by omega)
    rw [h1, limbsVal_inj h2 (by rw [h3, toBytesLE_val])]
  · have hb := (C06_toBytes a).2.2
    obtain ⟨b, h1, h2, h3⟩ := C06_fromBytesBE a.length (toBytesBE a) (by rw [hb]; simp [hl])
    rw [h1, limbsVal_inj h2 (by rw [h3, hb, List.reverse_reverse, toBytesLE_val])]

example : toBytesBE [0x0102030405060708#64] = [1, 2, 3, 4, 5, 6, 7, 8] ∧
    fromBytesBE 2 [1, 2, 3, 4, 5, 6, 7, 8, 9] = some [0x0203040506070809#64, 1#64] := by decide

/-- C06: bits of any count up to the capacity decode to the number they spell. -/
theorem C06_fromBits (n : Nat) (bits : List Bool) (h : bits.length ≤ 64 * n) :
    (∃ a, fromBitsLE n bits = some a ∧ a.length = n ∧
      limbsVal a = limbsVal (bits.map BitVec.ofBool)) ∧
    (∃ a, fromBitsBE n bits = some a ∧ a.length = n ∧
      limbsVal a = limbsVal (bits.map BitVec.ofBool).reverse) :=
  ⟨fromDigits_spec (k := 64) (by decide) rfl n (bits.map BitVec.ofBool) (by simpa using h),
   fromDigits_spec (k := 64) (by decide) rfl n (bits.map BitVec.ofBool).reverse (by simpa using h)⟩

/-- C06: bit `i` of `ToBitsLE` is bit `i` of the number, `ToBitsBE` lists them from the top; asking
for more bits than stored reads past the array. -/
theorem C06_toBits (a : List (BitVec 64)) (k : Nat) :
    (k ≤ 64 * a.length →
      toBitsLE k a = some ((List.range k).map (limbsVal a).testBit) ∧
      toBitsBE k a = some ((List.range k).map (limbsVal a).testBit).reverse) ∧
    (64 * a.length < k → toBitsLE k a = none ∧ toBitsBE k a = none) := by
  have hf : bitAt a = (limbsVal a).testBit := funext (bitAt_spec a)
  constructor
  · intro h
    simp [toBitsLE, toBitsBE, h, hf]
  · intro h
    simp [toBitsLE, toBitsBE, Nat.not_le.2 h]

/-- C06: bits round-trip. -/
theorem C06_bits_roundtrip (a : List (BitVec 64)) :
    (toBitsLE (64 * a.length) a).bind (fromBitsLE a.length) = some a ∧
    (toBitsBE (64 * a.length) a).bind (fromBitsBE a.length) = some a := by
  obtain ⟨e1, e2⟩ := (C06_toBits a (64 * a.length)).1 le_rfl
  have hv : limbsVal (((List.range (64 * a.length)).map (limbsVal a).testBit).map BitVec.ofBool)
      = limbsVal a := by
    rw [List.map_map]
    refine (limbsVal_digits (limbsVal a) _ _ (fun i _ => ofBool_digit _ i)).trans ?_
    rw [Nat.one_mul]
    exact Nat.mod_eq_of_lt (limbsVal_lt a)
  rw [e1, e2]
  constructor
  · obtain ⟨b, h1, h2, h3⟩ := (C06_fromBits a.length
      ((List.range (64 * a.length)).map (limbsVal a).testBit) (by simp)).1
    simp only [Option.bind_some]
    rw [h1, limbsVal_inj h2 (by rw [h3, hv])]
  · obtain ⟨b, h1, h2, h3⟩ := (C06_fromBits a.length
      ((List.range (64 * a.length)).map (limbsVal a).testBit).reverse (by simp)).2
    simp only [Option.bind_some]
    rw [h1, limbsVal_inj h2 (by rw [h3, List.map_reverse, List.reverse_reverse, hv])]

example : toBitsLE 5 [0x16#64] = some [false, true, true, false, true] ∧
    fromBitsBE 1 [true, false, true] = some [5#64] := by decide

/-- C06: `ExtractBits` returns the window `⌊a / 2^off⌋ mod 2^cnt` for every in-range offset and every
count below the word size (also when the window runs past the top limb). -/
theorem C06_extractBits {w : Nat} (a : List (BitVec w)) (off cnt : Nat) (hc : cnt < w)
    (ho : off < w * a.length) :
    ∃ x, extractBits a off cnt = some x ∧ x.toNat = limbsVal a / 2 ^ off % 2 ^ cnt :=
  extractBits_spec a off cnt hc ho

/-- C06: outside these bounds `ExtractBits` has undefined behaviour. -/
theorem C06_extractBits_undefined {w : Nat} (hw : 0 < w) (a : List (BitVec w)) (off cnt : Nat) :
    extractBits a off cnt = none ↔ w ≤ cnt ∨ w * a.length ≤ off := by
  constructor
  · intro h
    by_contra hn
    push Not at hn
    obtain ⟨x, hx, _⟩ := extractBits_spec a off cnt hn.1 hn.2
    rw [h] at hx; cases hx
  · exact extractBits_none a off cnt hw

-- a window straddling two limbs
example : extractBits [0xab#8, 0xcd#8] 5 6 = some 0x2d#8 := by decide

/-- C06: `TestBit` reads the binary expansion, `SetBit` changes exactly the addressed bit. -/
theorem C06_bit_access {w : Nat} (hw : 0 < w) (a : List (BitVec w)) (i : Nat) :
    testBit a i = (limbsVal a).testBit i ∧
    (i < w * a.length → ∀ j,
      (limbsVal (setBit1 a i)).testBit j = (if j = i then true else (limbsVal a).testBit j) ∧
      (limbsVal (setBit0 a i)).testBit j = (if j = i then false else (limbsVal a).testBit j)) := by
  refine ⟨testBit_spec hw a i, fun hi j => ⟨?_, ?_⟩⟩
  · rw [setBit1_spec hw a i hi, Nat.testBit_or, Nat.testBit_two_pow]
    by_cases h : j = i
    · simp [h]
    · simp [h, Ne.symm h]
  · rw [setBit0_spec hw a i j hi]
    by_cases h : j = i <;> simp [h]

/-- C06: the bitwise operators act on the binary expansions. -/
theorem C06_bitwise {w : Nat} (hw : 0 < w) (a b : List (BitVec w)) (h : a.length = b.length) :
    limbsVal (land a b) = limbsVal a &&& limbsVal b ∧
    limbsVal (lor a b) = limbsVal a ||| limbsVal b ∧
    limbsVal (lxor a b) = limbsVal a ^^^ limbsVal b :=
  ⟨land_spec hw a b h, lor_spec hw a b h, lxor_spec hw a b h⟩

example : testBit [0x01#8, 0x80#8] 15 = true ∧ setBit0 [0x01#8, 0x80#8] 15 = [0x01#8, 0x00#8] ∧
    lxor [0x0f#8, 0x01#8] [0x3c#8, 0x01#8] = [0x33#8, 0x00#8] := by decide

/-- C21: for every value except the all-ones one, `ToNAF` terminates with digits in `{-1,0,1}`, no
two adjacent non-zero digits, whose signed binary value is the number. -/
theorem C21_naf {w : Nat} (hw : 2 ≤ w) (v : List (BitVec w))
    (hv : limbsVal v + 1 < 2 ^ (w * v.length)) :
    ∃ zs, toNAF v = some zs ∧ digitsVal 2 zs = limbsVal v ∧
      (∀ z ∈ zs, z = -1 ∨ z = 0 ∨ z = 1) ∧
      (∀ i, zs.getD i 0 = 0 ∨ zs.getD (i + 1) 0 = 0) := by
  obtain ⟨zs, h1, h2, h3, h4, _⟩ := toNAFGo_spec hw (w * v.length + 1) v hv
    (by rw [pow_succ]; have := limbsVal_lt v; omega)
  refine ⟨zs, h1, h2, h3, ?_⟩
  exact chain_getD h4

example : toNAF [7#64] = some [-1, 0, 0, 1] := by decide

/-- C21: the all-ones value is recoded as `-1` (the carry out of the top limb is lost), for every
word width and every limb count; so the hypothesis of `C21_naf` is exactly what is needed. -/
theorem C21_naf_all_ones {w : Nat} (hw : 2 ≤ w) (v : List (BitVec w)) (hne : v ≠ [])
    (hv : limbsVal v + 1 = 2 ^ (w * v.length)) : toNAF v = some [-1] := by
  obtain ⟨x, xs, rfl⟩ := List.exists_cons_of_ne_nil hne
  have hpow : 4 ∣ 2 ^ (w * (x :: xs).length) :=
    (pow_dvd_pow 2 (show 2 ≤ w * (x :: xs).length by simp; nlinarith))
  have hmod4 : x.toNat % 4 = limbsVal (x :: xs) % 4 := by
    rw [limbsVal_cons]
    obtain ⟨j, rfl⟩ : ∃ j, w = j + 2 := ⟨w - 2, by omega⟩
    rw [Nat.pow_add, show x.toNat + 2 ^ j * 2 ^ 2 * limbsVal xs
      = x.toNat + 4 * (2 ^ j * limbsVal xs) by ring]
    omega
  have h3 : limbsVal (x :: xs) % 4 = 3 := by omega
  have hlen1 : (1#w :: zero (w := w) ((x :: xs).length - 1)).length = (x :: xs).length := by
    simp [zero]
  have hone : limbsVal (1#w :: zero (w := w) ((x :: xs).length - 1)) = 1 := by
    rw [limbsVal_cons, limbsVal_zero, BitVec.toNat_ofNat, Nat.mod_eq_of_lt]
    · simp
    · exact Nat.one_lt_two_pow (by omega)
  have ha := add_spec (by omega : 0 < w) _ _ hlen1.symm
  have hlt := limbsVal_lt (add (x :: xs) (1#w :: zero (w := w) ((x :: xs).length - 1))).1
  have ha0 : limbsVal (add (x :: xs) (1#w :: zero (w := w) ((x :: xs).length - 1))).1 = 0 := by
    rw [ha.2.2] at hlt
    have h1 := ha.1
    rw [hone, hv] at h1
    have : (add (x :: xs) (1#w :: zero (w := w) ((x :: xs).length - 1))).2.toNat = 1 := by
      by_contra hc
      have : (add (x :: xs) (1#w :: zero (w := w) ((x :: xs).length - 1))).2.toNat = 0 := by omega
      rw [this] at h1; omega
    rw [this] at h1; omega
  have hd := divBy2_spec (by omega : 0 < w)
    (add (x :: xs) (1#w :: zero (w := w) ((x :: xs).length - 1))).1
  rw [ha0] at hd
  rw [toNAF, toNAFGo, isZero_spec, isOdd_spec (by omega)]
  have hne0 : ¬ limbsVal (x :: xs) = 0 := by omega
  have hodd : limbsVal (x :: xs) % 2 = 1 := by omega
  simp only [decide_eq_false hne0, decide_eq_true hodd, ↓reduceIte, List.headD_cons, hmod4, h3,
    Bool.false_eq_true]
  rw [if_neg (by decide), if_neg (by decide)]
  have hz : toNAFGo (w * (x :: xs).length)
      (divBy2 (add (x :: xs) (1#w :: zero (w := w) ((x :: xs).length - 1))).1) = some [] := by
    have hd1 := hd.1
    generalize divBy2 (add (x :: xs) (1#w :: zero (w := w) ((x :: xs).length - 1))).1 = t at hd1
    cases w * (x :: xs).length <;> simp [toNAFGo, isZero_spec, hd1]
  rw [hz]
  rfl

example : toNAF [0xffffffffffffffff#64] = some [-1] := by decide

end Tachyon.Props
