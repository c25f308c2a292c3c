import Verif.Proofs.TranscriptSponge
/-! C99: the transcripts of halo2 and the bytes of its proofs. -/
namespace Tachyon.Props
open Tachyon.Buffer Tachyon.Curve Tachyon.Halo2 Tachyon.Transcript
open Tachyon.CircomFile (length_digits)

/-! ## Fields -/

/-- C99: `FromUint512` gives, for all limbs, the number that they are modulo the modulus (in Montgomery form). -/
theorem C99_fromUint512 {w : ℕ} (hw : 0 < w) (m l : BigInt.Limbs w) (hodd : limbsVal m % 2 = 1) (hl : l.length = 2 * m.length) :
    limbsVal (PrimeField.toBigInt m (fromUint512 m l)) = limbsVal l % limbsVal m ∧ (fromUint512 m l).length = m.length := by
  obtain ⟨h1, h2⟩ := fromUint512_spec hw m l hodd hl
  refine ⟨?_, h2⟩
  obtain ⟨t1, t2, -⟩ := PrimeField.toBigInt_spec hw m (fromUint512 m l) hodd h2 (by rw [h1]; exact Nat.mod_lt _ (by omega))
  refine PrimeField.cancel_R_mod m hodd (t2.trans ?_) t1
  rw [h1]
  exact Nat.mod_modEq _ _

example : limbsVal (PrimeField.toBigInt [7#4, 13#4] (fromUint512 [7#4, 13#4] [15#4, 15#4, 15#4, 15#4])) = 65535 % 215 := by decide +kernel

/-- C99: the integers modulo an odd prime that fits into the limbs, with or without a Montgomery factor in the proof, are as the theorems want. -/
theorem C99_zmod (p : ℕ) [Fact p.Prime] (h2 : p ≠ 2) (R : (ZMod p)ˣ) (limbs : ℕ) (hl : 0 < limbs) (hp : p ≤ 256 ^ (8 * limbs)) :
    (zmodCodec p R limbs).Signed where
  limbs := hl
  val_lt x := lt_of_lt_of_le (ZMod.val_lt x) hp
  of_val x := ZMod.natCast_zmod_val x
  num_lt x := lt_of_lt_of_le (ZMod.val_lt _) hp
  ofNum_num x := by
    show (((x * R).val : ℕ) : ZMod p) * ((R⁻¹ : (ZMod p)ˣ) : ZMod p) = x
    rw [ZMod.natCast_zmod_val, mul_assoc, Units.mul_inv, mul_one]
  val_zero := ZMod.val_zero
  parity y hy := by
    have := C56_parity p h2 y hy
    show (-y).val % 2 ≠ y.val % 2
    rcases Nat.mod_two_eq_zero_or_one y.val with h | h <;> rcases Nat.mod_two_eq_zero_or_one (-y).val with h' | h' <;> simp_all

/-! ## Points in a proof -/

section
variable {B F P S : Type} {env : Env} {e : Endian}

section
variable [Field B] [DecidableEq B]

/-- C99: what the reader makes of the bytes at its place, for all bytes: it gives a point exactly if the bytes are those of a number that stands
for the point, and it goes on behind them. So it gives zero or a point on the curve. -/
theorem C99_read_point {cfg : Config B} (hv : cfg.Valid) {sqrt : B → Option B} (hs : ∀ v y, sqrt v = some y → y * y = v)
    (hn : ∀ v, sqrt v = none ↔ ¬ IsSquare v) {c : Codec B} (hc : c.Signed) (hm : env.maxSize < 2 ^ 64) (legacy : Bool) (b : Buf)
    (ho : b.off ≤ b.data.length) (hl : b.data.length < 2 ^ 64) (p : Affine B) (b' : Buf) :
    readPoint env cfg sqrt c legacy b = some (some p, b') ↔
      ∃ v, v < 256 ^ c.size ∧ digits c.size v <+: b.data.drop b.off ∧ Stands cfg c legacy v p ∧ b' = { b with off := b.off + c.size } := by
  rw [dec_readPoint hv hs hn hc hm legacy b rfl ho hl p b']
  constructor
  · rintro ⟨bs, ⟨v, h1, rfl, h2⟩, h3, rfl⟩
    rw [bytesLE_eq] at h3
    exact ⟨v, h1, h3, h2, by rw [length_bytesLE]⟩
  · rintro ⟨v, h1, h2, h3, rfl⟩
    exact ⟨_, ⟨v, h1, rfl, h3⟩, by rw [bytesLE_eq]; exact h2, by rw [length_bytesLE]⟩

/-- C99: a number stands for at most one point, which is zero or on the curve. -/
theorem C99_stands {cfg : Config B} {c : Codec B} (hc : c.Signed) (legacy : Bool) (v : ℕ) (p q : Affine B)
    (hp : Stands cfg c legacy v p) (hq : Stands cfg c legacy v q) : p = q ∧ (p = ⟨0, 0⟩ ∨ OnCurve cfg p) := by
  unfold Stands at hp hq
  dsimp only at hp hq
  rcases hp with ⟨hi, rfl⟩ | ⟨hi, p1, p2, p3⟩ <;> rcases hq with ⟨hj, rfl⟩ | ⟨hj, q1, q2, q3⟩
  · exact ⟨rfl, .inl rfl⟩
  · exact absurd hi hj
  · exact absurd hj hi
  · refine ⟨?_, .inr p2⟩
    unfold OnCurve at p2 q2
    rw [p1, ← q1, ← q2] at p2
    have hy : p.y = q.y := by
      rcases sq_eq_sq_iff_eq_or_eq_neg.1 p2 with h | h
      · exact h
      · by_cases h0 : q.y = 0
        · rw [h, h0, neg_zero]
        · have hp0 : p.y ≠ 0 := by rw [h]; exact neg_ne_zero.2 h0
          have e1 := p3 hp0
          rw [← q3 h0, h] at e1
          exact absurd e1 (hc.parity _ h0)
    obtain ⟨px, py⟩ := p
    obtain ⟨qx, qy⟩ := q
    simp only at p1 q1 hy
    rw [p1, q1, hy]

/-- C99: the serializer of the Blake2b and Poseidon transcripts. If the first coordinates leave the highest bit free (the two highest bits, if not in
the legacy form), every point on the curve and zero (but no other point with a first coordinate of zero, in the legacy form) and every scalar
is read as it was written. -/
theorem C99_compressed {cfg : Config B} (hv : cfg.Valid) {sqrt : B → Option B} (hs : ∀ v y, sqrt v = some y → y * y = v)
    (hn : ∀ v, sqrt v = none ↔ ¬ IsSquare v) {cB : Codec B} {cF : Codec F} (hB : cB.Signed) (hF : cF.Ok) (hm : env.maxSize < 2 ^ 64)
    (hl : Little env e) (legacy : Bool) (hf : ∀ x, cB.val x < signBit cB legacy) :
    Serializes env e (compressed env cfg sqrt cB cF legacy)
      (fun | .point p => Writable cfg legacy p | .scalar _ => True)
      (fun | .point p => digits cB.size (code cB legacy p) | .scalar v => digits cF.size (cF.num v)) :=
  serializes_compressed hv hs hn hB hF hm hl legacy hf

/-- C99: the serializer of the Sha256 transcript. Every pair of coordinates is read as it was written, on the curve or not: the reader does not
check the equation of the curve. -/
theorem C99_uncompressed {cB : Codec B} {cF : Codec F} (hB : cB.Ok) (hF : cF.Ok) (hm : env.maxSize < 2 ^ 64) (hl : Little env e) :
    Serializes env e (uncompressed env cB cF) (fun _ => True)
      (fun | .point p => digits cB.size (cB.val p.x) ++ digits cB.size (cB.val p.y) | .scalar v => digits cF.size (cF.num v)) :=
  serializes_uncompressed hB hF hm hl

/-- C99, a defect: in the legacy form a point with the first coordinate zero that is not zero has no bytes, and what is written for it is read as
zero. -/
theorem C99_legacy_zero {cfg : Config B} {c : Codec B} (hc : c.Signed) (y : B) :
    (∀ v, y ≠ 0 → ¬ Stands cfg c true v ⟨0, y⟩) ∧ Stands cfg c true (code c true ⟨0, y⟩) ⟨0, 0⟩ := by
  have h0 : c.of 0 = 0 := by have := hc.of_val 0; rwa [hc.val_zero] at this
  constructor
  · rintro v hy (⟨-, h⟩ | ⟨h, hx, -⟩)
    · exact hy (by simpa using h)
    · exact h ⟨hx.symm, by simp⟩
  · refine .inl ⟨⟨?_, by simp⟩, rfl⟩
    unfold code
    split
    · simpa using h0
    · simp only [hc.val_zero, Nat.zero_add, Nat.mul_mod_left]
      exact h0

end

/-- C99, a defect: `CheckBits` compares the bits that are needed with the number of bits of the modulus modulo eight, not with those that it leaves
free. It accepts a modulus of 255 bits for the form that needs two, and one of `8 n - 1` bits in general; a point whose first coordinate
reaches the bits that are taken, which such a modulus has, has no bytes. It rejects a modulus of 248 bits in 32 bytes. -/
theorem C99_checkBits (p : ℕ) [Fact p.Prime] (R : (ZMod p)ˣ) (limbs : ℕ) (hl : 0 < limbs) (hbits : 2 ^ (8 * (8 * limbs) - 2) < p)
    (cfg : Config (ZMod p)) :
    checkBits false (8 * (8 * limbs) - 1) = true ∧ checkBits true 248 = false ∧
    (∃ x : ZMod p, signBit (zmodCodec p R limbs) false ≤ x.val) ∧
    ∀ q : Affine (ZMod p), signBit (zmodCodec p R limbs) false ≤ q.x.val → ∀ v, ¬ Stands cfg (zmodCodec p R limbs) false v q := by
  have hsb : signBit (zmodCodec p R limbs) false = 2 ^ (8 * (8 * limbs) - 2) := rfl
  have hpos : 0 < 2 ^ (8 * (8 * limbs) - 2) := by positivity
  refine ⟨?_, by decide, ⟨((2 ^ (8 * (8 * limbs) - 2) : ℕ) : ZMod p), ?_⟩, fun q hq v => ?_⟩
  · simp only [checkBits, Bool.false_eq_true, if_false, decide_eq_true_eq]
    omega
  · rw [hsb, ZMod.val_natCast, Nat.mod_eq_of_lt hbits]
  · rw [hsb] at hq
    rintro (⟨-, rfl⟩ | ⟨-, hx, -⟩)
    · rw [ZMod.val_zero] at hq
      omega
    · rw [hsb] at hx
      have hlt : v % 2 ^ (8 * (8 * limbs) - 2) < 2 ^ (8 * (8 * limbs) - 2) := Nat.mod_lt _ hpos
      have hx : q.x = ((v % 2 ^ (8 * (8 * limbs) - 2) : ℕ) : ZMod p) := hx
      have := congrArg ZMod.val hx
      rw [ZMod.val_natCast, Nat.mod_eq_of_lt (by omega)] at this
      omega

/-- C99: in the legacy form, which needs one bit, `CheckBits` accepts exactly the moduli whose number of bits is no multiple of eight, and it is
right to accept them: the highest bit is free. In the other form exactly one more remainder is rejected. -/
theorem C99_checkBits_exact (c : Codec B) (n : ℕ) : (checkBits true n = true ↔ ¬ 8 ∣ n) ∧ (checkBits false n = true ↔ ¬ 8 ∣ n ∧ ¬ 8 ∣ n - 1) ∧
    (checkBits true n = true → n ≤ 8 * c.size → 2 ^ n ≤ signBit c true) := by
  refine ⟨?_, ?_, fun h hn => Nat.pow_le_pow_right (by omega) ?_⟩
  · simp only [checkBits, if_true, decide_eq_true_eq]
    omega
  · simp only [checkBits, Bool.false_eq_true, if_false, decide_eq_true_eq]
    omega
  · simp only [checkBits, if_true, decide_eq_true_eq] at h
    omega

/-- C99, a defect: numbers that are not below the modulus are read, and if the constructor reduces them a proof can be changed into another one that
says the same. -/
theorem C99_malleable (p : ℕ) [Fact p.Prime] (R : (ZMod p)ˣ) (limbs : ℕ) (hm : env.maxSize < 2 ^ 64) (hl : Little env e) (u v : ℕ)
    (hu : u < 256 ^ (8 * limbs)) (hv : v < 256 ^ (8 * limbs)) (h : u % p = v % p) (b1 b2 : Buf) (e1 : b1.endian = e) (e2 : b2.endian = e)
    (h1 : b1.off ≤ b1.data.length ∧ b1.data.length < 2 ^ 64 ∧ digits (8 * limbs) u <+: b1.data.drop b1.off)
    (h2 : b2.off ≤ b2.data.length ∧ b2.data.length < 2 ^ 64 ∧ digits (8 * limbs) v <+: b2.data.drop b2.off) :
    ∃ s : ZMod p, readScalar env (zmodCodec p R limbs) b1 = some (some s, { b1 with off := b1.off + 8 * limbs }) ∧
      readScalar env (zmodCodec p R limbs) b2 = some (some s, { b2 with off := b2.off + 8 * limbs }) := by
  have key : ∀ (w : ℕ) (b : Buf), w < 256 ^ (8 * limbs) → b.endian = e →
      b.off ≤ b.data.length ∧ b.data.length < 2 ^ 64 ∧ digits (8 * limbs) w <+: b.data.drop b.off →
      readScalar env (zmodCodec p R limbs) b =
        some (some ((w : ZMod p) * (R⁻¹ : (ZMod p)ˣ)), { b with off := b.off + 8 * limbs }) := by
    intro w b hw he hb
    refine (dec_bind (dec_readNum hm hl limbs) (fun x => dec_pure e ((zmodCodec p R limbs).ofNum x)) b he hb.1 hb.2.1 _ _).2
      ⟨bytesLE (8 * limbs) w, ⟨w, _, [], ⟨hw, rfl⟩, ⟨rfl, rfl⟩, by rw [List.append_nil]⟩, by rw [bytesLE_eq]; exact hb.2.2, by
        rw [length_bytesLE]⟩
  refine ⟨_, key u b1 hu e1 h1, ?_⟩
  rw [key v b2 hv e2 h2, (ZMod.natCast_eq_natCast_iff' u v p).2 h]

/-- The real constructor reduces the modulus plus one of the scalars of bn254 to one. -/
theorem C99_bn254_noncanonical :
    PrimeField.fromBigInt [0x43e1f593f0000001#64, 0x2833e84879b97091#64, 0xb85045b68181585d#64, 0x30644e72e131a029#64]
      [0x43e1f593f0000002#64, 0x2833e84879b97091#64, 0xb85045b68181585d#64, 0x30644e72e131a029#64] =
    PrimeField.fromBigInt [0x43e1f593f0000001#64, 0x2833e84879b97091#64, 0xb85045b68181585d#64, 0x30644e72e131a029#64]
      [1#64, 0#64, 0#64, 0#64] := by decide +kernel

/-! ## Writer and reader -/

/-- C99: for every transcript, serializer and sequence of actions (values that both know, messages through the proof, challenges): the writer
appends the bytes of the messages to its buffer; the reader that asks for the same, at bytes that begin with these, gets every message as it was
sent and every challenge as the prover got it, ends in the prover's state and stands behind the proof; and a challenge is that of the state after
everything before it, whether sent or told. -/
theorem C99_sync {h : Hash P F S} {s : Serializer P F} {Good : Msg P F → Prop} {bytes : Msg P F → List Byte}
    (hs : Serializes env e s Good bytes) (hm : env.maxSize < 2 ^ 64) (as : List (Act P F)) (st st' : S) (b : Buf)
    (hg : ∀ m, Act.send m ∈ as → Good m) (hr : h.run (as.map Act.event) st = some st') (he : b.endian = e) (hgr : b.growable = true)
    (ho : b.off = b.data.length) (hsz : b.data.length + (proofOf bytes as).length ≤ env.maxSize) :
    ∃ outs : List (Out P F), runWriter h s as (st, b) =
        some (some outs, st', { b with data := b.data ++ proofOf bytes as, off := b.off + (proofOf bytes as).length }) ∧
      outs.length = as.length ∧ (∀ (i : ℕ) (m : Msg P F), as[i]? = some (.send m) → outs[i]? = some (.msg m)) ∧
      (∀ i : ℕ, as[i]? = some .squeeze → ∃ s1 c s2, h.run ((as.take i).map Act.event) st = some s1 ∧ h.squeeze s1 = some (c, s2) ∧
        outs[i]? = some (.challenge c)) ∧
      ∀ rb : Buf, rb.endian = e → rb.off ≤ rb.data.length → rb.data.length < 2 ^ 64 → proofOf bytes as <+: rb.data.drop rb.off →
        runReader h s (as.map Act.ask) (st, rb) = some (some outs, st', { rb with off := rb.off + (proofOf bytes as).length }) :=
  sync hs hm as st st' b hg hr he hgr ho hsz

/-- C99: the writer stops with failure at the first message that cannot be written, in the state after that message was absorbed; nothing that
comes after it is done. -/
theorem C99_writer_fails {P F S : Type} {h : Hash P F S} {s : Serializer P F} (m : Msg P F) (post : List (Act P F)) (s1 s2 : S) (b1 b2 : Buf)
    (ha : h.absorb m s1 = some s2) (hw : s.write m b1 = some (false, b2)) :
    ∀ (pre : List (Act P F)) (st : S) (b : Buf) (outs : List (Out P F)), runWriter h s pre (st, b) = some (some outs, s1, b1) →
      runWriter h s (pre ++ .send m :: post) (st, b) = some (none, s2, b2) := by
  intro pre
  induction pre with
  | nil =>
    intro st b outs hr
    simp only [runWriter, Option.some.injEq, Prod.mk.injEq] at hr
    obtain ⟨-, rfl, rfl⟩ := hr
    simp [runWriter, writerStep, ha, hw]
  | cons a as ih =>
    intro st b outs hr
    rw [runWriter, Option.bind_eq_some_iff] at hr
    obtain ⟨⟨ok, o, st', b'⟩, h1, h2⟩ := hr
    rw [List.cons_append, runWriter, h1, Option.bind_some]
    simp only at h2 ⊢
    cases ok with
    | false => simp at h2
    | true =>
      rw [if_pos rfl, Option.map_eq_some_iff] at h2
      obtain ⟨⟨q1, q2, q3⟩, h3, h4⟩ := h2
      simp only [Prod.mk.injEq] at h4
      obtain ⟨h4, rfl, rfl⟩ := h4
      obtain ⟨outs', rfl, -⟩ := Option.map_eq_some_iff.1 h4
      rw [if_pos rfl, ih st' b' outs' h3]
      rfl

/-- A serializer that writes nothing. -/
def deafSerializer : Serializer ℕ ℕ := ⟨fun _ b => some (false, b), fun _ b => some (false, b), fun b => some (none, b), fun b => some (none, b)⟩

example (h : Hash ℕ ℕ ℕ) (hh : h.absorb (.scalar 3) 0 = some 1) (b : Buf) :
    runWriter h deafSerializer [.send (.scalar 3), .squeeze] (0, b) = some (none, 1, b) :=
  C99_writer_fails (.scalar 3) [.squeeze] 0 1 b b hh rfl [] 0 b [] rfl

/-! ## Hashes -/

section
variable [Field B] [DecidableEq B]

/-- C99: Blake2b always goes on, and two transcripts have given it the same bytes only if they have seen the same, unless there is a point with the
coordinates 0 and 5 (on a curve with `b = 25` only). So different transcripts have the same challenge only if the hash has a collision or two
digests are equal modulo the order of the field. -/
theorem C99_blake2b {cB : Codec B} {cF : Codec F} (hB : cB.Signed) (hF : cF.Ok) (hash : List Byte → List Byte) (wide : ℕ → F)
    (l1 l2 : Log (Affine B) F) (h1 : ∀ p, Event.absorb (.point p) ∈ l1 ++ l2 → ¬ (cB.val p.x = 0 ∧ cB.val p.y = 5)) :
    ∃ s1 s2, (blake2b cB cF hash wide).run l1 [] = some s1 ∧ (blake2b cB cF hash wide).run l2 [] = some s2 ∧
      ((blake2b cB cF hash wide).squeeze s1).map (·.1) = some (wide (ofBytesLE (hash (s1 ++ [0])))) ∧ (s1 = s2 → l1 = l2) := by
  refine ⟨_, _, run_blake2b cB cF hash wide l1 [], run_blake2b cB cF hash wide l2 [], rfl, fun h => ?_⟩
  exact blake2b_inj hB hF l1 l2 h1 (by simpa using h)

/-- C99, a defect: zero is hashed like the point with the coordinates 0 and 5. -/
theorem C99_blake2b_zero {cB : Codec B} {cF : Codec F} (hB : cB.Signed) (hash : List Byte → List Byte) (wide : ℕ → F) (y : B)
    (hy : cB.val y = 5) (st : List Byte) :
    (blake2b cB cF hash wide).absorb (.point ⟨0, y⟩) st = (blake2b cB cF hash wide).absorb (.point ⟨0, 0⟩) st := by
  have hy0 : y ≠ 0 := by rintro rfl; rw [hB.val_zero] at hy; omega
  have h1 : (⟨0, y⟩ : Affine B).isZero ≠ true := fun h => hy0 (by simpa using (isZero_iff _).1 h)
  have h2 : (⟨0, 0⟩ : Affine B).isZero = true := (isZero_iff _).2 rfl
  simp only [blake2b, if_neg h1, if_pos h2, hB.val_zero, hy]

/-- C99: Sha256 always goes on. Two transcripts have the same bytes in it only if they have seen the same, or two inputs of theirs are a collision
of the hash, or one of their inputs has a digest that starts with 31 zeros. -/
theorem C99_sha256 {cB : Codec B} {cF : Codec F} (hB : cB.Ok) (hF : cF.Ok) {hash : List Byte → List Byte} (wide : ℕ → F)
    (hlen : ∀ x, (hash x).length = 32) (l1 l2 : Log (Affine B) F) :
    ∃ s1 s2, (sha256 cB cF hash wide).run l1 [] = some s1 ∧ (sha256 cB cF hash wide).run l2 [] = some s2 ∧
      ((sha256 cB cF hash wide).squeeze s1).map (·.1) = some (wide (ofBytesLE (hash (s1 ++ [0])))) ∧
      (s1 = s2 → l1 = l2 ∨
        (∃ x ∈ digested hash (shaBytes cB cF) l1 [], ∃ y ∈ digested hash (shaBytes cB cF) l2 [], x ≠ y ∧ hash x = hash y) ∨
        ∃ x ∈ digested hash (shaBytes cB cF) l1 [] ++ digested hash (shaBytes cB cF) l2 [], List.replicate 31 0 <+: hash x) := by
  obtain ⟨s1, r1⟩ := sha_run_total cB cF hash wide l1 []
  obtain ⟨s2, r2⟩ := sha_run_total cB cF hash wide l2 []
  refine ⟨s1, s2, r1, r2, ?_, ?_⟩
  · simp only [sha256, Option.map_some]
    rw [ofBytesLE_append, ofBytesLE_zeros, Nat.mul_zero, Nat.add_zero]
  · rintro rfl
    exact sha_inj hB hF hlen l1.length l1 l2 (le_refl _) s1 r1 r2

variable [Field F]

/-- C99: for every permutation (that keeps the width, which is one more than the rate) and everything a transcript sees, both Poseidon transcripts
go on without an access out of bounds and have the same challenge: the second element of a sponge that was given, since its last squeeze, the
scalars and the coordinates of the points as scalars, with a one behind them. -/
theorem C99_poseidon {cB : Codec B} {cF : Codec F} (hB : cB.Ok) (h64 : cB.size ≤ 64) {wide : ℕ → F} (hw : ∀ v, wide v = (v : F))
    (hF : ∀ s, cF.val s < 256 ^ 32 ∧ (cF.val s : F) = s) (p : Transcript.Sponge F) (hp : ∀ s, (p.permute s).length = s.length)
    (h0 : 0 < p.rate) (l : Log (Affine B) F) :
    ∃ st xs r x, After p.rate p.permute (2 ^ 64 :: List.replicate p.rate 0)
        (fun | .point q => [(cB.val q.x : F), (cB.val q.y : F)] | .scalar v => [v]) l st xs ∧ Squeezed p.rate p.permute st xs r ∧
      r[1]? = some x ∧
      ((poseidon cB cF wide p).run l (spongeInit (p.rate + 1))).bind (poseidon cB cF wide p).squeeze = some (x, ⟨[], r⟩) ∧
      ((snarkVerifier cB cF wide p).run l (spongeInit (p.rate + 1))).bind (snarkVerifier cB cF wide p).squeeze = some (x, ⟨[], r⟩) := by
  have hwiden : ∀ s, widen cF wide s = s := by
    intro s
    rw [widen, ofBytesLE_append, ofBytesLE_zeros, Nat.mul_zero, Nat.add_zero, ofBytesLE_bytesLE _ _ (hF s).1, hw, (hF s).2]
  have hbase : ∀ x, baseToScalar cB wide x = (cB.val x : F) := by
    intro x
    rw [baseToScalar, Nat.min_eq_right h64, List.take_of_length_le (by rw [length_bytesLE]), ofBytesLE_bytesLE _ _ (hB.val_lt x), hw]
  have hval : elements cB wide = (fun | .point q => [(cB.val q.x : F), (cB.val q.y : F)] | .scalar v => [v]) := by
    funext m
    cases m <;> simp [elements, hbase]
  rw [← hval]
  have hinit : spongeInit (F := F) (p.rate + 1) = ⟨[], 2 ^ 64 :: List.replicate p.rate 0⟩ := by
    simp [spongeInit, List.replicate_succ]
  have hex : ∀ l : Log (Affine B) F, ∃ st xs, After p.rate p.permute (2 ^ 64 :: List.replicate p.rate 0) (elements cB wide) l st xs := by
    intro l
    induction l using List.reverseRecOn with
    | nil => exact ⟨_, _, .nil⟩
    | append_singleton l a ih =>
      obtain ⟨st, xs, h⟩ := ih
      cases a with
      | absorb m => exact ⟨_, _, .absorb h m⟩
      | squeeze => exact ⟨_, _, .squeeze h (squeezed_exists p h0 _ st xs (le_refl _))⟩
  obtain ⟨st, xs, hA⟩ := hex l
  obtain ⟨hlen, hP, hS⟩ := after_states p hp h0 (fun m st => poseidonUpdate p (elements cB wide m) st)
    (fun m st => some { st with pending := st.pending ++ elements cB wide m }) (fun _ _ => rfl) (fun _ _ => rfl) (widen cF wide)
    (2 ^ 64 :: List.replicate p.rate 0) (by simp) hA
  have hlf : (full p st xs).1.length = p.rate + 1 := by rw [full_length p hp h0 _ _ _ (le_refl _), hlen]
  have hrest := full_rest p h0 _ st xs (le_refl _)
  obtain ⟨x, hx1, hx2⟩ := snarkSqueeze_eq p hp h0 ⟨xs, st⟩ hlen
  obtain ⟨y, hy1, hy2⟩ := poseidonSqueeze_eq p hp ⟨(full p st xs).2, (full p st xs).1⟩ hlf hrest
  have hsame : squeezed p (full p st xs).1 (full p st xs).2 = squeezed p st xs := by
    rw [squeezed, squeezed, full_stop p hrest]
  simp only at hx1 hx2 hy1 hy2
  rw [hsame] at hy1 hy2
  obtain rfl : x = y := Option.some.inj (hx1.symm.trans hy1)
  refine ⟨st, xs, _, x, hA, squeezed_exists p h0 _ st xs (le_refl _), hx1, ?_, ?_⟩
  · rw [hinit]
    refine (congrArg (fun o => o.bind (poseidon cB cF wide p).squeeze) hP).trans ?_
    simp only [Option.bind_some, poseidon, hy2, Option.map_some, hwiden]
  · rw [hinit]
    refine (congrArg (fun o => o.bind (snarkVerifier cB cF wide p).squeeze) hS).trans ?_
    simp only [Option.bind_some, snarkVerifier, hx2, Option.map_some, hwiden]

/-- C99, a defect: a Poseidon transcript cannot tell a point from two scalars. -/
theorem C99_poseidon_ambiguous {cB : Codec B} {cF : Codec F} {wide : ℕ → F} (p : Transcript.Sponge F)
    (hp : ∀ s, (p.permute s).length = s.length) (h0 : 0 < p.rate) (q : Affine B) (st : SpongeSt F) (hl : st.elems.length = p.rate + 1) :
    (poseidon cB cF wide p).run [.absorb (.point q)] st = (poseidon cB cF wide p).run
      [.absorb (.scalar (baseToScalar cB wide q.x)), .absorb (.scalar (baseToScalar cB wide q.y))] st ∧
    (snarkVerifier cB cF wide p).run [.absorb (.point q)] st = (snarkVerifier cB cF wide p).run
      [.absorb (.scalar (baseToScalar cB wide q.x)), .absorb (.scalar (baseToScalar cB wide q.y))] st := by
  constructor
  · simp only [Hash.run, poseidon, elements]
    rw [poseidonUpdate_eq p hp h0 _ _ hl, poseidonUpdate_eq p hp h0 _ _ hl, Option.bind_some, Option.bind_some,
      poseidonUpdate_eq p hp h0 _ _ (by rw [full_length p hp h0 _ _ _ (le_refl _), hl]), Option.bind_some,
      ← full_append p h0 _ _ _ _ (le_refl _)]
    simp
  · simp [Hash.run, snarkVerifier, elements]

/-- C99, a defect of the transcript for tests: it does not see the order of the messages between two challenges. -/
theorem C99_simple (toScalar : B → F) (ms ms' : List (Msg (Affine B) F)) (h : ms.Perm ms') (st : F) :
    (simple toScalar).run (ms.map .absorb) st = (simple toScalar).run (ms'.map .absorb) st ∧
    ((simple toScalar).run (ms.map .absorb) st).bind (simple toScalar).squeeze =
      some (2 * (st + (ms.map fun | .point p => toScalar p.x + toScalar p.y | .scalar v => v).sum),
        2 * (st + (ms.map fun | .point p => toScalar p.x + toScalar p.y | .scalar v => v).sum)) := by
  have key : ∀ (ms : List (Msg (Affine B) F)) (st : F), (simple toScalar).run (ms.map .absorb) st =
      some (st + (ms.map fun | .point p => toScalar p.x + toScalar p.y | .scalar v => v).sum) := by
    intro ms
    induction ms with
    | nil => intro st; simp [Hash.run]
    | cons m ms ih =>
      intro st
      have ih := ih
      cases m with
      | point p =>
        show ((simple toScalar).run (ms.map .absorb) (st + toScalar p.x + toScalar p.y)) = _
        rw [ih, List.map_cons, List.sum_cons]
        simp only [add_assoc]
      | scalar v =>
        show ((simple toScalar).run (ms.map .absorb) (st + v)) = _
        rw [ih, List.map_cons, List.sum_cons, add_assoc]
  refine ⟨?_, ?_⟩
  · rw [key, key, (h.map _).sum_eq]
  · rw [key, Option.bind_some]
    simp only [simple, two_mul]

end
end

/-! ## Examples -/

section
local instance : Fact (Nat.Prime 7) := ⟨by norm_num⟩

/-- The points of `y² = x³ + 5` over seven elements and the scalars are eight bytes each. -/
def transcriptCodec : Codec (ZMod 7) := zmodCodec 7 1 1

def transcriptEnv : Env := ⟨false, 2 ^ 32⟩

def transcriptSerializer (legacy : Bool) : Serializer (Affine (ZMod 7)) (ZMod 7) :=
  compressed transcriptEnv testConfig (Group.shanks [2#4]) transcriptCodec transcriptCodec legacy

/-- A toy hash. -/
def transcriptHash : Hash (Affine (ZMod 7)) (ZMod 7) (List Byte) :=
  blake2b transcriptCodec transcriptCodec (fun bs => [bs.foldl (fun a x => a * 3 + x) 1]) (fun v => (v : ZMod 7))

def transcriptActs : List (Act (Affine (ZMod 7)) (ZMod 7)) :=
  [.tell (.scalar 3), .send (.point ⟨5, 5⟩), .squeeze, .send (.scalar 6), .send (.point ⟨0, 0⟩), .squeeze]

example : transcriptCodec.Signed := C99_zmod 7 (by decide) 1 1 (by decide) (by decide)

theorem C99_example_serializes (legacy : Bool) : ∃ Good bytes, Serializes transcriptEnv .native (transcriptSerializer legacy) Good bytes ∧
    Good (.point ⟨5, 5⟩) ∧ Good (.point ⟨0, 0⟩) ∧ ∀ v, Good (.scalar v) := by
  have hc : transcriptCodec.Signed := C99_zmod 7 (by decide) 1 1 (by decide) (by decide)
  have hsh := fun a => C24_shanks (F := ZMod 7) (w := 4) (by decide) [2#4] (by rw [ZMod.card]; decide) a
  refine ⟨_, _, C99_compressed testConfig_valid (fun v y h => (hsh v).1 y h) (fun v => (hsh v).2) hc hc.toOk (by decide) ⟨rfl, by decide⟩ legacy ?_, ?_, ?_, ?_⟩
  · cases legacy <;> decide
  · exact .inr ⟨by unfold OnCurve; decide, fun _ => by decide⟩
  · exact .inl rfl
  · exact fun _ => trivial

example : (runWriter transcriptHash (transcriptSerializer false) transcriptActs ([], ⟨[], 0, .native, true⟩)).map (fun r => (r.1, r.2.2.data)) =
      some (some [.told, .msg (.point ⟨5, 5⟩), .challenge 2, .msg (.scalar 6), .msg (.point ⟨0, 0⟩), .challenge 3],
        [5, 0, 0, 0, 0, 0, 0, 64, 6, 0, 0, 0, 0, 0, 0, 0, 0, 0, 0, 0, 0, 0, 0, 128]) ∧
    (runReader transcriptHash (transcriptSerializer false) (transcriptActs.map Act.ask)
      ([], ⟨[5, 0, 0, 0, 0, 0, 0, 64, 6, 0, 0, 0, 0, 0, 0, 0, 0, 0, 0, 0, 0, 0, 0, 128, 9], 0, .native, false⟩)).map (fun r => (r.1, r.2.2.off)) =
      some (some [.told, .msg (.point ⟨5, 5⟩), .challenge 2, .msg (.scalar 6), .msg (.point ⟨0, 0⟩), .challenge 3], 24) := by
  decide +kernel

/-- Bytes of a number without a point are rejected; the legacy form reads every number as zero whose lower bits are those of zero. -/
example : readPoint transcriptEnv testConfig (Group.shanks [2#4]) transcriptCodec false ⟨[1, 0, 0, 0, 0, 0, 0, 0], 0, .native, false⟩ =
      some (none, ⟨[1, 0, 0, 0, 0, 0, 0, 0], 8, .native, false⟩) ∧
    readPoint transcriptEnv testConfig (Group.shanks [2#4]) transcriptCodec true ⟨[0, 0, 0, 0, 0, 0, 0, 128], 0, .native, false⟩ =
      some (some ⟨0, 0⟩, ⟨[0, 0, 0, 0, 0, 0, 0, 128], 8, .native, false⟩) := by decide +kernel

/-- Both Poseidon transcripts on a sponge of three elements. -/
example : let p : Transcript.Sponge (ZMod 7) := ⟨2, fun s => (s.map fun x => x ^ 3 + 1).reverse⟩
    let l : Log (Affine (ZMod 7)) (ZMod 7) := [.absorb (.scalar 3), .absorb (.point ⟨5, 2⟩), .squeeze, .absorb (.scalar 4), .absorb (.scalar 1)]
    let h := poseidon transcriptCodec transcriptCodec (fun v => (v : ZMod 7)) p
    let g := snarkVerifier transcriptCodec transcriptCodec (fun v => (v : ZMod 7)) p
    ((h.run l (spongeInit 3)).bind h.squeeze).map (·.1) = some 2 ∧ ((g.run l (spongeInit 3)).bind g.squeeze).map (·.1) = some 2 := by
  decide +kernel
end

end Tachyon.Props
