import Verif.Spec.Transcript
import Verif.Proofs.Buffer
import Verif.Proofs.CircomFile
import Verif.Proofs.PrimeField
import Verif.Props.Curve
import Mathlib.Tactic.LinearCombination
/-! Lemmas on transcripts. -/
namespace Tachyon.Transcript
open Tachyon.Buffer Tachyon.Curve Tachyon.Halo2
open Tachyon.CircomFile (length_digits digits_inj ofBytesLE_digits)

/-! ## Bytes -/

theorem bytesLE_append (a b v : ℕ) : bytesLE (a + b) v = bytesLE a v ++ bytesLE b (v / 256 ^ a) := by
  induction a generalizing v with
  | zero => simp [bytesLE]
  | succ a ih =>
    rw [Nat.succ_add, bytesLE, ih, bytesLE, Nat.div_div_eq_div_mul, ← pow_succ', List.cons_append]

theorem bytesLE_mod (n v : ℕ) : bytesLE n (v % 256 ^ n) = bytesLE n v := by
  induction n generalizing v with
  | zero => rfl
  | succ n ih =>
    rw [bytesLE, bytesLE, pow_succ', Nat.mod_mul_right_div_self, ih]
    congr 1
    apply BitVec.eq_of_toNat_eq
    simp [Nat.mod_mul_right_mod]

theorem toLimbs_bytes (k v : ℕ) : (toLimbs k v).flatMap (bytesLE 8) = bytesLE (8 * k) v := by
  induction k generalizing v with
  | zero => rfl
  | succ k ih =>
    rw [toLimbs, List.flatMap_cons, ih, show 8 * (k + 1) = 8 + 8 * k by ring, bytesLE_append]
    congr 1
    exact bytesLE_mod 8 v

theorem ofLimbs_toLimbs (k v : ℕ) (h : v < 256 ^ (8 * k)) : ofLimbs (toLimbs k v) = v := by
  induction k generalizing v with
  | zero => simp at h; subst h; rfl
  | succ k ih =>
    rw [toLimbs, ofLimbs, ih, Nat.mod_add_div]
    rw [Nat.div_lt_iff_lt_mul (by positivity)]
    have : (256 : ℕ) ^ (8 * (k + 1)) = 256 ^ (8 * k) * 2 ^ 64 := by
      rw [Nat.mul_succ, pow_add]; norm_num
    omega

theorem length_toLimbs (k v : ℕ) : (toLimbs k v).length = k := by
  induction k generalizing v with
  | zero => rfl
  | succ k ih => rw [toLimbs, List.length_cons, ih]

theorem toLimbs_lt (k v : ℕ) : ∀ x ∈ toLimbs k v, x < 256 ^ 8 := by
  induction k generalizing v with
  | zero => simp [toLimbs]
  | succ k ih =>
    intro x hx
    rw [toLimbs, List.mem_cons] at hx
    rcases hx with rfl | hx
    · exact Nat.mod_lt _ (by positivity)
    · exact ih _ x hx

theorem toLimbs_ofLimbs (ls : List ℕ) (h : ∀ x ∈ ls, x < 256 ^ 8) : toLimbs ls.length (ofLimbs ls) = ls := by
  induction ls with
  | nil => rfl
  | cons l ls ih =>
    have hl : l < 2 ^ 64 := h l (by simp)
    rw [ofLimbs, List.length_cons, toLimbs, Nat.add_mul_mod_self_left, Nat.mod_eq_of_lt hl, Nat.add_mul_div_left _ _ (by positivity),
      Nat.div_eq_of_lt hl, Nat.zero_add, ih fun x hx => h x (by simp [hx])]

theorem ofLimbs_lt (ls : List ℕ) (h : ∀ x ∈ ls, x < 256 ^ 8) : ofLimbs ls < 256 ^ (8 * ls.length) := by
  induction ls with
  | nil => simp [ofLimbs]
  | cons l ls ih =>
    have hl : l < 2 ^ 64 := h l (by simp)
    have := ih fun x hx => h x (by simp [hx])
    rw [ofLimbs, List.length_cons]
    have h2 : (256 : ℕ) ^ (8 * (ls.length + 1)) = 2 ^ 64 * 256 ^ (8 * ls.length) := by
      rw [Nat.mul_succ, pow_add, mul_comm]; norm_num
    rw [h2]
    nlinarith

variable {env : Env} {e : Endian}

theorem encInt_eight (hl : Little env e) (v : ℕ) : encInt env e 8 v = bytesLE 8 v := by
  have : ¬ highFirst env e 8 := by
    rintro (⟨h, _⟩ | ⟨h, _⟩)
    · exact hl.2 h
    · rw [hl.1] at h; exact absurd h (by decide)
  rw [encInt, if_neg this, bytesLE_eq]

theorem encInt_one (v : ℕ) : encInt env e 1 v = [BitVec.ofNat 8 v] := by
  have : digits 1 v = [BitVec.ofNat 8 v] := by rw [← bytesLE_eq]; rfl
  unfold encInt
  rw [this]
  split <;> rfl

theorem enc_limbs (hl : Little env e) (k v : ℕ) : enc env e (.arr k (.int 8)) (toLimbs k v) = bytesLE (8 * k) v := by
  rw [← toLimbs_bytes]
  show List.flatMap (enc env e (.int 8)) (toLimbs k v) = _
  congr 1
  funext x
  exact encInt_eight hl x

theorem enc_bytes (n : ℕ) (l : List ℕ) : enc env e (.arr n (.int 1)) l = l.map (BitVec.ofNat 8) := by
  rw [List.map_eq_flatMap]
  show List.flatMap (enc env e (.int 1)) l = _
  congr 1
  funext x
  exact encInt_one x

theorem dec_bindOf {α β : Type} {r : Buf → Option (Option α × Buf)} {D : α → List Byte → Prop}
    {f : α → Buf → Option (Option β × Buf)} {E : α → β → List Byte → Prop} (hr : Dec e r D) (hf : ∀ a bs, D a bs → Dec e (f a) (E a)) :
    Dec e (bindR r f) (fun c bs => ∃ a b1 b2, D a b1 ∧ E a c b2 ∧ bs = b1 ++ b2) := by
  intro b he ho hl c b'
  constructor
  · intro h
    unfold bindR at h
    split at h
    · rename_i a b1 hrb
      obtain ⟨bs, hD, hp, rfl⟩ := (hr b he ho hl _ _).1 hrb
      have hle := hp.length_le
      rw [List.length_drop] at hle
      obtain ⟨bs2, hE, hp2, rfl⟩ := (hf a bs hD { b with off := b.off + bs.length } he
        (by show b.off + bs.length ≤ b.data.length; omega) hl _ _).1 h
      refine ⟨bs ++ bs2, ⟨a, bs, bs2, hD, hE, rfl⟩, ?_, by simp [Nat.add_assoc]⟩
      obtain ⟨t, ht⟩ := hp
      obtain ⟨t2, ht2⟩ := hp2
      have : t = bs2 ++ t2 := by
        rw [ht2]
        show t = b.data.drop (b.off + bs.length)
        rw [← List.drop_drop, ← ht, List.drop_left]
      exact ⟨t2, by rw [← ht, this, List.append_assoc]⟩
    · simp at h
    · simp at h
  · rintro ⟨bs, ⟨a, b1, b2, hD, hE, rfl⟩, hp, rfl⟩
    obtain ⟨t, ht⟩ := hp
    have hle : (b1 ++ b2).length ≤ (b.data.drop b.off).length := by rw [← ht]; simp
    rw [List.length_drop, List.length_append] at hle
    have h1 := (hr b he ho hl a { b with off := b.off + b1.length }).2
      ⟨b1, hD, ⟨b2 ++ t, by rw [← ht, List.append_assoc]⟩, rfl⟩
    rw [bindR, h1]
    refine (hf a b1 hD { b with off := b.off + b1.length } he (by show b.off + b1.length ≤ b.data.length; omega) hl _ _).2
      ⟨b2, hE, ⟨t, ?_⟩, by simp [Nat.add_assoc]⟩
    show b2 ++ t = b.data.drop (b.off + b1.length)
    rw [← List.drop_drop, ← ht, List.append_assoc, List.drop_left]

theorem emits_writeBytes (hm : env.maxSize < 2 ^ 64) (n : ℕ) (l : List ℕ) : Emits env e (writeBytes env n l) (l.map (BitVec.ofNat 8)) := by
  rw [← enc_bytes n]
  exact emits_write hm (.arr n (.int 1)) l (by trivial : Ty.Plain e (.arr n (.int 1)))

theorem dec_readBytes (hm : env.maxSize < 2 ^ 64) (n : ℕ) :
    Dec e (readBytes env n) (fun l bs => l.length = n ∧ (∀ x ∈ l, x < 256) ∧ bs = l.map (BitVec.ofNat 8)) := by
  refine (dec_read hm (.arr n (.int 1)) (by trivial : Ty.Plain e (.arr n (.int 1)))).congr fun l bs => ?_
  change List ℕ at l
  show ((l.length = n ∧ ∀ x ∈ l, x < 256 ^ 1) ∧ bs = enc env e (.arr n (.int 1)) l) ↔ _
  have : enc env e (.arr n (.int 1)) l = l.map (BitVec.ofNat 8) := enc_bytes n l
  rw [this, pow_one, and_assoc]

theorem emits_num (hm : env.maxSize < 2 ^ 64) (hl : Little env e) (k v : ℕ) : Emits env e (writeNum env k v) (bytesLE (8 * k) v) := by
  have := emits_write hm (.arr k (.int 8)) (toLimbs k v) (by trivial : Ty.Plain e (.arr k (.int 8)))
  rwa [enc_limbs hl] at this

theorem dec_readNum (hm : env.maxSize < 2 ^ 64) (hl : Little env e) (k : ℕ) :
    Dec e (readNum env k) (fun v bs => v < 256 ^ (8 * k) ∧ bs = bytesLE (8 * k) v) := by
  refine (dec_bind (dec_read hm (.arr k (.int 8)) (by trivial : Ty.Plain e (.arr k (.int 8)))) fun ls => dec_pure e (ofLimbs ls)).congr
    fun v bs => ?_
  constructor
  · rintro ⟨ls, b1, b2, ⟨⟨hk, hw⟩, rfl⟩, ⟨rfl, rfl⟩, rfl⟩
    change List ℕ at ls
    have hk : ls.length = k := hk
    have hw : ∀ x ∈ ls, x < 256 ^ 8 := hw
    subst hk
    refine ⟨ofLimbs_lt ls hw, ?_⟩
    rw [List.append_nil, ← enc_limbs hl, toLimbs_ofLimbs ls hw]
  · rintro ⟨hv, rfl⟩
    exact ⟨toLimbs k v, _, [], ⟨⟨length_toLimbs k v, toLimbs_lt k v⟩, rfl⟩, ⟨(ofLimbs_toLimbs k v hv).symm, rfl⟩,
      by rw [List.append_nil, enc_limbs hl]⟩

/-! ## Points -/

theorem emits_end {w : Buf → Option (Bool × Buf)} {bs : List Byte} (hm : env.maxSize < 2 ^ 64) (h : Emits env e w bs) (b : Buf)
    (he : b.endian = e) (hg : b.growable = true) (ho : b.off = b.data.length) (hs : b.data.length + bs.length ≤ env.maxSize) :
    w b = some (true, { b with data := b.data ++ bs, off := b.off + bs.length }) := by
  rw [(h b he (by omega) (by omega)).1 (.inr ⟨hg, by omega⟩)]
  simp [overlay, ho]

theorem ofBytesLE_append (a b : List Byte) : ofBytesLE (a ++ b) = ofBytesLE a + 256 ^ a.length * ofBytesLE b := by
  induction a with
  | nil => simp [ofBytesLE]
  | cons x a ih => rw [List.cons_append, ofBytesLE, ih, ofBytesLE, List.length_cons, pow_succ]; ring

theorem ofBytesLE_zeros (n : ℕ) : ofBytesLE (List.replicate n 0) = 0 := by
  induction n with
  | zero => rfl
  | succ n ih => rw [List.replicate_succ, ofBytesLE, ih]; rfl

theorem bytesLE_zero (n : ℕ) : bytesLE n 0 = List.replicate n 0 := by
  induction n with
  | zero => rfl
  | succ n ih => rw [bytesLE, Nat.zero_div, ih, List.replicate_succ]; rfl

theorem bytesLE_flag (m v k : ℕ) : bytesLE (m + 1) (v + 256 ^ m * k) = bytesLE m v ++ [BitVec.ofNat 8 (v / 256 ^ m + k)] := by
  rw [bytesLE_append, Nat.add_mul_div_left _ _ (by positivity), ← bytesLE_mod m (v + _), Nat.add_mul_mod_self_left, bytesLE_mod]
  rfl

theorem bytesLE_succ (m v : ℕ) : bytesLE (m + 1) v = bytesLE m v ++ [BitVec.ofNat 8 (v / 256 ^ m)] := by
  simpa using bytesLE_flag m v 0

variable {B F : Type}

theorem size_pos {c : Codec F} (hc : c.Ok) : ∃ m, c.size = m + 1 := ⟨c.size - 1, by have := hc.limbs; unfold Codec.size; omega⟩

theorem two_pow_high (m : ℕ) : 2 ^ (8 * (m + 1) - 1) = 256 ^ m * 128 := by
  rw [show 8 * (m + 1) - 1 = 8 * m + 7 by omega, pow_add, pow_mul]; norm_num

theorem two_pow_low (m : ℕ) : 2 ^ (8 * (m + 1) - 2) = 256 ^ m * 64 := by
  rw [show 8 * (m + 1) - 2 = 8 * m + 6 by omega, pow_add, pow_mul]; norm_num

section
variable [Field B] [DecidableEq B]

theorem signBit_eq (c : Codec B) (legacy : Bool) {m : ℕ} (h : c.size = m + 1) :
    signBit c legacy = 256 ^ m * if legacy then 128 else 64 := by
  unfold signBit
  rw [h, two_pow_high, two_pow_low]
  cases legacy <;> rfl

theorem isZero_iff (p : Affine B) : p.isZero = true ↔ p = ⟨0, 0⟩ := by
  obtain ⟨x, y⟩ := p
  simp [Affine.isZero]

theorem or_flag (u odd : ℕ) (k : ℕ) (hu : u < 2 ^ k) (ho : odd < 2) : u ||| (odd <<< k) = u + odd * 2 ^ k := by
  rw [Nat.or_comm, ← Nat.shiftLeft_add_eq_or_of_lt hu, Nat.shiftLeft_eq]; omega

theorem writePoint_end {c : Codec B} (hc : c.Ok) (hm : env.maxSize < 2 ^ 64) (legacy : Bool) (p : Affine B)
    (hf : c.val p.x < signBit c legacy) (b : Buf) (he : b.endian = e) (hg : b.growable = true) (ho : b.off = b.data.length)
    (hs : b.data.length + c.size ≤ env.maxSize) :
    writePoint env c legacy p b = some (true, { b with data := b.data ++ bytesLE c.size (code c legacy p), off := b.off + c.size }) := by
  obtain ⟨m, hmm⟩ := size_pos hc
  have hsign := signBit_eq c legacy hmm
  unfold writePoint code
  by_cases hz : p = ⟨0, 0⟩
  · rw [if_pos ((isZero_iff p).2 hz), if_pos hz]
    have key : ∀ l : List ℕ, l.length = c.size → writeBytes env c.size l b =
        some (true, { b with data := b.data ++ l.map (BitVec.ofNat 8), off := b.off + c.size }) := by
      intro l hl
      have := emits_end hm (emits_writeBytes hm c.size l) b he hg ho (by simpa [hl] using hs)
      rw [this]
      simp [hl]
    cases legacy with
    | true =>
      dsimp only
      rw [if_pos rfl, if_pos rfl, key _ (by simp), bytesLE_zero, List.map_replicate]
      rfl
    | false =>
      dsimp only
      rw [if_neg (by decide), if_neg (by decide), key _ (by simp), hmm, two_pow_high]
      have : bytesLE (m + 1) (256 ^ m * 128) = bytesLE m 0 ++ [BitVec.ofNat 8 128] := by
        have := bytesLE_flag m 0 128
        simpa using this
      rw [this, bytesLE_zero, List.replicate_succ', Nat.add_sub_cancel, List.set_append_right _ _ (by simp)]
      simp
  · have hz' : p.isZero ≠ true := fun h => hz ((isZero_iff p).1 h)
    rw [if_neg hz', if_neg hz]
    have hx := emits_writeBytes (e := e) hm c.size ((bytesLE c.size (c.val p.x)).map BitVec.toNat)
    rw [List.map_map, show (BitVec.ofNat 8 ∘ BitVec.toNat : Byte → Byte) = id by funext x; simp, List.map_id] at hx
    have hx := emits_end hm hx b he hg ho (by rw [length_bytesLE]; exact hs)
    dsimp only [andThen]
    rw [hx]
    dsimp only
    rw [length_bytesLE, writeIntAt_eq, encInt_one, hmm]
    have hu : c.val p.x / 256 ^ m < if legacy then 128 else 64 := by
      rw [Nat.div_lt_iff_lt_mul (by positivity), mul_comm, ← hsign]; exact hf
    have hget : ((bytesLE (m + 1) (c.val p.x)).map BitVec.toNat).getD (m + 1 - 1) 0 = c.val p.x / 256 ^ m := by
      rw [bytesLE_succ, List.map_append, Nat.add_sub_cancel, List.getD_append_right _ _ _ _ (by simp [length_bytesLE])]
      simp only [List.length_map, length_bytesLE, Nat.sub_self, List.map_cons, List.map_nil, List.getD_cons_zero, BitVec.toNat_ofNat]
      refine Nat.mod_eq_of_lt (lt_of_lt_of_le hu ?_)
      cases legacy <;> simp
    have hor : c.val p.x / 256 ^ m ||| ((if c.val p.y % 2 = 1 then 1 else 0) <<< if legacy then 7 else 6) =
        c.val p.x / 256 ^ m + c.val p.y % 2 * if legacy then 128 else 64 := by
      have h2 : (if c.val p.y % 2 = 1 then 1 else 0) = c.val p.y % 2 := by split <;> omega
      rw [h2, or_flag _ _ _ (by cases legacy <;> simpa using hu) (by omega)]
      cases legacy <;> rfl
    rw [hget, hor, hsign]
    have hcode : c.val p.x + c.val p.y % 2 * (256 ^ m * if legacy then 128 else 64) =
        c.val p.x + 256 ^ m * (c.val p.y % 2 * if legacy then 128 else 64) := by ring
    rw [hcode, bytesLE_flag, bytesLE_succ m (c.val p.x)]
    unfold writeBytesAt
    dsimp only
    have hlen := length_bytesLE m (c.val p.x)
    rw [hmm] at hs
    rw [if_neg (by simp; omega), if_neg (by simp; omega)]
    unfold put
    rw [if_pos (by simp; omega)]
    have ho' : b.off + (m + 1) - 1 = (b.data ++ bytesLE m (c.val p.x)).length := by simp [hlen]; omega
    have hd : List.take (b.off + (m + 1) - 1) (b.data ++ (bytesLE m (c.val p.x) ++ [BitVec.ofNat 8 (c.val p.x / 256 ^ m)])) =
        b.data ++ bytesLE m (c.val p.x) := by
      rw [← List.append_assoc, ho', List.take_left']
      rfl
    have hd2 : List.drop (b.off + (m + 1) - 1 + 1) (b.data ++ (bytesLE m (c.val p.x) ++ [BitVec.ofNat 8 (c.val p.x / 256 ^ m)])) = [] := by
      apply List.drop_eq_nil_of_le
      simp [hlen]; omega
    simp only [List.length_singleton, Option.map_some, hd, hd2, List.append_nil, List.append_assoc]
    rfl

/-- `CreateFromX` finds the point with the coordinate and the parity. -/
theorem createFromX_iff {cfg : Config B} (hv : cfg.Valid) {sqrt : B → Option B} (hs : ∀ v y, sqrt v = some y → y * y = v)
    (hn : ∀ v, sqrt v = none ↔ ¬ IsSquare v) {c : Codec B} (hc : c.Signed) (x : B) (odd : Bool) (p : Affine B) :
    createFromX cfg sqrt (fun y => decide (c.val y % 2 = 0)) x odd = some p ↔
      p.x = x ∧ OnCurve cfg p ∧ (p.y ≠ 0 → c.val p.y % 2 = if odd then 1 else 0) := by
  have hpar : ∀ y, y ≠ 0 → decide (c.val (-y) % 2 = 0) = !decide (c.val y % 2 = 0) := by
    intro y hy
    have := hc.parity y hy
    rcases Nat.mod_two_eq_zero_or_one (c.val y) with h | h <;> rcases Nat.mod_two_eq_zero_or_one (c.val (-y)) with h' | h' <;>
      simp_all
  obtain ⟨h1, h2⟩ := Props.C56_createFromX hv sqrt (fun y => decide (c.val y % 2 = 0)) hs hn hpar x odd
  have hodd : ∀ y, (decide (c.val y % 2 = 0) = !odd) ↔ c.val y % 2 = if odd then 1 else 0 := by
    intro y
    rcases Nat.mod_two_eq_zero_or_one (c.val y) with h | h <;> cases odd <;> simp [h]
  constructor
  · intro h
    obtain ⟨a, b, d⟩ := h2 p h
    exact ⟨a, by unfold OnCurve; rw [a]; exact b, fun hy => (hodd _).1 (d hy)⟩
  · rintro ⟨rfl, hon, hy⟩
    unfold OnCurve at hon
    cases hq : createFromX cfg sqrt (fun y => decide (c.val y % 2 = 0)) p.x odd with
    | none => exact absurd hon (h1.1 hq p.y)
    | some q =>
      obtain ⟨a, b, d⟩ := h2 q hq
      rw [← hon] at b
      congr 1
      have hyy : q.y = p.y := by
        rcases sq_eq_sq_iff_eq_or_eq_neg.1 b with h | h
        · exact h
        · by_cases h0 : p.y = 0
          · rw [h, h0, neg_zero]
          · have hq0 : q.y ≠ 0 := by rw [h]; exact neg_ne_zero.2 h0
            have e1 := (hodd _).1 (d hq0)
            have e2 := hy h0
            rw [h] at e1
            exact absurd (e1.trans e2.symm) (hc.parity _ h0)
      obtain ⟨qx, qy⟩ := q
      obtain ⟨px, py⟩ := p
      simp_all

theorem dec_fail {α : Type} : Dec (α := α) e (fun b => some (none, b)) (fun _ _ => False) := by
  intro b _ _ _ a b'
  simp

theorem dec_decompress {cfg : Config B} (hv : cfg.Valid) {sqrt : B → Option B} (hs : ∀ v y, sqrt v = some y → y * y = v)
    (hn : ∀ v, sqrt v = none ↔ ¬ IsSquare v) {c : Codec B} (hc : c.Signed) (x : B) (odd : Bool) :
    Dec e (decompress cfg sqrt c x odd) (fun p bs => bs = [] ∧ p.x = x ∧ OnCurve cfg p ∧
      (p.y ≠ 0 → c.val p.y % 2 = if odd then 1 else 0)) := by
  have := createFromX_iff hv hs hn hc x odd
  unfold decompress
  cases h : createFromX cfg sqrt (fun y => decide (c.val y % 2 = 0)) x odd with
  | none =>
    refine dec_fail.congr fun p bs => ?_
    rw [← this p, h]
    simp
  | some q =>
    refine (dec_pure e q).congr fun p bs => ?_
    rw [← this p, h, Option.some.injEq, eq_comm, and_comm]

theorem bit_value (v b : ℕ) : (if decide (v / b % 2 ≠ 0) = true then 1 else 0) = v / b % 2 := by
  rcases Nat.mod_two_eq_zero_or_one (v / b) with h | h <;> simp [h]

/-- What the reader of points accepts. -/
theorem dec_readPoint {cfg : Config B} (hv : cfg.Valid) {sqrt : B → Option B} (hs : ∀ v y, sqrt v = some y → y * y = v)
    (hn : ∀ v, sqrt v = none ↔ ¬ IsSquare v) {c : Codec B} (hc : c.Signed) (hm : env.maxSize < 2 ^ 64) (legacy : Bool) :
    Dec e (readPoint env cfg sqrt c legacy) (fun p bs => ∃ v, v < 256 ^ c.size ∧ bs = bytesLE c.size v ∧ Stands cfg c legacy v p) := by
  obtain ⟨m, hmm⟩ := size_pos hc.toOk
  have hsign := signBit_eq c legacy hmm
  refine (dec_bindOf (E := fun bytes p bs => bs = [] ∧ Stands cfg c legacy (ofBytesLE (bytes.map (BitVec.ofNat 8))) p)
    (dec_readBytes hm c.size) fun bytes bs0 hb => ?_).congr fun p bs => ?_
  · obtain ⟨hlen, hlt, -⟩ := hb
    rw [hmm] at hlen
    obtain ⟨l0, last, rfl⟩ : ∃ l0 last, bytes = l0 ++ [last] := by
      refine ⟨bytes.dropLast, bytes.getLast (by intro h; rw [h] at hlen; simp at hlen), ?_⟩
      exact (List.dropLast_append_getLast _).symm
    have hl0 : l0.length = m := by simpa using hlen
    have hlast : last < 256 := hlt last (by simp)
    have hA : ofBytesLE (l0.map (BitVec.ofNat 8)) < 256 ^ m := by
      have := ofBytesLE_lt (l0.map (BitVec.ofNat 8))
      rwa [List.length_map, hl0] at this
    have hval : ∀ u, u < 256 → ofBytesLE ((l0 ++ [u]).map (BitVec.ofNat 8)) = ofBytesLE (l0.map (BitVec.ofNat 8)) + 256 ^ m * u := by
      intro u hu
      rw [List.map_append, ofBytesLE_append, List.length_map, hl0]
      simp [ofBytesLE, Nat.mod_eq_of_lt hu]
    have hget : (l0 ++ [last]).getD (m + 1 - 1) 0 = last := by
      rw [Nat.add_sub_cancel, List.getD_append_right _ _ _ _ (by omega)]
      simp [hl0]
    have hset : ∀ u, (l0 ++ [last]).set (m + 1 - 1) u = l0 ++ [u] := by
      intro u
      rw [Nat.add_sub_cancel, List.set_append_right _ _ (by omega)]
      simp [hl0]
    have hdm : ∀ k, 0 < k → (ofBytesLE (l0.map (BitVec.ofNat 8)) + 256 ^ m * last) % (256 ^ m * k) =
        ofBytesLE (l0.map (BitVec.ofNat 8)) + 256 ^ m * (last % k) ∧
        (ofBytesLE (l0.map (BitVec.ofNat 8)) + 256 ^ m * last) / (256 ^ m * k) = last / k := by
      intro k hk
      have hdiv : (ofBytesLE (l0.map (BitVec.ofNat 8)) + 256 ^ m * last) / 256 ^ m = last := by
        rw [Nat.add_mul_div_left _ _ (by positivity), Nat.div_eq_of_lt hA, Nat.zero_add]
      rw [Nat.mod_mul, ← Nat.div_div_eq_div_mul, hdiv, Nat.add_mul_mod_self_left, Nat.mod_eq_of_lt hA]
      exact ⟨rfl, rfl⟩
    simp only [hget, hset, hval last hlast, Stands, hsign, hmm, two_pow_high]
    generalize hN : ofBytesLE (l0.map (BitVec.ofNat 8)) = N at *
    have and127 : last &&& 127 = last % 128 := Nat.and_two_pow_sub_one_eq_mod last 7
    have and63 : last &&& 63 = last % 64 := Nat.and_two_pow_sub_one_eq_mod last 6
    cases legacy with
    | true =>
      simp only [if_true, Bool.false_eq_true, reduceIte] at hsign ⊢
      rw [and127, hval _ (by omega), (hdm 128 (by omega)).1, (hdm 128 (by omega)).2]
      split
      · next h =>
        refine (dec_pure e _).congr fun p bs => ?_
        simp only [h, Affine.zero]
        tauto
      · next h =>
        refine (dec_decompress hv hs hn hc _ _).congr fun p bs => ?_
        have hb : (if decide (last >>> 7 ≠ 0) = true then 1 else 0) = last / 128 % 2 := by
          rw [Nat.shiftRight_eq_div_pow, ← bit_value last 128]
          have : last / 128 < 2 := by omega
          rw [Nat.mod_eq_of_lt this]
        rw [hb]
        simp only [h]
        tauto
    | false =>
      simp only [if_false, Bool.false_eq_true, reduceIte] at hsign ⊢
      rw [and63, hval _ (by omega), (hdm 64 (by omega)).1, (hdm 64 (by omega)).2]
      have hinf : decide (last >>> 7 ≠ 0) = true ↔ 256 ^ m * 128 ≤ N + 256 ^ m * last := by
        rw [decide_eq_true_iff, Nat.shiftRight_eq_div_pow, ← (hdm 128 (by omega)).2, Ne, Nat.div_eq_zero_iff]
        have : 0 < 256 ^ m := by positivity
        omega
      have hodd : (if decide (last >>> 6 &&& 1 ≠ 0) = true then 1 else 0) = last / 64 % 2 := by
        rw [Nat.shiftRight_eq_div_pow, Nat.and_one_is_mod]
        exact bit_value last 64
      split
      · next h =>
        have h' := And.intro h.1 (hinf.1 h.2)
        refine (dec_pure e _).congr fun p bs => ?_
        simp only [h'.1, h'.2, Affine.zero]
        tauto
      · next h =>
        refine (dec_decompress hv hs hn hc _ _).congr fun p bs => ?_
        rw [hodd]
        rw [hinf] at h
        simp only [forall_const, h]
        tauto
  · constructor
    · rintro ⟨l, b1, b2, ⟨h1, h2, rfl⟩, ⟨rfl, h3⟩, rfl⟩
      refine ⟨_, ?_, ?_, h3⟩
      · have := ofBytesLE_lt (l.map (BitVec.ofNat 8))
        rwa [List.length_map, h1] at this
      · have := bytesLE_ofBytesLE (l.map (BitVec.ofNat 8))
        rw [List.length_map, h1] at this
        rw [this, List.append_nil]
    · rintro ⟨v, hv, rfl, hst⟩
      have hid : ((bytesLE c.size v).map BitVec.toNat).map (BitVec.ofNat 8) = bytesLE c.size v := by
        rw [List.map_map, show (BitVec.ofNat 8 ∘ BitVec.toNat : Byte → Byte) = id by funext x; simp, List.map_id]
      refine ⟨(bytesLE c.size v).map BitVec.toNat, _, [], ⟨by simp [length_bytesLE], ?_, rfl⟩, ⟨rfl, ?_⟩, by rw [hid, List.append_nil]⟩
      · intro x hx
        obtain ⟨y, -, rfl⟩ := List.mem_map.1 hx
        exact y.isLt
      · rw [hid, ofBytesLE_bytesLE _ _ hv]
        exact hst

theorem code_lt {c : Codec B} (hc : c.Ok) (legacy : Bool) (p : Affine B) (hf : c.val p.x < signBit c legacy) :
    code c legacy p < 256 ^ c.size := by
  obtain ⟨m, hmm⟩ := size_pos hc
  rw [signBit_eq c legacy hmm] at hf
  unfold code
  rw [signBit_eq c legacy hmm, hmm, two_pow_high, pow_succ]
  have hp : 0 < 256 ^ m := by positivity
  have h2 : c.val p.y % 2 < 2 := Nat.mod_lt _ (by omega)
  generalize c.val p.y % 2 = o at *
  generalize 256 ^ m = M at *
  split
  · split <;> omega
  · cases legacy <;> simp only [Bool.false_eq_true, if_true, if_false] at hf ⊢ <;> interval_cases o <;> omega

theorem stands_code {cfg : Config B} {c : Codec B} (hc : c.Signed) (legacy : Bool) (p : Affine B) (hf : c.val p.x < signBit c legacy)
    (hw : Writable cfg legacy p) : Stands cfg c legacy (code c legacy p) p := by
  obtain ⟨m, hmm⟩ := size_pos hc.toOk
  have hsign := signBit_eq c legacy hmm
  have h0 : c.of 0 = 0 := by have := hc.of_val 0; rwa [hc.val_zero] at this
  have hp : 0 < 256 ^ m := by positivity
  unfold Stands code
  by_cases hz : p = ⟨0, 0⟩
  · rw [if_pos hz]
    refine .inl ⟨⟨?_, ?_⟩, hz⟩
    · cases legacy with
      | true => simpa using h0
      | false =>
        rw [hsign, hmm, two_pow_high]
        simp only [Bool.false_eq_true, if_false]
        rw [show 256 ^ m * 128 = 256 ^ m * 64 * 2 by ring, Nat.mul_mod_right, h0]
    · rintro rfl
      simp
  · rw [if_neg hz]
    obtain ⟨hon, hx⟩ := hw.resolve_left hz
    have hspos : 0 < signBit c legacy := by omega
    have h2 : c.val p.y % 2 < 2 := Nat.mod_lt _ (by omega)
    have hmod : (c.val p.x + c.val p.y % 2 * signBit c legacy) % signBit c legacy = c.val p.x := by
      rw [Nat.add_mul_mod_self_right, Nat.mod_eq_of_lt hf]
    have hdiv : (c.val p.x + c.val p.y % 2 * signBit c legacy) / signBit c legacy = c.val p.y % 2 := by
      rw [Nat.add_mul_div_right _ _ hspos, Nat.div_eq_of_lt hf, Nat.zero_add]
    simp only [hmod, hdiv, hc.of_val]
    refine .inr ⟨?_, trivial, hon, fun _ => (Nat.mod_mod _ _).symm⟩
    rintro ⟨a, b⟩
    cases legacy with
    | true => exact hx rfl a
    | false =>
      have b := b rfl
      rw [hmm, two_pow_high] at b
      rw [hsign] at b hf
      simp only [Bool.false_eq_true, if_false] at b hf
      have : c.val p.y % 2 * (256 ^ m * 64) ≤ 1 * (256 ^ m * 64) := Nat.mul_le_mul_right _ (by omega)
      omega

theorem serializes_compressed {cfg : Config B} (hv : cfg.Valid) {sqrt : B → Option B} (hs : ∀ v y, sqrt v = some y → y * y = v)
    (hn : ∀ v, sqrt v = none ↔ ¬ IsSquare v) {cB : Codec B} {cF : Codec F} (hB : cB.Signed) (hF : cF.Ok) (hm : env.maxSize < 2 ^ 64)
    (hl : Little env e) (legacy : Bool) (hf : ∀ x, cB.val x < signBit cB legacy) :
    Serializes env e (compressed env cfg sqrt cB cF legacy)
      (fun | .point p => Writable cfg legacy p | .scalar _ => True)
      (fun | .point p => digits cB.size (code cB legacy p) | .scalar v => digits cF.size (cF.num v)) where
  write m hg b he hgr ho hsz := by
    cases m with
    | point p =>
      simp only [length_digits] at hsz ⊢
      rw [← bytesLE_eq]
      exact writePoint_end hB.toOk hm legacy p (hf _) b he hgr ho hsz
    | scalar v =>
      simp only [length_digits] at hsz ⊢
      have := emits_end hm (emits_num hm hl cF.limbs (cF.num v)) b he hgr ho (by rw [length_bytesLE]; exact hsz)
      rw [length_bytesLE, bytesLE_eq] at this
      exact this
  point p hg b he ho hlen hp := by
    refine (dec_readPoint hv hs hn hB hm legacy b he ho hlen p _).2 ⟨_, ⟨_, code_lt hB.toOk legacy p (hf _), rfl,
      stands_code hB legacy p (hf _) hg⟩, ?_, ?_⟩
    · rw [bytesLE_eq]; exact hp
    · rw [length_bytesLE, length_digits]
  scalar v hg b he ho hlen hp := by
    refine (dec_bind (dec_readNum hm hl cF.limbs) (fun w => dec_pure e (cF.ofNum w)) b he ho hlen v _).2
      ⟨bytesLE cF.size (cF.num v), ⟨cF.num v, _, [], ⟨hF.num_lt v, rfl⟩, ⟨(hF.ofNum_num v).symm, rfl⟩, ?_⟩, ?_, ?_⟩
    · rw [List.append_nil]; rfl
    · rw [bytesLE_eq]; exact hp
    · rw [length_bytesLE, length_digits]

theorem serializes_uncompressed {cB : Codec B} {cF : Codec F} (hB : cB.Ok) (hF : cF.Ok) (hm : env.maxSize < 2 ^ 64)
    (hl : Little env e) :
    Serializes env e (uncompressed env cB cF) (fun _ => True)
      (fun | .point p => digits cB.size (cB.val p.x) ++ digits cB.size (cB.val p.y) | .scalar v => digits cF.size (cF.num v)) where
  write m hg b he hgr ho hsz := by
    cases m with
    | point p =>
      have := emits_end hm (emits_andThen hm (emits_num hm hl cB.limbs (cB.val p.x)) (emits_num hm hl cB.limbs (cB.val p.y))) b he hgr ho
        (by simpa [length_bytesLE, length_digits, Codec.size] using hsz)
      rw [bytesLE_eq, bytesLE_eq] at this
      exact this
    | scalar v =>
      have := emits_end hm (emits_num hm hl cF.limbs (cF.num v)) b he hgr ho (by simpa [length_bytesLE, length_digits, Codec.size] using hsz)
      rw [bytesLE_eq] at this
      exact this
  point p hg b he ho hlen hp := by
    refine (dec_bind (dec_readNum hm hl cB.limbs) (fun x => dec_bind (dec_readNum hm hl cB.limbs) fun y =>
      dec_pure e (⟨cB.of x, cB.of y⟩ : Affine B)) b he ho hlen p _).2
      ⟨_, ⟨cB.val p.x, _, _, ⟨hB.val_lt _, rfl⟩, ⟨cB.val p.y, _, [], ⟨hB.val_lt _, rfl⟩, ⟨?_, rfl⟩, rfl⟩, rfl⟩, ?_, ?_⟩
    · rw [hB.of_val, hB.of_val]
    · rw [bytesLE_eq, bytesLE_eq, List.append_nil]; exact hp
    · simp [length_bytesLE, length_digits, Codec.size]
  scalar v hg b he ho hlen hp := by
    refine (dec_bind (dec_readNum hm hl cF.limbs) (fun w => dec_pure e (cF.ofNum w)) b he ho hlen v _).2
      ⟨bytesLE cF.size (cF.num v), ⟨cF.num v, _, [], ⟨hF.num_lt v, rfl⟩, ⟨(hF.ofNum_num v).symm, rfl⟩, ?_⟩, ?_, ?_⟩
    · rw [List.append_nil]; rfl
    · rw [bytesLE_eq]; exact hp
    · rw [length_bytesLE, length_digits]

end

/-! ## Writer and reader -/

variable {P S : Type}

theorem proofOf_cons (bytes : Msg P F → List Byte) (a : Act P F) (as : List (Act P F)) :
    proofOf bytes (a :: as) = (match a.sent with | none => [] | some m => bytes m) ++ proofOf bytes as := by
  unfold proofOf
  rw [List.filterMap_cons]
  cases a.sent <;> simp

theorem sync {h : Hash P F S} {s : Serializer P F} {Good : Msg P F → Prop} {bytes : Msg P F → List Byte}
    (hs : Serializes env e s Good bytes) (hm : env.maxSize < 2 ^ 64) (as : List (Act P F)) :
    ∀ (st st' : S) (b : Buf), (∀ m, Act.send m ∈ as → Good m) → h.run (as.map Act.event) st = some st' → b.endian = e →
      b.growable = true → b.off = b.data.length → b.data.length + (proofOf bytes as).length ≤ env.maxSize →
    ∃ outs : List (Out P F), runWriter h s as (st, b) =
        some (some outs, st', { b with data := b.data ++ proofOf bytes as, off := b.off + (proofOf bytes as).length }) ∧
      outs.length = as.length ∧ (∀ (i : ℕ) (m : Msg P F), as[i]? = some (.send m) → outs[i]? = some (.msg m)) ∧
      (∀ i : ℕ, as[i]? = some .squeeze → ∃ s1 c s2, h.run ((as.take i).map Act.event) st = some s1 ∧ h.squeeze s1 = some (c, s2) ∧
        outs[i]? = some (.challenge c)) ∧
      ∀ rb : Buf, rb.endian = e → rb.off ≤ rb.data.length → rb.data.length < 2 ^ 64 → proofOf bytes as <+: rb.data.drop rb.off →
        runReader h s (as.map Act.ask) (st, rb) = some (some outs, st', { rb with off := rb.off + (proofOf bytes as).length }) := by
  induction as with
  | nil =>
    intro st st' b _ hr _ _ _ _
    simp only [List.map_nil, Hash.run, Option.some.injEq] at hr
    subst hr
    refine ⟨[], ?_, rfl, by simp, by simp, fun rb _ _ _ _ => ?_⟩
    · simp [runWriter, proofOf]
    · simp [runReader, proofOf]
  | cons a as ih =>
    intro st st' b hg hr he hgr ho hsz
    rw [proofOf_cons] at hsz
    have hg' : ∀ m, Act.send m ∈ as → Good m := fun m hm => hg m (List.mem_cons_of_mem _ hm)
    have hlift : ∀ (st1 : S) (ev : Out P F) (outs : List (Out P F)),
        (∀ l : List (Act P F), h.run ((a :: l).map Act.event) st = h.run (l.map Act.event) st1) →
        (∀ i : ℕ, as[i]? = some .squeeze → ∃ s1 c s2, h.run ((as.take i).map Act.event) st1 = some s1 ∧ h.squeeze s1 = some (c, s2) ∧
          outs[i]? = some (.challenge c)) →
        (a = .squeeze → ∃ c s2, h.squeeze st = some (c, s2) ∧ ev = .challenge c) →
        ∀ i, (a :: as)[i]? = some .squeeze → ∃ s1 c s2, h.run (((a :: as).take i).map Act.event) st = some s1 ∧
          h.squeeze s1 = some (c, s2) ∧ (ev :: outs)[i]? = some (.challenge c) := by
      intro st1 ev outs hst hq ha i hi
      cases i with
      | zero =>
        obtain ⟨c, s2, h1, rfl⟩ := ha (by simpa using hi)
        exact ⟨st, c, s2, rfl, h1, rfl⟩
      | succ i =>
        obtain ⟨s1, c, s2, h1, h2, h3⟩ := hq i (by simpa using hi)
        exact ⟨s1, c, s2, by rw [List.take_succ_cons, hst]; exact h1, h2, by simpa using h3⟩
    cases a with
    | tell m =>
      simp only [List.map_cons, Act.event, Hash.run, Option.bind_eq_some_iff] at hr
      obtain ⟨st1, h1, h2⟩ := hr
      obtain ⟨outs, hw, hlen, hsend, hsq, hrd⟩ := ih st1 st' b hg' h2 he hgr ho (by simpa [Act.sent] using hsz)
      refine ⟨.told :: outs, ?_, by simp [hlen], ?_, ?_, ?_⟩
      · simp only [runWriter, writerStep, h1, Option.map_some, Option.bind_some, if_true, hw, proofOf_cons, Act.sent, List.nil_append]
      · intro i m' hi
        cases i with
        | zero => simp at hi
        | succ i => simpa using hsend i m' (by simpa using hi)
      · exact hlift st1 _ outs (fun l => by simp [Act.event, Hash.run, h1]) hsq (by simp)
      · intro rb r1 r2 r3 r4
        rw [proofOf_cons] at r4 ⊢
        simp only [List.map_cons, Act.ask, runReader, readerStep, h1, Option.map_some, Option.bind_some]
        rw [hrd rb r1 r2 r3 r4]
        rfl
    | squeeze =>
      simp only [List.map_cons, Act.event, Hash.run, Option.bind_eq_some_iff] at hr
      obtain ⟨⟨c, st1⟩, h1, h2⟩ := hr
      obtain ⟨outs, hw, hlen, hsend, hsq, hrd⟩ := ih st1 st' b hg' h2 he hgr ho (by simpa [Act.sent] using hsz)
      refine ⟨.challenge c :: outs, ?_, by simp [hlen], ?_, ?_, ?_⟩
      · simp only [runWriter, writerStep, h1, Option.map_some, Option.bind_some, if_true, hw, proofOf_cons, Act.sent, List.nil_append]
      · intro i m' hi
        cases i with
        | zero => simp at hi
        | succ i => simpa using hsend i m' (by simpa using hi)
      · exact hlift st1 _ outs (fun l => by simp [Act.event, Hash.run, h1]) hsq (fun _ => ⟨c, st1, h1, rfl⟩)
      · intro rb r1 r2 r3 r4
        rw [proofOf_cons] at r4 ⊢
        simp only [List.map_cons, Act.ask, runReader, readerStep, h1, Option.map_some, Option.bind_some]
        rw [hrd rb r1 r2 r3 r4]
        rfl
    | send m =>
      simp only [List.map_cons, Act.event, Hash.run, Option.bind_eq_some_iff] at hr
      obtain ⟨st1, h1, h2⟩ := hr
      have hgm := hg m (by simp)
      simp only [Act.sent, List.length_append] at hsz
      have hwr := hs.write m hgm b he hgr ho (by omega)
      obtain ⟨outs, hw, hlen, hsend, hsq, hrd⟩ := ih st1 st'
        { b with data := b.data ++ bytes m, off := b.off + (bytes m).length } hg' h2 he hgr (by simp [ho])
        (by simp; omega)
      refine ⟨.msg m :: outs, ?_, by simp [hlen], ?_, ?_, ?_⟩
      · simp only [runWriter, writerStep, h1, Option.map_some, Option.bind_some, if_true, hwr, hw, proofOf_cons, Act.sent]
        simp [Nat.add_assoc]
      · intro i m' hi
        cases i with
        | zero => simp at hi; simp [hi]
        | succ i => simpa using hsend i m' (by simpa using hi)
      · exact hlift st1 _ outs (fun l => by simp [Act.event, Hash.run, h1]) hsq (by simp)
      · intro rb r1 r2 r3 r4
        rw [proofOf_cons] at r4 ⊢
        simp only [Act.sent] at r4 ⊢
        obtain ⟨t, ht⟩ := r4
        have hpre : bytes m <+: rb.data.drop rb.off := ⟨proofOf bytes as ++ t, by rw [← ht, List.append_assoc]⟩
        have hle := hpre.length_le
        rw [List.length_drop] at hle
        have hrest := hrd { rb with off := rb.off + (bytes m).length } r1 (by show rb.off + (bytes m).length ≤ rb.data.length; omega) r3
          ⟨t, by
            show _ = rb.data.drop (rb.off + (bytes m).length)
            rw [← List.drop_drop, ← ht, List.append_assoc, List.drop_left]⟩
        cases m with
        | point p =>
          simp only [List.map_cons, Act.ask, runReader, readerStep, hs.point p hgm rb r1 r2 r3 hpre, h1, Option.map_some, Option.bind_some,
            hrest]
          simp [Nat.add_assoc]
        | scalar v =>
          simp only [List.map_cons, Act.ask, runReader, readerStep, hs.scalar v hgm rb r1 r2 r3 hpre, h1, Option.map_some, Option.bind_some,
            hrest]
          simp [Nat.add_assoc]

theorem run_append (h : Hash P F S) (l1 l2 : Log P F) (st : S) : h.run (l1 ++ l2) st = (h.run l1 st).bind (h.run l2) := by
  induction l1 generalizing st with
  | nil => rfl
  | cons a l1 ih =>
    cases a with
    | absorb m => simp only [List.cons_append, Hash.run, Option.bind_assoc]; congr 1; funext s; exact ih s
    | squeeze => simp only [List.cons_append, Hash.run, Option.bind_assoc]; congr 1; funext r; exact ih r.2

/-! ## Blake2b -/

section
variable [Field B] [DecidableEq B]

/-- What Blake2b is given. -/
def b2bytes (cB : Codec B) (cF : Codec F) : Event (Affine B) F → List Byte
  | .absorb (.point p) => 1 :: if p.isZero then bytesLE cB.size 0 ++ bytesLE cB.size 5
      else bytesLE cB.size (cB.val p.x) ++ bytesLE cB.size (cB.val p.y)
  | .absorb (.scalar v) => 2 :: bytesLE cF.size (cF.val v)
  | .squeeze => [0]

theorem run_blake2b (cB : Codec B) (cF : Codec F) (hash : List Byte → List Byte) (wide : ℕ → F) (l : Log (Affine B) F) (st : List Byte) :
    (blake2b cB cF hash wide).run l st = some (st ++ l.flatMap (b2bytes cB cF)) := by
  induction l generalizing st with
  | nil => simp [Hash.run]
  | cons a l ih =>
    rcases a with (p | v) | _
    · simp only [Hash.run, blake2b, Option.bind_some]
      refine (ih _).trans ?_
      simp [b2bytes]
    · simp only [Hash.run, blake2b, Option.bind_some]
      refine (ih _).trans ?_
      simp [b2bytes]
    · simp only [Hash.run, blake2b, Option.bind_some]
      refine (ih _).trans ?_
      simp [b2bytes]

theorem bytesLE_inj {n u v : ℕ} (hu : u < 256 ^ n) (hv : v < 256 ^ n) (h : bytesLE n u = bytesLE n v) : u = v := by
  rw [← ofBytesLE_bytesLE n u hu, ← ofBytesLE_bytesLE n v hv, h]

theorem five_lt {c : Codec B} (hc : c.Ok) : 5 < 256 ^ c.size := by
  obtain ⟨m, hm⟩ := size_pos hc
  rw [hm, pow_succ]
  have : 0 < 256 ^ m := by positivity
  omega

theorem blake2b_inj {cB : Codec B} {cF : Codec F} (hB : cB.Signed) (hF : cF.Ok) (l1 l2 : Log (Affine B) F)
    (h1 : ∀ p, Event.absorb (.point p) ∈ l1 ++ l2 → ¬ (cB.val p.x = 0 ∧ cB.val p.y = 5))
    (h : l1.flatMap (b2bytes cB cF) = l2.flatMap (b2bytes cB cF)) : l1 = l2 := by
  induction l1 generalizing l2 with
  | nil =>
    cases l2 with
    | nil => rfl
    | cons a l2 => rcases a with (p | v) | _ <;> simp [b2bytes] at h
  | cons a l1 ih =>
    cases l2 with
    | nil => rcases a with (p | v) | _ <;> simp [b2bytes] at h
    | cons b l2 =>
      have ih' : ∀ l2', (∀ x ∈ l2', x ∈ l2) → l1.flatMap (b2bytes cB cF) = l2'.flatMap (b2bytes cB cF) → l1 = l2' := by
        intro l2' hsub heq
        refine ih l2' (fun p hp => h1 p ?_) heq
        rcases List.mem_append.1 hp with hp | hp
        · exact List.mem_append_left _ (List.mem_cons_of_mem _ hp)
        · exact List.mem_append_right _ (List.mem_cons_of_mem _ (hsub _ hp))
      have hinj : ∀ x y, cB.val x = cB.val y → x = y := fun x y hxy => by rw [← hB.of_val x, hxy, hB.of_val]
      rcases a with (p | v) | _ <;> rcases b with (q | w) | _ <;> simp only [List.flatMap_cons, b2bytes, List.cons_append,
        List.cons.injEq, List.nil_append, List.append_assoc] at h
      · obtain ⟨-, h⟩ := h
        have hp := h1 p (by simp)
        have hq := h1 q (by simp)
        have hpz : p.isZero = true → p = ⟨0, 0⟩ := (isZero_iff p).1
        have hqz : q.isZero = true → q = ⟨0, 0⟩ := (isZero_iff q).1
        have key : ∀ (a b c d : ℕ), a < 256 ^ cB.size → b < 256 ^ cB.size → c < 256 ^ cB.size → d < 256 ^ cB.size →
            bytesLE cB.size a ++ bytesLE cB.size b ++ l1.flatMap (b2bytes cB cF) =
              bytesLE cB.size c ++ bytesLE cB.size d ++ l2.flatMap (b2bytes cB cF) →
            a = c ∧ b = d ∧ l1.flatMap (b2bytes cB cF) = l2.flatMap (b2bytes cB cF) := by
          intro a b c d ha hb hc hd he
          obtain ⟨e1, e2⟩ := List.append_inj he (by simp [length_bytesLE])
          obtain ⟨e3, e4⟩ := List.append_inj e1 (by simp [length_bytesLE])
          exact ⟨bytesLE_inj ha hc e3, bytesLE_inj hb hd e4, e2⟩
        have hz := five_lt hB.toOk
        split at h <;> split at h
        · obtain ⟨-, -, e⟩ := key _ _ _ _ (by omega) hz (by omega) hz h
          rw [ih' l2 (fun _ h => h) e, hpz ‹_›, hqz ‹_›]
        · obtain ⟨e1, e2, e⟩ := key _ _ _ _ (by omega) hz (hB.val_lt _) (hB.val_lt _) h
          exact absurd ⟨e1.symm, e2.symm⟩ hq
        · obtain ⟨e1, e2, e⟩ := key _ _ _ _ (hB.val_lt _) (hB.val_lt _) (by omega) hz h
          exact absurd ⟨e1, e2⟩ hp
        · obtain ⟨e1, e2, e⟩ := key _ _ _ _ (hB.val_lt _) (hB.val_lt _) (hB.val_lt _) (hB.val_lt _) h
          rw [ih' l2 (fun _ h => h) e]
          obtain ⟨px, py⟩ := p
          obtain ⟨qx, qy⟩ := q
          rw [hinj px qx e1, hinj py qy e2]
      · exact absurd h.1 (by decide)
      · exact absurd h.1 (by decide)
      · exact absurd h.1 (by decide)
      · obtain ⟨e1, e2⟩ := List.append_inj h.2 (by simp [length_bytesLE])
        have e3 := bytesLE_inj (hF.val_lt _) (hF.val_lt _) e1
        rw [ih' l2 (fun _ h => h) e2, ← hF.of_val v, e3, hF.of_val]
      · exact absurd h.1 (by decide)
      · exact absurd h.1 (by decide)
      · exact absurd h.1 (by decide)
      · rw [ih' l2 (fun _ h => h) h.2]

/-! ## Sha256 -/

/-- What Sha256 is given for a message. -/
def shaBytes (cB : Codec B) (cF : Codec F) : Msg (Affine B) F → List Byte
  | .point p => List.replicate 31 0 ++ 1 :: ((digits cB.size (cB.val p.x)).reverse ++ (digits cB.size (cB.val p.y)).reverse)
  | .scalar v => List.replicate 31 0 ++ 2 :: (digits cF.size (cF.val v)).reverse

theorem sha_absorb (cB : Codec B) (cF : Codec F) (hash : List Byte → List Byte) (wide : ℕ → F) (m : Msg (Affine B) F) (st : List Byte) :
    (sha256 cB cF hash wide).absorb m st = some (st ++ shaBytes cB cF m) := by
  cases m <;> simp only [sha256, shaBytes, bytesLE_eq] <;> simp [List.append_assoc]

theorem sha_run_msgs (cB : Codec B) (cF : Codec F) (hash : List Byte → List Byte) (wide : ℕ → F) (ms : List (Msg (Affine B) F))
    (st : List Byte) : (sha256 cB cF hash wide).run (ms.map .absorb) st = some (st ++ ms.flatMap (shaBytes cB cF)) := by
  induction ms generalizing st with
  | nil => simp [Hash.run]
  | cons m ms ih => simp only [List.map_cons, Hash.run, sha_absorb, Option.bind_some, ih]; simp

theorem digested_append (hash : List Byte → List Byte) (msg : Msg P F → List Byte) (ms : List (Msg P F)) (l : Log P F) (st : List Byte) :
    digested hash msg (ms.map .absorb ++ l) st = digested hash msg l (st ++ ms.flatMap msg) := by
  induction ms generalizing st with
  | nil => simp
  | cons m ms ih => simp only [List.map_cons, List.cons_append, digested, ih]; simp

theorem sha_msgs_inj {cB : Codec B} {cF : Codec F} (hB : cB.Ok) (hF : cF.Ok) (l1 l2 : List (Msg (Affine B) F))
    (h : l1.flatMap (shaBytes cB cF) = l2.flatMap (shaBytes cB cF)) : l1 = l2 := by
  induction l1 generalizing l2 with
  | nil =>
    cases l2 with
    | nil => rfl
    | cons a l2 => rcases a with p | v <;> simp [shaBytes] at h
  | cons a l1 ih =>
    cases l2 with
    | nil => rcases a with p | v <;> simp [shaBytes] at h
    | cons b l2 =>
      have hinj : ∀ x y, cB.val x = cB.val y → x = y := fun x y hxy => by rw [← hB.of_val x, hxy, hB.of_val]
      rcases a with p | v <;> rcases b with q | w <;> simp only [List.flatMap_cons, shaBytes, List.append_assoc] at h <;>
        replace h := List.append_cancel_left h <;> simp only [List.cons_append, List.cons.injEq, List.append_assoc] at h
      · obtain ⟨-, h⟩ := h
        obtain ⟨e1, h⟩ := List.append_inj h (by simp [length_digits])
        obtain ⟨e2, h3⟩ := List.append_inj h (by simp [length_digits])
        have e1 := digits_inj (hB.val_lt _) (hB.val_lt _) (List.reverse_injective e1)
        have e2 := digits_inj (hB.val_lt _) (hB.val_lt _) (List.reverse_injective e2)
        obtain ⟨px, py⟩ := p
        obtain ⟨qx, qy⟩ := q
        rw [hinj px qx e1, hinj py qy e2, ih l2 h3]
      · exact absurd h.1 (by decide)
      · exact absurd h.1 (by decide)
      · obtain ⟨-, h⟩ := h
        obtain ⟨e1, h⟩ := List.append_inj h (by simp [length_digits])
        have e1 := digits_inj (hF.val_lt _) (hF.val_lt _) (List.reverse_injective e1)
        rw [ih l2 h, ← hF.of_val v, e1, hF.of_val]

end

/-- A log is messages only, or has messages behind its last squeeze. -/
theorem log_split (l : Log P F) : (∃ ms : List (Msg P F), l = ms.map .absorb) ∨
    ∃ (l' : Log P F) (ms : List (Msg P F)), l = l' ++ .squeeze :: ms.map .absorb := by
  induction l using List.reverseRecOn with
  | nil => exact .inl ⟨[], rfl⟩
  | append_singleton l a ih =>
    cases a with
    | squeeze => exact .inr ⟨l, [], rfl⟩
    | absorb m =>
      rcases ih with ⟨ms, rfl⟩ | ⟨l', ms, rfl⟩
      · exact .inl ⟨ms ++ [m], by simp⟩
      · exact .inr ⟨l', ms ++ [m], by simp⟩

section
variable [Field B] [DecidableEq B]

theorem digested_squeeze {cB : Codec B} {cF : Codec F} {hash : List Byte → List Byte} {wide : ℕ → F} (l l' : Log (Affine B) F)
    (st s : List Byte) (h : (sha256 cB cF hash wide).run l st = some s) :
    digested hash (shaBytes cB cF) (l ++ l') st = digested hash (shaBytes cB cF) l st ++ digested hash (shaBytes cB cF) l' s := by
  induction l generalizing st with
  | nil => simp only [Hash.run, Option.some.injEq] at h; subst h; simp [digested]
  | cons a l ih =>
    cases a with
    | absorb m =>
      simp only [Hash.run, sha_absorb, Option.bind_some] at h
      simp only [List.cons_append, digested]
      exact ih _ h
    | squeeze =>
      simp only [Hash.run, sha256, Option.bind_some] at h
      simp only [List.cons_append, digested]
      rw [ih _ h]

theorem sha_run_total (cB : Codec B) (cF : Codec F) (hash : List Byte → List Byte) (wide : ℕ → F) (l : Log (Affine B) F) (st : List Byte) :
    ∃ s, (sha256 cB cF hash wide).run l st = some s := by
  induction l generalizing st with
  | nil => exact ⟨st, rfl⟩
  | cons a l ih =>
    cases a with
    | absorb m => simp only [Hash.run, sha_absorb, Option.bind_some]; exact ih _
    | squeeze => simp only [Hash.run, sha256, Option.bind_some]; exact ih _

theorem sha_inj {cB : Codec B} {cF : Codec F} (hB : cB.Ok) (hF : cF.Ok) {hash : List Byte → List Byte} {wide : ℕ → F}
    (hlen : ∀ x, (hash x).length = 32) (n : ℕ) : ∀ (l1 l2 : Log (Affine B) F), l1.length ≤ n → ∀ s,
    (sha256 cB cF hash wide).run l1 [] = some s → (sha256 cB cF hash wide).run l2 [] = some s →
    l1 = l2 ∨
      (∃ x ∈ digested hash (shaBytes cB cF) l1 [], ∃ y ∈ digested hash (shaBytes cB cF) l2 [], x ≠ y ∧ hash x = hash y) ∨
      ∃ x ∈ digested hash (shaBytes cB cF) l1 [] ++ digested hash (shaBytes cB cF) l2 [], List.replicate 31 0 <+: hash x := by
  have hmix : ∀ (ms ms' : List (Msg (Affine B) F)) (x : List Byte),
      ms.flatMap (shaBytes cB cF) = hash x ++ ms'.flatMap (shaBytes cB cF) → List.replicate 31 0 <+: hash x := by
    intro ms ms' x h
    have hl := hlen x
    cases ms with
    | nil =>
      have := congrArg List.length h
      simp only [List.flatMap_nil, List.length_nil, List.length_append, hl] at this
      omega
    | cons m ms =>
      have hz : ∃ t, shaBytes cB cF m = List.replicate 31 0 ++ t := by cases m <;> exact ⟨_, rfl⟩
      obtain ⟨t, ht⟩ := hz
      rw [List.flatMap_cons, ht, List.append_assoc] at h
      have h1 : List.replicate 31 (0 : Byte) <+: hash x ++ ms'.flatMap (shaBytes cB cF) := ⟨_, h⟩
      exact List.prefix_of_prefix_length_le h1 (List.prefix_append _ _) (by simp [hl])
  induction n with
  | zero =>
    intro l1 l2 h1 s r1 r2
    obtain rfl : l1 = [] := List.length_eq_zero_iff.1 (by omega)
    simp only [Hash.run, Option.some.injEq] at r1
    subst r1
    rcases log_split l2 with ⟨ms, rfl⟩ | ⟨l', ms, rfl⟩
    · rw [sha_run_msgs] at r2
      simp only [List.nil_append, Option.some.injEq] at r2
      left
      have := sha_msgs_inj hB hF [] ms r2.symm
      rw [← this]; rfl
    · obtain ⟨s', hs'⟩ := sha_run_total cB cF hash wide l' []
      rw [run_append, hs', Option.bind_some] at r2
      simp only [Hash.run, sha256, Option.bind_some] at r2
      have r2' : (sha256 cB cF hash wide).run (ms.map .absorb) (hash (s' ++ [0])) = some [] := r2
      rw [sha_run_msgs] at r2'
      have := congrArg List.length (Option.some.inj r2')
      simp [hlen] at this
  | succ n ih =>
    intro l1 l2 h1 s r1 r2
    rcases log_split l1 with ⟨ms1, rfl⟩ | ⟨l1', ms1, rfl⟩ <;> rcases log_split l2 with ⟨ms2, rfl⟩ | ⟨l2', ms2, rfl⟩
    · rw [sha_run_msgs] at r1 r2
      left
      rw [sha_msgs_inj hB hF ms1 ms2 (by simpa using (Option.some.inj r1).trans (Option.some.inj r2).symm)]
    · obtain ⟨s', hs'⟩ := sha_run_total cB cF hash wide l2' []
      have hd := digested_squeeze l2' (.squeeze :: ms2.map .absorb) [] s' hs'
      rw [run_append, hs', Option.bind_some] at r2
      have r2' : (sha256 cB cF hash wide).run (ms2.map .absorb) (hash (s' ++ [0])) = some s := r2
      rw [sha_run_msgs] at r1 r2'
      right; right
      refine ⟨s' ++ [0], ?_, hmix ms1 ms2 _ (by simpa using (Option.some.inj r1).trans (Option.some.inj r2').symm)⟩
      rw [hd]
      simp [digested]
    · obtain ⟨s', hs'⟩ := sha_run_total cB cF hash wide l1' []
      have hd := digested_squeeze l1' (.squeeze :: ms1.map .absorb) [] s' hs'
      rw [run_append, hs', Option.bind_some] at r1
      have r1' : (sha256 cB cF hash wide).run (ms1.map .absorb) (hash (s' ++ [0])) = some s := r1
      rw [sha_run_msgs] at r1' r2
      right; right
      refine ⟨s' ++ [0], ?_, hmix ms2 ms1 _ (by simpa using (Option.some.inj r2).trans (Option.some.inj r1').symm)⟩
      rw [hd]
      simp [digested]
    · obtain ⟨s1, hs1⟩ := sha_run_total cB cF hash wide l1' []
      obtain ⟨s2, hs2⟩ := sha_run_total cB cF hash wide l2' []
      have hd1 := digested_squeeze l1' (.squeeze :: ms1.map .absorb) [] s1 hs1
      have hd2 := digested_squeeze l2' (.squeeze :: ms2.map .absorb) [] s2 hs2
      rw [run_append, hs1, Option.bind_some] at r1
      rw [run_append, hs2, Option.bind_some] at r2
      have r1' : (sha256 cB cF hash wide).run (ms1.map .absorb) (hash (s1 ++ [0])) = some s := r1
      have r2' : (sha256 cB cF hash wide).run (ms2.map .absorb) (hash (s2 ++ [0])) = some s := r2
      rw [sha_run_msgs] at r1' r2'
      have heq := (Option.some.inj r1').trans (Option.some.inj r2').symm
      obtain ⟨e1, e2⟩ := List.append_inj heq (by simp [hlen])
      have hms := sha_msgs_inj hB hF ms1 ms2 e2
      by_cases hne : s1 = s2
      · subst hne
        rcases ih l1' l2' (by simp at h1; omega) s1 hs1 hs2 with h | ⟨x, hx, y, hy, h⟩ | ⟨x, hx, h⟩
        · left; rw [h, hms]
        · right; left
          exact ⟨x, by rw [hd1]; exact List.mem_append_left _ hx, y, by rw [hd2]; exact List.mem_append_left _ hy, h⟩
        · right; right
          refine ⟨x, ?_, h⟩
          rw [hd1, hd2]
          rcases List.mem_append.1 hx with hx | hx
          · exact List.mem_append_left _ (List.mem_append_left _ hx)
          · exact List.mem_append_right _ (List.mem_append_left _ hx)
      · right; left
        refine ⟨s1 ++ [0], by rw [hd1]; simp [digested], s2 ++ [0], by rw [hd2]; simp [digested], ?_, e1⟩
        intro h
        exact hne (List.append_cancel_right h)

end

end Tachyon.Transcript
