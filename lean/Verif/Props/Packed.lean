import Verif.Proofs.Packed
import Verif.Props.SmallField
/-!
# Property C13: packed (SIMD) prime fields agree lane by lane with the scalar field
-/
namespace Tachyon.Props
open Tachyon.SmallField Tachyon.Packed

/-- Every lane holds a canonical word. -/
def Canonical (m : BitVec 32) (a : List (BitVec 32)) : Prop := ∀ x ∈ a, x.toNat < m.toNat

theorem packed2_eq {m : BitVec 32} {f : Quad → Quad → Quad} {g : BitVec 32 → BitVec 32 → BitVec 32}
    (h : ∀ x y : Quad, x.lo.toNat < m.toNat → x.hi.toNat < m.toNat → y.lo.toNat < m.toNat →
      y.hi.toNat < m.toNat → f x y = ⟨g x.lo y.lo, g x.hi y.hi⟩) :
    ∀ a b : List (BitVec 32), a.length % 2 = 0 → a.length = b.length → Canonical m a →
      Canonical m b → packed2 f a b = List.zipWith g a b
  | [], b, _, hl, _, _ => by
    have : b = [] := List.length_eq_zero_iff.1 hl.symm
    subst this; rfl
  | [x], _, he, _, _, _ => by simp at he
  | x0 :: x1 :: xs, [], _, hl, _, _ => by simp at hl
  | x0 :: x1 :: xs, [_], _, hl, _, _ => by simp at hl
  | x0 :: x1 :: xs, y0 :: y1 :: ys, he, hl, ha, hb => by
    have ih := packed2_eq h xs ys (by simp at he ⊢; omega) (by simpa using hl)
      (fun z hz => ha z (by simp [hz])) (fun z hz => hb z (by simp [hz]))
    have e := h ⟨x0, x1⟩ ⟨y0, y1⟩ (ha _ (by simp)) (ha _ (by simp)) (hb _ (by simp)) (hb _ (by simp))
    simp only [packed2, toVector, List.zipWith, fromVector, e] at ih ⊢
    rw [ih]

theorem packed1_eq {m : BitVec 32} {f : Quad → Quad} {g : BitVec 32 → BitVec 32}
    (h : ∀ x : Quad, x.lo.toNat < m.toNat → x.hi.toNat < m.toNat → f x = ⟨g x.lo, g x.hi⟩) :
    ∀ a : List (BitVec 32), a.length % 2 = 0 → Canonical m a → packed1 f a = a.map g
  | [], _, _ => rfl
  | [x], he, _ => by simp at he
  | x0 :: x1 :: xs, he, ha => by
    have ih := packed1_eq h xs (by simp at he ⊢; omega) (fun z hz => ha z (by simp [hz]))
    have e := h ⟨x0, x1⟩ (ha _ (by simp)) (ha _ (by simp))
    simp only [packed1, toVector, List.map, fromVector, e] at ih ⊢
    rw [ih]

/-- C13: packed addition (AVX2 and AVX512 use the same instructions) is scalar addition in every
lane. -/
theorem C13_add {c : Config} (hc : IsConfig c) (a b : List (BitVec 32))
    (he : a.length % 2 = 0) (hl : a.length = b.length)
    (ha : Canonical c.modulus a) (hb : Canonical c.modulus b) :
    packed2 (addMod32 (set1 c.modulus)) a b = List.zipWith (addMod c) a b := by
  have hle := hc.reduces.le
  refine packed2_eq (fun x y h1 h2 h3 h4 => ?_) a b he hl ha hb
  have lane : ∀ u v : BitVec 32, u.toNat < c.modulus.toNat → v.toNat < c.modulus.toNat →
      minU (u + v) (u + v - c.modulus) = addMod c u v := by
    intro u v hu hv
    have e : (u + v).toNat = u.toNat + v.toNat := by
      rw [BitVec.toNat_add, Nat.mod_eq_of_lt (by omega)]
    apply BitVec.eq_of_toNat_eq
    rw [minU_sub _ _ hle (by omega), addMod_spec hc.reduces u v hu hv, e]
  simp only [addMod32, minEpu32, addEpi32, subEpi32, set1, lane _ _ h1 h3, lane _ _ h2 h4]

/-- C13: packed subtraction (AVX2, AVX512) is scalar subtraction in every lane. -/
theorem C13_sub {c : Config} (hc : IsConfig c) (a b : List (BitVec 32))
    (he : a.length % 2 = 0) (hl : a.length = b.length)
    (ha : Canonical c.modulus a) (hb : Canonical c.modulus b) :
    packed2 (subMod32 (set1 c.modulus)) a b = List.zipWith (subMod c) a b := by
  have hle := hc.reduces.le
  refine packed2_eq (fun x y h1 h2 h3 h4 => ?_) a b he hl ha hb
  have lane : ∀ u v : BitVec 32, u.toNat < c.modulus.toNat → v.toNat < c.modulus.toNat →
      minU (u - v) (u - v + c.modulus) = subMod c u v := by
    intro u v hu hv
    apply BitVec.eq_of_toNat_eq
    rw [subLane _ _ _ hle hu hv, subMod_spec hc.reduces u v hu hv]
  simp only [subMod32, minEpu32, addEpi32, subEpi32, set1, lane _ _ h1 h3, lane _ _ h2 h4]

theorem negLane_eq {c : Config} (hc : IsConfig c) (v : BitVec 32) (hv : v.toNat < c.modulus.toNat) :
    (if v = 0#32 then 0#32 else c.modulus - v) = negate c v := by
  apply BitVec.eq_of_toNat_eq
  rw [negSub _ _ hv, negate, subMod_spec hc.reduces _ _ (by simpa using hc.reduces.pos) hv]
  simp

/-- C13: packed negation with AVX2 (`vpsignd`); the sign instruction needs words below `2^31`. -/
theorem C13_negate_avx2 {c : Config} (hc : IsConfig c) (a : List (BitVec 32))
    (he : a.length % 2 = 0) (ha : Canonical c.modulus a) :
    packed1 (negateMod32 (set1 c.modulus)) a = a.map (negate c) := by
  have hle := hc.reduces.le
  refine packed1_eq (fun x h1 h2 => ?_) a he ha
  have lane : ∀ v : BitVec 32, v.toNat < c.modulus.toNat →
      signLane (c.modulus - v) v = negate c v := by
    intro v hv
    rw [← negLane_eq hc v hv, signLane, if_neg]
    rw [BitVec.toInt_eq_toNat_cond, if_pos (by omega)]
    omega
  simp only [negateMod32, signEpi32, subEpi32, set1, lane _ h1, lane _ h2]

/-- C13: packed negation with AVX512. -/
theorem C13_negate_avx512 {c : Config} (hc : IsConfig c) (a : List (BitVec 32))
    (he : a.length % 2 = 0) (ha : Canonical c.modulus a) :
    packed1 (negateMod512 (set1 c.modulus)) a = a.map (negate c) := by
  refine packed1_eq (fun x h1 h2 => ?_) a he ha
  have lane : ∀ v : BitVec 32, v.toNat < c.modulus.toNat →
      negateLane512 c.modulus v = negate c v := by
    intro v hv
    rw [← negLane_eq hc v hv, negateLane512, ite_not]
  simp only [negateMod512, set1, lane _ h1, lane _ h2]

/-- C13: packed Montgomery multiplication with AVX2: every even and odd lane is the scalar
product, for every odd modulus below `2^31`. -/
theorem C13_mul_avx2 (m : BitVec 32) (hodd : m.toNat % 2 = 1) (hm : m.toNat < 2 ^ 31)
    (a b : List (BitVec 32)) (he : a.length % 2 = 0) (hl : a.length = b.length)
    (ha : Canonical m a) (hb : Canonical m b) :
    packed2 (montMulMod32 (set1 m) (set1 (kInverse32 m))) a b = List.zipWith (montMul m) a b := by
  have hinv := kInverse32_spec m hodd
  refine packed2_eq (fun x y h1 h2 h3 h4 => ?_) a b he hl ha hb
  exact recombine_eq hm (montyMul_rep hinv hodd hm h1 h3)
    (montyMul_rep (l := movehdup x) (r := movehdup y) hinv hodd hm h2 h4)

/-- C13: packed Montgomery multiplication with AVX512. -/
theorem C13_mul_avx512 (m : BitVec 32) (hodd : m.toNat % 2 = 1)
    (a b : List (BitVec 32)) (he : a.length % 2 = 0) (hl : a.length = b.length)
    (ha : Canonical m a) (hb : Canonical m b) :
    packed2 (montMulMod512 (set1 m) (set1 (kInverse32 m))) a b = List.zipWith (montMul m) a b := by
  have hinv := kInverse32_spec m hodd
  refine packed2_eq (fun x y h1 h2 h3 h4 => ?_) a b he hl ha hb
  have e1 := mont512_lane (l := x) (r := y) hinv hodd h1
  have e2 := mont512_lane (l := movehdup x) (r := movehdup y) hinv hodd h2
  simp only [montMulMod512, maskMovehdupEvens]
  simp only [set1, movehdup] at e1 e2 ⊢
  rw [e1, e2]

/-- C13: the AVX2 fast powers `Exp3`, `Exp5`, `Exp7` (used by the Poseidon2 S-box) are the scalar
powers in every lane. -/
theorem C13_exp_avx2 (m : BitVec 32) (hodd : m.toNat % 2 = 1) (hm : m.toNat < 2 ^ 31)
    (a : List (BitVec 32)) (he : a.length % 2 = 0) (ha : Canonical m a) :
    let o : MulOps (BitVec 32) := ⟨montOne m, montMul m, fun x => montMul m x x⟩
    packed1 (exp3 (set1 m) (set1 (kInverse32 m))) a = a.map (constPow o 3#32) ∧
    packed1 (exp5 (set1 m) (set1 (kInverse32 m))) a = a.map (constPow o 5#32) ∧
    (packed1 (exp7 (set1 m) (set1 (kInverse32 m))) a).map (montToInt m) =
      (a.map (constPow o 7#32)).map (montToInt m) := by
  have hinv := kInverse32_spec m hodd
  have r : ∀ v : BitVec 32, v.toNat < m.toNat → Rep m v v := fun v hv => Rep.self hm hv
  refine ⟨packed1_eq (fun x h1 h2 => ?_) a he ha, packed1_eq (fun x h1 h2 => ?_) a he ha, ?_⟩
  · exact recombine_eq hm (doExp3_rep (x := x) hinv hodd hm (r _ h1))
      (doExp3_rep (x := movehdup x) hinv hodd hm (r _ h2))
  · exact recombine_eq hm (doExp5_rep (x := x) hinv hodd hm (r _ h1))
      (doExp5_rep (x := movehdup x) hinv hodd hm (r _ h2))
  · rw [packed1_eq (f := exp7 (set1 m) (set1 (kInverse32 m))) (g := fun v => montMul m (montMul m (montMul m v v) (montMul m v v))
      (montMul m (montMul m v v) v)) (fun x h1 h2 => recombine_eq hm
        (doExp7_rep (x := x) hinv hodd hm (r _ h1))
        (doExp7_rep (x := movehdup x) hinv hodd hm (r _ h2))) a he ha]
    rw [List.map_map, List.map_map]
    apply List.map_congr_left
    intro v hv
    have h0 := ha v hv
    have c2 := (montMul_spec m v v hodd h0).1
    have c4 := (montMul_spec m _ (montMul m v v) hodd c2).1
    have c6 := (montMul_spec m _ (montMul m v v) hodd c4).1
    apply BitVec.eq_of_toNat_eq
    change (montToInt m (montMul m (montMul m (montMul m v v) (montMul m v v))
      (montMul m (montMul m v v) v))).toNat =
      (montToInt m (montMul m (montMul m (montMul m (montMul m v v) (montMul m v v))
        (montMul m v v)) v)).toNat
    rw [montMul_denotes m _ _ hodd c4, montMul_denotes m _ v hodd c6,
      montMul_denotes m _ (montMul m v v) hodd c4, montMul_denotes m (montMul m v v) v hodd c2,
      Nat.mod_mul_mod, Nat.mul_mod_mod, ← Nat.mul_assoc]

/-- C13: NEON addition, subtraction and negation, lane by lane. -/
theorem C13_add_sub_negate_neon {c : Config} (hc : IsConfig c) (l r : BitVec 32)
    (hl : l.toNat < c.modulus.toNat) (hr : r.toNat < c.modulus.toNat) :
    addNeon c.modulus l r = addMod c l r ∧ subNeon c.modulus l r = subMod c l r ∧
      negateNeon c.modulus l = negate c l := by
  have hle := hc.reduces.le
  refine ⟨?_, ?_, ?_⟩ <;> apply BitVec.eq_of_toNat_eq
  · have e : (l + r).toNat = l.toNat + r.toNat := by
      rw [BitVec.toNat_add, Nat.mod_eq_of_lt (by omega)]
    rw [addNeon, reduceSumNeon, minU_sub _ _ hle (by omega), addMod_spec hc.reduces l r hl hr, e]
  · rw [subNeon_spec _ _ _ hl hr, subMod_spec hc.reduces l r hl hr]
  · rw [negateNeon_spec _ _ hl, negate,
      subMod_spec hc.reduces _ _ (by simpa using hc.reduces.pos) hl]
    simp

/-- C13: NEON Montgomery multiplication, lane by lane. -/
theorem C13_mul_neon (m l r : BitVec 32) (hodd : m.toNat % 2 = 1) (hm : m.toNat < 2 ^ 31)
    (hl : l.toNat < m.toNat) (hr : r.toNat < m.toNat) :
    montMulNeon m (kInverse32 m) l r = montMul m l r :=
  montMulNeon_eq (kInverse32_spec m hodd) hodd hm hl hr

/-- C13: packed Mersenne31 multiplication with AVX2 and AVX512 is the scalar one in every lane. -/
theorem C13_mul_mersenne31 (a b : List (BitVec 32)) (he : a.length % 2 = 0)
    (hl : a.length = b.length) (ha : Canonical mersenne31.modulus a)
    (hb : Canonical mersenne31.modulus b) :
    packed2 (mersenneMulAVX2 (set1 mersenne31.modulus)) a b = List.zipWith (mul mersenne31) a b ∧
    packed2 (mersenneMul512 (set1 mersenne31.modulus)) a b = List.zipWith (mul mersenne31) a b := by
  have hp : mersenne31.modulus.toNat = 2 ^ 31 - 1 := by decide
  have ext : ∀ (q : Quad) (x y : BitVec 32), q.lo.toNat = x.toNat → q.hi.toNat = y.toNat →
      q = ⟨x, y⟩ := by
    intro q x y h1 h2
    cases q
    simp only [Quad.mk.injEq]
    exact ⟨BitVec.eq_of_toNat_eq h1, BitVec.eq_of_toNat_eq h2⟩
  constructor
  · refine packed2_eq (fun x y h1 h2 h3 h4 => ?_) a b he hl ha hb
    rw [hp] at h1 h2 h3 h4
    apply ext
    · rw [C12_mul_mersenne31 _ _ h1 h3]; exact mersenneAVX2_lo x y h1 h3
    · rw [C12_mul_mersenne31 _ _ h2 h4]; exact mersenneAVX2_hi x y h2 h4 (by omega)
  · refine packed2_eq (fun x y h1 h2 h3 h4 => ?_) a b he hl ha hb
    rw [hp] at h1 h2 h3 h4
    apply ext
    · rw [C12_mul_mersenne31 _ _ h1 h3]; exact mersenne512_lo x y h1 h3
    · rw [C12_mul_mersenne31 _ _ h2 h4]; exact mersenne512_hi x y h2 h4 (by omega)

/-- C13: NEON Mersenne31 multiplication, lane by lane. -/
theorem C13_mul_mersenne31_neon (l r : BitVec 32) (hl : l.toNat < 2 ^ 31 - 1)
    (hr : r.toNat < 2 ^ 31 - 1) :
    mersenneMulNeon mersenne31.modulus l r = mul mersenne31 l r :=
  BitVec.eq_of_toNat_eq (by
    rw [C12_mul_mersenne31 _ _ hl hr]; exact mersenneNeon_eq l r hl hr)

-- two lanes of BabyBear words; the odd lane exercises the negative branch
example :
    let m := 2013265921#32
    packed2 (montMulMod32 (set1 m) (set1 (kInverse32 m))) [5#32, 2013265920#32]
      [7#32, 2013265919#32] =
      [montMul m 5#32 7#32, montMul m 2013265920#32 2013265919#32] ∧
    montMulNeon m (kInverse32 m) 5#32 7#32 = montMul m 5#32 7#32 := by decide +kernel

example : packed2 (mersenneMulAVX2 (set1 2147483647#32)) [2147483646#32, 3#32]
    [2147483646#32, 5#32] = [1#32, 15#32] := by decide +kernel

end Tachyon.Props
