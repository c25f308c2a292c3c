import Verif.Proofs.Transcript
/-! Lemmas on the sponges of transcripts, and on `FromUint512`. -/
namespace Tachyon.Transcript
open Tachyon.Buffer Tachyon.Curve Tachyon.Halo2
open Tachyon.Sponge (addAt)

section
variable {F : Type} [Field F]

theorem addAt_mapIdx (xs : List F) (k : ℕ) (s : List F) (h : k + xs.length ≤ s.length) :
    addAt k xs s = some (s.mapIdx fun i y => if i < k then y else y + xs.getD (i - k) 0) := by
  induction xs generalizing k s with
  | nil =>
    rw [addAt]
    congr 1
    apply List.ext_getElem (by simp)
    intro i h1 h2
    simp
  | cons x xs ih =>
    rw [List.length_cons] at h
    have hk : k < s.length := by omega
    rw [addAt, List.getElem?_eq_getElem hk, Option.bind_some, ih (k + 1) _ (by simp; omega)]
    congr 1
    apply List.ext_getElem (by simp)
    intro i h1 h2
    simp only [List.getElem_mapIdx, List.getElem_set]
    rcases Nat.lt_trichotomy i k with hi | hi | hi
    · rw [if_pos (by omega), if_neg (by omega), if_pos hi]
    · subst hi
      simp
    · rw [if_neg (by omega), if_neg (by omega), if_neg (by omega)]
      obtain ⟨j, rfl⟩ : ∃ j, i = k + 1 + j := ⟨i - k - 1, by omega⟩
      rw [show k + 1 + j - (k + 1) = j by omega, show k + 1 + j - k = j + 1 by omega, List.getD_cons_succ]

/-- A block is added behind the first element. -/
def block (st xs : List F) : List F := st.mapIdx fun i s => if i = 0 then s else s + xs.getD (i - 1) 0

theorem length_block (st xs : List F) : (block st xs).length = st.length := by simp [block]

theorem addAt_block (xs st : List F) (h : 1 + xs.length ≤ st.length) : addAt 1 xs st = some (block st xs) := by
  rw [addAt_mapIdx xs 1 st h]
  simp only [Nat.lt_one_iff]
  rfl

theorem addAt_one (xs st : List F) (h : xs.length + 2 ≤ st.length) :
    addAt (xs.length + 1) [1] (block st xs) = some (block st (xs ++ [1])) := by
  rw [addAt_mapIdx [1] _ _ (by rw [length_block]; simp; omega)]
  congr 1
  apply List.ext_getElem (by simp [block])
  intro i h1 h2
  simp only [block, List.getElem_mapIdx]
  rcases Nat.lt_trichotomy i (xs.length + 1) with hi | hi | hi
  · rw [if_pos hi]
    by_cases h0 : i = 0
    · rw [if_pos h0, if_pos h0]
    · rw [if_neg h0, if_neg h0, List.getD_append _ _ _ _ (by omega)]
  · subst hi
    simp
  · rw [if_neg (by omega), if_neg (by omega), if_neg (by omega)]
    simp only [List.getD_eq_getElem?_getD]
    rw [List.getElem?_eq_none (by omega), List.getElem?_eq_none (by simp; omega), List.getElem?_eq_none (by simp; omega)]
    simp

variable (p : Sponge F)

/-- The full blocks go in; the elements and the rest. -/
def full (st xs : List F) : List F × List F :=
  if h : 0 < p.rate ∧ p.rate ≤ xs.length then full (p.permute (block st (xs.take p.rate))) (xs.drop p.rate) else (st, xs)
termination_by xs.length
decreasing_by simp; omega

theorem full_step {st xs : List F} (h0 : 0 < p.rate) (h : p.rate ≤ xs.length) :
    full p st xs = full p (p.permute (block st (xs.take p.rate))) (xs.drop p.rate) := by
  rw [full, dif_pos ⟨h0, h⟩]

theorem full_stop {st xs : List F} (h : xs.length < p.rate) : full p st xs = (st, xs) := by
  rw [full, dif_neg (by omega)]

theorem full_rest (h0 : 0 < p.rate) (n : ℕ) : ∀ st xs : List F, xs.length ≤ n → (full p st xs).2.length < p.rate := by
  induction n with
  | zero =>
    intro st xs h
    rw [full_stop p (by omega)]
    show xs.length < _
    omega
  | succ n ih =>
    intro st xs h
    by_cases hl : p.rate ≤ xs.length
    · rw [full_step p h0 hl]
      exact ih _ _ (by simp; omega)
    · rw [full_stop p (by omega)]
      show xs.length < _
      omega

theorem full_append (h0 : 0 < p.rate) (n : ℕ) : ∀ st xs ys : List F, xs.length ≤ n →
    full p st (xs ++ ys) = full p (full p st xs).1 ((full p st xs).2 ++ ys) := by
  induction n with
  | zero =>
    intro st xs ys h
    rw [full_stop p (xs := xs) (by omega)]
  | succ n ih =>
    intro st xs ys h
    by_cases hl : p.rate ≤ xs.length
    · rw [full_step p h0 (xs := xs ++ ys) (by simp; omega), full_step p h0 hl, List.take_append_of_le_length hl,
        List.drop_append_of_le_length hl]
      exact ih _ _ _ (by simp; omega)
    · rw [full_stop p (xs := xs) (by omega)]

theorem full_length (hp : ∀ s, (p.permute s).length = s.length) (h0 : 0 < p.rate) (n : ℕ) : ∀ st xs : List F, xs.length ≤ n →
    (full p st xs).1.length = st.length := by
  induction n with
  | zero =>
    intro st xs h
    rw [full_stop p (by omega)]
  | succ n ih =>
    intro st xs h
    by_cases hl : p.rate ≤ xs.length
    · rw [full_step p h0 hl, ih _ _ (by simp; omega), hp, length_block]
    · rw [full_stop p (by omega)]

/-- What is in the sponge after a squeeze. -/
def squeezed (st xs : List F) : List F := p.permute (block (full p st xs).1 ((full p st xs).2 ++ [1]))

theorem squeezed_of {st xs r : List F} (h0 : 0 < p.rate) (h : Squeezed p.rate p.permute st xs r) : r = squeezed p st xs := by
  induction h with
  | last h => rw [squeezed, full_stop p h]; rfl
  | @block st xs ys r h hr ih =>
    rw [ih, squeezed, squeezed, full_step p h0 (xs := xs ++ ys) (by simp; omega), List.take_left' h, List.drop_left' h]
    rfl

theorem squeezed_exists (h0 : 0 < p.rate) (n : ℕ) : ∀ st xs : List F, xs.length ≤ n → Squeezed p.rate p.permute st xs (squeezed p st xs) := by
  induction n with
  | zero =>
    intro st xs h
    rw [squeezed, full_stop p (by omega)]
    exact .last (by omega)
  | succ n ih =>
    intro st xs h
    by_cases hl : p.rate ≤ xs.length
    · have := ih (p.permute (block st (xs.take p.rate))) (xs.drop p.rate) (by simp; omega)
      rw [squeezed, full_step p h0 hl]
      have h2 := Squeezed.block (rate := p.rate) (permute := p.permute) (st := st) (xs := xs.take p.rate) (ys := xs.drop p.rate)
        (by simp [hl]) this
      rwa [List.take_append_drop] at h2
    · rw [squeezed, full_stop p (by omega)]
      exact .last (by omega)

variable (hp : ∀ s, (p.permute s).length = s.length) (h0 : 0 < p.rate)
include hp h0

omit [Field F] hp in
theorem chunks_lt (n i : ℕ) : i < (n + p.rate - 1) / p.rate ↔ i * p.rate < n := by
  rw [← Nat.succ_le_iff, Nat.le_div_iff_mul_le h0, Nat.succ_mul]
  omega

theorem poseidonChunks_eq (input : List F) (N : ℕ) (hN : N = (input.length + p.rate - 1) / p.rate) (fuel : ℕ) :
    ∀ (i : ℕ) (st : SpongeSt F), i + fuel = N → st.elems.length = p.rate + 1 → (input.drop (i * p.rate) = [] → st.pending = []) →
      poseidonChunks p input N fuel i st =
        some ⟨(full p st.elems (input.drop (i * p.rate))).2, (full p st.elems (input.drop (i * p.rate))).1⟩ := by
  have hlt := chunks_lt p h0 input.length
  rw [← hN] at hlt
  induction fuel with
  | zero =>
    intro i st hi hl hpend
    have hnil : input.drop (i * p.rate) = [] := by
      apply List.drop_eq_nil_of_le
      have := (hlt i).not.1 (by omega)
      omega
    rw [poseidonChunks, hnil, full_stop p (by simpa using h0), ← hpend hnil]
  | succ fuel ih =>
    intro i st hi hl hpend
    have hi1 := (hlt i).1 (by omega)
    have hL : (input.drop (i * p.rate)).length = input.length - i * p.rate := by simp
    have hnext := hlt (i + 1)
    rw [Nat.succ_mul] at hnext
    rw [poseidonChunks, if_pos (by omega)]
    dsimp only
    by_cases hpart : input.length - i * p.rate < p.rate
    · have hlast : i = N - 1 := by
        have := hnext.not.2 (by omega)
        omega
      have hfuel : fuel = 0 := by omega
      subst hfuel
      rw [if_pos hlast, if_pos hpart, poseidonChunks, ← hL, List.take_length, full_stop p (by rw [hL]; exact hpart)]
    · have hlen : ¬ (if i = N - 1 then input.length - i * p.rate else p.rate) < p.rate := by
        split
        · exact hpart
        · omega
      rw [if_neg hlen]
      have hchunk : ((input.drop (i * p.rate)).take (if i = N - 1 then input.length - i * p.rate else p.rate)).take p.rate =
          (input.drop (i * p.rate)).take p.rate := by
        rw [List.take_take, Nat.min_eq_left (by omega)]
      rw [hchunk, addAt_block _ _ (by rw [List.length_take, hL, hl]; omega), Option.bind_some,
        ih (i + 1) _ (by omega) (by rw [hp, length_block, hl]) (fun _ => rfl), full_step p h0 (xs := input.drop (i * p.rate)) (by omega),
        List.drop_drop, Nat.succ_mul]

theorem poseidonUpdate_eq (data : List F) (st : SpongeSt F) (hl : st.elems.length = p.rate + 1) :
    poseidonUpdate p data st =
      some ⟨(full p st.elems (st.pending ++ data)).2, (full p st.elems (st.pending ++ data)).1⟩ := by
  have := poseidonChunks_eq p hp h0 (st.pending ++ data) _ rfl _ 0 st (Nat.zero_add _) hl (by
    intro h
    simp at h
    exact h.1)
  simpa [poseidonUpdate] using this

omit h0 in
theorem poseidonSqueeze_eq (st : SpongeSt F) (hl : st.elems.length = p.rate + 1) (hr : st.pending.length < p.rate) :
    ∃ x, (squeezed p st.elems st.pending)[1]? = some x ∧ poseidonSqueeze p st = some (x, ⟨[], squeezed p st.elems st.pending⟩) := by
  rw [poseidonSqueeze, addAt_block _ _ (by simp; omega), Option.bind_some, squeezed, full_stop p hr]
  have : 1 < (p.permute (block st.elems (st.pending ++ [1]))).length := by rw [hp, length_block]; omega
  exact ⟨_, List.getElem?_eq_getElem this, by dsimp only; rw [List.getElem?_eq_getElem this]; rfl⟩

theorem snarkChunks_eq (buf : List F) (N : ℕ) (hN : N = (buf.length + p.rate - 1) / p.rate) (fuel : ℕ) :
    ∀ (i : ℕ) (s : List F), i + fuel = N → s.length = p.rate + 1 → (buf.drop (i * p.rate) = [] → buf.length = N * p.rate) →
      ∃ r, snarkChunks p buf N fuel i s = some r ∧ r.length = p.rate + 1 ∧
        (if buf.length = N * p.rate then p.permute (block r [1]) else r) = squeezed p s (buf.drop (i * p.rate)) := by
  have hlt := chunks_lt p h0 buf.length
  rw [← hN] at hlt
  induction fuel with
  | zero =>
    intro i s hi hl hend
    have hnil : buf.drop (i * p.rate) = [] := by
      apply List.drop_eq_nil_of_le
      have := (hlt i).not.1 (by omega)
      omega
    refine ⟨s, rfl, hl, ?_⟩
    rw [if_pos (hend hnil), hnil, squeezed, full_stop p (by simpa using h0)]
    rfl
  | succ fuel ih =>
    intro i s hi hl hend
    have hi1 := (hlt i).1 (by omega)
    have hL : (buf.drop (i * p.rate)).length = buf.length - i * p.rate := by simp
    have hnext := hlt (i + 1)
    rw [Nat.succ_mul] at hnext
    rw [snarkChunks, if_pos (by omega)]
    dsimp only
    by_cases hpart : buf.length - i * p.rate < p.rate
    · have hNi : N = i + 1 := by
        have := hnext.not.2 (by omega)
        omega
      have hfuel : fuel = 0 := by omega
      subst hfuel
      have hmin : min (i * p.rate + p.rate) buf.length - i * p.rate = (buf.drop (i * p.rate)).length := by omega
      rw [hmin, List.take_length, addAt_block _ _ (by omega), Option.bind_some, if_pos (by rw [length_block]; omega),
        addAt_one _ _ (by omega), Option.bind_some, snarkChunks]
      refine ⟨_, rfl, by rw [hp, length_block, hl], ?_⟩
      rw [if_neg (by rw [hNi, Nat.succ_mul]; omega), squeezed, full_stop p (by omega)]
    · have hmin : min (i * p.rate + p.rate) buf.length - i * p.rate = p.rate := by omega
      rw [hmin, addAt_block _ _ (by rw [List.length_take]; omega), Option.bind_some, if_neg (by rw [length_block]; omega),
        Option.bind_some]
      obtain ⟨r, h1, h2, h3⟩ := ih (i + 1) (p.permute (block s ((buf.drop (i * p.rate)).take p.rate))) (by omega)
        (by rw [hp, length_block, hl]) (by
          intro hnil
          have hle := List.drop_eq_nil_iff.1 hnil
          rw [Nat.succ_mul] at hle
          have hNi : N = i + 1 := by
            have := hnext.not.2 (by omega)
            omega
          rw [hNi, Nat.succ_mul]
          omega)
      refine ⟨r, h1, h2, ?_⟩
      rw [h3, squeezed, squeezed, full_step p h0 (xs := buf.drop (i * p.rate)) (by omega), List.drop_drop, Nat.succ_mul]

theorem snarkSqueeze_eq (st : SpongeSt F) (hl : st.elems.length = p.rate + 1) :
    ∃ x, (squeezed p st.elems st.pending)[1]? = some x ∧ snarkSqueeze p st = some (x, ⟨[], squeezed p st.elems st.pending⟩) := by
  have hlt := chunks_lt p h0 st.pending.length
  obtain ⟨r, h1, h2, h3⟩ := snarkChunks_eq p hp h0 st.pending _ rfl _ 0 st.elems (Nat.zero_add _) hl (by
    intro h
    simp only [Nat.zero_mul, List.drop_zero] at h
    have : ¬ 0 < (st.pending.length + p.rate - 1) / p.rate := (hlt 0).not.2 (by simp [h])
    rw [Nat.eq_zero_of_not_pos this, h]
    simp)
  simp only [Nat.zero_mul, List.drop_zero] at h3
  have hlen : 1 < (squeezed p st.elems st.pending).length := by
    rw [squeezed, hp, length_block, full_length p hp h0 _ _ _ (le_refl _)]
    omega
  refine ⟨_, List.getElem?_eq_getElem hlen, ?_⟩
  rw [snarkSqueeze, h1, Option.bind_some]
  have hmid : (if st.pending.length = (st.pending.length + p.rate - 1) / p.rate * p.rate then (addAt 1 [1] r).map p.permute else some r) =
      some (squeezed p st.elems st.pending) := by
    rw [← h3]
    split
    · rw [addAt_block _ _ (by simp; omega), Option.map_some]
    · rfl
  rw [hmid, Option.bind_some, List.getElem?_eq_getElem hlen, Option.map_some]

/-- Both sponges of a transcript hold what was put in. -/
theorem after_states {P : Type} (absorbP absorbS : Msg P F → SpongeSt F → Option (SpongeSt F)) {values : Msg P F → List F}
    (hP : ∀ m st, absorbP m st = poseidonUpdate p (values m) st)
    (hS : ∀ m st, absorbS m st = some { st with pending := st.pending ++ values m }) (g : F → F)
    (init : List F) (hi : init.length = p.rate + 1) {l : Log P F} {st xs : List F} (h : After p.rate p.permute init values l st xs) :
    st.length = p.rate + 1 ∧
    (⟨absorbP, fun s => (poseidonSqueeze p s).map fun r => (g r.1, r.2)⟩ : Hash P F (SpongeSt F)).run l ⟨[], init⟩ =
      some ⟨(full p st xs).2, (full p st xs).1⟩ ∧
    (⟨absorbS, fun s => (snarkSqueeze p s).map fun r => (g r.1, r.2)⟩ : Hash P F (SpongeSt F)).run l ⟨[], init⟩ = some ⟨xs, st⟩ := by
  induction h with
  | nil => exact ⟨hi, by rw [full_stop p (by simpa using h0)]; rfl, rfl⟩
  | @absorb l st xs h m ih =>
    obtain ⟨i1, i2, i3⟩ := ih
    refine ⟨i1, ?_, ?_⟩
    · rw [run_append, i2, Option.bind_some]
      simp only [Hash.run, hP]
      rw [poseidonUpdate_eq p hp h0 _ _ (by rw [full_length p hp h0 _ _ _ (le_refl _), i1]), Option.bind_some,
        full_append p h0 _ st xs (values m) (le_refl _)]
    · rw [run_append, i3, Option.bind_some]
      simp only [Hash.run, hS, Option.bind_some]
  | @squeeze l st xs r h hr ih =>
    obtain ⟨i1, i2, i3⟩ := ih
    have hr := squeezed_of p h0 hr
    have hlen : r.length = p.rate + 1 := by
      rw [hr, squeezed, hp, length_block, full_length p hp h0 _ _ _ (le_refl _), i1]
    have hlf : (full p st xs).1.length = p.rate + 1 := by rw [full_length p hp h0 _ _ _ (le_refl _), i1]
    have hrest := full_rest p h0 _ st xs (le_refl _)
    refine ⟨hlen, ?_, ?_⟩
    · rw [run_append, i2, Option.bind_some]
      obtain ⟨x, -, hx⟩ := poseidonSqueeze_eq p hp ⟨(full p st xs).2, (full p st xs).1⟩ hlf hrest
      simp only [Hash.run, hx, Option.map_some, Option.bind_some]
      rw [full_stop p (xs := []) (by simpa using h0), hr]
      congr 2
      rw [squeezed, squeezed, full_stop p hrest]
    · rw [run_append, i3, Option.bind_some]
      obtain ⟨x, -, hx⟩ := snarkSqueeze_eq p hp h0 ⟨xs, st⟩ i1
      simp only [Hash.run, hx, Option.map_some, Option.bind_some, hr]

end

/-! ## `FromUint512` -/

section
open Tachyon.BigInt Tachyon.PrimeField

theorem fromUint512_spec {w : ℕ} (hw : 0 < w) (m l : Limbs w) (hodd : limbsVal m % 2 = 1) (hl : l.length = 2 * m.length) :
    limbsVal (fromUint512 m l) = 2 ^ (w * m.length) * limbsVal l % limbsVal m ∧ (fromUint512 m l).length = m.length := by
  have hpos : limbsVal m ≠ 0 := by omega
  have step : ∀ (k : ℕ) (d : Limbs w), 0 < k → d.length = m.length →
      limbsVal (montgomeryReduce false m (kInverse m) (mulExtend d (montgomeryRk (k + 1) m))) =
        (limbsVal d * (2 ^ (w * m.length)) ^ k) % limbsVal m ∧
      (montgomeryReduce false m (kInverse m) (mulExtend d (montgomeryRk (k + 1) m))).length = m.length := by
    intro k d hk hd
    obtain ⟨r1, r2⟩ := montgomeryRk_spec hw (k + 1) (by omega) m hpos
    obtain ⟨e1, e2⟩ := mulExtend_spec d (montgomeryRk (k + 1) m) (by rw [hd, r2])
    have hdlt : limbsVal d < 2 ^ (w * m.length) := by rw [← hd]; exact limbsVal_lt d
    have hrlt : limbsVal (montgomeryRk (k + 1) m) < limbsVal m := by rw [r1]; exact Nat.mod_lt _ (by omega)
    obtain ⟨m0, ms, hm, hm0⟩ := odd_cons hw hodd
    have := montgomeryReduce_spec hw false m0 ms (kInverse (m0 :: ms)) (mulExtend d (montgomeryRk (k + 1) m)) (kInverse_spec hw hm0)
      (by rw [e2, hd, hm]) (by simp) (by
        rw [e1, ← hm]
        exact Nat.mul_lt_mul'' hdlt hrlt)
    rw [← hm] at this
    obtain ⟨t1, t2, t3⟩ := this
    refine ⟨cancel_R_mod m hodd ?_ t1, t3⟩
    refine t2.trans ?_
    rw [e1, r1]
    have h1 : limbsVal d * ((2 ^ (w * m.length)) ^ (k + 1) % limbsVal m) ≡ limbsVal d * (2 ^ (w * m.length)) ^ (k + 1) [MOD limbsVal m] :=
      Nat.ModEq.mul_left _ (Nat.mod_modEq _ _)
    refine h1.trans ?_
    rw [pow_succ, show limbsVal d * ((2 ^ (w * m.length)) ^ k * 2 ^ (w * m.length)) =
      2 ^ (w * m.length) * (limbsVal d * (2 ^ (w * m.length)) ^ k) by ring]
  have ht : (l.take m.length).length = m.length := by rw [List.length_take]; omega
  obtain ⟨a1, a2⟩ := step 1 (l.take m.length) (by omega) ht
  obtain ⟨b1, b2⟩ := step 2 (l.drop m.length) (by omega) (by rw [List.length_drop]; omega)
  obtain ⟨c1, c2⟩ := PrimeField.add_spec hw m _ _ a2 b2 (by rw [a1]; exact Nat.mod_lt _ (by omega)) (by rw [b1]; exact Nat.mod_lt _ (by omega))
  refine ⟨?_, c2⟩
  refine c1.trans ?_
  rw [a1, b1, ← Nat.add_mod]
  have hsplit : limbsVal l = limbsVal (l.take m.length) + 2 ^ (w * m.length) * limbsVal (l.drop m.length) := by
    conv_lhs => rw [← List.take_append_drop m.length l]
    rw [limbsVal_append, ht]
  rw [hsplit]
  congr 1
  ring

end

end Tachyon.Transcript
