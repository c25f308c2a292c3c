import Verif.Proofs.Multilinear
import Verif.Props.Evals
import Verif.Spec.F7
/-! C43: multilinear polynomials in evaluation form. -/
namespace Tachyon.Props
open Tachyon.Multilinear Tachyon.Spec Tachyon.FFT

variable {F : Type*} [Field F] [DecidableEq F]

/-- C43: `Evaluate` is the multilinear extension: the sum over the hypercube of the values times the
Lagrange basis. The first coordinate belongs to the lowest bit. -/
theorem C43_evaluate {e pt : List F} {n : ℕ} (hn : n ≤ 63) (he : e.length = 2 ^ n)
    (hpt : pt.length = n) :
    evaluate e pt = some (∑ i ∈ Finset.range (2 ^ n), e.getD i 0 *
      ∏ j ∈ Finset.range n, if i.testBit j then pt.getD j 0 else 1 - pt.getD j 0) := by
  rw [evaluate_eq hn he hpt, foldAll_eq, hpt, Nat.mul_zero]
  simp only [Nat.zero_add]
  rfl

/-- C43: on the hypercube `Evaluate` returns the table. -/
theorem C43_vertex {e : List F} {n : ℕ} (hn : n ≤ 63) (he : e.length = 2 ^ n) {i : ℕ} (hi : i < 2 ^ n) :
    evaluate e ((List.range n).map fun j => if i.testBit j then 1 else 0) = some (e.getD i 0) := by
  rw [evaluate_eq hn he (by simp)]
  have := foldAll_bits n i (fun j => e.getD j 0) 0 hi
  rw [Nat.mul_zero, Nat.zero_add] at this
  exact congrArg some this

/-- C43: `Evaluate` agrees with every function that is affine in each variable and has the values of the
table on the hypercube. -/
theorem C43_unique {e pt : List F} {n : ℕ} (hn : n ≤ 63) (he : e.length = 2 ^ n) (hpt : pt.length = n)
    (g : List F → F)
    (hg : ∀ p c q, p.length + 1 + q.length = n →
      g (p ++ c :: q) = (1 - c) * g (p ++ 0 :: q) + c * g (p ++ 1 :: q))
    (hv : ∀ i < 2 ^ n, g ((List.range n).map fun j => if i.testBit j then 1 else 0) = e.getD i 0) :
    evaluate e pt = some (g pt) := by
  rw [evaluate_eq hn he hpt, affine_eq n g hg pt hpt]
  congr 1
  refine foldAll_congr pt (m := 1) (fun b hb => ?_) 0 (by omega)
  rw [Nat.mul_one, hpt] at hb
  exact (hv b hb).symm

/-- C43: `FixVariables` fixes the first variables: the new table has `2 ^ (n - k)` values, each the extension
of a slice, and evaluating it at the remaining coordinates is evaluating the old one at all of them. -/
theorem C43_fix {e pt : List F} {n : ℕ} (hn : n ≤ 63) (he : e.length = 2 ^ n) (hpt : pt.length ≤ n) :
    ∃ e', fixVariables e pt = some e' ∧ e'.length = 2 ^ (n - pt.length) ∧
      (∀ b < 2 ^ (n - pt.length), e'.getD b 0 =
        mle pt.length (fun i => e.getD (2 ^ pt.length * b + i) 0) fun j => pt.getD j 0) ∧
      ∀ q : List F, pt.length + q.length = n → evaluate e' q = evaluate e (pt ++ q) := by
  refine ⟨_, fixVariables_eq hn he hpt, by simp, ?_, ?_⟩
  · intro b hb
    rw [List.getD_eq_getElem _ _ (by simpa using hb), List.getElem_map, List.getElem_range, foldAll_eq]
  · intro q hq
    rw [evaluate_eq (n := n - pt.length) (by omega) (by simp) (by omega), evaluate_eq hn he (by simp; omega),
      foldAll_append]
    congr 1
    refine foldAll_congr q (m := 1) (fun b hb => ?_) 0 (by omega)
    rw [Nat.mul_one, show q.length = n - pt.length by omega] at hb
    rw [List.getD_eq_getElem _ _ (by simpa using hb), List.getElem_map, List.getElem_range]

omit [DecidableEq F] in
/-- C43: the sum over the hypercube is the sum of the values after fixing a variable to zero and to one. -/
theorem C43_split {e : List F} {n : ℕ} (hn : n + 1 ≤ 63) (he : e.length = 2 ^ (n + 1)) :
    ∃ e0 e1, fixVariables e [0] = some e0 ∧ fixVariables e [1] = some e1 ∧ e.sum = e0.sum + e1.sum := by
  refine ⟨_, _, fixVariables_eq hn he (by simp), fixVariables_eq hn he (by simp), ?_⟩
  have hsum : e.sum = ∑ i ∈ Finset.range (2 ^ (n + 1)), e.getD i 0 := by
    rw [← he, Finset.sum_range]
    simp only [List.getD_eq_getElem _ _ (Fin.is_lt _)]
    exact (Fin.sum_univ_getElem e).symm
  have hl : ∀ (m : ℕ) (f : ℕ → F), ((List.range m).map f).sum = ∑ i ∈ Finset.range m, f i := by
    intro m f
    rw [Finset.sum_range, List.sum_eq_foldr] 
    induction m generalizing f with
    | zero => simp
    | succ m ih =>
      rw [List.range_succ_eq_map, List.map_cons, List.map_map, List.foldr_cons, Fin.sum_univ_succ]
      congr 1
      exact ih _
  rw [hsum, hl, hl, List.length_singleton, List.length_singleton, Nat.add_sub_cancel, ← Finset.sum_add_distrib,
    Nat.pow_succ, Nat.mul_comm, Multilinear.sum_range_two_mul]
  refine Finset.sum_congr rfl fun i _ => ?_
  simp only [foldAll, fold1]
  ring

/-- C43: the zero polynomial without values evaluates to zero. -/
theorem C43_empty : evaluate ([] : List F) [] = some 0 := by
  simp [evaluate, fixVariables, degree, fixGo, resizeZero, isZero, Bits.safeLog2Ceiling, Bits.log2Ceiling]

/-- C43: a point with the wrong number of coordinates fails a `CHECK`. -/
theorem C43_checks {e pt : List F} {n : ℕ} (hn : n ≤ 63) (he : e.length = 2 ^ n) :
    (pt.length ≠ n → evaluate e pt = none) ∧ (n < pt.length → fixVariables e pt = none) := by
  unfold evaluate fixVariables
  rw [degree_eq hn he]
  exact ⟨fun h => if_pos h, fun h => if_neg (by omega)⟩

omit [DecidableEq F] in
/-- C43 (finding): the constructor accepts any number of values, but fixing a variable of a table whose
length is no power of two reads past it. -/
theorem C43_not_power {e : List F} (hl : e.length ≤ 2 ^ 63) (hp : ∀ n, e.length ≠ 2 ^ n)
    {r : F} {pt : List F} : fixVariables e (r :: pt) = none := by
  obtain ⟨k, hk, -, h1, h2, h3⟩ := bitCeil_spec hl
  have hd : degree e = k := h1
  unfold fixVariables
  split
  · next hle =>
    rw [hd, List.length_cons] at hle
    rw [hd, fixGo, foldVar_none]
    · rfl
    · have := hp k
      rw [← Nat.pow_succ', Nat.succ_eq_add_one, show k - 1 + 1 = k by omega]
      omega
  · rfl

/-- C43: addition, subtraction and negation of tables are those of the polynomials. -/
theorem C43_linear {a b pt : List F} {n : ℕ} (hn : n ≤ 63) (ha : a.length = 2 ^ n) (hb : b.length = 2 ^ n)
    (hpt : pt.length = n) :
    (∃ c x y, add a b = some c ∧ evaluate a pt = some x ∧ evaluate b pt = some y ∧
      evaluate c pt = some (x + y)) ∧
    (∃ c x y, sub a b = some c ∧ evaluate a pt = some x ∧ evaluate b pt = some y ∧
      evaluate c pt = some (x - y)) ∧
    ∃ x, evaluate a pt = some x ∧ evaluate (negate a) pt = some (-x) := by
  have h2 : 0 < 2 ^ n := by positivity
  have hae : a.isEmpty = false := by
    cases a with
    | nil => rw [List.length_nil] at ha; omega
    | cons => rfl
  have hbe : b.isEmpty = false := by
    cases b with
    | nil => rw [List.length_nil] at hb; omega
    | cons => rfl
  refine ⟨⟨List.zipWith (· + ·) a b, _, _, ?_, C43_evaluate hn ha hpt, C43_evaluate hn hb hpt, ?_⟩,
    ⟨List.zipWith (· - ·) a b, _, _, ?_, C43_evaluate hn ha hpt, C43_evaluate hn hb hpt, ?_⟩, _, C43_evaluate hn ha hpt, ?_⟩
  · rw [add, hae, hbe, if_neg (by simp), if_neg (by simp), if_neg (by omega)]
  · rw [C43_evaluate hn (by simp [ha, hb]) hpt, ← Finset.sum_add_distrib]
    congr 1
    refine Finset.sum_congr rfl fun i hi => ?_
    rw [getD_zipWith ha hb (Finset.mem_range.1 hi), add_mul]
  · rw [sub, hae, hbe, if_neg (by simp), if_neg (by simp), if_neg (by omega)]
  · rw [C43_evaluate hn (by simp [ha, hb]) hpt, ← Finset.sum_sub_distrib]
    congr 1
    refine Finset.sum_congr rfl fun i hi => ?_
    rw [getD_zipWith ha hb (Finset.mem_range.1 hi), sub_mul]
  · rw [negate, hae, if_neg (by simp), C43_evaluate hn (by simp [ha]) hpt, ← Finset.sum_neg_distrib]
    congr 1
    refine Finset.sum_congr rfl fun i hi => ?_
    rw [getD_map_zero (g := fun x => -x) (by simp), neg_mul]

/-- C43: the arithmetic is that of polynomials in evaluation form, see C64. -/
theorem C43_ops (a b : List F) : add a b = Evals.add a b ∧ sub a b = Evals.sub a b ∧
    mul a b = Evals.mul a b ∧ div a b = Evals.div a b ∧ negate a = Evals.negate a ∧
    Multilinear.eq a b = Evals.eq a b := ⟨rfl, rfl, rfl, rfl, rfl, rfl⟩

/-- C43: `Mul` multiplies the values on the hypercube. -/
theorem C43_mul {a b : List F} {n : ℕ} (hn : n ≤ 63) (ha : a.length = 2 ^ n) (hb : b.length = 2 ^ n)
    {i : ℕ} (hi : i < 2 ^ n) :
    ∃ c, mul a b = some c ∧ c.length = 2 ^ n ∧
      evaluate c ((List.range n).map fun j => if i.testBit j then 1 else 0) =
        some (a.getD i 0 * b.getD i 0) := by
  have h2 : 0 < 2 ^ n := by positivity
  have hae : a.isEmpty = false := by
    cases a with
    | nil => rw [List.length_nil] at ha; omega
    | cons => rfl
  have hbe : b.isEmpty = false := by
    cases b with
    | nil => rw [List.length_nil] at hb; omega
    | cons => rfl
  refine ⟨_, by rw [mul, hae, hbe, if_neg (by simp), if_neg (by omega)], by simp [ha, hb], ?_⟩
  rw [C43_vertex hn (by simp [ha, hb]) hi, getD_zipWith ha hb hi]

/-- C43: `One` evaluates to one. -/
theorem C43_one {n : ℕ} (hn : n ≤ 63) {pt : List F} (hpt : pt.length = n) :
    evaluate (one n) pt = some 1 ∧ isOne (one (F := F) n) = true := by
  constructor
  · refine C43_unique hn (by simp [one]) hpt (fun _ => 1) (fun p c q _ => by ring) fun i hi => ?_
    rw [one, List.getD_eq_getElem _ _ (by simpa using hi), List.getElem_replicate]
  · have : 0 < 2 ^ n := by positivity
    unfold isOne one
    rw [if_neg (by simp)]
    simp

/-- C43: equal values hash equally. -/
theorem C43_hash {maxDegree n : ℕ} {a b : List F} (ha : a = [] ∨ a.length = 2 ^ n)
    (hb : b = [] ∨ b.length = 2 ^ n) (hn : n ≤ maxDegree) (h : Multilinear.eq a b = true) :
    hashInput maxDegree a = hashInput maxDegree b := by
  have hle : 2 ^ n ≤ 2 ^ maxDegree := Nat.pow_le_pow_right (by omega) hn
  have hz : ∀ l : List F, isZero l = true → l = List.replicate l.length 0 := by
    intro l hl
    unfold isZero at hl
    split at hl
    · next h => rw [List.isEmpty_iff.1 h]; rfl
    · rw [List.eq_replicate_iff]
      exact ⟨rfl, by simpa using hl⟩
  have hzl : ∀ l : List F, (l = [] ∨ l.length = 2 ^ n) → isZero l = true →
      hashInput maxDegree l = List.replicate (2 ^ maxDegree) 0 := by
    intro l hl h
    have hlen : l.length ≤ 2 ^ maxDegree := by
      rcases hl with rfl | hl
      · simp
      · omega
    unfold hashInput
    rw [hz l h, List.length_replicate, List.replicate_append_replicate]
    congr 1; omega
  unfold Multilinear.eq at h
  split at h
  · next h0 =>
    rw [hzl b hb h, List.isEmpty_iff.1 h0, hzl [] (.inl rfl) rfl]
  · split at h
    · next h0 => rw [hzl a ha h, List.isEmpty_iff.1 h0, hzl [] (.inl rfl) rfl]
    · rw [of_decide_eq_true h]

/-- C43 (finding): `==` is not transitive: the empty table equals every zero table, and zero tables of
different sizes differ. -/
theorem C43_eq_not_transitive : ∃ a b c : List F, Multilinear.eq a b = true ∧ Multilinear.eq b c = true ∧
    Multilinear.eq a c = false :=
  ⟨[0], [], [0, 0], by simp [Multilinear.eq, isZero], by simp [Multilinear.eq, isZero],
    by simp [Multilinear.eq]⟩

/-- C43 (finding): `Mul` is not the product of polynomials away from the hypercube. -/
theorem C43_mul_not_product : ∃ a b c pt : List F, mul a b = some c ∧
    evaluate a pt = some 2 ∧ evaluate b pt = some 2 ∧ evaluate c pt = some 2 := by
  have hl : ∀ x y : F, evaluate [x, y] [2] = some (x + 2 * (y - x)) := fun x y => by
    rw [evaluate_eq (n := 1) (by omega) rfl rfl]; simp [foldAll, fold1]
  refine ⟨[0, 1], [0, 1], [0, 1], [2], by simp [mul], ?_, ?_, ?_⟩ <;> rw [hl] <;> simp

/-- The table `1, 2, 3, 4` is `1 + x₀ + 2 x₁`; at `(5, 2)` it is `10 = 3` modulo seven. -/
example : evaluate ([1, 2, 3, 4] : List F7) [5, 2] = some 3 := by decide +kernel
example : fixVariables ([1, 2, 3, 4] : List F7) [5] = some [6, 1] := by decide +kernel
example : evaluate ([6, 1] : List F7) [2] = some 3 := by decide +kernel
example : evaluate ([1, 2, 3, 4] : List F7) [0, 1] = some 3 := by decide +kernel
example : fixVariables ([1, 2, 3] : List F7) [5] = none := by decide +kernel
example : evaluate ([1, 2, 3, 4] : List F7) [5] = none := by decide +kernel
example : evaluate ([] : List F7) [] = some 0 := C43_empty

end Tachyon.Props
