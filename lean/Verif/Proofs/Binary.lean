import Verif.Model.Binary
import Verif.Spec.Binary
/-!
# Lemmas on the binary tower
-/
namespace Tachyon.Binary

theorem two_le_size (n : ℕ) : 2 ≤ size n := by
  have : 2 ^ 1 ≤ 2 ^ 2 ^ n := Nat.pow_le_pow_right (by omega) Nat.one_le_two_pow
  simpa [size] using this

theorem size_pos (n : ℕ) : 0 < size n := Nat.lt_of_lt_of_le (by omega) (two_le_size n)

theorem size_succ (n : ℕ) : size (n + 1) = size n * size n := by
  rw [size, size, ← pow_add, pow_succ, Nat.mul_two]

theorem div_lt_size {n v : ℕ} (h : v < size (n + 1)) : v / size n < size n := by
  rw [size_succ] at h
  exact Nat.div_lt_of_lt_mul h

theorem add_lt {n a b : ℕ} (ha : a < size n) (hb : b < size n) : add a b < size n :=
  Nat.xor_lt_two_pow ha hb

theorem compose_lt {n lo hi : ℕ} (h1 : lo < size n) (h2 : hi < size n) :
    compose n lo hi < size (n + 1) := by
  rw [compose, size_succ]
  have : (hi + 1) * size n ≤ size n * size n := Nat.mul_le_mul_right _ h2
  rw [Nat.succ_mul] at this
  omega

theorem decompose_eq {n v : ℕ} (h : v < size (n + 1)) :
    decompose n v = (v % size n, v / size n) := by
  rw [decompose, Nat.mod_eq_of_lt (div_lt_size h)]

theorem val_succ (n v : ℕ) :
    val (n + 1) v = (⟨val n (v % size n), val n (v / size n)⟩ : Ext (level n)) := rfl

theorem val_compose {n lo hi : ℕ} (h : lo < size n) :
    val (n + 1) (compose n lo hi) = (⟨val n lo, val n hi⟩ : Ext (level n)) := by
  have h1 : compose n lo hi % size n = lo := by
    rw [compose, Nat.mul_comm, Nat.mul_add_mod, Nat.mod_eq_of_lt h]
  have h2 : compose n lo hi / size n = hi := by
    rw [compose, Nat.mul_comm, Nat.mul_add_div (size_pos n), Nat.div_eq_of_lt h, Nat.add_zero]
  rw [val_succ, h1, h2]

theorem val_zero (n : ℕ) : val n 0 = 0 := by
  induction n with
  | zero => exact Nat.cast_zero
  | succ n ih => rw [val_succ, Nat.zero_mod, Nat.zero_div, ih]; rfl

theorem val_one (n : ℕ) : val n 1 = 1 := by
  induction n with
  | zero => exact Nat.cast_one
  | succ n ih =>
    have := two_le_size n
    rw [val_succ, Nat.mod_eq_of_lt (by omega), Nat.div_eq_of_lt (by omega), ih, val_zero]; rfl

theorem val_add (n a b : ℕ) : val n (add a b) = val n a + val n b := by
  induction n generalizing a b with
  | zero =>
    show (((a ^^^ b : ℕ)) : ZMod 2) = (a : ZMod 2) + (b : ZMod 2)
    rw [← Nat.cast_add, ZMod.natCast_eq_natCast_iff]
    show (a ^^^ b) % 2 = (a + b) % 2
    have h := @Nat.xor_mod_two_eq_one a b
    omega
  | succ n ih =>
    have h1 : add a b % size n = add (a % size n) (b % size n) := Nat.xor_mod_two_pow
    have h2 : add a b / size n = add (a / size n) (b / size n) := by
      unfold add size
      rw [← Nat.shiftRight_eq_div_pow, ← Nat.shiftRight_eq_div_pow, ← Nat.shiftRight_eq_div_pow,
        Nat.shiftRight_xor_distrib]
    rw [val_succ, h1, h2, ih, ih]; rfl

theorem val_injective (n : ℕ) {a b : ℕ} (ha : a < size n) (hb : b < size n)
    (h : val n a = val n b) : a = b := by
  induction n generalizing a b with
  | zero =>
    have h' : ((a : ℕ) : ZMod 2) = (b : ZMod 2) := h
    rw [ZMod.natCast_eq_natCast_iff] at h'
    have ha' : a < 2 := ha
    have hb' : b < 2 := hb
    have h2 : a % 2 = b % 2 := h'
    omega
  | succ n ih =>
    rw [val_succ, val_succ] at h
    have h1 := ih (Nat.mod_lt _ (size_pos n)) (Nat.mod_lt _ (size_pos n)) (congrArg Ext.lo h)
    have h2 := ih (div_lt_size ha) (div_lt_size hb) (congrArg Ext.hi h)
    rw [← Nat.div_add_mod a (size n), ← Nat.div_add_mod b (size n), h1, h2]

theorem val_surjective (n : ℕ) (x : (level n).K) : ∃ a < size n, val n a = x := by
  induction n with
  | zero =>
    refine ⟨ZMod.val (n := 2) x, ZMod.val_lt (n := 2) x, ?_⟩
    exact ZMod.natCast_zmod_val (n := 2) x
  | succ n ih =>
    obtain ⟨lo, h1, e1⟩ := ih (Ext.lo x)
    obtain ⟨hi, h2, e2⟩ := ih (Ext.hi x)
    refine ⟨compose n lo hi, compose_lt h1 h2, ?_⟩
    rw [val_compose h1, e1, e2]
    rfl

/-! ## A schoolbook multiplication of machine values -/

/-- The machine value of `α`. -/
def alphaNat : ℕ → ℕ
  | 0 => 1
  | n + 1 => 2 ^ 2 ^ n

/-- Multiplication by the definition of the tower. -/
def natMul : ℕ → ℕ → ℕ → ℕ
  | 0, a, b => a &&& b
  | n + 1, a, b =>
    (natMul n (a % 2 ^ 2 ^ n) (b / 2 ^ 2 ^ n) ^^^ natMul n (a / 2 ^ 2 ^ n) (b % 2 ^ 2 ^ n) ^^^
      natMul n (natMul n (a / 2 ^ 2 ^ n) (b / 2 ^ 2 ^ n)) (alphaNat n)) * 2 ^ 2 ^ n +
    (natMul n (a % 2 ^ 2 ^ n) (b % 2 ^ 2 ^ n) ^^^ natMul n (a / 2 ^ 2 ^ n) (b / 2 ^ 2 ^ n))

theorem val_alphaNat (n : ℕ) : val n (alphaNat n) = (level n).α ∧ alphaNat n < size n := by
  cases n with
  | zero => exact ⟨Nat.cast_one, by decide⟩
  | succ n =>
    have h := two_le_size n
    constructor
    · rw [val_succ, alphaNat, ← size, Nat.mod_self, Nat.div_self (size_pos n), val_zero, val_one]; rfl
    · rw [alphaNat, ← size, size_succ]
      exact lt_of_lt_of_le (by omega) (Nat.mul_le_mul_right (size n) h)

theorem natMul_spec (n : ℕ) {a b : ℕ} (ha : a < size n) (hb : b < size n) :
    natMul n a b < size n ∧ val n (natMul n a b) = val n a * val n b := by
  induction n generalizing a b with
  | zero =>
    have ha' : a < 2 := ha
    have hb' : b < 2 := hb
    constructor
    · exact lt_of_le_of_lt Nat.and_le_left ha
    · show (((a &&& b : ℕ)) : ZMod 2) = (a : ZMod 2) * (b : ZMod 2)
      have h : ∀ a < 2, ∀ b < 2, (((a &&& b : ℕ)) : ZMod 2) = (a : ZMod 2) * (b : ZMod 2) := by
        decide
      exact h a ha' b hb'
  | succ n ih =>
    have hm : ∀ v, v % size n < size n := fun v => Nat.mod_lt _ (size_pos n)
    obtain ⟨l00, v00⟩ := ih (hm a) (hm b)
    obtain ⟨l01, v01⟩ := ih (hm a) (div_lt_size hb)
    obtain ⟨l10, v10⟩ := ih (div_lt_size ha) (hm b)
    obtain ⟨l11, v11⟩ := ih (div_lt_size ha) (div_lt_size hb)
    obtain ⟨lα, vα⟩ := ih l11 (val_alphaNat n).2
    have hlo := add_lt l00 l11
    have hhi := add_lt (add_lt l01 l10) lα
    have e : natMul (n + 1) a b = compose n
        (add (natMul n (a % size n) (b % size n)) (natMul n (a / size n) (b / size n)))
        (add (add (natMul n (a % size n) (b / size n)) (natMul n (a / size n) (b % size n)))
          (natMul n (natMul n (a / size n) (b / size n)) (alphaNat n))) := rfl
    rw [e]
    refine ⟨compose_lt hlo hhi, ?_⟩
    rw [val_compose hlo, val_add, val_add, val_add, v00, v01, v10, v11, vα, v11, (val_alphaNat n).1,
      val_succ, val_succ]
    rfl

/-! ## The operations of the code -/

/-- The result of an operation stands for `x`. -/
def Is (n : ℕ) (r : Option ℕ) (x : (level n).K) : Prop :=
  ∃ c, r = some c ∧ c < size n ∧ val n c = x

theorem is_natMul {n : ℕ} {a b : ℕ} {r : Option ℕ} (ha : a < size n) (hb : b < size n)
    (h : r = some (natMul n a b)) : Is n r (val n a * val n b) :=
  ⟨_, h, (natMul_spec n ha hb).1, (natMul_spec n ha hb).2⟩

theorem table_mul1 : ∀ a < 4, ∀ b < 4, mul 1 a b = some (natMul 1 a b) := by decide +kernel
theorem table_mul2 : ∀ a < 16, ∀ b < 16, mul 2 a b = some (natMul 2 a b) := by decide +kernel
theorem table_alpha1 : ∀ a < 4, mulByAlpha 1 a = some (natMul 1 a 2) := by decide +kernel
theorem table_alpha2 : ∀ a < 16, mulByAlpha 2 a = some (natMul 2 a 4) := by decide +kernel
theorem table_alpha3 : ∀ a < 256, mulByAlpha 3 a = some (natMul 3 a 16) := by decide +kernel
theorem table_square3 : ∀ a < 256, square 3 a = some (natMul 3 a a) := by decide +kernel
theorem table_inv1 : ∀ a < 4, a ≠ 0 → ∃ c < 4, inverse 1 a = some (some c) ∧ natMul 1 a c = 1 := by
  decide +kernel
theorem table_inv2 : ∀ a < 16, a ≠ 0 → ∃ c < 16, inverse 2 a = some (some c) ∧ natMul 2 a c = 1 := by
  decide +kernel

/-- The entry of the table of inverses. -/
theorem table_inv3 : ∀ a < 256, a ≠ 0 →
    invTable.getD a 0 < 256 ∧ inverse 3 a = some (some (invTable.getD a 0)) ∧
      natMul 3 a (invTable.getD a 0) = 1 := by decide +kernel

theorem table_exp : ∀ i < 254, expTable.getD (i + 1) 0 = natMul 3 (expTable.getD i 0) 19 := by
  decide +kernel
theorem table_exp_lt : ∀ i < 255, expTable.getD i 0 < 256 ∧ expTable[i]? = some (expTable.getD i 0) := by
  decide +kernel
theorem table_exp_last : natMul 3 (expTable.getD 254 0) 19 = 1 := by decide +kernel
theorem table_log : ∀ x < 256, x ≠ 0 → logTable.getD x 0 < 255 ∧
    logTable[x]? = some (logTable.getD x 0) ∧ expTable.getD (logTable.getD x 0) 0 = x := by
  decide +kernel

/-- The value of the generator of the multiplicative group of the 8-bit field. -/
theorem val_exp : ∀ i < 255, val 3 (expTable.getD i 0) = val 3 19 ^ i
  | 0, _ => by
    have h : expTable.getD 0 0 = 1 := by decide +kernel
    rw [h, val_one, pow_zero]
  | i + 1, h => by
    rw [table_exp i (by omega), (natMul_spec 3 (table_exp_lt i (by omega)).1 (by decide)).2,
      val_exp i (by omega), pow_succ]

theorem gen_pow : val 3 19 ^ 255 = 1 := by
  rw [show 255 = 254 + 1 from rfl, pow_succ, ← val_exp 254 (by omega),
    ← (natMul_spec 3 (table_exp_lt 254 (by omega)).1 (by decide)).2, table_exp_last, val_one]

/-- The position in the table of powers. -/
def expPos (i : ℕ) : ℕ := if i > 254 then i - 255 else i

theorem expPos_lt {l r : ℕ} (hl : l < 255) (hr : r < 255) : expPos (l + r) < 255 := by
  unfold expPos; split <;> omega

theorem pow_expPos (i : ℕ) : val 3 19 ^ expPos i = val 3 19 ^ i := by
  unfold expPos
  split
  · conv_rhs => rw [show i = (i - 255) + 255 by omega, pow_add, gen_pow, mul_one]
  · rfl

theorem mk_of_lt {n v : ℕ} (h : v < size n) : mk n v = some v := by
  unfold mk; rw [if_pos h]

theorem mul8_is {a b : ℕ} (ha : a < 256) (hb : b < 256) : Is 3 (mul8 a b) (val 3 a * val 3 b) := by
  unfold mul8
  by_cases h : a = 0 ∨ b = 0
  · rw [if_pos h]
    refine ⟨0, rfl, size_pos 3, ?_⟩
    rcases h with h | h <;> rw [h, val_zero] <;> simp
  · rw [if_neg h]
    have ha0 : a ≠ 0 := fun e => h (Or.inl e)
    have hb0 : b ≠ 0 := fun e => h (Or.inr e)
    obtain ⟨la, ea, va⟩ := table_log a ha ha0
    obtain ⟨lb, eb, vb⟩ := table_log b hb hb0
    generalize hl : logTable.getD a 0 = l at *
    generalize hr : logTable.getD b 0 = r at *
    have hp := expPos_lt la lb
    obtain ⟨lt, ee⟩ := table_exp_lt _ hp
    refine ⟨expTable.getD (expPos (l + r)) 0, ?_, lt, ?_⟩
    · rw [ea, eb]
      show (expTable[expPos (l + r)]?).bind (mk 3) = _
      rw [ee]
      exact mk_of_lt lt
    · rw [val_exp _ hp, pow_expPos, pow_add, ← val_exp l la, ← val_exp r lb, va, vb]

/-- What is proved of a level by induction. -/
structure Good (n : ℕ) : Prop where
  mul : ∀ a b, a < size n → b < size n → Is n (mul n a b) (val n a * val n b)
  alpha : ∀ a, a < size n → Is n (mulByAlpha n a) (val n a * (level n).α)
  square : ∀ a, a < size n → Is n (square n a) (val n a * val n a)
  inv : ∀ a, a < size n → a ≠ 0 →
    ∃ c, inverse n a = some (some c) ∧ c < size n ∧ val n a * val n c = 1
  inv0 : inverse n 0 = some none

theorem good0 : Good 0 where
  mul a b ha hb := by
    refine is_natMul ha hb ?_
    exact mk_of_lt (natMul_spec 0 ha hb).1
  alpha a ha := ⟨a, rfl, ha, by
    show _ = _ * (1 : (level 0).K)
    rw [mul_one]⟩
  square a ha := by
    have h : natMul 0 a a = a := Nat.and_self a
    refine is_natMul ha ha ?_
    rw [h]; rfl
  inv a ha h0 := by
    have ha' : a < 2 := ha
    have : a = 1 := by omega
    subst this
    exact ⟨1, rfl, ha, by rw [val_one, mul_one]⟩
  inv0 := rfl

theorem inv_of_natMul {n a c : ℕ} (ha : a < size n) (hc : c < size n) (h : natMul n a c = 1) :
    val n a * val n c = 1 := by
  rw [← (natMul_spec n ha hc).2, h, val_one]

theorem good1 : Good 1 where
  mul a b ha hb := is_natMul ha hb (table_mul1 a ha b hb)
  alpha a ha := by
    rw [← (val_alphaNat 1).1]
    exact is_natMul ha (val_alphaNat 1).2 (table_alpha1 a ha)
  square a ha := is_natMul ha ha (table_mul1 a ha a ha)
  inv a ha h0 := by
    obtain ⟨c, hc, e, h⟩ := table_inv1 a ha h0
    exact ⟨c, e, hc, inv_of_natMul ha hc h⟩
  inv0 := rfl

theorem good2 : Good 2 where
  mul a b ha hb := is_natMul ha hb (table_mul2 a ha b hb)
  alpha a ha := by
    rw [← (val_alphaNat 2).1]
    exact is_natMul ha (val_alphaNat 2).2 (table_alpha2 a ha)
  square a ha := is_natMul ha ha (table_mul2 a ha a ha)
  inv a ha h0 := by
    obtain ⟨c, hc, e, h⟩ := table_inv2 a ha h0
    exact ⟨c, e, hc, inv_of_natMul ha hc h⟩
  inv0 := rfl

theorem good3 : Good 3 where
  mul a b ha hb := mul8_is ha hb
  alpha a ha := by
    rw [← (val_alphaNat 3).1]
    exact is_natMul ha (val_alphaNat 3).2 (table_alpha3 a ha)
  square a ha := is_natMul ha ha (table_square3 a ha)
  inv a ha h0 := by
    obtain ⟨hc, e, h⟩ := table_inv3 a ha h0
    exact ⟨_, e, hc, inv_of_natMul ha hc h⟩
  inv0 := rfl

theorem val_ne_zero {n a : ℕ} (ha : a < size n) (h : a ≠ 0) : val n a ≠ 0 := fun e =>
  h (val_injective n ha (size_pos n) (e.trans (val_zero n).symm))

theorem norm_val {n a : ℕ} (ha : a < size (n + 1)) (h : a ≠ 0) :
    Ext.norm (L := level n) ⟨val n (a % size n), val n (a / size n)⟩ ≠ 0 :=
  Ext.norm_ne_zero (L := level n) (val_ne_zero ha h)

theorem ext_mul (L : Level) (a0 a1 b0 b1 : L.K) :
    (⟨a0 * b0 + a1 * b1, (a0 + a1) * (b0 + b1) + (a0 * b0 + a1 * b1) + a1 * b1 * L.α⟩ : Ext L) =
      ⟨a0, a1⟩ * ⟨b0, b1⟩ := by
  refine Ext.ext rfl ?_
  rw [Ext.mul_hi]
  linear_combination L.char2 (a0 * b0) + L.char2 (a1 * b1)

theorem ext_alpha (L : Level) (a0 a1 : L.K) :
    (⟨a1, a0 + a1 * L.α⟩ : Ext L) = ⟨a0, a1⟩ * ⟨0, 1⟩ := by
  refine Ext.ext ?_ ?_
  · rw [Ext.mul_lo]; ring
  · rw [Ext.mul_hi]; ring

theorem ext_square (L : Level) (a0 a1 : L.K) :
    (⟨a0 * a0 + a1 * a1, a1 * a1 * L.α⟩ : Ext L) = ⟨a0, a1⟩ * ⟨a0, a1⟩ := by
  refine Ext.ext rfl ?_
  rw [Ext.mul_hi]
  linear_combination - L.char2 (a0 * a1)

theorem mul_rec (n a b : ℕ) : mul (n + 4) a b = (do
    let (a0, a1) := decompose (n + 3) a
    let (b0, b1) := decompose (n + 3) b
    let z0 ← mul (n + 3) a0 b0
    let z1 ← mul (n + 3) a1 b1
    let z0z1 := add z0 z1
    let m ← mul (n + 3) (add a0 a1) (add b0 b1)
    let z2 := add m z0z1
    let z1a ← mulByAlpha (n + 3) z1
    some (compose (n + 3) z0z1 (add z2 z1a))) := rfl

theorem mod_lt_size (n v : ℕ) : v % size n < size n := Nat.mod_lt _ (size_pos _)

theorem mul_step (n : ℕ) (g : Good n) {r : ℕ → ℕ → Option ℕ}
    (hr : ∀ a b, r a b = (do
      let (a0, a1) := decompose n a
      let (b0, b1) := decompose n b
      let z0 ← mul n a0 b0
      let z1 ← mul n a1 b1
      let z0z1 := add z0 z1
      let m ← mul n (add a0 a1) (add b0 b1)
      let z2 := add m z0z1
      let z1a ← mulByAlpha n z1
      some (compose n z0z1 (add z2 z1a))))
    {a b : ℕ} (ha : a < size (n + 1)) (hb : b < size (n + 1)) :
    Is (n + 1) (r a b) (val (n + 1) a * val (n + 1) b) := by
  have hm := mod_lt_size n
  obtain ⟨z0, e0, l0, v0⟩ := g.mul _ _ (hm a) (hm b)
  obtain ⟨z1, e1, l1, v1⟩ := g.mul _ _ (div_lt_size ha) (div_lt_size hb)
  obtain ⟨m, e2, l2, v2⟩ := g.mul _ _ (add_lt (hm a) (div_lt_size ha)) (add_lt (hm b) (div_lt_size hb))
  obtain ⟨z1a, e3, l3, v3⟩ := g.alpha _ l1
  refine ⟨compose n (add z0 z1) (add (add m (add z0 z1)) z1a), ?_,
    compose_lt (add_lt l0 l1) (add_lt (add_lt l2 (add_lt l0 l1)) l3), ?_⟩
  · simp only [hr, decompose_eq ha, decompose_eq hb, e0, e1, e2, e3, Option.bind_eq_bind,
      Option.bind_some]
  · rw [val_compose (add_lt l0 l1), val_add, val_add, val_add, val_add, v0, v1, v2, v3, v1,
      val_add, val_add, val_succ n a, val_succ n b]
    exact ext_mul _ _ _ _ _

theorem alpha_step (n : ℕ) (g : Good n) {r : ℕ → Option ℕ}
    (hr : ∀ x, r x = (do
      let (x0, x1) := decompose n x
      let x1a ← mulByAlpha n x1
      some (compose n x1 (add x0 x1a))))
    {a : ℕ} (ha : a < size (n + 1)) : Is (n + 1) (r a) (val (n + 1) a * (level (n + 1)).α) := by
  obtain ⟨z, e, l, v⟩ := g.alpha _ (div_lt_size ha)
  refine ⟨compose n (a / size n) (add (a % size n) z), ?_,
    compose_lt (div_lt_size ha) (add_lt (mod_lt_size n a) l), ?_⟩
  · simp only [hr, decompose_eq ha, e, Option.bind_eq_bind, Option.bind_some]
  · rw [val_compose (div_lt_size ha), val_add, v, val_succ n a]
    exact ext_alpha _ _ _

theorem square_step (n : ℕ) (g : Good n) {r : ℕ → Option ℕ}
    (hr : ∀ x, r x = (do
      let (x0, x1) := decompose n x
      let z0 ← square n x0
      let z1 ← square n x1
      let z1a ← mulByAlpha n z1
      some (compose n (add z0 z1) z1a)))
    {a : ℕ} (ha : a < size (n + 1)) : Is (n + 1) (r a) (val (n + 1) a * val (n + 1) a) := by
  obtain ⟨z0, e0, l0, v0⟩ := g.square _ (mod_lt_size n a)
  obtain ⟨z1, e1, l1, v1⟩ := g.square _ (div_lt_size ha)
  obtain ⟨z1a, e3, l3, v3⟩ := g.alpha _ l1
  refine ⟨compose n (add z0 z1) z1a, ?_, compose_lt (add_lt l0 l1) l3, ?_⟩
  · simp only [hr, decompose_eq ha, e0, e1, e3, Option.bind_eq_bind, Option.bind_some]
  · rw [val_compose (add_lt l0 l1), val_add, v0, v1, v3, v1, val_succ n a]
    exact ext_square _ _ _

/-- The recursive case of `inverse`. -/
def inverseRec (n x : ℕ) : Option (Option ℕ) := do
  let (x0, x1) := decompose n x
  let a ← mulByAlpha n x1
  let x0x1a := add x0 a
  let p ← mul n x0 x0x1a
  let q ← square n x1
  let d ← inverse n (add p q)
  inverseFinish n x0x1a x1 d

theorem inverse_step (n : ℕ) (g : Good n) {a : ℕ} (ha : a < size (n + 1)) (h0 : a ≠ 0) :
    ∃ c, inverseRec n a = some (some c) ∧ c < size (n + 1) ∧ val (n + 1) a * val (n + 1) c = 1 := by
  have hm := mod_lt_size n
  obtain ⟨z, e, l, v⟩ := g.alpha _ (div_lt_size ha)
  have lx := add_lt (hm a) l
  obtain ⟨p, e1, l1, v1⟩ := g.mul _ _ (hm a) lx
  obtain ⟨q, e2, l2, v2⟩ := g.square _ (div_lt_size ha)
  have lt := add_lt l1 l2
  have vn : val n (add p q) =
      Ext.norm (L := level n) ⟨val n (a % size n), val n (a / size n)⟩ := by
    rw [val_add, v1, v2, val_add, v]; rfl
  have hn : add p q ≠ 0 := by
    intro h
    rw [h, val_zero] at vn
    exact norm_val ha h0 vn.symm
  obtain ⟨d, e3, l3, v3⟩ := g.inv _ lt hn
  obtain ⟨i0, e4, l4, v4⟩ := g.mul _ _ l3 lx
  obtain ⟨i1, e5, l5, v5⟩ := g.mul _ _ l3 (div_lt_size ha)
  refine ⟨compose n i0 i1, ?_, compose_lt l4 l5, ?_⟩
  · simp only [inverseRec, inverseFinish, decompose_eq ha, e, e1, e2, e3, e4, e5, Option.bind_eq_bind, Option.bind_some]
  · rw [val_compose l4, v4, v5, val_add, v]
    rw [vn] at v3
    have hd := eq_inv_of_mul_eq_one_right v3
    rw [hd, val_succ n a]
    exact Ext.mul_inv (L := level n) (val_ne_zero ha h0)

theorem inverse_zero (n : ℕ) (g : Good n) : inverseRec n 0 = some none := by
  have h0 : (0 : ℕ) < size (n + 1) := size_pos _
  have z : 0 < size n := size_pos _
  obtain ⟨c1, e1, l1, v1⟩ := g.alpha 0 z
  obtain ⟨c2, e2, l2, v2⟩ := g.mul 0 (add 0 c1) z (add_lt z l1)
  obtain ⟨c3, e3, l3, v3⟩ := g.square 0 z
  rw [val_zero, zero_mul] at v1 v2 v3
  have h1 := val_injective _ l1 z (v1.trans (val_zero _).symm)
  have h2 := val_injective _ l2 z (v2.trans (val_zero _).symm)
  have h3 := val_injective _ l3 z (v3.trans (val_zero _).symm)
  subst h1 h2 h3
  have ea : add 0 0 = 0 := rfl
  rw [ea] at e2
  simp only [inverseRec, inverseFinish, decompose_eq h0, Nat.zero_mod, Nat.zero_div, e1, ea, e2, e3, g.inv0,
    Option.bind_eq_bind, Option.bind_some]

theorem alpha_rec (n x : ℕ) : mulByAlpha (n + 4) x = (do
    let (x0, x1) := decompose (n + 3) x
    let x1a ← mulByAlpha (n + 3) x1
    some (compose (n + 3) x1 (add x0 x1a))) := rfl

theorem square_rec (n x : ℕ) : square (n + 4) x = (do
    let (x0, x1) := decompose (n + 3) x
    let z0 ← square (n + 3) x0
    let z1 ← square (n + 3) x1
    let z1a ← mulByAlpha (n + 3) z1
    some (compose (n + 3) (add z0 z1) z1a)) := rfl

theorem inverse_rec (n x : ℕ) : inverse (n + 4) x = inverseRec (n + 3) x := rfl

theorem good_of (n : ℕ) (g : Good n) (r : ℕ → ℕ → Option ℕ) (s t : ℕ → Option ℕ)
    (u : ℕ → Option (Option ℕ))
    (hr : ∀ a b, r a b = (do
      let (a0, a1) := decompose n a
      let (b0, b1) := decompose n b
      let z0 ← mul n a0 b0
      let z1 ← mul n a1 b1
      let z0z1 := add z0 z1
      let m ← mul n (add a0 a1) (add b0 b1)
      let z2 := add m z0z1
      let z1a ← mulByAlpha n z1
      some (compose n z0z1 (add z2 z1a))))
    (hs : ∀ x, s x = (do
      let (x0, x1) := decompose n x
      let x1a ← mulByAlpha n x1
      some (compose n x1 (add x0 x1a))))
    (ht : ∀ x, t x = (do
      let (x0, x1) := decompose n x
      let z0 ← square n x0
      let z1 ← square n x1
      let z1a ← mulByAlpha n z1
      some (compose n (add z0 z1) z1a)))
    (hu : ∀ x, u x = inverseRec n x)
    (er : mul (n + 1) = r) (es : mulByAlpha (n + 1) = s) (et : square (n + 1) = t)
    (eu : inverse (n + 1) = u) : Good (n + 1) := by
  subst er es et eu
  exact
    { mul := fun _ _ ha hb => mul_step n g hr ha hb
      alpha := fun _ ha => alpha_step n g hs ha
      square := fun _ ha => square_step n g ht ha
      inv := fun a ha h0 => by rw [hu a]; exact inverse_step n g ha h0
      inv0 := by rw [hu 0]; exact inverse_zero n g }

theorem good_step (n : ℕ) (g : Good (n + 3)) : Good (n + 4) :=
  good_of (n + 3) g (mul (n + 4)) (mulByAlpha (n + 4)) (square (n + 4)) (inverse (n + 4))
    (mul_rec n) (alpha_rec n) (square_rec n) (inverse_rec n) rfl rfl rfl rfl

theorem good : ∀ n, Good n
  | 0 => good0
  | 1 => good1
  | 2 => good2
  | 3 => good3
  | n + 4 => good_step n (good (n + 3))

end Tachyon.Binary
