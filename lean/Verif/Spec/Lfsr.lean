import Mathlib.Data.Nat.Nth
import Mathlib.Data.Nat.Bitwise
/-!
# The stream of the Grain generator in self-shrinking mode

Appendix of the Poseidon paper: 80 bits that encode the parameters, a linear recurrence, the first 160 new bits are
thrown away, then of each pair of bits the second is an output if the first is one.
-/
namespace Tachyon.Lfsr.Spec

/-- The parameters in the first 80 bits, and the recurrence. -/
structure Stream (inverse : Bool) (n t rf rp : ℕ) (b : ℕ → Bool) : Prop where
  field : b 0 = false ∧ b 1 = true
  sbox : b 2 = false ∧ b 3 = false ∧ b 4 = false ∧ b 5 = inverse
  bits : ∀ i < 12, b (6 + i) = n.testBit (11 - i)
  width : ∀ i < 12, b (18 + i) = t.testBit (11 - i)
  full : ∀ i < 10, b (30 + i) = rf.testBit (9 - i)
  part : ∀ i < 10, b (40 + i) = rp.testBit (9 - i)
  ones : ∀ i < 30, b (50 + i) = true
  step : ∀ i, b (i + 80) = (b (i + 62) ^^ b (i + 51) ^^ b (i + 38) ^^ b (i + 23) ^^ b (i + 13) ^^ b i)

/-- The first bit of pair `j`. -/
def first (b : ℕ → Bool) (j : ℕ) : Prop := b (240 + 2 * j) = true

instance (b : ℕ → Bool) : DecidablePred (first b) := fun j => by unfold first; infer_instance

/-- Output bit `i`. -/
noncomputable def out (b : ℕ → Bool) (i : ℕ) : Bool := b (240 + 2 * Nat.nth (first b) i + 1)

/-- The number with the given bits, the most significant first. -/
def number (l : List Bool) : ℕ := l.foldl (fun a c => 2 * a + c.toNat) 0

/-- Candidate `k` for an element: `n` output bits from `m + n k` on. -/
noncomputable def candidate (b : ℕ → Bool) (n m k : ℕ) : ℕ :=
  number ((List.range n).map fun i => out b (m + n * k + i))

end Tachyon.Lfsr.Spec
