import Mathlib.RingTheory.RootsOfUnity.PrimitiveRoots
import Verif.Model.FFT
/-! What it means for a domain, a configuration and a twiddle item to be right. -/
namespace Tachyon.FFT

variable {F : Type*} [Field F]

/-- The members of the domain describe the coset `offset * <gen>` of `size` elements. -/
structure Domain.Valid (d : Domain F) : Prop where
  pos : 0 < d.size
  le : d.size ≤ 2 ^ 63
  sizeF : d.sizeF = (d.size : F)
  sizeInv : d.sizeInv = (d.size : F)⁻¹
  prim : IsPrimitiveRoot d.gen d.size
  genInv : d.genInv = d.gen⁻¹
  offset : d.offset ≠ 0
  offsetInv : d.offsetInv = d.offset⁻¹
  offsetPow : d.offsetPow = d.offset ^ d.size

/-- A valid radix-2 domain. -/
def Domain.Radix2 (d : Domain F) : Prop := d.Valid ∧ d.size = 2 ^ d.logSize

/-- The roots of the configuration have the orders that their names promise. -/
def RootConfig.Valid (cfg : RootConfig F) : Prop :=
  match cfg.large with
  | none => IsPrimitiveRoot cfg.twoAdicRoot (2 ^ cfg.twoAdicity)
  | some (q, qAdicity, root) => q % 2 = 1 ∧ 1 < q ∧ q < 2 ^ 64 ∧
      IsPrimitiveRoot root (2 ^ cfg.twoAdicity * q ^ qAdicity)

/-- The vectors of roots for the network with bit-reversed input: vector `s` holds the first `2^s` powers
of `w^(2^(k-1-s))`. -/
def RootsFor (w : F) (k : ℕ) (roots : List (List F)) : Prop :=
  ∀ s < k, ∃ l, roots[s]? = some l ∧ 2 ^ s ≤ l.length ∧
    ∀ j < 2 ^ s, l.getD j 0 = w ^ (2 ^ (k - 1 - s) * j)

/-- The vectors of roots for the network with input in order: vector `s` holds the first `2^(k-1-s)`
powers of `w^(2^s)`. -/
def InvRootsFor (w : F) (k : ℕ) (roots : List (List F)) : Prop :=
  ∀ s < k, ∃ l, roots[s]? = some l ∧ 2 ^ (k - 1 - s) ≤ l.length ∧
    ∀ j < 2 ^ (k - 1 - s), l.getD j 0 = w ^ (2 ^ s * j)

/-- The item holds the roots that the transforms over the domain use. -/
def Item.For (item : Item F) (d : Domain F) : Prop :=
  RootsFor d.gen d.logSize item.roots ∧ InvRootsFor d.gen⁻¹ d.logSize item.invRoots

end Tachyon.FFT
