import Verif.Model.Coset
import Verif.Spec.FFT
/-! What the two-adic cosets of `Verif/Model/Coset.lean` should be. -/
namespace Tachyon.Coset
open Tachyon.FFT

variable {F : Type} [Field F]

/-- The set `shift * <w>` of a domain. -/
def Mem (d : Domain F) (x : F) : Prop := ∃ i < d.size, x = d.offset * d.gen ^ i

/-- A valid domain of `2^k` elements whose generator is the root of the configuration of that order. -/
structure Of (cfg : RootConfig F) (k : ℕ) (shift : F) (d : Domain F) : Prop where
  radix2 : d.Radix2
  log : d.logSize = k
  offset : d.offset = shift
  gen : d.gen = cfg.twoAdicRoot ^ 2 ^ (cfg.twoAdicity - k)

end Tachyon.Coset
