import Verif.Model.Kzg
import Verif.Spec.Poly
import Mathlib.Algebra.Module.LinearMap.Basic
import Mathlib.LinearAlgebra.Lagrange
/-! What the KZG commitment schemes should compute. -/
namespace Tachyon.Kzg
open Polynomial

/-- `a₀ + r a₁ + r² a₂ + …`. -/
def powSum {F M : Type} [Field F] [AddCommGroup M] [Module F M] (r : F) : List M → M
  | [] => 0
  | a :: l => a + r • powSum r l

variable {F G G2 GT : Type} [Field F] [AddCommGroup G] [Module F G] [AddCommGroup G2] [Module F G2]
  [AddCommGroup GT] [Module F GT]

/-- The commitment to a polynomial under the secret `tau`. -/
noncomputable def commitment (g : G) (tau : F) (p : F[X]) : G := p.eval tau • g

/-- The setup for the secret `tau` with `n` powers. -/
def Setup.For (k : Setup G) (g : G) (tau : F) (n : ℕ) : Prop :=
  k.powers = (List.range n).map fun i => tau ^ i • g

/-- `G2` elements as `DoUnsafeSetupWithTau` stores them. -/
def Scheme.For (s : Scheme G G2) (g2 : G2) (tau : F) : Prop := s.g2Arr = (tau • g2, -g2)

/-- The pairing is not degenerate. -/
def Nondegenerate (e : G →ₗ[F] G2 →ₗ[F] GT) (g2 : G2) : Prop := ∀ a, e a g2 = 0 → a = 0

/-- The claim holds of the polynomial behind its oracle. -/
def Claim.Holds (poly : ℕ → F[X]) (c : Claim F) : Prop := (poly c.oracle).eval c.point = c.opening

/-- The scheme is not in batch mode. -/
structure Scheme.Ready (s : Scheme G G2) : Prop where
  mode : s.batchMode = false
  count : s.batchCount = 0
  batch : s.kzg.batch = []

variable [DecidableEq F]

/-- The distinct points of the claims. -/
def pointsIn (claims : List (Claim F)) : List F := (claims.map (·.point)).eraseDups

/-- What the verifier adds up at the point `x` with the commitment `w`. -/
def gwcTerm (g : G) (com : ℕ → G) (v : F) (claims : List (Claim F)) (x : F) (w : G) : G :=
  x • w + powSum v ((claims.filter (·.point = x)).map fun c => com c.oracle - c.opening • g)

/-! ### SHPlonk -/

/-- All points of the claims. -/
def allPoints (claims : List (Claim F)) : Finset F := (claims.map (·.point)).toFinset

/-- The points at which the oracle is claimed. -/
def pointsFor (claims : List (Claim F)) (o : ℕ) : Finset F :=
  ((claims.filter (·.oracle = o)).map (·.point)).toFinset

/-- The sets of points of the oracles, in the order of the first claims about the oracles. -/
def finSets (claims : List (Claim F)) : List (Finset F) :=
  ((claims.map (·.oracle)).eraseDups.map (pointsFor claims)).eraseDups

/-- The oracles that are claimed at exactly the points `S`, in the order of their first claims. -/
def oraclesFor (claims : List (Claim F)) (S : Finset F) : List ℕ :=
  (claims.map (·.oracle)).eraseDups.filter (pointsFor claims · = S)

/-- The opening in the first claim about the oracle at the point. -/
def opened (claims : List (Claim F)) (o : ℕ) (x : F) : F :=
  ((claims.find? fun c => c.oracle = o && decide (c.point = x)).map (·.opening)).getD 0

/-- The polynomial of the lowest degree with the claimed values. -/
noncomputable def remainder (claims : List (Claim F)) (S : Finset F) (o : ℕ) : F[X] :=
  Lagrange.interpolate S id (opened claims o)

/-- The value of the vanishing polynomial. -/
def vanish (S : Finset F) (u : F) : F := ∏ x ∈ S, (u - x)

/-- The right side of the equation that the verifier of SHPlonk checks. -/
noncomputable def shplonkRight (g : G) (com : ℕ → G) (y v u : F) (claims : List (Claim F)) (h : G) : G :=
  powSum v ((finSets claims).map fun S => vanish (allPoints claims \ S) u •
    powSum y ((oraclesFor claims S).map fun o => com o - (remainder claims S o).eval u • g)) -
  vanish (allPoints claims) u • h

end Tachyon.Kzg
