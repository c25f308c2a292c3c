import Mathlib.Data.Matrix.Mul
import Mathlib.Data.List.FinRange
import Mathlib.Algebra.Field.Defs
import Verif.Model.Pow
/-!
# Model of the Poseidon permutation and its configuration

`tachyon/crypto/hashes/sponge/poseidon/{poseidon,poseidon_config,sparse_mds_matrix,poseidon_sponge_base}.h` and
`tachyon/math/matrix/matrix_operations.h`. The width is `t + 2` (`FromMDSMatrix` checks that it is at least two);
sizes of vectors and matrices are part of the types, rows of `ark` are a list. `*`, `transpose` and `block` of Eigen
are the operations on matrices; `inverse` is an oracle (`EigenInv`). `none` is the failure of a check or a row out of
bounds.
-/
namespace Tachyon.Poseidon
open Matrix

variable {F : Type} [Field F] {t : ℕ}

/-- `math::MulMatVec`, `MulMatVecSerial` (matrix_operations.h:39-67, :69-119) for a square matrix; the rows of the
parallel loop are independent of each other. -/
def mulMatVec {n : ℕ} (M : Matrix (Fin n) (Fin n) F) (v : Fin n → F) : Fin n → F := fun i =>
  (List.finRange n).foldl (fun acc j => acc + M i j * v j) 0

/-- `math::MulMatMat`, `MulMatMatSerial` (matrix_operations.h:121-157): the entry at `i`, `k`. -/
def mulMatMat {l m n : ℕ} (A : Matrix (Fin l) (Fin m) F) (B : Matrix (Fin m) (Fin n) F) : Matrix (Fin l) (Fin n) F :=
  fun i k => (List.finRange m).foldl (fun acc j => acc + A i j * B j k) 0

/-- `inverse` of Eigen. -/
structure EigenInv (F : Type) where
  run : ∀ {n : ℕ}, Matrix (Fin n) (Fin n) F → Matrix (Fin n) (Fin n) F

/-- `SparseMDSMatrix` (sparse_mds_matrix.h:35-45, :100-105). -/
structure Sparse (F : Type) (t : ℕ) where
  row : Fin (t + 2) → F
  colHat : Fin (t + 1) → F

/-- `FromMDSMatrix` (sparse_mds_matrix.h:47-56). -/
def Sparse.ofMatrix [DecidableEq F] (M : Matrix (Fin (t + 2)) (Fin (t + 2)) F) : Option (Sparse F t) :=
  if ∀ i j : Fin (t + 1), M i.succ j.succ = if i = j then 1 else 0 then some ⟨M 0, fun i => M i.succ 0⟩ else none

/-- `Apply` (sparse_mds_matrix.h:68-79). -/
def Sparse.apply (s : Sparse F t) (v : Fin (t + 2) → F) : Fin (t + 2) → F :=
  let v0 := (List.finRange (t + 2)).foldl (fun acc i => acc + s.row i * v i) 0
  let v := (List.finRange (t + 1)).foldl
    (fun (v : Fin (t + 2) → F) i => Function.update v i.succ (v i.succ + s.colHat i * v 0)) v
  Function.update v 0 v0

/-- `Construct` (sparse_mds_matrix.h:81-86). -/
def Sparse.construct (s : Sparse F t) : Matrix (Fin (t + 2)) (Fin (t + 2)) F := fun i j =>
  if i = 0 then s.row j
  else if h : i ≠ 0 ∧ j = 0 then s.colHat (i.pred h.1)
  else if i = j then 1 else 0

/-- `m_prime` (poseidon_config.h:196-201). -/
def mPrime (M : Matrix (Fin (t + 2)) (Fin (t + 2)) F) : Matrix (Fin (t + 2)) (Fin (t + 2)) F := fun i j =>
  if i ≠ 0 ∧ j ≠ 0 then M i j else if i = j then 1 else 0

/-- `w_hat` (poseidon_config.h:203-205). -/
def wHat (inv : EigenInv F) (M : Matrix (Fin (t + 2)) (Fin (t + 2)) F) : Fin (t + 1) → F :=
  inv.run (M.submatrix Fin.succ Fin.succ) *ᵥ fun i => M i.succ 0

/-- `m_prime_prime_mds` (poseidon_config.h:206-209). -/
def mPrimePrime (inv : EigenInv F) (M : Matrix (Fin (t + 2)) (Fin (t + 2)) F) : Matrix (Fin (t + 2)) (Fin (t + 2)) F :=
  fun i j =>
    if i = 0 then M 0 j
    else if h : i ≠ 0 ∧ j = 0 then wHat inv M (i.pred h.1)
    else if i = j then 1 else 0

section Dec
variable [DecidableEq F]

/-- `Factorize` (poseidon_config.h:193-212). -/
def factorize (inv : EigenInv F) (M : Matrix (Fin (t + 2)) (Fin (t + 2)) F) :
    Option (Matrix (Fin (t + 2)) (Fin (t + 2)) F × Sparse F t) :=
  (Sparse.ofMatrix (mPrimePrime inv M)ᵀ).map fun s => (mPrime M, s)

/-- The loop of `ComputeSparseMatrices` (poseidon_config.h:176-183): the matrices in order and the last `acc`. -/
def sparseLoop (inv : EigenInv F) (Mt : Matrix (Fin (t + 2)) (Fin (t + 2)) F) :
    ℕ → Matrix (Fin (t + 2)) (Fin (t + 2)) F → Option (List (Sparse F t) × Matrix (Fin (t + 2)) (Fin (t + 2)) F)
  | 0, acc => some ([], acc)
  | n + 1, acc =>
    (factorize inv acc).bind fun r =>
      (sparseLoop inv Mt n (Mt * r.1)).map fun q => (r.2 :: q.1, q.2)

/-- `ComputeSparseMatrices` (poseidon_config.h:170-186): `sparse_matrices` and `pre_sparse_mds`. -/
def computeSparse (inv : EigenInv F) (P : ℕ) (M : Matrix (Fin (t + 2)) (Fin (t + 2)) F) :
    Option (List (Sparse F t) × Matrix (Fin (t + 2)) (Fin (t + 2)) F) :=
  (sparseLoop inv Mᵀ P Mᵀ).map fun r => (r.1.reverse, r.2ᵀ)

end Dec

/-- Assignment to a row. -/
def setRow (m : List (Fin (t + 2) → F)) (i : ℕ) (v : Fin (t + 2) → F) : Option (List (Fin (t + 2) → F)) :=
  if i < m.length then some (m.set i v) else none

/-- The loops `optimized_ark.row(i) = mds_inverse * ark.row(i).transpose()` (poseidon_config.h:147-149, :163-166) for
the `n` rows from `i` on. -/
def fullRows (Minv : Matrix (Fin (t + 2)) (Fin (t + 2)) F) (ark : List (Fin (t + 2) → F)) :
    ℕ → ℕ → List (Fin (t + 2) → F) → Option (List (Fin (t + 2) → F))
  | 0, _, opt => some opt
  | n + 1, i, opt => (ark[i]?).bind fun a => (setRow opt i (Minv *ᵥ a)).bind fun opt =>
    fullRows Minv ark n (i + 1) opt

/-- The loop over the partial rounds (poseidon_config.h:152-160), `n` iterations from `i` on, with the sum
`FullRounds + PartialRounds` of the rounds; the result is `optimized_ark` and `acc`. -/
def partialRows (Minv : Matrix (Fin (t + 2)) (Fin (t + 2)) F) (ark : List (Fin (t + 2) → F)) (rounds : ℕ) :
    ℕ → ℕ → List (Fin (t + 2) → F) → (Fin (t + 2) → F) → Option (List (Fin (t + 2) → F) × (Fin (t + 2) → F))
  | 0, _, opt, acc => some (opt, acc)
  | n + 1, i, opt, acc =>
    let tmp := Minv *ᵥ acc
    (setRow opt (rounds - i) (Function.update 0 0 (tmp 0))).bind fun opt =>
      (ark[rounds - i - 1]?).bind fun a =>
        partialRows Minv ark rounds n (i + 1) opt (Function.update tmp 0 0 + a)

/-- `OptimizeARK` (poseidon_config.h:140-168) for `R` full and `P` partial rounds. `junk` is what the matrix
`optimized_ark` holds before. -/
def optimizeArk (inv : EigenInv F) (R P : ℕ) (M : Matrix (Fin (t + 2)) (Fin (t + 2)) F)
    (ark junk : List (Fin (t + 2) → F)) : Option (List (Fin (t + 2) → F)) :=
  let Minv := inv.run M
  let h := R / 2
  (ark[0]?).bind fun a0 =>
    (setRow junk 0 a0).bind fun opt =>
      (fullRows Minv ark (h - 1) 1 opt).bind fun opt =>
        (ark[h + P]?).bind fun acc =>
          (partialRows Minv ark (R + P) P h opt acc).bind fun r =>
            (setRow r.1 h (Minv *ᵥ r.2)).bind fun opt =>
              fullRows Minv ark (P + R - (h + P + 1)) (h + P + 1) opt

variable [DecidableEq F] in
/-- The matrix of `FindPoseidonARKAndMDS` (poseidon_config.h:59-67) for the elements drawn; `unwrap` fails for a sum
that is zero. -/
def cauchy {n : ℕ} (xs ys : Fin n → F) : Option (Matrix (Fin n) (Fin n) F) :=
  if ∀ i j, xs i + ys j ≠ 0 then some (Matrix.of fun i j => (xs i + ys j)⁻¹) else none

/-- `PoseidonConfig` (poseidon_config.h:70-79, poseidon_config_base.h:20-26). -/
structure Config (F : Type) (t : ℕ) where
  ark : List (Fin (t + 2) → F)
  mds : Matrix (Fin (t + 2)) (Fin (t + 2)) F
  pre : Matrix (Fin (t + 2)) (Fin (t + 2)) F
  sparse : List (Sparse F t)

variable [DecidableEq F] in
/-- `Create` (poseidon_config.h:98-109) for the elements drawn by the generator. -/
def create (inv : EigenInv F) (R P : ℕ) (ark junk : List (Fin (t + 2) → F)) (xs ys : Fin (t + 2) → F) :
    Option (Config F t) :=
  (cauchy xs ys).bind fun M =>
    (optimizeArk inv R P M ark junk).bind fun opt =>
      (computeSparse inv P M).map fun r => ⟨opt, M, r.2, r.1⟩

/-- `elem.ConstPow<kAlpha>()`. -/
def pow (alpha : BitVec 32) (x : F) : F := constPow ⟨1, (· * ·), fun x => x * x⟩ alpha x

/-- `ApplySBoxFull` (poseidon_sponge_base.h:162-167). -/
def sboxFull (alpha : BitVec 32) (s : Fin (t + 2) → F) : Fin (t + 2) → F := fun i => pow alpha (s i)

/-- `ApplySBoxPartial` (poseidon_sponge_base.h:169-173). -/
def sboxPartial (alpha : BitVec 32) (s : Fin (t + 2) → F) : Fin (t + 2) → F := Function.update s 0 (pow alpha (s 0))

/-- `ApplyARKFull` (poseidon_sponge_base.h:148-153). -/
def arkFull (c : Config F t) (i : ℕ) (s : Fin (t + 2) → F) : Option (Fin (t + 2) → F) :=
  (c.ark[i]?).map fun a => s + a

/-- `ApplyARKPartial` (poseidon_sponge_base.h:155-160). -/
def arkPartial (c : Config F t) (i : ℕ) (s : Fin (t + 2) → F) : Option (Fin (t + 2) → F) :=
  (c.ark[i]?).map fun a => Function.update s 0 (s 0 + a 0)

/-- The loops over full rounds of `Permute` (poseidon.h:54-58, :70-75), `n` rounds from `i` on. -/
def fullRounds (alpha : BitVec 32) (c : Config F t) : ℕ → ℕ → (Fin (t + 2) → F) → Option (Fin (t + 2) → F)
  | 0, _, s => some s
  | n + 1, i, s => (arkFull c i (sboxFull alpha s)).bind fun s => fullRounds alpha c n (i + 1) (mulMatVec c.mds s)

/-- The loop over partial rounds of `Permute` (poseidon.h:63-68), `n` rounds from `i` on; `h` is
`full_rounds_over_2`. -/
def partialRounds (alpha : BitVec 32) (c : Config F t) (h : ℕ) :
    ℕ → ℕ → (Fin (t + 2) → F) → Option (Fin (t + 2) → F)
  | 0, _, s => some s
  | n + 1, i, s =>
    (arkPartial c i (sboxPartial alpha s)).bind fun s =>
      (c.sparse[i - (h + 1)]?).bind fun m => partialRounds alpha c h n (i + 1) (m.apply s)

/-- `Permute` (poseidon.h:50-78). -/
def permute (alpha : BitVec 32) (R P : ℕ) (c : Config F t) (s : Fin (t + 2) → F) : Option (Fin (t + 2) → F) :=
  let h := R / 2
  (arkFull c 0 s).bind fun s =>
    (fullRounds alpha c (h - 1) 1 s).bind fun s =>
      (arkFull c h (sboxFull alpha s)).bind fun s =>
        (partialRounds alpha c h P (h + 1) (mulMatVec c.pre s)).bind fun s =>
          (fullRounds alpha c (P + R - (h + P + 1)) (h + P + 1) s).map fun s =>
            mulMatVec c.mds (sboxFull alpha s)

end Tachyon.Poseidon
