import Verif.Model.FFT
/-! Mixed radix FFT: `math/polynomials/univariate/mixed_radix_evaluation_domain.h`. -/
universe u
namespace Tachyon.FFT
open Tachyon.Group Tachyon.Parallel

/-- The loop of `MaxDegreeForMixedRadixEvaluationDomain` (mixed_radix_evaluation_domain.h:42-44). The loop
variable hides the outer `i`; every iteration increases it, so `q_adicity + 2` iterations suffice for
`q ≥ 1`. -/
def maxDegreeGo (q qAdicity : Nat) : Nat → Nat → Option Nat
  | 0, _ => none
  | fuel + 1, i => if i ≤ qAdicity then maxDegreeGo q qAdicity fuel (i * q + 1) else some i

/-- `MaxDegreeForMixedRadixEvaluationDomain` (mixed_radix_evaluation_domain.h:39-46): the returned `i` is
the outer variable, which is still 1. -/
def maxDegreeMixed (q qAdicity twoAdicity : Nat) : Option Nat :=
  match maxDegreeGo q qAdicity (qAdicity + 2) 0 with
  | none => none
  | some _ => if 64 ≤ twoAdicity then none else some (1 * 2 ^ twoAdicity - 1)

/-- The loop that doubles `r` (mixed_radix_evaluation_domain.h:168-171) in 64 bits; when 64 doublings do
not suffice, `r` is zero and the loop does not end. -/
def doubleUntil (minSize : Nat) : Nat → Nat → Nat → Option (Nat × Nat)
  | 0, r, t => if r < minSize then none else some (r, t)
  | fuel + 1, r, t => if r < minSize then doubleUntil minSize fuel (r * 2 % 2 ^ 64) (t + 1) else some (r, t)

/-- An iteration of `BestMixedDomainSize` (mixed_radix_evaluation_domain.h:164-175). Simplified: `std::pow`
computes with doubles, here with integers. -/
def bestStep (q twoAdicity minSize : Nat) (best i : Nat) : Option Nat :=
  match doubleUntil minSize 64 (q ^ i) 0 with
  | none => none
  | some (r, t) => some (if t ≤ twoAdicity then min best r else best)

/-- `BestMixedDomainSize` (mixed_radix_evaluation_domain.h:161-177). -/
def bestMixedDomainSize (q qAdicity twoAdicity minSize : Nat) : Option Nat :=
  (List.range (qAdicity + 1)).foldlM (bestStep q twoAdicity minSize) (2 ^ 64 - 1)

/-- `ComputeSizeAndFactors` (mixed_radix_evaluation_domain.h:119-128): the size and the two-adicity. The
inner `none` is the return value `false`. -/
def computeSizeAndFactors (maxDegree q qAdicity twoAdicity numCoeffs : Nat) : Option (Option (Nat × Nat)) :=
  match bestMixedDomainSize q qAdicity twoAdicity numCoeffs with
  | none => none
  | some size =>
    if maxDegree + 1 < size then some none
    else
      match decompose q size with
      | none => none
      | some none => some none
      | some (some (_, ta)) => some (some (size, ta))

/-- One digit of `MixedRadixFFTPermute` per iteration (mixed_radix_evaluation_domain.h:148-152, 153-157);
the state is `(shift, res, i)`. -/
def permuteGo (r : Nat) : Nat → Nat × Nat × Nat → Nat × Nat × Nat
  | 0, s => s
  | t + 1, (shift, res, i) => permuteGo r t (shift / r, res + i % r * (shift / r), i / r)

/-- `MixedRadixFFTPermute` (mixed_radix_evaluation_domain.h:130-159). -/
def mixedPermute (twoAdicity qAdicity q n i : Nat) : Nat :=
  (permuteGo q qAdicity (permuteGo 2 twoAdicity (n, 0, i))).2.1

/-- The inner loop of the permutation (mixed_radix_evaluation_domain.h:228-235) for one `k`: `a_i` refers
to element `k` throughout. Every iteration marks an element, so one more iteration than there are elements
suffices. -/
def permuteCycle {V : Type u} (perm : Nat → Nat) (k : Nat) :
    Nat → Nat → List Bool → List V → Option (List Bool × List V)
  | 0, _, _, _ => none
  | fuel + 1, i, seen, a =>
    match seen[i]? with
    | none => none
    | some true => some (seen, a)
    | some false =>
      match pairStep (fun x y => (y, x)) a (perm i) k with
      | none => none
      | some a => permuteCycle perm k fuel (perm i) (seen.set i true) a

/-- The permutation (mixed_radix_evaluation_domain.h:226-236). -/
def permuteAll {V : Type u} (perm : Nat → Nat) (a : List V) : Option (List V) :=
  ((List.range a.length).foldlM (fun s k => permuteCycle perm k (a.length + 1) k s.1 s.2)
    (List.replicate a.length false, a)).map (·.2)

variable {F : Type u} [Field F] [DecidableEq F]

/-- `MixedRadixEvaluationDomain::Create` (mixed_radix_evaluation_domain.h:64-71). -/
def Domain.createMixed (cfg : RootConfig F) (maxDegree numCoeffs : Nat) : Option (Domain F) :=
  match cfg.large with
  | none => none
  | some (q, qAdicity, _) =>
    match computeSizeAndFactors maxDegree q qAdicity cfg.twoAdicity numCoeffs with
    | some (some (size, ta)) => Domain.new cfg size ta
    | _ => none

/-- `IsValidNumCoeffs` (mixed_radix_evaluation_domain.h:73-78). -/
def isValidNumCoeffsMixed (cfg : RootConfig F) (maxDegree numCoeffs : Nat) : Option Bool :=
  match cfg.large with
  | none => some false
  | some (q, qAdicity, _) =>
    (computeSizeAndFactors maxDegree q qAdicity cfg.twoAdicity numCoeffs).map Option.isSome

/-- `n` powers of a root, each computed from the one before (mixed_radix_evaluation_domain.h:239-242). -/
def rootsGo (w : F) : Nat → F → List F
  | 0, _ => []
  | n + 1, x => x :: rootsGo w n (x * w)

/-- The loop that fills `terms` (mixed_radix_evaluation_domain.h:254-258) from `i`, with `n` left. -/
def termsGo (a : List F) (pos m : Nat) (wj : F) : Nat → Nat → F → List F
  | 0, _, _ => []
  | n + 1, i, wji => a.getD (pos + i * m) 0 * wji :: termsGo a pos m wj n (i + 1) (wji * wj)

/-- The loop over `l` (mixed_radix_evaluation_domain.h:262-265) from `l`: what is added to the base
term. -/
def addTerms (q i : Nat) (roots : List F) : List F → Nat → F → F
  | [], _, acc => acc
  | t :: ts, l, acc => addTerms q i roots ts (l + 1) (acc + t * roots.getD (i * l % q) 0)

/-- The loop over `i` (mixed_radix_evaluation_domain.h:260-266), from `i`, with `n` left. `base_term` is a
reference to element `pos`, which the first iteration overwrites. -/
def combineGo (q pos m : Nat) (roots terms : List F) : Nat → Nat → List F → Option (List F)
  | 0, _, a => some a
  | n + 1, i, a =>
    if a.length ≤ pos + i * m then none
    else
      combineGo q pos m roots terms n (i + 1)
        (a.set (pos + i * m) (addTerms q i roots terms 1 (a.getD pos 0)))

/-- The loop over `j` (mixed_radix_evaluation_domain.h:251-269), from `j`, with `n` left. -/
def qInner (q k m : Nat) (roots : List F) (wm : F) : Nat → Nat → F → List F → Option (List F)
  | 0, _, _, a => some a
  | n + 1, j, wj, a =>
    match combineGo q (k + j) m roots (termsGo a (k + j) m wj (q - 1) 1 wj) q 0 a with
    | none => none
    | some a => qInner q k m roots wm n (j + 1) (wj * wm) a

/-- The passes for `q` (mixed_radix_evaluation_domain.h:247-272); also returns `m`. -/
def qPasses (q n : Nat) (omega : F) (roots : List F) : Nat → Nat → List F → Option (Nat × List F)
  | 0, m, a => some (m, a)
  | t + 1, m, a =>
    match (List.range ((n + q * m - 1) / (q * m))).foldlM
        (fun a b => qInner q (b * (q * m)) m roots (powSize omega (n / (q * m))) m 0 1 a) a with
    | none => none
    | some a => qPasses q n omega roots t (m * q) a

/-- The loop over `j` (mixed_radix_evaluation_domain.h:283-287), from `j`, with `n` left. -/
def twoInner (k m : Nat) (wm : F) : Nat → Nat → F → List F → Option (List F)
  | 0, _, _, a => some a
  | n + 1, j, w, a =>
    match pairStep (butterflyOutIn w) a (k + j) (k + m + j) with
    | none => none
    | some a => twoInner k m wm n (j + 1) (w * wm) a

/-- The passes for 2 (mixed_radix_evaluation_domain.h:278-290). -/
def twoPasses (n : Nat) (omega : F) : Nat → Nat → List F → Option (List F)
  | 0, _, a => some a
  | t + 1, m, a =>
    match (List.range ((n + 2 * m - 1) / (2 * m))).foldlM
        (fun a b => twoInner (b * (2 * m)) m (powSize omega (n / (2 * m))) m 0 1 a) a with
    | none => none
    | some a => twoPasses n omega t (m * 2) a

/-- `SerialFFT` (mixed_radix_evaluation_domain.h:196-291). Simplified: `std::pow` computes with doubles,
here with integers. -/
def serialFFT (o : Sched) (q : Nat) (a : List F) (omega : F) (twoAdicity : Nat) : Option (List F) :=
  let n := a.length
  match computeAdicity q n with
  | none => none
  | some qa =>
    if n ≠ q ^ qa * 2 ^ twoAdicity then none
    else if 0 < qa then
      match permuteAll (mixedPermute twoAdicity qa q n) a with
      | none => none
      | some a =>
        match qPasses q n omega (rootsGo (powSize omega (n / q)) q 1) qa 1 a with
        | none => none
        | some (m, a) => twoPasses n omega twoAdicity m a
    else
      match swapBitRev o a n twoAdicity with
      | none => none
      | some a => twoPasses n omega twoAdicity 1 a

/-- The loop over `c` (mixed_radix_evaluation_domain.h:358-366), from `c`, with `n` left: `(kth[i], elt)`. -/
def cosetInner (a : List F) (i cosetSize : Nat) (step : F) : Nat → Nat → F × F → F × F
  | 0, _, s => s
  | n + 1, c, (acc, elt) =>
    cosetInner a i cosetSize step n (c + 1) (acc + a.getD (i + c * cosetSize) 0 * elt, elt * step)

/-- The loop over `i` (mixed_radix_evaluation_domain.h:357-368), from `i`, with `n` left. -/
def cosetLoop (a : List F) (num cosetSize : Nat) (step omegaK : F) : Nat → Nat → F → List F
  | 0, _, _ => []
  | n + 1, i, elt =>
    let s := cosetInner a i cosetSize step num 0 (0, elt)
    s.1 :: cosetLoop a num cosetSize step omegaK n (i + 1) (s.2 * omegaK)

/-- `ParallelFFT` (mixed_radix_evaluation_domain.h:294-381). Every iteration of the parallel loop works on
its own polynomial. -/
def parallelFFT (o : Sched) (q : Nat) (a : List F) (omega : F) (twoAdicity logThreads : Nat) :
    Option (List F) :=
  if twoAdicity < logThreads ∨ a.length % 2 ^ logThreads ≠ 0 then none
  else
    let num := 2 ^ logThreads
    let cosetSize := a.length / num
    match computeAdicity 2 cosetSize with
    | none => none
    | some ta =>
      match (List.range num).mapM fun k =>
        serialFFT o q (cosetLoop a num cosetSize (powSize omega (k * cosetSize)) (powSize omega k)
          cosetSize 0 1) (powSize omega num) ta with
      | none => none
      | some tmp => some ((List.range a.length).map fun i => (tmp.getD (i % num) []).getD (i / num) 0)

/-- `BestFFT` (mixed_radix_evaluation_domain.h:179-194); `threads` is `none` in a build without OpenMP. -/
def bestFFT (threads : Option Nat) (o : Sched) (q : Nat) (a : List F) (omega : F) (twoAdicity : Nat) :
    Option (List F) :=
  match threads with
  | none => serialFFT o q a omega twoAdicity
  | some t =>
    if twoAdicity ≤ Nat.log2 t then serialFFT o q a omega twoAdicity
    else parallelFFT o q a omega twoAdicity (Nat.log2 t)

/-- `FFT` (univariate_evaluation_domain.h:141-182, mixed_radix_evaluation_domain.h:93-100). -/
def mixedFFT (threads : Option Nat) (o : Sched) (q : Nat) (d : Domain F) (poly : List F) :
    Option (List F) :=
  if poly.isEmpty then some []
  else
    bestFFT threads o q (resizeZero d.size
      (if d.offset = 1 then poly else distribute (threads.getD 1) poly d.offset 1)) d.gen d.logSize

/-- `IFFT` (univariate_evaluation_domain.h:187-232, mixed_radix_evaluation_domain.h:102-117). -/
def mixedIFFT (threads : Option Nat) (o : Sched) (q : Nat) (d : Domain F) (evals : List F) :
    Option (List F) :=
  if evals.isEmpty then some []
  else
    match bestFFT threads o q (resizeZero d.size evals) d.genInv d.logSize with
    | none => none
    | some a =>
      some (Poly.Dense.removeZeros (if d.offset = 1 then a.map (· * d.sizeInv)
        else distribute (threads.getD 1) a d.offsetInv d.sizeInv))

end Tachyon.FFT
