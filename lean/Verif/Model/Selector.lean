import Verif.Model.CircuitPoly
/-!
# Selectors

`zk/plonk/constraint_system/{selector_compressor,exclusion_matrix,selector_description,selector_assignment}.h`,
`CompressSelectors` of `constraint_system.h`, `zk/plonk/expressions/evaluator/{simple_selector_extractor,selector_replacer}.h`.

`none` is a failing `CHECK` or an access out of bounds. Whether a selector is simple is a function of its index: selectors
are only made by `CreateSimpleSelector` and `CreateComplexSelector` (constraint_system.h:571-579), which never repeat an
index. Degrees are natural numbers. `LOG(DFATAL)` of `SelectorReplacer` (selector_replacer.h:43-49) is left out: in release
mode it only writes a line.
-/
universe u
namespace Tachyon.Selector
open Plonk CircuitPoly

/-- `SelectorDescription` (selector_description.h:19-56). -/
structure Desc where
  index : Nat
  activations : List Bool
  maxDegree : Nat

/-- `IsOrthogonal` (selector_description.h:36-43). -/
def orthogonal (a b : List Bool) : Bool := (a.zip b).all fun p => !(p.1 && p.2)

/-- The constructor of `ExclusionMatrix` (exclusion_matrix.h:61-69). -/
def exclusion (ds : List Desc) : List (List Bool) :=
  ds.mapIdx fun i d => (ds.take i).map fun e => !orthogonal d.activations e.activations

/-- `IsExclusive` (exclusion_matrix.h:75-79). -/
def isExclusive (m : List (List Bool)) (src dst : Nat) : Option Bool := (m[max src dst]?).bind fun r => r[min src dst]?

/-- The numbers of the constraint system that the callback changes (constraint_system.h:911-946). -/
structure Alloc where
  numFixed : Nat
  queries : List (Nat × Int)

section
variable {F : Type u}

/-- The callback (constraint_system.h:508-514) with `CreateFixedColumn` and `QueryFixedIndex` (constraint_system.h:367-375,
605-607). -/
def Alloc.run (a : Alloc) : Expr F × Alloc :=
  match queryIndex a.queries a.numFixed 0 with
  | some i => (.fixed ⟨some i, 0, a.numFixed⟩, ⟨a.numFixed + 1, a.queries⟩)
  | none => (.fixed ⟨some a.queries.length, 0, a.numFixed⟩, ⟨a.numFixed + 1, a.queries ++ [(a.numFixed, 0)]⟩)

/-- `SelectorAssignment` (selector_assignment.h:20-40). -/
structure Assignment (F : Type u) where
  index : Nat
  combination : Nat
  expr : Expr F

/-- The results of `SelectorCompressor` (selector_compressor.h:289-290), and what the callback changes. -/
structure State (F : Type u) where
  alloc : Alloc
  combinations : List (List F)
  assignments : List (Assignment F)

variable [Field F] [DecidableEq F]

/-- The body of `HandleZeroDegreeSelectors` for a selector of degree zero (selector_compressor.h:160-172). -/
def addZero (st : State F) (d : Desc) : State F :=
  let q : Expr F × Alloc := st.alloc.run
  ⟨q.2, st.combinations ++ [d.activations.map fun b => if b then 1 else 0],
    st.assignments ++ [⟨d.index, st.combinations.length, q.1⟩]⟩

/-- `HandleZeroDegreeSelectors` (selector_compressor.h:155-174): the state after it; the selectors that are left are those
of another degree. -/
def handleZero (st : State F) (ds : List Desc) : State F :=
  ds.foldl (fun st d => if d.maxDegree ≠ 0 then st else addZero st d) st

/-- `std::any_of` over the members of a combination (selector_compressor.h:213-217). -/
def anyExclusive (m : List (List Bool)) (j : Nat) : List Nat → Option Bool
  | [] => some false
  | i :: is => (isExclusive m j i).bind fun b => if b then some true else anyExclusive m j is

/-- The state of the loop that collects a combination. -/
structure Join where
  d : Nat
  combination : List Desc
  members : List Nat
  added : List Bool

/-- The loop that collects a combination (selector_compressor.h:198-233); `selector` is the first selector of the
combination, also in the place of the degree of the new one (line 223). -/
def joinLoop (ds : List Desc) (m : List (List Bool)) (selector : Desc) (maxDegree : Nat) : List Nat → Join → Option Join
  | [], s => some s
  | j :: js, s =>
    if s.d + s.combination.length = maxDegree then some s
    else
      (s.added[j]?).bind fun added =>
        if added then joinLoop ds m selector maxDegree js s
        else
          (anyExclusive m j s.members).bind fun excluded =>
            if excluded then joinLoop ds m selector maxDegree js s
            else
              let newD := max s.d (selector.maxDegree - 1)
              if maxDegree < newD + s.combination.length + 1 then joinLoop ds m selector maxDegree js s
              else
                (ds[j]?).bind fun sel => joinLoop ds m selector maxDegree js
                  ⟨newD, s.combination ++ [sel], s.members ++ [j], s.added.set j true⟩

/-- The loop for the expression of a member (selector_compressor.h:262-270): `k` iterations are left. -/
def rootExpr (query : Expr F) (assigned : F) : Nat → F → Expr F → Expr F
  | 0, _, e => e
  | k + 1, root, e => rootExpr query assigned k (root + 1)
      (if root ≠ assigned then .prod e (.sum (.constant root) (.neg query)) else e)

/-- The loop over the members (selector_compressor.h:249-285): the column and the assignments. -/
def assignLoop (query : Expr F) (combination len : Nat) :
    List Desc → F → List F → List (Assignment F) → List F × List (Assignment F)
  | [], _, column, as => (column, as)
  | s :: ss, root, column, as => assignLoop query combination len ss (root + 1)
      (List.zipWith (fun c a => if a then root else c) column s.activations)
      (as ++ [⟨s.index, combination, rootExpr query root len 1 query⟩])

/-- `ConstructCombinedSelector` (selector_compressor.h:239-287). -/
def construct (n : Nat) (st : State F) (combination : List Desc) : State F :=
  let q : Expr F × Alloc := st.alloc.run
  let r := assignLoop q.1 st.combinations.length combination.length combination 1 (List.replicate n 0) st.assignments
  ⟨q.2, st.combinations ++ [r.1], r.2⟩

/-- The loop of `CombineSimpleSelectors` (selector_compressor.h:176-237). -/
def combineLoop (ds : List Desc) (m : List (List Bool)) (maxDegree n : Nat) :
    List Nat → List Bool → State F → Option (State F)
  | [], _, st => some st
  | i :: is, added, st =>
    (added[i]?).bind fun a =>
      if a then combineLoop ds m maxDegree n is added st
      else
        (ds[i]?).bind fun selector =>
          if maxDegree < selector.maxDegree then none
          else
            (joinLoop ds m selector maxDegree (List.range' (i + 1) (ds.length - (i + 1)))
              ⟨selector.maxDegree - 1, [selector], [i], added.set i true⟩).bind fun s =>
                combineLoop ds m maxDegree n is s.added (construct n st s.combination)

/-- `Process` (selector_compressor.h:63-149). The `DCHECK` that all selectors have the same number of rows is a check. -/
def process (selectors : List (List Bool)) (degrees : List Nat) (maxDegree : Nat) (st : State F) : Option (State F) :=
  match selectors with
  | [] => some st
  | s :: _ =>
    if selectors.any (fun a => decide (a.length ≠ s.length)) then none
    else if degrees.length < selectors.length then none
    else
      let ds := selectors.mapIdx fun i a => (⟨i, a, degrees.getD i 0⟩ : Desc)
      let rest := ds.filter fun d => decide (d.maxDegree ≠ 0)
      combineLoop rest (exclusion rest) maxDegree s.length (List.range rest.length) (List.replicate rest.length false)
        (handleZero st ds)

end

section
variable {F : Type u}

/-- `Pick` (simple_selector_extractor.h:72-79). -/
def pick (l r : Option Nat) : Option (Option Nat) :=
  match l, r with
  | some _, some _ => none
  | some a, none => some (some a)
  | none, r => some r

/-- `SimpleSelectorExtractor::Evaluate` (simple_selector_extractor.h:25-69). -/
def extractSimple (simple : Nat → Bool) : Expr F → Option (Option Nat)
  | .constant _ => some none
  | .selector i => some (if simple i then some i else none)
  | .fixed _ => some none
  | .advice _ => some none
  | .inst _ => some none
  | .challenge _ => some none
  | .neg e => extractSimple simple e
  | .sum a b => (extractSimple simple a).bind fun l => (extractSimple simple b).bind fun r => pick l r
  | .prod a b => (extractSimple simple a).bind fun l => (extractSimple simple b).bind fun r => pick l r
  | .scaled e _ => extractSimple simple e

/-- The degrees of the selectors (constraint_system.h:491-501). -/
def selectorDegrees (simple : Nat → Bool) : List (Expr F) → List Nat → Option (List Nat)
  | [], ds => some ds
  | e :: es, ds =>
    (extractSimple simple e).bind fun s =>
      match s with
      | none => selectorDegrees simple es ds
      | some i => (ds[i]?).bind fun d => selectorDegrees simple es (ds.set i (max d (degree e)))

/-- `SelectorReplacer::Evaluate` (selector_replacer.h:33-80). -/
def replace (rs : List (Option (Expr F))) : Expr F → Option (Expr F)
  | .selector i => (rs[i]?).bind fun r => r
  | .neg e => (replace rs e).map .neg
  | .sum a b => (replace rs a).bind fun l => (replace rs b).map fun r => .sum l r
  | .prod a b => (replace rs a).bind fun l => (replace rs b).map fun r => .prod l r
  | .scaled e s => (replace rs e).map fun r => .scaled r s
  | e => some e

/-- The members of `ConstraintSystem` that are used here (constraint_system.h:911-946). -/
structure CS (F : Type u) where
  sys : System F
  numFixed : Nat
  numSelectors : Nat
  simple : Nat → Bool

/-- The loop over the assignments (constraint_system.h:516-529): the replacements and the map from selectors to columns;
`first` is the number of the first new column. -/
def replacements (first : Nat) : List (Assignment F) → List (Option (Expr F)) → List Nat →
    Option (List (Option (Expr F)) × List Nat)
  | [], rs, m => some (rs, m)
  | a :: as, rs, m =>
    if a.index < rs.length then
      replacements first as (rs.set a.index (some a.expr)) (m.set a.index (first + a.combination))
    else none

/-- Replacing in an argument (constraint_system.h:537-562). -/
def replaceArgument (rs : List (Option (Expr F))) (a : Argument F) : Option (Argument F) :=
  (a.inputs.mapM (replace rs)).bind fun inputs => (a.targets.mapM (replace rs)).map fun targets => ⟨inputs, targets⟩

variable [Field F] [DecidableEq F]

/-- `CompressSelectors` (constraint_system.h:481-565): the new constraint system, the map from selectors to columns and the
new columns. The degree is not kept in a cache. -/
def compress (cs : CS F) (selectors : List (List Bool)) : Option (CS F × List Nat × List (List F)) :=
  if selectors.length ≠ cs.numSelectors then none
  else
    (selectorDegrees cs.simple cs.sys.gates.flatten (List.replicate selectors.length 0)).bind fun degrees =>
      (computeDegree cs.sys).bind fun maxDegree =>
        (process selectors degrees maxDegree ⟨⟨cs.numFixed, cs.sys.fixedQueries⟩, [], []⟩).bind fun st =>
          (replacements cs.numFixed st.assignments (List.replicate st.assignments.length none)
            (List.replicate st.assignments.length 0)).bind fun r =>
              (cs.sys.gates.mapM fun g : List (Expr F) => g.mapM (replace r.1)).bind fun gates =>
                (cs.sys.lookups.mapM (replaceArgument r.1)).bind fun lookups =>
                  (cs.sys.shuffles.mapM (replaceArgument r.1)).map fun shuffles =>
                    ({ cs with
                        sys := { cs.sys with
                          gates := gates
                          lookups := lookups
                          shuffles := shuffles
                          fixedQueries := st.alloc.queries }
                        numFixed := st.alloc.numFixed }, r.2, st.combinations)

end
end Tachyon.Selector
