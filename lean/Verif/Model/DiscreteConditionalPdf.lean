import Verif.Model.Prob

/-!
# Model of `BFL::DiscreteConditionalPdf`
(`/repo/orocos_bfl/src/pdf/discreteconditionalpdf.cpp` and `conditionalpdf.h`)
-/

namespace BFL

/-- Data members of `DiscreteConditionalPdf`: `table` is `_probability_p`, `dims` is
`_cond_arg_dims_p`, `args` is `_ConditionalArguments`. A cell `none` has never been written: the
constructor allocates the table without initialising it (line 48).
Simplifications: `_NumConditionalArguments` is not stored; it always equals the size of
`_ConditionalArguments` (conditionalpdf.h:116-120, 140-148, 160). The scratch vectors `_probs` and
`_valuelist` are local to the function that uses them. Negative sizes given to the constructor
(an exception from `new` or `vector`) and overflow of `int` are not modelled. -/
structure DiscreteConditionalPdf (K : Type) where
  numStates : Nat
  dims : List Nat
  table : List (Option K)
  args : List Int
  deriving DecidableEq, Repr

namespace DiscreteConditionalPdf

variable {K : Type} [Field K] [LinearOrder K]

/-- Constructor, lines 28-49. The conditional arguments are value initialised to 0. -/
def make (n : Nat) (dims : List Nat) : DiscreteConditionalPdf K :=
  { numStates := n, dims := dims, table := List.replicate (dims.prod * n) none,
    args := List.replicate dims.length 0 }

/-- `NumConditionalArgumentsGet`, conditionalpdf.h:134-138. -/
abbrev numArgs (d : DiscreteConditionalPdf K) : Nat := d.args.length

/-- `NumConditionalArgumentsSet`, conditionalpdf.h:140-148; not overridden, so the dimensions and
the table stay as they are. -/
def numArgsSet (d : DiscreteConditionalPdf K) (k : Nat) : DiscreteConditionalPdf K :=
  { d with args := d.args.take k ++ List.replicate (k - d.args.length) 0 }

/-- `ConditionalArgumentsSet`, conditionalpdf.h:157-162. -/
def argsSet (d : DiscreteConditionalPdf K) (cs : List Int) :
    Outcome (DiscreteConditionalPdf K) := do
  cassert (cs.length = d.numArgs)
  return { d with args := cs }

/-- `ConditionalArgumentSet`, conditionalpdf.h:172-179. -/
def argSet (d : DiscreteConditionalPdf K) (i : Nat) (c : Int) :
    Outcome (DiscreteConditionalPdf K) := do
  cassert (i < d.numArgs)
  let cs ← vset d.args i c
  return { d with args := cs }

/-- The loop of `IndexGet`, lines 106-110: `index += condargs[arg] * blocksize;
blocksize *= dims[arg]`. The first argument counts the remaining iterations; `condargs[arg]` and
`dims[arg]` are read without range checks. -/
def indexLoop : Nat → List Int → List Nat → Int → Int → Outcome Int
  | 0, _, _, index, _ => .ok index
  | k + 1, c :: cs, d :: ds, index, block => indexLoop k cs ds (index + c * block) (block * d)
  | _ + 1, _, _, _, _ => .ub

/-- `IndexGet`, lines 96-115. -/
def indexGet (d : DiscreteConditionalPdf K) (input : Int) (cs : List Int) : Outcome Int :=
  indexLoop d.numArgs cs d.dims (input * 1) (1 * d.numStates)

/-- Read `_probability_p[i]`: outside the table, or never written, is undefined. -/
def cellGet (d : DiscreteConditionalPdf K) (i : Int) : Outcome K :=
  if 0 ≤ i then
    match d.table[i.toNat]? with
    | some (some v) => .ok v
    | _ => .ub
  else .ub

/-- Write `_probability_p[i]`. -/
def cellSet (d : DiscreteConditionalPdf K) (i : Int) (p : K) :
    Outcome (DiscreteConditionalPdf K) :=
  if 0 ≤ i ∧ i.toNat < d.table.length then
    .ok { d with table := d.table.set i.toNat (some p) }
  else .ub

/-- `ProbabilityGet`, lines 119-124. The `double` is converted to `Probability` on return. -/
def probabilityGet (d : DiscreteConditionalPdf K) (input : Int) : Outcome K := do
  let i ← d.indexGet input d.args
  let v ← d.cellGet i
  mkProb v

/-- `ProbabilitySet`, lines 127-133. The value is stored unchecked. -/
def probabilitySet (d : DiscreteConditionalPdf K) (p : K) (input : Int) (cs : List Int) :
    Outcome (DiscreteConditionalPdf K) := do
  let i ← d.indexGet input cs
  d.cellSet i p

/-- Copy constructor, lines 61-81, and `Clone`, 84-87. It reads `_cond_arg_dims_p` for as many
arguments as the object has now. Copying cells that were never written is not treated as an
error. -/
def copy (d : DiscreteConditionalPdf K) : Outcome (DiscreteConditionalPdf K) := do
  let ds ← mapOutcome (fun a => vget d.dims a) (List.range d.numArgs)
  let t ← mapOutcome (fun i => vget d.table i) (List.range (ds.prod * d.numStates))
  return { numStates := d.numStates, dims := ds, table := t, args := d.args }

/-- The row copied at lines 142-150. -/
def row (d : DiscreteConditionalPdf K) : Outcome (List K) := do
  let start ← d.indexGet 0 d.args
  mapOutcome (fun i : Nat => d.cellGet (start + i)) (List.range d.numStates)

/-- The table of lines 151-162. If the sum is zero the quotients are NaN or infinite and so is the
last entry, and the assert fails. -/
def valueList (n : Nat) (probs : List K) : Outcome (List K) :=
  if probs.sum = 0 then .abort
  else do
    let vs := runningSums 0 (probs.map (· / probs.sum))
    let total ← vget vs n
    cassert (1 - numericPrecision ≤ total ∧ total ≤ 1 + numericPrecision)
    return setLast vs 1

/-- Single `SampleFrom`, lines 135-175, with `u` the value of `runif()`. The method is ignored. The
result is `true` with the sample `index - 1` (unsigned, stored into an `int`). -/
def sampleOne (d : DiscreteConditionalPdf K) (u : K) : Outcome Int := do
  let probs ← d.row
  let vs ← valueList d.numStates probs
  let (index, _) ← sweep d.numStates u 0 vs
  return (index : Int) - 1

/-- List `SampleFrom`, lines 178-185 and pdf/pdf.h:178-191. -/
def sampleList (d : DiscreteConditionalPdf K) (us : List K) : Outcome (List Int) :=
  mapOutcome d.sampleOne us

/-- A sequence of `ProbabilitySet(p, s, cs)` calls. -/
def writes (d : DiscreteConditionalPdf K) :
    List (K × Int × List Int) → Outcome (DiscreteConditionalPdf K)
  | [] => .ok d
  | (p, s, cs) :: ws => do
    let d' ← d.probabilitySet p s cs
    d'.writes ws

end DiscreteConditionalPdf

end BFL
