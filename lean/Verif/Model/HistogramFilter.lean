import Verif.Model.DiscretePdf
import Verif.Model.Models

/-!
# Model of `BFL::HistogramFilter` (`/repo/orocos_bfl/src/filter/histogramfilter.cpp`)
-/

namespace BFL

/-- Data members: `post` is the object `_post` points to, `newProb` is `_new_prob`, `timestep` is
`_timestep` of the base class. `_old_prob` is overwritten at the start of every update (lines 46 and
75) and is not stored here. -/
structure HistogramFilter (K : Type) where
  post : DiscretePdf K
  newProb : List K
  timestep : Nat
  deriving DecidableEq, Repr

namespace HistogramFilter

variable {Z K : Type} [Field K] [LinearOrder K]

/-- Constructor, lines 24-32, with `Filter` constructor, filter.cpp:25-29. -/
def make (prior : DiscretePdf K) : Outcome (HistogramFilter K) := do
  let post ← prior.copy
  return { post := post, newProb := prior.probabilitiesGet, timestep := 0 }

/-- The transition probability as requested at lines 51-64. `u = none` is the input of an `Update`
overload without `u`: an uninitialised `int` (filter.cpp:70, 79, 104). -/
def sysProb (sys : Model Int Int K) (u : Option Int) (dst src : Int) : Outcome K := do
  let w ← sys.withoutInputs
  if w then sys.prob1 dst src
  else match u with
    | some u => sys.prob2 dst src u
    | none => .ub

/-- The inner loops, lines 50-64: `temp`. -/
def predictCell (sys : Model Int Int K) (u : Option Int) (old : List K) (n : Nat) (dst : Nat) :
    Outcome K := do
  let ts ← mapOutcome (fun src : Nat => do
    let p ← sysProb sys u dst src
    let o ← vget old src
    return p * o) (List.range n)
  return ts.sum

/-- The outer loop, lines 48-66: `_new_prob[to_state] = temp` for the remaining states, with the
conversion to `Probability`. -/
def predictLoop (cell : Nat → Outcome K) : Nat → Nat → List K → Outcome (List K)
  | 0, _, v => .ok v
  | k + 1, dst, v => do
    let t ← cell dst
    let p ← mkProb t
    let v ← vset v dst p
    predictLoop cell k (dst + 1) v

/-- `SysUpdate`, lines 40-68. The return value of `ProbabilitiesSet` is dropped. -/
def sysUpdate (f : HistogramFilter K) (sys : Model Int Int K) (u : Option Int) :
    Outcome (HistogramFilter K) := do
  let old := f.post.probabilitiesGet
  let _ ← sys.withoutInputs
  let new ← predictLoop (predictCell sys u old f.post.numStates) f.post.numStates 0 f.newProb
  let (_, post) ← f.post.probabilitiesSet new
  return { f with post := post, newProb := new }

/-- The likelihood as requested at lines 78-79. -/
def measProb (meas : Model Int Z K) (z : Z) (s : Option Int) (state : Int) : Outcome K := do
  let w ← meas.withoutInputs
  if w then meas.prob1 z state
  else match s with
    | some s => meas.prob2 z state s
    | none => .ub

/-- `MeasUpdate`, lines 70-83. The return value of `ProbabilitiesSet` is dropped. -/
def measUpdate (f : HistogramFilter K) (meas : Model Int Z K) (z : Z) (s : Option Int) :
    Outcome (HistogramFilter K) := do
  let old ← mapOutcome (fun state : Nat => do
    let o ← vget f.post.probabilitiesGet state
    let p ← measProb meas z s state
    mkProb (o * p)) (List.range f.post.numStates)
  let (_, post) ← f.post.probabilitiesSet old
  return { f with post := post }

/-- A call of one of the `Update` overloads, filter.cpp:54-123: with or without system model, with
or without measurement model. -/
structure Call (Z K : Type) where
  sys : Option (Model Int Int K × Option Int)
  meas : Option (Model Int Z K × Z × Option Int)

/-- First half of `UpdateInternal`, line 92. -/
def sysPart (f : HistogramFilter K) :
    Option (Model Int Int K × Option Int) → Outcome (HistogramFilter K)
  | none => .ok f
  | some (m, u) => f.sysUpdate m u

/-- Second half of `UpdateInternal`, line 93. -/
def measPart (f : HistogramFilter K) :
    Option (Model Int Z K × Z × Option Int) → Outcome (HistogramFilter K)
  | none => .ok f
  | some (m, z, s) => f.measUpdate m z s

/-- `UpdateInternal`, lines 85-95. -/
def update (f : HistogramFilter K) (c : Call Z K) : Outcome (Bool × HistogramFilter K) := do
  let f ← f.sysPart c.sys
  let f ← f.measPart c.meas
  return (true, f)

/-- A sequence of `Update` calls; the Boolean says whether all returned `true`. -/
def run (f : HistogramFilter K) : List (Call Z K) → Outcome (Bool × HistogramFilter K)
  | [] => .ok (true, f)
  | c :: cs => do
    let (b, f') ← f.update c
    let (bs, f'') ← f'.run cs
    return (b && bs, f'')

end HistogramFilter

end BFL
