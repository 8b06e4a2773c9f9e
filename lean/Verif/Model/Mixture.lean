import Verif.Model.Prob
import Mathlib.Algebra.BigOperators.Group.List.Basic

/-!
# Model of `BFL::Mixture<T>` (`/repo/orocos_bfl/src/pdf/mixture.h`, `pdf/mixture.cpp`)

`P` is the type of component pdfs. The code stores clones of the components, so components are
modelled by value. What a component does is passed in as a function parameter.
-/

namespace BFL

/-- Data members of `Mixture<T>`: `dim` is `Pdf<T>::_dimension`, `comps` is `*_componentPdfs`,
`weights` is `*_componentWeights`, `cum` is `_cumWeights`. Simplification: `_numComponents` is not
stored; it always equals `_componentPdfs->size()` (set together by the constructors, changed
together and compared by asserts at lines 479, 498, 510 and 523). -/
structure Mixture (K P : Type) where
  dim : Nat
  comps : List P
  weights : List K
  cum : List K
  deriving DecidableEq, Repr

namespace Mixture

variable {K P T : Type} [Field K] [LinearOrder K]

/-- `NumComponentsGet`, pdf/mixture.h:267-271. -/
abbrev numComponents (m : Mixture K P) : Nat := m.comps.length

/-- `TestNotInit`, pdf/mixture.h:546-555. -/
def testNotInit (m : Mixture K P) : Outcome Unit := cassert (m.comps.length ≠ 0)

/-- Constructor `Mixture(dimension)`, pdf/mixture.h:181-195. -/
def make (dim : Nat) : Mixture K P := { dim := dim, comps := [], weights := [], cum := [0] }

/-- `NormalizeWeights`, pdf/mixture.h:557-574. -/
def normalizeWeights (m : Mixture K P) : Outcome (Bool × Mixture K P) :=
  if 0 < m.weights.sum then do
    let ws ← mapOutcome (fun w => divProb w m.weights.sum) m.weights
    return (true, { m with weights := ws })
  else return (false, m)

/-- `CumWeightsUpdate`, pdf/mixture.h:576-599. The table has one entry more than there are
components (asserted at lines 481, 500, 512 and 525), and every entry is rewritten. -/
def cumUpdate (m : Mixture K P) : Outcome (Bool × Mixture K P) := do
  let total ← vget (runningSums 0 m.weights) m.numComponents
  cassert (1 - numericPrecision ≤ total ∧ total ≤ 1 + numericPrecision)
  return (true, { m with cum := setLast (runningSums 0 m.weights) 1 })

/-- The expression `NormalizeWeights() && CumWeightsUpdate()`. -/
def renormalize (m : Mixture K P) : Outcome (Bool × Mixture K P) := do
  let (b, m) ← m.normalizeWeights
  if b then m.cumUpdate else return (false, m)

/-- Constructor from a vector of components, pdf/mixture.h:198-223. `componentVector[0]` is
dereferenced for the dimension (`dims` gives the dimension of a component). -/
def ofComponents (dims : P → Nat) (cs : List P) : Outcome (Mixture K P) := do
  let c0 ← vget cs 0
  let ws ← mapOutcome (fun _ => divProb 1 (cs.length : K)) cs
  let (_, m) ← cumUpdate
    { dim := dims c0, comps := cs, weights := ws, cum := List.replicate (cs.length + 1) 0 }
  return m

/-- `WeightsGet`, pdf/mixture.h:389-394. -/
def weightsGet (m : Mixture K P) : Outcome (List K) := do
  m.testNotInit
  return m.weights

/-- `WeightGet`, pdf/mixture.h:396-402. -/
def weightGet (m : Mixture K P) (i : Nat) : Outcome K := do
  m.testNotInit
  cassert (i < m.numComponents)
  vget m.weights i

/-- `ComponentGet`, pdf/mixture.h:539-544: no range check. -/
def componentGet (m : Mixture K P) (i : Nat) : Outcome P := do
  m.testNotInit
  vget m.comps i

/-- Copy constructor, pdf/mixture.h:225-244, and `Clone`, 261-265. -/
def copy (m : Mixture K P) : Outcome (Mixture K P) := do
  let ws ← m.weightsGet
  let (_, c) ← cumUpdate
    { dim := m.dim, comps := m.comps, weights := ws, cum := List.replicate (m.numComponents + 1) 0 }
  return c

/-- `WeightsSet`, pdf/mixture.h:404-412. The argument is a `vector<Probability>`. -/
def weightsSet (m : Mixture K P) (ws : List K) : Outcome (Bool × Mixture K P) := do
  let ws ← mapOutcome mkProb ws
  m.testNotInit
  cassert (ws.length = m.numComponents)
  renormalize { m with weights := ws }

/-- Rescaling of all weights inside `WeightSet`, pdf/mixture.h:430-443. -/
def rescaleOthers (m : Mixture K P) (i : Nat) (w : K) : Outcome (List K) := do
  let old ← m.weightGet i
  if old ≠ 1 then mapOutcome (fun v => mkProb (v * ((1 - w) / (1 - old)))) m.weights
  else mapOutcome (fun _ => divProb (1 - w) ((m.numComponents : K) - 1)) m.weights

/-- `WeightSet`, pdf/mixture.h:414-447. -/
def weightSet (m : Mixture K P) (i : Nat) (w : K) : Outcome (Bool × Mixture K P) := do
  let w ← mkProb w
  m.testNotInit
  cassert (i < m.numComponents)
  cassert (w ≤ 1)
  if m.numComponents = 1 then
    let ws ← vset m.weights 0 w
    cumUpdate { m with weights := ws }
  else
    let ws ← m.rescaleOthers i w
    let ws ← vset ws i w
    cumUpdate { m with weights := ws }

/-- Loop of `MostProbableComponentGet`, pdf/mixture.h:455-462. -/
def mostProbableLoop : List K → Int → Int → K → Int
  | [], _, best, _ => best
  | v :: vs, i, best, pbest =>
    if v > pbest then mostProbableLoop vs (i + 1) i v
    else mostProbableLoop vs (i + 1) best pbest

/-- `MostProbableComponentGet`, pdf/mixture.h:449-464. -/
def mostProbableComponentGet (m : Mixture K P) : Outcome Int := do
  m.testNotInit
  return mostProbableLoop m.weights 0 (-1) 0

/-- `AddComponent(pdf, w)` from line 492 on: the branch that appends. -/
def appendComponent (m : Mixture K P) (c : P) (w : K) : Outcome (Bool × Mixture K P) := do
  let m1 : Mixture K P :=
    { m with comps := m.comps ++ [c], weights := m.weights ++ [0], cum := m.cum ++ [0] }
  let (_, m2) ← m1.weightSet (m1.numComponents - 1) w
  m2.renormalize

/-- `AddComponent(pdf, w)`, pdf/mixture.h:486-504. The first component always gets weight 1. -/
def addComponentW (m : Mixture K P) (c : P) (w : K) : Outcome (Bool × Mixture K P) := do
  let w ← mkProb w
  if m.comps.length = 0 ∧ w ≠ 1 then m.appendComponent c 1 else m.appendComponent c w

/-- `AddComponent(pdf)`, pdf/mixture.h:466-484. -/
def addComponent (m : Mixture K P) (c : P) : Outcome (Bool × Mixture K P) :=
  if m.comps.length = 0 then m.addComponentW c 1
  else renormalize
    { m with comps := m.comps ++ [c], weights := m.weights ++ [0], cum := m.cum ++ [0] }

/-- `DeleteComponent`, pdf/mixture.h:506-530. -/
def deleteComponent (m : Mixture K P) (i : Nat) : Outcome (Bool × Mixture K P) := do
  m.testNotInit
  cassert (i < m.numComponents)
  let m1 : Mixture K P :=
    { m with comps := m.comps.eraseIdx i, weights := m.weights.eraseIdx i, cum := m.cum.dropLast }
  if m1.comps.length = 0 then return (true, m1) else m1.renormalize

/-- The loop of `ProbabilityGet`, pdf/mixture.h:277-281: `prob = prob + w_i * p_i(x)`. The product
and the sum go through the `Probability` constructor, `densities` are `Probability` values. -/
def densityLoop : K → List (K × K) → Outcome K
  | acc, [] => .ok acc
  | acc, (w, p) :: rest => do
    let wp ← mkProb (w * p)
    let acc ← mkProb (acc + wp)
    densityLoop acc rest

/-- `ProbabilityGet`, pdf/mixture.h:273-283. `density c x` is the component's `ProbabilityGet`.
The model evaluates all component densities before the sum; the code interleaves them, which only
matters for which component fails first. -/
def probabilityGet (density : P → T → Outcome K) (m : Mixture K P) (x : T) : Outcome K := do
  m.testNotInit
  let ps ← mapOutcome (fun c => density c x) m.comps
  densityLoop 0 (m.weights.zip ps)

/-- `(*_componentPdfs)[index-1]` for the unsigned `index` reached by the search: for `index = 0`
the index wraps to `2^32 - 1`, which is out of range. -/
def selected (m : Mixture K P) (index : Nat) : Outcome P :=
  match index with
  | 0 => .ub
  | i + 1 => vget m.comps i

/-- Single `SampleFrom`, pdf/mixture.h:338-365. `draw c method` is the component's own
`SampleFrom`: `none` means it returned `false` and left the sample untouched. `init` is the value
of the sample before the call. The component's return value is ignored; the mixture returns
`true` (`some`). -/
def sampleOne (draw : P → SampleMthd → Outcome (Option T)) (m : Mixture K P) (method : SampleMthd)
    (init : T) (u : K) : Outcome (Option T) := do
  m.testNotInit
  match method with
  | .default =>
    let (index, _) ← sweep m.numComponents u 0 m.cum
    let c ← m.selected index
    let r ← draw c .default
    return some (r.getD init)
  | _ => return none

/-- The loop of the RIPLEY branch, pdf/mixture.h:318-330. The component is asked to draw with the
method RIPLEY. The draw function gets the position of the sample, because each draw may use new
random numbers. -/
def ripleyLoop (draw : Nat → P → SampleMthd → Outcome (Option T)) (m : Mixture K P) (init : T) :
    Nat → List K → Nat → List K → Outcome (List T)
  | _, [], _, _ => .ok []
  | k, u :: us, index, rest => do
    let (i, r) ← sweep m.numComponents u index rest
    let c ← m.selected i
    let t ← draw k c .ripley
    let ts ← ripleyLoop draw m init (k + 1) us i r
    return t.getD init :: ts

/-- The loop of `Pdf<T>::SampleFrom`, pdf/pdf.h:178-191, with the single draw above. -/
def defaultLoop (draw : Nat → P → SampleMthd → Outcome (Option T)) (m : Mixture K P) (init : T) :
    Nat → List K → Outcome (List T)
  | _, [] => .ok []
  | k, u :: us => do
    let (i, _) ← sweep m.numComponents u 0 m.cum
    let c ← m.selected i
    let t ← draw k c .default
    let ts ← defaultLoop draw m init (k + 1) us
    return t.getD init :: ts

/-- List `SampleFrom`, pdf/mixture.h:285-337. `init` is the value of the elements that `resize`
creates; elements that were in the vector before the call are treated alike. RIPLEY with zero
samples writes element `-1` at line 304. -/
def sampleList (root : Nat → K → K) (draw : Nat → P → SampleMthd → Outcome (Option T))
    (m : Mixture K P) (method : SampleMthd) (init : T) (us : List K) :
    Outcome (Option (List T)) := do
  m.testNotInit
  match method with
  | .default =>
    let ts ← m.defaultLoop draw init 0 us
    return some ts
  | .ripley =>
    if us = [] then .ub
    else
      let ts ← m.ripleyLoop draw init 0 (orderedUniforms root 0 us) 0 m.cum
      return some ts
  | _ => return none

/-- `Mixture<ColumnVector>::ExpectedValueGet`, pdf/mixture.cpp:29-38 (`mean c` is the component's
`ExpectedValueGet`; `Mixture<double>`, lines 114-123, is the case `n = 1`). The vector
`expectedValue` has dimension `DimensionGet()`; components of that dimension are assumed. -/
def expectedValueGet {n : Nat} (mean : P → Fin n → K) (m : Mixture K P) : Outcome (Fin n → K) := do
  m.testNotInit
  return (List.zipWith (fun c w => w • mean c) m.comps m.weights).sum

/-- Inner loop of pdf/mixture.cpp:62-66 and 98-102: probability of state `j` under the mixture. -/
def stateProb (density : P → Int → Outcome K) (m : Mixture K P) (j : Nat) : Outcome K := do
  let ps ← mapOutcome (fun c => density c (j : Int)) m.comps
  return (List.zipWith (fun p w => p * w) ps m.weights).sum

/-- Outer loop of pdf/mixture.cpp:59-72 and 95-108: first state with the largest value. -/
def bestStateLoop (f : Nat → Outcome K) : Nat → Nat → Nat → K → Outcome Nat
  | 0, _, best, _ => .ok best
  | k + 1, j, best, pbest => do
    let p ← f j
    if p > pbest then bestStateLoop f k (j + 1) j p else bestStateLoop f k (j + 1) best pbest

/-- `Mixture<int>::ExpectedValueGet` and `Mixture<unsigned>::ExpectedValueGet`,
pdf/mixture.cpp:44-75 and 80-110: the most probable state. `states c` is the component's `NumStatesGet`. -/
def mostProbableState (states : P → Nat) (density : P → Int → Outcome K) (m : Mixture K P) :
    Outcome Nat := do
  m.testNotInit
  let c0 ← vget m.comps 0
  cassert (∀ c ∈ m.comps, states c0 = states c)
  bestStateLoop (m.stateProb density) (states c0) 0 0 (-1)

/-- Public operations that change a mixture. -/
inductive Op (K P : Type) where
  | add (c : P)
  | addW (c : P) (w : K)
  | delete (i : Nat)
  | weightSet (i : Nat) (w : K)
  | weightsSet (ws : List K)

def step (m : Mixture K P) : Op K P → Outcome (Bool × Mixture K P)
  | .add c => m.addComponent c
  | .addW c w => m.addComponentW c w
  | .delete i => m.deleteComponent i
  | .weightSet i w => m.weightSet i w
  | .weightsSet ws => m.weightsSet ws

/-- Run operations in order; the final Boolean says whether all of them returned `true`. -/
def run (m : Mixture K P) : List (Op K P) → Outcome (Bool × Mixture K P)
  | [] => return (true, m)
  | o :: os => do
    let (b, m') ← m.step o
    let (bs, m'') ← m'.run os
    return (b && bs, m'')

end Mixture

end BFL
