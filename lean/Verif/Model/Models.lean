import Verif.Model.DiscreteConditionalPdf

/-!
# Model of `SystemModel` and `MeasurementModel`
(`/repo/orocos_bfl/src/model/systemmodel.cpp`, `measurementmodel.cpp`)

The two classes have the same code up to names, so one definition serves both; line numbers are
given for both files as `S` and `M`.
-/

namespace BFL

variable {A X Z K : Type}

/-- What a model uses of its `ConditionalPdf`: the number of conditional arguments, and density and
random draw as functions of the conditional arguments. `draw` stands for the effect of `SampleFrom`
on one sample with the random numbers of that call fixed. Simplification: the stored conditional
arguments are passed as a list; every call below sets all of them before they are used. -/
structure CondPdf (A X K : Type) where
  numArgs : Nat
  prob : List A → X → Outcome K
  draw : List A → Outcome X

/-- Data members: the pdf pointer and the flag `_systemWithoutInputs` or
`_systemWithoutSensorParams`. `none` means that the member was never initialised. -/
structure Model (A X K : Type) where
  pdf : Option (CondPdf A X K)
  without : Option Bool

namespace Model

/-- The `switch` of S:28-47, S:101-120, M:33-51, M:98-117. -/
def assign (p : CondPdf A X K) : Outcome (Model A X K) :=
  if p.numArgs = 1 then .ok { pdf := some p, without := some true }
  else if p.numArgs = 2 then .ok { pdf := some p, without := some false }
  else .abort

/-- Constructors, S:21-49 and M:26-53. With a NULL pointer no member is initialised. -/
def make : Option (CondPdf A X K) → Outcome (Model A X K)
  | none => .ok { pdf := none, without := none }
  | some p => assign p

/-- `SystemPdfSet`, S:97-121, and `MeasurementPdfSet`, M:94-118. -/
def pdfSet (_m : Model A X K) : Option (CondPdf A X K) → Outcome (Model A X K)
  | none => .abort
  | some p => assign p

/-- `SystemWithoutInputs`, S:83-87, and `SystemWithoutSensorParams`, M:80-84. -/
def withoutInputs (m : Model A X K) : Outcome Bool :=
  match m.without with
  | some b => .ok b
  | none => .ub

/-- Dereference of the pdf pointer. -/
def pdfGet (m : Model A X K) : Outcome (CondPdf A X K) :=
  match m.pdf with
  | some p => .ok p
  | none => .ub

/-- `ProbabilityGet(x, a)`, S:159-165 and M:160-167. `ConditionalArgumentSet(0, a)` asserts that
there is such an argument (conditionalpdf.h:176). -/
def prob1 (m : Model A X K) (x : X) (a : A) : Outcome K := do
  let w ← m.withoutInputs
  cassert (w = true)
  let p ← m.pdfGet
  cassert (0 < p.numArgs)
  p.prob [a] x

/-- `ProbabilityGet(x, a, u)`, S:149-157 and M:149-158. -/
def prob2 (m : Model A X K) (x : X) (a u : A) : Outcome K := do
  let w ← m.withoutInputs
  cassert (w = false)
  let p ← m.pdfGet
  cassert (0 < p.numArgs)
  cassert (1 < p.numArgs)
  p.prob [a, u] x

/-- `Simulate(a)`, S:137-147 and M:136-147. The return value of `SampleFrom` is not looked at. -/
def simulate1 (m : Model A X K) (a : A) : Outcome X := do
  let w ← m.withoutInputs
  cassert (w = true)
  let p ← m.pdfGet
  cassert (0 < p.numArgs)
  p.draw [a]

/-- `Simulate(a, u)`, S:124-135 and M:120-133. -/
def simulate2 (m : Model A X K) (a u : A) : Outcome X := do
  let w ← m.withoutInputs
  cassert (w = false)
  let p ← m.pdfGet
  cassert (0 < p.numArgs)
  cassert (1 < p.numArgs)
  p.draw [a, u]

/-- A sequence of `SystemPdfSet` / `MeasurementPdfSet` calls. -/
def pdfSets (m : Model A X K) : List (Option (CondPdf A X K)) → Outcome (Model A X K)
  | [] => .ok m
  | p :: ps => do
    let m' ← m.pdfSet p
    m'.pdfSets ps

end Model

/-- `DiscreteConditionalPdf` as the pdf of a model (model/discretesystemmodel.cpp:23-24); `u` is the
random number of the draw. -/
def DiscreteConditionalPdf.toCondPdf [Field K] [LinearOrder K] (d : DiscreteConditionalPdf K)
    (u : K) : CondPdf Int Int K where
  numArgs := d.numArgs
  prob cs x := do
    let d' ← d.argsSet cs
    d'.probabilityGet x
  draw cs := do
    let d' ← d.argsSet cs
    d'.sampleOne u

end BFL
