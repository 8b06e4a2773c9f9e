import Verif.Prelude

/-!
# Model objects and the pdfs they point to

`AnalyticSystemModelGaussianUncertainty`, `AnalyticMeasurementModelGaussianUncertainty`
(`/repo/orocos_bfl/src/model/analyticsystemmodel_gaussianuncertainty.cpp`,
`analyticmeasurementmodel_gaussianuncertainty.cpp`) and the two classes for pdfs given by formulas
(`nonlinearanalyticsystemmodel_gaussianuncertainty_ginac.cpp`,
`nonlinearanalyticmeasurementmodel_gaussianuncertainty_ginac.cpp`), as objects in memory. A model object
holds a pointer to a pdf object (`_SystemPdf`, `_MeasurementPdf`), which the program may change or delete
on its own.

What the pdf objects hold is a parameter `P`; `numArgs` and `copy` are what the models use of it.
Addresses are not used again after a deletion: whoever uses an old address has undefined behaviour
anyway.
-/

namespace BFL.FormulaModels

/-- Classes of model objects: the general analytic models, and the system and measurement models for
formulas. -/
inductive Kind where
  | analytic
  | formulaSystem
  | formulaMeasurement
  deriving DecidableEq

/-- `NumConditionalArgumentsGet` and the copy constructor of a class of pdfs. -/
structure PdfClass (P : Type) where
  numArgs : P → Nat
  copy : P → Outcome P

/-- An object in memory. -/
inductive Obj (P : Type) where
  | pdf (x : P)
  | model (kind : Kind) (ptr : Nat)

/-- Memory: `none` is a deleted object. -/
abbrev Store (P : Type) := List (Option (Obj P))

variable {P B : Type}

/-- Something a program does with these objects. -/
inductive Op (P : Type) where
  | newPdf (x : P)
  | change (a : Nat) (g : P → Outcome P)
  | delete (a : Nat)
  | newModel (k : Kind) (a : Nat)
  | pdfSet (m a : Nat)

namespace Store

/-- The pdf object at an address; anything else is undefined. -/
def pdfAt (s : Store P) (a : Nat) : Outcome P :=
  match s[a]? with
  | some (some (.pdf x)) => .ok x
  | _ => .ub

/-- The model object at an address: its class and its pointer. Anything else, also a pdf object that was
cast to a model class, is undefined. -/
def modelAt (s : Store P) (m : Nat) : Outcome (Kind × Nat) :=
  match s[m]? with
  | some (some (.model k a)) => .ok (k, a)
  | _ => .ub

/-- A program makes a pdf; returned is its address. -/
def newPdf (s : Store P) (x : P) : Nat × Store P := (s.length, s ++ [some (.pdf x)])

/-- A program calls a function that changes a pdf (for instance `AdditiveNoiseMuSet`). -/
def change (s : Store P) (a : Nat) (g : P → Outcome P) : Outcome (Store P) := do
  let x ← s.pdfAt a
  let y ← g x
  return s.set a (some (.pdf y))

/-- A program deletes an object. The destructors of the models leave their pdf alone:
systemmodel.cpp:51-65, measurementmodel.cpp:55-69 (the line that deletes it is commented out), and the
empty destructors of the derived classes. -/
def delete (s : Store P) (a : Nat) : Outcome (Store P) :=
  match s[a]? with
  | some (some _) => .ok (s.set a none)
  | _ => .ub

/-- The `switch` of systemmodel.cpp:28-47, 101-120 and measurementmodel.cpp:33-51, 98-117: `exit` unless
the pdf has one or two conditional arguments. -/
def argsOk (c : PdfClass P) (x : P) : Outcome Unit :=
  if c.numArgs x = 1 ∨ c.numArgs x = 2 then .ok () else .abort

/-- Constructors with a pointer to a pdf. The general models keep the pointer
(analyticsystemmodel_gaussianuncertainty.cpp:28-31, analyticmeasurementmodel_gaussianuncertainty.cpp:27-30);
the models for formulas make a copy and point to it
(nonlinearanalyticsystemmodel_gaussianuncertainty_ginac.cpp:29-32,
nonlinearanalyticmeasurementmodel_gaussianuncertainty_ginac.cpp:26-29). Returned is the address of the
model. -/
def newModel (c : PdfClass P) (s : Store P) (k : Kind) (a : Nat) : Outcome (Nat × Store P) := do
  let x ← s.pdfAt a
  match k with
  | .analytic => do
    argsOk c x
    return (s.length, s ++ [some (.model k a)])
  | .formulaSystem | .formulaMeasurement => do
    let y ← c.copy x
    argsOk c y
    return (s.length + 1, s ++ [some (.pdf y), some (.model k s.length)])

/-- `SystemPdfSet`, systemmodel.cpp:97-121, and `MeasurementPdfSet`, measurementmodel.cpp:94-118. -/
def pdfSet (c : PdfClass P) (s : Store P) (m a : Nat) : Outcome (Store P) := do
  let (k, _) ← s.modelAt m
  let x ← s.pdfAt a
  argsOk c x
  return s.set m (some (.model k a))

/-- `SystemPdfGet`, systemmodel.cpp:89-94, and `MeasurementPdfGet`, measurementmodel.cpp:86-91. -/
def pdfGet (s : Store P) (m : Nat) : Outcome Nat := do
  let (_, a) ← s.modelAt m
  return a

/-- `PredictionGet`, `CovarianceGet` and `df_dxGet`: the conditional arguments are set and the pdf is
asked (`q` is the answer of the pdf with these arguments). The measurement model for formulas always sets
the argument 1 (nonlinearanalyticmeasurementmodel_gaussianuncertainty_ginac.cpp:52-79), which the pdf must
have (conditionalpdf.h:176); the others set it only if there are two
(analyticsystemmodel_gaussianuncertainty.cpp:46-70). -/
def ask (c : PdfClass P) (s : Store P) (m : Nat) (q : P → Outcome B) : Outcome B := do
  let (k, a) ← s.modelAt m
  let x ← s.pdfAt a
  cassert (k = .formulaMeasurement → 1 < c.numArgs x)
  q x

/-- `FunctionGet`, `StateGet`, `InputGet` and `ConditionalGet` of the models for formulas
(nonlinearanalyticsystemmodel_gaussianuncertainty_ginac.cpp:47-63,
nonlinearanalyticmeasurementmodel_gaussianuncertainty_ginac.cpp:81-103): the pointer to the pdf is cast to
a pointer to a *model* of the same class, and the same function is called again. `depth` is the number of
calls that fit on the stack. -/
def formulaGet (B : Type) (s : Store P) : Nat → Nat → Outcome B
  | 0, _ => .abort
  | depth + 1, m => do
    let (_, a) ← s.modelAt m
    formulaGet B s depth a

/-- Effect of one operation. -/
def step (c : PdfClass P) (s : Store P) : Op P → Outcome (Store P)
  | .newPdf x => .ok (s.newPdf x).2
  | .change a g => s.change a g
  | .delete a => s.delete a
  | .newModel k a => do
    let (_, s') ← s.newModel c k a
    return s'
  | .pdfSet m a => s.pdfSet c m a

/-- Effect of a program. -/
def run (c : PdfClass P) : List (Op P) → Store P → Outcome (Store P)
  | [], s => .ok s
  | op :: ops, s => do
    let s' ← s.step c op
    run c ops s'

end Store

end BFL.FormulaModels
