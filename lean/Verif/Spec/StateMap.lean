import Verif.Model.MixtureParticleFilter

/-!
# Two descriptions of the same problem for a particle filter

One filter works with states `x : SV`, the other with `φ x : SW`. `φ` may be a change of units, axes or
origin, a renumbering, or may forget parts of the state. Nothing here mentions how the filter works.
-/

namespace BFL.Spec

/-- Two computations end in the same way: both fail an assertion, both are undefined, or both return,
with results related by `r`. -/
def Same {α β : Type} (r : α → β → Prop) : Outcome α → Outcome β → Prop
  | .ok a, .ok b => r a b
  | .abort, .abort => True
  | .ub, .ub => True
  | _, _ => False

variable {R SV SW MV MW A A' X X' K : Type} [Field K] [LinearOrder K]

/-- The same particle in the other description: the weight stays. -/
def moved (φ : SV → SW) (s : WSample K SV) : WSample K SW := ⟨φ s.value, s.weight⟩

/-- The same sampled distribution in the other description. -/
def movedPdf (φ : SV → SW) (p : MCPdf K SV) : MCPdf K SW := ⟨p.samples.map (moved φ), p.cum, p.sumWeights⟩

/-- The conditional arguments that a model may be given: the state alone, or the state and the fixed
second argument `u` (an input or a sensor parameter), which is `u'` in the other description. -/
inductive SameArgs (φ : SV → SW) (u : SV) (u' : SW) : List SV → List SW → Prop
  | one (x : SV) : SameArgs φ u u' [x] [φ x]
  | two (x : SV) : SameArgs φ u u' [x, u] [φ x, u']

/-- A draw is made into a sample that holds some previous value: the previous particle, or the
default-constructed values `d` and `d'`. -/
def Held (φ : SV → SW) (d : SV) (d' : SW) (prev : SV) (prev' : SW) : Prop :=
  prev' = φ prev ∨ (prev = d ∧ prev' = d')

/-- Equal random numbers lead to the same new state. -/
def SameDraw (φ : SV → SW) (d : SV) (d' : SW) (u : SV) (u' : SW) (draw : R → List SV → SV → Outcome SV)
    (draw' : R → List SW → SW → Outcome SW) : Prop :=
  ∀ r args args', SameArgs φ u u' args args' → ∀ prev prev', Held φ d d' prev prev' →
    Same (fun x x' => x' = φ x) (draw r args prev) (draw' r args' prev')

/-- The densities at corresponding places differ by the factor `c` at most (the volume of a unit cell
depends on the units). -/
def SameDensity (φ : SV → SW) (u : SV) (u' : SW) (at_ : X → X' → Prop) (c : K)
    (prob : List SV → X → Outcome K) (prob' : List SW → X' → Outcome K) : Prop :=
  ∀ args args', SameArgs φ u u' args args' → ∀ y y', at_ y y' →
    Same (fun a b => b = c * a) (prob args y) (prob' args' y')

structure SameProposal (φ : SV → SW) (d : SV) (d' : SW) (c : K) (u : SV) (u' : SW)
    (q : Proposal R SV K) (q' : Proposal R SW K) : Prop where
  numArgs : q'.numArgs = q.numArgs
  density : SameDensity φ u u' (fun y y' => y' = φ y) c q.prob q'.prob
  draw : SameDraw φ d d' u u' q.draw q'.draw

/-- Models that say the same about corresponding states; `at_` are the values whose density is asked
for. -/
structure SamePdf (φ : SV → SW) (u : SV) (u' : SW) (at_ : X → X' → Prop) (c : K)
    (p : CondPdf SV X K) (p' : CondPdf SW X' K) : Prop where
  numArgs : p'.numArgs = p.numArgs
  density : SameDensity φ u u' at_ c p.prob p'.prob

structure SameModel (φ : SV → SW) (u : SV) (u' : SW) (at_ : X → X' → Prop) (c : K)
    (m : Model SV X K) (m' : Model SW X' K) : Prop where
  without : m'.without = m.without
  pdf : Option.Rel (SamePdf φ u u' at_ c) m.pdf m'.pdf

structure SameSystem (φ : SV → SW) (d : SV) (d' : SW) (c : K) (u : SV) (u' : SW)
    (m : SysModel R SV K) (m' : SysModel R SW K) : Prop where
  model : SameModel φ u u' (fun y y' => y' = φ y) c m.model m'.model
  draw : SameDraw φ d d' u u' m.draw m'.draw

/-- The same update in both descriptions. The likelihoods of the two readings may differ by a factor
that does not depend on the state. -/
structure SameCall (φ : SV → SW) (d : SV) (d' : SW) (c : K) (a : UpdateCall R SV MV K)
    (a' : UpdateCall R SW MW K) : Prop where
  sys : Option.Rel (SameSystem φ d d' c a.u a'.u) a.sys a'.sys
  meas : ∃ cz : K, 0 < cz ∧
    Option.Rel (SameModel φ a.s a'.s (fun z z' => z = a.z ∧ z' = a'.z) cz) a.meas a'.meas

/-- The same history in both descriptions, with the same random numbers (of any type `N`). -/
def SameHistory {N : Type} (φ : SV → SW) (d : SV) (d' : SW) (c : K) :
    List (N × UpdateCall R SV MV K) → List (N × UpdateCall R SW MW K) → Prop :=
  List.Forall₂ fun a a' => a'.1 = a.1 ∧ SameCall φ d d' c a.2 a'.2

/-- A mixture of sampled distributions in the other description: weights and components stay. -/
def movedMix (φ : SV → SW) (m : Mixture K (MCPdf K SV)) : Mixture K (MCPdf K SW) :=
  ⟨m.dim, m.comps.map (movedPdf φ), m.weights, m.cum⟩

/-- The mixture of sampled distributions that a mixture filter holds. -/
def mixPosterior (f : MixtureParticleFilter R SV K) : Mixture K (MCPdf K SV) :=
  ⟨f.mix.dim, f.mix.comps.map (·.post), f.mix.weights, f.mix.cum⟩

end BFL.Spec
