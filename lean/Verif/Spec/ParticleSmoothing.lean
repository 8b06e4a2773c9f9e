import Verif.Spec.Particles

/-!
# Specification of backward smoothing of particles, independent of the model
-/

namespace BFL.Spec

variable {K X : Type} [Field K] [LinearOrder K]

/-- How well state `x` explains the smoothed particles `os` of the next time step: every smoothed
particle `y` hands its weight back in proportion to `p y x`, compared with all filtered particles
`fs`. `p y x` is the density of moving from `x` to `y`. -/
def smoothingFactor (p : X → X → K) (fs os : List (X × K)) (x : X) : K :=
  (os.map fun b => b.2 * p b.1 x / (fs.map fun a => a.2 * p b.1 a.1).sum).sum

/-- The smoothed particles: the filtered particles `fs`, reweighted by the smoothing factor. -/
def backwardSmoothed (p : X → X → K) (fs os : List (X × K)) : List (X × K) :=
  reweightedBy (smoothingFactor p fs os) fs

end BFL.Spec
