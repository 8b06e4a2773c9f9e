import Verif.Spec.Discrete
import Mathlib.Algebra.BigOperators.Group.Finset.Basic
import Mathlib.Algebra.Order.BigOperators.Group.Finset

/-!
# Specification of particle filtering

A particle set is a list of pairs (value, weight). The three relations below say what the steps of a
particle filter do to it.
-/

namespace BFL.Spec

open Finset

variable {K X : Type} [Field K] [LinearOrder K]

/-- Particles keep their weights; particle `i` moves from its value to one allowed by `draw i`. -/
def Moved (draw : Nat → X → X → Prop) (ps ps' : List (X × K)) : Prop :=
  ∃ hl : ps'.length = ps.length, ∀ i (hi : i < ps.length),
    draw i ps[i].1 (ps'[i]'(hl ▸ hi)).1 ∧ (ps'[i]'(hl ▸ hi)).2 = ps[i].2

/-- Total weight after multiplying the weight of particle `i` by `g i`. -/
def totalWeight (g : Nat → K) (ps : List (X × K)) : K :=
  ∑ i : Fin ps.length, ps[i].2 * g i

/-- Particles keep their values and order; weight `i` is multiplied by `g i` and all weights are
divided by the new total. -/
def Reweighted (g : Nat → K) (ps ps' : List (X × K)) : Prop :=
  ∃ hl : ps'.length = ps.length, ∀ i (hi : i < ps.length),
    ps'[i]'(hl ▸ hi) = (ps[i].1, ps[i].2 * g i / totalWeight g ps)

/-- Equally many particles of equal weight; new particle `i` is a copy of the one selected by
inversion of the weight distribution with the number `v i`. -/
def Resampled (v : Nat → K) (ps ps' : List (X × K)) : Prop :=
  ps'.length = ps.length ∧ ∀ i (hi : i < ps'.length), ∃ j, ∃ hj : j < ps.length,
    Inverts (ps.map Prod.snd) (v i) j ∧ ps'[i] = (ps[j].1, 1 / (ps.length : K))

/-- Weights are non-negative and sum to 1. -/
def Normalised (ps : List (X × K)) : Prop := IsDistribution (ps.map Prod.snd)

/-- Effective sample size. -/
def effectiveSize (ps : List (X × K)) : K := 1 / (ps.map fun a => a.2 ^ 2).sum

/-- Importance factor: likelihood times transition density over proposal density. -/
def importance (lik trans prop : K) : K := if prop = 0 then 0 else lik * (trans / prop)

/-- Multiply the weight of every particle by the likelihood `G` of its value and divide by the new
total. -/
def reweightedBy (G : X → K) (l : List (X × K)) : List (X × K) :=
  l.map fun a => (a.1, a.2 * G a.1 / (l.map fun b => b.2 * G b.1).sum)

/-- The particles of a mixture as one particle set: particle `i` of component `k` carries the weight
of the component times its own. -/
def flattened (Ws : List K) (pss : List (List (X × K))) : List (X × K) :=
  (List.zipWith (fun W ps => ps.map fun a => (a.1, W * a.2)) Ws pss).flatten

end BFL.Spec
