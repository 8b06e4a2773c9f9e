import Verif.Spec.Particles

/-!
# Specification of the auxiliary particle filter (Pitt and Shephard)

Every particle looks ahead: `look x` is where a particle at `x` is expected to go. The particles are
resampled in proportion to their weights times the likelihood of their look-aheads, they are moved, and
each of them then gets the likelihood of the place where it is divided by the likelihood of the
look-ahead of the particle it comes from, which makes up for the choice of ancestors.
-/

namespace BFL.Spec

variable {K X : Type} [Field K] [LinearOrder K]

/-- Value of particle `i`; `d` if there is no such particle. -/
def valueAt (d : X) (ps : List (X × K)) (i : Nat) : X := (ps[i]?.map Prod.fst).getD d

/-- One step of the auxiliary particle filter, from the particles `ps` to `ps'`: `v` are the numbers of
the resampling step, `draw` says how particles may move. `d` is an arbitrary value. -/
def AuxiliaryStep (d : X) (lik : X → K) (look : X → X) (v : Nat → K) (draw : Nat → X → X → Prop)
    (ps ps' : List (X × K)) : Prop :=
  ∃ chosen parents moved : List (X × K),
    Reweighted (fun i => lik (look (valueAt d ps i))) ps chosen ∧
    Resampled v chosen parents ∧
    Moved draw parents moved ∧
    Reweighted (fun i => lik (valueAt d moved i) / lik (look (valueAt d parents i))) moved ps'

/-- Weight of the particles with a given property. -/
def weightOf (P : X → Prop) [DecidablePred P] (ps : List (X × K)) : K :=
  (ps.map fun a => if P a.1 then a.2 else 0).sum

end BFL.Spec
