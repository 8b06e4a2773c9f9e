import Verif.Model.CompareFilters

/-!
# What the program that compares filters reports
-/

namespace BFL.Spec

open CompareFilters

/-- The mean and covariance that a record holds. -/
def estimateOf (r : Record) : (Fin 3 → ℝ) × Matrix (Fin 3) (Fin 3) ℝ := (r.mean, r.cov)

/-- The estimates written during the run, and the last one. -/
def estimates : Ending → List ((Fin 3 → ℝ) × Matrix (Fin 3) (Fin 3) ℝ)
  | .done r => r.records.map estimateOf ++ [(r.mean, r.cov)]
  | _ => []

end BFL.Spec
