import Verif.Model.Kalman
import Verif.Props.KalmanSetup

/-!
# Change of coordinates
-/

namespace BFL.Spec

open Matrix

variable {K : Type} [Field K] [LinearOrder K] {n m : Nat} {U : Type}

/-- New coordinates `y = T x + t` (other units, another axis, another origin). -/
structure Coord (K : Type) [Field K] (n : Nat) where
  T : Matrix (Fin n) (Fin n) K
  inv : Matrix (Fin n) (Fin n) K
  t : Fin n → K
  inv_mul : inv * T = 1
  mul_inv : T * inv = 1

namespace Coord

/-- A point in new coordinates. -/
def vec (c : Coord K n) (x : Fin n → K) : Fin n → K := c.T *ᵥ x + c.t

/-- Back to the old coordinates. -/
def back (c : Coord K n) (y : Fin n → K) : Fin n → K := c.inv *ᵥ (y - c.t)

/-- A covariance in new coordinates. -/
def cov (c : Coord K n) (P : Matrix (Fin n) (Fin n) K) : Matrix (Fin n) (Fin n) K := c.T * P * c.Tᵀ

/-- A Jacobian from `c` to `d` in new coordinates. -/
def jac (c : Coord K n) (d : Coord K m) (H : Matrix (Fin m) (Fin n) K) : Matrix (Fin m) (Fin n) K :=
  d.T * H * c.inv

/-- The same model written in new coordinates `c` of its argument and `d` of its value. -/
def model (c : Coord K n) (d : Coord K m) : AnalyticModel K n m U → AnalyticModel K n m U
  | .noInput f j r => .noInput (fun y => d.vec (f (c.back y))) (fun y => c.jac d (j (c.back y)))
      fun y => d.cov (r (c.back y))
  | .withInput f j r => .withInput (fun u y => d.vec (f u (c.back y)))
      (fun u y => c.jac d (j u (c.back y))) fun u y => d.cov (r u (c.back y))

/-- The same filter state in new coordinates. -/
def filter (c : Coord K n) (f : KF K n) : KF K n := ⟨c.vec f.mu, c.cov f.sigma, f.timestep⟩

/-- The same filter: a user's convergence check gets the step in the old coordinates. -/
def kind (c : Coord K n) : KF.Kind K n → KF.Kind K n
  | .extended => .extended
  | .iterated k chk => .iterated k (chk.map fun ch d => ch (c.inv *ᵥ d))

/-- The same update; the measurement is in coordinates `d`. -/
def step (c : Coord K n) (st : Props.KStep K n U) (d : Coord K st.m) : Props.KStep K n U :=
  ⟨st.m, st.sys.map fun a => (c.model c a.1, a.2),
    st.meas.map fun a => (c.model d a.1, d.vec a.2.1, a.2.2)⟩

end Coord

end BFL.Spec
