import Verif.Model.Ginac
import Mathlib.Analysis.Calculus.FDeriv.Basic
import Mathlib.Topology.Algebra.Module.FiniteDimension
import Mathlib.LinearAlgebra.Matrix.ToLin

/-!
# What a pdf given by a formula is expected to be
-/

namespace BFL.Spec

open Matrix Filter Topology

/-- The value of a formula when its symbols have the values `env`; `none` if a symbol in it has no
value or a reciprocal of zero occurs. -/
noncomputable def value (env : Nat → Option ℝ) : Ginac.Expr → Option ℝ
  | .num c => some c
  | .sym s => env s
  | .add a b => (value env a).bind fun v => (value env b).map fun w => v + w
  | .mul a b => (value env a).bind fun v => (value env b).map fun w => v * w
  | .inv a => (value env a).bind fun v => if v = 0 then none else some (1 / v)
  | .sin a => (value env a).map Real.sin
  | .cos a => (value env a).map Real.cos
  | .exp a => (value env a).map Real.exp

/-- All symbols of input and state are different. -/
def Distinct {p n : Nat} (us : Fin p → Nat) (xs : Fin n → Nat) : Prop :=
  us.Injective ∧ xs.Injective ∧ ∀ i j, us i ≠ xs j

/-- `env` gives the input symbols the values `u`, the state symbols the values `x` and no value to
any other symbol. -/
def Assigns {p n : Nat} (us : Fin p → Nat) (xs : Fin n → Nat) (u : Fin p → ℝ) (x : Fin n → ℝ)
    (env : Nat → Option ℝ) : Prop :=
  (∀ i, env (us i) = some (u i)) ∧ (∀ j, env (xs j) = some (x j)) ∧
    ∀ s, (∀ i, us i ≠ s) → (∀ j, xs j ≠ s) → env s = none

/-- The column of formulas `func` has the value `y` at input `u` and state `x`. -/
def FuncIs {f p n : Nat} (func : Fin f → Ginac.Expr) (us : Fin p → Nat) (xs : Fin n → Nat)
    (u : Fin p → ℝ) (x : Fin n → ℝ) (y : Fin f → ℝ) : Prop :=
  ∃ env, Assigns us xs u x env ∧ ∀ i, value env (func i) = some (y i)

/-- The input `u` disturbed by `e`: the number `e k` is added to the input whose symbol is the
`k`-th symbol of `cond`. -/
def disturb {p : Nat} (us : Fin p → Nat) (cond : List Nat) (u : Fin p → ℝ)
    (e : Fin cond.length → ℝ) : Fin p → ℝ :=
  fun i => u i + ∑ k : Fin cond.length, if cond[k] = us i then e k else 0

/-- Around `x0` the function returns a value without failing, and `J` is its matrix of partial
derivatives at `x0`. -/
def HasJacobian {n f : Nat} (g : (Fin n → ℝ) → Outcome (Fin f → ℝ)) (x0 : Fin n → ℝ)
    (J : Matrix (Fin f) (Fin n) ℝ) : Prop :=
  ∃ h : (Fin n → ℝ) → Fin f → ℝ, (∀ᶠ x in 𝓝 x0, g x = .ok (h x)) ∧
    HasFDerivAt h (LinearMap.toContinuousLinearMap (Matrix.mulVecLin J)) x0

end BFL.Spec
