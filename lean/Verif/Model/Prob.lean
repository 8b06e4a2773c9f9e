import Verif.Prelude

/-!
# `BFL::Probability` and the shared sampling loops

Doubles are modelled by an arbitrary linearly ordered field `K` with exact arithmetic.
All line numbers refer to files under `/repo/orocos_bfl/src`.
-/

namespace BFL

variable {K : Type} [Field K] [LinearOrder K]

/-- `Probability(double p)`, bfl_constants.h:41-48: asserts that `p` is finite and `p >= 0`.
Elements of `K` are always finite. There is no upper bound check in the code. -/
def mkProb (p : K) : Outcome K := if 0 ≤ p then .ok p else .abort

/-- `Probability(x / y)` for doubles. A zero divisor gives an infinity or a NaN in the code, which
the finiteness assert of bfl_constants.h:41-48 rejects. -/
def divProb (x y : K) : Outcome K := if y = 0 then .abort else mkProb (x / y)

/-- `NUMERIC_PRECISION`, bfl_constants.h (1e-9). -/
def numericPrecision : K := 1 / 10 ^ 9

/-- Running sums `s, s + x0, s + x0 + x1, ...` as written into a cumulative table by the loops
pdf/discretepdf.cpp:228-240, pdf/mcpdf.h:512-524, pdf/mixture.h:580-592,
pdf/discreteconditionalpdf.cpp:152-157. -/
def runningSums (s : K) : List K → List K
  | [] => [s]
  | x :: xs => s :: runningSums (s + x) xs

/-- Replace the last element (`*CumPDFit = 1` on the final entry). -/
def setLast {α : Type} (v : List α) (a : α) : List α := v.dropLast ++ [a]

/-- The search loop `while (u > cum[index]) { assert(index <= n); index++; }`
(pdf/discretepdf.cpp:161-166 and 191-195, pdf/mcpdf.h:274-278 and 311-316,
pdf/mixture.h:320-325 and 350-354, pdf/discreteconditionalpdf.cpp:168-172).  `rest` is the part of the cumulative table from position
`index` on. The comparison reads the table before the assert is checked, so running off the end of
the table is `ub`. Returns the final index and the remaining table. -/
def sweep (n : Nat) (u : K) : Nat → List K → Outcome (Nat × List K)
  | _, [] => .ub
  | index, c :: rest =>
    if u > c then
      if index ≤ n then sweep n u (index + 1) rest else .abort
    else .ok (index, c :: rest)

/-- Ordered uniform samples after Ripley, pdf/discretepdf.cpp:146-151, pdf/mcpdf.h:256-262,
pdf/mixture.h:305-310:
`unif[N-1] = pow(unif[N-1], 1.0/N); for i = N-2 .. 0: unif[i] = pow(unif[i], 1.0/(i+1)) * unif[i+1]`.
`root k x` stands for `pow(x, 1.0/k)`. The argument `i` is the position of the first element of the
list that is passed. -/
def orderedUniforms (root : Nat → K → K) : Nat → List K → List K
  | _, [] => []
  | i, [u] => [root (i + 1) u]
  | i, u :: v :: us =>
    match orderedUniforms root (i + 1) (v :: us) with
    | [] => []
    | w :: ws => (root (i + 1) u * w) :: w :: ws

/-- The outer sampling loop of the Ripley branch: every next value continues the search where the
previous one stopped (pdf/discretepdf.cpp:159-170, pdf/mcpdf.h:272-283, pdf/mixture.h:318-330).
Returns the final index reached for each value. -/
def sweepAll (n : Nat) : List K → Nat → List K → Outcome (List Nat)
  | [], _, _ => .ok []
  | u :: us, index, rest => do
    let (i, r) ← sweep n u index rest
    let is ← sweepAll n us i r
    return i :: is

/-- `SampleMthd`, pdf/pdf.h. -/
inductive SampleMthd where
  | default | boxmuller | cholesky | ripley
  deriving DecidableEq, Repr

end BFL
