import Verif.Prelude
import Mathlib.Analysis.Real.Sqrt
import Mathlib.Algebra.BigOperators.Group.Finset.Basic
import Mathlib.Order.Interval.Finset.Nat
import Mathlib.LinearAlgebra.Matrix.Notation

/-!
# Model of `Matrix_Wrapper::SVD` and `Matrix_Wrapper::pseudoinverse`

`/repo/orocos_bfl/src/wrappers/matrix/matrix_wrapper.cpp:46-336`. The arithmetic is that of the real
numbers. Arrays are functions of indices that start at one, as in the code; `m` is the number of
rows and `n` the number of columns. Entries outside the used range are never looked at. A division
by zero and the reading of `w(0)` are `ub`; a denominator that does not change inside a loop is
checked once, before the loop, even if the loop turns out to be empty.

Inner loops whose iterations touch disjoint columns (or rows) and read nothing that other
iterations write are written as one simultaneous assignment.
-/

namespace BFL.SVD

open Finset

/-- A vector, indices from one. -/
abbrev Arr := ℕ → ℝ

/-- A matrix, indices from one. -/
abbrev Arr2 := ℕ → ℕ → ℝ

/-- Assignment to one entry of a vector. -/
def upd (v : Arr) (i : ℕ) (x : ℝ) : Arr := fun j => if j = i then x else v j

/-- A division by `d` follows. -/
noncomputable def nonzero (d : ℝ) : Outcome Unit := if d = 0 then .ub else .ok ()

/-- `for (j=i; …; j++) s = f(j, s)`, `k` times. -/
def loopUp {σ : Type} (f : ℕ → σ → Outcome σ) : ℕ → ℕ → σ → Outcome σ
  | 0, _, s => .ok s
  | k + 1, i, s => do
    let s ← f i s
    loopUp f k (i + 1) s

/-- `for (j=k; j>=1; j--) s = f(j, s)`. -/
def loopDown {σ : Type} (f : ℕ → σ → Outcome σ) : ℕ → σ → Outcome σ
  | 0, s => .ok s
  | k + 1, s => do
    let s ← f (k + 1) s
    loopDown f k s

/-- `PYTHAG`, lines 282-299. -/
noncomputable def pythag (a b : ℝ) : ℝ :=
  if |a| > |b| then |a| * √(1 + |b| / |a| * (|b| / |a|))
  else if |b| = 0 then 0
  else |b| * √(1 + |a| / |b| * (|a| / |b|))

/-- `SIGN`, lines 302-306. -/
noncomputable def sign (a b : ℝ) : ℝ := if b ≥ 0 then |a| else -|a|

/-! ## Householder reduction to bidiagonal form, lines 66-126 -/

/-- Lines 79-96: the column part for column `i`, when `scale` is not zero. The result is the new
array and `g`. -/
noncomputable def colReflect (m n i : ℕ) (U : Arr2) (scale : ℝ) : Outcome (Arr2 × ℝ) := do
  let U1 : Arr2 := fun a b => if b = i ∧ i ≤ a ∧ a ≤ m then U a b / scale else U a b
  let s := ∑ k ∈ Icc i m, U1 k i * U1 k i
  let f := U1 i i
  let g := -sign (√s) f
  let h := f * g - s
  let U2 : Arr2 := fun a b => if a = i ∧ b = i then f - g else U1 a b
  nonzero h
  let U3 : Arr2 := fun a b =>
    if (i + 1 ≤ b ∧ b ≤ n) ∧ i ≤ a ∧ a ≤ m then
      U2 a b + (∑ k ∈ Icc i m, U2 k i * U2 k b) / h * U2 a i
    else U2 a b
  let U4 : Arr2 := fun a b => if b = i ∧ i ≤ a ∧ a ≤ m then U3 a b * scale else U3 a b
  return (U4, g)

/-- Lines 74-98: new array, `scale` and `g`. -/
noncomputable def colStep (m n i : ℕ) (U : Arr2) : Outcome (Arr2 × ℝ × ℝ) :=
  if i ≤ m then
    let scale := ∑ k ∈ Icc i m, |U k i|
    if scale ≠ 0 then do
      let r ← colReflect m n i U scale
      return (r.1, scale, r.2)
    else .ok (U, scale, 0)
  else .ok (U, 0, 0)

/-- Lines 106-119: the row part for row `i`, when `scale` is not zero. The entries of `rv1` from
`i+1` on serve as scratch space for the quotients `U(i,k)/h`; each is overwritten, by line 73, before
it is read again, so they are local here. -/
noncomputable def rowReflect (m n i : ℕ) (U : Arr2) (scale : ℝ) : Outcome (Arr2 × ℝ) := do
  let U1 : Arr2 := fun a b => if a = i ∧ i + 1 ≤ b ∧ b ≤ n then U a b / scale else U a b
  let s := ∑ k ∈ Icc (i + 1) n, U1 i k * U1 i k
  let f := U1 i (i + 1)
  let g := -sign (√s) f
  let h := f * g - s
  let U2 : Arr2 := fun a b => if a = i ∧ b = i + 1 then f - g else U1 a b
  nonzero h
  let U3 : Arr2 := fun a b =>
    if (i + 1 ≤ a ∧ a ≤ m) ∧ i + 1 ≤ b ∧ b ≤ n then
      U2 a b + (∑ k ∈ Icc (i + 1) n, U2 a k * U2 i k) * (U2 i b / h)
    else U2 a b
  let U4 : Arr2 := fun a b => if a = i ∧ i + 1 ≤ b ∧ b ≤ n then U3 a b * scale else U3 a b
  return (U4, g)

/-- Lines 101-121. -/
noncomputable def rowStep (m n i : ℕ) (U : Arr2) : Outcome (Arr2 × ℝ × ℝ) :=
  if i ≤ m ∧ i ≠ n then
    let scale := ∑ k ∈ Icc (i + 1) n, |U i k|
    if scale ≠ 0 then do
      let r ← rowReflect m n i U scale
      return (r.1, scale, r.2)
    else .ok (U, scale, 0)
  else .ok (U, 0, 0)

/-- The variables of the reduction that live from one iteration to the next. -/
structure Bi where
  U : Arr2
  w : Arr
  rv1 : Arr
  scale : ℝ
  g : ℝ
  anorm : ℝ

/-- One iteration, lines 72-125. -/
noncomputable def biStep (m n i : ℕ) (st : Bi) : Outcome Bi := do
  let rv1 := upd st.rv1 i (st.scale * st.g)
  let c ← colStep m n i st.U
  let w := upd st.w i (c.2.1 * c.2.2)
  let r ← rowStep m n i c.1
  return ⟨r.1, w, rv1, r.2.1, r.2.2,
    if st.anorm > |w i| + |rv1 i| then st.anorm else |w i| + |rv1 i|⟩

/-! ## Accumulation of the transformations -/

/-- Lines 132-136, when `g` is not zero; `g` is `rv1(i+1)` and `ppi` is `i+1`. -/
noncomputable def rightReflect (n : ℕ) (U : Arr2) (i : ℕ) (V : Arr2) (g : ℝ) : Outcome Arr2 := do
  nonzero (U i (i + 1))
  let V1 : Arr2 := fun a b =>
    if b = i ∧ i + 1 ≤ a ∧ a ≤ n then U i a / U i (i + 1) / g else V a b
  let V2 : Arr2 := fun a b =>
    if (i + 1 ≤ b ∧ b ≤ n) ∧ i + 1 ≤ a ∧ a ≤ n then
      V1 a b + (∑ k ∈ Icc (i + 1) n, U i k * V1 k b) * V1 a i
    else V1 a b
  return V2

/-- Lines 131-137. -/
noncomputable def rightMaybe (n : ℕ) (U : Arr2) (i : ℕ) (V : Arr2) (g : ℝ) : Outcome Arr2 :=
  if g ≠ 0 then rightReflect n U i V g else .ok V

/-- One iteration of lines 129-143, right-hand transformations. -/
noncomputable def rightStep (n : ℕ) (U : Arr2) (i : ℕ) (V : Arr2) (g : ℝ) : Outcome Arr2 :=
  if i < n then do
    let V ← rightMaybe n U i V g
    let V3 : Arr2 := fun a b =>
      if (a = i ∧ i + 1 ≤ b ∧ b ≤ n) ∨ (b = i ∧ i + 1 ≤ a ∧ a ≤ n) then 0 else V a b
    return fun a b => if a = i ∧ b = i then 1 else V3 a b
  else .ok fun a b => if a = i ∧ b = i then 1 else V a b

/-- One iteration of lines 146-162, left-hand transformations; `ppi` is `i+1`. -/
noncomputable def leftStep (m n : ℕ) (w : Arr) (i : ℕ) (U : Arr2) : Outcome Arr2 :=
  let U1 : Arr2 := fun a b => if a = i ∧ i + 1 ≤ b ∧ b ≤ n then 0 else U a b
  if w i ≠ 0 then do
    let g := 1 / w i
    nonzero (U1 i i)
    let U2 : Arr2 := fun a b =>
      if (i + 1 ≤ b ∧ b ≤ n) ∧ i ≤ a ∧ a ≤ m then
        U1 a b + (∑ k ∈ Icc (i + 1) m, U1 k i * U1 k b) / U1 i i * g * U1 a i
      else U1 a b
    let U3 : Arr2 := fun a b => if b = i ∧ i ≤ a ∧ a ≤ m then U2 a b * g else U2 a b
    return fun a b => if a = i ∧ b = i then U3 a b + 1 else U3 a b
  else
    let U3 : Arr2 := fun a b => if b = i ∧ i ≤ a ∧ a ≤ m then 0 else U1 a b
    return fun a b => if a = i ∧ b = i then U3 a b + 1 else U3 a b

/-! ## Diagonalisation of the bidiagonal form, lines 164-277 -/

/-- The loops of lines 196-201, 249-254 and 265-270: columns `j` and `i` of the array are replaced by
`(y*c + z*s, z*c - y*s)`, where `y` and `z` are their old values. (Rows that the loops do not reach
are not used.) -/
def rot (M : Arr2) (j i : ℕ) (c s : ℝ) : Arr2 := fun a b =>
  if b = j then M a j * c + M a i * s else if b = i then M a i * c - M a j * s else M a b

/-- Lines 168-179: `ppi` runs down from its argument; the result is the `ppi` at which the loop is
left, and `flag`. At `ppi = 1` line 176 reads `w(0)`. -/
noncomputable def findSplit (anorm : ℝ) (w rv1 : Arr) : ℕ → Outcome (ℕ × Bool)
  | 0 => .ub
  | p + 1 =>
    if |rv1 (p + 1)| + anorm = anorm then .ok (p + 1, false)
    else if p = 0 then .ub
    else if |w p + anorm| = anorm then .ok (p + 1, true)
    else findSplit anorm w rv1 p

/-- The arrays that the diagonalisation changes. -/
structure Diag where
  U : Arr2
  V : Arr2
  w : Arr
  rv1 : Arr

/-- Lines 184-202, the iterations from `i` on; `nm = ppi - 1`. -/
noncomputable def cancel (anorm : ℝ) (nm : ℕ) : ℕ → ℕ → ℝ → ℝ → Diag → Outcome Diag
  | 0, _, _, _, d => .ok d
  | cnt + 1, i, c, s, d => do
    let f := s * d.rv1 i
    let rv1 := upd d.rv1 i (c * d.rv1 i)
    if |f| + anorm = anorm then .ok { d with rv1 := rv1 }
    else do
      let g := d.w i
      let h := pythag f g
      nonzero h
      let c := g * (1 / h)
      let s := -f * (1 / h)
      cancel anorm nm cnt (i + 1) c s
        { d with U := rot d.U nm i c s, w := upd d.w i h, rv1 := rv1 }

/-- Lines 223-231: the shift. -/
noncomputable def shift (w rv1 : Arr) (ppi k : ℕ) : Outcome ℝ := do
  let z := w k
  let x := w ppi
  let y := w (k - 1)
  let g := rv1 (k - 1)
  let h := rv1 k
  nonzero (2 * h * y)
  let f := ((y - z) * (y + z) + (g - h) * (g + h)) / (2 * h * y)
  let g := pythag f 1
  nonzero (f + sign g f)
  nonzero x
  return ((x - z) * (x + z) + h * (y / (f + sign g f) - h)) / x

/-- Lines 241-246: the quotients of a rotation that is always computed. -/
noncomputable def rotation (f h : ℝ) : Outcome (ℝ × ℝ × ℝ) := do
  let z := pythag f h
  nonzero z
  return (z, f / z, h / z)

/-- Lines 255-262: the second rotation keeps the previous `c` and `s` if `z` is zero. -/
noncomputable def rotation2 (f h c s : ℝ) : ℝ × ℝ × ℝ :=
  let z := pythag f h
  if z ≠ 0 then (z, f * (1 / z), h * (1 / z)) else (z, c, s)

/-- Lines 235-274: the iterations from `j` on, then the assignments after the loop. -/
noncomputable def chase (ppi k : ℕ) : ℕ → ℕ → ℝ → ℝ → ℝ → ℝ → Diag → Outcome Diag
  | 0, _, _, _, f, x, d =>
    .ok { d with rv1 := upd (upd d.rv1 ppi 0) k f, w := upd d.w k x }
  | cnt + 1, j, c, s, f, x, d => do
    let i := j + 1
    let g := d.rv1 i
    let y := d.w i
    let h := s * g
    let g := c * g
    let r ← rotation f h
    let rv1 := upd d.rv1 j r.1
    let c := r.2.1
    let s := r.2.2
    let f := x * c + g * s
    let g := g * c - x * s
    let h := y * s
    let y := y * c
    let V := rot d.V j i c s
    let q := rotation2 f h c s
    let w := upd d.w j q.1
    let c := q.2.1
    let s := q.2.2
    chase ppi k cnt i c s (c * g + s * y) (c * y - s * g)
      ⟨rot d.U j i c s, V, w, rv1⟩

/-- Lines 181-203. -/
noncomputable def maybeCancel (anorm : ℝ) (k ppi : ℕ) (flag : Bool) (d : Diag) : Outcome Diag :=
  if flag then cancel anorm (ppi - 1) (k + 1 - ppi) ppi 0 1 d else .ok d

/-- Lines 207-213: the singular value is made non-negative. -/
noncomputable def finish (k : ℕ) (d : Diag) : Diag :=
  if d.w k < 0 then
    { d with
      w := upd d.w k (-d.w k)
      V := fun a b => if b = k then -d.V a b else d.V a b }
  else d

/-- Lines 167-276 for one `k`, with `left` iterations left after the present one; `none` stands for
`return false`. -/
noncomputable def iterate (anorm : ℝ) (k : ℕ) : ℕ → Diag → Outcome (Option Diag)
  | left, d => do
    let p ← findSplit anorm d.w d.rv1 k
    let d ← maybeCancel anorm k p.1 p.2 d
    if p.1 = k then return some (finish k d)
    else match left with
      | 0 => return none
      | left + 1 => do
        let f ← shift d.w d.rv1 p.1 k
        let d ← chase p.1 k (k - p.1) p.1 1 1 f (d.w p.1) d
        iterate anorm k left d

/-- `maxIter`, line 56. -/
def maxIter : ℕ := 150

/-- Lines 166-277: `k` runs down from its argument. -/
noncomputable def diagonalise (anorm : ℝ) : ℕ → Diag → Outcome (Option Diag)
  | 0, d => .ok (some d)
  | k + 1, d => do
    let r ← iterate anorm (k + 1) (maxIter - 1) d
    match r with
    | none => return none
    | some d => diagonalise anorm k d

/-- `SVD`, lines 46-279. `none` stands for the return value `false` (line 220; the singular values are
all set to zero then); otherwise the value is `true` and the result is `U`, `w`, `V`. The initial
contents of the resized output arguments are `w0`, `V0`. -/
noncomputable def svd (m n : ℕ) (A : Arr2) (w0 : Arr) (V0 : Arr2) :
    Outcome (Option (Arr2 × Arr × Arr2)) := do
  let st ← loopUp (biStep m n) n 1 ⟨A, w0, fun _ => 0, 0, 0, 0⟩
  let V ← loopDown (fun i V => rightStep n st.U i V (st.rv1 (i + 1))) n V0
  let U ← loopDown (leftStep m n st.w) (min n m) st.U
  let r ← diagonalise st.anorm n ⟨U, V, st.w, st.rv1⟩
  return r.map fun d => (d.U, d.w, d.V)

/-! ## Pseudo-inverse -/

/-- The entries of a matrix as an array. -/
def toArr {m n : ℕ} (A : Matrix (Fin m) (Fin n) ℝ) : Arr2 := fun a b =>
  if h : (1 ≤ a ∧ a ≤ m) ∧ (1 ≤ b ∧ b ≤ n) then A ⟨a - 1, by omega⟩ ⟨b - 1, by omega⟩ else 0

/-- The matrix with `m` rows and `n` columns stored in an array. -/
def toMat (m n : ℕ) (M : Arr2) : Matrix (Fin m) (Fin n) ℝ := fun a b => M (a + 1) (b + 1)

/-- Lines 325-329: `Dinv(i,i)`. -/
noncomputable def invertDiag (epsilon : ℝ) (D : Arr) : ℕ → Outcome Arr
  | 0 => .ok fun _ => 0
  | k + 1 => do
    let r ← invertDiag epsilon D k
    if D (k + 1) < epsilon then return upd r (k + 1) 0
    else do
      nonzero (D (k + 1))
      return upd r (k + 1) (1 / D (k + 1))

/-- `pseudoinverse`, lines 309-336. -/
noncomputable def pseudoinverse {m n : ℕ} (A : Matrix (Fin m) (Fin n) ℝ) (epsilon : ℝ) (w0 : Arr)
    (V0 : Arr2) : Outcome (Matrix (Fin n) (Fin m) ℝ) := do
  let r ← svd m n (toArr A) w0 V0
  match r with
  | none => .abort
  | some (U, D, V) => do
    let Dinv ← invertDiag epsilon D n
    return toMat n n V * Matrix.diagonal (fun i : Fin n => Dinv (i + 1)) * (toMat m n U).transpose

end BFL.SVD
