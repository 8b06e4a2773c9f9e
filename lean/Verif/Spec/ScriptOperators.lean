import Verif.Model.ScriptOperators
import Verif.Spec.MatrixProgram

/-!
# Specification: expressions of scripts as linear algebra

Every object is a rectangular table of numbers: a column vector has one column, a row vector one row, a
number one of each. The symbols mean what they mean on paper; with a number on the right they work on
every entry.
-/

namespace BFL.Spec

variable {K : Type} [Field K] [LinearOrder K]

/-- The object as a table, entry by entry as the program reads it. -/
def tableOf (be : Backend) : SVal K → Table K
  | .num x => ⟨1, 1, fun _ _ => x⟩
  | .cv v => ⟨v.len, 1, fun i _ => v.entry i⟩
  | .rv v => ⟨1, v.len, fun _ j => v.entry j⟩
  | .mat m => ⟨m.rows, m.cols, m.entry⟩
  | .sym s => ⟨s.n, s.n, s.view be⟩
  | .truth _ => ⟨0, 0, fun _ _ => 0⟩

/-- Two objects of the same kind that read the same. -/
def SameObject (be : Backend) (a b : SVal K) : Prop :=
  match a, b with
  | .truth p, .truth q => p = q
  | _, _ => a.ty = b.ty ∧ (tableOf be a).Same (tableOf be b)

/-- The kind of a product: a row times a column is a number, anything else times a column is a column, and
the rest are matrices. -/
def productKind : STy → STy → STy
  | .rv, .cv => .num
  | _, .cv => .cv
  | _, _ => .mat

/-- The sizes, or the divisor, allow the operation. -/
def Allowed (be : Backend) (s : OpSym) (a b : SVal K) : Prop :=
  match s, b with
  | .over, .num x => x ≠ 0
  | _, .num _ => True
  | .plus, b | .minus, b =>
    (tableOf be a).rows = (tableOf be b).rows ∧ (tableOf be a).cols = (tableOf be b).cols
  | .times, b => (tableOf be a).cols = (tableOf be b).rows
  | _, _ => True

/-- `c` is what `a s b` means. -/
def Answers (be : Backend) (s : OpSym) (a b c : SVal K) : Prop :=
  match s, b with
  | .plus, .num x => c.ty = a.ty ∧ (tableOf be c).Same ((tableOf be a).map (· + x))
  | .minus, .num x => c.ty = a.ty ∧ (tableOf be c).Same ((tableOf be a).map (· - x))
  | .times, .num x => c.ty = a.ty ∧ (tableOf be c).Same ((tableOf be a).map (· * x))
  | .over, .num x => c.ty = a.ty ∧ (tableOf be c).Same ((tableOf be a).map (· / x))
  | .assign, .num x => c.ty = a.ty ∧ (tableOf be c).Same ((tableOf be a).map fun _ => x)
  | .plus, b => c.ty = a.ty ∧ (tableOf be c).Same ((tableOf be a).zip (· + ·) (tableOf be b))
  | .minus, b => c.ty = a.ty ∧ (tableOf be c).Same ((tableOf be a).zip (· - ·) (tableOf be b))
  | .times, b => c.ty = productKind a.ty b.ty ∧ (tableOf be c).Same ((tableOf be a).mul (tableOf be b))
  | .equals, b => ∃ t, c = .truth t ∧ (t = true ↔ (tableOf be a).Same (tableOf be b))
  | _, _ => False

/-- `v` is the value of the expression on paper, for variables with the values `env`. Answers of `==` are
not combined any further. -/
inductive Means (be : Backend) (env : List (SVal K)) : SExpr K → SVal K → Prop
  | lit (x : K) : Means be env (.lit x) (.num x)
  | var (i : Nat) (v : SVal K) : env[i]? = some v → Means be env (.var i) v
  | bin (s : OpSym) (l r : SExpr K) (a b c : SVal K) : Means be env l a → Means be env r b →
      a.ty ≠ .truth → b.ty ≠ .truth → Allowed be s a b → Answers be s a b c → Means be env (.bin s l r) c

/-- `p` occurs in `e`. -/
inductive Within : SExpr K → SExpr K → Prop
  | self (e : SExpr K) : Within e e
  | left (s : OpSym) (p l r : SExpr K) : Within p l → Within p (.bin s l r)
  | right (s : OpSym) (p l r : SExpr K) : Within p r → Within p (.bin s l r)

/-- The operators that the C++ classes declare for these types: vector_BOOST.h:70-109 and 142-164,
matrix_BOOST.h:74-94 and 138-165. -/
def declared : OpSym → STy → STy → Bool
  | .plus, a, b | .minus, a, b =>
    (a = b && (a = .cv || a = .rv || a = .mat || a = .sym)) || (a = .sym && b = .mat) ||
    (b = .num && (a = .cv || a = .rv || a = .mat || a = .sym))
  | .times, a, b =>
    (a = .mat && b = .mat) || (a = .sym && b = .mat) || (a = .sym && b = .sym) || (a = .mat && b = .cv) ||
    (a = .sym && b = .cv) || (a = .cv && b = .rv) || (a = .rv && b = .cv) ||
    (b = .num && (a = .cv || a = .rv || a = .mat || a = .sym))
  | .over, a, b | .assign, a, b => b = .num && (a = .cv || a = .rv || a = .mat || a = .sym)
  | .equals, a, b => a = b && (a = .cv || a = .rv || a = .mat || a = .sym)

end BFL.Spec
