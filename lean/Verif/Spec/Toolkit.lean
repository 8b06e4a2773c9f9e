import Verif.Model.Toolkit

/-!
# What a property bag says

The format in which vectors and matrices are stored in property bags, independently of the code
that reads and writes them. The order of the items in a bag does not matter.
-/

namespace BFL.Spec

variable {K : Type}

/-- The bag describes the vector `l`: it has the given type and exactly `l.length` items, one called
`"1"` with the first entry, one called `"2"` with the second, and so on. -/
def SaysVec (tn : String) (l : List K) (b : PBag K) : Prop :=
  b.type = tn ∧ b.items.length = l.length ∧
  ∀ (i : Nat) (h : i < l.length), (toString (i + 1), PVal.num l[i]) ∈ b.items

/-- The bag describes the matrix `m`: it has the given type and one item per row, called `"1"`,
`"2"`, ..., each a bag that describes that row as a `RowVector`. -/
def SaysMat {r c : Nat} (tn : String) (m : Matrix (Fin r) (Fin c) K) (b : PBag K) : Prop :=
  b.type = tn ∧ b.items.length = r ∧
  ∀ i : Fin r, ∃ rb : PBag K, (toString (i.val + 1), PVal.bag rb.type rb.items) ∈ b.items ∧
    SaysVec "RowVector" (List.ofFn (m i)) rb

/-- The bag describes the rows `rows`, which may differ in length. -/
def SaysRows (tn : String) (rows : List (List K)) (b : PBag K) : Prop :=
  b.type = tn ∧ b.items.length = rows.length ∧
  ∀ (i : Nat) (h : i < rows.length), ∃ rb : PBag K,
    (toString (i + 1), PVal.bag rb.type rb.items) ∈ b.items ∧ SaysVec "RowVector" rows[i] rb

/-- The matrix object `a` has the size and the entries of `m`. -/
def IsMat {r c : Nat} (m : Matrix (Fin r) (Fin c) K) (a : DynMat K) : Prop :=
  a.rows = r ∧ a.cols = c ∧ ∀ (i : Fin r) (j : Fin c), a.entry i j = some (m i j)

/-- What a script may expect of `m[index]`, if the first row has index `first`: the indices
`first, ..., first + r - 1` give the rows one after the other, every other index is refused, and
nothing undefined happens. -/
def RowAccess {r c : Nat} (first : Int) (m : Matrix (Fin r) (Fin c) K)
    (access : Int → Outcome (Option (Vec K))) : Prop :=
  (∀ i : Fin r, access (first + i) = .ok (some ((List.ofFn (m i)).map some))) ∧
  ∀ i : Int, i < first ∨ first + r ≤ i → access i = .ok none

end BFL.Spec
