import Verif.Prelude

/-!
# A heap of C++ objects

Memory obtained with `new` (or objects that a pointer may refer to). An address is the position of
the allocation; addresses are never reused, so that a use after `delete` is always visible.
-/

namespace BFL

/-- A pointer value is the number of an allocation. -/
scoped notation "Addr" => Nat

/-- All allocations so far; `none` has been deleted. -/
structure Heap (C : Type) where
  cells : List (Option C)
  deriving DecidableEq, Repr

namespace Heap

variable {C : Type}

/-- No allocation. -/
def empty : Heap C := ⟨[]⟩

/-- Number of allocations so far. -/
abbrev size (h : Heap C) : Nat := h.cells.length

/-- The object at an address, if there is one. -/
def get (h : Heap C) (a : Addr) : Option C := (h.cells[a]?).join

/-- `new`. -/
def alloc (h : Heap C) (c : C) : Heap C × Addr := (⟨h.cells ++ [some c]⟩, h.size)

/-- `*p` as a value: undefined for a pointer to nothing or to a deleted object. -/
def read (h : Heap C) (a : Addr) : Outcome C :=
  match h.get a with
  | some c => .ok c
  | none => .ub

/-- `*p = c`. -/
def write (h : Heap C) (a : Addr) (c : C) : Outcome (Heap C) :=
  match h.get a with
  | some _ => .ok ⟨h.cells.set a (some c)⟩
  | none => .ub

/-- `delete p`: undefined if the object does not exist any more. -/
def free (h : Heap C) (a : Addr) : Outcome (Heap C) :=
  match h.get a with
  | some _ => .ok ⟨h.cells.set a none⟩
  | none => .ub

/-- `delete` of several pointers in order. -/
def freeAll (h : Heap C) : List Addr → Outcome (Heap C)
  | [] => .ok h
  | a :: as => do
    let h ← h.free a
    h.freeAll as

/-- `new` for several objects in order. -/
def allocAll (h : Heap C) : List C → Heap C × List Addr
  | [] => (h, [])
  | c :: cs =>
    let (h1, a) := h.alloc c
    let (h2, as) := h1.allocAll cs
    (h2, a :: as)

/-- Read several objects. -/
def readAll (h : Heap C) (as : List Addr) : Outcome (List C) := mapOutcome h.read as

end Heap

end BFL
