import Verif.Model.FilterReset

/-!
# What a client expects of a filter that has been reset
-/

namespace BFL.Spec

variable {P F C : Type}

/-- Whatever updates follow, the filter gives the results and posteriors that a filter newly
constructed with the prior at address `a` would give. -/
def BehavesFresh (X : FilterClass P F C) (h : Heap (PdfCell P)) (o : FilterObj F) (a : Addr) : Prop :=
  ∀ cs : List C, X.trace h o cs = do
    let (h', o') ← X.construct h a
    X.trace h' o' cs

/-- The filter constructed with the prior at `a0`, used for the updates `before` and then reset to the
prior at `a` (by `rst`) behaves like a new one. -/
def ResetFresh (X : FilterClass P F C)
    (rst : Heap (PdfCell P) → FilterObj F → Addr → Outcome (Heap (PdfCell P) × FilterObj F))
    (h : Heap (PdfCell P)) (a0 : Addr) (before : List C) (a : Addr) : Prop :=
  ∀ h1 o1 b h2 o2 h3 o3, X.construct h a0 = .ok (h1, o1) → X.run h1 o1 before = .ok (b, h2, o2) →
    rst h2 o2 a = .ok (h3, o3) → BehavesFresh X h3 o3 a

/-- Updates leave the client's object at address `a` as it is. -/
def LeavesAlone (X : FilterClass P F C) (h : Heap (PdfCell P)) (o : FilterObj F) (a : Addr) : Prop :=
  ∀ (cs : List C) (b : Bool) (h' : Heap (PdfCell P)) (o' : FilterObj F),
    X.run h o cs = .ok (b, h', o') → h'.get a = h.get a

end BFL.Spec
