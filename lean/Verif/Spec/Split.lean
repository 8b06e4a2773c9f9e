/-!
# Specification: histories with some calls made in two halves (C92)
-/

namespace BFL.Spec

/-- `Split halves cs ds`: the history `ds` is the history `cs`, where any number of calls `c` have been
replaced by two calls `a` and `b` with `halves c a b`. -/
inductive Split {C : Type} (halves : C → C → C → Prop) : List C → List C → Prop
  | nil : Split halves [] []
  | keep (c : C) {cs ds : List C} : Split halves cs ds → Split halves (c :: cs) (c :: ds)
  | split {c a b : C} {cs ds : List C} : halves c a b → Split halves cs ds →
      Split halves (c :: cs) (a :: b :: ds)

end BFL.Spec
