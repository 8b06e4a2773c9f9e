import Verif.Spec.ObjectHeap
import Verif.Model.FilterCopy

/-!
# What a client expects of a copied filter

The client programs are those of `Verif/Spec/ObjectHeap.lean`, with filters in the variables.
-/

namespace BFL.Spec

variable {P F C : Type}

/-- Filters as plain values: a copy is equal to the original. -/
def filterValues (X : FilterClass P F C) : ValueClass F P C where
  make := X.make
  copy f := .ok f
  step c f := X.step f c

/-- Filters as plain values where a second filter is started from the posterior of the first. -/
def filterForks (X : FilterClass P F C) : ValueClass F P C where
  make := X.make
  copy f := X.make (X.post f)
  step c f := X.step f c

/-- The filter started from the posterior of another one continues like it: whatever program of the
client came before, the same updates give the same results and the same posterior in variable `i` and
in the filter started from it. -/
def ContinuesAlike (X : FilterClass P F C) : Prop :=
  ∀ (prog : List (Cmd P C)) (s s' : ClientState (PdfCell P) (FilterVar F)) (i : Nat) (cs : List C),
    X.forkImpl.run HeapImpl.start prog = .ok s → X.forkImpl.exec s (.clone i) = .ok s' →
    SameOutcome (fun t t' => t.rets = t'.rets ∧
        (X.forkImpl.observe t i >>= fun f => .ok (X.post f)) =
          (X.forkImpl.observe t' s.objs.length >>= fun f => .ok (X.post f)))
      (X.forkImpl.run s' (cs.map (.call i))) (X.forkImpl.run s' (cs.map (.call s.objs.length)))

/-- The posterior that `PostGet` of variable `i` shows. -/
def shownBy (s : ClientState (PdfCell P) (FilterVar F)) (i : Nat) : Outcome P := do
  let v ← HeapImpl.var s.objs i
  let o ← v.toObj
  FilterClass.postGet s.heap o

end BFL.Spec
