import Verif.Lemmas.ObjectClasses
import Verif.Lemmas.ObjectAssign

/-!
# C50: clones are independent. C60: assignment is not a copy.

Client programs hold any number of objects and create, clone, change and destroy them in any order
(`Verif/Spec/ObjectHeap.lean`).
-/

set_option linter.unusedSectionVars false

namespace BFL.Props

open Spec

variable {K P T : Type} [Field K] [LinearOrder K]

/-- C50: every client program over `DiscretePdf` objects behaves as if each object were a separate
value. In particular there is no double deletion and no use of deleted storage. -/
theorem C50_discretePdf :
    ActsLikeValues (DiscretePdfObj.impl : HeapImpl (Cell K P) _ _ _ _) (discretePdf (K := K)) :=
  DiscretePdfObj.refines.actsLikeValues

/-- C50: changing or destroying other objects, clones or originals, never changes a
`DiscretePdf`. -/
theorem C50_discretePdf_others :
    LeavesOthersAlone (DiscretePdfObj.impl : HeapImpl (Cell K P) (DiscretePdfObj K) _ _ _) :=
  DiscretePdfObj.refines.leavesOthersAlone

/-- C50 for `DiscreteConditionalPdf`. -/
theorem C50_discreteConditionalPdf :
    ActsLikeValues (DiscreteConditionalPdfObj.impl : HeapImpl (Cell K P) _ _ _ _)
      (discreteConditionalPdf (K := K)) :=
  DiscreteConditionalPdfObj.refines.actsLikeValues

/-- C50 for `DiscreteConditionalPdf`. -/
theorem C50_discreteConditionalPdf_others :
    LeavesOthersAlone (DiscreteConditionalPdfObj.impl :
      HeapImpl (Cell K P) DiscreteConditionalPdfObj (DiscreteConditionalPdf K) _ _) :=
  DiscreteConditionalPdfObj.refines.leavesOthersAlone

/-- C50 for `MCPdf`. -/
theorem C50_mcPdf (dflt : T) :
    ActsLikeValues (MCPdfObj.impl dflt : HeapImpl (Cell K P) _ _ _ _) (mcPdf (K := K) dflt) :=
  (MCPdfObj.refines dflt).actsLikeValues

/-- C50 for `MCPdf`. -/
theorem C50_mcPdf_others (dflt : T) :
    LeavesOthersAlone (MCPdfObj.impl dflt : HeapImpl (Cell K P) (MCPdf K T) _ _ _) :=
  (MCPdfObj.refines dflt).leavesOthersAlone

/-- C50 for `Mixture`, where a client may also change a component through the pointer returned by
`ComponentGet`. The components of a clone are clones. -/
theorem C50_mixture (dims : P → Nat) :
    ActsLikeValues (MixtureObj.impl dims : HeapImpl (Cell K P) _ _ _ _) (mixture (K := K) dims) :=
  (MixtureObj.refines dims).actsLikeValues

/-- C50 for `Mixture`. -/
theorem C50_mixture_others (dims : P → Nat) :
    LeavesOthersAlone (MixtureObj.impl dims : HeapImpl (Cell K P) (MixtureObj K) _ _ _) :=
  (MixtureObj.refines dims).leavesOthersAlone

/-- A program: object 0 with two states, object 1 a clone of it, then the clone is changed. Object 0
still reads 1/2, 1/2; object 1 reads 1/4, 3/4; object 0 can be destroyed and object 1 used. -/
example :
    (do let s ← (DiscretePdfObj.impl (K := ℚ) (P := Unit)).run HeapImpl.start
          [.new 2, .clone 0, .call 1 (.probabilitySet 0 (1/4))]
        let v0 ← (DiscretePdfObj.impl (K := ℚ) (P := Unit)).observe s 0
        let v1 ← (DiscretePdfObj.impl (K := ℚ) (P := Unit)).observe s 1
        let s' ← (DiscretePdfObj.impl (K := ℚ) (P := Unit)).run s
          [.destroy 0, .call 1 (.probabilitySet 0 (1/8))]
        let v2 ← (DiscretePdfObj.impl (K := ℚ) (P := Unit)).observe s' 1
        return (v0.values, v1.values, v2.values))
      = .ok ([1/2, 1/2], [1/4, 3/4], [1/8, 7/8]) := by decide +kernel

/-- A program: a mixture of two components with dimension 1; component 0 of the clone is changed
through its pointer, component 1 of the original is deleted. -/
example :
    (do let s ← (MixtureObj.impl (K := ℚ) (P := Nat) fun _ => 1).run HeapImpl.start
          [.new (.inr [10, 20]), .clone 0, .call 1 (.modify 0 fun _ => .ok 99),
           .call 0 (.op (.delete 1))]
        let v0 ← (MixtureObj.impl (K := ℚ) (P := Nat) fun _ => 1).observe s 0
        let v1 ← (MixtureObj.impl (K := ℚ) (P := Nat) fun _ => 1).observe s 1
        return (v0.comps, v0.weights, v1.comps, v1.weights))
      = .ok ([10], [1], [99, 20], [1/2, 1/2]) := by decide +kernel

/-- A program: a conditional pdf with two states and one argument of size 2, and its clone. -/
example :
    (do let s ← (DiscreteConditionalPdfObj.impl (K := ℚ) (P := Unit)).run HeapImpl.start
          [.new (2, [2]), .call 0 (.probabilitySet (1/3) 1 [1]), .clone 0,
           .call 1 (.probabilitySet (1/5) 1 [1]), .destroy 0]
        let v1 ← (DiscreteConditionalPdfObj.impl (K := ℚ) (P := Unit)).observe s 1
        return v1.table) = .ok [none, none, none, some (1/5)] := by decide +kernel

/-- A program: an `MCPdf` with one sample and its clone. -/
example :
    (do let s ← (MCPdfObj.impl (K := ℚ) (P := Unit) (0 : Nat)).run HeapImpl.start
          [.new 1, .call 0 (.setU [5]), .clone 0, .call 1 (.setU [7])]
        let v0 ← (MCPdfObj.impl (K := ℚ) (P := Unit) (0 : Nat)).observe s 0
        let v1 ← (MCPdfObj.impl (K := ℚ) (P := Unit) (0 : Nat)).observe s 1
        return (v0.samples.map WSample.value, v1.samples.map WSample.value))
      = .ok ([5], [7]) := by decide +kernel

/-! ## C60: assignment -/

/-- C60 fails for `DiscretePdf`: after `x_i = x_j`, the probabilities written through one object are
read through the other, while the sampling table of the other stays as it was. -/
theorem C60_discretePdf_shared {s s1 s2 : ClientState (Cell K P) (DiscretePdfObj K)} {i j : Nat}
    {op : DiscretePdf.Op K} {vi vj vj0 : DiscretePdf K} (hij : i ≠ j)
    (ha : HeapImpl.assign s i j = .ok s1)
    (hj0 : DiscretePdfObj.impl.observe s1 j = .ok vj0)
    (hc : DiscretePdfObj.impl.exec s1 (.call i op) = .ok s2)
    (hi : DiscretePdfObj.impl.observe s2 i = .ok vi)
    (hj : DiscretePdfObj.impl.observe s2 j = .ok vj) :
    vj.values = vi.values ∧ vj.cum = vj0.cum :=
  DiscretePdfObj.assign_shared hij ha hj0 hc hi hj

/-- Witness: two uniform pdfs with two states; after `x_1 = x_0` and `x_1.ProbabilitySet(0, 1)` the
other object reads 1, 0 and still samples with the old table 0, 1/2, 1. -/
theorem C60_discretePdf_witness :
    (do let s ← (DiscretePdfObj.impl (K := ℚ) (P := Unit)).run HeapImpl.start [.new 2, .new 2]
        let s ← HeapImpl.assign s 1 0
        let s ← (DiscretePdfObj.impl (K := ℚ) (P := Unit)).run s [.call 1 (.probabilitySet 0 1)]
        let v0 ← (DiscretePdfObj.impl (K := ℚ) (P := Unit)).observe s 0
        return (v0.values, v0.cum)) = .ok ([1, 0], [0, 1/2, 1]) := by decide +kernel

/-- C60 fails for `DiscretePdf`: after `x_i = x_j`, destroying both objects deletes the same vector
twice, for every program. -/
theorem C60_discretePdf_double_delete {s s1 : ClientState (Cell K P) (DiscretePdfObj K)} {i j : Nat}
    (hij : i ≠ j) (ha : HeapImpl.assign s i j = .ok s1) :
    DiscretePdfObj.impl.run s1 [.destroy i, .destroy j] = .ub :=
  DiscretePdfObj.assign_double_delete hij ha

/-- C60 fails for `Mixture` in the same way. -/
theorem C60_mixture_double_delete (dims : P → Nat) {s s1 : ClientState (Cell K P) (MixtureObj K)}
    {i j : Nat} (hij : i ≠ j) (ha : HeapImpl.assign s i j = .ok s1) :
    (MixtureObj.impl dims).run s1 [.destroy i, .destroy j] = .ub :=
  MixtureObj.assign_double_delete dims hij ha

/-- C60 fails for `DiscreteConditionalPdf`: after `x_i = x_j`, a probability written through one
object is read through the other. -/
theorem C60_conditional_shared {s s1 s2 : ClientState (Cell K P) DiscreteConditionalPdfObj}
    {i j : Nat} {op : DiscreteConditionalPdf.Op K} {vi vj : DiscreteConditionalPdf K} (hij : i ≠ j)
    (ha : HeapImpl.assign s i j = .ok s1)
    (hc : DiscreteConditionalPdfObj.impl.exec s1 (.call i op) = .ok s2)
    (hi : DiscreteConditionalPdfObj.impl.observe s2 i = .ok vi)
    (hj : DiscreteConditionalPdfObj.impl.observe s2 j = .ok vj) : vj.table = vi.table :=
  DiscreteConditionalPdfObj.assign_shared hij ha hc hi hj

/-- Witness: the cell written through object 1 is read through object 0. -/
theorem C60_conditional_witness :
    (do let s ← (DiscreteConditionalPdfObj.impl (K := ℚ) (P := Unit)).run HeapImpl.start
          [.new (2, [1]), .new (2, [1]), .call 0 (.probabilitySet (1/3) 1 [0])]
        let s ← HeapImpl.assign s 1 0
        let s ← (DiscreteConditionalPdfObj.impl (K := ℚ) (P := Unit)).run s
          [.call 1 (.probabilitySet (1/5) 1 [0])]
        let v0 ← (DiscreteConditionalPdfObj.impl (K := ℚ) (P := Unit)).observe s 0
        return v0.table) = .ok [none, some (1/5)] := by decide +kernel

/-- The hypotheses of `C60_mixture_double_delete` are met by every program that assigns; here the
whole program runs into the double deletion, and without the assignment it does not. -/
example :
    (do let s ← (MixtureObj.impl (K := ℚ) (P := Nat) fun _ => 1).run HeapImpl.start
          [.new (.inr [10, 20]), .new (.inr [30])]
        let s ← HeapImpl.assign s 1 0
        (MixtureObj.impl (K := ℚ) (P := Nat) fun _ => 1).run s [.destroy 1, .destroy 0]) = .ub ∧
    (do let s ← (MixtureObj.impl (K := ℚ) (P := Nat) fun _ => 1).run HeapImpl.start
          [.new (.inr [10, 20]), .new (.inr [30])]
        let s ← (MixtureObj.impl (K := ℚ) (P := Nat) fun _ => 1).run s [.destroy 1, .destroy 0]
        return s.objs) = .ok [none, none] := by decide +kernel

/-- C60, the part that holds: directly after the assignment both objects read the same, for all
three classes (and any other class with the implicit operator). Missing: independence afterwards. -/
theorem C60_reads_same_partial {C O V A Op : Type} (I : HeapImpl C O V A Op)
    {s s1 : ClientState C O} {i j : Nat} (ha : HeapImpl.assign s i j = .ok s1) :
    I.observe s1 i = I.observe s j ∧ I.observe s1 j = I.observe s j :=
  HeapImpl.assign_observe I ha

/-- C60 holds for `MCPdf`, whose members are values: after `x_i = x_j` object `i` reads as object `j`
did and every other object reads as before, and this remains so whatever is done to other objects. -/
theorem C60_mcPdf (dflt : T) {s s1 s2 : ClientState (Cell K P) (MCPdf K T)} {i j k : Nat}
    {more : List (Cmd Nat (MCPdf.Op K T))} (ha : HeapImpl.assign s i j = .ok s1)
    (hk : k < s.objs.length) (hm : ∀ c ∈ more, c.target ≠ some k)
    (hr : (MCPdfObj.impl dflt).run s1 more = .ok s2) :
    (MCPdfObj.impl dflt).observe s2 k =
      (MCPdfObj.impl dflt : HeapImpl (Cell K P) _ _ _ _).observe s (if k = i then j else k) :=
  MCPdfObj.assign_run_others dflt ha hk hm hr

/-- After `x_1 = x_0` and a change of object 1, object 0 reads as before. -/
example :
    (do let s ← (MCPdfObj.impl (K := ℚ) (P := Unit) (0 : Nat)).run HeapImpl.start
          [.new 1, .new 1, .call 0 (.setU [5])]
        let s ← HeapImpl.assign s 1 0
        let v1 ← (MCPdfObj.impl (K := ℚ) (P := Unit) (0 : Nat)).observe s 1
        let s ← (MCPdfObj.impl (K := ℚ) (P := Unit) (0 : Nat)).run s
          [.call 1 (.setU [7]), .destroy 1]
        let v0 ← (MCPdfObj.impl (K := ℚ) (P := Unit) (0 : Nat)).observe s 0
        return (v1.samples.map WSample.value, v0.samples.map WSample.value))
      = .ok ([5], [5]) := by decide +kernel

end BFL.Props
