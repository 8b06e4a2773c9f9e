import Verif.Model.ObjectHeap

/-!
# Specification: objects as independent values

A client program over objects without any heap: every variable holds its own value. This is what a
user of a class with correct copies expects.
-/

namespace BFL.Spec

/-- Constructor, copy and member functions of a class, on plain values. -/
structure ValueClass (V A Op : Type) where
  make : A → Outcome V
  copy : V → Outcome V
  step : Op → V → Outcome (Bool × V)

/-- Variables (`none` after destruction) and results returned so far. -/
structure ValueState (V : Type) where
  vals : List (Option V)
  rets : List Bool
  deriving DecidableEq, Repr

namespace ValueClass

variable {V A Op : Type}

/-- The value of variable `i`; using a variable without an object is undefined. -/
def value (s : ValueState V) (i : Nat) : Outcome V :=
  match s.vals[i]? with
  | some (some v) => .ok v
  | _ => .ub

/-- One command changes one variable, or makes a new one. -/
def exec (S : ValueClass V A Op) (s : ValueState V) : Cmd A Op → Outcome (ValueState V)
  | .new a => do
    let v ← S.make a
    return { s with vals := s.vals ++ [some v] }
  | .clone i => do
    let v ← value s i
    let c ← S.copy v
    return { s with vals := s.vals ++ [some c] }
  | .call i op => do
    let v ← value s i
    let (b, v') ← S.step op v
    return { vals := s.vals.set i (some v'), rets := s.rets ++ [b] }
  | .destroy i => do
    let _ ← value s i
    return { s with vals := s.vals.set i none }

/-- A program. -/
def run (S : ValueClass V A Op) (s : ValueState V) : List (Cmd A Op) → Outcome (ValueState V)
  | [] => .ok s
  | c :: cs => do
    let s ← S.exec s c
    S.run s cs

end ValueClass

/-- Two computations end in the same way, and if both return, the results are related by `R`. -/
def SameOutcome {α β : Type} (R : α → β → Prop) : Outcome α → Outcome β → Prop
  | .ok a, .ok b => R a b
  | .abort, .abort => True
  | .ub, .ub => True
  | _, _ => False

/-- The class behaves like a class of independent values: every program on the heap ends like the
same program on values, with the same returned results, and every variable then reads the same. -/
def ActsLikeValues {C O V A Op : Type} (I : HeapImpl C O V A Op) (S : ValueClass V A Op) : Prop :=
  ∀ prog : List (Cmd A Op),
    SameOutcome (fun (s : ClientState C O) (t : ValueState V) =>
      s.rets = t.rets ∧ ∀ i, I.observe s i = ValueClass.value t i)
      (I.run HeapImpl.start prog) (S.run { vals := [], rets := [] } prog)

/-- Commands that are not applied to variable `i` do not change what can be read from it. Cloning
`i`, and changing or destroying clones of `i` or objects that `i` was cloned from, is allowed. -/
def LeavesOthersAlone {C O V A Op : Type} (I : HeapImpl C O V A Op) : Prop :=
  ∀ (prog more : List (Cmd A Op)) (s s' : ClientState C O) (i : Nat),
    I.run HeapImpl.start prog = .ok s → i < s.objs.length →
    (∀ c ∈ more, c.target ≠ some i) → I.run s more = .ok s' → I.observe s' i = I.observe s i

variable {K P T : Type} [Field K] [LinearOrder K]

/-- `DiscretePdf` on values. The argument of the constructor is the number of states. -/
def discretePdf : ValueClass (DiscretePdf K) Nat (DiscretePdf.Op K) where
  make := DiscretePdf.make
  copy := DiscretePdf.copy
  step := fun op d => d.step op

/-- `DiscreteConditionalPdf` on values. The arguments of the constructor are the number of states
and the sizes of the conditional arguments. -/
def discreteConditionalPdf :
    ValueClass (DiscreteConditionalPdf K) (Nat × List Nat) (DiscreteConditionalPdf.Op K) where
  make := fun a => .ok (DiscreteConditionalPdf.make a.1 a.2)
  copy := DiscreteConditionalPdf.copy
  step := fun op d => d.step op

/-- `MCPdf` on values. The argument of the constructor is the number of samples. -/
def mcPdf (dflt : T) : ValueClass (MCPdf K T) Nat (MCPdf.Op K T) where
  make := fun n => .ok (MCPdf.make n dflt)
  copy := fun p => .ok p.copy
  step := fun op p => p.step dflt op

/-- `Mixture` on values; `dims` is the dimension of a component. The argument of the constructor is
a dimension or a list of components. -/
def mixture (dims : P → Nat) : ValueClass (Mixture K P) (Nat ⊕ List P) (Mixture.Call K P) where
  make := fun a => match a with
    | .inl d => .ok (Mixture.make d)
    | .inr cs => Mixture.ofComponents dims cs
  copy := Mixture.copy
  step := fun c m => m.change c

end BFL.Spec
