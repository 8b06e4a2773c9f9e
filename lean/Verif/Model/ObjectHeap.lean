import Verif.Model.Heap
import Verif.Model.DiscretePdf
import Verif.Model.DiscreteConditionalPdf
import Verif.Model.MCPdf
import Verif.Model.Mixture

/-!
# Pdf objects with their pointers

`DiscretePdf`, `DiscreteConditionalPdf` and `Mixture` keep part of their data behind pointers
(`_Values_p`; `_cond_arg_dims_p` and `_probability_p`; `_componentWeights` and `_componentPdfs`).
The other model files treat these objects as values. Here the pointers are explicit, so that two
objects can share storage, and every operation reads and writes through the object's own pointers.
All files are under `/repo/orocos_bfl/src`.
-/

namespace BFL

/-- A class with heap storage: what the constructor, copy constructor, member functions, destructor,
implicit assignment and reading all data do to the heap. `A` are constructor arguments, `Op` calls
of member functions that change the object (with a Boolean result, `true` for `void`). -/
structure HeapImpl (C O V A Op : Type) where
  make : A → Heap C → Outcome (Heap C × O)
  clone : Heap C → O → Outcome (Heap C × O)
  call : Op → Heap C → O → Outcome (Bool × Heap C × O)
  destroy : Heap C → O → Outcome (Heap C)
  load : Heap C → O → Outcome V

/-- A command of a client program that holds objects in numbered variables. -/
inductive Cmd (A Op : Type) where
  | new (a : A)
  | clone (i : Nat)
  | call (i : Nat) (op : Op)
  | destroy (i : Nat)

namespace Cmd

variable {A Op : Type}

/-- The variable a command changes; `new` and `clone` make a new variable. -/
def target : Cmd A Op → Option Nat
  | new _ => none
  | clone _ => none
  | call i _ => some i
  | destroy i => some i

end Cmd

/-- State of a client program: heap, variables (`none` after destruction), results returned so
far. -/
structure ClientState (C O : Type) where
  heap : Heap C
  objs : List (Option O)
  rets : List Bool
  deriving DecidableEq, Repr

namespace HeapImpl

variable {C O V A Op : Type}

/-- Use of variable `i`: it must hold an object. -/
def var {O : Type} (objs : List (Option O)) (i : Nat) : Outcome O :=
  match objs[i]? with
  | some (some o) => .ok o
  | _ => .ub

/-- One command. -/
def exec (I : HeapImpl C O V A Op) (s : ClientState C O) : Cmd A Op → Outcome (ClientState C O)
  | .new a => do
    let (h, o) ← I.make a s.heap
    return { s with heap := h, objs := s.objs ++ [some o] }
  | .clone i => do
    let o ← var s.objs i
    let (h, c) ← I.clone s.heap o
    return { s with heap := h, objs := s.objs ++ [some c] }
  | .call i op => do
    let o ← var s.objs i
    let (b, h, o') ← I.call op s.heap o
    return { heap := h, objs := s.objs.set i (some o'), rets := s.rets ++ [b] }
  | .destroy i => do
    let o ← var s.objs i
    let h ← I.destroy s.heap o
    return { s with heap := h, objs := s.objs.set i none }

/-- A client program. -/
def run (I : HeapImpl C O V A Op) (s : ClientState C O) : List (Cmd A Op) →
    Outcome (ClientState C O)
  | [] => .ok s
  | c :: cs => do
    let s ← I.exec s c
    I.run s cs

/-- Start of a client program. -/
def start : ClientState C O := { heap := .empty, objs := [], rets := [] }

/-- Everything that can be read from variable `i`. -/
def observe (I : HeapImpl C O V A Op) (s : ClientState C O) (i : Nat) : Outcome V := do
  let o ← var s.objs i
  I.load s.heap o

/-- Implicit assignment operator `x_i = x_j`: no class here declares one, so it copies member by
member, pointers included. -/
def assign {C O : Type} (s : ClientState C O) (i j : Nat) : Outcome (ClientState C O) := do
  let _ ← var s.objs i
  let o ← var s.objs j
  return { s with objs := s.objs.set i (some o) }

end HeapImpl

/-- What pointers refer to: a vector or array of probabilities, an array of sizes, an array of
table cells, a vector of pointers, a pdf object. -/
inductive Cell (K P : Type) where
  | probs (v : List K)
  | sizes (v : List Nat)
  | table (v : List (Option K))
  | ptrs (v : List Addr)
  | pdf (p : P)
  deriving DecidableEq, Repr

namespace Heap

variable {K P : Type}

/-- Read through a `vector<Probability>*`. -/
def readProbs (h : Heap (Cell K P)) (a : Addr) : Outcome (List K) := do
  let c ← h.read a
  match c with
  | .probs v => .ok v
  | _ => .ub

/-- Read through an `int*`. -/
def readSizes (h : Heap (Cell K P)) (a : Addr) : Outcome (List Nat) := do
  let c ← h.read a
  match c with
  | .sizes v => .ok v
  | _ => .ub

/-- Read through a `double*`. -/
def readTable (h : Heap (Cell K P)) (a : Addr) : Outcome (List (Option K)) := do
  let c ← h.read a
  match c with
  | .table v => .ok v
  | _ => .ub

/-- Read through a `vector<Pdf<T>*>*`. -/
def readPtrs (h : Heap (Cell K P)) (a : Addr) : Outcome (List Addr) := do
  let c ← h.read a
  match c with
  | .ptrs v => .ok v
  | _ => .ub

/-- Read through a `Pdf<T>*`. -/
def readPdf (h : Heap (Cell K P)) (a : Addr) : Outcome P := do
  let c ← h.read a
  match c with
  | .pdf p => .ok p
  | _ => .ub

end Heap

variable {K P T : Type} [Field K] [LinearOrder K]

/-! ## `DiscretePdf` -/

/-- Data members of `DiscretePdf` (pdf/discretepdf.h): `valuesP` is the pointer `_Values_p`, `cum`
is `_CumPDF`. -/
structure DiscretePdfObj (K : Type) where
  valuesP : Addr
  cum : List K
  deriving DecidableEq, Repr

namespace DiscretePdfObj

/-- The data of the object, read through its pointer. -/
def load (h : Heap (Cell K P)) (o : DiscretePdfObj K) : Outcome (DiscretePdf K) := do
  let v ← h.readProbs o.valuesP
  return { values := v, cum := o.cum }

/-- A new object with its own vector: `_Values_p = new vector<Probability>(..)`,
pdf/discretepdf.cpp:35 and 50. -/
def place (h : Heap (Cell K P)) (d : DiscretePdf K) : Heap (Cell K P) × DiscretePdfObj K :=
  let (h1, a) := h.alloc (.probs d.values)
  (h1, { valuesP := a, cum := d.cum })

/-- Constructor, pdf/discretepdf.cpp:31-45. -/
def make (n : Nat) (h : Heap (Cell K P)) : Outcome (Heap (Cell K P) × DiscretePdfObj K) := do
  let d ← DiscretePdf.make n
  return place h d

/-- Copy constructor and `Clone`, pdf/discretepdf.cpp:47-57 and 69-72: the new object gets a new
vector (line 50), into which the values are copied (line 51). -/
def clone (h : Heap (Cell K P)) (o : DiscretePdfObj K) :
    Outcome (Heap (Cell K P) × DiscretePdfObj K) := do
  let d ← load h o
  let c ← d.copy
  return place h c

/-- `ProbabilitySet` and `ProbabilitiesSet`, pdf/discretepdf.cpp:86-110 and 117-124: both write
`*_Values_p` and `_CumPDF` of the object they are called on. -/
def call (op : DiscretePdf.Op K) (h : Heap (Cell K P)) (o : DiscretePdfObj K) :
    Outcome (Bool × Heap (Cell K P) × DiscretePdfObj K) := do
  let d ← load h o
  let (b, d') ← d.step op
  let h' ← h.write o.valuesP (.probs d'.values)
  return (b, h', { o with cum := d'.cum })

/-- Destructor, pdf/discretepdf.cpp:59-66. -/
def destroy (h : Heap (Cell K P)) (o : DiscretePdfObj K) : Outcome (Heap (Cell K P)) :=
  h.free o.valuesP

/-- The class. -/
def impl : HeapImpl (Cell K P) (DiscretePdfObj K) (DiscretePdf K) Nat (DiscretePdf.Op K) where
  make := make
  clone := clone
  call := call
  destroy := destroy
  load := load

end DiscretePdfObj

/-! ## `DiscreteConditionalPdf` -/

namespace DiscreteConditionalPdf

/-- Public operations that change a `DiscreteConditionalPdf`. -/
inductive Op (K : Type) where
  | probabilitySet (p : K) (input : Int) (cs : List Int)
  | argsSet (cs : List Int)
  | argSet (i : Nat) (c : Int)
  | numArgsSet (k : Nat)

/-- Run one operation; all of them are `void`. -/
def step (d : DiscreteConditionalPdf K) : Op K → Outcome (Bool × DiscreteConditionalPdf K)
  | .probabilitySet p x cs => do
    let d' ← d.probabilitySet p x cs
    return (true, d')
  | .argsSet cs => do
    let d' ← d.argsSet cs
    return (true, d')
  | .argSet i c => do
    let d' ← d.argSet i c
    return (true, d')
  | .numArgsSet k => return (true, d.numArgsSet k)

end DiscreteConditionalPdf

/-- Data members of `DiscreteConditionalPdf`: the pointers `_cond_arg_dims_p` and
`_probability_p`, and `_num_states` and `_ConditionalArguments` (conditionalpdf.h). -/
structure DiscreteConditionalPdfObj where
  numStates : Nat
  dimsP : Addr
  tableP : Addr
  args : List Int
  deriving DecidableEq, Repr

namespace DiscreteConditionalPdfObj

/-- The data of the object, read through its pointers. -/
def load (h : Heap (Cell K P)) (o : DiscreteConditionalPdfObj) :
    Outcome (DiscreteConditionalPdf K) := do
  let ds ← h.readSizes o.dimsP
  let t ← h.readTable o.tableP
  return { numStates := o.numStates, dims := ds, table := t, args := o.args }

/-- A new object with its own two arrays, pdf/discreteconditionalpdf.cpp:36 and 48, 67 and 76. -/
def place (h : Heap (Cell K P)) (d : DiscreteConditionalPdf K) :
    Heap (Cell K P) × DiscreteConditionalPdfObj :=
  let (h1, a) := h.alloc (.sizes d.dims)
  let (h2, b) := h1.alloc (.table d.table)
  (h2, { numStates := d.numStates, dimsP := a, tableP := b, args := d.args })

/-- Constructor, pdf/discreteconditionalpdf.cpp:28-49. -/
def make (a : Nat × List Nat) (h : Heap (Cell K P)) :
    Outcome (Heap (Cell K P) × DiscreteConditionalPdfObj) :=
  .ok (place h (DiscreteConditionalPdf.make a.1 a.2))

/-- Copy constructor and `Clone`, pdf/discreteconditionalpdf.cpp:61-81 and 84-87: new arrays at
lines 67 and 76, filled element by element. -/
def clone (h : Heap (Cell K P)) (o : DiscreteConditionalPdfObj) :
    Outcome (Heap (Cell K P) × DiscreteConditionalPdfObj) := do
  let d : DiscreteConditionalPdf K ← load h o
  let c ← d.copy
  return place h c

/-- `ProbabilitySet` (pdf/discreteconditionalpdf.cpp:127-133) writes one cell of the table of its
own object. The setters of `ConditionalPdf` (conditionalpdf.h:140-179) change no array. -/
def call (op : DiscreteConditionalPdf.Op K) (h : Heap (Cell K P)) (o : DiscreteConditionalPdfObj) :
    Outcome (Bool × Heap (Cell K P) × DiscreteConditionalPdfObj) := do
  let d : DiscreteConditionalPdf K ← load h o
  let (b, d') ← d.step op
  let h' ← h.write o.tableP (.table d'.table)
  return (b, h', { o with args := d'.args })

/-- Destructor, pdf/discreteconditionalpdf.cpp:51-58: the two `delete`s are commented out, so the
arrays stay allocated. -/
def destroy (h : Heap (Cell K P)) (_ : DiscreteConditionalPdfObj) : Outcome (Heap (Cell K P)) :=
  .ok h

/-- The class. -/
def impl : HeapImpl (Cell K P) DiscreteConditionalPdfObj (DiscreteConditionalPdf K)
    (Nat × List Nat) (DiscreteConditionalPdf.Op K) where
  make := make
  clone := clone
  call := call
  destroy := destroy
  load := load

end DiscreteConditionalPdfObj

/-! ## `MCPdf` -/

namespace MCPdfObj

/-- `MCPdf<T>` has no pointer members (pdf/mcpdf.h:52-75); its vectors are part of the object. The
iterator `_it_los` points into the scratch vector `_los`, and every function that uses it sets it
first (pdf/mcpdf.cpp:80, 93, 116, 136); neither is stored here. The constructor argument is the
number of samples; `dflt` is a default-constructed sample value. -/
def impl (dflt : T) : HeapImpl (Cell K P) (MCPdf K T) (MCPdf K T) Nat (MCPdf.Op K T) where
  make n h := .ok (h, MCPdf.make n dflt)
  clone h o := .ok (h, o.copy)
  call op h o := do
    let (b, o') ← o.step dflt op
    return (b, h, o')
  destroy h _ := .ok h
  load _ o := .ok o

end MCPdfObj

/-! ## `Mixture` -/

namespace Mixture

/-- Ways to change a `Mixture`: a member function, or `modify i g`, a client that changes component
`i` through the pointer returned by `ComponentGet(i)`; `g` is what it does to the component. -/
inductive Call (K P : Type) where
  | op (o : Op K P)
  | modify (i : Nat) (g : P → Outcome P)

/-- A client changes a component through the pointer that `ComponentGet(i)` returns,
pdf/mixture.h:539-544. -/
def modify (m : Mixture K P) (i : Nat) (g : P → Outcome P) : Outcome (Mixture K P) := do
  let c ← m.componentGet i
  let c' ← g c
  return { m with comps := m.comps.set i c' }

/-- Run one change on a mixture as a value. -/
def change (m : Mixture K P) : Call K P → Outcome (Bool × Mixture K P)
  | .op o => m.step o
  | .modify i g => do
    let m' ← m.modify i g
    return (true, m')

end Mixture

/-- Data members of `Mixture<T>` (pdf/mixture.h:50-66): the pointers `_componentWeights` and
`_componentPdfs`, and `_cumWeights` and the dimension. -/
structure MixtureObj (K : Type) where
  dim : Nat
  weightsP : Addr
  compsP : Addr
  cum : List K
  deriving DecidableEq, Repr

namespace MixtureObj

/-- The members with the vector of pointers: what the member functions work on. -/
def members (h : Heap (Cell K P)) (o : MixtureObj K) : Outcome (Mixture K Addr) := do
  let ws ← h.readProbs o.weightsP
  let ps ← h.readPtrs o.compsP
  return { dim := o.dim, comps := ps, weights := ws, cum := o.cum }

/-- The data of the object with all components, read through the pointers. -/
def load (h : Heap (Cell K P)) (o : MixtureObj K) : Outcome (Mixture K P) := do
  let m ← members h o
  let cs ← mapOutcome h.readPdf m.comps
  return { dim := m.dim, comps := cs, weights := m.weights, cum := m.cum }

/-- Write the two vectors back through the object's pointers. -/
def store (h : Heap (Cell K P)) (o : MixtureObj K) (m : Mixture K Addr) :
    Outcome (Heap (Cell K P) × MixtureObj K) := do
  let h1 ← h.write o.weightsP (.probs m.weights)
  let h2 ← h1.write o.compsP (.ptrs m.comps)
  return (h2, { o with cum := m.cum })

/-- A new object with its own vectors and its own components: pdf/mixture.h:203-219 and 230-240
(`new vector`, `new vector`, and `Clone()` for every component). A component is one heap object. -/
def place (h : Heap (Cell K P)) (m : Mixture K P) : Heap (Cell K P) × MixtureObj K :=
  let (h1, wp) := h.alloc (.probs m.weights)
  let (h2, ps) := h1.allocAll (m.comps.map .pdf)
  let (h3, cp) := h2.alloc (.ptrs ps)
  (h3, { dim := m.dim, weightsP := wp, compsP := cp, cum := m.cum })

/-- Constructors: `Mixture(dimension)`, pdf/mixture.h:181-195 (`inl`), and from a vector of
components, pdf/mixture.h:198-223 (`inr`), which stores a clone of each component (line 218). -/
def make (dims : P → Nat) (a : Nat ⊕ List P) (h : Heap (Cell K P)) :
    Outcome (Heap (Cell K P) × MixtureObj K) :=
  match a with
  | .inl dim => .ok (place h (Mixture.make dim))
  | .inr cs => do
    let m ← Mixture.ofComponents dims cs
    return place h m

/-- Copy constructor and `Clone`, pdf/mixture.h:225-244 and 261-265. -/
def clone (h : Heap (Cell K P)) (o : MixtureObj K) : Outcome (Heap (Cell K P) × MixtureObj K) := do
  let m ← load h o
  let c ← m.copy
  return place h c

/-- A member function that changes only the two vectors and `_cumWeights`. -/
def callMembers (f : Mixture K Addr → Outcome (Bool × Mixture K Addr)) (h : Heap (Cell K P))
    (o : MixtureObj K) : Outcome (Bool × Heap (Cell K P) × MixtureObj K) := do
  let m ← members h o
  let (b, m') ← f m
  let (h', o') ← store h o m'
  return (b, h', o')

/-- `DeleteComponent`, pdf/mixture.h:506-530: `delete` of the component (line 518) and removal of
the pointer (line 519). -/
def deleteComponent (i : Nat) (h : Heap (Cell K P)) (o : MixtureObj K) :
    Outcome (Bool × Heap (Cell K P) × MixtureObj K) := do
  let m ← members h o
  m.testNotInit
  cassert (i < m.numComponents)
  let p ← vget m.comps i
  let h1 ← h.free p
  callMembers (fun m => m.deleteComponent i) h1 o

/-- A client changes a component through the pointer that `ComponentGet(i)` returns,
pdf/mixture.h:539-544. -/
def modify (i : Nat) (g : P → Outcome P) (h : Heap (Cell K P)) (o : MixtureObj K) :
    Outcome (Heap (Cell K P)) := do
  let m ← members h o
  let p ← m.componentGet i
  let c ← h.readPdf p
  let c' ← g c
  h.write p (.pdf c')

/-- `AddComponent` (pdf/mixture.h:466-504) stores a pointer to a clone of its argument. -/
def add (f : Addr → Mixture K Addr → Outcome (Bool × Mixture K Addr)) (c : P) (h : Heap (Cell K P))
    (o : MixtureObj K) : Outcome (Bool × Heap (Cell K P) × MixtureObj K) :=
  callMembers (f (h.alloc (.pdf c)).2) (h.alloc (.pdf c)).1 o

/-- Member functions. -/
def callOp (op : Mixture.Op K P) (h : Heap (Cell K P)) (o : MixtureObj K) :
    Outcome (Bool × Heap (Cell K P) × MixtureObj K) :=
  match op with
  | .weightsSet ws => callMembers (fun m => m.weightsSet ws) h o
  | .weightSet i w => callMembers (fun m => m.weightSet i w) h o
  | .add c => add (fun a m => m.addComponent a) c h o
  | .addW c w => add (fun a m => m.addComponentW a w) c h o
  | .delete i => deleteComponent i h o

/-- Any change. -/
def call (c : Mixture.Call K P) (h : Heap (Cell K P)) (o : MixtureObj K) :
    Outcome (Bool × Heap (Cell K P) × MixtureObj K) :=
  match c with
  | .op op => callOp op h o
  | .modify i g => do
    let h' ← modify i g h o
    return (true, h', o)

/-- Destructor, pdf/mixture.h:246-259. -/
def destroy (h : Heap (Cell K P)) (o : MixtureObj K) : Outcome (Heap (Cell K P)) := do
  let m : Mixture K Addr ← members h o
  let h1 ← h.free o.weightsP
  let h2 ← h1.freeAll m.comps
  h2.free o.compsP

/-- The class. `dims` is the dimension of a component. -/
def impl (dims : P → Nat) : HeapImpl (Cell K P) (MixtureObj K) (Mixture K P) (Nat ⊕ List P)
    (Mixture.Call K P) where
  make := make dims
  clone := clone
  call := call
  destroy := destroy
  load := load

end MixtureObj

end BFL
