import Verif.Model.ObjectHeap
import Verif.Model.FilterReset
import Verif.Model.RauchTungStriebel

/-!
# Copies of filters

A client program that keeps several filters in variables, constructs, copies, assigns, updates and
destroys them. The posteriors are on a heap. All files are under `/repo/orocos_bfl/src`.

`KalmanFilter` and its descendants, `HistogramFilter`, `RauchTungStriebel` and `ParticleSmoother`
declare no copy constructor and no assignment operator, so that the compiler writes both. The copy
constructors of `ParticleFilter` (particlefilter.cpp:122-130) and `MixtureParticleFilter`
(mixtureParticleFilter.cpp:143-151) do not compile when they are used; the assignment operators of
these classes are implicit.
-/

namespace BFL

/-- A filter variable: the two pointers, without a value as long as nothing was stored in them, and
the other members. -/
structure FilterVar (F : Type) where
  prior : Option Addr
  post : Option Addr
  own : F
  deriving DecidableEq, Repr

namespace FilterVar

variable {F : Type}

/-- A constructed filter. -/
def ofObj (o : FilterObj F) : FilterVar F := ⟨some o.prior, some o.post, o.own⟩

/-- The filter for an operation that uses `_post`. -/
def toObj (v : FilterVar F) : Outcome (FilterObj F) := do
  let p ← readMember v.post
  return ⟨v.prior.getD p, p, v.own⟩

end FilterVar

namespace FilterClass

variable {P F C : Type} (X : FilterClass P F C)

/-- The client creates a prior with `new` and constructs a filter with it. The prior is not used
afterwards. -/
def newVar (p : P) (h : Heap (PdfCell P)) : Outcome (Heap (PdfCell P) × FilterVar F) := do
  let (h, o) ← X.construct (h.alloc ⟨p, true⟩).1 (h.alloc ⟨p, true⟩).2
  return (h, .ofObj o)

/-- `Update` of a filter variable, filter.cpp:54-123 and backwardfilter.cpp:50-61. -/
def updateVar (c : C) (h : Heap (PdfCell P)) (v : FilterVar F) :
    Outcome (Bool × Heap (PdfCell P) × FilterVar F) := do
  let o ← v.toObj
  let (b, h, o) ← X.update h o c
  return (b, h, { v with own := o.own })

/-- Destructor: `delete _post`. -/
def destroyVar (h : Heap (PdfCell P)) (v : FilterVar F) : Outcome (Heap (PdfCell P)) := do
  let o ← v.toObj
  o.destroy h

/-- All that can be read from a filter: its members with the posterior that `PostGet` points to. -/
def loadVar (h : Heap (PdfCell P)) (v : FilterVar F) : Outcome F := do
  let o ← v.toObj
  X.load h o

/-- Copy constructor `F g(f)`. The implicit copy constructor of the derived class calls
`Filter(const Filter&)`, filter.cpp:34-38 (`BackwardFilter(const BackwardFilter&)`,
backwardfilter.cpp:33-35), whose body is empty and which initialises no member: `_prior` and `_post`
have no value. The other members are copied. Simplification: `_timestep`, which also has no value in
the copy, is copied here; it is read by nothing before `_post` is. -/
def copyConstruct (h : Heap (PdfCell P)) (v : FilterVar F) : Outcome (Heap (PdfCell P) × FilterVar F) :=
  .ok (h, ⟨none, none, v.own⟩)

/-- A second filter constructed with the posterior of the first, `F g(f.PostGet())`. -/
def fork (h : Heap (PdfCell P)) (v : FilterVar F) : Outcome (Heap (PdfCell P) × FilterVar F) := do
  let o ← v.toObj
  let (h, g) ← X.construct h o.post
  return (h, .ofObj g)

/-- Client programs in which `clone` is the copy constructor. -/
def copyImpl : HeapImpl (PdfCell P) (FilterVar F) F P C where
  make := X.newVar
  clone := copyConstruct
  call := X.updateVar
  destroy := destroyVar
  load := X.loadVar

/-- Client programs in which `clone` is the construction of a filter from the posterior of another. -/
def forkImpl : HeapImpl (PdfCell P) (FilterVar F) F P C where
  make := X.newVar
  clone := X.fork
  call := X.updateVar
  destroy := destroyVar
  load := X.loadVar

end FilterClass

section Classes

variable {K : Type} [Field K] [LinearOrder K] {n : Nat} {U : Type}

/-- An `Update` call of a smoother: system model, input, mean and covariance of `filtered_post`. -/
structure RTS.Call (K : Type) (n : Nat) (U : Type) where
  sys : AnalyticModel K n n U
  u : Option U
  filtered : (Fin n → K) × Matrix (Fin n) (Fin n) K

/-- `RauchTungStriebel`, rauchtungstriebel.cpp. `Reset`, backwardfilter.cpp:37-42, and the destructor,
rauchtungstriebel.cpp:45-48, are those of the forward filters. The smoother reads everything from
`filtered_post` before it writes to `_post`, so `filtered_post` may be the same object. -/
def rtsClass (be : Backend) : FilterClass (MeanCov K n) (RTS K n) (RTS.Call K n U) where
  make p := .ok (RTS.make p.1 p.2)
  post f := (f.mu, f.sigma)
  withPost f p := .ok { f with mu := p.1, sigma := p.2 }
  step f c := f.update be c.sys c.u c.filtered.1 c.filtered.2

end Classes

end BFL
