import Verif.Model.Heap
import Verif.Model.HistogramFilter
import Verif.Model.MixtureParticleFilter
import Verif.Model.SRKalman

/-!
# Filters and the pdf objects they point to

`Filter` keeps two pointers, `_prior` and `_post` (filter/filter.h:81-95). The value models of the
filters (`HistogramFilter`, `KF`, `SRKF`, `ParticleFilter`, `MixtureParticleFilter`) contain the
posterior itself; here it lives on a heap, so that `Reset` can make it the client's object.
-/

namespace BFL

/-- A pdf object with its storage: created by `new`, or an automatic (stack) or static object, which
must not be deleted. -/
structure PdfCell (P : Type) where
  val : P
  dynamic : Bool
  deriving DecidableEq, Repr

/-- `delete p` for a pointer to a pdf. -/
def deletePdf {P : Type} (h : Heap (PdfCell P)) (a : Addr) : Outcome (Heap (PdfCell P)) := do
  let c ← h.read a
  if c.dynamic then h.free a else .ub

/-- The end of the client's own object: `delete` if it was created by `new`, otherwise the end of its
scope. -/
def endOfLife {P : Type} (h : Heap (PdfCell P)) (a : Addr) : Outcome (Heap (PdfCell P)) := h.free a

/-- A filter class as a value model: constructor, the posterior among the members, and `step`, the work of
`Update`.
`withPost f p` are the members of `f` working on the posterior `p`. -/
structure FilterClass (P F C : Type) where
  make : P → Outcome F
  post : F → P
  withPost : F → P → Outcome F
  step : F → C → Outcome (Bool × F)

/-- A filter object: the two pointers and the other members (`own`; the posterior stored inside `own`
is not used). -/
structure FilterObj (F : Type) where
  prior : Addr
  post : Addr
  own : F

namespace FilterClass

variable {P F C : Type} (X : FilterClass P F C)

/-- Constructor with the address of the prior: filter.cpp:25-29 stores the pointer, the derived
class creates the posterior with `new` (kalmanfilter.cpp:36, histogramfilter.cpp:28,
particlefilter.cpp:44-50, mixtureParticleFilter.cpp:52). -/
def construct (h : Heap (PdfCell P)) (a : Addr) : Outcome (Heap (PdfCell P) × FilterObj F) := do
  let p ← h.read a
  let f ← X.make p.val
  return ((h.alloc ⟨X.post f, true⟩).1, ⟨a, (h.alloc ⟨X.post f, true⟩).2, f⟩)

/-- The members together with the posterior that `_post` points to. -/
def load (h : Heap (PdfCell P)) (o : FilterObj F) : Outcome F := do
  let c ← h.read o.post
  X.withPost o.own c.val

/-- `PostGet`, filter.cpp:125-129, and a look at the object. -/
def postGet (h : Heap (PdfCell P)) (o : FilterObj F) : Outcome P := do
  let c ← h.read o.post
  return c.val

/-- `Update`, filter.cpp:54-123: the posterior is changed through `_post`. -/
def update (h : Heap (PdfCell P)) (o : FilterObj F) (c : C) :
    Outcome (Bool × Heap (PdfCell P) × FilterObj F) := do
  let cell ← h.read o.post
  let f ← X.withPost o.own cell.val
  let (b, f') ← X.step f c
  let h ← h.write o.post { cell with val := X.post f' }
  return (b, h, { o with own := f' })

/-- A sequence of `Update` calls; the Boolean says whether all returned `true`. -/
def run (h : Heap (PdfCell P)) (o : FilterObj F) : List C →
    Outcome (Bool × Heap (PdfCell P) × FilterObj F)
  | [] => .ok (true, h, o)
  | c :: cs => do
    let (b, h, o) ← X.update h o c
    let (b', h, o) ← run h o cs
    return (b && b', h, o)

/-- What a client sees of a sequence of updates: the return values and the posterior. -/
def trace (h : Heap (PdfCell P)) (o : FilterObj F) (cs : List C) : Outcome (Bool × P) := do
  let (b, h, o) ← X.run h o cs
  let p ← postGet h o
  return (b, p)

end FilterClass

/-- `Filter::Reset`, filter.cpp:40-46: both pointers become the argument; the former posterior is
neither deleted nor kept, and `_timestep` stays as it is. Used by every filter class. -/
def FilterObj.reset {F : Type} (o : FilterObj F) (a : Addr) : FilterObj F :=
  { o with prior := a, post := a }

/-- Destructors: kalmanfilter.cpp:39-42, histogramfilter.cpp:34-38 and, for a filter that was
constructed without a posterior of the client (`_created_post`), particlefilter.cpp:115-120 and
mixtureParticleFilter.cpp:135-140. -/
def FilterObj.destroy {P F : Type} (h : Heap (PdfCell P)) (o : FilterObj F) :
    Outcome (Heap (PdfCell P)) := deletePdf h o.post

/-- `MixtureParticleFilter::Reset`, mixtureParticleFilter.cpp:153-161. `copy` is `Clone` of the prior.
The resized vectors `_newMixtureWeights` and `_sumWeights` are written before they are read. The
function takes a `Mixture*`; a call with a `Pdf*` goes to `Filter::Reset`. -/
def FilterObj.resetMixture {P F : Type} (copy : P → Outcome P) (h : Heap (PdfCell P))
    (o : FilterObj F) (a : Addr) : Outcome (Heap (PdfCell P) × FilterObj F) := do
  let h ← deletePdf h o.post
  let p ← h.read a
  let q ← copy p.val
  return ((h.alloc ⟨q, true⟩).1, { o with prior := a, post := (h.alloc ⟨q, true⟩).2 })

/-! ## The filter classes -/

section Classes

variable {R SV MV Z K : Type} [Field K] [LinearOrder K] {n m : Nat} {U Sens : Type}

/-- `HistogramFilter`. -/
def histogramClass : FilterClass (DiscretePdf K) (HistogramFilter K) (HistogramFilter.Call Z K) where
  make := HistogramFilter.make
  post f := f.post
  withPost f p := .ok { f with post := p }
  step f c := f.update c

/-- Mean and covariance of a `Gaussian`. -/
abbrev MeanCov (K : Type) (n : Nat) := (Fin n → K) × Matrix (Fin n) (Fin n) K

/-- An `Update` call of the Kalman filters. -/
structure KF.Call (K : Type) (n m : Nat) (U : Type) where
  sys : Option (AnalyticModel K n n U × Option U)
  meas : Option (AnalyticModel K n m U × (Fin m → K) × Option U)

/-- `ExtendedKalmanFilter` and `IteratedExtendedKalmanFilter`. -/
def kalmanClass (be : Backend) (kind : KF.Kind K n) :
    FilterClass (MeanCov K n) (KF K n) (KF.Call K n m U) where
  make p := .ok (KF.make p.1 p.2)
  post f := (f.mu, f.sigma)
  withPost f p := .ok { f with mu := p.1, sigma := p.2 }
  step f c := f.update be kind c.sys c.meas

/-- An `Update` call of the square root filter. -/
structure SRKF.Call (K : Type) (n m : Nat) (U Sens : Type) where
  sys : Option (AnalyticModel K n n U × Option U)
  meas : Option (ImplicitModel K n m Sens × (Fin m → K) × Sens)

/-- System half of `UpdateInternal`, kalmanfilter.cpp:154-157. -/
def SRKF.sysPart (be : Backend) (sqrt : K → K) (eps : K) (f : SRKF K n) :
    Option (AnalyticModel K n n U × Option U) → Outcome (SRKF K n)
  | none => .ok f
  | some (sys, u) => f.sysUpdate be sqrt eps sys u

/-- Measurement half of `UpdateInternal`, kalmanfilter.cpp:158-161. -/
def SRKF.measPart (be : Backend) (sqrt : K → K) (eps : K) (nr : Nat) (f : SRKF K n) :
    Option (ImplicitModel K n m Sens × (Fin m → K) × Sens) → Outcome (SRKF K n)
  | none => .ok f
  | some (meas, z, s) => f.measUpdate be sqrt eps nr meas z s

/-- `UpdateInternal`, kalmanfilter.cpp:148-163. -/
def SRKF.update (be : Backend) (sqrt : K → K) (eps : K) (nr : Nat) (f : SRKF K n)
    (c : SRKF.Call K n m U Sens) : Outcome (Bool × SRKF K n) := do
  let f ← f.sysPart be sqrt eps c.sys
  let f ← f.measPart be sqrt eps nr c.meas
  return (true, f)

/-- `SRIteratedExtendedKalmanFilter`: the factor `JP` is a member of the filter, not of the
posterior. -/
def srKalmanClass (be : Backend) (sqrt : K → K) (eps : K) (nr : Nat) :
    FilterClass (MeanCov K n) (SRKF K n) (SRKF.Call K n m U Sens) where
  make p := .ok (SRKF.make sqrt eps p.1 p.2)
  post f := (f.base.mu, f.base.sigma)
  withPost f p := .ok { f with base := { f.base with mu := p.1, sigma := p.2 } }
  step f c := f.update be sqrt eps nr c

/-- `ParticleFilter` with a given proposal and resampling policy. -/
def particleClass (dflt : SV) (root : Nat → K → K) (q : Option (Proposal R SV K)) (period : Nat)
    (threshold : K) (scheme : Scheme) :
    FilterClass (MCPdf K SV) (ParticleFilter R SV K) (Noise R K × UpdateCall R SV MV K) where
  make p := ParticleFilter.make dflt p q period threshold scheme
  post f := f.cloud.post
  withPost f p := .ok { f with cloud := { f.cloud with post := p } }
  step f c := f.update dflt root c.1 c.2

/-- The components of a mixture posterior put into the buffers of the filter. A posterior with more
components than there are buffers (possible only after `Reset`, which does not resize
`_old_samplesVec`, `_new_samplesVec` and `_new_samples_unweightedVec`) leads to accesses outside the
vectors. Simplification: this is counted as undefined at the start of the update. -/
def MixtureParticleFilter.withPost (f : MixtureParticleFilter R SV K) (p : Mixture K (MCPdf K SV)) :
    Outcome (MixtureParticleFilter R SV K) :=
  if p.comps.length ≤ f.mix.comps.length then
    .ok { f with mix :=
      { dim := p.dim, weights := p.weights, cum := p.cum,
        comps := List.zipWith (fun (c : Cloud K SV) q => { c with post := q }) f.mix.comps p.comps } }
  else .ub

/-- `MixtureParticleFilter` with a given proposal and resampling policy. -/
def mixtureClass (dflt : SV) (root : Nat → K → K) (q : Option (Proposal R SV K)) (period : Nat)
    (threshold : K) (scheme : Scheme) :
    FilterClass (Mixture K (MCPdf K SV)) (MixtureParticleFilter R SV K)
      ((Nat → Noise R K) × UpdateCall R SV MV K) where
  make p := MixtureParticleFilter.make dflt p q period threshold scheme
  post f := { dim := f.mix.dim, comps := f.mix.comps.map Cloud.post, weights := f.mix.weights,
              cum := f.mix.cum }
  withPost f p := f.withPost p
  step f c := f.update dflt root c.1 c.2

end Classes

end BFL
