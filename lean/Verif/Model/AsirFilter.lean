import Verif.Model.ParticleFilter

/-!
# Model of `BFL::ASIRFilter` (`/repo/orocos_bfl/src/filter/asirfilter.h`, `asirfilter.cpp`)

The class is installed as a template. `UpdateInternal` is declared `void`, unlike the function of the
base class, and ends with a call of `ResampleStep`, which is declared nowhere, so that no program can
instantiate it as it stands. Modelled is everything that `UpdateInternal` does before that call
(asirfilter.cpp:47-150).

The look-aheads are kept in a `static` vector inside the function (asirfilter.cpp:64): there is one
vector for all filters of the same type, it gets its size from the first update in the process, and it
keeps its contents from one update to the next.
-/

namespace BFL

/-- A system model together with `ExpectedValueGet` of its pdf as a function of the conditional
arguments (asirfilter.cpp:103). -/
structure AuxSystem (R SV K : Type) where
  sys : SysModel R SV K
  mean : List SV → Outcome SV

/-- Arguments of `Update`; a missing model is a NULL pointer. -/
structure AuxCall (R SV MV K : Type) where
  sys : Option (AuxSystem R SV K)
  u : SV
  meas : Option (Model SV MV K)
  z : MV
  s : SV

/-- An `ASIRFilter` together with the static vector `mu`; `none` before the first update in the
process. -/
structure AsirFilter (R SV K : Type) where
  pf : ParticleFilter R SV K
  mu : Option (List SV)

namespace AsirFilter

variable {R SV MV K : Type} [Field K] [LinearOrder K]

/-- Constructor, asirfilter.cpp:25-40: a particle filter without a proposal. The static vector is not
touched. -/
def make (dflt : SV) (mu : Option (List SV)) (prior : MCPdf K SV) (period : Nat) (threshold : K)
    (scheme : Scheme) : Outcome (AsirFilter R SV K) := do
  let pf ← ParticleFilter.make dflt prior none period threshold scheme
  return { pf := pf, mu := mu }

/-- Dereference of `measmodel`. -/
def deref (mm : Option (Model SV MV K)) : Outcome (Model SV MV K) :=
  match mm with
  | some mm => .ok mm
  | none => .ub

/-- Expected next value of a particle at `x`, asirfilter.cpp:80-103. The proposal is the system pdf.
`_proposal_depends_on_meas` is false (asirfilter.cpp:39). -/
def lookAhead (q : Option (Proposal R SV K)) (a : AuxSystem R SV K) (u x : SV) : Outcome SV := do
  let q ← Cloud.deref q
  let without ← a.sys.model.withoutInputs
  let args ← Cloud.propArgs q without u x
  a.mean args

/-- The loop asirfilter.cpp:74-113. `mus` is what is left of the static vector; writing past its end is
undefined. Returned are the particles with their new weights and the vector. -/
def lookLoop (q : Option (Proposal R SV K)) (a : AuxSystem R SV K) (u : SV)
    (mm : Option (Model SV MV K)) (z : MV) (s : SV) :
    List (WSample K SV) → List SV → Outcome (List (WSample K SV) × List SV)
  | [], mus => .ok ([], mus)
  | o :: os, mus => do
    let m ← lookAhead q a u o.value
    match mus with
    | [] => .ub
    | _ :: mus => do
      let mm' ← deref mm
      let g ← Cloud.likelihood mm' z s m
      let w ← o.weightGet
      let o' ← o.weightSet (w * g)
      let (rest, left) ← lookLoop q a u mm z s os mus
      return (o' :: rest, m :: left)

/-- Steps 1 to 3, asirfilter.cpp:71-122. The results of `ListOfSamplesUpdate`, `Resample` and
`ProposalStepInternal` are not looked at. -/
def sysSteps (dflt : SV) (root : Nat → K → K) (us : Nat → K) (rs : Nat → R) (a : AuxSystem R SV K)
    (u : SV) (mm : Option (Model SV MV K)) (z : MV) (s : SV) (f : ParticleFilter R SV K)
    (mu : List SV) : Outcome (ParticleFilter R SV K × List SV) := do
  let (old, mu) ← lookLoop f.proposal a u mm z s f.cloud.post.listGet mu
  let (_, post) ← f.cloud.post.listUpdateW old
  let (_, cloud) ← Cloud.resample dflt root f.scheme us { f.cloud with post := post, old := old }
  let (_, f) ← ParticleFilter.proposalStep a.sys u rs { f with cloud := cloud }
  return (f, mu)

/-- `weightfactor` of a particle at `y` beside the entry `m` of the static vector,
asirfilter.cpp:135-145. -/
def auxFactor (mm : Model SV MV K) (z : MV) (s m y : SV) : Outcome K := do
  let d ← Cloud.likelihood mm z s m
  if d ≠ 0 then do
    let l ← Cloud.likelihood mm z s y
    divProb l d
  else return 0

/-- The loop asirfilter.cpp:130-148: particles and static vector are read side by side, from their
beginnings. -/
def weightLoop (f : SV → SV → Outcome K) :
    List SV → List (WSample K SV) → Outcome (List (WSample K SV))
  | _, [] => .ok []
  | mus, n :: ns =>
    match mus with
    | [] => .ub
    | m :: mus => do
      let g ← f m n.value
      let w ← n.weightGet
      let n' ← n.weightSet (w * g)
      let rest ← weightLoop f mus ns
      return n' :: rest

/-- Step 4, asirfilter.cpp:125-150. -/
def measSteps (mm : Model SV MV K) (z : MV) (s : SV) (f : ParticleFilter R SV K) (mu : List SV) :
    Outcome (ParticleFilter R SV K) := do
  let new ← weightLoop (auxFactor mm z s) mu f.cloud.post.listGet
  let (_, post) ← f.cloud.post.listUpdateW new
  return { f with cloud := { f.cloud with post := post, new := new } }

/-- `if (sysmodel != NULL)`: asirfilter.cpp:54-62 and 71-122. -/
def sysPart (dflt : SV) (root : Nat → K → K) (noise : Noise R K) (c : AuxCall R SV MV K)
    (f : ParticleFilter R SV K) (mu : List SV) : Outcome (ParticleFilter R SV K × List SV) :=
  match c.sys with
  | none => .ok ({ f with cloud := { f.cloud with old := f.cloud.post.listGet } }, mu)
  | some a => sysSteps dflt root noise.static noise.prop a c.u c.meas c.z c.s
      { f with proposal := a.sys.proposal } mu

/-- `if (measmodel != NULL)`: asirfilter.cpp:125-150. -/
def measPart (c : AuxCall R SV MV K) (f : ParticleFilter R SV K) (mu : List SV) :
    Outcome (ParticleFilter R SV K) :=
  match c.meas with
  | none => .ok f
  | some mm => measSteps mm c.z c.s f mu

/-- `UpdateInternal`, asirfilter.cpp:47-150, without the call of `ResampleStep` in line 153. -/
def update (dflt : SV) (root : Nat → K → K) (noise : Noise R K) (c : AuxCall R SV MV K)
    (a : AsirFilter R SV K) : Outcome (AsirFilter R SV K) := do
  let mu := a.mu.getD (List.replicate a.pf.cloud.post.numSamples dflt)
  let (f, mu) ← sysPart dflt root noise c a.pf mu
  let f ← measPart c f mu
  return { pf := f, mu := some mu }

end AsirFilter

end BFL
