import Verif.Model.MCPdf

/-!
# Model of the particle smoother

`/repo/orocos_bfl/src/smoother/particlesmoother.cpp`. The member lists `_old_samples`, `_new_samples`
and `_filtered_samples` are overwritten at the start of every update, so only the posterior is state.
-/

namespace BFL

variable {K T : Type} [Field K] [LinearOrder K]

/-- State of a `ParticleSmoother`: the particles of `_post` (the smoothed estimate) and `_timestep`. -/
structure PSmoother (K T : Type) where
  post : MCPdf K T
  timestep : Nat
  deriving DecidableEq

namespace PSmoother

/-- Constructor, particlesmoother.cpp:24-35. -/
def make (dflt : T) (prior : MCPdf K T) : Outcome (PSmoother K T) := do
  let r ← prior.copy.listSetW dflt prior.listGet
  return { post := r.2, timestep := 0 }

/-- The inner loop of particlesmoother.cpp:70-85 for one smoothed particle `y`: `j` is the C++ `j - 1`,
`g` is `gamma_loc`. `density y x` is `sysmodel->ProbabilityGet(y, x, u)` or `ProbabilityGet(y, x)`
(lines 75-80). Returns the row of `prob` and the new `gamma`; a write behind the end of `gamma` is
undefined behaviour. -/
def gammaRow (density : T → T → Outcome K) (y : T) :
    List (WSample K T) → Nat → K → List K → Outcome (List K × List K)
  | [], _, _, gamma => .ok ([], gamma)
  | s :: rest, j, g, gamma => do
    let p ← density y s.value
    let w ← s.weightGet
    let gamma ← vset gamma j (g + w * p)
    let r ← gammaRow density y rest (j + 1) (g + w * p) gamma
    return (p :: r.1, r.2)

/-- The outer loop, particlesmoother.cpp:66-87. -/
def gammaLoop (density : T → T → Outcome K) (filtered : List (WSample K T)) :
    List (WSample K T) → List K → Outcome (List (List K) × List K)
  | [], gamma => .ok ([], gamma)
  | s :: rest, gamma => do
    let r ← gammaRow density s.value filtered 0 0 gamma
    let q ← gammaLoop density filtered rest r.2
    return (r.1 :: q.1, q.2)

/-- `prob(i,j)` with 0-based indices; outside the matrix it is undefined behaviour. -/
def probGet (prob : List (List K)) (i j : Nat) : Outcome K := do
  let row ← vget prob i
  vget row j

/-- The inner loop of particlesmoother.cpp:99-106 for new particle `i`, with `j` the C++ `j - 1`. -/
def deltaLoop (prob : List (List K)) (gamma : List K) (i : Nat) :
    List (WSample K T) → Nat → K → Outcome K
  | [], _, delta => .ok delta
  | s :: rest, j, delta => do
    let g ← vget gamma j
    if g ≠ 0 then do
      let w ← s.weightGet
      let p ← probGet prob i j
      deltaLoop prob gamma i rest (j + 1) (delta + w * p / g)
    else deltaLoop prob gamma i rest (j + 1) delta

/-- Reading `tot_weight`: `none` before it was given a value. -/
def readTotal (tot : Option K) : Outcome K :=
  match tot with
  | some t => .ok t
  | none => .ub

/-- The loop particlesmoother.cpp:95-112 from new particle `i` on: the vector `weight` and
`tot_weight`, which line 93 declares without a value. -/
def weightLoop (prob : List (List K)) (gamma : List K) (old : List (WSample K T)) :
    List (WSample K T) → Nat → Option K → Outcome (List K × Option K)
  | [], _, tot => .ok ([], tot)
  | s :: rest, i, tot => do
    let delta ← deltaLoop prob gamma i old 0 0
    let w ← s.weightGet
    let t ← readTotal tot
    let r ← weightLoop prob gamma old rest (i + 1) (some (t + w * delta))
    return (w * delta :: r.1, r.2)

/-- `_ns_it->WeightSet(weight[i-1]/tot_weight)`, particlesmoother.cpp:117. Dividing by zero gives NaN or
infinity: NaN fails the assertion of `WeightSet`, infinity fails it in the normalisation that
follows. -/
def setWeight (tot : Option K) (e : WSample K T × K) : Outcome (WSample K T) := do
  let t ← readTotal tot
  if t = 0 then .abort else e.1.weightSet (e.2 / t)

/-- `SysUpdate`, particlesmoother.cpp:53-124. `stale` is what the memory of the uninitialised
`tot_weight` holds: `none` takes the read as undefined behaviour, as the C++ standard does; `some v` is
a machine where it happens to hold `v`. -/
def sysUpdate (dflt : T) (stale : Option K) (density : T → T → Outcome K) (filtered : MCPdf K T)
    (f : PSmoother K T) : Outcome (PSmoother K T) := do
  let old := f.post.listGet
  let g ← gammaLoop density filtered.listGet old (List.replicate old.length 0)
  let w ← weightLoop g.1 g.2 old filtered.listGet 0 stale
  let new ← mapOutcome (setWeight w.2) (filtered.listGet.zip w.1)
  let r ← f.post.listSetW dflt new
  return { f with post := r.2 }

/-- `Update` and `UpdateInternal`, backwardfilter.cpp:50-61 and particlesmoother.cpp:44-51. -/
def update (dflt : T) (stale : Option K) (density : T → T → Outcome K) (filtered : MCPdf K T)
    (f : PSmoother K T) : Outcome (Bool × PSmoother K T) := do
  let f' ← f.sysUpdate dflt stale density filtered
  return (true, f')

end PSmoother

end BFL
