import Verif.Props.ParticleFilterSetup
import Mathlib.Tactic.NormNum

/-!
# A concrete particle filter for the examples

States and measurements are natural numbers. The system stays with probability 1/4 and steps by one
with probability 3/4; the proposal does both with probability 1/2; the sensor reports the state with
probability 3/4. `R = Nat`: the parity of the random input decides whether a particle steps.
-/

namespace BFL.Props.Fixture

open Spec MCPdf

/-- Density of the system. -/
def T (x _u y : Nat) : ℚ := if y = x then 1/4 else if y = x + 1 then 3/4 else 0

/-- Density of the proposal. -/
def Q (x _u y : Nat) : ℚ := if y = x then 1/2 else if y = x + 1 then 1/2 else 0

/-- Likelihood without sensor parameter. -/
def L (z x _s : Nat) : ℚ := if z = x then 3/4 else 1/4

/-- Likelihood with sensor parameter: an offset. -/
def LS (z x s : Nat) : ℚ := if z = x + s then 3/4 else 1/4

def draw (r : Nat) (args : List Nat) (_prev : Nat) : Outcome Nat :=
  match args with
  | x :: _ => .ok (x + r % 2)
  | [] => .abort

def sysPdf : CondPdf Nat Nat ℚ :=
  ⟨1, fun args y => match args with | [x] => .ok (T x 0 y) | _ => .abort, fun _ => .abort⟩

def sys : SysModel Nat Nat ℚ := ⟨⟨some sysPdf, some true⟩, draw⟩

def prop : Proposal Nat Nat ℚ :=
  ⟨1, fun args y => match args with | [x] => .ok (Q x 0 y) | _ => .abort, draw⟩

def measPdf : CondPdf Nat Nat ℚ :=
  ⟨1, fun args z => match args with | [x] => .ok (L z x 0) | _ => .abort, fun _ => .abort⟩

def meas : Model Nat Nat ℚ := ⟨some measPdf, some true⟩

def measSPdf : CondPdf Nat Nat ℚ :=
  ⟨2, fun args z => match args with | [x, s] => .ok (LS z x s) | _ => .abort, fun _ => .abort⟩

def measS : Model Nat Nat ℚ := ⟨some measSPdf, some false⟩

/-- Particles 0 and 1. -/
def prior : MCPdf ℚ Nat := ⟨[⟨0, some (1/2)⟩, ⟨1, some (1/2)⟩], [0, 1/2, 1], 1⟩

/-- Freshly constructed filter. -/
def start (period : Nat) (threshold : ℚ) (scheme : Scheme) : ParticleFilter Nat Nat ℚ :=
  ⟨⟨prior, prior.samples, prior.samples, []⟩, 0, 0, decide (period = 0), period, threshold, scheme,
    some prop⟩

def root (_ : Nat) (x : ℚ) : ℚ := x

/-- The second particle steps; every uniform number is 3/4. -/
def noise : Noise Nat ℚ := ⟨fun i => i, fun _ => 3/4, fun _ => 3/4⟩

theorem root_isRoot : IsRoot root := ⟨fun _ _ h0 h1 => ⟨h0, h1⟩, fun _ _ h => h⟩

theorem sys_isTransition : IsTransition sys T := by
  refine ⟨sysPdf, rfl, fun x u y => ⟨?_, rfl⟩⟩
  unfold T; split_ifs <;> norm_num

theorem prop_isProposal : IsProposal prop sys Q := by
  refine ⟨by decide, fun h => ?_, fun x u y => ⟨?_, rfl⟩, fun r x u prev => ⟨_, rfl⟩⟩
  · simp [sys] at h
  · unfold Q; split_ifs <;> norm_num

theorem meas_isLikelihood : IsLikelihood meas L := by
  refine ⟨measPdf, rfl, fun z x s => ⟨?_, rfl⟩⟩
  unfold L; split_ifs <;> norm_num

theorem measS_isLikelihood : IsLikelihood measS LS := by
  refine ⟨measSPdf, rfl, fun z x s => ⟨?_, rfl⟩⟩
  unfold LS; split_ifs <;> norm_num

theorem meas_without : ¬ WithSensor meas := by simp [WithSensor, meas]

theorem measS_with : WithSensor measS := rfl

theorem noise_uniform : Uniforms noise.static ∧ Uniforms noise.dynamic := by
  constructor <;> intro i <;> simp only [noise] <;> norm_num

theorem start_reached (scheme : Scheme) {period : Nat} {threshold : ℚ}
    (h : ParticleFilter.policy period threshold = .ok (decide (period = 0))) :
    Reached Nat 0 root period threshold scheme (start period threshold scheme) 0 := by
  refine .make (prior := prior) (q := some prop) ?_ ?_
  · intro s hs w hw
    simp only [prior, listGet, List.mem_cons, List.not_mem_nil, or_false] at hs
    rcases hs with rfl | rfl <;> simp at hw <;> rw [← hw] <;> norm_num
  · have : (MCPdf.make prior.numSamples 0).listSetW 0 prior.listGet = .ok (true, prior) := by
      decide +kernel
    simp only [ParticleFilter.make, this, Outcome.ok_bind, h]
    rfl

theorem start_holds {period : Nat} {threshold : ℚ} {scheme : Scheme} :
    Holds (start period threshold scheme).postGet [(0, 1/2), (1, 1/2)] := rfl

theorem start_normalised : Normalised ([(0, 1/2), (1, 1/2)] : List (Nat × ℚ)) := by
  refine ⟨?_, by decide +kernel⟩
  intro w hw
  simp at hw
  rw [hw]; norm_num

theorem policy_static : ParticleFilter.policy 1 (0 : ℚ) = .ok (decide (1 = 0)) := by decide +kernel

theorem policy_dynamic : ParticleFilter.policy 0 (2 : ℚ) = .ok (decide (0 = 0)) := by decide +kernel

/-- What a caller sees of an update: result and particles. -/
def observe (x : Outcome (Bool × ParticleFilter Nat Nat ℚ)) :
    Outcome (Bool × List (WSample ℚ Nat)) := do
  let (b, f) ← x
  return (b, f.postGet.listGet)

theorem observe_eq {x : Outcome (Bool × ParticleFilter Nat Nat ℚ)} {b : Bool}
    {l : List (WSample ℚ Nat)} (h : observe x = .ok (b, l)) :
    ∃ f, x = .ok (b, f) ∧ f.postGet.listGet = l := by
  unfold observe at h
  simp only [Outcome.bind_eq_ok, Outcome.pure_eq, Outcome.ok.injEq, Prod.mk.injEq,
    Prod.exists] at h
  obtain ⟨b', f, h1, rfl, h2⟩ := h
  exact ⟨f, h1, h2⟩

end BFL.Props.Fixture
