import Verif.Props.StateMapMixture

/-!
# C108: the same problem in metres and in centimetres
-/

namespace BFL.Props

open Spec

namespace CmFixture

/-- Metres to centimetres, with another origin. -/
def toCm (x : ℚ) : ℚ := 100 * x + 7

/-- Uniform density of half width `w` around the first argument. -/
def box (w : ℚ) (args : List ℚ) (y : ℚ) : Outcome ℚ :=
  match args with
  | x :: _ => .ok (if x - w ≤ y ∧ y ≤ x + w then 1 / (2 * w) else 0)
  | [] => .ub

/-- The draw moves the state by the random number times the unit `k`. -/
def shift (k : ℚ) (r : ℚ) (args : List ℚ) (_prev : ℚ) : Outcome ℚ :=
  match args with
  | x :: _ => .ok (x + k * r)
  | [] => .ub

def sys (k : ℚ) : SysModel ℚ ℚ ℚ := ⟨⟨some ⟨1, box k, fun _ => .ub⟩, some true⟩, shift k⟩

def prop (k : ℚ) : Proposal ℚ ℚ ℚ := ⟨1, box (2 * k), shift k⟩

/-- The sensor reads in metres in both descriptions, but the second user has not normalised its
density. -/
def meas : Model ℚ ℚ ℚ :=
  ⟨some ⟨1, fun args z => match args with
    | x :: _ => .ok (if x - 1 ≤ z ∧ z ≤ x + 1 then 1 / 2 else 1 / 10)
    | [] => .ub, fun _ => .ub⟩, some true⟩

def meas' : Model ℚ ℚ ℚ :=
  ⟨some ⟨1, fun args z => match args with
    | x :: _ => .ok (if (x - 7) / 100 - 1 ≤ z ∧ z ≤ (x - 7) / 100 + 1 then 5 else 1)
    | [] => .ub, fun _ => .ub⟩, some true⟩

def call : UpdateCall ℚ ℚ ℚ ℚ := ⟨some (sys 1), 0, some meas, 2, 0⟩

def call' : UpdateCall ℚ ℚ ℚ ℚ := ⟨some (sys 100), 0, some meas', 2, 0⟩

def noise : Noise ℚ ℚ := ⟨fun i => if i = 0 then -1 / 2 else 3 / 4, fun _ => 3 / 4, fun _ => 3 / 4⟩

def history : List (Noise ℚ ℚ × UpdateCall ℚ ℚ ℚ ℚ) := [(noise, call), (noise, call)]

def history' : List (Noise ℚ ℚ × UpdateCall ℚ ℚ ℚ ℚ) := [(noise, call'), (noise, call')]

def prior : MCPdf ℚ ℚ := ⟨[⟨0, some (1 / 2)⟩, ⟨1, some (1 / 2)⟩], [0, 1 / 2, 1], 1⟩

theorem box_same (w : ℚ) (hw : 0 < w) (u u' : ℚ) :
    SameDensity toCm u u' (fun y y' => y' = toCm y) (1 / 100) (box w) (box (100 * w)) := by
  intro args args' ha y _ hy
  subst hy
  have key : ∀ x : ℚ, Same (fun a b => b = 1 / 100 * a) (.ok (if x - w ≤ y ∧ y ≤ x + w then 1 / (2 * w) else 0))
      (.ok (if toCm x - 100 * w ≤ toCm y ∧ toCm y ≤ toCm x + 100 * w then 1 / (2 * (100 * w)) else 0)) := by
    intro x
    have : (toCm x - 100 * w ≤ toCm y ∧ toCm y ≤ toCm x + 100 * w) ↔ (x - w ≤ y ∧ y ≤ x + w) := by
      unfold toCm
      constructor <;> rintro ⟨h1, h2⟩ <;> constructor <;> linarith
    simp only [this]
    refine Same.ok ?_
    split
    · field_simp
    · simp
  cases ha with
  | one x => exact key x
  | two x => exact key x

theorem shift_same (u u' : ℚ) : SameDraw toCm 0 0 u u' (shift 1) (shift 100) := by
  intro r args args' ha prev prev' _
  cases ha <;> · refine Same.ok ?_; simp only [toCm]; ring

theorem sys_same (u u' : ℚ) : SameSystem toCm 0 0 (1 / 100) u u' (sys 1) (sys 100) :=
  ⟨⟨rfl, .some ⟨rfl, by simpa using box_same 1 one_pos u u'⟩⟩, shift_same u u'⟩

theorem prop_same (u u' : ℚ) : SameProposal toCm 0 0 (1 / 100) u u' (prop 1) (prop 100) :=
  ⟨rfl, by
    have := box_same 2 (by norm_num) u u'
    have e : (2 : ℚ) * 100 = 100 * 2 := by norm_num
    simpa [prop, e] using this, shift_same u u'⟩

theorem meas_same (u u' z : ℚ) : SameModel toCm u u' (fun a b => a = z ∧ b = z) 10 meas meas' := by
  refine ⟨rfl, .some ⟨rfl, ?_⟩⟩
  rintro args args' ha _ _ ⟨rfl, rfl⟩
  have key : ∀ x y : ℚ, Same (fun a b => b = 10 * a) (.ok (if x - 1 ≤ y ∧ y ≤ x + 1 then (1 : ℚ) / 2 else 1 / 10))
      (.ok (if (toCm x - 7) / 100 - 1 ≤ y ∧ y ≤ (toCm x - 7) / 100 + 1 then 5 else 1)) := by
    intro x y
    have : (toCm x - 7) / 100 = x := by unfold toCm; ring
    rw [this]
    refine Same.ok ?_
    split <;> norm_num
  cases ha with
  | one x => exact key x _
  | two x => exact key x _

theorem call_same : SameCall toCm 0 0 (1 / 100) call call' :=
  ⟨.some (sys_same _ _), 10, by norm_num, .some (meas_same _ _ _)⟩

theorem history_same : SameHistory toCm 0 0 (1 / 100) history history' :=
  .cons ⟨rfl, call_same⟩ (.cons ⟨rfl, call_same⟩ .nil)

end CmFixture

/-- The run of the example in metres, and the one in centimetres: the same weights. -/
example :
    Same (fun x y => y.1 = x.1 ∧ y.2.postGet = movedPdf CmFixture.toCm x.2.postGet)
      (ParticleFilter.make 0 CmFixture.prior (some (CmFixture.prop 1)) 0 (3 / 2) .multinomial >>= fun f =>
        f.run (ParticleFilter.update 0 (fun _ x => x)) CmFixture.history)
      (ParticleFilter.make 0 (movedPdf CmFixture.toCm CmFixture.prior) (some (CmFixture.prop 100)) 0 (3 / 2)
        .multinomial >>= fun f => f.run (ParticleFilter.update 0 (fun _ x => x)) CmFixture.history') :=
  C108_particle CmFixture.toCm 0 0 (1 / 100) (by norm_num) _ _ _ _
    (by intro s hs w hw; simp [CmFixture.prior] at hs; rcases hs with rfl | rfl <;> cases hw <;> norm_num)
    _ _ _ _ _ CmFixture.history_same
    (.cons (.some (CmFixture.prop_same _ _)) (.cons (.some (CmFixture.prop_same _ _)) .nil))

/-- Both runs return: the first update resamples, the second does not. -/
example : (do
    let f ← ParticleFilter.make 0 CmFixture.prior (some (CmFixture.prop 1)) 0 (3 / 2) .multinomial
    let x ← f.run (ParticleFilter.update 0 (fun _ x => x)) CmFixture.history
    return (x.1, x.2.postGet.samples) : Outcome (Bool × List (WSample ℚ ℚ)))
      = .ok (true, [⟨5 / 4, some (1 / 2)⟩, ⟨5 / 2, some (1 / 2)⟩]) ∧
    (do
    let f ← ParticleFilter.make 0 (movedPdf CmFixture.toCm CmFixture.prior) (some (CmFixture.prop 100)) 0 (3 / 2)
      .multinomial
    let x ← f.run (ParticleFilter.update 0 (fun _ x => x)) CmFixture.history'
    return (x.1, x.2.postGet.samples) : Outcome (Bool × List (WSample ℚ ℚ)))
      = .ok (true, [⟨132, some (1 / 2)⟩, ⟨257, some (1 / 2)⟩]) := by
  constructor <;> decide +kernel

example :
    Same (fun x y => y.1 = x.1 ∧ y.2.postGet = movedPdf CmFixture.toCm x.2.postGet)
      (ParticleFilter.make 0 CmFixture.prior none 1 0 .multinomial >>= fun f =>
        f.run (ParticleFilter.bootUpdate 0 (fun _ x => x)) CmFixture.history)
      (ParticleFilter.make 0 (movedPdf CmFixture.toCm CmFixture.prior) none 1 0
        .multinomial >>= fun f => f.run (ParticleFilter.bootUpdate 0 (fun _ x => x)) CmFixture.history') :=
  C108_bootstrap CmFixture.toCm 0 0 (1 / 100) (by norm_num) _ _
    (by intro s hs w hw; simp [CmFixture.prior] at hs; rcases hs with rfl | rfl <;> cases hw <;> norm_num)
    _ _ _ _ _ CmFixture.history_same

namespace CmFixture

/-- Two components with weights `1/4` and `3/4`. -/
def mixPrior : Mixture ℚ (MCPdf ℚ ℚ) :=
  ⟨1, [prior, ⟨[⟨2, some (1 / 3)⟩, ⟨3, some (2 / 3)⟩], [0, 1 / 3, 1], 1⟩], [1 / 4, 3 / 4], [0, 1 / 4, 1]⟩

def mixHistory : List ((Nat → Noise ℚ ℚ) × UpdateCall ℚ ℚ ℚ ℚ) := [(fun _ => noise, call)]

def mixHistory' : List ((Nat → Noise ℚ ℚ) × UpdateCall ℚ ℚ ℚ ℚ) := [(fun _ => noise, call')]

theorem mixHistory_same : SameHistory toCm 0 0 (1 / 100) mixHistory mixHistory' :=
  .cons ⟨rfl, call_same⟩ .nil

end CmFixture

example :
    Same (fun x y => y.1 = x.1 ∧ mixPosterior y.2 = movedMix CmFixture.toCm (mixPosterior x.2))
      (MixtureParticleFilter.make 0 CmFixture.mixPrior (some (CmFixture.prop 1)) 0 1 .multinomial >>= fun f =>
        f.run (MixtureParticleFilter.update 0 (fun _ x => x)) CmFixture.mixHistory)
      (MixtureParticleFilter.make 0 (movedMix CmFixture.toCm CmFixture.mixPrior) (some (CmFixture.prop 100)) 0 1
        .multinomial >>= fun f => f.run (MixtureParticleFilter.update 0 (fun _ x => x)) CmFixture.mixHistory') :=
  C108_mixture CmFixture.toCm 0 0 (1 / 100) (by norm_num) _ _ _ _ _ _ _ _ _ CmFixture.mixHistory_same
    (.cons (.some (CmFixture.prop_same _ _)) .nil)

example :
    Same (fun x y => y.1 = x.1 ∧ mixPosterior y.2 = movedMix CmFixture.toCm (mixPosterior x.2))
      (MixtureParticleFilter.make 0 CmFixture.mixPrior none 0 1 .multinomial >>= fun f =>
        f.run (MixtureParticleFilter.bootUpdate 0 (fun _ x => x)) CmFixture.mixHistory)
      (MixtureParticleFilter.make 0 (movedMix CmFixture.toCm CmFixture.mixPrior) none 0 1
        .multinomial >>= fun f => f.run (MixtureParticleFilter.bootUpdate 0 (fun _ x => x)) CmFixture.mixHistory') :=
  C108_mixture_bootstrap CmFixture.toCm 0 0 (1 / 100) (by norm_num) _ _ _ _ _ _ _ CmFixture.mixHistory_same

/-- The component weights of the example are the same in both descriptions. -/
example : (do
    let f ← MixtureParticleFilter.make 0 CmFixture.mixPrior (some (CmFixture.prop 1)) 0 1 .multinomial
    let x ← f.run (MixtureParticleFilter.update 0 (fun _ x => x)) CmFixture.mixHistory
    return (x.1, (mixPosterior x.2).weights) : Outcome (Bool × List ℚ))
    = (do
    let f ← MixtureParticleFilter.make 0 (movedMix CmFixture.toCm CmFixture.mixPrior) (some (CmFixture.prop 100))
      0 1 .multinomial
    let x ← f.run (MixtureParticleFilter.update 0 (fun _ x => x)) CmFixture.mixHistory'
    return (x.1, (mixPosterior x.2).weights) : Outcome (Bool × List ℚ)) := by
  decide +kernel

/-- Mean and covariance of two particles, moved to other units and axes. -/
example : ∃ m C, (⟨[⟨![0, 1], some (1 / 4)⟩, ⟨![2, 3], some (3 / 4)⟩], [0, 1 / 4, 1], 1⟩ :
      MCPdf ℚ (Fin 2 → ℚ)).meanGet = .ok m ∧
    (⟨[⟨![0, 1], some (1 / 4)⟩, ⟨![2, 3], some (3 / 4)⟩], [0, 1 / 4, 1], 1⟩ :
      MCPdf ℚ (Fin 2 → ℚ)).covGet = .ok C ∧
    (movedPdf (fun x => (!![1, 1; 0, 100] : Matrix (Fin 2) (Fin 2) ℚ).mulVec x + ![5, 0])
      (⟨[⟨![0, 1], some (1 / 4)⟩, ⟨![2, 3], some (3 / 4)⟩], [0, 1 / 4, 1], 1⟩ :
      MCPdf ℚ (Fin 2 → ℚ))).meanGet = .ok ((!![1, 1; 0, 100] : Matrix (Fin 2) (Fin 2) ℚ).mulVec m + ![5, 0]) ∧
    (movedPdf (fun x => (!![1, 1; 0, 100] : Matrix (Fin 2) (Fin 2) ℚ).mulVec x + ![5, 0])
      (⟨[⟨![0, 1], some (1 / 4)⟩, ⟨![2, 3], some (3 / 4)⟩], [0, 1 / 4, 1], 1⟩ :
      MCPdf ℚ (Fin 2 → ℚ))).covGet
      = .ok (!![1, 1; 0, 100] * C * (!![1, 1; 0, 100] : Matrix (Fin 2) (Fin 2) ℚ).transpose) :=
  C108_moments _ _ _ [1 / 4, 3 / 4] rfl ⟨by intro x hx; simp at hx; rcases hx with rfl | rfl <;> norm_num,
    by norm_num⟩ (by decide +kernel) rfl

end BFL.Props
