import Verif.Model.ParticleProgram
import Verif.Spec.ParticleProgram
import Verif.Lemmas.BootDraws
import Verif.Lemmas.NonlinearMoments
import Verif.Props.CompareFilters
import Verif.Props.LinearParticleLine
import Verif.Props.StateMap

/-!
# Lemmas for the example programs with a bootstrap filter
-/

set_option linter.unusedSectionVars false

namespace BFL.Props

open Matrix MeasureTheory ProbabilityTheory Spec ExamplePdfs CompareFilters ParticleFilter
open scoped ENNReal Topology

variable (c : Settings)

/-! ### The models -/

/-- What a move draws. -/
noncomputable def robotDraw (u : Fin 2 → ℝ) (r x : Fin 3 → ℝ) : Fin 3 → ℝ :=
  (cholesky Real.sqrt machEps c.q).2 *ᵥ r + (Spec.driven u x + c.sysMu)

/-- A system model that draws as the programs do, with a density that does not matter. -/
noncomputable def plainModel : SysModel (Fin 3 → ℝ) (Fin 3 → ℝ) ℝ where
  model := ⟨some ⟨2, fun _ _ => .ok 0, fun _ => .ub⟩, some false⟩
  draw z cs _ := match cs with
    | [x, u] => .ok (robotDraw c ![u 0, u 1] z x)
    | _ => .ub

theorem plain_nonlinear : DrawsAlike (plainModel c) (ParticleProgram.sysModel c) := by
  refine ⟨?_, rfl, rfl⟩
  funext z cs old
  match cs with
  | [] => rfl
  | [_] => rfl
  | [x, u] =>
    show Prod.snd <$> systemSample (Gaussian.make c.sysMu c.q) .default x ![u 0, u 1] z = _
    rw [systemSample_eq _ _ (Or.inl rfl), conditional_sample _ _ (Or.inl rfl)]
    rfl
  | _ :: _ :: _ :: _ => rfl

theorem plain_analytic (be : Backend) : DrawsAlike (plainModel c) (c.sysParticle be) := by
  refine ⟨?_, rfl, rfl⟩
  funext z cs old
  match cs with
  | [] => rfl
  | [_] => rfl
  | [x, u] =>
    show Outcome.ok (ConditionalGaussian.sampleOne (c.mobile.expectedValue ![u 0, u 1] x) c.q .default old z).2 = _
    rw [conditional_sample _ _ (Or.inl rfl), mobile_driven]
    rfl
  | _ :: _ :: _ :: _ => rfl

theorem plain_transition : IsTransition (plainModel c) fun _ _ _ => 0 :=
  ⟨⟨2, fun _ _ => .ok 0, fun _ => .ub⟩, rfl, fun _ _ _ => ⟨le_rfl, rfl⟩⟩

theorem plain_total (r x u prev : Fin 3 → ℝ) : ∃ y, (plainModel c).draw r (argsFor (plainModel c) x u) prev = .ok y :=
  ⟨_, rfl⟩

theorem plain_draw (u : Fin 2 → ℝ) (r x prev : Fin 3 → ℝ) :
    (plainModel c).draw r (argsFor (plainModel c) x ![u 0, u 1, 0]) prev = .ok (robotDraw c u r x) := by
  have : u = ![u 0, u 1] := by ext i; fin_cases i <;> rfl
  show Outcome.ok (robotDraw c ![u 0, u 1] r x) = _
  rw [← this]

theorem variance_pd {v : ℝ} (hv : 0 < v) : PD (!![v] : Matrix (Fin 1) (Fin 1) ℝ) :=
  SteadyExample.one_by_one_pd hv

theorem wall_reading (z : Fin 1 → ℝ) (x : Fin 3 → ℝ) :
    normalDensity (c.h *ᵥ x + c.measMu) c.r z = wallSensor c z x := by
  unfold wallSensor Settings.r
  congr 1
  ext i
  fin_cases i
  simp [Settings.h, dotProduct, Fin.sum_univ_three]
  ring

theorem wall_likelihood (be : Backend) (hv : 0 < c.measVar) :
    ∃ mm, c.measParticle be = .ok mm ∧ IsLikelihood mm fun z x _ => wallSensor c z x := by
  obtain ⟨p, hp⟩ := C44_make [⟨1, 3, c.h⟩] c.measMu c.r
  have hn : p.numArgs = 1 := (LinCond.make_wf hp).2.1
  have hm : LinModel.make p = .ok ⟨p, true⟩ := by simp [LinModel.make, hn]
  have hl : LinearNoInput (⟨p, true⟩ : LinModel ℝ 1) c.h c.measMu c.r :=
    ⟨⟨1, 3, c.h⟩, c.measMu, c.r, p, _, [], hp, hm, rfl, rfl, rfl, rfl⟩
  refine ⟨_, by simp only [Settings.measParticle, hp, Outcome.ok_bind, hm]; rfl, ?_⟩
  have := (Linear.noInput hl).isLikelihood be (variance_pd hv)
  simpa only [wall_reading] using this

theorem wallSensor_pos (hv : 0 < c.measVar) (z : Fin 1 → ℝ) (x : Fin 3 → ℝ) : 0 < wallSensor c z x :=
  normalDensity_pos (variance_pd hv) _ _

theorem measurable_wallSensor (z : Fin 1 → ℝ) : Measurable (wallSensor c z) := by
  have : wallSensor c z = fun x => normalDensity (c.h *ᵥ x + c.measMu) c.r z := funext fun x => (wall_reading c z x).symm
  rw [this]
  exact (continuous_normalDensity (by fun_prop) continuous_const _).measurable

theorem density_le {n : Nat} {S : Matrix (Fin n) (Fin n) ℝ} (hS : PD S) (m x : Fin n → ℝ) :
    normalDensity m S x ≤ 1 / Real.sqrt ((2 * Real.pi) ^ n * S.det) := by
  unfold normalDensity
  have hq : 0 ≤ quad S⁻¹ (x - m) := hS.inv.psd.2 _
  exact div_le_div_of_nonneg_right (Real.exp_le_one_iff.2 (by linarith)) (Real.sqrt_nonneg _)

/-! ### The prior -/

/-- A sample of the prior. -/
noncomputable def priorDraw (z : Fin 3 → ℝ) : Fin 3 → ℝ :=
  (cholesky Real.sqrt machEps c.priorSigma).2 *ᵥ z + c.priorMu

theorem prior_holds (zs : List (Fin 3 → ℝ)) :
    ∃ p, c.priorDiscrete zs = .ok p ∧ Holds p (zs.map fun z => (priorDraw c z, 1 / (zs.length : ℝ))) := by
  obtain ⟨p, hp, hn, hv, hw, -⟩ := C07_set_unweighted (K := ℝ) (dflt := (0 : Fin 3 → ℝ))
    (q := MCPdf.make zs.length 0) ⟨zs.length, [], rfl⟩ (zs.map (priorDraw c))
  refine ⟨p, ?_, ?_⟩
  · simp only [Settings.priorDiscrete]
    show (do
      let (_, p) ← (MCPdf.make (K := ℝ) zs.length (0 : Fin 3 → ℝ)).listSetU 0 (zs.map (priorDraw c))
      return p) = _
    rw [hp]
    rfl
  · unfold Holds
    unfold HasWeights at hw
    have hl : p.listGet.length = zs.length := by simpa using congrArg List.length hv
    apply List.ext_getElem
    · simpa using hl
    · intro k k1 k2
      have k3 : k < zs.length := hl ▸ k1
      have e1 : (p.listGet.map (·.value))[k]'(by simpa using k1) = priorDraw c zs[k] := by
        simp only [hv]; simp
      have e2 : (p.listGet.map (·.weight))[k]'(by simpa using k1) = some (1 / (zs.length : ℝ)) := by
        simp only [hw]; simp
      simp only [List.getElem_map] at e1 e2 ⊢
      rw [← e1, ← e2]

theorem prior_normalised {zs : List (Fin 3 → ℝ)} (hz : zs ≠ []) :
    Normalised (zs.map fun z => (priorDraw c z, 1 / (zs.length : ℝ))) := by
  have hl : (zs.length : ℝ) ≠ 0 := by
    have := List.length_pos_iff.2 hz
    positivity
  refine ⟨?_, ?_⟩
  · intro w hw
    simp only [List.map_map, List.mem_map, Function.comp] at hw
    obtain ⟨_, _, rfl⟩ := hw
    positivity
  · simp [List.map_map, Function.comp_def, hl]

theorem make_program {prior : MCPdf ℝ (Fin 3 → ℝ)} {ps : List ((Fin 3 → ℝ) × ℝ)} (hp : Holds prior ps)
    (hn : Normalised ps) {threshold : ℝ} (ht : threshold ≠ 0) :
    ∃ f : ParticleFilter (Fin 3 → ℝ) (Fin 3 → ℝ) ℝ,
      ParticleFilter.make 0 prior none 0 threshold .multinomial = .ok f ∧ Ready 0 threshold 0 f ps := by
  obtain ⟨post, h3, h4⟩ := setW_holds (q := MCPdf.make prior.numSamples 0) ⟨_, [], rfl⟩ hn
  have hf : ∃ f : ParticleFilter (Fin 3 → ℝ) (Fin 3 → ℝ) ℝ,
      ParticleFilter.make 0 prior none 0 threshold .multinomial = .ok f := by
    refine ⟨⟨⟨post, prior.listGet, prior.listGet, []⟩, 0, 0, true, 0, threshold, .multinomial, none⟩, ?_⟩
    unfold ParticleFilter.make
    rw [hp, h3]
    simp [policy, ht, cassert]
  obtain ⟨f, hf⟩ := hf
  exact ⟨f, hf, (pfMake_ready hp hn hf).1⟩

/-! ### Runs of the filter -/

/-- The calls of a run. -/
noncomputable def bootCalls (m : SysModel (Fin 3 → ℝ) (Fin 3 → ℝ) ℝ) (mm : Option (Model (Fin 3 → ℝ) (Fin 1 → ℝ) ℝ))
    (u : Fin 2 → ℝ) (noise : Nat → Noise (Fin 3 → ℝ) ℝ) (z : Nat → Fin 1 → ℝ) (k n : Nat) :
    List (Noise (Fin 3 → ℝ) ℝ × UpdateCall (Fin 3 → ℝ) (Fin 3 → ℝ) (Fin 1 → ℝ) ℝ) :=
  (List.range n).map fun t => (noise (k + t), ⟨some m, ![u 0, u 1, 0], mm, z (k + t), 0⟩)

theorem bootCalls_succ (m : SysModel (Fin 3 → ℝ) (Fin 3 → ℝ) ℝ) (mm : Option (Model (Fin 3 → ℝ) (Fin 1 → ℝ) ℝ))
    (u : Fin 2 → ℝ) (noise : Nat → Noise (Fin 3 → ℝ) ℝ) (z : Nat → Fin 1 → ℝ) (k n : Nat) :
    bootCalls m mm u noise z k (n + 1) =
      (noise k, ⟨some m, ![u 0, u 1, 0], mm, z k, 0⟩) :: bootCalls m mm u noise z (k + 1) n := by
  simp only [bootCalls, List.range_succ_eq_map, List.map_cons, List.map_map, Nat.add_zero, List.cons.injEq, true_and]
  refine List.map_congr_left fun t _ => ?_
  simp only [Function.comp, Nat.succ_eq_add_one, Nat.add_right_comm k 1 t, Nat.add_assoc]

theorem SameParticles.ready {R SV : Type} {f f' : ParticleFilter R SV ℝ} (h : SameParticles f f') {period : Nat}
    {threshold : ℝ} {n : Nat} {ps : List (SV × ℝ)} (hf : Ready period threshold n f ps) :
    Ready period threshold n f' ps := by
  unfold SameParticles at h
  rw [h]
  obtain ⟨⟨a, b, c, d, e, g, i⟩, j, k⟩ := hf
  exact ⟨⟨a, b, c, d, e, g, i⟩, j, k⟩

theorem total_pos {R X : Type} {mv : R → X → X} {G : X → X → ℝ} (hG : ∀ x y, 0 < G x y) (ρ : Nat → R)
    {ps : List (X × ℝ)} (hn : Normalised ps) : 0 < advanceTotal mv G ρ ps := by
  obtain ⟨h0, h1⟩ := hn
  unfold advanceTotal
  have hnn : ∀ w ∈ (ps.mapIdx fun i a => a.2 * G a.1 (mv (ρ i) a.1)), 0 ≤ w := by
    intro w hw
    obtain ⟨i, hi, rfl⟩ := List.mem_mapIdx.1 hw
    exact mul_nonneg (h0 _ (List.mem_map_of_mem (List.getElem_mem hi))) (hG _ _).le
  refine lt_of_le_of_ne (List.sum_nonneg hnn) fun he => ?_
  have hz : ∀ w ∈ ps.map Prod.snd, w = 0 := by
    intro w hw
    obtain ⟨a, ha, rfl⟩ := List.mem_map.1 hw
    obtain ⟨i, hi, rfl⟩ := List.getElem_of_mem ha
    have := List.all_zero_of_le_zero_le_of_sum_eq_zero hnn he.symm
      (List.mem_mapIdx.2 ⟨i, hi, rfl⟩)
    rcases mul_eq_zero.1 this with h | h
    · exact h
    · exact absurd h (hG _ _).ne'
  have : (ps.map Prod.snd).sum = 0 := List.sum_eq_zero hz
  rw [this] at h1
  exact zero_ne_one h1

/-- The measurement model of a step, or none if the measurements are not used. -/
def SensorOrNone (mo : Option (Model (Fin 3 → ℝ) (Fin 1 → ℝ) ℝ)) : Prop :=
  ∀ mm, mo = some mm → IsLikelihood mm fun z x _ => wallSensor c z x

section run

variable {root : Nat → ℝ → ℝ} {threshold : ℝ}

theorem advance_length {R X : Type} (mv : R → X → X) (G : X → X → ℝ) (ρ : Nat → R) (ps : List (X × ℝ)) :
    (advance mv G ρ ps).length = ps.length := by
  simp [advance]

theorem plain_step (hroot : IsRoot root) (hv : 0 < c.measVar) {mo : Option (Model (Fin 3 → ℝ) (Fin 1 → ℝ) ℝ)}
    (hl : SensorOrNone c mo) (u : Fin 2 → ℝ) {noise : Noise (Fin 3 → ℝ) ℝ}
    (hs : Uniforms noise.static) (hd : Uniforms noise.dynamic) (z : Fin 1 → ℝ) {n : Nat}
    {f : ParticleFilter (Fin 3 → ℝ) (Fin 3 → ℝ) ℝ} {ps : List ((Fin 3 → ℝ) × ℝ)} (h : Ready 0 threshold n f ps) :
    ∃ f' ps', f.bootUpdate 0 root noise ⟨some (plainModel c), ![u 0, u 1, 0], mo, z, 0⟩ = .ok (true, f') ∧
      Ready 0 threshold (n + 1) f' ps' ∧ ps'.length = ps.length := by
  have key : ∀ {mo : Option (Model (Fin 3 → ℝ) (Fin 1 → ℝ) ℝ)} {G : (Fin 3 → ℝ) → (Fin 3 → ℝ) → ℝ}
      (_ : StepRuns root (fun noise c f => ParticleFilter.bootUpdate 0 root noise c f) 0 threshold
        (fun _ => True) ⟨some (plainModel c), ![u 0, u 1, 0], mo, z, 0⟩ (robotDraw c u) G) (_ : ∀ x y, 0 < G x y),
      ∃ f' ps', f.bootUpdate 0 root noise ⟨some (plainModel c), ![u 0, u 1, 0], mo, z, 0⟩ = .ok (true, f') ∧
        Ready 0 threshold (n + 1) f' ps' ∧ ps'.length = ps.length := by
    intro mo G hr hG
    obtain ⟨ps1, h1, h2⟩ := hr h trivial hs hd
    have e : ps1 = ps := h1.2 (by
      rintro ⟨-, h3, h4⟩
      exact absurd (Nat.eq_zero_of_zero_dvd h4) h3.ne')
    subst e
    obtain ⟨f', ps2, k1, -, k2, k3⟩ := h2 (total_pos hG _ h.live.dist)
    exact ⟨f', ps2, k1, k2, k3.length.trans (advance_length _ _ _ _)⟩
  cases mo with
  | none =>
    exact key (runs_boot_system (dflt := 0) hroot (plain_transition c) (plain_total c) (plain_draw c u) 0 z)
      fun _ _ => one_pos
  | some mm =>
    exact key (runs_boot_full (dflt := 0) hroot (plain_transition c) (plain_total c) (plain_draw c u) (hl mm rfl) 0 z)
      fun _ y => wallSensor_pos c hv z y

theorem boot_step (hroot : IsRoot root) (hv : 0 < c.measVar) {m : SysModel (Fin 3 → ℝ) (Fin 3 → ℝ) ℝ}
    (hm : DrawsAlike (plainModel c) m) {mo : Option (Model (Fin 3 → ℝ) (Fin 1 → ℝ) ℝ)}
    (hl : SensorOrNone c mo) (u : Fin 2 → ℝ) {noise : Noise (Fin 3 → ℝ) ℝ}
    (hs : Uniforms noise.static) (hd : Uniforms noise.dynamic) (z : Fin 1 → ℝ) {n : Nat}
    {f : ParticleFilter (Fin 3 → ℝ) (Fin 3 → ℝ) ℝ} {ps : List ((Fin 3 → ℝ) × ℝ)} (h : Ready 0 threshold n f ps) :
    ∃ f' ps', f.bootUpdate 0 root noise ⟨some m, ![u 0, u 1, 0], mo, z, 0⟩ = .ok (true, f') ∧
      Ready 0 threshold (n + 1) f' ps' ∧ ps'.length = ps.length := by
  obtain ⟨g, ps', h1, h2, h3⟩ := plain_step c hroot hv hl u hs hd z h
  have hsame := bootUpdate_alike 0 root noise hm ![u 0, u 1, 0] mo z 0 (f := f) (f' := f) rfl
  rw [h1] at hsame
  cases hr : f.bootUpdate 0 root noise ⟨some m, ![u 0, u 1, 0], mo, z, 0⟩ with
  | abort => rw [hr] at hsame; exact hsame.elim
  | ub => rw [hr] at hsame; exact hsame.elim
  | ok r =>
    rw [hr] at hsame
    obtain ⟨b, f'⟩ := r
    obtain ⟨e1, e2⟩ := hsame
    simp only at e1 e2
    subst e1
    exact ⟨f', ps', rfl, e2.ready h2, h3⟩

theorem boot_runs (hroot : IsRoot root) (hv : 0 < c.measVar) {m : SysModel (Fin 3 → ℝ) (Fin 3 → ℝ) ℝ}
    (hm : DrawsAlike (plainModel c) m) {mo : Option (Model (Fin 3 → ℝ) (Fin 1 → ℝ) ℝ)}
    (hl : SensorOrNone c mo) (u : Fin 2 → ℝ) {noise : Nat → Noise (Fin 3 → ℝ) ℝ}
    (hu : ∀ k, Uniforms (noise k).static ∧ Uniforms (noise k).dynamic) (z : Nat → Fin 1 → ℝ) (T : Nat) :
    ∀ (k n : Nat) {f : ParticleFilter (Fin 3 → ℝ) (Fin 3 → ℝ) ℝ} {ps : List ((Fin 3 → ℝ) × ℝ)},
      Ready 0 threshold n f ps →
      ∃ f' ps', f.run (bootUpdate 0 root) (bootCalls m mo u noise z k T) = .ok (true, f') ∧
        Ready 0 threshold (n + T) f' ps' ∧ ps'.length = ps.length := by
  induction T with
  | zero => intro k n f ps h; exact ⟨f, ps, rfl, h, rfl⟩
  | succ T ih =>
    intro k n f ps h
    obtain ⟨g, qs, h1, h2, h5⟩ := boot_step c hroot hv hm hl u (hu k).1 (hu k).2 (z k) h
    obtain ⟨f', ps', h3, h4, h6⟩ := ih (k + 1) (n + 1) h2
    refine ⟨f', ps', ?_, by rw [show n + (T + 1) = n + 1 + T by omega]; exact h4, h6.trans h5⟩
    rw [bootCalls_succ]
    simp only [ParticleFilter.run, h1, Outcome.ok_bind, h3, Outcome.pure_eq, Bool.and_self]

/-- Runs with models that draw alike end in the same particles. -/
theorem run_alike {m m' : SysModel (Fin 3 → ℝ) (Fin 3 → ℝ) ℝ} (hm : DrawsAlike m m')
    (mo : Option (Model (Fin 3 → ℝ) (Fin 1 → ℝ) ℝ)) (u : Fin 2 → ℝ) (noise : Nat → Noise (Fin 3 → ℝ) ℝ)
    (z : Nat → Fin 1 → ℝ) (k T : Nat) {f f' : ParticleFilter (Fin 3 → ℝ) (Fin 3 → ℝ) ℝ} (h : SameParticles f f') :
    Same (fun x y => y.1 = x.1 ∧ SameParticles x.2 y.2) (f.run (bootUpdate 0 root) (bootCalls m mo u noise z k T))
      (f'.run (bootUpdate 0 root) (bootCalls m' mo u noise z k T)) := by
  refine run_same ?_ h
  unfold bootCalls
  rw [List.forall₂_map_left_iff, List.forall₂_map_right_iff, List.forall₂_same]
  intro t _ g g' hg
  exact bootUpdate_alike 0 root _ hm _ mo _ 0 hg

theorem SameParticles.post {f f' : ParticleFilter (Fin 3 → ℝ) (Fin 3 → ℝ) ℝ} (h : SameParticles f f') :
    f'.postGet = f.postGet := by
  unfold SameParticles at h
  rw [h]

theorem ready_report {n : Nat} {f : ParticleFilter (Fin 3 → ℝ) (Fin 3 → ℝ) ℝ} {ps : List ((Fin 3 → ℝ) × ℝ)}
    (h : Ready 0 threshold n f ps) :
    Settings.particleReport f.postGet = .ok (fun i => averageOver (fun y => y i) ps,
      Matrix.of fun i j => averageOver (fun y => y i * y j) ps -
        averageOver (fun y => y i) ps * averageOver (fun y => y j) ps) := by
  obtain ⟨h1, h2⟩ := reported_moments (p := f.postGet) h.live.samples h.live.good
  simp only [Settings.particleReport, h1, h2, Outcome.ok_bind, Outcome.pure_eq]

/-! ### The loops of the programs -/

theorem robotAfter_cons (r : Robot) (u : Fin 2 → ℝ) (d : (Fin 3 → ℝ) × (Fin 1 → ℝ))
    (ds : List ((Fin 3 → ℝ) × (Fin 1 → ℝ))) : robotAfter r u (d :: ds) = robotAfter (r.move u d.1) u ds := rfl

/-- The readings from step `k` on. -/
def SensesFrom (r : Robot) (u : Fin 2 → ℝ) (ds : List ((Fin 3 → ℝ) × (Fin 1 → ℝ))) (z : Nat → Fin 1 → ℝ) (k : Nat) :
    Prop := ∀ t d, ds[t]? = some d → (robotAfter r u (ds.take (t + 1))).measure d.2 = .ok (z (k + t))

theorem SensesFrom.cons {r : Robot} {u : Fin 2 → ℝ} {d : (Fin 3 → ℝ) × (Fin 1 → ℝ)}
    {ds : List ((Fin 3 → ℝ) × (Fin 1 → ℝ))} {z : Nat → Fin 1 → ℝ} {k : Nat} (h : SensesFrom r u (d :: ds) z k) :
    (r.move u d.1).measure d.2 = .ok (z k) ∧ SensesFrom (r.move u d.1) u ds z (k + 1) := by
  refine ⟨by simpa [robotAfter] using h 0 d rfl, fun t d' ht => ?_⟩
  have := h (t + 1) d' (by simpa using ht)
  rw [List.take_succ_cons, robotAfter_cons] at this
  rw [this, show k + (t + 1) = k + 1 + t by omega]

theorem senses_exists (r : Robot) (u : Fin 2 → ℝ) (ds : List ((Fin 3 → ℝ) × (Fin 1 → ℝ))) : ∃ z, Senses r u ds z := by
  have : ∀ t, ∃ w, ∀ d, ds[t]? = some d → (robotAfter r u (ds.take (t + 1))).measure d.2 = .ok w := by
    intro t
    cases ds[t]? with
    | none => exact ⟨0, fun d hd => by cases hd⟩
    | some d => exact ⟨_, fun d' hd => by cases hd; exact measure_eq _ _⟩
  choose z hz using this
  exact ⟨z, hz⟩

theorem particle_loop (mm : Model (Fin 3 → ℝ) (Fin 1 → ℝ) ℝ) (u : Fin 2 → ℝ) (noise : Nat → Noise (Fin 3 → ℝ) ℝ)
    (z : Nat → Fin 1 → ℝ) (ds : List ((Fin 3 → ℝ) × (Fin 1 → ℝ))) :
    ∀ (k : Nat) (robot : Robot) (f : ParticleFilter (Fin 3 → ℝ) (Fin 3 → ℝ) ℝ), SensesFrom robot u ds z k →
      ParticleProgram.loop c root mm u noise ds k robot f = (fun r => (r.2, k + ds.length + 1)) <$>
        f.run (bootUpdate 0 root) (bootCalls (ParticleProgram.sysModel c) (some mm) u noise z k ds.length) := by
  induction ds with
  | nil => intro k robot f _; rfl
  | cons d ds ih =>
    intro k robot f h
    obtain ⟨h1, h2⟩ := h.cons
    rw [List.length_cons, bootCalls_succ]
    simp only [ParticleProgram.loop, ParticleFilter.run, h1, Outcome.ok_bind, map_bind]
    congr 1
    funext ⟨b, g⟩
    simp only [ih (k + 1) _ g h2, map_eq_pure_bind, pure_bind]
    congr 1
    funext r
    rw [show k + 1 + ds.length + 1 = k + (ds.length + 1) + 1 by omega]

theorem compare_loop (be : Backend) (hroot : IsRoot root) (hv : 0 < c.measVar)
    {mm : Model (Fin 3 → ℝ) (Fin 1 → ℝ) ℝ} (hl : IsLikelihood mm fun z x _ => wallSensor c z x) (use : Bool)
    (u : Fin 2 → ℝ) {noise : Nat → Noise (Fin 3 → ℝ) ℝ}
    (hu : ∀ k, Uniforms (noise k).static ∧ Uniforms (noise k).dynamic) (z : Nat → Fin 1 → ℝ) (ds : List CompareFilters.Draws) :
    ∀ (k n : Nat) (robot : Robot) {f : ParticleFilter (Fin 3 → ℝ) (Fin 3 → ℝ) ℝ} {ps : List ((Fin 3 → ℝ) × ℝ)},
      SensesFrom robot u (ds.map fun d => (d.move, d.reading)) z k → Ready 0 threshold n f ps →
      ∃ recs f' ps', loop (c.bootstrap be root noise mm u) use u k ds robot f = .ok (recs, f') ∧
        f.run (bootUpdate 0 root) (bootCalls (c.sysParticle be) (if use then some mm else none) u noise
          (if use then z else 0) k ds.length) = .ok (true, f') ∧ Ready 0 threshold (n + ds.length) f' ps' := by
  induction ds with
  | nil => intro k n robot f ps _ h; exact ⟨[], f, ps, rfl, rfl, h⟩
  | cons d ds ih =>
    intro k n robot f ps h hr
    obtain ⟨h1, h2⟩ := SensesFrom.cons h
    have hso : SensorOrNone c (if use then some mm else none) := by
      intro m hm
      cases use with
      | false => cases hm
      | true => cases hm; exact hl
    obtain ⟨g, qs, k1, k2, -⟩ := boot_step c hroot hv (plain_analytic c be) hso u (hu k).1 (hu k).2
      ((if use then z else 0) k) hr
    obtain ⟨recs, f', ps', k3, k4, k5⟩ := ih (k + 1) (n + 1) _ h2 k2
    have hstep : (c.bootstrap be root noise mm u).step use k (z k) f = .ok g := by
      cases use with
      | false =>
        exact congrArg (fun o => Prod.snd <$> o) k1
      | true =>
        exact congrArg (fun o => Prod.snd <$> o) k1
    have hrep : (c.bootstrap be root noise mm u).report f = _ := ready_report hr
    have hloop : ∃ recs', loop (c.bootstrap be root noise mm u) use u k (d :: ds) robot f = .ok (recs', f') := by
      simp only [loop, measure_eq robot, hrep, Outcome.ok_bind]
      rw [show (robot.move u d.move).measure d.reading = .ok (z k) from h1]
      simp only [Outcome.ok_bind, hstep]
      rw [show loop (c.bootstrap be root noise mm u) use u (k + 1) ds (robot.move u d.move) g = .ok (recs, f') from k3]
      exact ⟨_, rfl⟩
    obtain ⟨recs', hloop⟩ := hloop
    refine ⟨recs', f', ps', hloop, ?_, by rw [List.length_cons, show n + (ds.length + 1) = n + 1 + ds.length by omega]; exact k5⟩
    rw [List.length_cons, bootCalls_succ]
    simp only [ParticleFilter.run, k1, Outcome.ok_bind, k4, Outcome.pure_eq, Bool.and_self]

end run

/-! ### Many particles -/

section laws

theorem eps_diag {a b d : ℝ} (ha : machEps ≤ a) (hb : machEps ≤ b) (hd : machEps ≤ d) :
    PSD ((!![a, 0, 0; 0, b, 0; 0, 0, d] : Matrix (Fin 3) (Fin 3) ℝ) - machEps • (1 : Matrix (Fin 3) (Fin 3) ℝ)) := by
  have : (!![a, 0, 0; 0, b, 0; 0, 0, d] : Matrix (Fin 3) (Fin 3) ℝ) - machEps • (1 : Matrix (Fin 3) (Fin 3) ℝ) =
      !![a - machEps, 0, 0; 0, b - machEps, 0; 0, 0, d - machEps] := by
    ext i j
    fin_cases i <;> fin_cases j <;> simp
  rw [this]
  exact diag_psd (by linarith) (by linarith) (by linarith)

theorem affine_draw_law {n : Nat} (m : Fin n → ℝ) {S : Matrix (Fin n) (Fin n) ℝ}
    (hS : PSD (S - machEps • (1 : Matrix (Fin n) (Fin n) ℝ))) :
    PD S ∧ (stdNormals n).map (fun z => (cholesky Real.sqrt machEps S).2 *ᵥ z + m) = normalLaw m S := by
  obtain ⟨h1, -, h2⟩ := conditional_law m S hS (Or.inl rfl : SampleMthd.default = .default ∨ _) 0
  simp only [conditional_sample _ _ (Or.inl rfl : SampleMthd.default = .default ∨ _)] at h2
  exact ⟨h1, h2⟩

theorem measurable_driven (u : Fin 2 → ℝ) : Measurable (Spec.driven u) := by
  unfold Spec.driven
  refine measurable_pi_iff.2 fun i => ?_
  fin_cases i
  · show Measurable fun x : Fin 3 → ℝ => x 0 + u 0 * Real.cos (x 2)
    fun_prop
  · show Measurable fun x : Fin 3 → ℝ => x 1 + u 0 * Real.sin (x 2)
    fun_prop
  · show Measurable fun x : Fin 3 → ℝ => x 2 + u 1
    fun_prop

theorem driven_growth (u : Fin 2 → ℝ) (m : Fin 3 → ℝ) (x : Fin 3 → ℝ) :
    oneSq (Spec.driven u x + m) ≤ (4 * ENNReal.ofReal (1 + u 0 ^ 2 + u 1 ^ 2) * oneSq m) * oneSq x := by
  have e : Spec.driven u x = x + ![u 0 * Real.cos (x 2), u 0 * Real.sin (x 2), u 1] := by
    ext i
    fin_cases i <;> simp [Spec.driven]
  have hb : oneSq ![u 0 * Real.cos (x 2), u 0 * Real.sin (x 2), u 1] ≤ ENNReal.ofReal (1 + u 0 ^ 2 + u 1 ^ 2) := by
    unfold oneSq
    refine ENNReal.ofReal_le_ofReal (le_of_eq ?_)
    simp only [Fin.sum_univ_three, cons_val_zero, cons_val_one, cons_val]
    nlinarith [Real.sin_sq_add_cos_sq (x 2)]
  calc oneSq (Spec.driven u x + m) ≤ 2 * oneSq (Spec.driven u x) * oneSq m := oneSq_add _ _
    _ ≤ 2 * (2 * oneSq x * ENNReal.ofReal (1 + u 0 ^ 2 + u 1 ^ 2)) * oneSq m := by
      rw [e]
      gcongr
      exact (oneSq_add _ _).trans (by gcongr)
    _ = _ := by ring

/-- The density of the readings, or 1 if they are not used. -/
noncomputable def readingOr (use : Bool) (z : Nat → Fin 1 → ℝ) (t : Nat) (x : Fin 3 → ℝ) : ℝ≥0∞ :=
  if use then ENNReal.ofReal (wallSensor c (z t) x) else 1

variable (hx : machEps ≤ c.sysX) (hy : machEps ≤ c.sysY) (ht : machEps ≤ c.sysTheta)

include hx hy ht in
theorem moves_exists (u : Fin 2 → ℝ) : ∃ κ : Kernel (Fin 3 → ℝ) (Fin 3 → ℝ), MovesBy c u κ ∧ IsMarkovKernel κ := by
  have hd : Measurable fun p : (Fin 3 → ℝ) × (Fin 3 → ℝ) => robotDraw c u p.1 p.2 := by
    unfold robotDraw
    have := measurable_driven u
    fun_prop
  obtain ⟨κ, hκ⟩ := exists_kernel (stdNormals 3) hd
  have hm : MovesBy c u κ := fun x => (hκ x).trans (affine_draw_law _ (eps_diag hx hy ht)).2
  refine ⟨κ, hm, ⟨fun x => ?_⟩⟩
  rw [hm]
  exact normalLaw_prob (affine_draw_law 0 (eps_diag hx hy ht)).1

include hx hy ht in
theorem exact_moderate (hpx : machEps ≤ c.priorX) (hpy : machEps ≤ c.priorY) (hpt : machEps ≤ c.priorTheta)
    (hv : 0 < c.measVar) {u : Fin 2 → ℝ} {κ : Kernel (Fin 3 → ℝ) (Fin 3 → ℝ)} (hκ : MovesBy c u κ) (use : Bool)
    (z : Nat → Fin 1 → ℝ) (T : Nat) :
    (∀ x, κ x = (stdNormals 3).map fun r => robotDraw c u r x) ∧
    Moderate (exactFilter (fun _ => κ) (readingOr c use z) (priorLaw c) T) ∧
      Possible (fun _ => κ) (readingOr c use z) (priorLaw c) T := by
  have hQ := affine_draw_law (0 : Fin 3 → ℝ) (eps_diag hx hy ht)
  have hp := affine_draw_law c.priorMu (eps_diag hpx hpy hpt)
  have hdraw : ∀ x, κ x = (stdNormals 3).map fun r => robotDraw c u r x := fun x =>
    (hκ x).trans (affine_draw_law _ (eps_diag hx hy ht)).2.symm
  have hmk : IsMarkovKernel κ := ⟨fun x => by rw [hκ]; exact normalLaw_prob hQ.1⟩
  have hpr : IsProbabilityMeasure (priorLaw c) := normalLaw_prob hp.1
  have hw : ∫⁻ r, oneSq ((cholesky Real.sqrt machEps c.q).2 *ᵥ r) ∂(stdNormals 3) ≠ ∞ := by
    have h := normalLaw_moderate hQ.1 (normalLaw_prob (m := 0) hQ.1)
    unfold Moderate at h
    rw [← hQ.2, lintegral_map measurable_oneSq (by fun_prop)] at h
    simp only [add_zero] at h
    exact h
  have hg := additive_growth (κ := κ) (ν := stdNormals 3) (w := fun r => (cholesky Real.sqrt machEps c.q).2 *ᵥ r)
    (g := fun x => Spec.driven u x + c.sysMu) (by fun_prop) hdraw (driven_growth u c.sysMu)
  have hne : ∀ (m : Fin 3 → ℝ), oneSq m ≠ ∞ := fun m => ENNReal.ofReal_ne_top
  obtain ⟨-, h2, h3⟩ := exactFilter_moderate (κ := fun _ => κ) (ℓ := readingOr c use z) (μ := priorLaw c)
    (B := max 1 (ENNReal.ofReal (1 / Real.sqrt ((2 * Real.pi) ^ 1 * (!![c.measVar] : Matrix (Fin 1) (Fin 1) ℝ).det))))
    (C := 2 * (∫⁻ r, oneSq ((cholesky Real.sqrt machEps c.q).2 *ᵥ r) ∂(stdNormals 3)) *
      (4 * ENNReal.ofReal (1 + u 0 ^ 2 + u 1 ^ 2) * oneSq c.sysMu))
    (ENNReal.mul_ne_top (ENNReal.mul_ne_top (by simp) hw)
      (ENNReal.mul_ne_top (ENNReal.mul_ne_top (by simp) ENNReal.ofReal_ne_top) (hne _)))
    (by simp) (fun _ => hg)
    (fun t => by
      unfold readingOr
      cases use with
      | false => exact measurable_const
      | true => exact (measurable_wallSensor c (z t)).ennreal_ofReal)
    (fun t y => by
      unfold readingOr
      cases use with
      | false => simp
      | true => simpa using wallSensor_pos c hv (z t) y)
    (fun t y => by
      unfold readingOr
      cases use with
      | false => exact le_max_left _ _
      | true => exact (ENNReal.ofReal_le_ofReal (density_le (variance_pd hv) _ _)).trans (le_max_right _ _))
    (normalLaw_moderate hp.1 hpr) T
  exact ⟨hdraw, h2, h3⟩

end laws

section many

variable {Ω : Type} [MeasurableSpace Ω] {P : Measure Ω} [IsProbabilityMeasure P] {ζ : Nat → Ω → Fin 3 → ℝ}
  {ρ : Nat → Nat → Ω → ℝ × (Fin 3 → ℝ) × ℝ}

/-- The uniform numbers are almost surely not 0. -/
theorem uniforms_ae {μ : Measure (Fin 3 → ℝ)}
    (h : IndependentDraws P ζ ρ μ fun _ => Spec.uniform.prod ((stdNormals 3).prod Spec.uniform)) :
    ∀ᵐ ω ∂P, ∀ t, Uniforms (inputs fun i => ρ t i ω).static ∧ Uniforms (inputs fun i => ρ t i ω).dynamic := by
  have hu : ∀ᵐ w ∂Spec.uniform, 0 < w ∧ w ≤ 1 := by
    rw [uniform_eq]
    exact ae_restrict_mem measurableSet_Ioc
  have hpu : IsProbabilityMeasure Spec.uniform := by
    refine ⟨?_⟩
    simp [uniform_eq]
  have key : ∀ t i, ∀ᵐ ω ∂P, (0 < (ρ t i ω).1 ∧ (ρ t i ω).1 ≤ 1) ∧ 0 < (ρ t i ω).2.2 ∧ (ρ t i ω).2.2 ≤ 1 := by
    intro t i
    have hb : ∀ᵐ v ∂(Spec.uniform.prod ((stdNormals 3).prod Spec.uniform)),
        (0 < v.1 ∧ v.1 ≤ 1) ∧ 0 < v.2.2 ∧ v.2.2 ≤ 1 :=
      (Measure.quasiMeasurePreserving_fst.ae hu).and
        ((Measure.quasiMeasurePreserving_snd.ae (Measure.quasiMeasurePreserving_snd.ae hu)))
    rw [← h.law_r t i] at hb
    exact ae_of_ae_map (h.measurable_r t i).aemeasurable hb
  have := ae_all_iff.2 fun t => ae_all_iff.2 (key t)
  filter_upwards [this] with ω hω t
  exact ⟨fun i => (hω t i).1, fun i => (hω t i).2⟩

theorem likely_of {A B : Nat → Ω → Prop} (hA : Likely P A) {G : Ω → Prop} (hG : ∀ᵐ ω ∂P, G ω)
    (h : ∀ N ω, 0 < N → G ω → A N ω → B N ω) : Likely P B := by
  unfold Likely at hA ⊢
  refine tendsto_of_tendsto_of_tendsto_of_le_of_le' tendsto_const_nhds hA (Filter.Eventually.of_forall fun _ => zero_le)
    ((Filter.eventually_gt_atTop 0).mono fun N hN => ?_)
  refine measure_mono_ae ?_
  filter_upwards [hG] with ω hω hb ha
  exact hb (h N ω hN hω ha)

theorem prior_draws (hpx : machEps ≤ c.priorX) (hpy : machEps ≤ c.priorY) (hpt : machEps ≤ c.priorTheta)
    {ν : Nat → Measure (ℝ × (Fin 3 → ℝ) × ℝ)} (h : IndependentDraws P ζ ρ (stdNormals 3) ν) :
    IndependentDraws P (fun i ω => priorDraw c (ζ i ω)) ρ (priorLaw c) ν := by
  have hm : Measurable (priorDraw c) := by unfold priorDraw; fun_prop
  exact
    { measurable_x := fun i => hm.comp (h.measurable_x i)
      measurable_r := h.measurable_r
      law_x := fun i => by
        have h2 := (affine_draw_law c.priorMu (eps_diag hpx hpy hpt)).2
        rw [← h.law_x i] at h2
        exact (Measure.map_map hm (h.measurable_x i)).symm.trans h2
      law_r := h.law_r
      indep := by
        refine iIndep_of_iIndep_of_le h.indep fun k => ?_
        cases k with
        | inl i => exact (hm.comp (comap_measurable (ζ i))).comap_le
        | inr p => exact le_rfl }

/-- The bootstrap filter of both programs, started with `N` samples of the prior. -/
theorem boot_converges (hx : machEps ≤ c.sysX) (hy : machEps ≤ c.sysY) (ht : machEps ≤ c.sysTheta)
    (hpx : machEps ≤ c.priorX) (hpy : machEps ≤ c.priorY) (hpt : machEps ≤ c.priorTheta) (hv : 0 < c.measVar)
    (h : IndependentDraws P ζ ρ (stdNormals 3) fun _ => Spec.uniform.prod ((stdNormals 3).prod Spec.uniform))
    {u : Fin 2 → ℝ} {κ : Kernel (Fin 3 → ℝ) (Fin 3 → ℝ)} (hκ : MovesBy c u κ) (use : Bool)
    {mm : Model (Fin 3 → ℝ) (Fin 1 → ℝ) ℝ} (hl : IsLikelihood mm fun z x _ => wallSensor c z x)
    {m : SysModel (Fin 3 → ℝ) (Fin 3 → ℝ) ℝ} (hm : DrawsAlike (plainModel c) m) (z : Nat → Fin 1 → ℝ) (T : Nat)
    {threshold : Nat → ℝ} (hth : ∀ N, 0 < N → threshold N ≠ 0) {ε : ℝ} (hε : 0 < ε) :
    Likely P fun N ω => ∃ prior f f' μ S, c.priorDiscrete ((List.range N).map fun i => ζ i ω) = .ok prior ∧
      ParticleFilter.make 0 prior none 0 (threshold N) .multinomial = .ok f ∧
      f.run (bootUpdate 0 kthRoot) (bootCalls m (if use then some mm else none) u (fun t => inputs fun i => ρ t i ω)
        (if use then z else 0) 0 T) = .ok (true, f') ∧ Settings.particleReport f'.postGet = .ok (μ, S) ∧
      (∀ i, |μ i - ∫ y, y i ∂(exactFilter (fun _ => κ) (readingOr c use z) (priorLaw c) T)| < ε) ∧
      ∀ i j, |S i j - ((∫ y, y i * y j ∂(exactFilter (fun _ => κ) (readingOr c use z) (priorLaw c) T)) -
        (∫ y, y i ∂(exactFilter (fun _ => κ) (readingOr c use z) (priorLaw c) T)) *
          ∫ y, y j ∂(exactFilter (fun _ => κ) (readingOr c use z) (priorLaw c) T))| < ε := by
  obtain ⟨hdraw, hmod, hpos⟩ := exact_moderate c hx hy ht hpx hpy hpt hv hκ use z T
  obtain ⟨hint, hint2⟩ := hmod.integrable
  have hstart : ∀ (N : Nat) (ω : Ω), ∃ (prior : MCPdf ℝ (Fin 3 → ℝ)) (f : ParticleFilter (Fin 3 → ℝ) (Fin 3 → ℝ) ℝ),
      0 < N → c.priorDiscrete ((List.range N).map fun i => ζ i ω) = .ok prior ∧
        Holds prior ((List.range N).map fun i => (priorDraw c (ζ i ω), 1 / (N : ℝ))) ∧
        ParticleFilter.make 0 prior none 0 (threshold N) .multinomial = .ok f := by
    intro N ω
    have good : ∀ N : Nat, 0 < N → ∃ (prior : MCPdf ℝ (Fin 3 → ℝ)) (f : ParticleFilter (Fin 3 → ℝ) (Fin 3 → ℝ) ℝ),
        c.priorDiscrete ((List.range N).map fun i => ζ i ω) = .ok prior ∧
        Holds prior ((List.range N).map fun i => (priorDraw c (ζ i ω), 1 / (N : ℝ))) ∧
        ParticleFilter.make 0 prior none 0 (threshold N) .multinomial = .ok f := by
      intro N hN
      obtain ⟨p, h1, h2⟩ := prior_holds c ((List.range N).map fun i => ζ i ω)
      have hne : (List.range N).map (fun i => ζ i ω) ≠ [] := by
        intro he
        have := congrArg List.length he
        simp only [List.length_map, List.length_range, List.length_nil] at this
        omega
      obtain ⟨f, h3, -⟩ := make_program h2 (prior_normalised c hne) (hth N hN)
      refine ⟨p, f, h1, ?_, h3⟩
      simpa only [List.map_map, Function.comp_def, List.length_map, List.length_range] using h2
    rcases Nat.eq_zero_or_pos N with h0 | hN
    · obtain ⟨p, f, -⟩ := good 1 one_pos
      exact ⟨p, f, fun h => absurd h (by omega)⟩
    · obtain ⟨p, f, hg⟩ := good N hN
      exact ⟨p, f, fun _ => hg⟩
  choose prior f hstart using hstart
  have hd : Measurable fun p : (Fin 3 → ℝ) × (Fin 3 → ℝ) => robotDraw c u p.1 p.2 := by
    unfold robotDraw
    have := measurable_driven u
    fun_prop
  have hc : ∀ t < T, BootUpdatesBy (MV := Fin 1 → ℝ)
      ⟨some (plainModel c), ![u 0, u 1, 0], if use then some mm else none, (if use then z else 0) (0 + t), 0⟩
      (stdNormals 3) κ (readingOr c use z t) := by
    intro t _
    cases use with
    | false =>
      exact .system (u := ![u 0, u 1, 0]) 0 0 (plain_transition c) (plain_total c) (plain_draw c u) hd hdraw
    | true =>
      have := BootUpdatesBy.full (u := ![u 0, u 1, 0]) (s := 0) (z := z (0 + t)) (plain_transition c) hl (plain_total c)
        (plain_draw c u) hd (measurable_wallSensor c (z (0 + t))) hdraw
      have e : readingOr c true z t = fun y => ENNReal.ofReal (wallSensor c (z (0 + t)) y) := by
        funext y
        simp [readingOr]
      rw [e]
      exact this
  have hconv := C102_bootstrap (dflt := 0) (period := 0) (threshold := threshold) (prior_draws c hpx hpy hpt h)
    (κ := fun _ => κ) (ℓ := readingOr c use z) (T := T) hc hpos (prior := prior) (f := f)
    (fun N ω hN => (hstart N ω hN).2.1) (fun N ω hN => (hstart N ω hN).2.2) hint hint2 hε
  refine likely_of hconv (G := fun _ => True) (Filter.Eventually.of_forall fun _ => trivial) ?_
  rintro N ω hN - ⟨g, μ, S, h1, h2, h3, h4, h5⟩
  have hsame := run_alike (root := kthRoot) hm (if use then some mm else none) u (fun t => inputs fun i => ρ t i ω)
    (if use then z else 0) 0 T (f := f N ω) (f' := f N ω) rfl
  have h1' : (f N ω).run (bootUpdate 0 kthRoot) (bootCalls (plainModel c) (if use then some mm else none) u
      (fun t => inputs fun i => ρ t i ω) (if use then z else 0) 0 T) = .ok (true, g) := by
    rw [← h1]
    simp only [bootCalls, Nat.zero_add]
  rw [h1'] at hsame
  cases hr : (f N ω).run (bootUpdate 0 kthRoot) (bootCalls m (if use then some mm else none) u
      (fun t => inputs fun i => ρ t i ω) (if use then z else 0) 0 T) with
  | abort => rw [hr] at hsame; exact hsame.elim
  | ub => rw [hr] at hsame; exact hsame.elim
  | ok r =>
    rw [hr] at hsame
    obtain ⟨b, f'⟩ := r
    obtain ⟨e1, e2⟩ := hsame
    simp only at e1 e2
    subst e1
    refine ⟨prior N ω, f N ω, f', μ, S, (hstart N ω hN).1, (hstart N ω hN).2.2, hr, ?_, h4, h5⟩
    rw [e2.post]
    simp only [Settings.particleReport, h2, h3, Outcome.ok_bind, Outcome.pure_eq]

end many

end BFL.Props
