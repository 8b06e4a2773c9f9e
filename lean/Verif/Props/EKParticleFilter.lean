import Verif.Lemmas.EKParticleFilterRun
import Verif.Props.EKProposal

/-!
# C61: the particle filter with the EKF proposal density
-/

set_option linter.unusedSectionVars false

namespace BFL.Props

open Matrix Spec EKFilter MCPdf

variable {n m : Nat} {U : Type}

/-- **C61, negated.** No filter that was constructed from a prior ever completes an update, whatever
the models, the measurement and the random numbers: the proposal density writes its sample to a vector
without rows. -/
theorem C61_update_false {h h1 : GaussHeap ℝ n} {prior : MCPdf ℝ (Fin n → ℝ)} {period : Nat} {thr : ℝ}
    {f : EKFilter n m U} (ha : Assigned 0 prior)
    (hm : EKFilter.make h prior period thr = .ok (h1, f)) (hn : 0 < n) (be : Backend)
    (root : Nat → ℝ → ℝ) (noise : EKNoise n) (c : EKCall n m U) :
    ∀ r, update be root noise c h1 f ≠ .ok r := by
  intro r hr
  obtain ⟨sys, u, meas, z, s⟩ := c
  have hr' := hr
  simp only [update, Outcome.bind_eq_ok] at hr'
  obtain ⟨p, hp, q, hq, _⟩ := hr'
  cases sys with
  | none => simp [EKProposal.systemModelSet, cassert_false] at hp
  | some sys =>
    cases meas with
    | none => simp [EKProposal.measurementModelSet, cassert_false] at hq
    | some meas =>
      obtain ⟨x, S, _, _, e1, e2⟩ := ekFirst ha hm hn be root noise sys meas u s z
      by_cases hc : freshEkf be x S (some (sys, givenTo sys u)) (some (meas, z, givenTo meas s)) =
          .abort
      · rw [e1 hc] at hr; cases hr
      · rw [e2 hc] at hr; cases hr

/-- **C61, negated.** With valid models the first update of a constructed filter is undefined. -/
theorem C61_update_undefined {h h1 : GaussHeap ℝ n} {prior : MCPdf ℝ (Fin n → ℝ)} {period : Nat}
    {thr : ℝ} {f : EKFilter n m U} (ha : Assigned 0 prior)
    (hm : EKFilter.make h prior period thr = .ok (h1, f)) (hn : 0 < n) (be : Backend)
    (root : Nat → ℝ → ℝ) (t : EkUpdate n m U) (ht : t.Ok) :
    update be root t.call.1 t.call.2 h1 f = .ub := by
  obtain ⟨x, S, _, hS, _, e2⟩ := ekFirst ha hm hn be root t.noise t.sys t.meas t.u t.s t.z
  apply e2
  rw [freshEkf_eq ht.1 be ht.2 hS]
  simp

/-- **C61.** Without a system model or without a measurement model, an update stops at an assertion. -/
theorem C61_null {h h1 : GaussHeap ℝ n} {prior : MCPdf ℝ (Fin n → ℝ)} {period : Nat}
    {thr : ℝ} {f : EKFilter n m U} (ha : Assigned 0 prior)
    (hm : EKFilter.make h prior period thr = .ok (h1, f)) (be : Backend)
    (root : Nat → ℝ → ℝ) (noise : EKNoise n) (c : EKCall n m U)
    (hc : c.sys = none ∨ c.meas = none) : update be root noise c h1 f = .abort := by
  obtain ⟨_, _, _, _, _, _, _, rfl, _⟩ := ekMake_inv ha hm
  obtain ⟨sys, u, meas, z, s⟩ := c
  cases sys with
  | none => simp [update, EKProposal.systemModelSet, cassert_false]
  | some sys =>
    obtain rfl : meas = none := by simpa using hc
    have hd : (EKProposal.make h (m := m) (U := U) none none).2.dim = 0 ∨
      (EKProposal.make h (m := m) (U := U) none none).2.dim = n := Or.inl rfl
    simp [update, EKProposal.systemModelSet, cassert_true hd, cassert_true,
      EKProposal.measurementModelSet, cassert_false]

/-- **C61.** The particles from which the weights are computed are those of the prior given to the
constructor, after any number of updates and resampling steps. -/
theorem C61_old_samples {h h1 h2 : GaussHeap ℝ n} {prior : MCPdf ℝ (Fin n → ℝ)} {period : Nat}
    {thr : ℝ} {f f' : EKFilter n m U} {b : Bool} (ha : Assigned 0 prior)
    (hm : EKFilter.make h prior period thr = .ok (h1, f)) (be : Backend)
    (root : Nat → ℝ → ℝ) (calls : List (EKNoise n × EKCall n m U))
    (hr : EKFilter.run be root calls h1 (enlarged f) = .ok (b, h2, f')) :
    f'.cloud.old = prior.listGet := by
  rw [run_old hr]
  obtain ⟨_, _, _, _, _, _, _, rfl, _⟩ := ekMake_inv ha hm
  rfl

section Enlarged

variable {h h1 : GaussHeap ℝ n} {prior : MCPdf ℝ (Fin n → ℝ)} {period : Nat} {f : EKFilter n m U}
  (ha : Assigned 0 prior) (hm : EKFilter.make h prior period 0 = .ok (h1, f)) {N : Nat}
  {x : Nat → Fin n → ℝ} {w : Nat → ℝ}
  (hp : prior.listGet = (List.range N).map fun j => ⟨x j, some (w j)⟩)
  {S : Matrix (Fin n) (Fin n) ℝ} (hS : prior.covGet = .ok S)
include ha hm hp hS

/-- **C61.** If the vector were large enough, every sequence of updates before the first resampling
would succeed, and would compute the weights described by `programStep`. -/
theorem C61_run (be : Backend) (root : Nat → ℝ → ℝ) (ts : List (EkUpdate n m U))
    (ht : ∀ t ∈ ts, t.Ok) (hl : ts.length ≤ period) :
    ∃ h' f', EKFilter.run be root (ts.map EkUpdate.call) h1 (enlarged f) = .ok (true, h', f') ∧
      f'.cloud.post.listGet = (programRun N x ts ⟨x, w, fun _ => S⟩).list N := by
  obtain ⟨hr, hd, h0, hper⟩ := make_ready ha hm hp hS
  obtain ⟨h', f', e1, e2⟩ := run_program be root (N := N) (x0 := x) ts
    (c := ⟨x, fun j => if j < N then w j else 0, fun _ => S⟩) ht hr hd (by
      show f.timestep + _ ≤ f.period
      rw [h0, hper]; omega)
  refine ⟨h', f', e1, ?_⟩
  rw [show f'.cloud.post.listGet = f'.cloud.post.samples from rfl, e2.samples]
  exact AgreeOn.list (AgreeOn.programRun ts ⟨rfl, rfl, fun j hj => if_pos hj⟩)

/-- **C61.** The first of these updates computes the right importance weights, if the sensor has no
parameters. -/
theorem C61_first_partial (be : Backend) (root : Nat → ℝ → ℝ) (t : EkUpdate n m U) (ht : t.Ok)
    (hs : t.meas.withoutInputs = true) :
    ∃ h' f', update be root t.call.1 t.call.2 h1 (enlarged f) = .ok (true, h', f') ∧
      f'.cloud.post.listGet =
        (importanceStep N ⟨x, w, fun _ => S⟩ (t.step ⟨x, w, fun _ => S⟩)).list N := by
  have hper : 1 ≤ period := by
    obtain ⟨_, dyn, _, _, _, hpol, _⟩ := ekMake_inv ha hm
    simp only [ParticleFilter.policy, Outcome.bind_eq_ok, Outcome.pure_eq, Outcome.ok.injEq] at hpol
    obtain ⟨_, h4, _⟩ := hpol
    rw [cassert_eq_ok] at h4
    exact Nat.one_le_iff_ne_zero.2 fun h0 => h4 ⟨h0, trivial⟩
  obtain ⟨h', f', e1, e2⟩ := C61_run ha hm hp hS be root [t] (by simpa using ht) hper
  rw [List.map_singleton, EKFilter.run, show t.call = (t.call.1, t.call.2) from rfl] at e1
  simp only [EKFilter.run, Outcome.bind_eq_ok, Outcome.pure_eq, Outcome.ok.injEq, Prod.exists,
    Prod.mk.injEq] at e1
  obtain ⟨b, h2, f2, e3, _, _, _, ⟨rfl, rfl, rfl⟩, hb, rfl, rfl⟩ := e1
  simp only [Bool.and_true] at hb
  subst hb
  refine ⟨h2, f2, e3, ?_⟩
  rw [e2]
  simp only [programRun, programStep, importanceStep, hs, Bool.not_true, Bool.false_eq_true, if_false]

end Enlarged

/-! ### A filter with two particles on the line -/

namespace EKPFixture

/-- Random walk observed directly, with unit noise covariances. -/
noncomputable def M : EkModels 1 1 := ⟨id, fun _ => 1, fun _ => 1, id, fun _ => 1, fun _ => 1⟩

noncomputable def sys : AnalyticModel ℝ 1 1 Unit := .noInput id (fun _ => 1) fun _ => 1

/-- The sensor without parameters. -/
noncomputable def meas : AnalyticModel ℝ 1 1 Unit := .noInput id (fun _ => 1) fun _ => 1

/-- The same sensor with a parameter that has no effect. -/
noncomputable def measS : AnalyticModel ℝ 1 1 Unit :=
  .withInput (fun _ => id) (fun _ _ => 1) fun _ _ => 1

/-- An update with measurement 0 in which all random numbers are 0. -/
noncomputable def t : EkUpdate 1 1 Unit := ⟨M, sys, none, meas, none, 0, ⟨fun _ => 0, fun _ => 0, fun _ => 0⟩⟩

noncomputable def tS : EkUpdate 1 1 Unit := { t with meas := measS, s := some () }

theorem valid : M.Valid := fun _ => ⟨EKFixture.one_pd, EKFixture.one_pd⟩

theorem t_ok : t.Ok := ⟨valid, ⟨fun _ => ⟨rfl, rfl, rfl⟩, fun _ => ⟨rfl, rfl, rfl⟩⟩⟩

theorem tS_ok : tS.Ok := ⟨valid, ⟨fun _ => ⟨rfl, rfl, rfl⟩, fun _ => ⟨rfl, rfl, rfl⟩⟩⟩

/-- Particles 0 and 2. -/
def x (j : Nat) : Fin 1 → ℝ := fun _ => 2 * j

theorem x_eq (j : Nat) : x j = fun _ => 2 * (j : ℝ) := rfl

noncomputable def c0 : EkCloud 1 := ⟨x, fun _ => 1 / 2, fun _ => 1⟩

/-- A prior with these particles and weights 1/2, and a filter made from it. -/
theorem exists_filter (k : Nat) (hk : 0 < k) : ∃ prior h1, ∃ f : EKFilter 1 1 Unit,
    Assigned 0 prior ∧ prior.listGet = (List.range 2).map (fun j => ⟨x j, some (1 / 2)⟩) ∧
      prior.covGet = .ok 1 ∧ EKFilter.make Heap.empty prior k 0 = .ok (h1, f) := by
  let los : List (WSample ℝ (Fin 1 → ℝ)) := [⟨x 0, some (1 / 2)⟩, ⟨x 1, some (1 / 2)⟩]
  have ha : Admissible los := by
    intro s hs w hw
    simp only [los, List.mem_cons, List.not_mem_nil, or_false] at hs
    rcases hs with rfl | rfl <;> (cases hw; norm_num)
  obtain ⟨p, e1, _, e3, e4, _⟩ := C07_set_weighted (q := MCPdf.make 2 (0 : Fin 1 → ℝ)) (dflt := 0)
    ⟨2, [], rfl⟩ ha (ws := [1 / 2, 1 / 2]) rfl (by norm_num)
  have hasg : Assigned 0 p := ⟨_, .setW los, ⟨2, [], rfl⟩, ha, e1⟩
  have hl : p.listGet = (List.range 2).map fun j => ⟨x j, some (1 / 2)⟩ := by
    have e4' : p.listGet.map (·.weight) = [some (1 / 2), some (1 / 2)] := by
      rw [show p.listGet.map (·.weight) = _ from e4]; norm_num
    have e3' : p.listGet.map (·.value) = [x 0, x 1] := e3
    obtain ⟨a, b, hab⟩ : ∃ a b, p.listGet = [a, b] := by
      have := congrArg List.length e3'
      exact List.length_eq_two.1 (by simpa using this)
    rw [hab] at e3' e4' ⊢
    obtain ⟨a1, a2⟩ := a
    obtain ⟨b1, b2⟩ := b
    simp only [List.map_cons, List.map_nil, List.cons.injEq, and_true] at e3' e4'
    obtain ⟨rfl, rfl⟩ := e3'
    obtain ⟨rfl, rfl⟩ := e4'
    rfl
  obtain ⟨ws, hg⟩ := hasg.good
  have hws : ws = [1 / 2, 1 / 2] := by
    have := hg.1
    rw [show p.samples = _ from hl] at this
    have h2 : ([1 / 2, 1 / 2] : List ℝ).map some = ws.map some := by rw [← this]; rfl
    exact (List.map_injective_iff.2 (Option.some_injective _) h2).symm
  have hc : p.covGet = .ok 1 := by
    rw [covGet_eq hg, show p.samples = _ from hl, hws]
    congr 1
    ext i j
    obtain rfl := Subsingleton.elim i 0
    obtain rfl := Subsingleton.elim j 0
    simp [covMatrix, meanVector, average, x, List.range_succ]
    norm_num
  obtain ⟨post, hm, _⟩ := ekMake_ok (m := 1) (U := Unit) Heap.empty hg hc
    (period := k) (thr := 0) (dyn := false) (by
      simp [ParticleFilter.policy, cassert_true, hk.ne'])
  exact ⟨p, _, _, hasg, hl, hc, hm⟩

theorem smul_one_inv {a : ℝ} (ha : a ≠ 0) :
    (a • (1 : Matrix (Fin 1) (Fin 1) ℝ))⁻¹ = a⁻¹ • 1 :=
  Matrix.inv_eq_left_inv (by rw [Matrix.smul_mul, Matrix.one_mul, smul_smul, inv_mul_cancel₀ ha, one_smul])

theorem predCov_eq (v : Fin 1 → ℝ) (s : ℝ) : M.predCov v (s • 1) = (s + 1) • 1 := by
  simp [EkModels.predCov, M, add_smul]

theorem gain_eq (v : Fin 1 → ℝ) {s : ℝ} (hs : 0 < s) :
    M.gain v (s • 1) = ((s + 1) / (s + 2)) • 1 := by
  rw [EkModels.gain, predCov_eq]
  have h1 : M.H (M.f v) = 1 := rfl
  have h2 : M.R (M.f v) = 1 := rfl
  rw [h1, h2, Matrix.transpose_one, Matrix.mul_one, Matrix.one_mul,
    show (s + 1) • (1 : Matrix (Fin 1) (Fin 1) ℝ) * 1 + 1 = (s + 2) • 1 by
      rw [Matrix.mul_one, show s + 2 = s + 1 + 1 by ring, add_smul (s + 1), one_smul],
    smul_one_inv (by positivity), Matrix.smul_mul, Matrix.one_mul, smul_smul]
  rfl

theorem ekfMean_eq {s : ℝ} (hs : 0 < s) (a : ℝ) :
    M.ekfMean 0 (fun _ => a) (s • 1) = fun _ => a / (s + 2) := by
  rw [EkModels.ekfMean, gain_eq _ hs]
  funext i
  have : s + 2 ≠ 0 := by positivity
  simp [M, Matrix.smul_mulVec]
  field_simp
  ring

theorem ekfCov_eq (v : Fin 1 → ℝ) {s : ℝ} (hs : 0 < s) :
    M.ekfCov v (s • 1) = ((s + 1) / (s + 2)) • 1 := by
  rw [EkModels.ekfCov, gain_eq _ hs, predCov_eq]
  have : s + 2 ≠ 0 := by positivity
  rw [show M.H (M.f v) = 1 from rfl, Matrix.mul_one, Matrix.smul_mul, Matrix.one_mul, smul_smul,
    ← sub_smul]
  congr 1
  field_simp
  ring

theorem density_eq {s : ℝ} (hs : 0 < s) (a b : ℝ) :
    normalDensity (fun _ => a) (s • (1 : Matrix (Fin 1) (Fin 1) ℝ)) (fun _ => b) =
      Real.exp (-((b - a) ^ 2 / s) / 2) / Real.sqrt (2 * Real.pi * s) := by
  unfold normalDensity
  rw [smul_one_inv hs.ne']
  simp only [quad, Matrix.smul_mulVec, Matrix.one_mulVec]
  simp [dotProduct]
  congr 3
  ring

/-- Transition over proposal density in an update with measurement 0. -/
theorem ratio_eq {s : ℝ} (hs : 0 < s) (a b : ℝ) :
    M.transition (fun _ => a) (fun _ => b) / M.proposal 0 (fun _ => a) (s • 1) (fun _ => b) =
      Real.exp (-(b - a) ^ 2 / 2 + (b - a / (s + 2)) ^ 2 * (s + 2) / (s + 1) / 2) *
        (Real.sqrt (2 * Real.pi * ((s + 1) / (s + 2))) / Real.sqrt (2 * Real.pi * 1)) := by
  rw [EkModels.transition, EkModels.proposal, ekfMean_eq hs, ekfCov_eq _ hs,
    density_eq (by positivity),
    show M.Q (fun _ => a) = (1 : ℝ) • 1 by rw [one_smul]; rfl, show M.f (fun _ => a) = fun _ => a from rfl,
    density_eq one_pos, Real.exp_add]
  have h1 : Real.exp ((b - a / (s + 2)) ^ 2 * (s + 2) / (s + 1) / 2) =
      (Real.exp (-((b - a / (s + 2)) ^ 2 / ((s + 1) / (s + 2))) / 2))⁻¹ := by
    rw [← Real.exp_neg]
    congr 1
    field_simp
  rw [h1, show -((b - a) ^ 2 / 1) / 2 = -(b - a) ^ 2 / 2 by ring]
  field_simp

theorem list_ne {c c' : EkCloud 1} (v v' : Nat → ℝ) (hw : c.w = normalised 2 v)
    (hw' : c'.w = normalised 2 v') (h0 : v 0 = v' 0) (hp : 0 < v 0) (h1 : 0 < v 1) (h1' : 0 < v' 1)
    (hne : v 1 ≠ v' 1) : c.list 2 ≠ c'.list 2 := by
  intro h
  simp only [EkCloud.list, List.range_succ, List.range_zero, List.nil_append, List.cons_append,
    List.map_cons, List.map_nil, List.cons.injEq, WSample.mk.injEq, Option.some.injEq, and_true] at h
  have h2 := h.1.2
  rw [hw, hw'] at h2
  simp only [normalised, List.range_succ, List.range_zero, List.nil_append, List.cons_append,
    List.map_cons, List.map_nil, List.sum_cons, List.sum_nil, add_zero, ← h0] at h2
  rw [div_eq_div_iff (by positivity) (by positivity)] at h2
  exact hne (by linarith [mul_left_cancel₀ hp.ne' h2])

theorem step_y (s : ℝ) (hs : 0 < s) (c : EkCloud 1) (hS : c.S = fun _ => s • 1) (j : Nat) (a : ℝ)
    (hx : c.x j = fun _ => a) : (t.step c).y j = fun _ => a / (s + 2) := by
  have h1 : (t.step c).y j = M.ekfMean 0 (c.x j) (c.S j) +
      (cholesky Real.sqrt machEps (M.ekfCov (c.x j) (c.S j))).2 *ᵥ 0 := rfl
  rw [h1, Matrix.mulVec_zero, add_zero, hS, hx, ekfMean_eq hs]

theorem lik_pos (z y) : 0 < M.likelihood z y := normalDensity_pos (valid y).2 _ _

theorem trans_pos (a y) : 0 < M.transition a y := normalDensity_pos (valid a).1 _ _

theorem smul_psd {s : ℝ} (hs : 0 < s) : PSD (s • (1 : Matrix (Fin 1) (Fin 1) ℝ)) := by
  refine ⟨by simp, fun v => ?_⟩
  rw [Matrix.smul_mulVec, Matrix.one_mulVec, dotProduct_smul, smul_eq_mul]
  exact mul_nonneg hs.le (Finset.sum_nonneg fun i _ => mul_self_nonneg _)

theorem prop_pos {s : ℝ} (hs : 0 < s) (a y) : 0 < M.proposal 0 a (s • 1) y :=
  normalDensity_pos (ekfCov_pd valid (smul_psd hs) a) _ _

/-- The cloud after the first update. -/
noncomputable def c1 : EkCloud 1 := importanceStep 2 c0 (t.step c0)

theorem c0_S : c0.S = fun _ => (1 : ℝ) • 1 := by simp [c0]

theorem c1_x (j : Nat) : c1.x j = fun _ => 2 * (j : ℝ) / 3 := by
  have := step_y 1 one_pos c0 c0_S j (2 * j) rfl
  rw [show c1.x j = (t.step c0).y j from rfl, this]
  norm_num

theorem c1_S : c1.S = fun _ => ((2 : ℝ) / 3) • 1 := by
  funext j
  rw [show c1.S j = M.ekfCov (c0.x j) (c0.S j) from rfl, c0_S, ekfCov_eq _ one_pos]
  norm_num

theorem c1_w (j : Nat) : 0 < c1.w j := by
  have hv : ∀ j, 0 < c0.w j * (M.likelihood 0 ((t.step c0).y j) *
      M.transition (c0.x j) ((t.step c0).y j) / M.proposal 0 (c0.x j) (c0.S j) ((t.step c0).y j)) := by
    intro j
    have h1 := lik_pos 0 ((t.step c0).y j)
    have h2 := trans_pos (c0.x j) ((t.step c0).y j)
    have h3 := prop_pos one_pos (c0.x j) ((t.step c0).y j)
    rw [show c0.w j = 1 / 2 from rfl, c0_S]
    positivity
  refine div_pos (hv j) ?_
  simp only [List.range_succ, List.range_zero, List.nil_append, List.cons_append,
    List.map_cons, List.map_nil, List.sum_cons, List.sum_nil, add_zero]
  exact add_pos (hv 0) (hv 1)

theorem first_eq : programStep 2 x false c0 (t.step c0) = c1 := rfl

end EKPFixture

/-- **C61, negated.** Even with a vector that is large enough, the weights after the second update are
not the importance weights: they are computed from the particles of the prior. -/
theorem C61_weights_false : ∃ (prior : MCPdf ℝ (Fin 1 → ℝ)) (h1 : GaussHeap ℝ 1) (f : EKFilter 1 1 Unit)
    (ts : List (EkUpdate 1 1 Unit)) (x : Nat → Fin 1 → ℝ) (w : Nat → ℝ)
    (S : Matrix (Fin 1) (Fin 1) ℝ), Assigned 0 prior ∧
    EKFilter.make Heap.empty prior 2 0 = .ok (h1, f) ∧
    prior.listGet = (List.range 2).map (fun j => ⟨x j, some (w j)⟩) ∧ prior.covGet = .ok S ∧
    (∀ t ∈ ts, t.Ok) ∧ (∀ t ∈ ts, t.meas.withoutInputs = true) ∧
    ∀ be root, ∃ h' f', EKFilter.run be root (ts.map EkUpdate.call) h1 (enlarged f) =
        .ok (true, h', f') ∧
      f'.cloud.post.listGet ≠ (importanceRun 2 ts ⟨x, w, fun _ => S⟩).list 2 := by
  obtain ⟨prior, h1, f, ha, hl, hS, hm⟩ := EKPFixture.exists_filter 2 (by norm_num)
  have hok : ∀ t ∈ [EKPFixture.t, EKPFixture.t], t.Ok := by
    intro t ht
    simp only [List.mem_cons, List.not_mem_nil, or_false, or_self] at ht
    exact ht ▸ EKPFixture.t_ok
  refine ⟨prior, h1, f, [EKPFixture.t, EKPFixture.t], EKPFixture.x, fun _ => 1 / 2, 1, ha, hm, hl, hS,
    hok, ?_, fun be root => ?_⟩
  · intro t ht
    simp only [List.mem_cons, List.not_mem_nil, or_false, or_self] at ht
    exact ht ▸ rfl
  obtain ⟨h', f', e1, e2⟩ := C61_run ha hm hl hS be root _ hok (by simp)
  refine ⟨h', f', e1, ?_⟩
  rw [e2]
  have hp : programRun 2 EKPFixture.x [EKPFixture.t, EKPFixture.t] EKPFixture.c0 =
      programStep 2 EKPFixture.x false EKPFixture.c1 (EKPFixture.t.step EKPFixture.c1) := rfl
  have hi : importanceRun 2 [EKPFixture.t, EKPFixture.t] EKPFixture.c0 =
      importanceStep 2 EKPFixture.c1 (EKPFixture.t.step EKPFixture.c1) := rfl
  show (programRun 2 EKPFixture.x [EKPFixture.t, EKPFixture.t] EKPFixture.c0).list 2 ≠
    (importanceRun 2 [EKPFixture.t, EKPFixture.t] EKPFixture.c0).list 2
  rw [hp, hi]
  have hs : (0 : ℝ) < 2 / 3 := by norm_num
  have hy : ∀ j : Nat, (EKPFixture.t.step EKPFixture.c1).y j = fun _ => (j : ℝ) / 4 := by
    intro j
    rw [EKPFixture.step_y _ hs _ EKPFixture.c1_S j _ (EKPFixture.c1_x j)]
    funext _
    ring
  let g : (Fin 1 → ℝ) → Nat → ℝ := fun a j => EKPFixture.c1.w j *
    (EKPFixture.M.likelihood 0 ((EKPFixture.t.step EKPFixture.c1).y j) *
      EKPFixture.M.transition a ((EKPFixture.t.step EKPFixture.c1).y j) /
      EKPFixture.M.proposal 0 a (EKPFixture.c1.S j) ((EKPFixture.t.step EKPFixture.c1).y j))
  have hg : ∀ a j, 0 < g a j := by
    intro a j
    have h1 := EKPFixture.lik_pos 0 ((EKPFixture.t.step EKPFixture.c1).y j)
    have h2 := EKPFixture.trans_pos a ((EKPFixture.t.step EKPFixture.c1).y j)
    have h3 := EKPFixture.prop_pos hs a ((EKPFixture.t.step EKPFixture.c1).y j)
    have h4 := EKPFixture.c1_w j
    simp only [g, EKPFixture.c1_S]
    positivity
  refine EKPFixture.list_ne (fun j => g (EKPFixture.x j) j) (fun j => g (EKPFixture.c1.x j) j) ?_ rfl
    ?_ (hg _ _) (hg _ _) (hg _ _) ?_
  · show normalised 2 _ = normalised 2 _
    congr 1
  · show g (EKPFixture.x 0) 0 = g (EKPFixture.c1.x 0) 0
    congr 1
    rw [EKPFixture.c1_x]
    funext _
    simp [EKPFixture.x]
  · intro hgg
    have h4 := EKPFixture.c1_w 1
    have h1 := EKPFixture.lik_pos 0 ((EKPFixture.t.step EKPFixture.c1).y 1)
    simp only [g] at hgg
    have h5 := mul_left_cancel₀ h4.ne' hgg
    rw [mul_div_assoc, mul_div_assoc] at h5
    have h6 := mul_left_cancel₀ h1.ne' h5
    rw [EKPFixture.c1_S, hy 1, EKPFixture.c1_x, EKPFixture.x_eq, EKPFixture.ratio_eq hs,
      EKPFixture.ratio_eq hs] at h6
    have h7 : 0 < Real.sqrt (2 * Real.pi * ((2 / 3 + 1) / (2 / 3 + 2))) / Real.sqrt (2 * Real.pi * 1) := by
      have := Real.pi_pos
      positivity
    have h8 := Real.exp_injective (mul_right_cancel₀ h7.ne' h6)
    norm_num at h8

/-- **C61, negated.** With a sensor that has parameters the first update already goes wrong: the
weights are multiplied by the likelihood only, although the particles were drawn from the proposal. -/
theorem C61_sensor_false : ∃ (prior : MCPdf ℝ (Fin 1 → ℝ)) (h1 : GaussHeap ℝ 1) (f : EKFilter 1 1 Unit)
    (t : EkUpdate 1 1 Unit) (x : Nat → Fin 1 → ℝ) (w : Nat → ℝ)
    (S : Matrix (Fin 1) (Fin 1) ℝ), Assigned 0 prior ∧
    EKFilter.make Heap.empty prior 2 0 = .ok (h1, f) ∧
    prior.listGet = (List.range 2).map (fun j => ⟨x j, some (w j)⟩) ∧ prior.covGet = .ok S ∧ t.Ok ∧
    ∀ be root, ∃ h' f', EKFilter.run be root [t.call] h1 (enlarged f) = .ok (true, h', f') ∧
      f'.cloud.post.listGet ≠ (importanceRun 2 [t] ⟨x, w, fun _ => S⟩).list 2 := by
  obtain ⟨prior, h1, f, ha, hl, hS, hm⟩ := EKPFixture.exists_filter 2 (by norm_num)
  refine ⟨prior, h1, f, EKPFixture.tS, EKPFixture.x, fun _ => 1 / 2, 1, ha, hm, hl, hS,
    EKPFixture.tS_ok, fun be root => ?_⟩
  obtain ⟨h', f', e1, e2⟩ := C61_run ha hm hl hS be root [EKPFixture.tS]
    (by simpa using EKPFixture.tS_ok) (by simp)
  refine ⟨h', f', e1, ?_⟩
  rw [e2]
  show (programStep 2 EKPFixture.x true EKPFixture.c0 (EKPFixture.t.step EKPFixture.c0)).list 2 ≠
    (importanceStep 2 EKPFixture.c0 (EKPFixture.t.step EKPFixture.c0)).list 2
  -- both weights are scaled by the factor of the first particle
  let y := (EKPFixture.t.step EKPFixture.c0).y
  let q : Nat → ℝ := fun j => EKPFixture.M.transition (EKPFixture.x j) (y j) /
    EKPFixture.M.proposal 0 (EKPFixture.x j) ((1 : ℝ) • 1) (y j)
  have hq : ∀ j, 0 < q j := fun j =>
    div_pos (EKPFixture.trans_pos _ _) (EKPFixture.prop_pos one_pos _ _)
  have hl0 : ∀ j, 0 < EKPFixture.M.likelihood 0 (y j) := fun j => EKPFixture.lik_pos _ _
  have hy : ∀ j : Nat, y j = fun _ => 2 * (j : ℝ) / 3 := EKPFixture.c1_x
  refine EKPFixture.list_ne (fun j => q 0 * (1 / 2 * EKPFixture.M.likelihood 0 (y j)))
    (fun j => 1 / 2 * (EKPFixture.M.likelihood 0 (y j) * q j)) ?_ ?_ ?_ ?_ ?_ ?_ ?_
  · funext j
    show normalised 2 (fun j => 1 / 2 * EKPFixture.M.likelihood 0 (y j)) j = _
    simp only [normalised]
    rw [List.sum_map_mul_left (List.range 2) (fun j => 1 / 2 * EKPFixture.M.likelihood 0 (y j)) (q 0),
      mul_div_mul_left _ _ (hq 0).ne']
  · show normalised 2 _ = normalised 2 _
    congr 1
    funext j
    simp only [q, ← mul_div_assoc, one_smul]
    rfl
  · ring
  · have := hq 0; have := hl0 0; positivity
  · have := hq 0; have := hl0 1; positivity
  · have := hq 1; have := hl0 1; positivity
  · intro h
    have h1 : q 0 = q 1 := by
      have h2 : (1 / 2 * EKPFixture.M.likelihood 0 (y 1)) * q 0 =
          (1 / 2 * EKPFixture.M.likelihood 0 (y 1)) * q 1 := by linarith
      exact mul_left_cancel₀ (by have := hl0 1; positivity) h2
    simp only [q] at h1
    rw [hy 0, hy 1, EKPFixture.x_eq, EKPFixture.x_eq, EKPFixture.ratio_eq one_pos,
      EKPFixture.ratio_eq one_pos] at h1
    have h7 : 0 < Real.sqrt (2 * Real.pi * ((1 + 1) / (1 + 2))) / Real.sqrt (2 * Real.pi * 1) := by
      have := Real.pi_pos
      positivity
    have h8 := Real.exp_injective (mul_right_cancel₀ h7.ne' h1)
    norm_num at h8

/-- The constructed filter, and its first update. -/
example : ∃ prior h1, ∃ f : EKFilter 1 1 Unit, EKFilter.make Heap.empty prior 2 0 = .ok (h1, f) ∧
    ∀ be root, update be root EKPFixture.t.call.1 EKPFixture.t.call.2 h1 f = .ub := by
  obtain ⟨prior, h1, f, ha, _, _, hm⟩ := EKPFixture.exists_filter 2 (by norm_num)
  exact ⟨prior, h1, f, hm, fun be root =>
    C61_update_undefined ha hm one_pos be root _ EKPFixture.t_ok⟩

/-- The first update of the enlarged filter. -/
example : ∃ prior h1, ∃ f : EKFilter 1 1 Unit, EKFilter.make Heap.empty prior 2 0 = .ok (h1, f) ∧
    ∀ be root, ∃ h' f', update be root EKPFixture.t.call.1 EKPFixture.t.call.2 h1 (enlarged f) =
      .ok (true, h', f') ∧ f'.cloud.post.listGet.map (·.value) = [fun _ => 0, fun _ => 2 / 3] := by
  obtain ⟨prior, h1, f, ha, hl, hS, hm⟩ := EKPFixture.exists_filter 2 (by norm_num)
  refine ⟨prior, h1, f, hm, fun be root => ?_⟩
  obtain ⟨h', f', e1, e2⟩ := C61_first_partial ha hm hl hS be root _ EKPFixture.t_ok rfl
  refine ⟨h', f', e1, ?_⟩
  rw [e2]
  show [EKPFixture.c1.x 0, EKPFixture.c1.x 1] = _
  rw [EKPFixture.c1_x, EKPFixture.c1_x]
  norm_num

end BFL.Props
