import Verif.Model.RoundedParticle
import Verif.Lemmas.Rounded

/-!
# Without rounding the exact models are obtained

`Model/RoundedMCPdf.lean` and `Model/RoundedParticle.lean` with the identity in place of a rounding are
`Model/MCPdf.lean` and `Model/ParticleFilter.lean`.
-/

set_option linter.unusedSectionVars false

namespace BFL.Rounded

variable {R SV MV K : Type} [Field K] [LinearOrder K] [IsStrictOrderedRing K]

section

variable {T : Type}

theorem MC.cumUpdate_id (p : MCPdf K T) : MC.cumUpdate id p = p.cumUpdate := by
  simp only [MC.cumUpdate, MCPdf.cumUpdate, runningSums_id, id_eq]

theorem MC.sumWeightsUpdate_id (p : MCPdf K T) : MC.sumWeightsUpdate id p = p.sumWeightsUpdate := by
  simp only [MC.sumWeightsUpdate, MCPdf.sumWeightsUpdate, sum_id]

theorem MC.normalizeWeights_id (p : MCPdf K T) : MC.normalizeWeights id p = p.normalizeWeights := by
  simp only [MC.normalizeWeights, MCPdf.normalizeWeights, MC.sumWeightsUpdate_id, MC.cumUpdate_id, id_eq]

theorem MC.listSetW_id (dflt : T) (p : MCPdf K T) (l : List (WSample K T)) :
    MC.listSetW id dflt p l = p.listSetW dflt l := by
  simp only [MC.listSetW, MCPdf.listSetW, MC.normalizeWeights_id]

theorem MC.uniformWeights_id (l : List T) :
    MC.uniformWeights (K := K) id l = MCPdf.uniformWeights l := by
  simp only [MC.uniformWeights, MCPdf.uniformWeights, id_eq]

theorem MC.listSetU_id (dflt : T) (p : MCPdf K T) (l : List T) :
    MC.listSetU id dflt p l = p.listSetU dflt l := by
  simp only [MC.listSetU, MCPdf.listSetU, MC.uniformWeights_id, MC.cumUpdate_id]

theorem MC.listUpdateW_id (p : MCPdf K T) (l : List (WSample K T)) :
    MC.listUpdateW id p l = p.listUpdateW l := by
  simp only [MC.listUpdateW, MCPdf.listUpdateW, MC.normalizeWeights_id]

theorem MC.listUpdateU_id (dflt : T) (p : MCPdf K T) (l : List T) :
    MC.listUpdateU id dflt p l = p.listUpdateU dflt l := by
  simp only [MC.listUpdateU, MCPdf.listUpdateU, MC.uniformWeights_id, MC.cumUpdate_id]

theorem MC.step_id (dflt : T) (p : MCPdf K T) (o : MCPdf.Op K T) :
    MC.step id dflt p o = p.step dflt o := by
  cases o <;> simp only [MC.step, MCPdf.step, MC.listSetW_id, MC.listSetU_id, MC.listUpdateW_id,
    MC.listUpdateU_id]

theorem MC.run_id (dflt : T) (p : MCPdf K T) (os : List (MCPdf.Op K T)) :
    MC.run id dflt p os = p.run dflt os := by
  induction os generalizing p with
  | nil => rfl
  | cons o os ih => simp only [MC.run, MCPdf.run, MC.step_id, ih]

theorem MC.orderedUniforms_id (root : Nat → K → K) (i : Nat) (us : List K) :
    MC.orderedUniforms id root i us = BFL.orderedUniforms root i us := by
  induction us generalizing i with
  | nil => rfl
  | cons u us ih =>
    cases us with
    | nil => rfl
    | cons v us =>
      simp only [MC.orderedUniforms, BFL.orderedUniforms, ih, id_eq]
      cases BFL.orderedUniforms root (i + 1) (v :: us) <;> rfl

theorem MC.sampleRipley_id (root : Nat → K → K) (p : MCPdf K T) (us : List K) :
    p.sampleList root .ripley us = (do let ts ← MC.sampleRipley id root p us; return some ts) := by
  simp only [MC.sampleRipley, MCPdf.sampleList, MC.orderedUniforms_id]
  split_ifs
  · rfl
  · rfl

theorem MC.meanGet_id {n : Nat} (p : MCPdf K (Fin n → K)) : MC.meanGet id p = p.meanGet := by
  unfold MC.meanGet MCPdf.meanGet
  congr 1
  funext ws
  simp only [sum_id, Outcome.pure_eq, id_eq, Outcome.ok.injEq]
  funext j
  rw [Pi.smul_apply, smul_eq_mul, div_eq_inv_mul]
  congr 1
  generalize p.samples = ss
  induction ss generalizing ws with
  | nil => simp
  | cons s ss ih =>
    cases ws with
    | nil => simp
    | cons w ws =>
      rw [List.zipWith_cons_cons, List.zipWith_cons_cons, List.sum_cons, List.sum_cons, ih, Pi.add_apply,
        Pi.smul_apply, smul_eq_mul, mul_comm]

end

namespace PF

theorem factor_id (q : Option (Proposal R SV K)) (sys : Option (SysModel R SV K)) (u : SV)
    (mm : Model SV MV K) (z : MV) (s x y : SV) :
    factor id q sys u mm z s x y = Cloud.factor q sys u mm z s x y := by
  unfold factor Cloud.factor
  cases sys with
  | none => rfl
  | some m => rfl

theorem weightLoop_id (f : SV → SV → Outcome K) (olds news : List (WSample K SV)) :
    weightLoop id f olds news = (do let r ← Cloud.weightLoop f olds news; return r.1) := by
  induction news generalizing olds with
  | nil => cases olds <;> rfl
  | cons n ns ih =>
    cases olds with
    | nil => rfl
    | cons o os =>
      simp only [weightLoop, Cloud.weightLoop, ih, id_eq]
      cases f o.value n.value with
      | ok g =>
        simp only [Outcome.ok_bind]
        cases n.weightGet with
        | ok w =>
          simp only [Outcome.ok_bind]
          cases n.weightSet (w * g) with
          | ok n' =>
            simp only [Outcome.ok_bind]
            cases Cloud.weightLoop f os ns <;> rfl
          | abort => rfl
          | ub => rfl
        | abort => rfl
        | ub => rfl
      | abort => rfl
      | ub => rfl

theorem update_id (dflt : SV) (root : Nat → K → K) (noise : Noise R K) (c : UpdateCall R SV MV K)
    (f : ParticleFilter R SV K) : update id dflt root noise c f = f.update dflt root noise c := by
  have hres : ∀ scheme us (cl : Cloud K SV), resample id dflt root scheme us cl =
      Cloud.resample dflt root scheme us cl := by
    intro scheme us cl
    have : drawUnweighted id root scheme us cl = Cloud.drawUnweighted root scheme us cl := by
      cases scheme with
      | multinomial =>
        simp only [drawUnweighted, Cloud.drawUnweighted, MC.sampleRipley_id]
        cases MC.sampleRipley id root cl.post ((List.range cl.post.numSamples).map us) <;> rfl
      | _ => rfl
    simp only [resample, Cloud.resample, this, MC.listUpdateU_id]
  have hfac : ∀ q sys u (mm : Model SV MV K) z s,
      factor (R := R) id q sys u mm z s = Cloud.factor q sys u mm z s := by
    intro q sys u mm z s; funext x y; exact factor_id ..
  have h1 : ∀ us (f : ParticleFilter R SV K), staticStep id dflt root us f = f.staticStep dflt root us := by
    intro us f; simp only [staticStep, ParticleFilter.staticStep, hres]
  have h2 : ∀ us (f : ParticleFilter R SV K), dynamicStep id dflt root us f = f.dynamicStep dflt root us := by
    intro us f
    simp only [dynamicStep, ParticleFilter.dynamicStep, resampleIfDegenerate, Cloud.resampleIfDegenerate, hres,
      sumSquares, Cloud.sumSquares, sum_id, id_eq, Cloud.tooFew, decide_eq_true_eq]
  have h3 : ∀ m u rs (f : ParticleFilter R SV K), proposalStep id m u rs f = f.proposalStep m u rs := by
    intro m u rs f
    simp only [proposalStep, ParticleFilter.proposalStep, propose, Cloud.propose, MC.listUpdateW_id]
  have h4 : ∀ (c : UpdateCall R SV MV K) mm (f : ParticleFilter R SV K), weightStep id c mm f = f.weightStep c mm := by
    intro c mm f
    simp only [weightStep, ParticleFilter.weightStep, reweight, Cloud.reweight, MC.listUpdateW_id, weightLoop_id, hfac]
    cases Cloud.weightLoop (Cloud.factor f.proposal c.sys c.u mm c.z c.s) f.cloud.old f.cloud.post.listGet with
    | ok r =>
      simp only [Outcome.ok_bind, Outcome.pure_eq]
      cases f.cloud.post.listUpdateW r.1 <;> rfl
    | abort => rfl
    | ub => rfl
  have h5 : ∀ r, sysPart id dflt root noise c r = ParticleFilter.sysPart dflt root noise c r := by
    intro r
    unfold sysPart ParticleFilter.sysPart
    cases c.sys with
    | none => rfl
    | some m => simp only [funext fun f => h1 noise.static f, funext fun f => h3 m c.u noise.prop f]
  have h6 : ∀ r, measPart id dflt root noise c r = ParticleFilter.measPart dflt root noise c r := by
    intro r
    unfold measPart ParticleFilter.measPart
    cases c.meas with
    | none => rfl
    | some mm => simp only [funext fun f => h4 c mm f, funext fun f => h2 noise.dynamic f]
  simp only [update, ParticleFilter.update, h5, h6]

theorem bootUpdate_id (dflt : SV) (root : Nat → K → K) (noise : Noise R K) (c : UpdateCall R SV MV K)
    (f : ParticleFilter R SV K) : bootUpdate id dflt root noise c f = f.bootUpdate dflt root noise c := by
  obtain ⟨sys, v, meas, z, s⟩ := c
  cases sys <;> cases meas <;> simp only [bootUpdate, ParticleFilter.bootUpdate, bootSys,
    ParticleFilter.bootSys, bootMeas, ParticleFilter.bootMeas, update_id]

theorem make_id (dflt : SV) (prior : MCPdf K SV) (q : Option (Proposal R SV K)) (period : Nat) (threshold : K)
    (scheme : Scheme) : make id dflt prior q period threshold scheme =
      ParticleFilter.make dflt prior q period threshold scheme := by
  simp only [make, ParticleFilter.make, MC.listSetW_id]

end PF

end BFL.Rounded
