import Verif.Lemmas.MixtureParticleFilter
import Verif.Props.ParticleFilterFixture

/-!
# Properties of `MixtureParticleFilter` and `MixtureBootstrapFilter`: C28, C30, C31, C53

`flattened` and `reweightedBy` are in `Verif/Spec/Particles.lean`.
-/

set_option linter.unusedSectionVars false
set_option synthInstance.maxSize 1000

namespace BFL.Props

open Spec MCPdf MixtureParticleFilter Cloud

variable {R SV MV K : Type} [Field K] [LinearOrder K] [IsStrictOrderedRing K]

/-- Mixture filters a program can hold: constructed from a mixture of particle sets that were
assigned successfully, then any updates of either filter class, whatever they returned, and any
`ProposalSet` calls. -/
inductive MReached (MV : Type) (dflt : SV) (root : Nat → K → K) (period : Nat) (threshold : K)
    (scheme : Scheme) : MixtureParticleFilter R SV K → Prop
  | make {dims : MCPdf K SV → Nat} {prior : Mixture K (MCPdf K SV)} {q : Option (Proposal R SV K)}
      {f : MixtureParticleFilter R SV K} (hb : Built dims prior)
      (ha : ∀ p ∈ prior.comps, Assigned dflt p)
      (h : MixtureParticleFilter.make dflt prior q period threshold scheme = .ok f) :
      MReached MV dflt root period threshold scheme f
  | update {f f' : MixtureParticleFilter R SV K} {noise : Nat → Noise R K}
      {c : UpdateCall R SV MV K} {b : Bool}
      (hf : MReached MV dflt root period threshold scheme f)
      (h : f.update dflt root noise c = .ok (b, f')) :
      MReached MV dflt root period threshold scheme f'
  | bootUpdate {f f' : MixtureParticleFilter R SV K} {noise : Nat → Noise R K}
      {c : UpdateCall R SV MV K} {b : Bool}
      (hf : MReached MV dflt root period threshold scheme f)
      (h : f.bootUpdate dflt root noise c = .ok (b, f')) :
      MReached MV dflt root period threshold scheme f'
  | proposalSet {f : MixtureParticleFilter R SV K} (q : Option (Proposal R SV K))
      (hf : MReached MV dflt root period threshold scheme f) :
      MReached MV dflt root period threshold scheme { f with proposal := q }

/-- Component `k` of the posterior holds the particles `pss[k]`. -/
def HoldsAll (f : MixtureParticleFilter R SV K) (pss : List (List (SV × K))) : Prop :=
  List.Forall₂ (fun (c : Cloud K SV) ps => Holds c.post ps) f.mix.comps pss

/-! ## Invariants -/

section invariant

variable {dflt : SV} {root : Nat → K → K} {period : Nat} {threshold : K} {scheme : Scheme}

/-- What every reachable mixture filter satisfies. -/
structure MParams (period : Nat) (threshold : K) (scheme : Scheme)
    (f : MixtureParticleFilter R SV K) : Prop where
  inv : ∀ c ∈ f.mix.comps, c.Inv
  lengths : f.mix.weights.length = f.mix.comps.length
  nonneg : ∀ w ∈ f.mix.weights, 0 ≤ w
  nonempty : f.mix.comps ≠ []
  hperiod : f.period = period
  hthreshold : f.threshold = threshold
  hscheme : f.scheme = scheme
  dynamic : f.dynamic = decide (period = 0)

theorem MParams.setComps {f : MixtureParticleFilter R SV K} (hp : MParams period threshold scheme f)
    {cs : List (Cloud K SV)} (hi : ∀ c ∈ cs, c.Inv) (hl : cs.length = f.mix.comps.length)
    {sample : SV} {t : Nat} :
    MParams period threshold scheme
      { f with mix := { f.mix with comps := cs }, sample := sample, timestep := t } := by
  refine ⟨hi, by simpa [hl] using hp.lengths, hp.nonneg, ?_, hp.hperiod, hp.hthreshold,
    hp.hscheme, hp.dynamic⟩
  intro h
  have h0 : cs = [] := h
  have := hp.nonempty
  rw [h0] at hl
  exact this (List.length_eq_zero_iff.1 hl.symm)

theorem each_inv {step : Nat → Cloud K SV → Outcome (Bool × Cloud K SV)}
    (hs : ∀ k c b c', c.Inv → step k c = .ok (b, c') → b = true ∧ c'.Inv)
    {cs cs' : List (Cloud K SV)} {b : Bool} (hi : ∀ c ∈ cs, c.Inv)
    (h : eachComponent step 0 cs = .ok (b, cs')) :
    b = true ∧ (∀ c ∈ cs', c.Inv) ∧ cs'.length = cs.length := by
  obtain ⟨h0, h1, h2⟩ := eachComponent_rel (P := fun _ c => c.Inv)
    (fun _ k c b c' hc h => hs k c b c' hc h) cs 0 0
    (fun i c hc => hi c (List.mem_of_getElem? hc)) h
  refine ⟨h0, ?_, h2⟩
  intro c hc
  obtain ⟨i, hi, rfl⟩ := List.getElem_of_mem hc
  exact h1 i _ (List.getElem?_eq_getElem hi)

theorem mStaticStep_params {noise : Nat → Noise R K} {f f' : MixtureParticleFilter R SV K}
    {b : Bool} (hp : MParams period threshold scheme f)
    (h : f.staticStep dflt root noise = .ok (b, f')) :
    b = true ∧ MParams period threshold scheme f' ∧ f'.timestep = f.timestep ∧
      f'.proposal = f.proposal ∧ f'.mix.weights = f.mix.weights ∧
      f'.mix.comps.length = f.mix.comps.length ∧ (period = 0 → f' = f) := by
  unfold MixtureParticleFilter.staticStep at h
  split at h
  · rename_i hc
    simp only [Outcome.bind_eq_ok, Outcome.pure_eq, Outcome.ok.injEq, Prod.mk.injEq,
      Prod.exists] at h
    obtain ⟨b', cs, hr, rfl, rfl⟩ := h
    obtain ⟨rfl, hi, hl⟩ := each_inv (fun k c b c' hc h => Cloud.resample_inv hc h) hp.inv hr
    refine ⟨rfl, hp.setComps hi hl, rfl, rfl, rfl, hl, ?_⟩
    intro h0
    have := hp.dynamic
    rw [hc.1, h0] at this
    simp at this
  · simp only [Outcome.pure_eq, Outcome.ok.injEq, Prod.mk.injEq] at h
    obtain ⟨rfl, rfl⟩ := h
    exact ⟨rfl, hp, rfl, rfl, rfl, rfl, fun _ => rfl⟩

theorem mDynamicStep_params {noise : Nat → Noise R K} {f f' : MixtureParticleFilter R SV K}
    {b : Bool} (hp : MParams period threshold scheme f)
    (h : f.dynamicStep dflt root noise = .ok (b, f')) :
    b = true ∧ MParams period threshold scheme f' ∧ f'.timestep = f.timestep ∧
      f'.mix.weights = f.mix.weights ∧ f'.mix.comps.length = f.mix.comps.length := by
  unfold MixtureParticleFilter.dynamicStep at h
  split at h
  · simp only [Outcome.bind_eq_ok, Outcome.pure_eq, Outcome.ok.injEq, Prod.mk.injEq,
      Prod.exists] at h
    obtain ⟨b', cs, hr, rfl, rfl⟩ := h
    obtain ⟨rfl, hi, hl⟩ :=
      each_inv (fun k c b c' hc h => Cloud.resampleIfDegenerate_inv hc h) hp.inv hr
    exact ⟨rfl, hp.setComps hi hl, rfl, rfl, hl⟩
  · simp only [Outcome.pure_eq, Outcome.ok.injEq, Prod.mk.injEq] at h
    obtain ⟨rfl, rfl⟩ := h
    exact ⟨rfl, hp, rfl, rfl, rfl⟩

theorem mProposalStep_params {m : SysModel R SV K} {u : SV} {noise : Nat → Noise R K}
    {f f' : MixtureParticleFilter R SV K} {b : Bool} (hp : MParams period threshold scheme f)
    (h : f.proposalStep m u noise = .ok (b, f')) :
    MParams period threshold scheme f' ∧ f'.mix.comps.length = f.mix.comps.length ∧
      (b = true → f'.timestep = f.timestep + f.mix.comps.length) := by
  unfold MixtureParticleFilter.proposalStep at h
  simp only [Outcome.bind_eq_ok, Outcome.pure_eq, Outcome.ok.injEq, Prod.mk.injEq,
    Prod.exists] at h
  obtain ⟨b', cs, last, t, hr, rfl, rfl⟩ := h
  obtain ⟨h1, h2, h3⟩ := proposeLoop_rel (P := Cloud.Inv)
    (fun i c prev b c' last hc h => Cloud.propose_inv hc h) _ _ _ _ hp.inv hr
  exact ⟨hp.setComps h1 h2, h2, h3⟩

theorem mWeightStep_params {c : UpdateCall R SV MV K} {mm : Model SV MV K}
    {f f' : MixtureParticleFilter R SV K} {b : Bool} (hp : MParams period threshold scheme f)
    (h : f.weightStep c mm = .ok (b, f')) :
    MParams period threshold scheme f' ∧ f'.timestep = f.timestep ∧
      f'.mix.comps.length = f.mix.comps.length := by
  unfold MixtureParticleFilter.weightStep at h
  simp only [Outcome.bind_eq_ok, Outcome.pure_eq, Outcome.ok.injEq, Prod.mk.injEq,
    Prod.exists] at h
  obtain ⟨cs, sums, h1, ws, h2, b', mix, h3, rfl, rfl⟩ := h
  obtain ⟨g1, g2, g3⟩ := reweightLoop_rel (P := fun _ c => c.Inv)
    (fun i c b c' s hc h => Cloud.reweight_inv hc h) _ 0
    (fun i c hc => hp.inv c (List.mem_of_getElem? hc)) h1
  have hi : ∀ c ∈ cs, c.Inv := by
    intro c hc
    obtain ⟨i, hi, rfl⟩ := List.getElem_of_mem hc
    exact g1 i _ (List.getElem?_eq_getElem hi)
  have hne : cs ≠ [] := by
    intro h0
    rw [h0] at g2
    exact hp.nonempty (List.length_eq_zero_iff.1 g2.symm)
  unfold Mixture.weightsSet at h3
  simp only [Outcome.bind_eq_ok] at h3
  obtain ⟨ws', h4, _, _, _, h5, h6⟩ := h3
  obtain ⟨h4, rfl⟩ := mapOutcome_mkProb_eq_ok.1 h4
  rw [cassert_eq_ok] at h5
  have h5' : ws'.length = cs.length := h5
  suffices hm : mix.comps = cs ∧ mix.weights.length = cs.length ∧ ∀ w ∈ mix.weights, 0 ≤ w by
    refine ⟨⟨?_, ?_, hm.2.2, ?_, hp.hperiod, hp.hthreshold, hp.hscheme, hp.dynamic⟩, rfl, ?_⟩
    · simpa [hm.1] using hi
    · simpa [hm.1] using hm.2.1
    · simpa [hm.1] using hne
    · simpa [hm.1] using g2
  by_cases hpos : 0 < ws'.sum
  · rw [Mixture.renormalize_pos (m := ⟨f.mix.dim, cs, ws', f.mix.cum⟩) h5' h4 hpos] at h6
    simp only [Outcome.ok.injEq, Prod.mk.injEq] at h6
    obtain ⟨_, rfl⟩ := h6
    refine ⟨rfl, by simpa using h5', ?_⟩
    intro w hw
    obtain ⟨v, hv, rfl⟩ := List.mem_map.1 hw
    exact div_nonneg (h4 v hv) hpos.le
  · have h0 : ws'.sum = 0 := le_antisymm (not_lt.1 hpos) (List.sum_nonneg h4)
    rw [Mixture.renormalize_zero (m := ⟨f.mix.dim, cs, ws', f.mix.cum⟩) h0] at h6
    simp only [Outcome.ok.injEq, Prod.mk.injEq] at h6
    obtain ⟨_, rfl⟩ := h6
    exact ⟨rfl, h5', h4⟩

theorem mSysPart_params {noise : Nat → Noise R K} {c : UpdateCall R SV MV K}
    {f f' : MixtureParticleFilter R SV K} {b : Bool} (hp : MParams period threshold scheme f)
    (h : MixtureParticleFilter.sysPart dflt root noise c (true, f) = .ok (b, f')) :
    MParams period threshold scheme f' ∧ f'.mix.comps.length = f.mix.comps.length ∧
      (b = true → f'.timestep = if c.sys.isSome then f.timestep + f.mix.comps.length
        else f.timestep) := by
  obtain ⟨csys, cu, cmeas, cz, cs⟩ := c
  cases csys with
  | none =>
    simp only [MixtureParticleFilter.sysPart, Outcome.ok.injEq, Prod.mk.injEq] at h
    obtain ⟨rfl, rfl⟩ := h
    exact ⟨hp, rfl, by simp⟩
  | some m =>
    simp only [MixtureParticleFilter.sysPart, andStep, if_true, Outcome.bind_eq_ok,
      Prod.exists] at h
    obtain ⟨b1, f1, h1, h2⟩ := h
    obtain ⟨rfl, hp1, ht, _, _, hl, _⟩ := mStaticStep_params hp h1
    simp only [if_true] at h2
    obtain ⟨hp2, hl2, ht2⟩ := mProposalStep_params hp1 h2
    exact ⟨hp2, hl2.trans hl, fun hb => by simp [ht2 hb, ht, hl]⟩

theorem mMeasPart_params {noise : Nat → Noise R K} {c : UpdateCall R SV MV K}
    {f f' : MixtureParticleFilter R SV K} {b b' : Bool} (hp : MParams period threshold scheme f)
    (h : MixtureParticleFilter.measPart dflt root noise c (b, f) = .ok (b', f')) :
    MParams period threshold scheme f' ∧ f'.mix.comps.length = f.mix.comps.length ∧
      f'.timestep = f.timestep ∧ (b' = true → b = true) := by
  obtain ⟨csys, cu, cmeas, cz, cs⟩ := c
  cases cmeas with
  | none =>
    simp only [MixtureParticleFilter.measPart, Outcome.ok.injEq, Prod.mk.injEq] at h
    obtain ⟨rfl, rfl⟩ := h
    exact ⟨hp, rfl, rfl, id⟩
  | some mm =>
    simp only [MixtureParticleFilter.measPart, andStep, Outcome.bind_eq_ok, Prod.exists] at h
    obtain ⟨b1, f1, h1, h2⟩ := h
    cases b with
    | false =>
      simp only [Bool.false_eq_true, if_false, Outcome.ok.injEq, Prod.mk.injEq] at h1
      obtain ⟨rfl, rfl⟩ := h1
      simp only [Bool.false_eq_true, if_false, Outcome.ok.injEq, Prod.mk.injEq] at h2
      obtain ⟨rfl, rfl⟩ := h2
      exact ⟨hp, rfl, rfl, id⟩
    | true =>
      simp only [if_true] at h1
      obtain ⟨hp1, ht1, hl1⟩ := mWeightStep_params hp h1
      cases b1 with
      | false =>
        simp only [Bool.false_eq_true, if_false, Outcome.ok.injEq, Prod.mk.injEq] at h2
        obtain ⟨rfl, rfl⟩ := h2
        exact ⟨hp1, hl1, ht1, by simp⟩
      | true =>
        simp only [if_true] at h2
        obtain ⟨_, hp2, ht2, _, hl2⟩ := mDynamicStep_params hp1 h2
        exact ⟨hp2, hl2.trans hl1, ht2.trans ht1, fun _ => rfl⟩

theorem mUpdate_params {noise : Nat → Noise R K} {c : UpdateCall R SV MV K}
    {f f' : MixtureParticleFilter R SV K} {b : Bool} (hp : MParams period threshold scheme f)
    (h : f.update dflt root noise c = .ok (b, f')) :
    MParams period threshold scheme f' ∧ f'.mix.comps.length = f.mix.comps.length ∧
      (b = true → f'.timestep = if c.sys.isSome then f.timestep + f.mix.comps.length
        else f.timestep) := by
  simp only [MixtureParticleFilter.update, Outcome.bind_eq_ok, Prod.exists] at h
  obtain ⟨b1, f1, h1, h2⟩ := h
  obtain ⟨hp1, hl1, ht1⟩ := mSysPart_params hp h1
  obtain ⟨hp2, hl2, ht2, hb⟩ := mMeasPart_params hp1 h2
  exact ⟨hp2, hl2.trans hl1, fun h => by rw [ht2, ht1 (hb h)]⟩

theorem MParams.proposal {f : MixtureParticleFilter R SV K} (hp : MParams period threshold scheme f)
    (q : Option (Proposal R SV K)) : MParams period threshold scheme { f with proposal := q } :=
  ⟨hp.inv, hp.lengths, hp.nonneg, hp.nonempty, hp.hperiod, hp.hthreshold, hp.hscheme, hp.dynamic⟩

theorem mBootSys_params {noise : Nat → Noise R K} {c : UpdateCall R SV MV K}
    {f f' : MixtureParticleFilter R SV K} {b : Bool} (hp : MParams period threshold scheme f)
    (h : f.bootSys dflt root noise c = .ok (b, f')) : MParams period threshold scheme f' := by
  obtain ⟨csys, cu, cmeas, cz, cs⟩ := c
  cases csys with
  | none =>
    simp only [MixtureParticleFilter.bootSys, Outcome.ok.injEq, Prod.mk.injEq] at h
    obtain ⟨rfl, rfl⟩ := h
    exact hp
  | some m => exact (mUpdate_params (hp.proposal _) h).1

theorem mBootUpdate_params {noise : Nat → Noise R K} {c : UpdateCall R SV MV K}
    {f f' : MixtureParticleFilter R SV K} {b : Bool} (hp : MParams period threshold scheme f)
    (h : f.bootUpdate dflt root noise c = .ok (b, f')) : MParams period threshold scheme f' := by
  simp only [MixtureParticleFilter.bootUpdate, Outcome.bind_eq_ok, Prod.exists] at h
  obtain ⟨b1, f1, h1, h2⟩ := h
  have hp1 := mBootSys_params hp h1
  obtain ⟨csys, cu, cmeas, cz, cs⟩ := c
  cases cmeas with
  | none =>
    simp only [MixtureParticleFilter.bootMeas, Outcome.ok.injEq, Prod.mk.injEq] at h2
    obtain ⟨rfl, rfl⟩ := h2
    exact hp1
  | some mm =>
    simp only [MixtureParticleFilter.bootMeas, Outcome.bind_eq_ok, Outcome.pure_eq,
      Outcome.ok.injEq, Prod.mk.injEq, Prod.exists] at h2
    obtain ⟨b2, f2, h3, _, rfl⟩ := h2
    exact (mUpdate_params hp1 h3).1

theorem freshCloud_inv {p : MCPdf K SV} (h : Assigned dflt p) : (freshCloud p).Inv := by
  obtain ⟨ws, hg⟩ := h.good
  have hps : ∃ ps : List (SV × K), p.samples = ps.map wrap ∧ ps.map Prod.snd = ws := by
    have hw := hg.1
    have hl := hg.length
    refine ⟨List.zip (p.samples.map (·.value)) ws, ?_, ?_⟩
    · apply List.ext_getElem
      · simp [hl]
      · intro i h1 h2
        have h3 : (p.samples.map (·.weight))[i]'(by simpa using h1) =
            (ws.map some)[i]'(by simpa using (hl ▸ h1)) := by simp only [hw]
        simp only [List.getElem_map] at h3
        simp only [wrap, List.getElem_map, List.getElem_zip, ← h3]
    · exact List.map_snd_zip (by simp [hl])
  obtain ⟨ps, hp1, rfl⟩ := hps
  refine ⟨ps, hp1, fun a ha => hg.2.1.1 _ (List.mem_map_of_mem ha), hg.sized, ?_, ?_, ?_,
    Or.inl hg⟩
  · simp [freshCloud, listGet, hp1]
  · simp [freshCloud, listGet, hp1]
  · simpa using hg.pos

theorem mMake_params {dims : MCPdf K SV → Nat} {prior : Mixture K (MCPdf K SV)}
    {q : Option (Proposal R SV K)} {f : MixtureParticleFilter R SV K} (hb : Built dims prior)
    (ha : ∀ p ∈ prior.comps, Assigned dflt p)
    (h : MixtureParticleFilter.make dflt prior q period threshold scheme = .ok f) :
    MParams period threshold scheme f ∧ f.timestep = 0 := by
  unfold MixtureParticleFilter.make at h
  simp only [Outcome.bind_eq_ok, Outcome.pure_eq, Outcome.ok.injEq] at h
  obtain ⟨post, h1, dyn, h2, rfl⟩ := h
  obtain ⟨hne, rfl⟩ := copy_of_tol hb.tol h1
  unfold ParticleFilter.policy at h2
  simp only [Outcome.bind_eq_ok, Outcome.pure_eq, Outcome.ok.injEq] at h2
  obtain ⟨_, _, _, _, rfl⟩ := h2
  refine ⟨⟨?_, ?_, hb.tol.2.1, ?_, rfl, rfl, rfl, rfl⟩, rfl⟩
  · intro c hc
    obtain ⟨p, hp, rfl⟩ := List.mem_map.1 hc
    exact freshCloud_inv (ha p hp)
  · simpa using hb.tol.1
  · simpa using hne

theorem MReached.params {f : MixtureParticleFilter R SV K}
    (h : MReached MV dflt root period threshold scheme f) :
    MParams period threshold scheme f := by
  induction h with
  | make hb ha h => exact (mMake_params hb ha h).1
  | update _ h ih => exact (mUpdate_params ih h).1
  | bootUpdate _ h ih => exact mBootUpdate_params ih h
  | proposalSet q _ ih => exact ih.proposal q

theorem HoldsAll.holding {f : MixtureParticleFilter R SV K} {pss : List (List (SV × K))}
    (hp : MParams period threshold scheme f) (h : HoldsAll f pss) :
    List.Forall₂ Holding f.mix.comps pss := by
  have hi := hp.inv
  unfold HoldsAll at h
  revert hi
  generalize f.mix.comps = cs at h
  intro hi
  induction h with
  | nil => exact .nil
  | cons h _ ih =>
    exact .cons ((hi _ (by simp)).holding h) (ih fun c hc => hi c (by simp [hc]))

end invariant

/-! ### Fixture -/

namespace MFixture

open Fixture

/-- Particles 5 and 6. -/
def second : MCPdf ℚ Nat := ⟨[⟨5, some (1/2)⟩, ⟨6, some (1/2)⟩], [0, 1/2, 1], 1⟩

def prior : Mixture ℚ (MCPdf ℚ Nat) := ⟨1, [Fixture.prior, second], [1/2, 1/2], [0, 1/2, 1]⟩

def start (period : Nat) (threshold : ℚ) : MixtureParticleFilter Nat Nat ℚ :=
  ⟨⟨1, [freshCloud Fixture.prior, freshCloud second], [1/2, 1/2], [0, 1/2, 1]⟩, 0, 0,
    decide (period = 0), period, threshold, .multinomial, some prop⟩

def noise (_ : Nat) : Noise Nat ℚ := Fixture.noise

/-- A sensor that excludes states below 5. -/
def LZ (_z x _s : Nat) : ℚ := if x < 5 then 0 else if x = 5 then 1/4 else 3/4

def measZPdf : CondPdf Nat Nat ℚ :=
  ⟨1, fun args z => match args with | [x] => .ok (LZ z x 0) | _ => .abort, fun _ => .abort⟩

def measZ : Model Nat Nat ℚ := ⟨some measZPdf, some true⟩

theorem measZ_isLikelihood : IsLikelihood measZ LZ := by
  refine ⟨measZPdf, rfl, fun z x s => ⟨?_, rfl⟩⟩
  unfold LZ; split_ifs <;> norm_num

theorem prior_built : Built (fun _ => 1) prior :=
  .ofComponents (cs := [Fixture.prior, second]) (by decide +kernel)

theorem prior_assigned : ∀ p ∈ prior.comps, Assigned 0 p := by
  intro p hp
  simp only [prior, List.mem_cons, List.not_mem_nil, or_false] at hp
  rcases hp with rfl | rfl
  · exact ⟨MCPdf.make 2 0, .setW [⟨0, some 1⟩, ⟨1, some 1⟩], ⟨2, [], rfl⟩,
      by simp [Assigns, Admissible], by decide +kernel⟩
  · exact ⟨MCPdf.make 2 0, .setW [⟨5, some 1⟩, ⟨6, some 1⟩], ⟨2, [], rfl⟩,
      by simp [Assigns, Admissible], by decide +kernel⟩

theorem start_reached {period : Nat} {threshold : ℚ}
    (h : ParticleFilter.policy period threshold = .ok (decide (period = 0))) :
    MReached Nat 0 root period threshold .multinomial (start period threshold) := by
  refine .make (q := some prop) prior_built prior_assigned ?_
  have : prior.copy = .ok prior := by decide +kernel
  simp only [MixtureParticleFilter.make, this, Outcome.ok_bind, h]
  rfl

theorem start_holds {period : Nat} {threshold : ℚ} :
    HoldsAll (start period threshold) [[(0, 1/2), (1, 1/2)], [(5, 1/2), (6, 1/2)]] :=
  .cons rfl (.cons rfl .nil)

/-- Result, component weights, particles and time step. -/
def observe (x : Outcome (Bool × MixtureParticleFilter Nat Nat ℚ)) :
    Outcome (Bool × List ℚ × List (List (WSample ℚ Nat)) × Nat) := do
  let (b, f) ← x
  return (b, f.mix.weights, f.mix.comps.map (·.post.listGet), f.timestep)

theorem observe_eq {x : Outcome (Bool × MixtureParticleFilter Nat Nat ℚ)} {b : Bool}
    {ws : List ℚ} {l : List (List (WSample ℚ Nat))} {t : Nat}
    (h : observe x = .ok (b, ws, l, t)) :
    ∃ f, x = .ok (b, f) ∧ f.mix.weights = ws ∧ f.mix.comps.map (·.post.listGet) = l ∧
      f.timestep = t := by
  unfold observe at h
  simp only [Outcome.bind_eq_ok, Outcome.pure_eq, Outcome.ok.injEq, Prod.mk.injEq,
    Prod.exists] at h
  obtain ⟨b', f, h1, rfl, h2, h3, h4⟩ := h
  exact ⟨f, h1, h2, h3, h4⟩

end MFixture

/-! ## C30 -/

variable {dflt : SV} {root : Nat → K → K} {period : Nat} {threshold : K} {scheme : Scheme}

theorem weightStep_flat {f : MixtureParticleFilter R SV K}
    (hp : MParams period threshold scheme f) {pss : List (List (SV × K))} (hh : HoldsAll f pss)
    {mm : Model SV MV K} {L : MV → SV → SV → K} (hl : IsLikelihood mm L) (u s : SV) (z : MV) :
    let G : SV → K := fun x => L z x s
    ∃ f' pss', HoldsAll f' pss' ∧ pss' = pss.map (after G) ∧ f'.dynamic = f.dynamic ∧
      (0 < ((flattened f.mix.weights pss).map fun a => a.2 * G a.1).sum →
        f.weightStep (⟨none, u, some mm, z, s⟩ : UpdateCall R SV MV K) mm = .ok (true, f') ∧
        f'.mix.weights = (List.zipWith (· * ·) f.mix.weights (pss.map (tot G))).map
          (· / ((flattened f.mix.weights pss).map fun a => a.2 * G a.1).sum)) ∧
      (((flattened f.mix.weights pss).map fun a => a.2 * G a.1).sum = 0 →
        ∃ f'', f.weightStep (⟨none, u, some mm, z, s⟩ : UpdateCall R SV MV K) mm =
          .ok (false, f'')) := by
  intro G
  have hf : ∀ x y, Cloud.factor f.proposal none u mm z s x y = .ok (G y) := by
    intro x y
    simp only [Cloud.factor, hl.likelihood, G]
  have hG : ∀ x, 0 ≤ G x := fun x => hl.nonneg _ _ _
  have hH := hh.holding hp
  obtain ⟨cs, h1, h2⟩ := reweightLoop_value hf hG hH
  have hlen : pss.length = f.mix.comps.length := hH.length_eq.symm
  have hcs : cs.length = f.mix.comps.length := by rw [h2.length_eq]; simp [hlen]
  have hne : cs ≠ [] := by
    intro h0
    rw [h0] at hcs
    exact hp.nonempty (List.length_eq_zero_iff.1 hcs.symm)
  have hnn : ∀ ps ∈ pss, ∀ a ∈ ps, 0 ≤ a.2 := by
    intro ps hps
    obtain ⟨i, hi, rfl⟩ := List.getElem_of_mem hps
    exact ((List.forall₂_iff_get.1 hH).2 i (by omega) hi).nonneg
  have hsn : ∀ t ∈ pss.map (tot G), 0 ≤ t := by
    intro t ht
    obtain ⟨ps, hps, rfl⟩ := List.mem_map.1 ht
    exact tot_nonneg hG (hnn ps hps)
  have hnw := newWeights_eq (mix := { f.mix with comps := cs }) (sums := pss.map (tot G))
    (by simpa [hcs] using hp.lengths) (by simp [hlen, hcs]) hp.nonneg hsn hne
  have hzl : (List.zipWith (· * ·) f.mix.weights (pss.map (tot G))).length = cs.length := by
    simp [hp.lengths, hlen, hcs]
  have hzn : ∀ w ∈ List.zipWith (· * ·) f.mix.weights (pss.map (tot G)), 0 ≤ w := by
    intro w hw
    obtain ⟨i, hi, rfl⟩ := List.getElem_of_mem hw
    rw [List.getElem_zipWith]
    exact mul_nonneg (hp.nonneg _ (List.getElem_mem _)) (hsn _ (List.getElem_mem _))
  have hset : Mixture.weightsSet { f.mix with comps := cs }
      (List.zipWith (· * ·) f.mix.weights (pss.map (tot G))) =
      Mixture.renormalize
        ⟨f.mix.dim, cs, List.zipWith (· * ·) f.mix.weights (pss.map (tot G)), f.mix.cum⟩ := by
    unfold Mixture.weightsSet
    rw [mapOutcome_mkProb_eq_ok.2 ⟨hzn, rfl⟩, Outcome.ok_bind, Mixture.testNotInit_ok hne,
      Outcome.ok_bind, cassert_true hzl, Outcome.ok_bind]
  rw [flattened_sum]
  refine ⟨{ f with mix := ⟨f.mix.dim, cs, (List.zipWith (· * ·) f.mix.weights
      (pss.map (tot G))).map (· / (List.zipWith (· * ·) f.mix.weights (pss.map (tot G))).sum),
      runningSums 0 ((List.zipWith (· * ·) f.mix.weights (pss.map (tot G))).map
        (· / (List.zipWith (· * ·) f.mix.weights (pss.map (tot G))).sum))⟩ },
    pss.map (after G), h2, rfl, rfl, ?_, ?_⟩
  · intro hpos
    refine ⟨?_, rfl⟩
    unfold MixtureParticleFilter.weightStep
    simp only [h1, Outcome.ok_bind, hnw, hset]
    rw [Mixture.renormalize_pos hzl hzn hpos]
    rfl
  · intro h0
    unfold MixtureParticleFilter.weightStep
    simp only [h1, Outcome.ok_bind, hnw, hset]
    rw [Mixture.renormalize_zero h0]
    exact ⟨_, rfl⟩

/-- Measurement update of a mixture particle filter with a fixed resampling period, any history: on
the flattened particle set every weight is multiplied by the likelihood of its particle and the
whole set is renormalised, also when some components are ruled out entirely. If all products are
zero, `Update` returns `false`. -/
theorem C30_flattened {f : MixtureParticleFilter R SV K}
    (hr : MReached MV dflt root period threshold scheme f) (hper : period ≠ 0)
    {pss : List (List (SV × K))} (hh : HoldsAll f pss)
    {mm : Model SV MV K} {L : MV → SV → SV → K} (hl : IsLikelihood mm L)
    (noise : Nat → Noise R K) (u s : SV) (z : MV) :
    let flat := flattened f.mix.weights pss
    (0 < (flat.map fun a => a.2 * L z a.1 s).sum → ∃ f' pss',
      f.update dflt root noise ⟨none, u, some mm, z, s⟩ = .ok (true, f') ∧ HoldsAll f' pss' ∧
      flattened f'.mix.weights pss' = reweightedBy (fun x => L z x s) flat) ∧
    ((flat.map fun a => a.2 * L z a.1 s).sum = 0 → ∃ f',
      f.update dflt root noise ⟨none, u, some mm, z, s⟩ = .ok (false, f')) := by
  intro flat
  have hp := hr.params
  obtain ⟨f', pss', h1, h2, h3, h4, h5⟩ := weightStep_flat hp hh hl u s z
  have hnn : ∀ ps ∈ pss, ∀ a ∈ ps, 0 ≤ a.2 := by
    intro ps hps
    have hH := hh.holding hp
    obtain ⟨i, hi, rfl⟩ := List.getElem_of_mem hps
    exact ((List.forall₂_iff_get.1 hH).2 i (by rw [hH.length_eq]; exact hi) hi).nonneg
  constructor
  · intro hpos
    obtain ⟨k1, k2⟩ := h4 hpos
    refine ⟨f', pss', ?_, h1, ?_⟩
    · simp only [MixtureParticleFilter.update, MixtureParticleFilter.sysPart, Outcome.ok_bind,
        MixtureParticleFilter.measPart, andStep, if_true, k1, MixtureParticleFilter.dynamicStep]
      rw [h3, hp.dynamic]
      simp [hper]
    · rw [k2, h2, flattened_after (fun x => hl.nonneg _ _ _) _ _ _ hnn]
      rfl
  · intro h0
    obtain ⟨f'', k⟩ := h5 h0
    refine ⟨f'', ?_⟩
    simp only [MixtureParticleFilter.update, MixtureParticleFilter.sysPart, Outcome.ok_bind,
      MixtureParticleFilter.measPart, andStep, if_true, k, Bool.false_eq_true, if_false]

example :=
  C30_flattened (MFixture.start_reached Fixture.policy_static) (by decide) MFixture.start_holds
    MFixture.measZ_isLikelihood MFixture.noise 0 0 0

/-- The first component is ruled out. -/
example : MFixture.observe ((MFixture.start 1 0).update 0 Fixture.root MFixture.noise
    ⟨none, 0, some MFixture.measZ, 0, 0⟩) =
      .ok (true, [0, 1], [[⟨0, some 0⟩, ⟨1, some 0⟩], [⟨5, some (1/4)⟩, ⟨6, some (3/4)⟩]], 0) := by
  decide +kernel

/-- No component is ruled out: 1/4 * {1/4, 1/4, 1/4, 3/4}, renormalised. -/
example : MFixture.observe ((MFixture.start 1 0).update 0 Fixture.root MFixture.noise
    ⟨none, 0, some Fixture.meas, 6, 0⟩) =
      .ok (true, [1/3, 2/3], [[⟨0, some (1/2)⟩, ⟨1, some (1/2)⟩], [⟨5, some (1/4)⟩, ⟨6, some (3/4)⟩]],
        0) := by
  decide +kernel

/-- The component weights after a measurement update that returned, under either resampling
policy: `W_k * s_k / Σ W_j * s_j`, where `s_k` is the likelihood-weighted total of component `k`.
(With a threshold the components may be resampled afterwards, each on its own.) -/
theorem C30_component_weights {f f' : MixtureParticleFilter R SV K}
    (hr : MReached MV dflt root period threshold scheme f)
    {pss : List (List (SV × K))} (hh : HoldsAll f pss)
    {mm : Model SV MV K} {L : MV → SV → SV → K} (hl : IsLikelihood mm L)
    {noise : Nat → Noise R K} {u s : SV} {z : MV} {b : Bool}
    (h : f.update dflt root noise ⟨none, u, some mm, z, s⟩ = .ok (b, f')) :
    let S := List.zipWith (fun W ps => W * (List.map (fun a => a.2 * L z a.1 s) ps).sum)
      f.mix.weights pss
    (b = true ↔ 0 < S.sum) ∧ (b = true → f'.mix.weights = S.map (· / S.sum)) := by
  intro S
  have hp := hr.params
  obtain ⟨f1, pss', h1, h2, h3, h4, h5⟩ := weightStep_flat hp hh hl u s z
  have hS : List.zipWith (· * ·) f.mix.weights (pss.map (tot fun x => L z x s)) = S := by
    rw [List.zipWith_map_right]; rfl
  have hf : (List.map (fun a => a.2 * L z a.1 s) (flattened f.mix.weights pss)).sum = S.sum := by
    rw [flattened_sum (fun x => L z x s), hS]
  simp only [hf, hS] at h4 h5
  have hSn : 0 ≤ S.sum := by
    apply List.sum_nonneg
    intro w hw
    rw [← hS] at hw
    obtain ⟨i, hi, rfl⟩ := List.getElem_of_mem hw
    rw [List.getElem_zipWith]
    refine mul_nonneg (hp.nonneg _ (List.getElem_mem _)) ?_
    rw [List.getElem_map]
    have hH := hh.holding hp
    have hi' : i < pss.length := by simp at hi; omega
    exact tot_nonneg (fun x => hl.nonneg _ _ _)
      ((List.forall₂_iff_get.1 hH).2 i (by rw [hH.length_eq]; exact hi') hi').nonneg
  by_cases hpos : 0 < S.sum
  · obtain ⟨k1, k2⟩ := h4 hpos
    simp only [MixtureParticleFilter.update, MixtureParticleFilter.sysPart, Outcome.ok_bind,
        MixtureParticleFilter.measPart, andStep, if_true, k1] at h
    have hp1 := (mWeightStep_params hp k1).1
    obtain ⟨rfl, _, _, hw, _⟩ := mDynamicStep_params hp1 h
    exact ⟨by simp [hpos], fun _ => by rw [hw, k2]⟩
  · obtain ⟨f'', k⟩ := h5 (le_antisymm (not_lt.1 hpos) hSn)
    simp only [MixtureParticleFilter.update, MixtureParticleFilter.sysPart, Outcome.ok_bind,
      MixtureParticleFilter.measPart, andStep, if_true, k, Bool.false_eq_true, if_false,
      Outcome.ok.injEq, Prod.mk.injEq] at h
    obtain ⟨rfl, _⟩ := h
    exact ⟨by simp [hpos], by simp⟩

example : ∃ f', (MFixture.start 0 2).update 0 Fixture.root MFixture.noise
      ⟨none, 0, some MFixture.measZ, 0, 0⟩ = .ok (true, f') ∧ f'.mix.weights = [0, 1] := by
  obtain ⟨f, h, hw, _⟩ := MFixture.observe_eq (x := (MFixture.start 0 2).update 0 Fixture.root
    MFixture.noise ⟨none, 0, some MFixture.measZ, 0, 0⟩) (b := true) (ws := [0, 1])
    (l := [[⟨0, some 0⟩, ⟨1, some 0⟩], [⟨6, some (1/2)⟩, ⟨6, some (1/2)⟩]]) (t := 0)
    (by decide +kernel)
  exact ⟨f, h, hw⟩

/-! ## C31 and C28 -/

/-- C31 fails for mixture filters: a system update that returns `true` advances the time step by
the number of components, so with two or more components it is not the number of updates. -/
theorem C31_mixture_false {f f' : MixtureParticleFilter R SV K}
    (hr : MReached MV dflt root period threshold scheme f) {noise : Nat → Noise R K}
    {c : UpdateCall R SV MV K} (hc : c.sys.isSome = true)
    (h : f.update dflt root noise c = .ok (true, f')) :
    f'.timestep = f.timestep + f.mix.numComponents := by
  have := (mUpdate_params hr.params h).2.2 rfl
  simpa [hc] using this

example : MFixture.observe ((MFixture.start 1 0).update 0 Fixture.root MFixture.noise
    (⟨some Fixture.sys, 0, none, 0, 0⟩ : UpdateCall Nat Nat Nat ℚ)) =
      .ok (true, [1/2, 1/2], [[⟨0, some (1/2)⟩, ⟨2, some (1/2)⟩], [⟨5, some (1/2)⟩, ⟨7, some (1/2)⟩]],
        2) := by
  decide +kernel

/-- C28 fails for mixture filters: with period 2 and two components the particles are resampled
already before the second system update (particle 0 disappears), where C28 demands the third. -/
theorem C28_mixture_false :
    ∃ (f f1 f2 : MixtureParticleFilter Nat Nat ℚ) (m : SysModel Nat Nat ℚ)
      (noise : Nat → Noise Nat ℚ),
      MReached Nat 0 Fixture.root 2 0 .multinomial f ∧ f.timestep = 0 ∧
      f.update 0 Fixture.root noise (⟨some m, 0, none, 0, 0⟩ : UpdateCall Nat Nat Nat ℚ) =
        .ok (true, f1) ∧
      f1.update 0 Fixture.root noise (⟨some m, 0, none, 0, 0⟩ : UpdateCall Nat Nat Nat ℚ) =
        .ok (true, f2) ∧
      (∀ r x prev, m.draw r [x] prev = .ok x ∨ m.draw r [x] prev = .ok (x + 1)) ∧
      HoldsAll f1 [[(0, 1/2), (2, 1/2)], [(5, 1/2), (7, 1/2)]] ∧
      HoldsAll f2 [[(2, 1/2), (3, 1/2)], [(7, 1/2), (8, 1/2)]] := by
  have hp : ParticleFilter.policy 2 (0 : ℚ) = .ok (decide (2 = 0)) := by decide +kernel
  obtain ⟨f1, h1, h2, h3, h4⟩ := MFixture.observe_eq (x := (MFixture.start 2 0).update 0
    Fixture.root MFixture.noise (⟨some Fixture.sys, 0, none, 0, 0⟩ : UpdateCall Nat Nat Nat ℚ))
    (b := true) (ws := [1/2, 1/2])
    (l := [[⟨0, some (1/2)⟩, ⟨2, some (1/2)⟩], [⟨5, some (1/2)⟩, ⟨7, some (1/2)⟩]]) (t := 2)
    (by decide +kernel)
  have h5 : MFixture.observe ((MFixture.start 2 0).update 0 Fixture.root MFixture.noise
      (⟨some Fixture.sys, 0, none, 0, 0⟩ : UpdateCall Nat Nat Nat ℚ) >>= fun r =>
      r.2.update 0 Fixture.root MFixture.noise
        (⟨some Fixture.sys, 0, none, 0, 0⟩ : UpdateCall Nat Nat Nat ℚ)) =
      .ok (true, [1/2, 1/2], [[⟨2, some (1/2)⟩, ⟨3, some (1/2)⟩], [⟨7, some (1/2)⟩, ⟨8, some (1/2)⟩]],
        4) := by decide +kernel
  rw [h1, Outcome.ok_bind] at h5
  obtain ⟨f2, k1, _, k3, _⟩ := MFixture.observe_eq h5
  have hall : ∀ {f : MixtureParticleFilter Nat Nat ℚ} {p q : List (Nat × ℚ)},
      f.mix.comps.map (·.post.listGet) =
        [p.map fun a => ⟨a.1, some a.2⟩, q.map fun a => ⟨a.1, some a.2⟩] → HoldsAll f [p, q] := by
    intro f p q h
    unfold HoldsAll
    rcases hc : f.mix.comps with _ | ⟨c1, _ | ⟨c2, _ | ⟨c3, cs⟩⟩⟩ <;> rw [hc] at h <;>
      simp only [List.map_cons, List.map_nil, List.cons.injEq, and_true, List.nil_eq,
        reduceCtorEq, and_false] at h
    exact .cons h.1 (.cons h.2 .nil)
  refine ⟨MFixture.start 2 0, f1, f2, Fixture.sys, MFixture.noise, MFixture.start_reached hp, rfl,
    h1, k1, ?_, hall h3, hall k3⟩
  intro r x prev
  rcases Nat.mod_two_eq_zero_or_one r with hr | hr <;> simp [Fixture.sys, Fixture.draw, hr]

/-! ## C53 -/

/-- All particles of component `j` have weight zero. -/
def RuledOut (f : MixtureParticleFilter R SV K) (j : Nat) : Prop :=
  ∃ c, f.mix.comps[j]? = some c ∧ ∀ s ∈ c.post.listGet, s.weight = some 0

/-- `g` results from `f` by further updates and `ProposalSet` calls. -/
inductive Later (MV : Type) (dflt : SV) (root : Nat → K → K) (f : MixtureParticleFilter R SV K) :
    MixtureParticleFilter R SV K → Prop
  | refl : Later MV dflt root f f
  | update {g g' : MixtureParticleFilter R SV K} {noise : Nat → Noise R K}
      {c : UpdateCall R SV MV K} {b : Bool} (hg : Later MV dflt root f g)
      (h : g.update dflt root noise c = .ok (b, g')) : Later MV dflt root f g'
  | bootUpdate {g g' : MixtureParticleFilter R SV K} {noise : Nat → Noise R K}
      {c : UpdateCall R SV MV K} {b : Bool} (hg : Later MV dflt root f g)
      (h : g.bootUpdate dflt root noise c = .ok (b, g')) : Later MV dflt root f g'
  | proposalSet {g : MixtureParticleFilter R SV K} (q : Option (Proposal R SV K))
      (hg : Later MV dflt root f g) : Later MV dflt root f { g with proposal := q }

theorem RuledOut.dead {f : MixtureParticleFilter R SV K} (hp : MParams period threshold scheme f)
    {j : Nat} (h : RuledOut f j) : ∃ c, f.mix.comps[j]? = some c ∧ Dead c := by
  obtain ⟨c, hc, hz⟩ := h
  exact ⟨c, hc, hp.inv c (List.mem_of_getElem? hc), hz⟩

theorem sysPart_dead {noise : Nat → Noise R K} {c : UpdateCall R SV MV K}
    {f f' : MixtureParticleFilter R SV K} {b : Bool} (hp : MParams 0 threshold scheme f) {j : Nat}
    (hj : RuledOut f j)
    (h : MixtureParticleFilter.sysPart dflt root noise c (true, f) = .ok (b, f')) :
    RuledOut f' j ∧ (c.sys.isSome = true → b = false ∧
      ∀ k, j < k → f'.mix.comps[k]? = f.mix.comps[k]?) := by
  obtain ⟨csys, cu, cmeas, cz, cs⟩ := c
  cases csys with
  | none =>
    simp only [MixtureParticleFilter.sysPart, Outcome.ok.injEq, Prod.mk.injEq] at h
    obtain ⟨rfl, rfl⟩ := h
    exact ⟨hj, by simp⟩
  | some m =>
    simp only [MixtureParticleFilter.sysPart, andStep, if_true, Outcome.bind_eq_ok,
      Prod.exists] at h
    obtain ⟨b1, f1, h1, h2⟩ := h
    obtain ⟨rfl, _, _, _, _, _, he⟩ := mStaticStep_params hp h1
    rw [he rfl] at h2
    simp only [if_true, MixtureParticleFilter.proposalStep, Outcome.bind_eq_ok, Outcome.pure_eq,
      Outcome.ok.injEq, Prod.mk.injEq, Prod.exists] at h2
    obtain ⟨b', cs, last, t, hr, rfl, rfl⟩ := h2
    obtain ⟨rfl, ⟨c, hc, hd⟩, h3⟩ := proposeLoop_dead _ _ j _ _ (hj.dead hp) hr
    exact ⟨⟨c, hc, hd.2⟩, fun _ => ⟨rfl, h3⟩⟩

theorem measPart_dead {noise : Nat → Noise R K} {c : UpdateCall R SV MV K}
    {f f' : MixtureParticleFilter R SV K} {b b' : Bool} (hp : MParams period threshold scheme f)
    {j : Nat} (hj : RuledOut f j)
    (h : MixtureParticleFilter.measPart dflt root noise c (b, f) = .ok (b', f')) :
    RuledOut f' j ∧ (b = false → b' = false ∧ f' = f) := by
  obtain ⟨csys, cu, cmeas, cz, cs⟩ := c
  cases cmeas with
  | none =>
    simp only [MixtureParticleFilter.measPart, Outcome.ok.injEq, Prod.mk.injEq] at h
    obtain ⟨rfl, rfl⟩ := h
    exact ⟨hj, fun h => ⟨h, rfl⟩⟩
  | some mm =>
    simp only [MixtureParticleFilter.measPart, andStep, Outcome.bind_eq_ok, Prod.exists] at h
    obtain ⟨b1, f1, h1, h2⟩ := h
    cases b with
    | false =>
      simp only [Bool.false_eq_true, if_false, Outcome.ok.injEq, Prod.mk.injEq] at h1
      obtain ⟨rfl, rfl⟩ := h1
      simp only [Bool.false_eq_true, if_false, Outcome.ok.injEq, Prod.mk.injEq] at h2
      obtain ⟨rfl, rfl⟩ := h2
      exact ⟨hj, fun h => ⟨h, rfl⟩⟩
    | true =>
      refine ⟨?_, by simp⟩
      simp only [if_true] at h1
      obtain ⟨hp1, _, hl1⟩ := mWeightStep_params hp h1
      have hj1 : RuledOut f1 j := by
        obtain ⟨c0, hc0, hd0⟩ := hj.dead hp
        unfold MixtureParticleFilter.weightStep at h1
        simp only [Outcome.bind_eq_ok, Outcome.pure_eq, Outcome.ok.injEq, Prod.mk.injEq,
          Prod.exists] at h1
        obtain ⟨cs, sums, g1, ws, g2, b', mix, g3, rfl, rfl⟩ := h1
        obtain ⟨k1, k2, _⟩ := reweightLoop_rel (P := fun i c => i = j → Dead c)
          (fun i c b c' s hc h he => Cloud.reweight_dead (hc he) h) _ 0
          (fun i c hc he => by
            have : i = j := by omega
            rw [this, hc0] at hc
            simp only [Option.some.injEq] at hc
            rw [← hc]; exact hd0) g1
        have hm : mix.comps = cs := by
          unfold Mixture.weightsSet at g3
          simp only [Outcome.bind_eq_ok] at g3
          obtain ⟨ws', h4, _, _, _, h5, h6⟩ := g3
          obtain ⟨h4, rfl⟩ := mapOutcome_mkProb_eq_ok.1 h4
          rw [cassert_eq_ok] at h5
          by_cases hpos : 0 < ws'.sum
          · rw [Mixture.renormalize_pos (m := ⟨f.mix.dim, cs, ws', f.mix.cum⟩) h5 h4 hpos] at h6
            simp only [Outcome.ok.injEq, Prod.mk.injEq] at h6
            rw [← h6.2]
          · have h0 : ws'.sum = 0 := le_antisymm (not_lt.1 hpos) (List.sum_nonneg h4)
            rw [Mixture.renormalize_zero (m := ⟨f.mix.dim, cs, ws', f.mix.cum⟩) h0] at h6
            simp only [Outcome.ok.injEq, Prod.mk.injEq] at h6
            rw [← h6.2]
        have hlt : j < cs.length := by
          rw [k2]
          exact (List.getElem?_eq_some_iff.1 hc0).1
        refine ⟨cs[j], by simp [hm, hlt], ?_⟩
        exact (k1 j _ (List.getElem?_eq_getElem hlt) (by omega)).2
      cases b1 with
      | false =>
        simp only [Bool.false_eq_true, if_false, Outcome.ok.injEq, Prod.mk.injEq] at h2
        obtain ⟨rfl, rfl⟩ := h2
        exact hj1
      | true =>
        simp only [if_true] at h2
        obtain ⟨c0, hc0, hd0⟩ := hj1.dead hp1
        unfold MixtureParticleFilter.dynamicStep at h2
        split at h2
        · simp only [Outcome.bind_eq_ok, Outcome.pure_eq, Outcome.ok.injEq, Prod.mk.injEq,
            Prod.exists] at h2
          obtain ⟨b', cs, hr, rfl, rfl⟩ := h2
          obtain ⟨_, k1, k2⟩ := eachComponent_rel
            (P := fun i c => c.Inv ∧ (i = j → Dead c))
            (fun i k c b c' hc h =>
              ⟨(Cloud.resampleIfDegenerate_inv hc.1 h).1, (Cloud.resampleIfDegenerate_inv hc.1 h).2,
                fun he => (Cloud.resampleIfDegenerate_dead (hc.2 he) h).2⟩) _ 0 0
            (fun i c hc => ⟨hp1.inv c (List.mem_of_getElem? hc), fun he => by
              have : i = j := by omega
              rw [this, hc0] at hc
              simp only [Option.some.injEq] at hc
              rw [← hc]; exact hd0⟩) hr
          have hlt : j < cs.length := by
            rw [k2]
            exact (List.getElem?_eq_some_iff.1 hc0).1
          exact ⟨cs[j], List.getElem?_eq_getElem hlt,
            ((k1 j _ (List.getElem?_eq_getElem hlt)).2 (by omega)).2⟩
        · simp only [Outcome.pure_eq, Outcome.ok.injEq, Prod.mk.injEq] at h2
          obtain ⟨_, rfl⟩ := h2
          exact hj1

/-- With a resampling threshold: once all particles of component `j` have weight zero, every update
with a system model returns `false`, and no particle of a later component is changed by it, nor is
the measurement used; the component stays ruled out. -/
theorem C53_update_false {f f' : MixtureParticleFilter R SV K}
    (hr : MReached MV dflt root 0 threshold scheme f) {j : Nat} (hj : RuledOut f j)
    {noise : Nat → Noise R K} {c : UpdateCall R SV MV K} {b : Bool}
    (h : f.update dflt root noise c = .ok (b, f')) :
    RuledOut f' j ∧ (c.sys.isSome = true → b = false ∧
      ∀ k, j < k → f'.mix.comps[k]? = f.mix.comps[k]?) := by
  simp only [MixtureParticleFilter.update, Outcome.bind_eq_ok, Prod.exists] at h
  obtain ⟨b1, f1, h1, h2⟩ := h
  obtain ⟨g1, g2⟩ := sysPart_dead hr.params hj h1
  obtain ⟨k1, k2⟩ := measPart_dead (mSysPart_params hr.params h1).1 g1 h2
  refine ⟨k1, fun hs => ?_⟩
  obtain ⟨rfl, g3⟩ := g2 hs
  obtain ⟨rfl, rfl⟩ := k2 rfl
  exact ⟨rfl, g3⟩

/-- The same for the mixture bootstrap filter, which still uses the measurement. -/
theorem C53_bootUpdate_false {f f' : MixtureParticleFilter R SV K}
    (hr : MReached MV dflt root 0 threshold scheme f) {j : Nat} (hj : RuledOut f j)
    {noise : Nat → Noise R K} {c : UpdateCall R SV MV K} {b : Bool}
    (h : f.bootUpdate dflt root noise c = .ok (b, f')) :
    RuledOut f' j ∧ (c.sys.isSome = true → b = false) := by
  simp only [MixtureParticleFilter.bootUpdate, Outcome.bind_eq_ok, Prod.exists] at h
  obtain ⟨b1, f1, h1, h2⟩ := h
  have hp1 := mBootSys_params hr.params h1
  obtain ⟨csys, cu, cmeas, cz, cs⟩ := c
  have hs : RuledOut f1 j ∧ (csys.isSome = true → b1 = false) := by
    cases csys with
    | none =>
      simp only [MixtureParticleFilter.bootSys, Outcome.ok.injEq, Prod.mk.injEq] at h1
      obtain ⟨rfl, rfl⟩ := h1
      exact ⟨hj, by simp⟩
    | some m =>
      simp only [MixtureParticleFilter.bootSys] at h1
      obtain ⟨g1, g2⟩ := C53_update_false (MReached.proposalSet m.proposal hr) (j := j) hj h1
      exact ⟨g1, fun _ => (g2 rfl).1⟩
  cases cmeas with
  | none =>
    simp only [MixtureParticleFilter.bootMeas, Outcome.ok.injEq, Prod.mk.injEq] at h2
    obtain ⟨rfl, rfl⟩ := h2
    exact hs
  | some mm =>
    simp only [MixtureParticleFilter.bootMeas, Outcome.bind_eq_ok, Outcome.pure_eq,
      Outcome.ok.injEq, Prod.mk.injEq, Prod.exists] at h2
    obtain ⟨b2, f2, h3, rfl, rfl⟩ := h2
    simp only [MixtureParticleFilter.update, MixtureParticleFilter.sysPart, Outcome.ok_bind] at h3
    refine ⟨(measPart_dead hp1 hs.1 h3).1, fun h => ?_⟩
    simp [hs.2 h]

/-- The filter never recovers: whatever further calls are made, component `j` stays ruled out (so
that `C53_update_false` applies to every later update). -/
theorem C53_forever_false {f g : MixtureParticleFilter R SV K}
    (hr : MReached MV dflt root 0 threshold scheme f) {j : Nat} (hj : RuledOut f j)
    (hg : Later MV dflt root f g) :
    MReached MV dflt root 0 threshold scheme g ∧ RuledOut g j ∧
      ∀ (noise : Nat → Noise R K) (c : UpdateCall R SV MV K) b g', c.sys.isSome = true →
        (g.update dflt root noise c = .ok (b, g') ∨ g.bootUpdate dflt root noise c = .ok (b, g')) →
        b = false := by
  have key : MReached MV dflt root 0 threshold scheme g ∧ RuledOut g j := by
    induction hg with
    | refl => exact ⟨hr, hj⟩
    | update _ h ih => exact ⟨.update ih.1 h, (C53_update_false ih.1 ih.2 h).1⟩
    | bootUpdate _ h ih => exact ⟨.bootUpdate ih.1 h, (C53_bootUpdate_false ih.1 ih.2 h).1⟩
    | proposalSet q _ ih => exact ⟨.proposalSet q ih.1, ih.2⟩
  refine ⟨key.1, key.2, ?_⟩
  intro noise c b g' hc h
  rcases h with h | h
  · exact ((C53_update_false key.1 key.2 h).2 hc).1
  · exact (C53_bootUpdate_false key.1 key.2 h).2 hc

/-- How it comes about: a measurement that excludes every particle of the first of two components
is accepted (`true`), then the next system update returns `false` and leaves the second component,
which carries all the weight, where it is. -/
theorem C53_witness_false :
    ∃ (f f1 f2 : MixtureParticleFilter Nat Nat ℚ) (m : SysModel Nat Nat ℚ) (mm : Model Nat Nat ℚ)
      (noise : Nat → Noise Nat ℚ),
      MReached Nat 0 Fixture.root 0 2 .multinomial f ∧
      f.update 0 Fixture.root noise (⟨none, 0, some mm, 0, 0⟩ : UpdateCall Nat Nat Nat ℚ) =
        .ok (true, f1) ∧ f1.mix.weights = [0, 1] ∧ RuledOut f1 0 ∧
      f1.update 0 Fixture.root noise (⟨some m, 0, none, 0, 0⟩ : UpdateCall Nat Nat Nat ℚ) =
        .ok (false, f2) ∧ f2.mix.comps[1]? = f1.mix.comps[1]? := by
  have hp := Fixture.policy_dynamic
  obtain ⟨f1, h1, h2, h3, _⟩ := MFixture.observe_eq (x := (MFixture.start 0 2).update 0 Fixture.root
    MFixture.noise ⟨none, 0, some MFixture.measZ, 0, 0⟩) (b := true) (ws := [0, 1])
    (l := [[⟨0, some 0⟩, ⟨1, some 0⟩], [⟨6, some (1/2)⟩, ⟨6, some (1/2)⟩]]) (t := 0)
    (by decide +kernel)
  have h5 : MFixture.observe ((MFixture.start 0 2).update 0 Fixture.root MFixture.noise
      ⟨none, 0, some MFixture.measZ, 0, 0⟩ >>= fun r =>
      r.2.update 0 Fixture.root MFixture.noise
        (⟨some Fixture.sys, 0, none, 0, 0⟩ : UpdateCall Nat Nat Nat ℚ)) =
      .ok (false, [0, 1], [[⟨0, some 0⟩, ⟨2, some 0⟩], [⟨6, some (1/2)⟩, ⟨6, some (1/2)⟩]], 1) := by
    decide +kernel
  rw [h1, Outcome.ok_bind] at h5
  obtain ⟨f2, k1, _, k3, _⟩ := MFixture.observe_eq h5
  have hr := MReached.update (MFixture.start_reached hp) h1
  have hro : RuledOut f1 0 := by
    rcases hc : f1.mix.comps with _ | ⟨c1, cs⟩ <;> rw [hc] at h3
    · simp at h3
    · simp only [List.map_cons, List.cons.injEq] at h3
      refine ⟨c1, by rw [hc]; rfl, ?_⟩
      rw [h3.1]
      simp
  exact ⟨MFixture.start 0 2, f1, f2, Fixture.sys, MFixture.measZ, MFixture.noise,
    MFixture.start_reached hp, h1, h2, hro, k1, ((C53_update_false hr hro k1).2 rfl).2 1 (by decide)⟩

end BFL.Props
