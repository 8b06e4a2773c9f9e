import Verif.Props.StateMap

set_option linter.unusedSectionVars false
set_option linter.unusedSimpArgs false

/-!
# C108 for mixture particle filters
-/

namespace BFL.Props

open Spec

variable {R SV SW MV MW K : Type} [Field K] [LinearOrder K] [IsStrictOrderedRing K]

/-- Corresponding mixtures: equal weights, corresponding components. -/
structure SameMix {P P' : Type} (r : P → P' → Prop) (m : Mixture K P) (m' : Mixture K P') : Prop where
  dim : m'.dim = m.dim
  comps : List.Forall₂ r m.comps m'.comps
  weights : m'.weights = m.weights
  cum : m'.cum = m.cum

structure SameMixFilter (φ : SV → SW) (d : SV) (d' : SW) (q : Option (Proposal R SV K))
    (q' : Option (Proposal R SW K)) (f : MixtureParticleFilter R SV K)
    (f' : MixtureParticleFilter R SW K) : Prop where
  mix : SameMix (SameCloud φ) f.mix f'.mix
  sample : Held φ d d' f.sample f'.sample
  timestep : f'.timestep = f.timestep
  dynamic : f'.dynamic = f.dynamic
  period : f'.period = f.period
  threshold : f'.threshold = f.threshold
  scheme : f'.scheme = f.scheme
  proposal : f.proposal = q
  proposal' : f'.proposal = q'

def SameMixResult (φ : SV → SW) (d : SV) (d' : SW) (q : Option (Proposal R SV K))
    (q' : Option (Proposal R SW K)) (x : Bool × MixtureParticleFilter R SV K)
    (y : Bool × MixtureParticleFilter R SW K) : Prop := y.1 = x.1 ∧ SameMixFilter φ d d' q q' x.2 y.2

variable {φ : SV → SW} {d : SV} {d' : SW} {c : K} {q : Option (Proposal R SV K)}
  {q' : Option (Proposal R SW K)}

theorem mix_andStep_same {S S' : Type} {r : Bool × S → Bool × S' → Prop} (hr : ∀ x y, r x y → y.1 = x.1)
    {x : Bool × S} {y : Bool × S'} (h : r x y) {step : S → Outcome (Bool × S)}
    {step' : S' → Outcome (Bool × S')} (hs : Same r (step x.2) (step' y.2)) :
    Same r (andStep x step) (andStep y step') := by
  unfold andStep
  rw [hr x y h]
  split
  · exact hs
  · exact h

theorem mix_proposeLoop_same {u : SV} {u' : SW} {m : SysModel R SV K} {m' : SysModel R SW K}
    (hq : Option.Rel (SameProposal φ d d' c u u') q q') (hm : SameSystem φ d d' c u u' m m')
    (noise : Nat → Noise R K) {cs : List (Cloud K SV)} {cs' : List (Cloud K SW)}
    (h : List.Forall₂ (SameCloud φ) cs cs') :
    ∀ (i : Nat) (prev : SV) (prev' : SW) (t : Nat), Held φ d d' prev prev' →
    Same (fun x y => y.1 = x.1 ∧ List.Forall₂ (SameCloud φ) x.2.1 y.2.1 ∧ Held φ d d' x.2.2.1 y.2.2.1
        ∧ y.2.2.2 = x.2.2.2)
      (MixtureParticleFilter.proposeLoop q m u noise i cs prev t)
      (MixtureParticleFilter.proposeLoop q' m' u' noise i cs' prev' t) := by
  induction h with
  | nil => intro i prev prev' t hp; exact Same.ok ⟨rfl, .nil, hp, rfl⟩
  | @cons a b cs cs' h1 h2 ih =>
    intro i prev prev' t hp
    simp only [MixtureParticleFilter.proposeLoop]
    refine Same.bind (propose_same hq hm (noise i).prop h1 hp) ?_
    rintro ⟨⟨x, a'⟩, l⟩ ⟨⟨x', b'⟩, l'⟩ ⟨e1, e2, e3⟩
    simp only at e1 e2 e3
    subst e1
    simp only
    split
    · refine Same.bind (ih (i + 1) l l' (t + 1) e3) ?_
      rintro ⟨x, as, y, s⟩ ⟨x', as', y', s'⟩ ⟨e4, e5, e6, e7⟩
      exact Same.ok ⟨e4, .cons e2 e5, e6, e7⟩
    · exact Same.ok ⟨rfl, .cons e2 h2, e3, rfl⟩

theorem mix_proposalStep_same {u : SV} {u' : SW} {m : SysModel R SV K} {m' : SysModel R SW K}
    (hq : Option.Rel (SameProposal φ d d' c u u') q q') (hm : SameSystem φ d d' c u u' m m')
    (noise : Nat → Noise R K) {f : MixtureParticleFilter R SV K} {f' : MixtureParticleFilter R SW K}
    (h : SameMixFilter φ d d' q q' f f') :
    Same (SameMixResult φ d d' q q') (f.proposalStep m u noise) (f'.proposalStep m' u' noise) := by
  unfold MixtureParticleFilter.proposalStep
  rw [h.proposal, h.proposal', h.timestep]
  refine Same.bind (mix_proposeLoop_same hq hm noise h.mix.comps 0 f.sample f'.sample f.timestep h.sample) ?_
  rintro ⟨b, cs, last, t⟩ ⟨b', cs', last', t'⟩ ⟨h1, h2, h3, h4⟩
  exact Same.ok ⟨h1, ⟨h.mix.dim, h2, h.mix.weights, h.mix.cum⟩, h3, h4, h.dynamic, h.period, h.threshold,
    h.scheme, rfl, rfl⟩

theorem mix_reweightLoop_same {cz : K} (hz : 0 < cz) {f : SV → SV → Outcome K} {f' : SW → SW → Outcome K}
    (hf : ∀ x y, Same (fun a b => b = cz * a) (f x y) (f' (φ x) (φ y))) {cs : List (Cloud K SV)}
    {cs' : List (Cloud K SW)} (h : List.Forall₂ (SameCloud φ) cs cs') :
    Same (fun x y => List.Forall₂ (SameCloud φ) x.1 y.1 ∧ y.2 = x.2.map (cz * ·))
      (MixtureParticleFilter.reweightLoop f cs) (MixtureParticleFilter.reweightLoop f' cs') := by
  induction h with
  | nil => exact Same.ok ⟨.nil, rfl⟩
  | cons h1 _ ih =>
    simp only [MixtureParticleFilter.reweightLoop]
    refine Same.bind (reweight_same hz hf h1) ?_
    rintro ⟨⟨x, a'⟩, s⟩ ⟨⟨x', b'⟩, s'⟩ ⟨_, e2, e3⟩
    simp only at e2 e3
    subst e3
    refine Same.bind ih ?_
    rintro ⟨as, ss⟩ ⟨as', ss'⟩ ⟨e4, e5⟩
    simp only at e4 e5
    subst e5
    exact Same.ok ⟨.cons e2 e4, rfl⟩

theorem mapOutcome_same {α β γ : Type} {r : β → γ → Prop} (f : α → Outcome β) (g : α → Outcome γ)
    (l : List α) (h : ∀ a ∈ l, Same r (f a) (g a)) :
    Same (List.Forall₂ r) (mapOutcome f l) (mapOutcome g l) := by
  induction l with
  | nil => exact Same.ok .nil
  | cons a l ih =>
    simp only [mapOutcome]
    refine Same.bind (h a (by simp)) ?_
    intro b b' hb
    refine Same.bind (ih (fun x hx => h x (by simp [hx]))) ?_
    intro bs bs' hbs
    exact Same.ok (.cons hb hbs)

theorem vget_map {α β : Type} (g : α → β) (l : List α) (i : Nat) :
    Same (fun a b => b = g a) (vget l i) (vget (l.map g) i) := by
  unfold vget
  rw [List.getElem?_map]
  cases l[i]? with
  | none => trivial
  | some a => exact Same.ok rfl

/-- The mixture weights before normalisation: all multiplied by the same factor, none negative. -/
theorem mix_newWeights_same {cz : K} (hz : 0 < cz) {m : Mixture K (Cloud K SV)} {m' : Mixture K (Cloud K SW)}
    (h : SameMix (SameCloud φ) m m') (sums : List K) :
    Same (List.Forall₂ fun a b => b = cz * a ∧ 0 ≤ a) (MixtureParticleFilter.newWeights m sums)
      (MixtureParticleFilter.newWeights m' (sums.map (cz * ·))) := by
  unfold MixtureParticleFilter.newWeights
  have hl : m'.numComponents = m.numComponents := h.comps.length_eq.symm
  rw [hl]
  refine mapOutcome_same _ _ _ fun i _ => ?_
  have hw : m'.weightGet i = m.weightGet i := by
    unfold Mixture.weightGet Mixture.testNotInit
    rw [hl, h.weights, show m'.comps.length = m.comps.length from hl]
  rw [hw]
  refine Same.bind (Same.refl _) ?_
  rintro w _ rfl
  refine Same.bind (vget_map (cz * ·) sums i) ?_
  rintro s _ rfl
  unfold mkProb
  have e : w * (cz * s) = cz * (w * s) := by ring
  rw [e]
  by_cases h0 : 0 ≤ w * s
  · rw [if_pos h0, if_pos (mul_nonneg hz.le h0)]
    exact Same.ok ⟨rfl, h0⟩
  · rw [if_neg h0, if_neg (fun h' => h0 (nonneg_of_mul_nonneg_right h' hz))]
    trivial

theorem forall₂_scaled {cz : K} {ws ws' : List K} (h : List.Forall₂ (fun a b => b = cz * a ∧ 0 ≤ a) ws ws') :
    ws' = ws.map (cz * ·) ∧ ∀ a ∈ ws, 0 ≤ a := by
  induction h with
  | nil => simp
  | cons h _ ih =>
    obtain ⟨rfl, h0⟩ := h
    obtain ⟨rfl, h1⟩ := ih
    refine ⟨rfl, ?_⟩
    intro a ha
    rcases List.mem_cons.1 ha with rfl | ha
    · exact h0
    · exact h1 a ha

theorem mapOutcome_mkProb {l : List K} (h : ∀ a ∈ l, 0 ≤ a) : mapOutcome mkProb l = .ok l := by
  have := mapOutcome_eq_ok (f := mkProb) (g := id) (l := l) (fun a ha => by simp [mkProb, h a ha])
  simpa using this

theorem mix_weightsSet_same {cz : K} (hz : 0 < cz) {m : Mixture K (Cloud K SV)} {m' : Mixture K (Cloud K SW)}
    (h : SameMix (SameCloud φ) m m') {ws : List K} (hw : ∀ a ∈ ws, 0 ≤ a) :
    Same (fun x y => y.1 = x.1 ∧ SameMix (SameCloud φ) x.2 y.2) (m.weightsSet ws)
      (m'.weightsSet (ws.map (cz * ·))) := by
  have hl : m'.numComponents = m.numComponents := h.comps.length_eq.symm
  have hw' : ∀ a ∈ ws.map (cz * ·), 0 ≤ a := by
    intro a ha
    obtain ⟨b, hb, rfl⟩ := List.mem_map.1 ha
    exact mul_nonneg hz.le (hw b hb)
  have esum : (ws.map (cz * ·)).sum = cz * ws.sum := by
    rw [List.sum_map_mul_left, List.map_id']
  unfold Mixture.weightsSet
  rw [mapOutcome_mkProb hw, mapOutcome_mkProb hw', hl]
  simp only [Outcome.ok_bind]
  refine Same.bind (Same.of_eq (by
    unfold Mixture.testNotInit; rw [show m'.comps.length = m.comps.length from hl])) ?_
  intro _ _ _
  rw [List.length_map]
  refine Same.bind (Same.refl _) ?_
  intro _ _ _
  unfold Mixture.renormalize
  refine Same.bind (r := fun x y => y.1 = x.1 ∧ SameMix (SameCloud φ) x.2 y.2) ?_ ?_
  · unfold Mixture.normalizeWeights
    simp only [esum]
    by_cases hpos : 0 < ws.sum
    · rw [if_pos hpos, if_pos (mul_pos hz hpos)]
      have n1 : mapOutcome (fun w => divProb w ws.sum) ws = .ok (ws.map fun w => w / ws.sum) := by
        refine mapOutcome_eq_ok fun a ha => ?_
        simp [divProb, hpos.ne', mkProb, div_nonneg (hw a ha) hpos.le]
      have n2 : mapOutcome (fun w => divProb w (cz * ws.sum)) (ws.map (cz * ·))
          = .ok (ws.map fun w => w / ws.sum) := by
        have := mapOutcome_eq_ok (f := fun w => divProb w (cz * ws.sum))
          (g := fun w => w / (cz * ws.sum)) (l := ws.map (cz * ·)) (fun a ha => by
            simp only [divProb, if_neg (mul_pos hz hpos).ne', mkProb,
              if_pos (div_nonneg (hw' a ha) (mul_pos hz hpos).le)])
        rw [this, List.map_map]
        congr 1
        refine List.map_congr_left fun a _ => ?_
        simp only [Function.comp]
        rw [mul_div_mul_left _ _ hz.ne']
      rw [n1, n2]
      exact Same.ok ⟨rfl, h.dim, h.comps, rfl, h.cum⟩
    · rw [if_neg hpos, if_neg (fun h' => hpos ((mul_pos_iff_of_pos_left hz).1 h'))]
      refine Same.ok ⟨rfl, h.dim, h.comps, ?_, h.cum⟩
      have h0 : ws.sum = 0 := le_antisymm (not_lt.1 hpos) (List.sum_nonneg hw)
      simp only
      conv_rhs => rw [← List.map_id' ws]
      refine List.map_congr_left fun a ha => ?_
      have : a = 0 := le_antisymm (by rw [← h0]; exact List.single_le_sum hw a ha) (hw a ha)
      simp [this]
  · rintro ⟨b, g⟩ ⟨b', g'⟩ ⟨h1, h2⟩
    simp only at h1
    subst h1
    simp only
    split
    · unfold Mixture.cumUpdate
      have : g'.numComponents = g.numComponents := h2.comps.length_eq.symm
      rw [h2.weights, this]
      refine Same.bind (Same.refl _) ?_
      rintro t _ rfl
      refine Same.bind (Same.refl _) ?_
      intro _ _ _
      exact Same.ok ⟨rfl, h2.dim, h2.comps, rfl, rfl⟩
    · exact Same.ok ⟨rfl, h2⟩

theorem mix_weightStep_same (hc : 0 < c) {cz : K} (hz : 0 < cz) {a : UpdateCall R SV MV K}
    {a' : UpdateCall R SW MW K} (hs : Option.Rel (SameSystem φ d d' c a.u a'.u) a.sys a'.sys)
    (hq : a.sys ≠ none → Option.Rel (SameProposal φ d d' c a.u a'.u) q q') {mm : Model SV MV K}
    {mm' : Model SW MW K} (hm : SameModel φ a.s a'.s (fun z z' => z = a.z ∧ z' = a'.z) cz mm mm')
    {f : MixtureParticleFilter R SV K} {f' : MixtureParticleFilter R SW K}
    (h : SameMixFilter φ d d' q q' f f') :
    Same (SameMixResult φ d d' q q') (f.weightStep a mm) (f'.weightStep a' mm') := by
  unfold MixtureParticleFilter.weightStep
  rw [h.proposal, h.proposal']
  refine Same.bind (mix_reweightLoop_same hz (fun x y => factor_same hc hz hs hq hm x y) h.mix.comps) ?_
  rintro ⟨cs, sums⟩ ⟨cs', sums'⟩ ⟨h1, h2⟩
  simp only at h1 h2
  subst h2
  have hmix : SameMix (SameCloud φ) { f.mix with comps := cs } { f'.mix with comps := cs' } :=
    ⟨h.mix.dim, h1, h.mix.weights, h.mix.cum⟩
  refine Same.bind (mix_newWeights_same hz hmix sums) ?_
  intro ws ws' hws
  obtain ⟨rfl, h0⟩ := forall₂_scaled hws
  refine Same.bind (mix_weightsSet_same hz hmix h0) ?_
  rintro ⟨b, g⟩ ⟨b', g'⟩ ⟨h3, h4⟩
  exact Same.ok ⟨h3, h4, h.sample, h.timestep, h.dynamic, h.period, h.threshold, h.scheme, rfl, rfl⟩

theorem eachComponent_same {step : Nat → Cloud K SV → Outcome (Bool × Cloud K SV)}
    {step' : Nat → Cloud K SW → Outcome (Bool × Cloud K SW)}
    (hs : ∀ i a b, SameCloud φ a b → Same (fun x y => y.1 = x.1 ∧ SameCloud φ x.2 y.2) (step i a) (step' i b))
    {cs : List (Cloud K SV)} {cs' : List (Cloud K SW)} (h : List.Forall₂ (SameCloud φ) cs cs') :
    ∀ i, Same (fun x y => y.1 = x.1 ∧ List.Forall₂ (SameCloud φ) x.2 y.2)
      (MixtureParticleFilter.eachComponent step i cs) (MixtureParticleFilter.eachComponent step' i cs') := by
  induction h with
  | nil => intro i; exact Same.ok ⟨rfl, .nil⟩
  | @cons a b cs cs' h1 h2 ih =>
    intro i
    simp only [MixtureParticleFilter.eachComponent]
    refine Same.bind (hs i a b h1) ?_
    rintro ⟨x, a'⟩ ⟨x', b'⟩ ⟨e1, e2⟩
    simp only at e1 e2
    subst e1
    simp only
    split
    · refine Same.bind (ih (i + 1)) ?_
      rintro ⟨y, as⟩ ⟨y', as'⟩ ⟨e3, e4⟩
      exact Same.ok ⟨e3, .cons e2 e4⟩
    · exact Same.ok ⟨rfl, .cons e2 h2⟩

theorem mix_staticStep_same (root : Nat → K → K) (noise : Nat → Noise R K) {f : MixtureParticleFilter R SV K}
    {f' : MixtureParticleFilter R SW K} (h : SameMixFilter φ d d' q q' f f') :
    Same (SameMixResult φ d d' q q') (f.staticStep d root noise) (f'.staticStep d' root noise) := by
  unfold MixtureParticleFilter.staticStep
  rw [h.dynamic, h.timestep, h.period, h.scheme]
  split
  · refine Same.bind (eachComponent_same (fun i a b hab => resample_same d d' root f.scheme
      (noise i).static hab) h.mix.comps 0) ?_
    rintro ⟨b, cs⟩ ⟨b', cs'⟩ ⟨h1, h2⟩
    refine Same.ok ⟨h1, ⟨h.mix.dim, h2, h.mix.weights, h.mix.cum⟩, h.sample, ?_, ?_, ?_, ?_, ?_, h.proposal,
      h.proposal'⟩ <;> simp only [h.timestep, h.period, h.threshold]
  · exact Same.ok ⟨rfl, h⟩

theorem mix_dynamicStep_same (root : Nat → K → K) (noise : Nat → Noise R K)
    {f : MixtureParticleFilter R SV K} {f' : MixtureParticleFilter R SW K}
    (h : SameMixFilter φ d d' q q' f f') :
    Same (SameMixResult φ d d' q q') (f.dynamicStep d root noise) (f'.dynamicStep d' root noise) := by
  unfold MixtureParticleFilter.dynamicStep
  rw [h.dynamic, h.threshold, h.scheme]
  split
  · refine Same.bind (eachComponent_same (fun i a b hab => resampleIfDegenerate_same d d' root f.scheme
      f.threshold (noise i).dynamic hab) h.mix.comps 0) ?_
    rintro ⟨b, cs⟩ ⟨b', cs'⟩ ⟨h1, h2⟩
    refine Same.ok ⟨h1, ⟨h.mix.dim, h2, h.mix.weights, h.mix.cum⟩, h.sample, ?_, ?_, ?_, ?_, ?_, h.proposal,
      h.proposal'⟩ <;> simp only [h.timestep, h.period, h.threshold]
  · exact Same.ok ⟨rfl, h⟩

theorem mix_update_same (hc : 0 < c) (root : Nat → K → K) (noise : Nat → Noise R K)
    {a : UpdateCall R SV MV K} {a' : UpdateCall R SW MW K} (ha : SameCall φ d d' c a a')
    (hq : a.sys ≠ none → Option.Rel (SameProposal φ d d' c a.u a'.u) q q')
    {f : MixtureParticleFilter R SV K} {f' : MixtureParticleFilter R SW K}
    (h : SameMixFilter φ d d' q q' f f') :
    Same (SameMixResult φ d d' q q') (f.update d root noise a) (f'.update d' root noise a') := by
  unfold MixtureParticleFilter.update
  obtain ⟨hs, cz, hz, hm⟩ := ha
  have first : ∀ x y, SameMixResult φ d d' q q' x y → y.1 = x.1 := fun _ _ h => h.1
  refine Same.bind (r := SameMixResult φ d d' q q') ?_ ?_
  · unfold MixtureParticleFilter.sysPart
    revert hs hq
    cases a.sys <;> cases a'.sys <;> intro hq hs <;> cases hs
    · exact Same.ok ⟨rfl, h⟩
    · rename_i hs
      refine Same.bind (mix_andStep_same first
        (show SameMixResult φ d d' q q' (true, f) (true, f') from ⟨rfl, h⟩)
        (mix_staticStep_same root noise h)) ?_
      intro x y hxy
      exact mix_andStep_same first hxy (mix_proposalStep_same (hq (by simp)) hs noise hxy.2)
  · intro x y hxy
    unfold MixtureParticleFilter.measPart
    revert hm
    cases a.meas <;> cases a'.meas <;> intro hm <;> cases hm
    · exact hxy
    · rename_i hm
      refine Same.bind (mix_andStep_same first hxy (mix_weightStep_same hc hz hs hq hm hxy.2)) ?_
      intro x y hxy
      exact mix_andStep_same first hxy (mix_dynamicStep_same root noise hxy.2)

theorem mix_bootUpdate_same (hc : 0 < c) (root : Nat → K → K) (noise : Nat → Noise R K)
    {a : UpdateCall R SV MV K} {a' : UpdateCall R SW MW K} (ha : SameCall φ d d' c a a')
    {f : MixtureParticleFilter R SV K} {f' : MixtureParticleFilter R SW K}
    (h : SameMixFilter φ d d' q q' f f') :
    Same (fun x y => ∃ q q', SameMixResult φ d d' q q' x y) (f.bootUpdate d root noise a)
      (f'.bootUpdate d' root noise a') := by
  obtain ⟨sys, u, meas, z, s⟩ := a
  obtain ⟨sys', u', meas', z', s'⟩ := a'
  obtain ⟨hs, cz, hz, hm⟩ := ha
  simp only at hs hm
  unfold MixtureParticleFilter.bootUpdate
  refine Same.bind (r := fun x y => ∃ q q', SameMixResult φ d d' q q' x y) ?_ ?_
  · unfold MixtureParticleFilter.bootSys
    cases hs with
    | none => exact Same.ok ⟨q, q', rfl, h⟩
    | @some m m' hm =>
      have hp := proposal_same hm
      simp only
      refine Same.mono (r := SameMixResult φ d d' m.proposal m'.proposal)
        (mix_update_same hc root noise ⟨.some hm, 1, one_pos, .none⟩ (fun _ => hp) ?_)
        (fun x y hxy => ⟨_, _, hxy⟩)
      exact ⟨h.mix, h.sample, h.timestep, h.dynamic, h.period, h.threshold, h.scheme, rfl, rfl⟩
  · rintro ⟨b, g⟩ ⟨b', g'⟩ ⟨q, q', h1, h2⟩
    simp only at h1 h2
    subst h1
    unfold MixtureParticleFilter.bootMeas
    cases hm with
    | none => exact Same.ok ⟨q, q', rfl, h2⟩
    | some hm =>
      simp only
      refine Same.bind (mix_update_same (q := q) (q' := q') hc root noise
        ⟨.none, cz, hz, .some hm⟩ (fun h => absurd rfl h) h2) ?_
      rintro ⟨x, k⟩ ⟨x', k'⟩ ⟨h3, h4⟩
      simp only at h3
      subst h3
      exact Same.ok ⟨q, q', rfl, h4⟩

theorem mix_run_same {step : (Nat → Noise R K) → UpdateCall R SV MV K → MixtureParticleFilter R SV K →
      Outcome (Bool × MixtureParticleFilter R SV K)}
    {step' : (Nat → Noise R K) → UpdateCall R SW MW K → MixtureParticleFilter R SW K →
      Outcome (Bool × MixtureParticleFilter R SW K)}
    {rel : MixtureParticleFilter R SV K → MixtureParticleFilter R SW K → Prop}
    {as : List ((Nat → Noise R K) × UpdateCall R SV MV K)}
    {as' : List ((Nat → Noise R K) × UpdateCall R SW MW K)}
    (h : List.Forall₂ (fun a a' => ∀ f f', rel f f' →
      Same (fun x y => y.1 = x.1 ∧ rel x.2 y.2) (step a.1 a.2 f) (step' a'.1 a'.2 f')) as as') :
    ∀ {f : MixtureParticleFilter R SV K} {f' : MixtureParticleFilter R SW K}, rel f f' →
    Same (fun x y => y.1 = x.1 ∧ rel x.2 y.2) (f.run step as) (f'.run step' as') := by
  induction h with
  | nil => intro f f' h; exact Same.ok ⟨rfl, h⟩
  | @cons a a' as as' ha _ ih =>
    intro f f' h
    obtain ⟨n, a⟩ := a
    obtain ⟨n', a'⟩ := a'
    simp only [MixtureParticleFilter.run]
    refine Same.bind (ha f f' h) ?_
    rintro ⟨b, g⟩ ⟨b', g'⟩ ⟨h1, h2⟩
    refine Same.bind (ih h2) ?_
    rintro ⟨x, k⟩ ⟨x', k'⟩ ⟨h3, h4⟩
    refine Same.ok ⟨?_, h4⟩
    simp only at h1 h3
    rw [h1, h3]

theorem mix_make_same (prior : Mixture K (MCPdf K SV))
    (q : Option (Proposal R SV K)) (q' : Option (Proposal R SW K)) (period : Nat) (threshold : K)
    (scheme : Scheme) :
    Same (SameMixFilter φ d d' q q') (MixtureParticleFilter.make d prior q period threshold scheme)
      (MixtureParticleFilter.make d' (movedMix φ prior) q' period threshold scheme) := by
  unfold MixtureParticleFilter.make
  refine Same.bind (r := fun m m' => m' = movedMix φ m) ?_ ?_
  · unfold Mixture.copy
    have hl : (movedMix φ prior).numComponents = prior.numComponents := by
      simp [movedMix, Mixture.numComponents]
    refine Same.bind (r := fun a b => a = b) (Same.of_eq ?_) ?_
    · simp only [Mixture.weightsGet, Mixture.testNotInit, movedMix, List.length_map]
    · rintro ws _ rfl
      rw [hl]
      simp only [Mixture.cumUpdate, movedMix, Mixture.numComponents, List.length_map]
      refine Same.bind (r := fun x y => y = (x.1, movedMix φ x.2)) ?_ ?_
      · refine Same.bind (Same.refl _) ?_
        rintro t _ rfl
        refine Same.bind (Same.refl _) ?_
        intro _ _ _
        exact Same.ok rfl
      · rintro ⟨b, m⟩ _ rfl
        exact Same.ok rfl
  · rintro m _ rfl
    refine Same.bind (Same.refl _) ?_
    rintro dyn _ rfl
    refine Same.ok ⟨⟨rfl, ?_, rfl, rfl⟩, Or.inr ⟨rfl, rfl⟩, rfl, rfl, rfl, rfl, rfl, rfl, rfl⟩
    simp only [movedMix, List.map_map]
    induction m.comps with
    | nil => exact .nil
    | cons p ps ih =>
      refine .cons ⟨rfl, rfl, ?_, rfl⟩ ih
      simp [MixtureParticleFilter.freshCloud, movedPdf, MCPdf.listGet]

theorem posterior_same {f : MixtureParticleFilter R SV K} {f' : MixtureParticleFilter R SW K}
    (h : SameMixFilter φ d d' q q' f f') : mixPosterior f' = movedMix φ (mixPosterior f) := by
  unfold mixPosterior movedMix
  rw [h.mix.dim, h.mix.weights, h.mix.cum]
  congr 1
  simp only [List.map_map]
  have := h.mix.comps
  revert this
  generalize f.mix.comps = cs
  generalize f'.mix.comps = cs'
  intro this
  induction this with
  | nil => rfl
  | cons h _ ih => simp only [List.map_cons, ih, h.post, Function.comp]

/-- C108 for mixture particle filters: same return value, same component weights, and in every component
the particles moved by `φ` with their weights kept. -/
theorem C108_mixture (φ : SV → SW) (d : SV) (d' : SW) (c : K) (hc : 0 < c) (root : Nat → K → K)
    (q : Option (Proposal R SV K)) (q' : Option (Proposal R SW K)) (prior : Mixture K (MCPdf K SV))
    (period : Nat) (threshold : K) (scheme : Scheme)
    (as : List ((Nat → Noise R K) × UpdateCall R SV MV K))
    (as' : List ((Nat → Noise R K) × UpdateCall R SW MW K)) (ha : SameHistory φ d d' c as as')
    (hq : List.Forall₂ (fun a a' => Option.Rel (SameProposal φ d d' c a.2.u a'.2.u) q q') as as') :
    Same (fun x y => y.1 = x.1 ∧ mixPosterior y.2 = movedMix φ (mixPosterior x.2))
      (MixtureParticleFilter.make d prior q period threshold scheme >>= fun f =>
        f.run (MixtureParticleFilter.update d root) as)
      (MixtureParticleFilter.make d' (movedMix φ prior) q' period threshold scheme >>= fun f =>
        f.run (MixtureParticleFilter.update d' root) as') := by
  refine Same.bind (mix_make_same (φ := φ) (d := d) (d' := d') prior q q' period threshold scheme) ?_
  intro f f' h
  refine Same.mono (mix_run_same (rel := SameMixFilter φ d d' q q') ?_ h)
    (fun x y hxy => ⟨hxy.1, posterior_same hxy.2⟩)
  clear h
  unfold SameHistory at ha
  induction ha with
  | nil => exact .nil
  | @cons a a' as as' h _ ih =>
    cases hq with
    | cons h1 h2 =>
      refine .cons (fun f f' hf => ?_) (ih h2)
      rw [h.1]
      exact mix_update_same hc root a.1 h.2 (fun _ => h1) hf

/-- C108 for mixture bootstrap filters. -/
theorem C108_mixture_bootstrap (φ : SV → SW) (d : SV) (d' : SW) (c : K) (hc : 0 < c)
    (root : Nat → K → K) (prior : Mixture K (MCPdf K SV)) (period : Nat) (threshold : K) (scheme : Scheme)
    (as : List ((Nat → Noise R K) × UpdateCall R SV MV K))
    (as' : List ((Nat → Noise R K) × UpdateCall R SW MW K)) (ha : SameHistory φ d d' c as as') :
    Same (fun x y => y.1 = x.1 ∧ mixPosterior y.2 = movedMix φ (mixPosterior x.2))
      (MixtureParticleFilter.make d prior none period threshold scheme >>= fun f =>
        f.run (MixtureParticleFilter.bootUpdate d root) as)
      (MixtureParticleFilter.make d' (movedMix φ prior) none period threshold scheme >>= fun f =>
        f.run (MixtureParticleFilter.bootUpdate d' root) as') := by
  refine Same.bind (mix_make_same (φ := φ) (d := d) (d' := d') prior none none period threshold scheme) ?_
  intro f f' h
  refine Same.mono (mix_run_same (rel := fun f f' => ∃ q q', SameMixFilter φ d d' q q' f f') ?_ ⟨_, _, h⟩)
    (fun x y hxy => ⟨hxy.1, ?_⟩)
  · clear h
    unfold SameHistory at ha
    induction ha with
    | nil => exact .nil
    | @cons a a' as as' h _ ih =>
      refine .cons (fun f f' hf => ?_) ih
      rw [h.1]
      obtain ⟨q, q', hf⟩ := hf
      refine Same.mono (mix_bootUpdate_same hc root a.1 h.2 hf) ?_
      rintro x y ⟨q, q', h1, h2⟩
      exact ⟨h1, q, q', h2⟩
  · obtain ⟨_, _, _, hxy⟩ := hxy
    exact posterior_same hxy

end BFL.Props
