import Verif.Lemmas.Auxiliary

/-!
# Vocabulary of the auxiliary particle filter properties, and the halves of an update
-/

set_option linter.unusedSectionVars false

namespace BFL.Props

open Spec MCPdf Cloud

variable {R SV MV K : Type} [Field K] [LinearOrder K] [IsStrictOrderedRing K]

/-- `a` is a system model, constructed from a pdf with transition density `T` whose draws always
succeed, and whose expected value from `x` with input `u` is `look x u`. -/
structure IsAuxSystem (a : AuxSystem R SV K) (T : SV → SV → SV → K) (look : SV → SV → SV) : Prop where
  trans : IsTransition a.sys T
  total : ∀ r x u prev, ∃ y, a.sys.draw r (argsFor a.sys x u) prev = .ok y
  mean : ∀ x u, a.mean (argsFor a.sys x u) = .ok (look x u)

/-- Auxiliary filters a program can hold: constructed with the multinomial scheme, then any updates. The
static vector may have been used by other filters before. -/
inductive AuxReached (MV : Type) (dflt : SV) (root : Nat → K → K) : AsirFilter R SV K → Prop
  | make {prior : MCPdf K SV} {mu : Option (List SV)} {period : Nat} {threshold : K} {a : AsirFilter R SV K}
      (ha : Admissible prior.listGet)
      (h : AsirFilter.make dflt mu prior period threshold .multinomial = .ok a) : AuxReached MV dflt root a
  | update {a a' : AsirFilter R SV K} {noise : Noise R K} {c : AuxCall R SV MV K}
      (hf : AuxReached MV dflt root a) (h : a.update dflt root noise c = .ok a') : AuxReached MV dflt root a'
  | shared {a : AsirFilter R SV K} (hf : AuxReached MV dflt root a) (mu : Option (List SV)) :
      AuxReached MV dflt root ⟨a.pf, mu⟩

/-- The static vector has room for `n` look-aheads: it does not exist yet, or it has at least `n`
entries. -/
def Room (mu : Option (List SV)) (n : Nat) : Prop := ∀ l, mu = some l → n ≤ l.length

section reached

variable {dflt : SV} {root : Nat → K → K}

theorem lookLoop_inv {q : Option (Proposal R SV K)} {a : AuxSystem R SV K} {u s : SV} {z : MV}
    {mm : Option (Model SV MV K)} : ∀ (l res : List (WSample K SV)) (mus left : List SV),
      AsirFilter.lookLoop q a u mm z s l mus = .ok (res, left) →
      ∃ qs : List (SV × K), res = qs.map wrap ∧ qs.length = l.length ∧ ∀ x ∈ qs, 0 ≤ x.2 := by
  intro l
  induction l with
  | nil =>
    intro res mus left h
    simp only [AsirFilter.lookLoop, Outcome.ok.injEq, Prod.mk.injEq] at h
    exact ⟨[], by simp [← h.1], rfl, by simp⟩
  | cons o os ih =>
    intro res mus left h
    simp only [AsirFilter.lookLoop, Outcome.bind_eq_ok] at h
    obtain ⟨m, _, h⟩ := h
    cases mus with
    | nil => simp at h
    | cons m' mus =>
      simp only [Outcome.bind_eq_ok, Outcome.pure_eq, Outcome.ok.injEq, Prod.mk.injEq, Prod.exists] at h
      obtain ⟨mm', _, g, _, w, _, o', ho, rest, left', hr, rfl, _⟩ := h
      obtain ⟨qs, rfl, h2, h3⟩ := ih _ _ _ hr
      obtain ⟨h4, rfl⟩ := weightSet_ok ho
      refine ⟨(o.value, w * g) :: qs, rfl, by simp [h2], ?_⟩
      intro x hx
      rcases List.mem_cons.1 hx with rfl | hx
      · exact h4
      · exact h3 x hx

theorem asirLoop_inv {f : SV → SV → Outcome K} : ∀ (l res : List (WSample K SV)) (mus : List SV),
      AsirFilter.weightLoop f mus l = .ok res →
      ∃ qs : List (SV × K), res = qs.map wrap ∧ qs.length = l.length ∧ ∀ x ∈ qs, 0 ≤ x.2 := by
  intro l
  induction l with
  | nil =>
    intro res mus h
    simp only [AsirFilter.weightLoop, Outcome.ok.injEq] at h
    exact ⟨[], by simp [← h], rfl, by simp⟩
  | cons o os ih =>
    intro res mus h
    cases mus with
    | nil => simp [AsirFilter.weightLoop] at h
    | cons m' mus =>
      simp only [AsirFilter.weightLoop, Outcome.bind_eq_ok, Outcome.pure_eq, Outcome.ok.injEq] at h
      obtain ⟨g, _, w, _, o', ho, rest, hr, rfl⟩ := h
      obtain ⟨qs, rfl, h2, h3⟩ := ih _ _ hr
      obtain ⟨h4, rfl⟩ := weightSet_ok ho
      refine ⟨(o.value, w * g) :: qs, rfl, by simp [h2], ?_⟩
      intro x hx
      rcases List.mem_cons.1 hx with rfl | hx
      · exact h4
      · exact h3 x hx

theorem update_keeps {noise : Noise R K} {c : AuxCall R SV MV K} {a a' : AsirFilter R SV K}
    (hi : a.pf.cloud.Inv) (h : a.update dflt root noise c = .ok a') :
    a'.pf.cloud.Inv ∧ a'.pf.scheme = a.pf.scheme := by
  simp only [AsirFilter.update, Outcome.bind_eq_ok, Outcome.pure_eq, Outcome.ok.injEq, Prod.exists] at h
  obtain ⟨f, mu, h1, f', h2, rfl⟩ := h
  have hs : f.cloud.Inv ∧ f.scheme = a.pf.scheme := by
    unfold AsirFilter.sysPart at h1
    split at h1
    · simp only [Outcome.ok.injEq, Prod.mk.injEq] at h1
      obtain ⟨rfl, _⟩ := h1
      obtain ⟨ps, g1, g2, g3, g4, g5, g6, g7⟩ := hi
      exact ⟨⟨ps, g1, g2, g3, by simp [listGet, g1], g5, g6, g7⟩, rfl⟩
    · simp only [AsirFilter.sysSteps, ParticleFilter.proposalStep, Outcome.bind_eq_ok, Outcome.pure_eq,
        Outcome.ok.injEq, Prod.mk.injEq, Prod.exists] at h1
      obtain ⟨old, mu', e1, b1, post, e2, b2, cl, e3, b3, f3, ⟨b4, cl', last, e4, rfl, rfl⟩, rfl, rfl⟩ := h1
      obtain ⟨ps, g1, g2, g3, g4, g5, g6, g7⟩ := hi
      obtain ⟨qs, rfl, k2, k3⟩ := lookLoop_inv _ _ _ _ e1
      have k2' : qs.length = ps.length := by simpa [listGet, g1] using k2
      obtain ⟨rs, m1, m2, m3, m4, m5⟩ := listUpdateW_inv g3 k3 (by omega) e2
      have hinv : Cloud.Inv { a.pf.cloud with post := post, old := qs.map wrap } :=
        ⟨rs, m1, m2, m3, by simp [m4], by simp [g5, m4, k2'], by omega, m5⟩
      exact ⟨propose_inv (Cloud.resample_inv hinv e3).2 e4, rfl⟩
  unfold AsirFilter.measPart at h2
  split at h2
  · simp only [Outcome.ok.injEq] at h2
    subst h2
    exact hs
  · simp only [AsirFilter.measSteps, Outcome.bind_eq_ok, Outcome.pure_eq, Outcome.ok.injEq,
      Prod.exists] at h2
    obtain ⟨new, e1, b, post, e2, rfl⟩ := h2
    obtain ⟨⟨ps, g1, g2, g3, g4, g5, g6, g7⟩, hsc⟩ := hs
    obtain ⟨qs, rfl, k2, k3⟩ := asirLoop_inv _ _ _ e1
    have k2' : qs.length = ps.length := by simpa [listGet, g1] using k2
    obtain ⟨rs, m1, m2, m3, m4, m5⟩ := listUpdateW_inv g3 k3 (by omega) e2
    exact ⟨⟨rs, m1, m2, m3, by simp [g4, m4, k2'], by simp [m4], by omega, m5⟩, hsc⟩

theorem AuxReached.inv {a : AsirFilter R SV K} (h : AuxReached MV dflt root a) :
    a.pf.cloud.Inv ∧ a.pf.scheme = .multinomial := by
  induction h with
  | make ha h =>
    simp only [AsirFilter.make, Outcome.bind_eq_ok, Outcome.pure_eq, Outcome.ok.injEq] at h
    obtain ⟨pf, h, rfl⟩ := h
    have := (make_params ha h).1
    exact ⟨this.inv, this.hscheme⟩
  | update hf h ih => exact ⟨(update_keeps ih.1 h).1, (update_keeps ih.1 h).2.trans ih.2⟩
  | shared hf mu ih => exact ih

theorem lookAhead_eq {a : AuxSystem R SV K} {T : SV → SV → SV → K} {look : SV → SV → SV}
    (ha : IsAuxSystem a T look) : ∃ q, a.sys.proposal = some q ∧ IsProposal q a.sys T ∧
      (∀ u x, AsirFilter.lookAhead (some q) a u x = .ok (look x u)) := by
  obtain ⟨w, hw⟩ := ha.trans.without
  obtain ⟨p, hp, hT⟩ := ha.trans
  obtain ⟨h1, h2⟩ := make_one hp
  have h0 : 0 < p.numArgs := by omega
  have h1' : a.sys.model.without = some false → 1 < p.numArgs := by
    intro h
    rcases h2 with h2 | h2
    · rw [h2.2] at h; simp at h
    · omega
  refine ⟨⟨p.numArgs, p.prob, a.sys.draw⟩, by simp [SysModel.proposal, h1], ⟨h0, h1', ?_, ha.total⟩, ?_⟩
  · intro x u y
    refine ⟨(hT x u y).1, ?_⟩
    have := (hT x u y).2
    rcases h2 with ⟨e1, e2⟩ | ⟨e1, e2⟩
    · simpa [argsFor, e2, e1] using this
    · simpa [argsFor, e2, e1] using this
  · intro u x
    simp only [AsirFilter.lookAhead, Cloud.deref, Outcome.ok_bind, Model.withoutInputs, hw,
      propArgs_eq (q := ⟨p.numArgs, p.prob, a.sys.draw⟩) hw h0 h1', ha.mean]

end reached

/-! ## What an update does -/

section steps

variable {dflt : SV} {root : Nat → K → K}

/-- Steps 1 to 3 on a filter with normalised weights. -/
theorem sysPart_live (hroot : IsRoot root) {noise : Noise R K} (hus : Uniforms noise.static)
    {aux : AuxSystem R SV K} {T : SV → SV → SV → K} {look : SV → SV → SV} (ha : IsAuxSystem aux T look)
    {mm : Model SV MV K} {L : MV → SV → SV → K} (hL : IsLikelihood mm L) {c : AuxCall R SV MV K}
    (hs : c.sys = some aux) (hm : c.meas = some mm) {f : ParticleFilter R SV K} {ps : List (SV × K)}
    (hf : f.cloud.Live ps) (hsc : f.scheme = .multinomial) {mu : List SV} (hmu : ps.length ≤ mu.length)
    (hpos : 0 < totalWeight (fun i => L c.z (look (valueAt dflt ps i) c.u) c.s) ps) :
    ∃ f' chosen parents moved q, aux.sys.proposal = some q ∧
      AsirFilter.sysPart dflt root noise c f mu =
        .ok (f', (ps.map fun x => look x.1 c.u) ++ mu.drop ps.length) ∧
      f'.cloud.Live moved ∧
      Reweighted (fun i => L c.z (look (valueAt dflt ps i) c.u) c.s) ps chosen ∧
      Resampled (selectors root noise.static ps.length) chosen parents ∧
      Moved (Draws q aux.sys c.u noise.prop) parents moved := by
  obtain ⟨q, hq, hp, hlook⟩ := lookAhead_eq ha
  obtain ⟨w, hw⟩ := ha.trans.without
  have hl : ∀ x, 0 ≤ L c.z x c.s ∧ Cloud.likelihood mm c.z c.s x = .ok (L c.z x c.s) :=
    fun x => ⟨hL.nonneg _ _ _, hL.likelihood _ _ _⟩
  have e1 := AsirFilter.lookLoop_eq (q := some q) (a := aux) (u := c.u) (hlook c.u) hl ps mu hf.nonneg hmu
  have e2 : (ps.map fun x => (x.1, x.2 * L c.z (look x.1 c.u) c.s)) =
      ps.mapIdx fun i a => (a.1, a.2 * L c.z (look (valueAt dflt ps i) c.u) c.s) := by
    apply List.ext_getElem (by simp)
    intro i h1 h2
    simp only [List.length_map] at h1
    simp [valueAt_of_lt dflt h1]
  rw [e2] at e1
  obtain ⟨chosen, post, e3, e4, e5, e6, e7⟩ := hf.rescale (fun i => hL.nonneg _ _ _) hpos
  have hlive : Cloud.Live { f.cloud with
      post := post, old := (ps.mapIdx fun i a =>
        (a.1, a.2 * L c.z (look (valueAt dflt ps i) c.u) c.s)).map wrap } chosen :=
    ⟨e4, e5, by simp [e6], by simp [hf.new, e6]⟩
  obtain ⟨parents, cl, g1, g2, g3, g4⟩ := Cloud.resample_live hroot.1 hroot.2 dflt hus hlive
  have hd : ∀ r x prev, ∃ y, Cloud.drawOne (some q) aux.sys c.u r x prev = .ok y := by
    intro r x prev
    rw [drawOne_eq hw hp]
    exact hp.total r x c.u prev
  obtain ⟨moved, cl', last, k1, k2, k3, _, k5⟩ := Cloud.propose_live hd noise.prop g2 f.sample
  refine ⟨{ f with proposal := some q, cloud := cl', sample := last, timestep := f.timestep + 1 },
    chosen, parents, moved, q, hq, ?_, k2, e7, ?_, ?_⟩
  · unfold AsirFilter.sysPart AsirFilter.sysSteps
    rw [hs, hm]
    simp only [listGet, hf.samples, hq, e1, Outcome.ok_bind, e3, hsc, g1, ParticleFilter.proposalStep, k1,
      Outcome.pure_eq]
  · unfold selectors
    rw [← e6]
    exact g4
  · obtain ⟨hl', k5⟩ := k5
    refine ⟨hl', fun i hi => ⟨?_, (k5 i hi).2⟩⟩
    obtain ⟨prev, hpv⟩ := (k5 i hi).1
    rw [drawOne_eq hw hp] at hpv
    exact ⟨prev, hpv⟩

/-- Step 4 on a filter with normalised weights. -/
theorem measPart_live {mm : Model SV MV K} {L : MV → SV → SV → K} (hL : IsLikelihood mm L)
    {c : AuxCall R SV MV K} (hm : c.meas = some mm) {f : ParticleFilter R SV K} {ps : List (SV × K)}
    (hf : f.cloud.Live ps) {mu : List SV} (hmu : ps.length ≤ mu.length)
    (hpos : 0 < totalWeight (fun i => L c.z (valueAt dflt ps i) c.s / L c.z (mu[i]?.getD dflt) c.s) ps) :
    ∃ f' ps', AsirFilter.measPart c f mu = .ok f' ∧ Holds f'.postGet ps' ∧
      Reweighted (fun i => L c.z (valueAt dflt ps i) c.s / L c.z (mu[i]?.getD dflt) c.s) ps ps' := by
  have hl : ∀ x, 0 ≤ L c.z x c.s ∧ Cloud.likelihood mm c.z c.s x = .ok (L c.z x c.s) :=
    fun x => ⟨hL.nonneg _ _ _, hL.likelihood _ _ _⟩
  have hnn : ∀ i, 0 ≤ L c.z (valueAt dflt ps i) c.s / L c.z (mu[i]?.getD dflt) c.s :=
    fun i => div_nonneg (hL.nonneg _ _ _) (hL.nonneg _ _ _)
  have e1 := AsirFilter.weightLoop_eq (f := AsirFilter.auxFactor mm c.z c.s) ps mu _ hf.nonneg hnn hmu
    (fun i hi => by
      rw [AsirFilter.auxFactor_eq hl, valueAt_of_lt dflt hi]
      simp [show i < mu.length by omega])
  obtain ⟨ps', post, e3, e4, e5, e6, e7⟩ := hf.rescale hnn hpos
  refine ⟨{ f with cloud := { f.cloud with post := post, new := (ps.mapIdx fun i a => (a.1, a.2 *
    (L c.z (valueAt dflt ps i) c.s / L c.z (mu[i]?.getD dflt) c.s))).map wrap } }, ps', ?_, e4, e7⟩
  unfold AsirFilter.measPart AsirFilter.measSteps
  rw [hm]
  simp only [listGet, hf.samples, e1, Outcome.ok_bind, e3, Outcome.pure_eq]

end steps

end BFL.Props
