import Verif.Lemmas.ParticleReset
import Verif.Props.ParticleFilterFixture
import Verif.Props.Histogram

/-!
# C49: `Reset` gives a fresh filter and leaves the prior alone

The pdf objects of the client and of the filter are on a heap (`Verif/Model/FilterReset.lean`).
-/

set_option linter.unusedSectionVars false

namespace BFL.Props

open Spec FilterClass

section General

variable {P F C : Type} {X : FilterClass P F C}

/-- C49 fails for every filter class that uses `Filter::Reset`: after `Reset(p)` the client's object
`p` is the posterior. Whatever updates follow, `p` holds the value that `PostGet()` shows. -/
theorem C49_prior_is_posterior {cs : List C} {h h' : Heap (PdfCell P)} {o o' : FilterObj F} {a : Addr}
    {b : Bool} {cell : PdfCell P} (hc : h.get a = some cell)
    (hr : X.run h (o.reset a) cs = .ok (b, h', o')) :
    ∃ v, h'.get a = some ⟨v, cell.dynamic⟩ ∧ postGet h' o' = .ok v :=
  reset_alias hc hr

/-- C49 fails: after `Reset(p)` the destruction of the filter and the end of the client's object `p`
cannot both happen. Either the destructor deletes an object that was not created by `new`, or the
object is deleted twice. -/
theorem C49_double_delete {cs : List C} {h h' : Heap (PdfCell P)} {o o' : FilterObj F} {a : Addr}
    {b : Bool} (hr : X.run h (o.reset a) cs = .ok (b, h', o')) :
    (do let h'' ← o'.destroy h'; endOfLife h'' a) = .ub :=
  reset_released hr

/-- C49, second half, holds for `MixtureParticleFilter::Reset`, which clones its argument: later
updates leave `p` alone, and the filter and `p` can both be destroyed. -/
theorem C49_mixture_prior {copy : P → Outcome P} {h h1 h2 : Heap (PdfCell P)} {o o1 o2 : FilterObj F}
    {a : Addr} {cs : List C} {b : Bool} (hm : FilterObj.resetMixture copy h o a = .ok (h1, o1))
    (hr : X.run h1 o1 cs = .ok (b, h2, o2)) :
    h2.get a = h.get a ∧ ∃ h3 h4, o2.destroy h2 = .ok h3 ∧ h3.get a = h.get a ∧
      endOfLife h3 a = .ok h4 :=
  resetMixture_frame hm hr

end General

section Classes

variable {R SV MV Z K : Type} [Field K] [LinearOrder K] {n m : Nat} {U Sens : Type}

/-- C49, first half, for the extended and the iterated extended Kalman filter: after `Reset(p)` the
filter gives the posteriors of a new filter with prior `p`. Missing: `p` is not left alone. -/
theorem C49_kalman_partial (be : Backend) (kind : KF.Kind K n) {h : Heap (PdfCell (MeanCov K n))}
    (o : FilterObj (KF K n)) {a : Addr} {cell : PdfCell (MeanCov K n)} (hc : h.get a = some cell) :
    BehavesFresh (kalmanClass be kind : FilterClass _ _ (KF.Call K n m U)) h (o.reset a) a :=
  fresh_of_sim (kalmanClass_lawful be kind) (Rel := KF.Same)
    (fun _ _ h => Prod.ext h.1 h.2) (fun f g c h => kalman_step be kind f g c h) hc rfl rfl ⟨rfl, rfl⟩

/-- C49 fails for the square root filter: its factor of the covariance survives `Reset`. The result
of a measurement update after `Reset` to mean `x` does not depend on the covariance given to `Reset`,
only on what the filter did before. -/
theorem C49_square_root_ignores_covariance (be : Backend) (sqrt : K → K) (eps : K) (nr : Nat)
    (hnr : 0 < nr) (h h' : Heap (PdfCell (MeanCov K n))) (o : FilterObj (SRKF K n)) {a a' : Addr}
    {x : Fin n → K} {S S' : Matrix (Fin n) (Fin n) K} {d d' : Bool} (ha : h.get a = some ⟨(x, S), d⟩)
    (ha' : h'.get a' = some ⟨(x, S'), d'⟩) (meas : ImplicitModel K n m Sens) (z : Fin m → K) (s : Sens) :
    (srKalmanClass be sqrt eps nr).trace h (o.reset a)
        [(⟨none, some (meas, z, s)⟩ : SRKF.Call K n m U Sens)] =
      (srKalmanClass be sqrt eps nr).trace h' (o.reset a')
        [(⟨none, some (meas, z, s)⟩ : SRKF.Call K n m U Sens)] := by
  rw [trace_eq (srKalmanClass_lawful be sqrt eps nr) _ (o := o.reset a) (cell := ⟨(x, S), d⟩) ha rfl,
    trace_eq (srKalmanClass_lawful be sqrt eps nr) _ (o := o.reset a') (cell := ⟨(x, S'), d'⟩) ha' rfl]
  obtain ⟨k, rfl⟩ : ∃ k, nr = k + 1 := ⟨nr - 1, by omega⟩
  congr 1
  simp only [runV, srKalmanClass, SRKF.update, SRKF.sysPart, SRKF.measPart, SRKF.measUpdate,
    Outcome.ok_bind]
  rw [srkf_measLoop_sigma]
  · rfl
  · rfl
  · rfl

variable [IsStrictOrderedRing K]

/-- C49, first half, for the histogram filter: after `Reset(p)`, where `p` is a consistent pdf with
as many states as the filter was constructed for, the filter gives the posteriors of a new filter.
Missing: `p` is not left alone. -/
theorem C49_histogram_partial {h h1 h2 : Heap (PdfCell (DiscretePdf K))}
    {o1 o2 : FilterObj (HistogramFilter K)} {a0 a : Addr} {cell0 cell : PdfCell (DiscretePdf K)}
    {before : List (HistogramFilter.Call Z K)} {b : Bool}
    (h0 : h.get a0 = some cell0) (hcon : (histogramClass (Z := Z)).construct h a0 = .ok (h1, o1))
    (hrun : histogramClass.run h1 o1 before = .ok (b, h2, o2))
    (hc : h2.get a = some cell) (hcopy : cell.val.copy = .ok cell.val)
    (hn : cell.val.numStates = cell0.val.numStates) :
    BehavesFresh (histogramClass : FilterClass _ _ (HistogramFilter.Call Z K)) h2 (o2.reset a) a := by
  have hI : HistogramFilter.Sized cell0.val.values.length o2.own :=
    construct_run_inv histogramClass_lawful
      (I := HistogramFilter.Sized cell0.val.values.length)
      (fun f c b f' hf hs => (HistogramFilter.update_sized hf hs).2)
      (fun cell f hg hm => by
        rw [h0] at hg; cases hg
        exact (HistogramFilter.make_sized hm).1) hcon hrun
  refine fresh_of_sim histogramClass_lawful (Rel := HistogramFilter.Same cell0.val.values.length)
    (fun _ _ h => h.1) (fun f g c h => histogram_step f g c h) hc
    (f := { o2.own with post := cell.val })
    (g := { post := cell.val, newProb := cell.val.probabilitiesGet, timestep := 0 }) rfl ?_ ?_
  · show HistogramFilter.make cell.val = _
    simp only [HistogramFilter.make, hcopy, Outcome.ok_bind]
    rfl
  · exact ⟨rfl, hn, hI.2.1, hn⟩

/-- C49 fails for the histogram filter if `p` has another number of states than the filter was
constructed for: no system update succeeds. -/
theorem C49_histogram_size {h h1 h2 h3 : Heap (PdfCell (DiscretePdf K))}
    {o1 o2 o3 : FilterObj (HistogramFilter K)} {a0 a : Addr} {cell0 cell : PdfCell (DiscretePdf K)}
    {before : List (HistogramFilter.Call Z K)} {b b' : Bool} {c : HistogramFilter.Call Z K}
    (h0 : h.get a0 = some cell0) (hcon : (histogramClass (Z := Z)).construct h a0 = .ok (h1, o1))
    (hrun : histogramClass.run h1 o1 before = .ok (b, h2, o2))
    (hc : h2.get a = some cell) (hn : cell.val.numStates ≠ cell0.val.numStates)
    (hsys : c.sys.isSome) :
    histogramClass.update h2 (o2.reset a) c ≠ .ok (b', h3, o3) := by
  have hI : HistogramFilter.Sized cell0.val.values.length o2.own :=
    construct_run_inv histogramClass_lawful
      (I := HistogramFilter.Sized cell0.val.values.length)
      (fun f c b f' hf hs => (HistogramFilter.update_sized hf hs).2)
      (fun cell f hg hm => by
        rw [h0] at hg; cases hg
        exact (HistogramFilter.make_sized hm).1) hcon hrun
  intro hu
  obtain ⟨cell', f, f', hc', hf, hs, _, _⟩ := update_ok hu
  have hc'' : h2.get a = some cell' := hc'
  rw [hc] at hc''
  cases hc''
  have hf' : Outcome.ok { o2.own with post := cell.val } = Outcome.ok f := hf
  cases hf'
  have hs' : HistogramFilter.update { o2.own with post := cell.val } c = .ok (b', f') := hs
  cases hsy : c.sys with
  | none => rw [hsy] at hsys; cases hsys
  | some su =>
    obtain ⟨m, u⟩ := su
    simp only [HistogramFilter.update, HistogramFilter.sysPart, HistogramFilter.sysUpdate, hsy,
      Outcome.bind_eq_ok, Prod.exists] at hs'
    obtain ⟨_, ⟨_, _, new, hnew, _, _, hset, _⟩, _⟩ := hs'
    have hl := HistogramFilter.predictLoop_length _ _ _ _ hnew
    obtain ⟨_, hl2, _⟩ := DiscretePdf.probabilitiesSet_inv hset
    apply hn
    show cell.val.values.length = cell0.val.values.length
    rw [← hl2, hl]
    exact hI.2.1

/-- C49, first half, for a particle filter with dynamic multinomial resampling: after `Reset(p)`,
where `p` is what `ListOfSamplesSet` makes of its own samples and has as many samples as the filter
was constructed for, the filter gives the posteriors of a new filter. The proposal must not keep the
sample object unchanged when it draws. Missing: `p` is not left alone, and fixed period resampling,
for which it fails (`C49_particle_static`). -/
theorem C49_particle_partial (dflt : SV) (root : Nat → K → K) (q : Option (Proposal R SV K))
    (hq : Cloud.DrawsAnew q) {threshold : K} (hth : threshold ≠ 0)
    {h h1 h2 : Heap (PdfCell (MCPdf K SV))}
    {o1 o2 : FilterObj (ParticleFilter R SV K)} {a0 a : Addr} {cell0 cell : PdfCell (MCPdf K SV)}
    {before : List (Noise R K × UpdateCall R SV MV K)} {b : Bool} (h0 : h.get a0 = some cell0)
    (hcon : (particleClass (MV := MV) dflt root q 0 threshold .multinomial).construct h a0 = .ok (h1, o1))
    (hrun : (particleClass dflt root q 0 threshold .multinomial).run h1 o1 before = .ok (b, h2, o2))
    (hc : h2.get a = some cell)
    (hset : (MCPdf.make cell.val.numSamples dflt).listSetW dflt cell.val.listGet = .ok (true, cell.val))
    (hn : cell.val.numSamples = cell0.val.numSamples) :
    BehavesFresh (particleClass dflt root q 0 threshold .multinomial :
      FilterClass _ _ (Noise R K × UpdateCall R SV MV K)) h2 (o2.reset a) a := by
  have hmake : ∀ (p : MCPdf K SV) (f : ParticleFilter R SV K),
      ParticleFilter.make dflt p q 0 threshold .multinomial = .ok f →
      f.Same f ∧ f.cloud.new.length = p.numSamples ∧ f.cloud.old.length = p.numSamples ∧
        f.cloud.post.samples.length = p.numSamples ∧ f.threshold = threshold ∧ f.proposal = q := by
    intro p f hm
    simp only [ParticleFilter.make, ParticleFilter.policy, Outcome.bind_eq_ok, Outcome.pure_eq,
      Outcome.ok.injEq, Prod.exists] at hm
    obtain ⟨b, post, hp, _, _, dyn, ⟨_, _, _, _, rfl⟩, rfl⟩ := hm
    have hl : post.samples.length = p.numSamples := by
      unfold MCPdf.listSetW at hp
      exact (Cloud.normalizeWeights_length hp :)
    exact ⟨⟨⟨rfl, hl.symm, hl.symm, hl.symm, hl.symm⟩, rfl, rfl, rfl, rfl, rfl, rfl, hq⟩,
      rfl, rfl, hl, rfl, rfl⟩
  have hI : o2.own.Same o2.own ∧ o2.own.cloud.post.samples.length = cell0.val.numSamples ∧
      o2.own.threshold = threshold ∧ o2.own.proposal = q := by
    refine construct_run_inv (particleClass_lawful dflt root q 0 threshold .multinomial)
      (I := fun f => f.Same f ∧ f.cloud.post.samples.length = cell0.val.numSamples ∧
        f.threshold = threshold ∧ f.proposal = q) ?_ ?_ hcon hrun
    · rintro f ⟨noise, c⟩ b f' ⟨hf, hl, ht, hp⟩ hs
      have hs' : f.update dflt root noise c = .ok (b, f') := hs
      have hsame := ParticleFilter.update_same (dflt := dflt) (root := root) (noise := noise) (c := c) hf
      rw [hs'] at hsame
      obtain ⟨k1, k2, k3⟩ := ParticleFilter.update_keeps hs'
      exact ⟨hsame.2, k1.trans hl, k2.trans ht, k3.trans hp⟩
    · intro cell f hg hm
      rw [h0] at hg; cases hg
      obtain ⟨h1, _, _, h4, h5, h6⟩ := hmake _ _ hm
      exact ⟨h1, h4, h5, h6⟩
  obtain ⟨hS, hlen, hth2, hpr⟩ := hI
  obtain ⟨g, hg, hgp⟩ : ∃ g, ParticleFilter.make dflt cell.val q 0 threshold .multinomial = .ok g ∧
      g.cloud.post = cell.val := by
    simp only [ParticleFilter.make, hset, Outcome.ok_bind, ParticleFilter.policy, hth]
    exact ⟨_, rfl, rfl⟩
  obtain ⟨gS, g1, g2, _, g4, g5⟩ := hmake _ _ hg
  refine fresh_of_sim (particleClass_lawful dflt root q 0 threshold .multinomial)
    (Rel := ParticleFilter.Same) (fun _ _ h => h.cloud.post) (fun f g c h => ParticleFilter.update_same h)
    hc (f := { o2.own with cloud := { o2.own.cloud with post := cell.val } }) (g := g) rfl hg ?_
  have e1 : o2.own.cloud.new.length = cell.val.samples.length :=
    hS.cloud.new.trans (hlen.trans hn.symm)
  have e2 : o2.own.cloud.old.length = cell.val.samples.length :=
    hS.cloud.old.trans (hlen.trans hn.symm)
  exact ⟨⟨hgp.symm, e1, g1, e2, g2⟩, hS.dynamic, gS.dynamic, by rw [g4]; exact hth2, hS.scheme,
    gS.scheme, by rw [g5]; exact hpr, hS.anew⟩

end Classes

/-! ## Witnesses and concrete cases -/

namespace ResetExample

open HistogramExample in
/-- A histogram prior of the client, on the stack. -/
def histHeap : Heap (PdfCell (DiscretePdf ℚ)) := ⟨[some ⟨prior, false⟩]⟩

open HistogramExample in
/-- Reading 1. -/
def look : HistogramFilter.Call Int ℚ := ⟨none, some (meas, 1, none)⟩

open HistogramExample in
/-- One step of the system. -/
def move : HistogramFilter.Call Int ℚ := ⟨some (sys, none), none⟩

/-- A filter that was constructed with the prior and then reset to it. -/
def histReset : Heap (PdfCell (DiscretePdf ℚ)) × FilterObj (HistogramFilter ℚ) :=
  match (histogramClass (Z := Int)).construct histHeap 0 with
  | .ok (h, o) => (h, o.reset 0)
  | _ => (histHeap, ⟨0, 0, HistogramExample.filter⟩)

/-- One step of the system of the particle filter. -/
def step : Noise Nat ℚ × UpdateCall Nat Nat Nat ℚ := (Fixture.noise, ⟨some Fixture.sys, 0, none, 0, 0⟩)

/-- Square roots of the numbers of the example. -/
def root (x : ℚ) : ℚ := if x = 9 then 3 else if x = 25 then 5 else if x = 16 then 4 else 0

/-- A measurement of the state with variance 16. -/
def direct : ImplicitModel ℚ 1 1 Unit := ⟨fun _ _ => 1, fun _ x => x, fun _ _ => fun _ _ => 16,
  fun _ _ => 0, fun _ _ => false⟩

/-- The prior the filter is constructed with, and the prior it is reset to. -/
def cloudHeap2 : Heap (PdfCell (MCPdf ℚ Nat)) := ⟨[some ⟨Fixture.prior, false⟩, some ⟨Fixture.prior, false⟩]⟩

/-- Priors of a square root filter: variance 0, then variance 9. -/
def gaussHeap : Heap (PdfCell (MeanCov ℚ 1)) := ⟨[some ⟨(0, 0), false⟩, some ⟨(0, fun _ _ => 9), false⟩]⟩

/-- A mixture with one component. -/
def mixPrior : Mixture ℚ (MCPdf ℚ Nat) := ⟨1, [Fixture.prior], [1], [0, 1]⟩

def mixHeap : Heap (PdfCell (Mixture ℚ (MCPdf ℚ Nat))) := ⟨[some ⟨mixPrior, false⟩, some ⟨mixPrior, false⟩]⟩

def mixStep : (Nat → Noise Nat ℚ) × UpdateCall Nat Nat Nat ℚ :=
  (fun _ => Fixture.noise, ⟨some Fixture.sys, 0, none, 0, 0⟩)

/-- `Filter::Reset` as an operation on the heap. -/
def plainReset {P F : Type} (h : Heap (PdfCell P)) (o : FilterObj F) (a : Addr) :
    Outcome (Heap (PdfCell P) × FilterObj F) := .ok (h, o.reset a)

/-- Two traces that a client can tell apart by looking at `obs`. -/
theorem not_fresh {P F C Q : Type} (obs : P → Q) {X : FilterClass P F C}
    {rst : Heap (PdfCell P) → FilterObj F → Addr → Outcome (Heap (PdfCell P) × FilterObj F)}
    {h : Heap (PdfCell P)} {a0 a : Addr} {before cs : List C} {r r' : Q}
    (e : ((X.construct h a0 >>= fun x => X.run x.1 x.2 before >>= fun y => rst y.2.1 y.2.2 a) >>= fun z =>
      X.trace z.1 z.2 cs >>= fun r => .ok (obs r.2)) = .ok r)
    (e' : ((X.construct h a0 >>= fun x => X.run x.1 x.2 before >>= fun y => rst y.2.1 y.2.2 a) >>= fun z =>
      X.construct z.1 a >>= fun x => X.trace x.1 x.2 cs >>= fun r => .ok (obs r.2)) = .ok r')
    (hne : r ≠ r') : ¬ ResetFresh X rst h a0 before a := by
  intro hf
  rw [Outcome.bind_eq_ok] at e
  obtain ⟨⟨h3, o3⟩, e1, e2⟩ := e
  rw [e1, Outcome.ok_bind] at e'
  simp only [Outcome.bind_eq_ok, Prod.exists] at e1
  obtain ⟨h1, o1, c1, b, h2, o2, c2, c3⟩ := e1
  have key := hf _ _ _ _ _ _ _ c1 c2 c3 cs
  simp only [Outcome.bind_eq_ok, Prod.exists, Outcome.ok.injEq] at e2 e'
  obtain ⟨b1, p1, f1, g1⟩ := e2
  obtain ⟨h4, o4, c4, b2, p2, f2, g2⟩ := e'
  rw [f1, c4, Outcome.ok_bind] at key
  dsimp only at key
  rw [f2] at key
  cases key
  exact hne (g1.symm.trans g2)

end ResetExample

open ResetExample

/-- C49 fails: a histogram prior 1/2, 1/2 of the client is 1/5, 4/5 after `Reset` and one
measurement. -/
theorem C49_prior_changed_witness :
    ¬ LeavesAlone (histogramClass (Z := Int)) histReset.1 histReset.2 0 ∧
      histReset.1.get 0 = some ⟨HistogramExample.prior, false⟩ := by
  refine ⟨fun hl => ?_, by decide +kernel⟩
  have key : ((histogramClass (Z := Int)).run histReset.1 histReset.2 [look] >>= fun r =>
      Outcome.ok (r.1, r.2.1.get 0)) = .ok (true, some ⟨⟨[1/5, 4/5], [0, 1/5, 1]⟩, false⟩) := by
    decide +kernel
  rw [Outcome.bind_eq_ok] at key
  obtain ⟨⟨b, h', o'⟩, hr, he⟩ := key
  have := hl _ _ _ _ hr
  simp only [Outcome.ok.injEq, Prod.mk.injEq] at he
  rw [he.2] at this
  revert this
  decide +kernel

/-- C49 fails for the square root filter: constructed with variance 0 and reset to mean 0 and variance
9, it does not move at a measurement 25 with variance 16; a new filter moves to 9. -/
theorem C49_square_root_witness :
    ¬ ResetFresh (srKalmanClass .boost root 0 1 : FilterClass _ _ (SRKF.Call ℚ 1 1 Unit Unit)) plainReset
      gaussHeap 0 [] 1 := by
  refine not_fresh (fun p => (p.1 0, p.2 0 0)) (cs := [⟨none, some (direct, fun _ => 25, ())⟩])
    (r := (0, 0)) (r' := (9, 144 / 25)) ?_ ?_ ?_
  · decide +kernel
  · decide +kernel
  · decide +kernel

/-- C49 fails for a particle filter that resamples at fixed intervals: the count of updates is not
reset. A filter that has made one update and has period 1 resamples at the first update after
`Reset`, a new one does not. -/
theorem C49_particle_static_witness :
    ¬ ResetFresh (particleClass 0 Fixture.root (some Fixture.prop) 1 0 .multinomial :
      FilterClass _ _ (Noise Nat ℚ × UpdateCall Nat Nat Nat ℚ)) plainReset cloudHeap2 0 [step] 1 := by
  refine not_fresh (fun p => p.listGet) (cs := [step]) (r := [⟨1, some (1/2)⟩, ⟨2, some (1/2)⟩])
    (r' := [⟨0, some (1/2)⟩, ⟨2, some (1/2)⟩]) ?_ ?_ ?_
  · decide +kernel
  · decide +kernel
  · decide +kernel

/-- The same for the mixture filter and its own `Reset`. -/
theorem C49_mixture_static_witness :
    ¬ ResetFresh (mixtureClass 0 Fixture.root (some Fixture.prop) 1 0 .multinomial :
      FilterClass _ _ ((Nat → Noise Nat ℚ) × UpdateCall Nat Nat Nat ℚ))
      (FilterObj.resetMixture Mixture.copy) mixHeap 0 [mixStep] 1 := by
  refine not_fresh (fun p => p.comps.map fun c => c.listGet) (cs := [mixStep])
    (r := [[⟨1, some (1/2)⟩, ⟨2, some (1/2)⟩]]) (r' := [[⟨0, some (1/2)⟩, ⟨2, some (1/2)⟩]]) ?_ ?_ ?_
  · decide +kernel
  · decide +kernel
  · decide +kernel

/-- The hypotheses of `C49_prior_is_posterior` and `C49_double_delete` hold for the histogram filter,
and those of `C49_histogram_partial` for a reset after two updates. -/
example : ∃ h1 o1 h2 o2 h3 o3, (histogramClass (Z := Int)).construct histHeap 0 = .ok (h1, o1) ∧
    (histogramClass (Z := Int)).run h1 o1 [move, look] = .ok (true, h2, o2) ∧
    h2.get 0 = some ⟨HistogramExample.prior, false⟩ ∧
    HistogramExample.prior.copy = .ok HistogramExample.prior ∧
    (histogramClass (Z := Int)).run h2 (o2.reset 0) [look, move] = .ok (true, h3, o3) := by
  have key : (((histogramClass (Z := Int)).construct histHeap 0 >>= fun x =>
      (histogramClass (Z := Int)).run x.1 x.2 [move, look] >>= fun y =>
      (histogramClass (Z := Int)).run y.2.1 (y.2.2.reset 0) [look, move] >>= fun z =>
      Outcome.ok (y.1, y.2.1.get 0, z.1))) =
      .ok (true, some ⟨HistogramExample.prior, false⟩, true) := by decide +kernel
  simp only [Outcome.bind_eq_ok, Prod.exists, Outcome.ok.injEq, Prod.mk.injEq] at key
  obtain ⟨h1, o1, c1, b, h2, o2, c2, b', h3, o3, c3, rfl, e, rfl⟩ := key
  exact ⟨h1, o1, h2, o2, h3, o3, c1, c2, e, by decide +kernel, c3⟩

/-- The hypotheses of `C49_particle_partial` hold. -/
example : ∃ h1 o1 h2 o2, (particleClass (MV := Nat) 0 Fixture.root (some Fixture.prop) 0 2
      .multinomial).construct cloudHeap2 0 = .ok (h1, o1) ∧
    (particleClass (MV := Nat) 0 Fixture.root (some Fixture.prop) 0 2 .multinomial).run h1 o1
      [step] = .ok (true, h2, o2) ∧
    h2.get 1 = some ⟨Fixture.prior, false⟩ ∧ Cloud.DrawsAnew (some Fixture.prop) ∧
    (MCPdf.make Fixture.prior.numSamples 0).listSetW 0 Fixture.prior.listGet = .ok (true, Fixture.prior) := by
  have key : (((particleClass (MV := Nat) 0 Fixture.root (some Fixture.prop) 0 2
      .multinomial).construct cloudHeap2 0 >>= fun x =>
      (particleClass (MV := Nat) 0 Fixture.root (some Fixture.prop) 0 2 .multinomial).run x.1 x.2 [step] >>=
        fun y => Outcome.ok (y.1, y.2.1.get 1))) = .ok (true, some ⟨Fixture.prior, false⟩) := by
    decide +kernel
  simp only [Outcome.bind_eq_ok, Prod.exists, Outcome.ok.injEq, Prod.mk.injEq] at key
  obtain ⟨h1, o1, c1, b, h2, o2, c2, rfl, e⟩ := key
  exact ⟨h1, o1, h2, o2, c1, c2, e, by rintro p rfl' r args x y; cases rfl'; rfl, by decide +kernel⟩

/-- The hypotheses of `C49_mixture_prior` hold. -/
example : ∃ h1 o1 h2 o2 h3 o3, (mixtureClass (MV := Nat) 0 Fixture.root (some Fixture.prop) 1 0
      .multinomial).construct mixHeap 0 = .ok (h1, o1) ∧
    FilterObj.resetMixture Mixture.copy h1 o1 1 = .ok (h2, o2) ∧
    (mixtureClass (MV := Nat) 0 Fixture.root (some Fixture.prop) 1 0 .multinomial).run h2 o2
      [mixStep] = .ok (true, h3, o3) := by
  have key : (((mixtureClass (MV := Nat) 0 Fixture.root (some Fixture.prop) 1 0
      .multinomial).construct mixHeap 0 >>= fun x =>
      FilterObj.resetMixture Mixture.copy x.1 x.2 1 >>= fun y =>
      (mixtureClass (MV := Nat) 0 Fixture.root (some Fixture.prop) 1 0 .multinomial).run y.1 y.2
        [mixStep] >>= fun z => Outcome.ok z.1)) = .ok true := by
    decide +kernel
  simp only [Outcome.bind_eq_ok, Prod.exists, Outcome.ok.injEq] at key
  obtain ⟨h1, o1, c1, h2, o2, c2, b, h3, o3, c3, rfl⟩ := key
  exact ⟨h1, o1, h2, o2, h3, o3, c1, c2, c3⟩

/-- A prior with three states for a filter of two states (`C49_histogram_size`). -/
example : ∃ h1 o1 h2 o2 cell, (histogramClass (Z := Int)).construct
      ⟨[some ⟨HistogramExample.prior, false⟩, some ⟨⟨[1/3, 1/3, 1/3], [0, 1/3, 2/3, 1]⟩, false⟩]⟩ 0 =
        .ok (h1, o1) ∧
    (histogramClass (Z := Int)).run h1 o1 [move] = .ok (true, h2, o2) ∧ h2.get 1 = some cell ∧
    cell.val.numStates ≠ HistogramExample.prior.numStates := by
  have key : (((histogramClass (Z := Int)).construct
      ⟨[some ⟨HistogramExample.prior, false⟩, some ⟨⟨[1/3, 1/3, 1/3], [0, 1/3, 2/3, 1]⟩, false⟩]⟩ 0 >>=
        fun x => (histogramClass (Z := Int)).run x.1 x.2 [move] >>= fun y =>
      Outcome.ok (y.1, y.2.1.get 1))) =
      .ok (true, some ⟨⟨[1/3, 1/3, 1/3], [0, 1/3, 2/3, 1]⟩, false⟩) := by decide +kernel
  simp only [Outcome.bind_eq_ok, Prod.exists, Outcome.ok.injEq, Prod.mk.injEq] at key
  obtain ⟨h1, o1, c1, b, h2, o2, c2, rfl, e⟩ := key
  exact ⟨h1, o1, h2, o2, _, c1, c2, e, by decide⟩

/-- A Kalman filter that was constructed with variance 0 and reset to variance 9: like a new one. -/
example : BehavesFresh (kalmanClass .boost .extended : FilterClass _ _ (KF.Call ℚ 1 1 Unit)) gaussHeap
    ((⟨0, 0, KF.make 0 0⟩ : FilterObj (KF ℚ 1)).reset 1) 1 :=
  C49_kalman_partial .boost .extended _ (cell := ⟨(0, fun _ _ => 9), false⟩) rfl

end BFL.Props
