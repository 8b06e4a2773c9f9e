import Verif.Spec.FilterReset
import Verif.Lemmas.ObjectHeap
import Verif.Lemmas.HistogramFilter
import Verif.Lemmas.SRKalman
import Verif.Lemmas.ParticleFilter

/-! # Filters on the heap -/

set_option linter.unusedSectionVars false

namespace BFL

open Spec

namespace FilterClass

variable {P F C : Type} {X : FilterClass P F C}

/-- The posterior slot behaves like a field. -/
structure Lawful (X : FilterClass P F C) : Prop where
  get : ∀ {f p f'}, X.withPost f p = .ok f' → X.post f' = p
  set : ∀ f, X.withPost f (X.post f) = .ok f

/-- Updates on values. -/
def runV (X : FilterClass P F C) : F → List C → Outcome (Bool × F)
  | f, [] => .ok (true, f)
  | f, c :: cs => do
    let (b, f) ← X.step f c
    let (b', f) ← runV X f cs
    return (b && b', f)

theorem update_ok {h h' : Heap (PdfCell P)} {o o' : FilterObj F} {c : C} {b : Bool}
    (hu : X.update h o c = .ok (b, h', o')) :
    ∃ cell f f', h.get o.post = some cell ∧ X.withPost o.own cell.val = .ok f ∧
      X.step f c = .ok (b, f') ∧ h' = h.upd o.post (some ⟨X.post f', cell.dynamic⟩) ∧
      o' = ⟨o.prior, o.post, f'⟩ := by
  simp only [update, Outcome.bind_eq_ok, Outcome.pure_eq, Outcome.ok.injEq, Prod.mk.injEq,
    Prod.exists, Heap.read_eq_ok] at hu
  obtain ⟨cell, hc, f, hf, b', f', hs, h1, hw, rfl, rfl, rfl⟩ := hu
  rw [Heap.write_ok hc] at hw
  cases hw
  exact ⟨cell, f, f', hc, hf, hs, rfl, rfl⟩

/-- Updates touch only the posterior. -/
theorem run_frame {cs : List C} {h h' : Heap (PdfCell P)} {o o' : FilterObj F} {b : Bool}
    (hr : X.run h o cs = .ok (b, h', o')) :
    o'.post = o.post ∧ o'.prior = o.prior ∧ h'.size = h.size ∧ (∀ a, a ≠ o.post → h'.get a = h.get a) ∧
      ∀ cell, h.get o.post = some cell → ∃ v, h'.get o.post = some ⟨v, cell.dynamic⟩ := by
  induction cs generalizing h o b with
  | nil =>
    simp only [run, Outcome.ok.injEq, Prod.mk.injEq] at hr
    obtain ⟨_, rfl, rfl⟩ := hr
    exact ⟨rfl, rfl, rfl, fun _ _ => rfl, fun cell hc => ⟨cell.val, hc⟩⟩
  | cons c cs ih =>
    simp only [run, Outcome.bind_eq_ok, Outcome.pure_eq, Outcome.ok.injEq, Prod.mk.injEq,
      Prod.exists] at hr
    obtain ⟨b1, h1, o1, hu, b2, h2, o2, hr2, _, rfl, rfl⟩ := hr
    obtain ⟨cell, f, f', hc, _, _, rfl, rfl⟩ := update_ok hu
    obtain ⟨e1, e2, e3, e4, e5⟩ := ih hr2
    refine ⟨e1, e2, by rw [e3, Heap.upd_size], ?_, ?_⟩
    · intro a ha
      rw [e4 a ha, Heap.upd_get_ne ha]
    · intro cell' hc'
      rw [hc] at hc'
      cases hc'
      exact e5 ⟨X.post f', cell.dynamic⟩ (by rw [Heap.upd_get (Heap.lt_of_get hc), if_pos rfl])

/-- The trace of a filter on the heap is the trace of its value. -/
theorem trace_eq (hX : X.Lawful) (cs : List C) {h : Heap (PdfCell P)} {o : FilterObj F}
    {cell : PdfCell P} {f : F} (hc : h.get o.post = some cell)
    (hf : X.withPost o.own cell.val = .ok f) :
    X.trace h o cs = (X.runV f cs >>= fun r => .ok (r.1, X.post r.2)) := by
  induction cs generalizing h o cell f with
  | nil =>
    simp [trace, run, runV, postGet, Heap.read_ok hc, hX.get hf]
  | cons c cs ih =>
    have e : X.trace h o (c :: cs) = (X.step f c >>= fun r =>
        (X.trace (h.upd o.post (some ⟨X.post r.2, cell.dynamic⟩)) ⟨o.prior, o.post, r.2⟩ cs >>=
          fun q => .ok (r.1 && q.1, q.2))) := by
      simp only [trace, run, update, Heap.read_ok hc, hf, Outcome.ok_bind]
      cases X.step f c with
      | abort => rfl
      | ub => rfl
      | ok r =>
        simp only [Outcome.ok_bind, Outcome.pure_eq, Heap.write_ok hc]
        cases X.run (h.upd o.post (some ⟨X.post r.2, cell.dynamic⟩)) ⟨o.prior, o.post, r.2⟩ cs with
        | abort => rfl
        | ub => rfl
        | ok q =>
          simp only [Outcome.ok_bind]
          cases postGet q.2.1 q.2.2 <;> rfl
    rw [e]
    simp only [runV]
    cases X.step f c with
    | abort => rfl
    | ub => rfl
    | ok r =>
      simp only [Outcome.ok_bind]
      rw [ih (cell := ⟨X.post r.2, cell.dynamic⟩) (f := r.2)
        (by rw [Heap.upd_get (Heap.lt_of_get hc), if_pos rfl]) (hX.set _)]
      cases X.runV r.2 cs <;> rfl

/-- Filters whose states are related give the same traces. -/
theorem runV_sim {Rel : F → F → Prop} (hpost : ∀ f g, Rel f g → X.post f = X.post g)
    (hstep : ∀ f g c, Rel f g →
      SameOutcome (fun x y => x.1 = y.1 ∧ Rel x.2 y.2) (X.step f c) (X.step g c))
    (cs : List C) {f g : F} (hR : Rel f g) :
    (X.runV f cs >>= fun r => Outcome.ok (r.1, X.post r.2)) =
      (X.runV g cs >>= fun r => .ok (r.1, X.post r.2)) := by
  have key : SameOutcome (fun (x y : Bool × F) => x.1 = y.1 ∧ Rel x.2 y.2) (X.runV f cs)
      (X.runV g cs) := by
    induction cs generalizing f g with
    | nil => exact ⟨rfl, hR⟩
    | cons c cs ih =>
      simp only [runV]
      refine SameOutcome.bind (hstep f g c hR) ?_
      rintro ⟨b, f1⟩ ⟨b', g1⟩ ⟨hb, hR1⟩
      refine SameOutcome.bind (ih hR1) ?_
      rintro ⟨b2, f2⟩ ⟨b2', g2⟩ ⟨hb2, hR2⟩
      exact ⟨by simp only at hb hb2 ⊢; rw [hb, hb2], hR2⟩
  revert key
  cases X.runV f cs <;> cases X.runV g cs <;> simp_all [SameOutcome]
  intro h1 h2
  exact hpost _ _ h2

theorem construct_ok {h h1 : Heap (PdfCell P)} {a : Addr} {o : FilterObj F}
    (hc : X.construct h a = .ok (h1, o)) :
    ∃ cell f, h.get a = some cell ∧ X.make cell.val = .ok f ∧
      h1 = (h.alloc ⟨X.post f, true⟩).1 ∧ o = ⟨a, h.size, f⟩ := by
  simp only [construct, Outcome.bind_eq_ok, Outcome.pure_eq, Outcome.ok.injEq, Prod.mk.injEq,
    Heap.read_eq_ok] at hc
  obtain ⟨cell, h2, f, h3, rfl, rfl⟩ := hc
  exact ⟨cell, f, h2, h3, rfl, rfl⟩

/-- A filter on the heap behaves like a new one if its value is related to the new value. -/
theorem fresh_of_sim (hX : X.Lawful) {Rel : F → F → Prop}
    (hpost : ∀ f g, Rel f g → X.post f = X.post g)
    (hstep : ∀ f g c, Rel f g →
      SameOutcome (fun x y => x.1 = y.1 ∧ Rel x.2 y.2) (X.step f c) (X.step g c))
    {h : Heap (PdfCell P)} {o : FilterObj F} {a : Addr} {cell : PdfCell P} {f g : F}
    (hc : h.get a = some cell) (hf : X.withPost o.own cell.val = .ok f)
    (hg : X.make cell.val = .ok g) (hR : Rel f g) : BehavesFresh X h (o.reset a) a := by
  intro cs
  rw [trace_eq hX cs (o := o.reset a) (cell := cell) (f := f) hc hf, runV_sim hpost hstep cs hR]
  simp only [construct, Heap.read_ok hc, hg, Outcome.ok_bind, Outcome.pure_eq]
  rw [trace_eq hX cs (cell := ⟨X.post g, true⟩) (f := g) Heap.alloc_get_new (hX.set g)]

/-- An invariant of the members, kept by every step. -/
theorem run_inv (hX : X.Lawful) {I : F → Prop}
    (hstep : ∀ f c b f', I f → X.step f c = .ok (b, f') → I f') {cs : List C}
    {h h' : Heap (PdfCell P)} {o o' : FilterObj F} {b : Bool} {cell : PdfCell P} {f : F}
    (hc : h.get o.post = some cell) (hf : X.withPost o.own cell.val = .ok f) (hI : I f) (hO : I o.own)
    (hr : X.run h o cs = .ok (b, h', o')) : I o'.own := by
  induction cs generalizing h o b cell f with
  | nil =>
    simp only [run, Outcome.ok.injEq, Prod.mk.injEq] at hr
    obtain ⟨_, rfl, rfl⟩ := hr
    exact hO
  | cons c cs ih =>
    simp only [run, Outcome.bind_eq_ok, Outcome.pure_eq, Outcome.ok.injEq, Prod.mk.injEq,
      Prod.exists] at hr
    obtain ⟨b1, h1, o1, hu, b2, h2, o2, hr2, _, rfl, rfl⟩ := hr
    obtain ⟨cell', f1, f', hc', hf', hs, rfl, rfl⟩ := update_ok hu
    rw [hc] at hc'
    cases hc'
    rw [hf] at hf'
    cases hf'
    have hI' := hstep _ _ _ _ hI hs
    exact ih (cell := ⟨X.post f', cell.dynamic⟩) (f := f')
      (by rw [Heap.upd_get (Heap.lt_of_get hc), if_pos rfl]) (hX.set _) hI' hI' hr2

/-- The same, from construction. -/
theorem construct_run_inv (hX : X.Lawful) {I : F → Prop}
    (hstep : ∀ f c b f', I f → X.step f c = .ok (b, f') → I f') {cs : List C}
    {h h1 h2 : Heap (PdfCell P)} {a : Addr} {o1 o2 : FilterObj F} {b : Bool}
    (hmake : ∀ cell f, h.get a = some cell → X.make cell.val = .ok f → I f)
    (hc : X.construct h a = .ok (h1, o1)) (hr : X.run h1 o1 cs = .ok (b, h2, o2)) : I o2.own := by
  obtain ⟨cell, f, hg, hm, rfl, rfl⟩ := construct_ok hc
  have hI := hmake cell f hg hm
  exact run_inv hX hstep (cell := ⟨X.post f, true⟩) (f := f) Heap.alloc_get_new (hX.set f) hI hI hr

end FilterClass

open FilterClass

section Reset

variable {P F C : Type} {X : FilterClass P F C}

theorem reset_alias {cs : List C} {h h' : Heap (PdfCell P)} {o o' : FilterObj F} {a : Addr} {b : Bool}
    {cell : PdfCell P} (hc : h.get a = some cell) (hr : X.run h (o.reset a) cs = .ok (b, h', o')) :
    ∃ v, h'.get a = some ⟨v, cell.dynamic⟩ ∧ postGet h' o' = .ok v := by
  obtain ⟨e1, _, _, _, e5⟩ := run_frame hr
  obtain ⟨v, hv⟩ := e5 cell hc
  exact ⟨v, hv, by rw [postGet, e1, Heap.read_ok hv]; rfl⟩

theorem reset_released {cs : List C} {h h' : Heap (PdfCell P)} {o o' : FilterObj F} {a : Addr} {b : Bool}
    (hr : X.run h (o.reset a) cs = .ok (b, h', o')) :
    (do let h'' ← o'.destroy h'; endOfLife h'' a) = .ub := by
  obtain ⟨e1, _, _, _, _⟩ := run_frame hr
  have e1' : o'.post = a := e1
  unfold FilterObj.destroy deletePdf endOfLife
  rw [e1']
  cases hg : h'.get a with
  | none => simp [Heap.read, hg]
  | some cell =>
    rw [Heap.read_ok hg, Outcome.ok_bind]
    by_cases hd : cell.dynamic = true
    · rw [if_pos hd, Heap.free_ok hg, Outcome.ok_bind]
      have : (h'.upd a none).get a = none := by rw [Heap.upd_get (Heap.lt_of_get hg), if_pos rfl]
      simp [Heap.free, this]
    · rw [if_neg hd]; rfl

theorem resetMixture_ok {copy : P → Outcome P} {h h1 : Heap (PdfCell P)} {o o1 : FilterObj F} {a : Addr}
    (hm : FilterObj.resetMixture copy h o a = .ok (h1, o1)) :
    ∃ cell q, a ≠ o.post ∧ h.get a = some cell ∧ copy cell.val = .ok q ∧ o1 = ⟨a, h.size, o.own⟩ ∧
      h1.get h.size = some ⟨q, true⟩ ∧ h1.size = h.size + 1 ∧
      ∀ x, x < h.size → x ≠ o.post → h1.get x = h.get x := by
  simp only [FilterObj.resetMixture, deletePdf, Outcome.bind_eq_ok, Outcome.pure_eq, Outcome.ok.injEq,
    Prod.mk.injEq, Heap.read_eq_ok] at hm
  obtain ⟨h0, ⟨c0, hc0, hd⟩, cell, hcell, q, hq, rfl, rfl⟩ := hm
  by_cases hdyn : c0.dynamic = true
  · rw [if_pos hdyn, Heap.free_ok hc0] at hd
    cases hd
    have hne : a ≠ o.post := by
      rintro rfl
      rw [Heap.upd_get (Heap.lt_of_get hc0), if_pos rfl] at hcell
      cases hcell
    rw [Heap.upd_get_ne hne] at hcell
    refine ⟨cell, q, hne, hcell, hq, ?_, ?_, ?_, ?_⟩
    · simp [Heap.alloc, Heap.upd_size]
    · rw [Heap.alloc_get, Heap.upd_size, if_pos rfl]
    · rw [Heap.alloc_size, Heap.upd_size]
    · intro x hx hxp
      rw [Heap.alloc_get_lt (by rw [Heap.upd_size]; exact hx), Heap.upd_get_ne hxp]
  · rw [if_neg hdyn] at hd
    cases hd

theorem resetMixture_frame {copy : P → Outcome P} {h h1 h2 : Heap (PdfCell P)} {o o1 o2 : FilterObj F}
    {a : Addr} {cs : List C} {b : Bool} (hm : FilterObj.resetMixture copy h o a = .ok (h1, o1))
    (hr : X.run h1 o1 cs = .ok (b, h2, o2)) :
    h2.get a = h.get a ∧ ∃ h3 h4, o2.destroy h2 = .ok h3 ∧ h3.get a = h.get a ∧
      endOfLife h3 a = .ok h4 := by
  obtain ⟨cell, q, hne, hcell, _, rfl, hg, hs, hfr⟩ := resetMixture_ok hm
  have hal := Heap.lt_of_get hcell
  obtain ⟨e1, _, _, e4, e5⟩ := run_frame hr
  obtain ⟨v, hv⟩ := e5 _ hg
  have hne' : a ≠ h.size := by omega
  have ha2 : h2.get a = h.get a := by rw [e4 a hne', hfr a hal hne]
  have e1' : o2.post = h.size := e1
  refine ⟨ha2, h2.upd h.size none, (h2.upd h.size none).upd a none, ?_, ?_, ?_⟩
  · unfold FilterObj.destroy deletePdf
    rw [e1', Heap.read_ok hv, Outcome.ok_bind]
    simp [Heap.free_ok hv]
  · rw [Heap.upd_get_ne hne', ha2]
  · exact Heap.free_ok (by rw [Heap.upd_get_ne hne', ha2, hcell])

end Reset

/-! ## The classes -/

section Classes

variable {R SV MV Z K : Type} [Field K] [LinearOrder K] {n m : Nat} {U Sens : Type}

theorem histogramClass_lawful :
    (histogramClass : FilterClass (DiscretePdf K) (HistogramFilter K) (HistogramFilter.Call Z K)).Lawful where
  get h := by cases h; rfl
  set _ := rfl

theorem kalmanClass_lawful (be : Backend) (kind : KF.Kind K n) :
    (kalmanClass be kind : FilterClass _ _ (KF.Call K n m U)).Lawful where
  get h := by cases h; rfl
  set _ := rfl

theorem srKalmanClass_lawful (be : Backend) (sqrt : K → K) (eps : K) (nr : Nat) :
    (srKalmanClass be sqrt eps nr : FilterClass _ (SRKF K n) (SRKF.Call K n m U Sens)).Lawful where
  get h := by cases h; rfl
  set _ := rfl

theorem particleClass_lawful (dflt : SV) (root : Nat → K → K) (q : Option (Proposal R SV K))
    (period : Nat) (threshold : K) (scheme : Scheme) :
    (particleClass dflt root q period threshold scheme :
      FilterClass _ _ (Noise R K × UpdateCall R SV MV K)).Lawful where
  get h := by cases h; rfl
  set _ := rfl

theorem zipWith_post (cs : List (Cloud K SV)) :
    List.zipWith (fun (c : Cloud K SV) q => { c with post := q }) cs (cs.map Cloud.post) = cs := by
  induction cs with
  | nil => rfl
  | cons c cs ih => simp [ih]

theorem zipWith_post_map (cs : List (Cloud K SV)) (qs : List (MCPdf K SV)) (h : qs.length ≤ cs.length) :
    (List.zipWith (fun (c : Cloud K SV) q => { c with post := q }) cs qs).map Cloud.post = qs := by
  induction qs generalizing cs with
  | nil => simp
  | cons q qs ih =>
    cases cs with
    | nil => simp at h
    | cons c cs => simp [ih cs (by simpa using h)]

theorem mixtureClass_lawful (dflt : SV) (root : Nat → K → K) (q : Option (Proposal R SV K))
    (period : Nat) (threshold : K) (scheme : Scheme) :
    (mixtureClass dflt root q period threshold scheme :
      FilterClass _ _ ((Nat → Noise R K) × UpdateCall R SV MV K)).Lawful where
  get {f p f'} h := by
    have h' : f.withPost p = .ok f' := h
    unfold MixtureParticleFilter.withPost at h'
    split at h'
    · next hl =>
      cases h'
      show Mixture.mk _ _ _ _ = p
      rw [zipWith_post_map _ _ hl]
    · cases h'
  set f := by
    show f.withPost _ = .ok f
    unfold MixtureParticleFilter.withPost
    rw [if_pos (by simp [mixtureClass])]
    simp only [mixtureClass, zipWith_post]

/-! ### Kalman filters -/

/-- Same posterior. -/
def KF.Same (f g : KF K n) : Prop := f.mu = g.mu ∧ f.sigma = g.sigma

theorem kalman_step (be : Backend) (kind : KF.Kind K n) (f g : KF K n) (c : KF.Call K n m U)
    (h : f.Same g) :
    SameOutcome (fun x y => x.1 = y.1 ∧ KF.Same x.2 y.2) (f.update be kind c.sys c.meas)
      (g.update be kind c.sys c.meas) := by
  obtain ⟨h1, h2⟩ := h
  have hm : ∀ (f g : KF K n) (z Z : Fin m → K) (H : Matrix (Fin m) (Fin n) K)
      (R : Matrix (Fin m) (Fin m) K), f.Same g →
      SameOutcome KF.Same (f.calculateMeasUpdate be z Z H R) (g.calculateMeasUpdate be z Z H R) := by
    rintro f g z Z H R ⟨e1, e2⟩
    unfold KF.calculateMeasUpdate
    rw [e1, e2]
    exact SameOutcome.bind SameOutcome.refl_eq fun a b hab => by subst hab; exact ⟨rfl, rfl⟩
  unfold KF.update
  refine SameOutcome.bind (R := KF.Same) ?_ ?_
  · cases c.sys with
    | none => exact ⟨h1, h2⟩
    | some su =>
      simp only [KF.sysPart, KF.sysUpdate]
      rw [h1]
      refine SameOutcome.bind SameOutcome.refl_eq fun a b hab => ?_
      subst hab
      refine SameOutcome.bind SameOutcome.refl_eq fun a2 b hab => ?_
      subst hab
      refine SameOutcome.bind SameOutcome.refl_eq fun a3 b hab => ?_
      subst hab
      exact ⟨rfl, by simp [KF.calculateSysUpdate, KF.postSigmaSet, KF.postMuSet, h2]⟩
  · intro f1 g1 h
    refine SameOutcome.bind (R := KF.Same) ?_ fun a b hab => ⟨rfl, hab⟩
    cases c.meas with
    | none => exact h
    | some mzs =>
      obtain ⟨mo, z, s⟩ := mzs
      cases kind with
      | extended =>
        simp only [KF.measPart, KF.measUpdate, KF.ekfMeasUpdate]
        rw [h.1]
        refine SameOutcome.bind SameOutcome.refl_eq fun a b hab => ?_
        subst hab
        refine SameOutcome.bind SameOutcome.refl_eq fun a2 b hab => ?_
        subst hab
        refine SameOutcome.bind SameOutcome.refl_eq fun a3 b hab => ?_
        subst hab
        exact hm _ _ _ _ _ _ h
      | iterated nr chk =>
        simp only [KF.measPart, KF.measUpdate, KF.iekfMeasUpdate]
        rw [h.1, h.2]
        refine SameOutcome.bind SameOutcome.refl_eq fun a b hab => ?_
        subst hab
        cases a with
        | none => trivial
        | some t => exact hm _ _ _ _ _ _ h

/-! ### Square root filter -/

theorem srkf_measLoop_sigma (be : Backend) (sqrt : K → K) (eps : K) (meas : ImplicitModel K n m Sens)
    (z : Fin m → K) (s : Sens) (xk : Fin n → K) (k : Nat) (f g : SRKF K n)
    (h1 : f.base.mu = g.base.mu) (h2 : f.JP = g.JP) (h3 : f.base.timestep = g.base.timestep) :
    SRKF.measLoop be sqrt eps meas z s xk (k + 1) f = SRKF.measLoop be sqrt eps meas z s xk (k + 1) g := by
  induction k generalizing f g with
  | zero =>
    simp only [SRKF.measLoop, SRKF.calculateMatrix, SRKF.calculateMean, SRKF.covarianceIfLast,
      SRKF.calculateCovariance, KF.postMuSet, KF.postSigmaSet, beq_self_eq_true, if_true]
    rw [h1, h2, h3]
  | succ k ih =>
    have e : ∀ f : SRKF K n, SRKF.measLoop be sqrt eps meas z s xk (k + 1 + 1) f =
        (f.calculateMatrix be sqrt eps (meas.df s f.base.mu) (meas.cov s f.base.mu) >>= fun w =>
          SRKF.measLoop be sqrt eps meas z s xk (k + 1)
            (f.calculateMean xk z (meas.expected s f.base.mu + (meas.df s f.base.mu).mulVec (xk - f.base.mu))
              w.gain)) := by
      intro f
      rw [SRKF.measLoop]
      simp [SRKF.covarianceIfLast]
    rw [e, e]
    have e2 : f.calculateMatrix be sqrt eps (meas.df s f.base.mu) (meas.cov s f.base.mu) =
        g.calculateMatrix be sqrt eps (meas.df s g.base.mu) (meas.cov s g.base.mu) := by
      simp only [SRKF.calculateMatrix, h1, h2]
    rw [e2, h1]
    congr 1
    funext w
    exact ih _ _ (by simp [SRKF.calculateMean, KF.postMuSet]) (by simp [SRKF.calculateMean, h2])
      (by simp [SRKF.calculateMean, KF.postMuSet, h3])

/-! ### Histogram filter -/

/-- Same posterior, and scratch arrays of the right size. -/
def HistogramFilter.Same (n : Nat) (f g : HistogramFilter K) : Prop :=
  f.post = g.post ∧ f.post.values.length = n ∧ f.newProb.length = n ∧ g.newProb.length = n

theorem predictLoop_any {cell : Nat → Outcome K} :
    ∀ (k i : Nat) (v w : List K), v.length = w.length → v.length = i + k → v.take i = w.take i →
      HistogramFilter.predictLoop cell k i v = HistogramFilter.predictLoop cell k i w := by
  intro k
  induction k with
  | zero =>
    intro i v w hl hi ht
    rw [List.take_of_length_le (by omega), List.take_of_length_le (by omega)] at ht
    rw [ht]
  | succ k ih =>
    intro i v w hl hi ht
    simp only [HistogramFilter.predictLoop]
    congr 1
    funext t
    congr 1
    funext p
    rw [vset_of_lt (by omega), vset_of_lt (by omega), Outcome.ok_bind, Outcome.ok_bind]
    refine ih (i + 1) _ _ (by simp [hl]) (by simp; omega) ?_
    have e : ∀ v : List K, i < v.length → (v.set i p).take (i + 1) = v.take i ++ [p] := by
      intro v hv
      rw [List.take_succ_eq_append_getElem (by simpa using hv), List.take_set,
        List.set_eq_of_length_le (by simp)]
      simp
    rw [e v (by omega), e w (by omega), ht]

theorem histogram_step [IsStrictOrderedRing K] (f g : HistogramFilter K) (c : HistogramFilter.Call Z K)
    (h : f.Same n g) :
    SameOutcome (fun x y => x.1 = y.1 ∧ HistogramFilter.Same n x.2 y.2) (f.update c) (g.update c) := by
  unfold HistogramFilter.update
  refine SameOutcome.bind (R := HistogramFilter.Same n) ?_ ?_
  · obtain ⟨h1, h2, h3, h4⟩ := h
    cases c.sys with
    | none => exact ⟨h1, h2, h3, h4⟩
    | some su =>
      obtain ⟨m, u⟩ := su
      simp only [HistogramFilter.sysPart, HistogramFilter.sysUpdate]
      rw [← h1]
      refine SameOutcome.bind SameOutcome.refl_eq fun _ _ _ => ?_
      rw [predictLoop_any _ 0 f.newProb g.newProb (by omega) (by
        rw [h3, Nat.zero_add]; exact h2.symm) (by simp)]
      cases hp : HistogramFilter.predictLoop (HistogramFilter.predictCell m u f.post.probabilitiesGet
        f.post.numStates) f.post.numStates 0 g.newProb with
      | abort => trivial
      | ub => trivial
      | ok new =>
        have hl := HistogramFilter.predictLoop_length _ _ _ _ hp
        simp only [Outcome.ok_bind]
        cases hq : f.post.probabilitiesSet new with
        | abort => trivial
        | ub => trivial
        | ok r =>
          obtain ⟨b, d⟩ := r
          refine ⟨rfl, ?_, ?_, ?_⟩
          · rw [← h2]; exact HistogramFilter.probabilitiesSet_length hq
          · exact hl.trans h4
          · exact hl.trans h4
  · intro f1 g1 h
    refine SameOutcome.bind (R := HistogramFilter.Same n) ?_ fun a b hab => ⟨rfl, hab⟩
    obtain ⟨h1, h2, h3, h4⟩ := h
    cases c.meas with
    | none => exact ⟨h1, h2, h3, h4⟩
    | some su =>
      obtain ⟨m, z, s⟩ := su
      simp only [HistogramFilter.measPart, HistogramFilter.measUpdate]
      rw [← h1]
      refine SameOutcome.bind SameOutcome.refl_eq fun new b hab => ?_
      subst hab
      cases hq : f1.post.probabilitiesSet new with
      | abort => trivial
      | ub => trivial
      | ok r =>
        obtain ⟨b, d⟩ := r
        refine ⟨rfl, ?_, h3, h4⟩
        rw [← h2]; exact HistogramFilter.probabilitiesSet_length hq

end Classes

end BFL
