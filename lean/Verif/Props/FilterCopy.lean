import Verif.Lemmas.FilterCopy
import Verif.Props.FilterReset

/-!
# C81: A copied filter is a second, independent filter

Client programs with filters in variables (`Verif/Model/FilterCopy.lean`), compared with programs on
plain values (`Verif/Spec/ObjectHeap.lean`, `Verif/Spec/FilterCopy.lean`).
-/

set_option linter.unusedSectionVars false

namespace BFL.Props

open Spec FilterClass

section General

variable {P F C : Type} {X : FilterClass P F C}

/-- C81 fails: the filter made by the copy constructor can neither be updated nor destroyed, nor can
its posterior be looked at. -/
theorem C81_copy_undefined {s s' : ClientState (PdfCell P) (FilterVar F)} {i : Nat}
    (h : X.copyImpl.exec s (.clone i) = .ok s') (c : C) :
    X.copyImpl.exec s' (.call s.objs.length c) = .ub ∧
      X.copyImpl.exec s' (.destroy s.objs.length) = .ub ∧ shownBy s' s.objs.length = .ub := by
  simp only [HeapImpl.exec, copyImpl, copyConstruct, Outcome.bind_eq_ok, Outcome.pure_eq,
    Outcome.ok.injEq, Prod.exists] at h
  obtain ⟨v, _, h', w, e, rfl⟩ := h
  cases e
  have hv : HeapImpl.var (s.objs ++ [some ⟨none, none, v.own⟩]) s.objs.length =
      .ok (⟨none, none, v.own⟩ : FilterVar F) := by
    simp [HeapImpl.var]
  refine ⟨?_, ?_, ?_⟩
  · simp only [HeapImpl.exec, hv, Outcome.ok_bind]
    rfl
  · simp only [HeapImpl.exec, hv, Outcome.ok_bind]
    rfl
  · simp only [shownBy, hv, Outcome.ok_bind]
    rfl

/-- C81 fails for every class and every prior that a filter can be constructed with: the copy of a new
filter does not behave like a value. -/
theorem C81_copy_no_value {p : P} {f : F} (hp : X.make p = .ok f) :
    ¬ ActsLikeValues X.copyImpl (filterValues X) := by
  intro h
  have hk := h [.new p, .clone 0, .destroy 1]
  have e1 : (filterValues X).run { vals := [], rets := [] } [.new p, .clone 0, .destroy 1] =
      .ok { vals := [some f, none], rets := [] } := by
    have hm : (filterValues X).make p = .ok f := hp
    simp only [ValueClass.run, ValueClass.exec, hm, Outcome.ok_bind, Outcome.pure_eq]
    rfl
  have e2 : X.copyImpl.run HeapImpl.start [.new p, .clone 0, .destroy 1] = .ub := by
    have hm : X.copyImpl.make p (HeapImpl.start : ClientState (PdfCell P) (FilterVar F)).heap =
        .ok ((((Heap.empty.alloc ⟨p, true⟩).1).alloc ⟨X.post f, true⟩).1, ⟨some 0, some 1, f⟩) := by
      show X.newVar p Heap.empty = _
      rw [newVar, FilterVar.construct_ok (h := (Heap.empty.alloc ⟨p, true⟩).1) Heap.alloc_get_new]
      show ((X.make p >>= _) >>= _) = _
      rw [hp]
      rfl
    simp only [HeapImpl.run, HeapImpl.exec, hm, Outcome.ok_bind, Outcome.pure_eq]
    rfl
  rw [e1, e2] at hk
  exact hk

/-- C81 fails for assignment, in every class: after `x_i = x_j` both filters have the same posterior
object. Whatever updates `x_j` gets, `x_i` shows the same posterior. -/
theorem C81_assign_shares {s s' t : ClientState (PdfCell P) (FilterVar F)} {i j : Nat} (hij : i ≠ j)
    (ha : HeapImpl.assign s i j = .ok s') {cs : List C}
    (hr : X.copyImpl.run s' (cs.map (.call j)) = .ok t) : shownBy t i = shownBy t j := by
  have key : ∀ (cs : List C) (s t : ClientState (PdfCell P) (FilterVar F)) (v w : FilterVar F),
      s.objs[i]? = some (some v) → s.objs[j]? = some (some w) → v.post = w.post →
      X.copyImpl.run s (cs.map (.call j)) = .ok t → ∃ v w, t.objs[i]? = some (some v) ∧
        t.objs[j]? = some (some w) ∧ v.post = w.post := by
    intro cs
    induction cs with
    | nil => intro s t v w hv hw he h; cases h; exact ⟨v, w, hv, hw, he⟩
    | cons c cs ih =>
      intro s t v w hv hw he h
      simp only [List.map_cons, HeapImpl.run, HeapImpl.exec, HeapImpl.var, hw, Outcome.ok_bind,
        Outcome.bind_eq_ok, Outcome.pure_eq, Outcome.ok.injEq, Prod.exists] at h
      obtain ⟨s1, ⟨b, h1, w1, hu, rfl⟩, hr⟩ := h
      have hw1 : w1.post = w.post := by
        simp only [copyImpl, updateVar, Outcome.bind_eq_ok, Outcome.pure_eq, Outcome.ok.injEq,
          Prod.exists, Prod.mk.injEq] at hu
        obtain ⟨_, _, _, _, _, _, _, _, rfl⟩ := hu
        rfl
      have hjl : j < s.objs.length := (List.getElem?_eq_some_iff.1 hw).1
      refine ih _ t v w1 ?_ ?_ (he.trans hw1.symm) hr
      · show (s.objs.set j _)[i]? = _
        rw [List.getElem?_set_ne (Ne.symm hij), hv]
      · show (s.objs.set j _)[j]? = _
        rw [List.getElem?_set_self hjl]
  obtain ⟨v, w, hv, hw, he⟩ := assign_vars ha
  obtain ⟨v', w', hv', hw', he'⟩ := key cs s' t v w hv hw (by rw [he]) hr
  simp only [shownBy, HeapImpl.var, hv', hw', Outcome.ok_bind, FilterVar.toObj, he']
  cases w'.post <;> rfl

/-- C81 fails for assignment, in every class: the two filters cannot both be destroyed. -/
theorem C81_assign_double_delete {s s' : ClientState (PdfCell P) (FilterVar F)} {i j : Nat} (hij : i ≠ j)
    (ha : HeapImpl.assign s i j = .ok s') :
    X.copyImpl.run s' [.destroy i, .destroy j] = .ub ∧
      X.copyImpl.run s' [.destroy j, .destroy i] = .ub := by
  obtain ⟨v, w, hv, hw, he⟩ := assign_vars ha
  exact ⟨destroy_both hij hv hw (by rw [he]), destroy_both (Ne.symm hij) hw hv (by rw [he])⟩

/-- C81 fails for assignment, in every class: the former posterior of `x_i` is never deleted,
whatever the rest of the program does. -/
theorem C81_assign_leaks (hX : X.Lawful) {prog more : List (Cmd P C)}
    {s s' t : ClientState (PdfCell P) (FilterVar F)} {i j : Nat} (hij : i ≠ j)
    (hs : X.forkImpl.run HeapImpl.start prog = .ok s) (ha : HeapImpl.assign s i j = .ok s')
    (hr : X.forkImpl.run s' more = .ok t) :
    ∃ v a cell, s.objs[i]? = some (some v) ∧ v.post = some a ∧ s.heap.get a = some cell ∧
      t.heap.get a = some cell ∧ ∀ (k : Nat) w, t.objs[k]? = some (some w) → w.post ≠ some a :=
  assign_leak hX hij hs ha hr

/-- C81 for a filter that is started from the posterior of another one, `F g(f.PostGet())`, in place
of a copy, in every class: every program behaves as if each filter had its posterior to itself, and a
filter changes only by its own updates. Missing: the copy constructor and assignment, for which it
fails (`C81_copy_undefined`, `C81_assign_shares`). -/
theorem C81_fork_partial (hX : X.Lawful) :
    ActsLikeValues X.forkImpl (filterForks X) ∧ LeavesOthersAlone X.forkImpl :=
  ⟨Refines.actsLikeValues (FilterVar.forkRefines hX), Refines.leavesOthersAlone (FilterVar.forkRefines hX)⟩

end General

section Classes

variable {R SV MV Z K : Type} [Field K] [LinearOrder K] {n m : Nat} {U Sens : Type}

/-- The hypothesis of `C81_fork_partial` and `C81_assign_leaks` holds for all filters and for the
Rauch-Tung-Striebel smoother. -/
theorem C81_classes_partial (be : Backend) (kind : KF.Kind K n) (sqrt : K → K) (eps : K) (nr : Nat)
    (dflt : SV) (root : Nat → K → K) (q : Option (Proposal R SV K)) (period : Nat) (threshold : K)
    (scheme : Scheme) :
    LeavesOthersAlone (kalmanClass be kind : FilterClass _ _ (KF.Call K n m U)).forkImpl ∧
    LeavesOthersAlone (srKalmanClass be sqrt eps nr :
      FilterClass _ (SRKF K n) (SRKF.Call K n m U Sens)).forkImpl ∧
    LeavesOthersAlone (histogramClass :
      FilterClass _ (HistogramFilter K) (HistogramFilter.Call Z K)).forkImpl ∧
    LeavesOthersAlone (particleClass dflt root q period threshold scheme :
      FilterClass _ _ (Noise R K × UpdateCall R SV MV K)).forkImpl ∧
    LeavesOthersAlone (mixtureClass dflt root q period threshold scheme :
      FilterClass _ _ ((Nat → Noise R K) × UpdateCall R SV MV K)).forkImpl ∧
    LeavesOthersAlone (rtsClass be : FilterClass _ _ (RTS.Call K n U)).forkImpl :=
  ⟨(C81_fork_partial (kalmanClass_lawful be kind)).2,
    (C81_fork_partial (srKalmanClass_lawful be sqrt eps nr)).2,
    (C81_fork_partial histogramClass_lawful).2,
    (C81_fork_partial (particleClass_lawful dflt root q period threshold scheme)).2,
    (C81_fork_partial (mixtureClass_lawful dflt root q period threshold scheme)).2,
    (C81_fork_partial (rtsClass_lawful be)).2⟩

/-- C81 for a Kalman filter started from the posterior of another: both then give the same results.
Missing: as for `C81_fork_partial`. -/
theorem C81_kalman_continues_partial (be : Backend) (kind : KF.Kind K n) :
    ContinuesAlike (kalmanClass be kind : FilterClass _ _ (KF.Call K n m U)) :=
  continuesAlike (kalmanClass_lawful be kind) (I := fun _ => True) (Rel := KF.Same)
    (fun _ _ _ => trivial) (fun _ _ _ _ _ _ => trivial)
    (fun _ _ _ h => by cases h; exact ⟨rfl, rfl⟩)
    (fun _ _ h => Prod.ext h.1 h.2) (fun f g c h => kalman_step be kind f g c h)

/-- The same for the smoother. -/
theorem C81_smoother_continues_partial (be : Backend) :
    ContinuesAlike (rtsClass be : FilterClass _ _ (RTS.Call K n U)) :=
  continuesAlike (rtsClass_lawful be) (I := fun _ => True) (Rel := RTS.Same)
    (fun _ _ _ => trivial) (fun _ _ _ _ _ _ => trivial)
    (fun _ _ _ h => by cases h; exact ⟨rfl, rfl⟩)
    (fun _ _ h => Prod.ext h.1 h.2) (fun f g c h => RTS.step_same be f g c h)

/-- C49, first half, for the Rauch-Tung-Striebel smoother: after `Reset(p)` the smoother gives the
posteriors of a new one with prior `p`. Missing: `p` is not left alone (`C49_prior_is_posterior` and
`C49_double_delete` hold for this class too). -/
theorem C49_smoother_partial (be : Backend) {h : Heap (PdfCell (MeanCov K n))}
    (o : FilterObj (RTS K n)) {a : Addr} {cell : PdfCell (MeanCov K n)} (hc : h.get a = some cell) :
    BehavesFresh (rtsClass be : FilterClass _ _ (RTS.Call K n U)) h (o.reset a) a :=
  fresh_of_sim (rtsClass_lawful be) (Rel := RTS.Same)
    (fun _ _ h => Prod.ext h.1 h.2) (fun f g c h => RTS.step_same be f g c h) hc rfl rfl ⟨rfl, rfl⟩

/-- C81 for a histogram filter started from the posterior of another. Missing: as for
`C81_fork_partial`. -/
theorem C81_histogram_continues_partial [IsStrictOrderedRing K] :
    ContinuesAlike (histogramClass : FilterClass _ (HistogramFilter K) (HistogramFilter.Call Z K)) :=
  continuesAlike histogramClass_lawful (I := HistogramFilter.Ready)
    (Rel := fun f g => HistogramFilter.Same f.post.values.length f g)
    (fun _ _ h => HistogramFilter.make_ready h) (fun _ _ _ _ hf h => HistogramFilter.update_ready hf h)
    (fun _ _ hf h => HistogramFilter.fork_same hf h) (fun _ _ h => h.1)
    (fun f g c h => (histogram_step f g c h).mono fun _ _ hxy =>
      ⟨hxy.1, hxy.2.1, rfl, hxy.2.2.2.1.trans hxy.2.2.1.symm, hxy.2.2.2.2.trans hxy.2.2.1.symm⟩)

end Classes

/-! ## Concrete cases -/

namespace CopyExample

open ResetExample

/-- Histogram filters with the prior 1/2, 1/2. -/
abbrev X : FilterClass (DiscretePdf ℚ) (HistogramFilter ℚ) (HistogramFilter.Call Int ℚ) := histogramClass

/-- A filter is constructed, gets a measurement, and a second one is constructed. -/
def two : List (Cmd (DiscretePdf ℚ) (HistogramFilter.Call Int ℚ)) :=
  [.new HistogramExample.prior, .call 0 look, .new HistogramExample.prior]

/-- The values of a posterior. -/
def values (o : Outcome (DiscretePdf ℚ)) : Outcome (List ℚ) := do
  let p ← o
  return p.values

end CopyExample

open CopyExample ResetExample

/-- The hypotheses of `C81_copy_undefined` and `C81_copy_no_value` hold. -/
example : (∃ s s', X.copyImpl.run HeapImpl.start two = .ok s ∧ X.copyImpl.exec s (.clone 0) = .ok s') ∧
    ∃ f, X.make HistogramExample.prior = .ok f := by
  have key : (X.copyImpl.run HeapImpl.start two >>= fun s => X.copyImpl.exec s (.clone 0) >>= fun s' =>
      Outcome.ok (s'.objs.length)) = .ok 3 := by decide +kernel
  have key' : (X.make HistogramExample.prior >>= fun f => Outcome.ok f.timestep) = .ok 0 := by
    decide +kernel
  simp only [Outcome.bind_eq_ok] at key key'
  obtain ⟨s, h1, s', h2, _⟩ := key
  obtain ⟨f, h3, _⟩ := key'
  exact ⟨⟨s, s', h1, h2⟩, f, h3⟩

/-- The hypothesis of `C49_smoother_partial` holds for a smoother in use that is reset to the second
prior. -/
example : BehavesFresh (rtsClass .boost : FilterClass _ _ (RTS.Call ℚ 1 Unit)) gaussHeap
    (FilterObj.reset ⟨0, 0, RTS.make 7 1⟩ 1) 1 :=
  C49_smoother_partial .boost _ (cell := ⟨(0, fun _ _ => 9), false⟩) rfl

/-- After `x_1 = x_0` and a measurement for `x_0`, filter `x_1` has changed from 1/5, 4/5 to
1/17, 16/17; with `F x_1(x_0.PostGet())` it stays. -/
example : (∃ s s' t, X.forkImpl.run HeapImpl.start two = .ok s ∧ HeapImpl.assign s 1 0 = .ok s' ∧
      X.copyImpl.run s' ([look].map (.call 0)) = .ok t ∧ X.forkImpl.run s' ([look].map (.call 0)) = .ok t ∧
      values (shownBy s' 1) = .ok [1/5, 4/5] ∧ values (shownBy t 1) = .ok [1/17, 16/17]) ∧
    ∃ s t, X.forkImpl.run HeapImpl.start (two ++ [.clone 0]) = .ok s ∧
      X.forkImpl.run s [.call 0 look] = .ok t ∧ values (shownBy t 0) = .ok [1/17, 16/17] ∧
      values (shownBy t 2) = .ok [1/5, 4/5] := by
  constructor
  · have key : (X.forkImpl.run HeapImpl.start two >>= fun s => HeapImpl.assign s 1 0 >>= fun s' =>
        X.forkImpl.run s' ([look].map (.call 0)) >>= fun t =>
        Outcome.ok (values (shownBy s' 1), values (shownBy t 1))) =
        .ok (.ok [1/5, 4/5], .ok [1/17, 16/17]) := by decide +kernel
    simp only [Outcome.bind_eq_ok, Outcome.ok.injEq, Prod.mk.injEq] at key
    obtain ⟨s, h1, s', h2, t, h3, h4, h5⟩ := key
    exact ⟨s, s', t, h1, h2, h3, h3, h4, h5⟩
  · have key : (X.forkImpl.run HeapImpl.start (two ++ [.clone 0]) >>= fun s =>
        X.forkImpl.run s [.call 0 look] >>= fun t =>
        Outcome.ok (values (shownBy t 0), values (shownBy t 2))) =
        .ok (.ok [1/17, 16/17], .ok [1/5, 4/5]) := by decide +kernel
    simp only [Outcome.bind_eq_ok, Outcome.ok.injEq, Prod.mk.injEq] at key
    obtain ⟨s, h1, t, h3, h4, h5⟩ := key
    exact ⟨s, t, h1, h3, h4, h5⟩

end BFL.Props
