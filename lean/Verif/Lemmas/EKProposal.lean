import Verif.Spec.EKProposal
import Verif.Lemmas.FilterReset

/-! # The EKF proposal density -/

set_option linter.unusedSectionVars false

namespace BFL

open Matrix Spec

variable {K : Type} [Field K] [LinearOrder K] {n m : Nat} {U : Type}

theorem KF.update_timestep (be : Backend) (sys : Option (AnalyticModel K n n U × Option U))
    (meas : Option (AnalyticModel K n m U × (Fin m → K) × Option U)) (x : Fin n → K)
    (S : Matrix (Fin n) (Fin n) K) (t : Nat) :
    KF.update be .extended sys meas ⟨x, S, t⟩ =
      (freshEkf be x S sys meas >>= fun g => .ok (true, ⟨g.1, g.2, t⟩)) := by
  have hm : ∀ (y : Fin n → K) (S : Matrix (Fin n) (Fin n) K) (t : Nat),
      KF.measPart be .extended ⟨y, S, t⟩ meas =
        (KF.measPart be .extended ⟨y, S, 0⟩ meas >>= fun g => .ok ⟨g.mu, g.sigma, t⟩) := by
    intro y S t
    rcases meas with _ | ⟨mm, z, s⟩
    · rfl
    · simp only [KF.measPart, KF.measUpdate, KF.ekfMeasUpdate, KF.calculateMeasUpdate]
      cases mm.predictionGet s y <;> [skip; rfl; rfl]
      simp only [Outcome.ok_bind]
      cases mm.dfGet s y <;> [skip; rfl; rfl]
      simp only [Outcome.ok_bind]
      cases mm.covGet s y <;> [skip; rfl; rfl]
      simp only [Outcome.ok_bind]
      generalize (be.inverse _ : Outcome (Matrix (Fin m) (Fin m) K)) = q
      cases q <;> rfl
  have hs : KF.sysPart be ⟨x, S, t⟩ sys =
      (KF.sysPart be ⟨x, S, 0⟩ sys >>= fun g => .ok ⟨g.mu, g.sigma, t⟩) := by
    rcases sys with _ | ⟨sy, u⟩
    · rfl
    · simp only [KF.sysPart, KF.sysUpdate]
      cases sy.predictionGet u x <;> [skip; rfl; rfl]
      simp only [Outcome.ok_bind]
      cases sy.dfGet u x <;> [skip; rfl; rfl]
      simp only [Outcome.ok_bind]
      cases sy.covGet u x <;> rfl
  simp only [freshEkf, KF.update, KF.make]
  rw [hs]
  cases KF.sysPart be ⟨x, S, 0⟩ sys with
  | abort => rfl
  | ub => rfl
  | ok g =>
    simp only [Outcome.ok_bind]
    rw [hm g.mu g.sigma t, hm g.mu g.sigma g.timestep]
    cases KF.measPart be .extended ⟨g.mu, g.sigma, 0⟩ meas <;> rfl

namespace EKProposal

/-- What a query computes. -/
def answer (be : Backend) (p : EKProposal K n m U) : Outcome (MeanCov K n) := do
  let v ← p.argGet 0
  let x ← CondArg.asState v
  let s ← readMember p.sampleCov
  let c ← p.callOf
  freshEkf be x s c.sys c.meas

/-- The pdf objects of the proposal are alive and were created by `new`. -/
def Live (h : GaussHeap K n) (p : EKProposal K n m U) : Prop :=
  (∃ v, h.get p.tmpPrior = some ⟨v, true⟩) ∧ ∃ v, h.get p.filter.post = some ⟨v, true⟩

/-- The heap after a query with answer `g`. -/
def heapAfter (h : GaussHeap K n) (p : EKProposal K n m U) (x : Fin n → K)
    (s : Matrix (Fin n) (Fin n) K) (g : MeanCov K n) : GaussHeap K n :=
  (h.upd p.tmpPrior (some ⟨(x, s), true⟩)).upd p.tmpPrior (some ⟨g, true⟩)

/-- The proposal after a query with answer `g`. -/
def objAfter (p : EKProposal K n m U) (g : MeanCov K n) : EKProposal K n m U :=
  { p with filter := ⟨p.tmpPrior, p.tmpPrior, ⟨g.1, g.2, p.filter.own.timestep⟩⟩ }

theorem filterStep_eq (be : Backend) {h : GaussHeap K n} {p : EKProposal K n m U} (hl : Live h p) :
    p.filterStep be h = (p.argGet 0 >>= fun v => CondArg.asState v >>= fun x =>
      readMember p.sampleCov >>= fun s => p.callOf >>= fun c =>
        freshEkf be x s c.sys c.meas >>= fun g => .ok (heapAfter h p x s g, objAfter p g)) := by
  obtain ⟨⟨v0, h0⟩, -⟩ := hl
  have hg : ∀ w, (h.upd p.tmpPrior (some w)).get p.tmpPrior = some w := fun w => by
    rw [Heap.upd_get (Heap.lt_of_get h0), if_pos rfl]
  unfold filterStep
  cases p.argGet 0 <;> [skip; rfl; rfl]
  rename_i v
  simp only [Outcome.ok_bind]
  cases CondArg.asState v <;> [skip; rfl; rfl]
  rename_i x
  simp only [Outcome.ok_bind]
  cases readMember p.sampleCov <;> [skip; rfl; rfl]
  rename_i s
  simp only [Outcome.ok_bind, Heap.read_ok h0, Heap.write_ok h0]
  cases p.callOf <;> [skip; rfl; rfl]
  rename_i c
  simp only [Outcome.ok_bind, FilterClass.update, FilterObj.reset, Heap.read_ok (hg _), kalmanClass]
  rw [KF.update_timestep]
  cases freshEkf be x s c.sys c.meas <;> [skip; rfl; rfl]
  simp only [Outcome.ok_bind, Heap.write_ok (hg _)]
  rfl

theorem heapAfter_get {h : GaussHeap K n} {p : EKProposal K n m U} (hl : Live h p) (x s g) :
    (heapAfter h p x s g).get p.tmpPrior = some ⟨g, true⟩ := by
  obtain ⟨⟨v0, h0⟩, -⟩ := hl
  rw [heapAfter, Heap.upd_get (by rw [Heap.upd_size]; exact Heap.lt_of_get h0), if_pos rfl]

theorem filterStep_ok {be : Backend} {h : GaussHeap K n} {p : EKProposal K n m U} (hl : Live h p)
    {r} (hs : p.filterStep be h = .ok r) :
    ∃ g, p.answer be = .ok g ∧ r.2 = objAfter p g ∧ FilterClass.postGet r.1 r.2.filter = .ok g ∧
      Live r.1 r.2 := by
  rw [filterStep_eq be hl] at hs
  simp only [Outcome.bind_eq_ok, Outcome.ok.injEq] at hs
  obtain ⟨v, hv, x, hx, s, hs, c, hc, g, hg, rfl⟩ := hs
  refine ⟨g, ?_, rfl, ?_, ?_⟩
  · simp [answer, hv, hx, hs, hc, hg]
  · simp only [FilterClass.postGet, objAfter, Heap.read_ok (heapAfter_get hl x s g)]
    rfl
  · exact ⟨⟨g, heapAfter_get hl x s g⟩, ⟨g, heapAfter_get hl x s g⟩⟩

theorem filterStep_of_answer {be : Backend} {h : GaussHeap K n} {p : EKProposal K n m U}
    (hl : Live h p) {g} (ha : p.answer be = .ok g) : ∃ r, p.filterStep be h = .ok r := by
  simp only [answer, Outcome.bind_eq_ok] at ha
  obtain ⟨v, hv, x, hx, s, hs, c, hc, hg⟩ := ha
  rw [filterStep_eq be hl]
  simp [hv, hx, hs, hc, hg]

/-- A query either answers as computed or fails in the same way. -/
theorem query_cases (be : Backend) {h : GaussHeap K n} {p : EKProposal K n m U} (hl : Live h p) :
    (∃ g h', p.answer be = .ok g ∧ p.expectedValueGet be h = .ok (g.1, h', objAfter p g) ∧
      p.covarianceGet be h = .ok (g.2, h', objAfter p g) ∧ Live h' (objAfter p g)) ∨
    (p.answer be = .abort ∧ p.expectedValueGet be h = .abort ∧ p.covarianceGet be h = .abort) ∨
    (p.answer be = .ub ∧ p.expectedValueGet be h = .ub ∧ p.covarianceGet be h = .ub) := by
  cases hs : p.filterStep be h with
  | ok r =>
    obtain ⟨g, hg, hr, hp, hl'⟩ := filterStep_ok hl hs
    obtain ⟨h', q⟩ := r
    cases hr
    refine Or.inl ⟨g, h', hg, ?_, ?_, hl'⟩ <;>
      simp only [expectedValueGet, covarianceGet, hs, Outcome.ok_bind, hp] <;> rfl
  | abort =>
    refine Or.inr (Or.inl ⟨?_, by simp [expectedValueGet, hs], by simp [covarianceGet, hs]⟩)
    rw [filterStep_eq be hl] at hs
    revert hs
    unfold answer
    cases p.argGet 0 <;> simp
    rename_i v
    cases CondArg.asState v <;> simp
    cases readMember p.sampleCov <;> simp
    cases p.callOf <;> simp
    generalize (freshEkf be _ _ _ _ : Outcome (MeanCov K n)) = q
    cases q <;> simp
  | ub =>
    refine Or.inr (Or.inr ⟨?_, by simp [expectedValueGet, hs], by simp [covarianceGet, hs]⟩)
    rw [filterStep_eq be hl] at hs
    revert hs
    unfold answer
    cases p.argGet 0 <;> simp
    rename_i v
    cases CondArg.asState v <;> simp
    cases readMember p.sampleCov <;> simp
    cases p.callOf <;> simp
    generalize (freshEkf be _ _ _ _ : Outcome (MeanCov K n)) = q
    cases q <;> simp

/-- Two proposals that differ in the pdf objects only. -/
def Same (p q : EKProposal K n m U) : Prop :=
  ∃ a f, p = { q with tmpPrior := a, filter := f }

theorem Same.refl (p : EKProposal K n m U) : p.Same p := ⟨p.tmpPrior, p.filter, rfl⟩

theorem Same.symm {p q : EKProposal K n m U} (h : p.Same q) : q.Same p := by
  obtain ⟨a, f, rfl⟩ := h
  exact ⟨q.tmpPrior, q.filter, rfl⟩

theorem Same.answer {be : Backend} {p q : EKProposal K n m U} (h : p.Same q) :
    p.answer be = q.answer be := by
  obtain ⟨a, f, rfl⟩ := h
  rfl

theorem same_objAfter (p : EKProposal K n m U) (g : MeanCov K n) : (objAfter p g).Same p :=
  ⟨_, _, rfl⟩

theorem Same.trans {p q r : EKProposal K n m U} (h : p.Same q) (h' : q.Same r) : p.Same r := by
  obtain ⟨a, f, rfl⟩ := h
  obtain ⟨b, g, rfl⟩ := h'
  exact ⟨a, f, rfl⟩

theorem numArgsSet_frame (p : EKProposal K n m U) (k a f) :
    numArgsSet { p with tmpPrior := a, filter := f } k =
      { numArgsSet p k with tmpPrior := a, filter := f } := by
  unfold numArgsSet
  split <;> rfl

theorem countArgs_frame (p : EKProposal K n m U) (a f) :
    countArgs { p with tmpPrior := a, filter := f } =
      { countArgs p with tmpPrior := a, filter := f } := by
  unfold countArgs
  rcases p with ⟨_, _, _, _, _ | s, _ | mm, _, _, _⟩
  · rfl
  · rfl
  · rfl
  · exact numArgsSet_frame _ _ a f

theorem numArgsSet_addr (p : EKProposal K n m U) (k) :
    (numArgsSet p k).tmpPrior = p.tmpPrior ∧ (numArgsSet p k).filter = p.filter := by
  unfold numArgsSet
  split <;> exact ⟨rfl, rfl⟩

theorem countArgs_addr (p : EKProposal K n m U) :
    (countArgs p).tmpPrior = p.tmpPrior ∧ (countArgs p).filter = p.filter := by
  unfold countArgs
  split
  · exact numArgsSet_addr p _
  · exact ⟨rfl, rfl⟩

theorem Live.of_addr {h : GaussHeap K n} {p q : EKProposal K n m U} (hl : Live h p)
    (ha : q.tmpPrior = p.tmpPrior) (hf : q.filter = p.filter) : Live h q := by
  unfold Live
  rw [ha, hf]
  exact hl

/-- A setting call on two proposals that differ in the pdf objects only. -/
theorem step_set (be : Backend) {op : Op K n m U} (hop : isQuery op = false) {h h' : GaussHeap K n}
    {p q : EKProposal K n m U} (hs : p.Same q) (hl : Live h p) (hl' : Live h' q) :
    SameOutcome (fun r r' => r.2.Same r'.2 ∧ Live r.1 r.2 ∧ Live r'.1 r'.2)
      (p.step be h op) (q.step be h' op) := by
  obtain ⟨a, f, rfl⟩ := hs
  cases op with
  | mean => cases hop
  | cov => cases hop
  | setNumArgs k =>
    refine ⟨⟨a, f, numArgsSet_frame q k a f⟩, hl.of_addr ?_ ?_, hl'.of_addr ?_ ?_⟩ <;>
      simp [numArgsSet_addr]
  | setArg i v =>
    simp only [step, argSet]
    by_cases hi : i < q.numArgs
    · simp only [hi, cassert_true, Outcome.ok_bind]
      cases vset q.args i (some v) with
      | abort => trivial
      | ub => trivial
      | ok l => exact ⟨⟨a, f, rfl⟩, hl, hl'⟩
    · simp only [cassert_false hi]
      trivial
  | setCov c =>
    simp only [step, sampleCovSet]
    by_cases hi : n = q.dim
    · rw [cassert_true hi]
      exact ⟨⟨a, f, rfl⟩, hl, hl'⟩
    · rw [cassert_false hi]
      trivial
  | setMeas mm =>
    simp only [step, measurementModelSet]
    by_cases hi : mm.isSome = true
    · rw [cassert_true hi]
      refine ⟨⟨a, f, countArgs_frame { q with meas := mm } a f⟩, hl.of_addr ?_ ?_,
        hl'.of_addr ?_ ?_⟩ <;> simp [countArgs_addr]
    · rw [cassert_false hi]
      trivial
  | setSys s =>
    simp only [step, systemModelSet]
    by_cases hi : s.isSome = true
    · rw [cassert_true hi]
      by_cases hd : q.dim = 0 ∨ q.dim = n
      · simp only [Outcome.ok_bind, cassert_true hd]
        refine ⟨⟨a, f, countArgs_frame
          { q with sampleCov := if q.dim = 0 then none else q.sampleCov, dim := n, sys := s } a f⟩,
          hl.of_addr ?_ ?_, hl'.of_addr ?_ ?_⟩ <;> simp [countArgs_addr]
      · simp only [Outcome.ok_bind, cassert_false hd]
        trivial
    · rw [cassert_false hi]
      trivial

theorem step_query {be : Backend} {op : Op K n m U} (hop : isQuery op = true) {h : GaussHeap K n}
    {p : EKProposal K n m U} (hl : Live h p) {r} (hr : p.step be h op = .ok r) :
    r.2.Same p ∧ Live r.1 r.2 := by
  have key : ∀ {h' q}, (∃ x, p.expectedValueGet be h = .ok (x, h', q)) ∨
      (∃ x, p.covarianceGet be h = .ok (x, h', q)) → q.Same p ∧ Live h' q := by
    intro h' q hq
    rcases query_cases be hl with ⟨g, h1, _, e1, e2, hl1⟩ | ⟨_, e1, e2⟩ | ⟨_, e1, e2⟩
    · rcases hq with ⟨x, hx⟩ | ⟨x, hx⟩
      · rw [e1] at hx; cases hx; exact ⟨same_objAfter p g, hl1⟩
      · rw [e2] at hx; cases hx; exact ⟨same_objAfter p g, hl1⟩
    · rcases hq with ⟨x, hx⟩ | ⟨x, hx⟩
      · rw [e1] at hx; cases hx
      · rw [e2] at hx; cases hx
    · rcases hq with ⟨x, hx⟩ | ⟨x, hx⟩
      · rw [e1] at hx; cases hx
      · rw [e2] at hx; cases hx
  cases op with
  | mean =>
    simp only [step, Outcome.bind_eq_ok, Outcome.pure_eq, Outcome.ok.injEq, Prod.exists] at hr
    obtain ⟨x, h', q, e, rfl⟩ := hr
    exact key (Or.inl ⟨x, e⟩)
  | cov =>
    simp only [step, Outcome.bind_eq_ok, Outcome.pure_eq, Outcome.ok.injEq, Prod.exists] at hr
    obtain ⟨x, h', q, e, rfl⟩ := hr
    exact key (Or.inr ⟨x, e⟩)
  | setSys s => cases hop
  | setMeas s => cases hop
  | setCov s => cases hop
  | setNumArgs s => cases hop
  | setArg i s => cases hop

theorem make_live (h : GaussHeap K n) (sys : Option (AnalyticModel K n n U))
    (meas : Option (AnalyticModel K n m U)) :
    Live (make h sys meas).1 (make h sys meas).2 := by
  have h1 : ∀ c : PdfCell (MeanCov K n), (h.alloc c).2 = h.size := fun _ => rfl
  refine Live.of_addr (p := EKProposal.mk (if sys.isSome then n else 0) 0 0 [] sys meas none
    (h.alloc ⟨(0, 0), true⟩).2
    ⟨(h.alloc ⟨(0, 0), true⟩).2, ((h.alloc ⟨(0, 0), true⟩).1.alloc ⟨(0, 0), true⟩).2, KF.make 0 0⟩)
    ?_ ?_ ?_
  · refine ⟨⟨(0, 0), ?_⟩, ⟨(0, 0), Heap.alloc_get_new⟩⟩
    show Heap.get ((h.alloc ⟨(0, 0), true⟩).1.alloc ⟨(0, 0), true⟩).1 (h.alloc ⟨(0, 0), true⟩).2 = _
    rw [Heap.alloc_get_lt (by rw [Heap.alloc_size, h1]; omega)]
    exact Heap.alloc_get_new
  · exact (countArgs_addr _).1
  · exact (countArgs_addr _).2

theorem run_live {be : Backend} {ops : List (Op K n m U)} {r r'} (hl : Live r.1 r.2)
    (hr : run be ops r = .ok r') : Live r'.1 r'.2 := by
  induction ops generalizing r with
  | nil => cases hr; exact hl
  | cons op ops ih =>
    simp only [run, Outcome.bind_eq_ok] at hr
    obtain ⟨r1, h1, h2⟩ := hr
    refine ih ?_ h2
    cases hop : isQuery op with
    | true => exact (step_query hop hl h1).2
    | false =>
      have := step_set be hop (Same.refl r.2) hl hl
      rw [h1] at this
      exact this.2.1

/-- Leaving out the queries leads to a proposal that differs in the pdf objects only. -/
theorem run_skip {be : Backend} {ops : List (Op K n m U)} {r r' s} (hs : r.2.Same s.2)
    (hl : Live r.1 r.2) (hl' : Live s.1 s.2) (hr : run be ops r = .ok r') :
    ∃ s', run be (ops.filter fun op => !isQuery op) s = .ok s' ∧ r'.2.Same s'.2 ∧
      Live r'.1 r'.2 ∧ Live s'.1 s'.2 := by
  induction ops generalizing r s with
  | nil => cases hr; exact ⟨s, rfl, hs, hl, hl'⟩
  | cons op ops ih =>
    simp only [run, Outcome.bind_eq_ok] at hr
    obtain ⟨r1, h1, h2⟩ := hr
    cases hop : isQuery op with
    | true =>
      obtain ⟨e1, e2⟩ := step_query hop hl h1
      obtain ⟨s', e3, e4⟩ := ih (e1.trans hs) e2 hl' h2
      refine ⟨s', ?_, e4⟩
      rw [List.filter_cons_of_neg (by simp [hop])]
      exact e3
    | false =>
      have e := step_set be hop hs hl hl'
      rw [h1] at e
      obtain ⟨s1, hs1, e1, e2, e3⟩ := e.ok_left
      obtain ⟨s', e4, e5⟩ := ih e1 e2 e3 h2
      refine ⟨s', ?_, e5⟩
      rw [List.filter_cons_of_pos (by simp [hop])]
      simp only [run, hs1, Outcome.ok_bind]
      exact e4

/-- Dimension and number of arguments as the code keeps them. -/
def Wf (p : EKProposal K n m U) : Prop :=
  (p.dim = 0 ∨ p.dim = n) ∧ p.args.length = p.numArgs

theorem Wf.numArgsSet {p : EKProposal K n m U} (h : Wf p) (k : Nat) : Wf (p.numArgsSet k) := by
  unfold EKProposal.numArgsSet
  split
  · refine ⟨h.1, ?_⟩
    simp only [List.length_append, List.length_take, List.length_replicate]
    omega
  · exact h

theorem Wf.countArgs {p : EKProposal K n m U} (h : Wf p) : Wf p.countArgs := by
  unfold EKProposal.countArgs
  split
  · exact h.numArgsSet _
  · exact h

theorem Wf.same {p q : EKProposal K n m U} (h : Wf q) (hs : p.Same q) : Wf p := by
  obtain ⟨a, f, rfl⟩ := hs
  exact h

theorem Wf.make (h : GaussHeap K n) (sys : Option (AnalyticModel K n n U))
    (meas : Option (AnalyticModel K n m U)) : Wf (EKProposal.make h sys meas).2 := by
  refine Wf.countArgs ⟨?_, rfl⟩
  cases sys
  · exact Or.inl rfl
  · exact Or.inr rfl

theorem vset_length {α : Type} {l l' : List α} {i : Nat} {v : α} (h : vset l i v = .ok l') :
    l'.length = l.length := by
  by_cases hi : i < l.length
  · rw [vset_of_lt hi] at h
    cases h
    simp
  · simp [vset, hi] at h

theorem Wf.step {be : Backend} {h : GaussHeap K n} {p : EKProposal K n m U} (hw : Wf p)
    (hl : Live h p) {op : Op K n m U} {r} (hr : p.step be h op = .ok r) : Wf r.2 := by
  cases hop : isQuery op with
  | true => exact hw.same (step_query hop hl hr).1
  | false =>
    cases op with
    | mean => cases hop
    | cov => cases hop
    | setNumArgs k => cases hr; exact hw.numArgsSet k
    | setSys s =>
      simp only [EKProposal.step, systemModelSet, Outcome.bind_eq_ok, Outcome.pure_eq,
        Outcome.ok.injEq] at hr
      obtain ⟨_, ⟨_, _, _, _, rfl⟩, rfl⟩ := hr
      exact Wf.countArgs ⟨Or.inr rfl, hw.2⟩
    | setMeas s =>
      simp only [EKProposal.step, measurementModelSet, Outcome.bind_eq_ok, Outcome.pure_eq,
        Outcome.ok.injEq] at hr
      obtain ⟨_, ⟨_, _, rfl⟩, rfl⟩ := hr
      exact Wf.countArgs ⟨hw.1, hw.2⟩
    | setCov c =>
      simp only [EKProposal.step, sampleCovSet, Outcome.bind_eq_ok, Outcome.pure_eq,
        Outcome.ok.injEq] at hr
      obtain ⟨_, ⟨_, _, rfl⟩, rfl⟩ := hr
      exact ⟨hw.1, hw.2⟩
    | setArg i v =>
      simp only [EKProposal.step, argSet, Outcome.bind_eq_ok, Outcome.pure_eq,
        Outcome.ok.injEq] at hr
      obtain ⟨_, ⟨_, _, l, hl, rfl⟩, rfl⟩ := hr
      exact ⟨hw.1, (vset_length hl).trans hw.2⟩

theorem Wf.run {be : Backend} {ops : List (Op K n m U)} {r r'} (hw : Wf r.2) (hl : Live r.1 r.2)
    (hr : run be ops r = .ok r') : Wf r'.2 := by
  induction ops generalizing r with
  | nil => cases hr; exact hw
  | cons op ops ih =>
    simp only [EKProposal.run, Outcome.bind_eq_ok] at hr
    obtain ⟨r1, h1, h2⟩ := hr
    refine ih (hw.step hl h1) ?_ h2
    exact run_live (be := be) (ops := [op]) hl (by simp only [EKProposal.run, h1]; rfl)

/-- Setting an argument. -/
theorem argSet_ok {p : EKProposal K n m U} (hw : p.args.length = p.numArgs) {i : Nat}
    (hi : i < p.numArgs) (v : Option (CondArg K n m U)) :
    p.argSet i v = .ok { p with args := p.args.set i v } := by
  simp only [argSet, cassert_true hi, Outcome.ok_bind, vset_of_lt (by rw [hw]; exact hi),
    Outcome.pure_eq]

theorem argGet_ok {p : EKProposal K n m U} {i : Nat} (hi : i < p.numArgs)
    {v : Option (CondArg K n m U)} (hv : p.args[i]? = some v) : p.argGet i = .ok v := by
  simp only [argGet, cassert_true hi, Outcome.ok_bind]
  exact (vget_eq_ok).2 hv

/-- The conditional arguments in the order of the code. -/
def argList (s : AnalyticModel K n n U) (mm : AnalyticModel K n m U) (x : Fin n → K) (u : Option U)
    (z : Fin m → K) (sp : Option U) : List (Option (CondArg K n m U)) :=
  some (.state x) :: ((if s.withoutInputs then [] else [u.map .input]) ++
    some (.meas z) :: (if mm.withoutInputs then [] else [sp.map .input]))

theorem setArgs_ok {p : EKProposal K n m U} {s : AnalyticModel K n n U} {mm : AnalyticModel K n m U}
    (hw : p.args.length = p.numArgs) (hn : p.numArgs = s.numArgs + mm.numArgs) (x : Fin n → K)
    (u : Option U) (z : Fin m → K) (sp : Option U) :
    p.setArgs s mm x u z sp = .ok { p with args := argList s mm x u z sp } := by
  obtain ⟨d, sc, na, args, sy, me, cov, tp, fi⟩ := p
  simp only at hw hn
  subst hw
  cases s <;> cases mm
  · simp only [AnalyticModel.numArgs] at hn
    obtain ⟨a, b, rfl⟩ := List.length_eq_two.1 hn
    rfl
  · simp only [AnalyticModel.numArgs] at hn
    obtain ⟨a, b, c, rfl⟩ := List.length_eq_three.1 hn
    rfl
  · simp only [AnalyticModel.numArgs] at hn
    obtain ⟨a, b, c, rfl⟩ := List.length_eq_three.1 hn
    rfl
  · simp only [AnalyticModel.numArgs] at hn
    match args, hn with
    | [a, b, c, d], _ => rfl

theorem answer_argList (be : Backend) {p : EKProposal K n m U} {s : AnalyticModel K n n U}
    {mm : AnalyticModel K n m U} {S : Matrix (Fin n) (Fin n) K} {x : Fin n → K}
    {u : Option U} {z : Fin m → K} {sp : Option U} (hsys : p.sys = some s) (hmeas : p.meas = some mm)
    (hcov : p.sampleCov = some S) (hn : p.numArgs = s.numArgs + mm.numArgs)
    (ha : p.args = argList s mm x u z sp) :
    p.answer be = freshEkf be x S (some (s, givenTo s u)) (some (mm, z, givenTo mm sp)) := by
  obtain ⟨d, sc, na, args, sy, me, cov, tp, fi⟩ := p
  simp only at hsys hmeas hcov hn ha
  subst hsys hmeas hcov hn ha
  have hi : ∀ w : Option U, CondArg.asInput (K := K) (n := n) (m := m) (w.map .input) = .ok w := by
    intro w
    cases w <;> rfl
  cases s <;> cases mm <;>
    simp [answer, argGet, argList, AnalyticModel.numArgs, AnalyticModel.withoutInputs, vget, callOf,
      sysArgs, measArgs, CondArg.asState, CondArg.asMeas, hi, givenTo, readMember,
      cassert_true trivial]

theorem numArgsSet_fields (p : EKProposal K n m U) (k : Nat) :
    (p.numArgsSet k).dim = p.dim ∧ (p.numArgsSet k).scratch = p.scratch ∧
      (p.numArgsSet k).sys = p.sys ∧ (p.numArgsSet k).meas = p.meas ∧
      (p.numArgsSet k).sampleCov = p.sampleCov ∧ (p.numArgsSet k).numArgs = k := by
  unfold EKProposal.numArgsSet
  split
  · exact ⟨rfl, rfl, rfl, rfl, rfl, rfl⟩
  · rename_i h
    exact ⟨rfl, rfl, rfl, rfl, rfl, (not_not.1 h).symm⟩

theorem countArgs_fields (p : EKProposal K n m U) :
    (p.countArgs).dim = p.dim ∧ (p.countArgs).scratch = p.scratch ∧
      (p.countArgs).sys = p.sys ∧ (p.countArgs).meas = p.meas ∧
      (p.countArgs).sampleCov = p.sampleCov := by
  unfold EKProposal.countArgs
  split
  · obtain ⟨h1, h2, h3, h4, h5, _⟩ := numArgsSet_fields p _
    exact ⟨h1, h2, h3, h4, h5⟩
  · exact ⟨rfl, rfl, rfl, rfl, rfl⟩

theorem countArgs_numArgs {p : EKProposal K n m U} {s : AnalyticModel K n n U}
    {mm : AnalyticModel K n m U} (hs : p.sys = some s) (hm : p.meas = some mm) :
    (p.countArgs).numArgs = s.numArgs + mm.numArgs := by
  unfold EKProposal.countArgs
  rw [hs, hm]
  exact (numArgsSet_fields p _).2.2.2.2.2

/-- The two models can always be set. -/
theorem models_ok {p : EKProposal K n m U} (hw : Wf p) (s : AnalyticModel K n n U)
    (mm : AnalyticModel K n m U) :
    ∃ p', (p.systemModelSet (some s) >>= fun q => q.measurementModelSet (some mm)) = .ok p' ∧
      p'.tmpPrior = p.tmpPrior ∧ p'.filter = p.filter ∧ p'.scratch = p.scratch ∧ p'.dim = n ∧
      p'.sys = some s ∧ p'.meas = some mm ∧ p'.numArgs = s.numArgs + mm.numArgs ∧
      p'.args.length = p'.numArgs := by
  let p1 : EKProposal K n m U :=
    { p with sampleCov := if p.dim = 0 then none else p.sampleCov, dim := n, sys := some s }
  have w1 : Wf p1 := ⟨Or.inr rfl, hw.2⟩
  let p2 : EKProposal K n m U := { p1.countArgs with meas := some mm }
  have w2 : Wf p2 := ⟨w1.countArgs.1, w1.countArgs.2⟩
  have h1 : p.systemModelSet (some s) = .ok p1.countArgs := by
    simp only [systemModelSet, cassert_true hw.1]
    rfl
  obtain ⟨a1, a2, a3, a4, a5⟩ := countArgs_fields p1
  obtain ⟨b1, b2, b3, b4, b5⟩ := countArgs_fields p2
  have hs : p2.sys = some s := a3
  refine ⟨p2.countArgs, by rw [h1]; rfl, (countArgs_addr p2).1.trans (countArgs_addr p1).1,
    (countArgs_addr p2).2.trans (countArgs_addr p1).2, b2.trans a2, b1.trans a1, b3.trans hs, b4,
    countArgs_numArgs hs rfl, w2.countArgs.2⟩

/-- The proposal when the covariance and the arguments are set. -/
theorem args_ok (be : Backend) {p : EKProposal K n m U} {s : AnalyticModel K n n U}
    {mm : AnalyticModel K n m U} (hd : p.dim = n) (hsys : p.sys = some s) (hmeas : p.meas = some mm)
    (hn : p.numArgs = s.numArgs + mm.numArgs) (hw : p.args.length = p.numArgs)
    (S : Matrix (Fin n) (Fin n) K) (x : Fin n → K) (u : Option U) (z : Fin m → K) (sp : Option U) :
    (p.sampleCovSet S >>= fun q => q.setArgs s mm x u z sp) =
        .ok { p with sampleCov := some S, args := argList s mm x u z sp } ∧
      EKProposal.answer be { p with sampleCov := some S, args := argList s mm x u z sp } =
        freshEkf be x S (some (s, givenTo s u)) (some (mm, z, givenTo mm sp)) := by
  constructor
  · simp only [sampleCovSet, cassert_true hd.symm, Outcome.ok_bind, Outcome.pure_eq]
    rw [setArgs_ok (p := { p with sampleCov := some S }) hw hn]
  · exact answer_argList be hsys hmeas rfl hn rfl

theorem prepare_ok (be : Backend) {p : EKProposal K n m U} (hw : Wf p) (s : AnalyticModel K n n U)
    (mm : AnalyticModel K n m U) (S : Matrix (Fin n) (Fin n) K) (x : Fin n → K) (u : Option U)
    (z : Fin m → K) (sp : Option U) :
    ∃ p', prepare s mm S x u z sp p = .ok p' ∧ p'.tmpPrior = p.tmpPrior ∧ p'.filter = p.filter ∧
      p'.answer be = freshEkf be x S (some (s, givenTo s u)) (some (mm, z, givenTo mm sp)) := by
  obtain ⟨p', h1, h2, h3, _, h5, h6, h7, h8, h9⟩ := models_ok hw s mm
  obtain ⟨e1, e2⟩ := args_ok be h5 h6 h7 h8 h9 S x u z sp
  refine ⟨{ p' with sampleCov := some S, args := argList s mm x u z sp }, ?_, h2, h3, e2⟩
  rw [Outcome.bind_eq_ok] at h1
  obtain ⟨q, hq, hq'⟩ := h1
  simp only [prepare, hq, hq', Outcome.ok_bind]
  exact e1

/-- The pdf objects of the proposal, and the rest of the heap. -/
def Frame (h0 h : GaussHeap K n) (p : EKProposal K n m U) : Prop :=
  p.tmpPrior = h0.size ∧ (p.filter.post = h0.size ∨ p.filter.post = h0.size + 1) ∧
    (∀ a < h0.size, h.get a = h0.get a) ∧ (∃ v, h.get h0.size = some ⟨v, true⟩) ∧
    ∃ v, h.get (h0.size + 1) = some ⟨v, true⟩

theorem Frame.live {h0 h : GaussHeap K n} {p : EKProposal K n m U} (hf : Frame h0 h p) :
    Live h p := by
  obtain ⟨h1, h2, _, h4, h5⟩ := hf
  refine ⟨by rw [h1]; exact h4, ?_⟩
  rcases h2 with h2 | h2 <;> rw [h2] <;> assumption

theorem Frame.make (h0 : GaussHeap K n) (sys : Option (AnalyticModel K n n U))
    (meas : Option (AnalyticModel K n m U)) :
    Frame h0 (EKProposal.make h0 sys meas).1 (EKProposal.make h0 sys meas).2 := by
  have hs : ∀ (h : GaussHeap K n) (c : PdfCell (MeanCov K n)), (h.alloc c).2 = h.size :=
    fun _ _ => rfl
  obtain ⟨⟨v, h1⟩, w, h2⟩ := make_live h0 sys meas
  have e1 : (EKProposal.make h0 sys meas).2.tmpPrior = h0.size := (countArgs_addr _).1
  have e2 : (EKProposal.make h0 sys meas).2.filter.post = h0.size + 1 := by
    refine (congrArg FilterObj.post (countArgs_addr _).2).trans ?_
    show (h0.alloc ⟨(0, 0), true⟩).1.size = _
    rw [Heap.alloc_size]
  rw [e1] at h1
  rw [e2] at h2
  refine ⟨e1, Or.inr e2, fun a ha => ?_, ⟨v, h1⟩, ⟨w, h2⟩⟩
  show ((h0.alloc ⟨(0, 0), true⟩).1.alloc ⟨(0, 0), true⟩).1.get a = _
  rw [Heap.alloc_get_lt (by rw [Heap.alloc_size]; omega), Heap.alloc_get_lt ha]

theorem Frame.query {be : Backend} {h0 h : GaussHeap K n} {p : EKProposal K n m U}
    (hf : Frame h0 h p) {r} (hr : p.filterStep be h = .ok r) : Frame h0 r.1 r.2 := by
  have hl := hf.live
  rw [filterStep_eq be hl] at hr
  simp only [Outcome.bind_eq_ok, Outcome.ok.injEq] at hr
  obtain ⟨v, hv, x, hx, s, hs, c, hc, g, hg, rfl⟩ := hr
  obtain ⟨h1, h2, h3, h4, h5⟩ := hf
  refine ⟨h1, Or.inl h1, fun a ha => ?_, ⟨g, ?_⟩, ?_⟩
  · have hne : a ≠ p.tmpPrior := by rw [h1]; omega
    rw [heapAfter, Heap.upd_get_ne hne, Heap.upd_get_ne hne, h3 a ha]
  · rw [← h1]
    exact heapAfter_get hl x s g
  · have hne : h0.size + 1 ≠ p.tmpPrior := by rw [h1]; omega
    rw [heapAfter, Heap.upd_get_ne hne, Heap.upd_get_ne hne]
    exact h5

theorem Frame.of_addr {h0 h : GaussHeap K n} {p q : EKProposal K n m U} (hf : Frame h0 h p)
    (ha : q.tmpPrior = p.tmpPrior) (hg : q.filter = p.filter) : Frame h0 h q := by
  unfold Frame
  rw [ha, hg]
  exact hf

theorem Frame.step {be : Backend} {h0 h : GaussHeap K n} {p : EKProposal K n m U}
    (hf : Frame h0 h p) {op : Op K n m U} {r} (hr : p.step be h op = .ok r) : Frame h0 r.1 r.2 := by
  cases op with
  | mean =>
    simp only [EKProposal.step, expectedValueGet, Outcome.bind_eq_ok, Outcome.pure_eq,
      Outcome.ok.injEq, Prod.mk.injEq, Prod.exists] at hr
    obtain ⟨_, h', q, ⟨_, _, hs, _, _, _, hp⟩, rfl⟩ := hr
    obtain ⟨_, rfl, rfl⟩ := hp
    exact hf.query hs
  | cov =>
    simp only [EKProposal.step, covarianceGet, Outcome.bind_eq_ok, Outcome.pure_eq,
      Outcome.ok.injEq, Prod.mk.injEq, Prod.exists] at hr
    obtain ⟨_, h', q, ⟨_, _, hs, _, _, _, hp⟩, rfl⟩ := hr
    obtain ⟨_, rfl, rfl⟩ := hp
    exact hf.query hs
  | setNumArgs k => cases hr; exact hf.of_addr (numArgsSet_addr p k).1 (numArgsSet_addr p k).2
  | setSys s =>
    simp only [EKProposal.step, systemModelSet, Outcome.bind_eq_ok, Outcome.pure_eq,
      Outcome.ok.injEq] at hr
    obtain ⟨_, ⟨_, _, _, _, rfl⟩, rfl⟩ := hr
    exact hf.of_addr (countArgs_addr _).1 (countArgs_addr _).2
  | setMeas s =>
    simp only [EKProposal.step, measurementModelSet, Outcome.bind_eq_ok, Outcome.pure_eq,
      Outcome.ok.injEq] at hr
    obtain ⟨_, ⟨_, _, rfl⟩, rfl⟩ := hr
    exact hf.of_addr (countArgs_addr _).1 (countArgs_addr _).2
  | setCov c =>
    simp only [EKProposal.step, sampleCovSet, Outcome.bind_eq_ok, Outcome.pure_eq,
      Outcome.ok.injEq] at hr
    obtain ⟨_, ⟨_, _, rfl⟩, rfl⟩ := hr
    exact hf
  | setArg i v =>
    simp only [EKProposal.step, argSet, Outcome.bind_eq_ok, Outcome.pure_eq,
      Outcome.ok.injEq] at hr
    obtain ⟨_, ⟨_, _, l, hl, rfl⟩, rfl⟩ := hr
    exact hf

theorem Frame.run {be : Backend} {ops : List (Op K n m U)} {h0 : GaussHeap K n} {r r'}
    (hf : Frame h0 r.1 r.2) (hr : run be ops r = .ok r') : Frame h0 r'.1 r'.2 := by
  induction ops generalizing r with
  | nil => cases hr; exact hf
  | cons op ops ih =>
    simp only [EKProposal.run, Outcome.bind_eq_ok] at hr
    obtain ⟨r1, h1, h2⟩ := hr
    exact ih (hf.step h1) h2

/-- The density is the one of the answer. -/
theorem probabilityGet_eq (be : Backend) {n m : Nat} {h : GaussHeap ℝ n} {p : EKProposal ℝ n m U}
    (hl : Live h p) (y : Fin n → ℝ) :
    (∀ g d, p.answer be = .ok g → ConditionalGaussian.probabilityGet be g.1 g.2 y = .ok d →
      ∃ h', p.probabilityGet be h y = .ok (d, h', objAfter p g) ∧ Live h' (objAfter p g)) ∧
    (p.probabilityGet be h y >>= fun r => Outcome.ok r.1) =
      (p.answer be >>= fun g => ConditionalGaussian.probabilityGet be g.1 g.2 y) := by
  have hobj : ∀ g : MeanCov ℝ n, objAfter (objAfter p g) g = objAfter p g := fun _ => rfl
  have key : ∀ g, p.answer be = .ok g → ∃ h', Live h' (objAfter p g) ∧
      p.probabilityGet be h y = (ConditionalGaussian.probabilityGet be g.1 g.2 y >>= fun d =>
        .ok (d, h', objAfter p g)) := by
    intro g hg
    rcases query_cases be hl with ⟨g1, h1, e1, e2, _, l1⟩ | ⟨e1, _⟩ | ⟨e1, _⟩
    · rw [hg] at e1
      cases e1
      have a1 : (objAfter p g).answer be = .ok g := (same_objAfter p g).answer.trans hg
      rcases query_cases be l1 with ⟨g2, h2, e1, _, e3, l2⟩ | ⟨e1, _⟩ | ⟨e1, _⟩
      · rw [a1] at e1
        cases e1
        rw [hobj] at e3 l2
        rcases query_cases be l2 with ⟨g3, h3, e1, _, e4, l3⟩ | ⟨e1, _⟩ | ⟨e1, _⟩
        · rw [a1] at e1
          cases e1
          rw [hobj] at e4 l3
          refine ⟨h3, l3, ?_⟩
          simp only [probabilityGet, e2, e3, e4, Outcome.ok_bind, Outcome.pure_eq,
            ConditionalGaussian.probabilityGet]
          cases be.symInverse g.2 <;> [skip; rfl; rfl]
          simp only [Outcome.ok_bind]
          generalize mkProb (_ : ℝ) = q
          cases q <;> [skip; rfl; rfl]
          simp only [Outcome.ok_bind]
          cases be.determinant g.2 <;> [skip; rfl; rfl]
          rfl
        · rw [a1] at e1; cases e1
        · rw [a1] at e1; cases e1
      · rw [a1] at e1; cases e1
      · rw [a1] at e1; cases e1
    · rw [hg] at e1; cases e1
    · rw [hg] at e1; cases e1
  constructor
  · intro g d hg hd
    obtain ⟨h', l, e⟩ := key g hg
    exact ⟨h', by rw [e, hd]; rfl, l⟩
  · cases hg : p.answer be with
    | ok g =>
      obtain ⟨h', _, e⟩ := key g hg
      rw [e]
      simp only [Outcome.ok_bind]
      cases ConditionalGaussian.probabilityGet be g.1 g.2 y <;> rfl
    | abort =>
      rcases query_cases be hl with ⟨g1, h1, e1, _⟩ | ⟨_, e2, _⟩ | ⟨e1, _⟩
      · rw [hg] at e1; cases e1
      · simp [probabilityGet, e2]
      · rw [hg] at e1; cases e1
    | ub =>
      rcases query_cases be hl with ⟨g1, h1, e1, _⟩ | ⟨e1, _⟩ | ⟨_, e2, _⟩
      · rw [hg] at e1; cases e1
      · rw [hg] at e1; cases e1
      · simp [probabilityGet, e2]

/-- Asking for the mean or the covariance. -/
theorem mean_eq (be : Backend) {h : GaussHeap K n} {p : EKProposal K n m U} (hl : Live h p) :
    (p.expectedValueGet be h >>= fun r => Outcome.ok r.1) =
      (p.answer be >>= fun g => .ok g.1) := by
  rcases query_cases be hl with ⟨g, h', e1, e2, e3, _⟩ | ⟨e1, e2, e3⟩ | ⟨e1, e2, e3⟩ <;>
    rw [e1, e2] <;> rfl

theorem cov_eq (be : Backend) {h : GaussHeap K n} {p : EKProposal K n m U} (hl : Live h p) :
    (p.covarianceGet be h >>= fun r => Outcome.ok r.1) =
      (p.answer be >>= fun g => .ok g.2) := by
  rcases query_cases be hl with ⟨g, h', e1, e2, e3, _⟩ | ⟨e1, e2, e3⟩ | ⟨e1, e2, e3⟩ <;>
    rw [e1, e3] <;> rfl

theorem run_append (be : Backend) (ops ops' : List (Op K n m U)) (r) :
    run be (ops ++ ops') r = (run be ops r >>= fun r => run be ops' r) := by
  induction ops generalizing r with
  | nil => rfl
  | cons op ops ih =>
    simp only [List.cons_append, EKProposal.run]
    cases r.2.step be r.1 op with
    | ok r1 => simp only [Outcome.ok_bind, ih]
    | abort => rfl
    | ub => rfl

/-- Queries with an answer succeed. -/
theorem run_queries {be : Backend} {h : GaussHeap K n} {p : EKProposal K n m U} (hl : Live h p) {g}
    (hg : p.answer be = .ok g) {ops : List (Op K n m U)} (hq : ∀ op ∈ ops, isQuery op = true) :
    ∃ r, run be ops (h, p) = .ok r := by
  induction ops generalizing h p with
  | nil => exact ⟨_, rfl⟩
  | cons op ops ih =>
    rcases query_cases be hl with ⟨g1, h1, e1, e2, e3, l1⟩ | ⟨e1, _⟩ | ⟨e1, _⟩
    · have e4 : p.step be h op = .ok (h1, objAfter p g1) := by
        have := hq op (by simp)
        cases op <;> first | (cases this; done) | simp [EKProposal.step, e2, e3]
      obtain ⟨r, hr⟩ := ih l1 ((same_objAfter p g1).answer.trans hg)
        fun op ho => hq op (List.mem_cons_of_mem _ ho)
      exact ⟨r, by simp only [EKProposal.run, e4, Outcome.ok_bind, hr]⟩
    · rw [hg] at e1; cases e1
    · rw [hg] at e1; cases e1

end EKProposal

end BFL
