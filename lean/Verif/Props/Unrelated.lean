import Verif.Lemmas.Unrelated
import Verif.Lemmas.UnrelatedStates
import Verif.Props.Coordinates
import Verif.Props.Histogram

set_option linter.unusedSectionVars false

/-!
# C105: unrelated systems may be estimated by one filter or by one filter each

`Verif.Spec.Unrelated` says how two systems are put side by side.
-/

namespace BFL.Props

open Matrix Spec

variable {K : Type} [Field K] [LinearOrder K] [IsStrictOrderedRing K] {n n' m m' : Nat} {U : Type}

/-- One call of `Update`, for any kinds of filter that decide alike on when to stop iterating. -/
theorem update_pair (be : Backend) {kind : KF.Kind K (n + n')} {k1 : KF.Kind K n}
    {k2 : KF.Kind K n'} {st : PairStep K n n' U} (h1 : FirstKind kind k1) (h2 : SecondKind kind k2)
    (hb : (∃ m m' a b z z' s, st.meas = .both (m := m) (m' := m') a b z z' s) → BothKind kind k1 k2)
    (hv : st.first.Valid) (hv' : st.second.Valid) {f : KF K n} {f' : KF K n'} (hP : PSD f.sigma)
    (hP' : PSD f'.sigma) :
    ∃ g g', f.update be k1 st.first.sys st.first.meas = .ok (true, g) ∧
      f'.update be k2 st.second.sys st.second.meas = .ok (true, g') ∧ PSD g.sigma ∧ PSD g'.sigma ∧
      (bothFilters f f').update be kind st.joint.sys st.joint.meas = .ok (true, bothFilters g g') := by
  obtain ⟨sys, meas⟩ := st
  have hs1 : ∀ sy sy' u, sys = some (sy, sy', u) →
      ∀ x, ∃ J F Q, sy.Evaluates u x J F Q ∧ PSD Q := by
    rintro sy sy' u rfl
    cases meas <;> exact hv.1 sy u rfl
  have hs2 : ∀ sy sy' u, sys = some (sy, sy', u) →
      ∀ x, ∃ J F Q, sy'.Evaluates u x J F Q ∧ PSD Q := by
    rintro sy sy' u rfl
    cases meas <;> exact hv'.1 sy' u rfl
  have hsys : ∃ a a', f.sysPart be (sys.map fun a => (a.1, a.2.2)) = .ok a ∧
      f'.sysPart be (sys.map fun a => (a.2.1, a.2.2)) = .ok a' ∧ PSD a.sigma ∧ PSD a'.sigma ∧
      (bothFilters f f').sysPart be (sys.map fun a => (bothModels a.1 a.2.1, a.2.2)) =
        .ok (bothFilters a a') := by
    rcases sys with _ | ⟨sy, sy', u⟩
    · exact ⟨f, f', rfl, rfl, hP, hP', rfl⟩
    · obtain ⟨J, F, Q, he, hQ⟩ := hs1 sy sy' u rfl f.mu
      obtain ⟨J', F', Q', he', hQ'⟩ := hs2 sy sy' u rfl f'.mu
      exact sysUpdate_both be he he' hP hP' hQ hQ'
  obtain ⟨a, a', e1, e2, q1, q2, e3⟩ := hsys
  cases meas with
  | nothing =>
    refine ⟨a, a', ?_, ?_, q1, q2, ?_⟩
    · simp only [KF.update, PairStep.first, KF.measPart]; rw [e1]; rfl
    · simp only [KF.update, PairStep.second, KF.measPart]; rw [e2]; rfl
    · simp only [KF.update, PairStep.joint, KF.measPart]; rw [e3]; rfl
  | first me z s =>
    obtain ⟨g, t1, p1, t2⟩ := measUpdate_first be (z := z) h1 q1 q2 (hv.2 me z s rfl)
    refine ⟨g, a', ?_, ?_, p1, q2, ?_⟩
    · simp only [KF.update, PairStep.first, KF.measPart]; rw [e1, Outcome.ok_bind, t1]; rfl
    · simp only [KF.update, PairStep.second, KF.measPart]; rw [e2]; rfl
    · simp only [KF.update, PairStep.joint, KF.measPart]; rw [e3, Outcome.ok_bind, t2]; rfl
  | second me z s =>
    obtain ⟨g, t1, p1, t2⟩ := measUpdate_second be (z := z) h2 q1 q2 (hv'.2 me z s rfl)
    refine ⟨a, g, ?_, ?_, q1, p1, ?_⟩
    · simp only [KF.update, PairStep.first, KF.measPart]; rw [e1]; rfl
    · simp only [KF.update, PairStep.second, KF.measPart]; rw [e2, Outcome.ok_bind, t1]; rfl
    · simp only [KF.update, PairStep.joint, KF.measPart]; rw [e3, Outcome.ok_bind, t2]; rfl
  | both me me' z z' s =>
    obtain ⟨g, g', t1, t2, p1, p2, t3⟩ := measUpdate_both be (z := z) (z' := z')
      (hb ⟨_, _, _, _, _, _, _, rfl⟩) q1 q2 (hv.2 me z s rfl) (hv'.2 me' z' s rfl)
    refine ⟨g, g', ?_, ?_, p1, p2, ?_⟩
    · simp only [KF.update, PairStep.first, KF.measPart]; rw [e1, Outcome.ok_bind, t1]; rfl
    · simp only [KF.update, PairStep.second, KF.measPart]; rw [e2, Outcome.ok_bind, t2]; rfl
    · simp only [KF.update, PairStep.joint, KF.measPart]; rw [e3, Outcome.ok_bind, t3]; rfl

theorem run_pair (be : Backend) {kind : KF.Kind K (n + n')} {k1 : KF.Kind K n}
    {k2 : KF.Kind K n'} (h1 : FirstKind kind k1) (h2 : SecondKind kind k2)
    (steps : List (PairStep K n n' U))
    (hb : ∀ st ∈ steps, (∃ m m' a b z z' s, st.meas = .both (m := m) (m' := m') a b z z' s) →
      BothKind kind k1 k2)
    (hv : ∀ st ∈ steps, st.first.Valid ∧ st.second.Valid) (f : KF K n) (f' : KF K n')
    (hP : PSD f.sigma) (hP' : PSD f'.sigma) :
    ∃ g g', runAll be k1 (steps.map PairStep.first) f = .ok g ∧
      runAll be k2 (steps.map PairStep.second) f' = .ok g' ∧
      runAll be kind (steps.map PairStep.joint) (bothFilters f f') = .ok (bothFilters g g') := by
  induction steps generalizing f f' with
  | nil => exact ⟨f, f', rfl, rfl, rfl⟩
  | cons st rest ih =>
    obtain ⟨g, g', e1, e2, q1, q2, e3⟩ := update_pair be h1 h2 (hb st (by simp))
      (hv st (by simp)).1 (hv st (by simp)).2 hP hP'
    obtain ⟨l, l', r1, r2, r3⟩ := ih (fun s hs => hb s (by simp [hs])) (fun s hs => hv s (by simp [hs]))
      g g' q1 q2
    refine ⟨l, l', ?_, ?_, ?_⟩
    · simp only [List.map_cons, runAll]; rw [e1]; exact r1
    · simp only [List.map_cons, runAll]; rw [e2]; exact r2
    · simp only [List.map_cons, runAll]; rw [e3]; exact r3

/-- C105, extended Kalman filters. One filter for two unrelated systems and one filter for each of
them report, after any history of movements and measurements, the same means and covariances; the
filter for the pair never sees a correlation between the two. -/
theorem C105_extended (be : Backend) (steps : List (PairStep K n n' U))
    (hv : ∀ st ∈ steps, st.first.Valid ∧ st.second.Valid) (f : KF K n) (f' : KF K n')
    (hP : PSD f.sigma) (hP' : PSD f'.sigma) :
    ∃ g g', runAll be .extended (steps.map PairStep.first) f = .ok g ∧
      runAll be .extended (steps.map PairStep.second) f' = .ok g' ∧
      runAll be .extended (steps.map PairStep.joint) (bothFilters f f') = .ok (bothFilters g g') :=
  run_pair be (kind := .extended) (k1 := .extended) (k2 := .extended) trivial trivial steps (fun _ _ _ => trivial) hv f f' hP hP'

/-- C105, iterated filters that always do all iterations. -/
theorem C105_iterated_partial (be : Backend) (k : Nat) (hk : 1 ≤ k) (steps : List (PairStep K n n' U))
    (hv : ∀ st ∈ steps, st.first.Valid ∧ st.second.Valid) (f : KF K n) (f' : KF K n')
    (hP : PSD f.sigma) (hP' : PSD f'.sigma) :
    ∃ g g', runAll be (.iterated k none) (steps.map PairStep.first) f = .ok g ∧
      runAll be (.iterated k none) (steps.map PairStep.second) f' = .ok g' ∧
      runAll be (.iterated k none) (steps.map PairStep.joint) (bothFilters f f')
        = .ok (bothFilters g g') :=
  run_pair be (kind := .iterated k none) (k1 := .iterated k none) (k2 := .iterated k none)
    ⟨hk, rfl, fun _ => rfl⟩ ⟨hk, rfl, fun _ => rfl⟩ steps
    (fun _ _ _ => ⟨hk, rfl, rfl, rfl, rfl, rfl⟩) hv f f' hP hP'

/-- C105, iterated filters with the library's check, as long as no single measurement concerns both
systems. -/
theorem C105_checked_partial (be : Backend) (k : Nat) (hk : 1 ≤ k) (ε : K)
    (steps : List (PairStep K n n' U))
    (hone : ∀ st ∈ steps, ∀ m m' a b z z' s, st.meas ≠ .both (m := m) (m' := m') a b z z' s)
    (hv : ∀ st ∈ steps, st.first.Valid ∧ st.second.Valid) (f : KF K n) (f' : KF K n')
    (hP : PSD f.sigma) (hP' : PSD f'.sigma) :
    ∃ g g',
      runAll be (.iterated k (some (KF.innovationCheck ε))) (steps.map PairStep.first) f = .ok g ∧
      runAll be (.iterated k (some (KF.innovationCheck ε))) (steps.map PairStep.second) f' = .ok g' ∧
      runAll be (.iterated k (some (KF.innovationCheck ε))) (steps.map PairStep.joint)
        (bothFilters f f') = .ok (bothFilters g g') := by
  refine run_pair be (kind := .iterated k (some (KF.innovationCheck ε)))
    (k1 := .iterated k (some (KF.innovationCheck ε)))
    (k2 := .iterated k (some (KF.innovationCheck ε))) ⟨hk, rfl, fun v => ?_⟩ ⟨hk, rfl, fun v => ?_⟩ steps
    (fun st hs h => ?_) hv f f' hP hP'
  · simp only [KF.passes, KF.innovationCheck]
    rw [decide_eq_decide]
    simp [dotProduct, Fin.sum_univ_add, stackV]
  · simp only [KF.passes, KF.innovationCheck]
    rw [decide_eq_decide]
    simp [dotProduct, Fin.sum_univ_add, stackV]
  · obtain ⟨m, m', a, b, z, z', s, h⟩ := h
    exact absurd h (hone st hs m m' a b z z' s)

/-- C105. The consistency number of a measurement of the pair is the sum of the two numbers; for a
measurement of one system it is that system's number. -/
theorem C105_nis (be : Backend) (meas : AnalyticModel K n m U) (meas' : AnalyticModel K n' m' U)
    (z Z : Fin m → K) (z' Z' : Fin m' → K) (H : Matrix (Fin m) (Fin n) K)
    (H' : Matrix (Fin m') (Fin n') K) (R : Matrix (Fin m) (Fin m) K) (R' : Matrix (Fin m') (Fin m') K)
    (f : KF K n) (f' : KF K n') (he : meas.Evaluates none f.mu Z H R)
    (he' : meas'.Evaluates none f'.mu Z' H' R') (hP : PSD f.sigma) (hP' : PSD f'.sigma)
    (hR : PD R) (hR' : PD R') :
    ∃ v v', f.nisGet be meas z = .ok (v, f) ∧ f'.nisGet be meas' z' = .ok (v', f') ∧
      (bothFilters f f').nisGet be (bothModels meas meas') (stackV z z')
        = .ok (v + v', bothFilters f f') ∧
      (bothFilters f f').nisGet be (firstModel meas) z = .ok (v, bothFilters f f') ∧
      (bothFilters f f').nisGet be (secondModel meas') z' = .ok (v', bothFilters f f') := by
  have h1 := (innovCov_pd (H := H) hP hR).det_ne
  have h2 := (innovCov_pd (H := H') hP' hR').det_ne
  refine ⟨quad (innovCov f.sigma H R)⁻¹ (z - Z), quad (innovCov f'.sigma H' R')⁻¹ (z' - Z'),
    ?_, ?_, ?_, ?_, ?_⟩
  · simp only [KF.nisGet]
    rw [he.1, he.2.1, he.2.2]
    exact calculateNis_ok be f z Z H R h1
  · simp only [KF.nisGet]
    rw [he'.1, he'.2.1, he'.2.2]
    exact calculateNis_ok be f' z' Z' H' R' h2
  · have e := evaluates_both he he'
    simp only [KF.nisGet]
    erw [e.1, e.2.1, e.2.2]
    have hd : (innovCov (diag2 f.sigma f'.sigma) (diag2 H H') (diag2 R R')).det ≠ 0 :=
      (innovCov_pd (diag2_psd hP hP') (diag2_pd hR hR')).det_ne
    refine (calculateNis_ok be (bothFilters f f') _ _ _ _ hd).trans ?_
    show Outcome.ok (quad (innovCov (diag2 f.sigma f'.sigma) (diag2 H H') (diag2 R R'))⁻¹ _, _) = _
    rw [innovCov_both, diag2_inv h1 h2, stackV_sub]
    congr 2
    simp only [quad]
    rw [diag2_mulVec]
    simp [dotProduct, Fin.sum_univ_add, stackV]
  · have e := evaluates_first (y := f'.mu) he
    simp only [KF.nisGet]
    erw [e.1, e.2.1, e.2.2]
    have hd : (innovCov (diag2 f.sigma f'.sigma) (onFirst H) R).det ≠ 0 := by
      rw [innovCov_first]; exact h1
    refine (calculateNis_ok be (bothFilters f f') _ _ _ _ hd).trans ?_
    show Outcome.ok (quad (innovCov (diag2 f.sigma f'.sigma) (onFirst H) R)⁻¹ _, _) = _
    rw [innovCov_first]
  · have e := evaluates_second (x := f.mu) he'
    simp only [KF.nisGet]
    erw [e.1, e.2.1, e.2.2]
    have hd : (innovCov (diag2 f.sigma f'.sigma) (onSecond H') R').det ≠ 0 := by
      rw [innovCov_second]; exact h2
    refine (calculateNis_ok be (bothFilters f f') _ _ _ _ hd).trans ?_
    show Outcome.ok (quad (innovCov (diag2 f.sigma f'.sigma) (onSecond H') R')⁻¹ _, _) = _
    rw [innovCov_second]

/-! ## A robot with a square sensor beside a moving target -/

namespace PairFixture

/-- Both move; both are measured in one go; then only one of them is. -/
def steps : List (PairStep ℚ 2 1 Unit) :=
  [⟨some (KFixture.sys, .noInput (fun x => x) (fun _ => 1) (fun _ => !![2]), none),
      .both KFixture.square UnitsFixture.square ![3] ![5] none⟩,
    ⟨none, .first KFixture.meas ![1] none⟩, ⟨none, .second UnitsFixture.square ![2] none⟩]

theorem valid : ∀ st ∈ steps, st.first.Valid ∧ st.second.Valid := by
  have a1 : ∀ x, ∃ J F Q, KFixture.sys.Evaluates none x J F Q ∧ PSD Q :=
    fun x => ⟨_, _, _, KFixture.sys_linear x, KFixture.Q_psd⟩
  have a2 : ∀ x, ∃ Z H R, KFixture.square.Evaluates none x Z H R ∧ PD R :=
    fun x => ⟨_, _, _, KFixture.square_evaluates x, KFixture.R_pd⟩
  have a3 : ∀ x, ∃ Z H R, UnitsFixture.square.Evaluates none x Z H R ∧ PD R :=
    fun x => ⟨_, _, _, UnitsFixture.ev x, UnitsFixture.pd 1 one_pos⟩
  have a4 : ∀ x, ∃ Z H R, KFixture.meas.Evaluates none x Z H R ∧ PD R :=
    fun x => ⟨_, _, _, KFixture.meas_linear x, KFixture.R_pd⟩
  intro st hst
  simp only [steps, List.mem_cons, List.not_mem_nil, or_false] at hst
  rcases hst with rfl | rfl | rfl
  · refine ⟨⟨?_, ?_⟩, ⟨?_, ?_⟩⟩
    · rintro sys u h; cases h; exact a1
    · rintro me z s h; cases h; exact a2
    · rintro sys u h; cases h
      exact fun x => ⟨_, _, _, ⟨rfl, rfl, rfl⟩, (UnitsFixture.pd 2 two_pos).psd⟩
    · rintro me z s h; cases h; exact a3
  · refine ⟨⟨?_, ?_⟩, ⟨?_, ?_⟩⟩
    · rintro sys u h; cases h
    · rintro me z s h; cases h; exact a4
    · rintro sys u h; cases h
    · rintro me z s h; cases h
  · refine ⟨⟨?_, ?_⟩, ⟨?_, ?_⟩⟩
    · rintro sys u h; cases h
    · rintro me z s h; cases h
    · rintro sys u h; cases h
    · rintro me z s h; cases h; exact a3

end PairFixture

example : ∃ g g', runAll .eigen .extended (PairFixture.steps.map PairStep.first) KFixture.start = .ok g ∧
    runAll .eigen .extended (PairFixture.steps.map PairStep.second) UnitsFixture.start = .ok g' ∧
    runAll .eigen .extended (PairFixture.steps.map PairStep.joint)
      (bothFilters KFixture.start UnitsFixture.start) = .ok (bothFilters g g') :=
  C105_extended .eigen _ PairFixture.valid _ _ KFixture.P_pd.psd (UnitsFixture.pd 1 one_pos).psd

example : ∃ g g', runAll .boost (.iterated 3 none) (PairFixture.steps.map PairStep.first) KFixture.start
      = .ok g ∧
    runAll .boost (.iterated 3 none) (PairFixture.steps.map PairStep.second) UnitsFixture.start = .ok g' ∧
    runAll .boost (.iterated 3 none) (PairFixture.steps.map PairStep.joint)
      (bothFilters KFixture.start UnitsFixture.start) = .ok (bothFilters g g') :=
  C105_iterated_partial .boost 3 (by norm_num) _ PairFixture.valid _ _ KFixture.P_pd.psd
    (UnitsFixture.pd 1 one_pos).psd

/-- The last two steps measure one system at a time. -/
example : ∃ g g', runAll .boost (.iterated 3 (some (KF.innovationCheck (1/2))))
      (PairFixture.steps.tail.map PairStep.first) KFixture.start = .ok g ∧
    runAll .boost (.iterated 3 (some (KF.innovationCheck (1/2))))
      (PairFixture.steps.tail.map PairStep.second) UnitsFixture.start = .ok g' ∧
    runAll .boost (.iterated 3 (some (KF.innovationCheck (1/2))))
      (PairFixture.steps.tail.map PairStep.joint)
      (bothFilters KFixture.start UnitsFixture.start) = .ok (bothFilters g g') := by
  refine C105_checked_partial .boost 3 (by norm_num) _ _ ?_
    (fun st hs => PairFixture.valid st (List.mem_of_mem_tail hs)) _ _ KFixture.P_pd.psd
    (UnitsFixture.pd 1 one_pos).psd
  intro st hst m m' a b z z' s h
  simp only [PairFixture.steps, List.tail_cons, List.mem_cons, List.not_mem_nil, or_false] at hst
  rcases hst with rfl | rfl <;> cases h

example : ∃ v v', KFixture.start.nisGet .boost KFixture.square ![3] = .ok (v, KFixture.start) ∧
    UnitsFixture.start.nisGet .boost UnitsFixture.square ![5] = .ok (v', UnitsFixture.start) ∧
    (bothFilters KFixture.start UnitsFixture.start).nisGet .boost
      (bothModels KFixture.square UnitsFixture.square) (stackV ![3] ![5])
      = .ok (v + v', bothFilters KFixture.start UnitsFixture.start) := by
  obtain ⟨v, v', h1, h2, h3, _⟩ := C105_nis .boost _ _ ![3] _ ![5] _ _ _ _ _ KFixture.start
    UnitsFixture.start (KFixture.square_evaluates _) (UnitsFixture.ev _) KFixture.P_pd.psd
    (UnitsFixture.pd 1 one_pos).psd KFixture.R_pd (UnitsFixture.pd 1 one_pos)
  exact ⟨v, v', h1, h2, h3⟩

/-- C105, negation for iterated filters with the library's check and a measurement of both systems:
the check adds up the steps of both, so one system keeps the other one iterating. Two equal systems,
each of which stops after one iteration on its own. -/
theorem C105_checked_false (be : Backend) :
    ∃ g l, UnitsFixture.start.measUpdate be (.iterated 2 (some (KF.innovationCheck (1/2))))
        UnitsFixture.square ![9/4] none = .ok g ∧
      (bothFilters UnitsFixture.start UnitsFixture.start).measUpdate be
        (.iterated 2 (some (KF.innovationCheck (1/2))))
        (bothModels UnitsFixture.square UnitsFixture.square) (stackV ![9/4] ![9/4]) none = .ok l ∧
      l.mu ≠ stackV g.mu g.mu := by
  have hP : PSD UnitsFixture.start.sigma := (UnitsFixture.pd 1 one_pos).psd
  have hR := UnitsFixture.pd 1 one_pos
  have hm : ∀ x, ∃ Z H R, UnitsFixture.square.Evaluates none x Z H R ∧ PD R :=
    fun x => ⟨_, _, _, UnitsFixture.ev x, UnitsFixture.pd 1 one_pos⟩
  have hd : ∀ x : Fin 1 → ℚ, (innovCov UnitsFixture.start.sigma !![2 * x 0] !![1]).det ≠ 0 :=
    fun x => (innovCov_pd (H := !![2 * x 0]) hP (UnitsFixture.pd 1 one_pos)).det_ne
  have k1 : kgain UnitsFixture.start.sigma !![2 * UnitsFixture.start.mu 0] !![1] = !![2/5] := by
    show kgain !![(1:ℚ)] !![2 * 1] !![1] = _
    rw [one_kgain (by norm_num)]; norm_num
  have s1 : UnitsFixture.start.mu + kgain UnitsFixture.start.sigma !![2 * UnitsFixture.start.mu 0] !![1]
      *ᵥ (![9/4] - (![UnitsFixture.start.mu 0 * UnitsFixture.start.mu 0] +
        !![2 * UnitsFixture.start.mu 0] *ᵥ (UnitsFixture.start.mu - UnitsFixture.start.mu))) = ![3/2] := by
    rw [k1, sub_self, Matrix.mulVec_zero, add_zero]
    decide +kernel
  -- alone
  have l1 : KF.iekfLoop be UnitsFixture.square ![9/4] none (some (KF.innovationCheck (1/2)))
      UnitsFixture.start.mu UnitsFixture.start.sigma 2 UnitsFixture.start.mu none
      = .ok (some (![1], !![2], !![1])) := by
    rw [iekfLoop_step (UnitsFixture.ev _) (hd _), s1, if_neg (by decide +kernel), sub_self,
      Matrix.mulVec_zero, add_zero]
    congr 4
    · decide +kernel
    · decide +kernel
  -- alone, all iterations
  have l2 : KF.iekfLoop be UnitsFixture.square ![9/4] none none
      UnitsFixture.start.mu UnitsFixture.start.sigma 2 UnitsFixture.start.mu none
      = .ok (some (![3/4], !![3], !![1])) := by
    rw [iekfLoop_step (UnitsFixture.ev _) (hd _), s1]
    simp only [KF.passes, if_true]
    rw [iekfLoop_step (UnitsFixture.ev _) (hd _), iekfLoop_stop, ite_self]
    congr 4
    · decide +kernel
    · decide +kernel
  -- the pair does all iterations
  have lj : KF.iekfLoop be (bothModels UnitsFixture.square UnitsFixture.square)
      (stackV ![9/4] ![9/4]) none (some (KF.innovationCheck (1/2)))
      (stackV UnitsFixture.start.mu UnitsFixture.start.mu)
      (diag2 UnitsFixture.start.sigma UnitsFixture.start.sigma) 2
      (stackV UnitsFixture.start.mu UnitsFixture.start.mu) none =
    KF.iekfLoop be (bothModels UnitsFixture.square UnitsFixture.square)
      (stackV ![9/4] ![9/4]) none none
      (stackV UnitsFixture.start.mu UnitsFixture.start.mu)
      (diag2 UnitsFixture.start.sigma UnitsFixture.start.sigma) 2
      (stackV UnitsFixture.start.mu UnitsFixture.start.mu) none := by
    have ev2 : ∀ x y : Fin 1 → ℚ, (bothModels UnitsFixture.square UnitsFixture.square).Evaluates none
        (stackV x y) (stackV ![x 0 * x 0] ![y 0 * y 0]) (diag2 !![2 * x 0] !![2 * y 0])
        (diag2 !![1] !![1]) := fun x y => evaluates_both (UnitsFixture.ev x) (UnitsFixture.ev y)
    have hd2 : ∀ x y : Fin 1 → ℚ, (innovCov (diag2 UnitsFixture.start.sigma UnitsFixture.start.sigma)
        (diag2 !![2 * x 0] !![2 * y 0]) (diag2 !![1] !![1])).det ≠ 0 := fun x y =>
      (innovCov_pd (diag2_psd hP hP) (diag2_pd hR hR)).det_ne
    rw [iekfLoop_step (ev2 _ _) (hd2 _ _), iekfLoop_step (ev2 _ _) (hd2 _ _)]
    rw [add_comm (stackV UnitsFixture.start.mu UnitsFixture.start.mu), mean_both (hd _) (hd _),
      add_comm _ UnitsFixture.start.mu, s1, stackV_sub]
    rw [if_pos (by decide +kernel)]
    simp only [KF.passes, if_true]
    rw [iekfLoop_step (ev2 _ _) (hd2 _ _), iekfLoop_step (ev2 _ _) (hd2 _ _), iekfLoop_stop,
      iekfLoop_stop, ite_self, ite_self]
  obtain ⟨g, g', r1, r2, _, _, r3⟩ := measUpdate_both be (n := 1) (n' := 1)
    (kind := .iterated 2 none) (k1 := .iterated 2 none) (k2 := .iterated 2 none)
    ⟨by norm_num, rfl, rfl, rfl, rfl, rfl⟩ (z := ![9/4]) (z' := ![9/4]) hP hP hm hm
  have c1 : UnitsFixture.start.measUpdate be (.iterated 2 (some (KF.innovationCheck (1/2))))
      UnitsFixture.square ![9/4] none = .ok ⟨![3/2], !![1/5], 0⟩ := by
    simp only [KF.measUpdate, KF.iekfMeasUpdate]
    rw [l1]
    simp only [Outcome.ok_bind, KF.iekfFinish]
    refine (one_calc be (p := 1) (h := 2) (r := 1) (by norm_num) 1 (9/4) 1 0).trans ?_
    norm_num
  have c2 : UnitsFixture.start.measUpdate be (.iterated 2 none)
      UnitsFixture.square ![9/4] none = .ok ⟨![29/20], !![1/10], 0⟩ := by
    simp only [KF.measUpdate, KF.iekfMeasUpdate]
    rw [l2]
    simp only [Outcome.ok_bind, KF.iekfFinish]
    refine (one_calc be (p := 1) (h := 3) (r := 1) (by norm_num) 1 (9/4) (3/4) 0).trans ?_
    norm_num
  rw [c2] at r1 r2
  cases r1
  cases r2
  refine ⟨_, bothFilters ⟨![29/20], !![1/10], 0⟩ ⟨![29/20], !![1/10], 0⟩, c1, ?_, ?_⟩
  · rw [← r3]
    simp only [KF.measUpdate, KF.iekfMeasUpdate]
    erw [lj]
    rfl
  · intro h
    have := congrFun h 0
    revert this
    decide +kernel

/-! ## Histogram filters -/

section histogram

open HistogramFilter Finset

variable {Z : Type}

/-- C105, histogram filters. If the prior of the pair is the product of the priors, the posterior of
the pair is the product of the posteriors that the systems' own filters report. -/
theorem C105_histogram {a b : Nat} {pr1 pr2 pr : DiscretePdf K} (h1 : pr1.numStates = a)
    (h2 : pr2.numStates = b) (h : pr.numStates = a * b) {p p' : Nat → K}
    (hp1 : pr1.probabilitiesGet = tab a p) (hp2 : pr2.probabilitiesGet = tab b p')
    (hp : pr.probabilitiesGet = tab (a * b) (onPair b fun i j => p i * p' j))
    (hd1 : IsDistribution pr1.probabilitiesGet) (hd2 : IsDistribution pr2.probabilitiesGet)
    (ts : List (TwoStep K)) (hts : ∀ t ∈ ts, t.Nonneg a b) {cs1 cs2 cs : List (Call Z K)}
    (hcs1 : Describes a cs1 (ts.flatMap TwoStep.one)) (hcs2 : Describes b cs2 (ts.flatMap TwoStep.two))
    (hcs : Describes (a * b) cs (ts.map (TwoStep.pair b)))
    (hpos1 : 0 < historyEvidence a p (ts.flatMap TwoStep.one))
    (hpos2 : 0 < historyEvidence b p' (ts.flatMap TwoStep.two)) :
    ∃ f1 f2 f g1 g2 g, HistogramFilter.make pr1 = .ok f1 ∧ f1.run cs1 = .ok (true, g1) ∧
      HistogramFilter.make pr2 = .ok f2 ∧ f2.run cs2 = .ok (true, g2) ∧
      HistogramFilter.make pr = .ok f ∧ f.run cs = .ok (true, g) ∧
      ∃ q q' : Nat → K, g1.post.probabilitiesGet = tab a q ∧ g2.post.probabilitiesGet = tab b q' ∧
        g.post.probabilitiesGet = tab (a * b) (onPair b fun i j => q i * q' j) := by
  have hs1 : ∀ s ∈ ts.flatMap TwoStep.one, s.Nonneg a := by
    intro s hs
    obtain ⟨t, ht, hs⟩ := List.mem_flatMap.1 hs
    exact TwoStep.nonneg_one (hts t ht) s hs
  have hs2 : ∀ s ∈ ts.flatMap TwoStep.two, s.Nonneg b := by
    intro s hs
    obtain ⟨t, ht, hs⟩ := List.mem_flatMap.1 hs
    exact TwoStep.nonneg_two (hts t ht) s hs
  have hs : ∀ s ∈ ts.map (TwoStep.pair b), s.Nonneg (a * b) := by
    intro s hs
    obtain ⟨t, ht, rfl⟩ := List.mem_map.1 hs
    exact TwoStep.nonneg_pair (hts t ht)
  have hd : IsDistribution pr.probabilitiesGet := by
    rw [hp1] at hd1; rw [hp2] at hd2; rw [hp]
    have q1 := forall_mem_tab.1 hd1.1
    have q2 := forall_mem_tab.1 hd2.1
    refine ⟨forall_mem_tab.2 fun x hx => mul_nonneg (q1 _ (div_lt_of hx)) (q2 _ (mod_lt_of hx)), ?_⟩
    rw [tab_sum]
    simp only [onPair]
    rw [sum_pairs a b fun i j => p i * p' j, ← Finset.sum_mul_sum, ← tab_sum, ← tab_sum, hd1.2, hd2.2,
      one_mul]
  obtain ⟨f1, g1, a1, b1, c1, _⟩ := C25_exact h1 hp1 hd1 hcs1 hs1 hpos1
  obtain ⟨f2, g2, a2, b2, c2, _⟩ := C25_exact h2 hp2 hd2 hcs2 hs2 hpos2
  obtain ⟨f, g, a3, b3, c3, _⟩ := C25_exact h hp hd hcs hs
    (by rw [historyEvidence_pair]; exact mul_pos hpos1 hpos2)
  refine ⟨f1, f2, f, g1, g2, g, a1, b1, a2, b2, a3, b3, _, _, c1, c2, c3.trans ?_⟩
  refine tab_congr fun x hx => ?_
  rw [historyEvidence_pair, jointLast_pair _ _ _ _ _ _ hx]
  simp only [onPair]
  rw [div_mul_div_comm]

/-! Two sticky systems of two states each; both move, then the first one is observed. -/

namespace PairFixture

def prior4 : DiscretePdf ℚ := { values := [1/4, 1/4, 1/4, 1/4], cum := [0, 1/4, 1/2, 3/4, 1] }

def sysPdf : CondPdf Int Int ℚ where
  numArgs := 1
  prob args y := match args with
    | [x] => .ok (HistogramExample.T (y.toNat / 2) (x.toNat / 2) *
        HistogramExample.T (y.toNat % 2) (x.toNat % 2))
    | _ => .abort
  draw _ := .abort

def measPdf : CondPdf Int Int ℚ where
  numArgs := 1
  prob args _ := match args with
    | [x] => .ok (HistogramExample.L (x.toNat / 2))
    | _ => .abort
  draw _ := .abort

def sys : Model Int Int ℚ := { pdf := some sysPdf, without := some true }

def meas : Model Int Int ℚ := { pdf := some measPdf, without := some true }

def story : List (TwoStep ℚ) :=
  [.move HistogramExample.T HistogramExample.T, .first HistogramExample.L]

end PairFixture

open HistogramExample in
example : ∃ f1 f2 f g1 g2 g, HistogramFilter.make HistogramExample.prior = .ok f1 ∧
    f1.run [⟨some (HistogramExample.sys, none), some (HistogramExample.meas, (1 : Int), none)⟩]
      = .ok (true, g1) ∧
    HistogramFilter.make HistogramExample.prior = .ok f2 ∧
    f2.run (Z := Int) [⟨some (HistogramExample.sys, none), none⟩] = .ok (true, g2) ∧
    HistogramFilter.make PairFixture.prior4 = .ok f ∧
    f.run [⟨some (PairFixture.sys, none), some (PairFixture.meas, (1 : Int), none)⟩]
      = .ok (true, g) ∧
    ∃ q q' : Nat → ℚ, g1.post.probabilitiesGet = tab 2 q ∧ g2.post.probabilitiesGet = tab 2 q' ∧
      g.post.probabilitiesGet = tab (2 * 2) (onPair 2 fun i j => q i * q' j) := by
  refine C105_histogram (K := ℚ) (Z := Int) (p := fun _ => 1/2) (p' := fun _ => 1/2) rfl rfl rfl
    (by decide +kernel) (by decide +kernel) (by decide +kernel) HistogramExample.dist
    HistogramExample.dist PairFixture.story ?_ ?_ ?_ ?_ (by decide +kernel) (by decide +kernel)
  · intro t ht
    simp only [PairFixture.story, List.mem_cons, List.not_mem_nil, or_false] at ht
    rcases ht with rfl | rfl
    · exact ⟨T_nonneg, T_nonneg⟩
    · exact L_nonneg
  · exact .cons (s1 := [.move T]) (s2 := [.observe L]) (ss := []) (.some transition)
      (.some likelihood) .nil
  · exact .cons (s1 := [.move T]) (s2 := []) (ss := []) (.some transition) .none .nil
  · refine .cons (s1 := [.move _]) (s2 := [.observe _]) (ss := []) (.some ?_) (.some ?_) .nil
    · exact Or.inl ⟨PairFixture.sysPdf, rfl, rfl, fun y _ x _ => rfl⟩
    · exact Or.inl ⟨PairFixture.measPdf, rfl, rfl, fun x _ => rfl⟩

end histogram

end BFL.Props
