import Verif.Lemmas.ParticleProgram
import Verif.Props.CompareFilters

set_option linter.unusedSectionVars false
set_option linter.unusedSimpArgs false

/-!
# C117: which readings the comparison program uses and which it writes
-/

namespace BFL.Props

open Matrix Spec ExamplePdfs CompareFilters

variable (c : Settings) (be : Backend) (root : Nat → ℝ → ℝ) (robot : Robot) (u : Fin 2 → ℝ)
  (own : Settings.FilterDraws)

theorem loop_records {F : Type} (M : Method F) (use : Bool) (u : Fin 2 → ℝ) : ∀ (ds : List CompareFilters.Draws) (k : Nat) (robot : Robot)
    (f : F) (recs : List Record) (g : F), loop M use u k ds robot f = .ok (recs, g) → recs.length = ds.length ∧
      ∀ (t : Nat) d rec, ds[t]? = some d → recs[t]? = some rec → rec.time = k + t ∧
        rec.state = (robotAfter robot u ((ds.take t).map fun d => (d.move, d.reading))).state ∧
        (robotAfter robot u ((ds.take t).map fun d => (d.move, d.reading))).measure d.recorded = .ok rec.meas := by
  intro ds
  induction ds with
  | nil =>
    intro k robot f recs g h
    simp only [loop, Outcome.ok.injEq, Prod.mk.injEq] at h
    refine ⟨by simp [← h.1], fun t d rec ht => by simp at ht⟩
  | cons d ds ih =>
    intro k robot f recs g h
    simp only [loop, Outcome.bind_eq_ok, Outcome.pure_eq, Outcome.ok.injEq, Prod.mk.injEq] at h
    obtain ⟨w, hw, r, -, z, -, f', -, ⟨recs', g'⟩, hl, rfl, -⟩ := h
    obtain ⟨i1, i2⟩ := ih (k + 1) _ f' recs' g' hl
    refine ⟨by simp [i1], fun t d' rec ht hrec => ?_⟩
    cases t with
    | zero =>
      simp only [List.getElem?_cons_zero, Option.some.injEq] at ht hrec
      subst ht hrec
      exact ⟨rfl, rfl, hw⟩
    | succ t =>
      simp only [List.getElem?_cons_succ] at ht hrec
      obtain ⟨j1, j2, j3⟩ := i2 t d' rec ht hrec
      refine ⟨by rw [j1]; omega, ?_, ?_⟩
      · rw [List.take_succ_cons, List.map_cons, robotAfter_cons]
        exact j2
      · rw [List.take_succ_cons, List.map_cons, robotAfter_cons]
        exact j3

/-- **C117, what the files hold.** Whatever the filter, record `t` of a completed run holds the time `t`, the state
of the robot after `t` moves, and a reading taken there with random numbers of its own: not the reading that
the filter gets, which is taken after the next move. -/
theorem C117_records (use : Bool) {ds : List CompareFilters.Draws} {args : List String} {r : Result}
    (h : c.program be root use robot u own ds args = .ok (.done r)) : r.records.length = ds.length ∧
      ∀ (t : Nat) d rec, ds[t]? = some d → r.records[t]? = some rec → rec.time = t ∧
        rec.state = (robotAfter robot u ((ds.take t).map fun d => (d.move, d.reading))).state ∧
        (robotAfter robot u ((ds.take t).map fun d => (d.move, d.reading))).measure d.recorded = .ok rec.meas := by
  have key : ∀ {F : Type} (M : Method F) (f : F), estimate M use u ds robot f = .ok (.done r) → r.records.length = ds.length ∧
      ∀ (t : Nat) d rec, ds[t]? = some d → r.records[t]? = some rec → rec.time = t ∧
        rec.state = (robotAfter robot u ((ds.take t).map fun d => (d.move, d.reading))).state ∧
        (robotAfter robot u ((ds.take t).map fun d => (d.move, d.reading))).measure d.recorded = .ok rec.meas := by
    intro F M f he
    simp only [estimate, Outcome.bind_eq_ok, Outcome.pure_eq, Outcome.ok.injEq, Ending.done.injEq] at he
    obtain ⟨⟨recs, g⟩, hl, _, _, rfl⟩ := he
    have := loop_records M use u ds 0 robot f recs g hl
    simpa using this
  obtain ⟨m, hm⟩ := compare_measParticle c be
  obtain ⟨p, hp, -⟩ := compare_prior c own.prior
  simp only [Settings.program, hm, hp, Outcome.ok_bind] at h
  cases hc : parse args with
  | none => rw [hc] at h; simp at h
  | some choice =>
    rw [hc] at h
    cases choice with
    | kalman => exact key _ _ h
    | ieKalman => exact key _ _ h
    | asir => simp at h
    | bootstrap =>
      simp only [Outcome.bind_eq_ok] at h
      obtain ⟨f, -, h⟩ := h
      exact key _ _ h
    | ekParticle =>
      simp only [Outcome.bind_eq_ok] at h
      obtain ⟨f, -, h⟩ := h
      exact key _ _ h

/-- An extended Kalman filter with the prior and the models of the program that gets the given readings, one after each
move. -/
noncomputable def kalmanOver (f : KF ℝ 3) (zs : List (Fin 1 → ℝ)) : Outcome (KF ℝ 3) :=
  zs.foldlM (fun f z => Prod.snd <$> f.update be .extended (some (c.mobile.model, some u)) (some (c.measModel, z, none))) f

theorem nonlinear_over (z : Nat → Fin 1 → ℝ) : ∀ (ds : List ((Fin 3 → ℝ) × (Fin 1 → ℝ))) (k : Nat) (robot : Robot) (f : KF ℝ 3),
    SensesFrom robot u ds z k → c.nonlinearKalman be u ds k robot f =
      (fun g => (g, k + ds.length + 1)) <$> kalmanOver c be u f ((List.range' k ds.length).map z) := by
  intro ds
  induction ds with
  | nil => intro k robot f _; rfl
  | cons d ds ih =>
    intro k robot f h
    obtain ⟨h1, h2⟩ := h.cons
    simp only [Settings.nonlinearKalman, h1, Outcome.ok_bind, List.length_cons, List.range'_succ, List.map_cons, kalmanOver,
      List.foldlM_cons, map_bind, map_eq_pure_bind, bind_assoc, pure_bind]
    congr 1
    funext ⟨b, g⟩
    rw [ih (k + 1) _ g h2]
    simp only [kalmanOver, map_eq_pure_bind]
    congr 1
    funext g'
    rw [show k + 1 + ds.length + 1 = k + (ds.length + 1) + 1 by omega]

theorem loop_over (z : Nat → Fin 1 → ℝ) : ∀ (ds : List CompareFilters.Draws) (k : Nat) (robot : Robot) (f : KF ℝ 3),
    SensesFrom robot u (ds.map fun d => (d.move, d.reading)) z k →
      (do let p ← loop (c.kalman be .extended u) true u k ds robot f
          pure p.2) = kalmanOver c be u f ((List.range' k ds.length).map z) := by
  intro ds
  induction ds with
  | nil => intro k robot f _; rfl
  | cons d ds ih =>
    intro k robot f h
    obtain ⟨h1, h2⟩ := SensesFrom.cons h
    obtain ⟨w, hw⟩ : ∃ w, robot.measure d.recorded = .ok w := ⟨_, measure_eq _ _⟩
    simp only [loop, hw, h1, Outcome.ok_bind, Method.step, if_true, List.length_cons, List.range'_succ, List.map_cons,
      kalmanOver, List.foldlM_cons, bind_assoc, pure_bind]
    show (do
      let f' ← Prod.snd <$> f.update be .extended (some (c.mobile.model, some u)) (some (c.measModel, z k, none))
      let rest ← loop (c.kalman be .extended u) true u (k + 1) ds (robot.move u d.move) f'
      pure rest.2) = _
    congr 1
    funext g
    exact ih (k + 1) _ g h2

/-- **C117, which readings the Kalman filters get.** If readings are used, the last report of the comparison program
with `kalman_filter`, and the report of the nonlinear Kalman filter program for the same robot, are those of an
extended Kalman filter that gets, after each move, the reading of the robot after that move. So the two programs agree. -/
theorem C117_readings (ds : List CompareFilters.Draws) {z : Nat → Fin 1 → ℝ}
    (hz : Senses robot u (ds.map fun d => (d.move, d.reading)) z) {r : Result}
    (h : c.program be root true robot u own ds ["kalman_filter"] = .ok (.done r)) :
    ∃ f, kalmanOver c be u (KF.make c.priorMu c.priorSigma) ((List.range ds.length).map z) = .ok f ∧
      r.mean = f.mu ∧ r.cov = f.sigma ∧
      c.nonlinearKalman be u (ds.map fun d => (d.move, d.reading)) 0 robot (KF.make c.priorMu c.priorSigma) =
        .ok (f, r.printed) := by
  have hs : SensesFrom robot u (ds.map fun d => (d.move, d.reading)) z 0 := fun t d ht => by
    rw [zero_add]; exact hz t d ht
  obtain ⟨m, hm⟩ := compare_measParticle c be
  obtain ⟨p, hp, -⟩ := compare_prior c own.prior
  simp only [Settings.program, parse, hm, hp, Outcome.ok_bind, estimate, Outcome.bind_eq_ok, Outcome.pure_eq,
    Outcome.ok.injEq, Ending.done.injEq] at h
  obtain ⟨⟨recs, g⟩, hl, q, hq, rfl⟩ := h
  have h1 := loop_over c be u z ds 0 robot (KF.make c.priorMu c.priorSigma) hs
  rw [hl] at h1
  have h2 : kalmanOver c be u (KF.make c.priorMu c.priorSigma) ((List.range ds.length).map z) = .ok g := by
    rw [List.range_eq_range']
    exact h1.symm
  have h3 : q = (g.mu, g.sigma) := by
    have : Outcome.ok (g.mu, g.sigma) = Outcome.ok q := hq
    simpa using this.symm
  refine ⟨g, h2, by rw [h3], by rw [h3], ?_⟩
  rw [nonlinear_over c be u z _ 0 robot _ hs, List.length_map, ← List.range_eq_range', h2, zero_add]
  rfl

open CompareFixture

/-- A run with two noisy steps as shipped: the second record holds the state after one move. -/
example (root : Nat → ℝ → ℝ) : ∃ r rec,
    cts.program .eigen root false (CompareFixture.robot 0 0) ![1 / 10, 0] CompareFixture.own [quiet, ⟨1, 1, -1⟩] ["kalman_filter"] = .ok (.done r) ∧
      r.records[1]? = some rec ∧ rec.time = 1 ∧ rec.state = ((CompareFixture.robot 0 0).move ![1 / 10, 0] 0).state ∧
      ((CompareFixture.robot 0 0).move ![1 / 10, 0] 0).measure 1 = .ok rec.meas := by
  obtain ⟨r, h1, -⟩ := C117_grows cts .eigen root (CompareFixture.robot 0 0) ![1 / 10, 0] CompareFixture.own (by norm_num [cts])
    (by norm_num [cts]) (sq_nonneg _) (by norm_num [cts]) (by norm_num [cts]) (sq_nonneg _) [quiet, ⟨1, 1, -1⟩]
  obtain ⟨h2, h3⟩ := C117_records cts .eigen root (CompareFixture.robot 0 0) ![1 / 10, 0] CompareFixture.own false h1
  obtain ⟨rec, hrec⟩ : ∃ rec, r.records[1]? = some rec := ⟨_, List.getElem?_eq_getElem (by rw [h2]; simp)⟩
  exact ⟨r, rec, h1, hrec, h3 1 ⟨1, 1, -1⟩ rec rfl hrec⟩

/-- A run with readings: both programs report the same. -/
example (root : Nat → ℝ → ℝ) : ∃ r f,
    cts.program .eigen root true (CompareFixture.robot 0 0) ![1 / 10, 0] CompareFixture.own [quiet, ⟨1, 1, -1⟩] ["kalman_filter"] = .ok (.done r) ∧
      cts.nonlinearKalman .eigen ![1 / 10, 0] [(0, 0), (1, -1)] 0 (CompareFixture.robot 0 0) (KF.make cts.priorMu cts.priorSigma) =
        .ok (f, r.printed) ∧ r.mean = f.mu ∧ r.cov = f.sigma := by
  obtain ⟨r, h1, -⟩ := C117_measured_partial cts .eigen root (CompareFixture.robot 0 0) ![1 / 10, 0] CompareFixture.own rfl
    (by norm_num [cts]) (by norm_num [cts])
    (by norm_num [cts]) (sq_nonneg _) (by norm_num [cts]) (by norm_num [cts]) (sq_nonneg _) [quiet, ⟨1, 1, -1⟩]
  obtain ⟨z, hz⟩ := senses_exists (CompareFixture.robot 0 0) ![1 / 10, 0] ([quiet, ⟨1, 1, -1⟩].map fun d => (d.move, d.reading))
  obtain ⟨f, -, h2, h3, h4⟩ := C117_readings cts .eigen root (CompareFixture.robot 0 0) ![1 / 10, 0] CompareFixture.own _ hz h1
  exact ⟨r, f, h1, h4, h2, h3⟩

end BFL.Props
