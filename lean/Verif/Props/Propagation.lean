import Verif.Lemmas.Propagation
import Verif.Props.Ginac

/-!
# C83: long predictions of the extended Kalman filters

A filter that is updated with system models only, over any number of steps, reports the first-order
uncertainty of the whole motion, not only of one step.
-/

set_option linter.unusedSectionVars false

namespace BFL.Props

open Matrix Spec

variable {n : Nat} {U : Type}

/-- C83: if the Jacobians of the models are right, then after any sequence of system updates the mean is
where the models lead from the prior mean, and the covariance is the first-order propagation of the prior
covariance and of the noise of every step through all steps after it. -/
theorem C83_propagation (be : Backend) (kind : KF.Kind ℝ n) (steps : List (PredictStep n U))
    (h : ∀ st ∈ steps, TrueJacobian st) (f : KF ℝ n) (hs : f.sigmaᵀ = f.sigma) :
    ∃ f', runAll be kind (steps.map fun st => ⟨n, some st, none⟩) f = .ok f' ∧
      endOf steps f.mu = .ok f'.mu ∧ Propagated steps f.mu f.sigma f'.sigma := by
  obtain ⟨f', h1, h2, -, -, h3⟩ := propagate be kind steps h f hs
  exact ⟨f', h1, h2, h3⟩

/-- C83: without noise, many small steps give the same posterior as one step with a model of the whole
motion. -/
theorem C83_one_step (be : Backend) (kind : KF.Kind ℝ n) (steps : List (PredictStep n U))
    (big : PredictStep n U) (h : ∀ st ∈ steps, TrueJacobian st) (hb : TrueJacobian big)
    (hz : ∀ st ∈ steps, ∀ x Q, st.1.covGet st.2 x = .ok Q → Q = 0)
    (hbz : ∀ x Q, big.1.covGet big.2 x = .ok Q → Q = 0)
    (hsame : ∀ x, big.1.predictionGet big.2 x = endOf steps x) (f : KF ℝ n) (hs : f.sigmaᵀ = f.sigma) :
    runAll be kind (steps.map fun st => ⟨n, some st, none⟩) f =
      runAll be kind [⟨n, some big, none⟩] f := by
  obtain ⟨f1, r1, m1, -, t1, J1, Js1, Q1, j1, k1, c1⟩ := propagate be kind steps h f hs
  obtain ⟨f2, r2, m2, -, t2, J2, Js2, Q2, j2, k2, c2⟩ := propagate be kind [big]
    (fun st hst => by rw [List.mem_singleton.1 hst]; exact hb) f hs
  have hend : ∀ x, endOf [big] x = endOf steps x := by
    intro x
    rw [← hsame]
    show (big.1.predictionGet big.2 x >>= fun y => Outcome.ok y) = _
    cases big.1.predictionGet big.2 x <;> rfl
  have hfun : (endOf [big] : (Fin n → ℝ) → Outcome (Fin n → ℝ)) = endOf steps := funext hend
  rw [hfun] at j2 m2
  have hmu : f1.mu = f2.mu := Outcome.ok.inj (m1.symm.trans m2)
  have hq1 : ∀ j, Q1 j = 0 := by
    intro j
    obtain ⟨b, a, -, -, hQ, -⟩ := k1 j
    exact hz _ (List.get_mem _ _) _ _ hQ
  have hq2 : ∀ j, Q2 j = 0 := by
    intro j
    obtain ⟨b, a, -, -, hQ, -⟩ := k2 j
    have hj : [big].get j = big := by
      have := List.get_mem [big] j
      exact List.mem_singleton.1 this
    rw [hj] at hQ
    exact hbz _ _ hQ
  have hsig : f1.sigma = f2.sigma := by
    rw [c1, c2, jacobian_unique j1 j2]
    simp [hq1, hq2]
  have ht : f1.timestep = f2.timestep := t1.trans t2.symm
  show runAll be kind (predictCalls steps) f = runAll be kind (predictCalls [big]) f
  rw [r1, r2]
  obtain ⟨a, b, c⟩ := f1
  obtain ⟨a', b', c'⟩ := f2
  simp only at hmu hsig ht
  rw [hmu, hsig, ht]

/-! ## The mobile robot of the examples -/

/-- The hand-written model of the mobile robot is correct for every velocity. -/
theorem mobile_true (r : Mobile) (hq : r.sigmaᵀ = r.sigma) (u : Fin 2 → ℝ) :
    TrueJacobian ((r.model, some u) : PredictStep 3 (Fin 2 → ℝ)) := by
  intro x
  obtain ⟨J, h1, h2⟩ := C68_mobile r u x
  rw [Mobile.dfGet, if_pos rfl] at h1
  cases h1
  exact ⟨_, _, _, rfl, rfl, h2, rfl, hq⟩

/-- C83: dead reckoning. After any sequence of velocities the predicted heading is the initial heading
plus all rotations, and the predicted position is the sum of the steps in the directions headed. -/
theorem C83_dead_reckoning (be : Backend) (kind : KF.Kind ℝ 3) (r : Mobile) (hq : r.sigmaᵀ = r.sigma)
    (hm : r.mu = 0) (us : List (Fin 2 → ℝ)) (f : KF ℝ 3) (hs : f.sigmaᵀ = f.sigma) :
    ∃ f', runAll be kind (us.map fun u => ⟨3, some (r.model, some u), none⟩) f = .ok f' ∧
      f'.mu 2 = f.mu 2 + (us.map (· 1)).sum ∧
      f'.mu 0 = f.mu 0 + ∑ i : Fin us.length, us.get i 0 * Real.cos (f.mu 2 + ((us.take i).map (· 1)).sum) ∧
      f'.mu 1 = f.mu 1 + ∑ i : Fin us.length, us.get i 0 * Real.sin (f.mu 2 + ((us.take i).map (· 1)).sum) ∧
      Propagated (us.map fun u => (r.model, some u)) f.mu f.sigma f'.sigma := by
  obtain ⟨f', h1, h2, h3⟩ := C83_propagation be kind
    (us.map fun u => ((r.model, some u) : PredictStep 3 (Fin 2 → ℝ)))
    (fun st hst => by
      obtain ⟨u, -, rfl⟩ := List.mem_map.1 hst
      exact mobile_true r hq u) f hs
  rw [List.map_map] at h1
  have key : ∀ (us : List (Fin 2 → ℝ)) (x y : Fin 3 → ℝ),
      endOf (us.map fun u => ((r.model, some u) : PredictStep 3 (Fin 2 → ℝ))) x = .ok y →
      y 2 = x 2 + (us.map (· 1)).sum ∧
      y 0 = x 0 + ∑ i : Fin us.length, us.get i 0 * Real.cos (x 2 + ((us.take i).map (· 1)).sum) ∧
      y 1 = x 1 + ∑ i : Fin us.length, us.get i 0 * Real.sin (x 2 + ((us.take i).map (· 1)).sum) := by
    intro us
    induction us with
    | nil =>
      intro x y h
      cases h
      simp
    | cons u us ih =>
      intro x y h
      have h' : endOf (us.map fun u => ((r.model, some u) : PredictStep 3 (Fin 2 → ℝ)))
          (r.expectedValue u x) = .ok y := h
      obtain ⟨a1, a2, a3⟩ := ih _ _ h'
      have e0 : r.expectedValue u x 0 = x 0 + u 0 * Real.cos (x 2) := by
        simp [Mobile.expectedValue, hm, Function.update, mul_comm]
      have e1 : r.expectedValue u x 1 = x 1 + u 0 * Real.sin (x 2) := by
        simp [Mobile.expectedValue, hm, Function.update, mul_comm]
      have e2 : r.expectedValue u x 2 = x 2 + u 1 := by
        simp [Mobile.expectedValue, hm, Function.update]
      rw [e2] at a1 a2 a3
      rw [e0] at a2
      rw [e1] at a3
      refine ⟨?_, ?_, ?_⟩
      · rw [a1, List.map_cons, List.sum_cons, add_assoc]
      · rw [a2]
        show _ = x 0 + ∑ i : Fin (us.length + 1), _
        rw [Fin.sum_univ_succ]
        show _ = _ + (u 0 * _ + _)
        simp [add_assoc]
      · rw [a3]
        show _ = x 1 + ∑ i : Fin (us.length + 1), _
        rw [Fin.sum_univ_succ]
        show _ = _ + (u 0 * _ + _)
        simp [add_assoc]
  obtain ⟨k1, k2, k3⟩ := key us f.mu f'.mu h2
  exact ⟨f', h1, k1, k2, k3, h3⟩

/-- Turning the world by `phi` around the origin and then moving it by `(a, b)`, seen in the state of the
robot. -/
noncomputable def moveFrame (phi a b : ℝ) (x : Fin 3 → ℝ) : Fin 3 → ℝ :=
  ![Real.cos phi * x 0 - Real.sin phi * x 1 + a, Real.sin phi * x 0 + Real.cos phi * x 1 + b, x 2 + phi]

/-- The rotation of `moveFrame` for differences of states. -/
noncomputable def turnFrame (phi : ℝ) : Matrix (Fin 3) (Fin 3) ℝ :=
  !![Real.cos phi, -Real.sin phi, 0; Real.sin phi, Real.cos phi, 0; 0, 0, 1]

theorem mobile_frame (be : Backend) (r : Mobile) (hm : r.mu = 0) (hq : r.sigmaᵀ = r.sigma) (phi a b : ℝ)
    (u : Fin 2 → ℝ) (f : KF ℝ 3) (hs : f.sigmaᵀ = f.sigma) :
    ∃ f', f.sysUpdate be r.model (some u) = .ok f' ∧ f'.sigmaᵀ = f'.sigma ∧ f'.timestep = f.timestep ∧
      KF.sysUpdate be (Mobile.model ⟨0, turnFrame phi * r.sigma * (turnFrame phi)ᵀ⟩) (some u)
        ⟨moveFrame phi a b f.mu, turnFrame phi * f.sigma * (turnFrame phi)ᵀ, f.timestep⟩ =
      .ok ⟨moveFrame phi a b f'.mu, turnFrame phi * f'.sigma * (turnFrame phi)ᵀ, f'.timestep⟩ := by
  have sym : ∀ A : Matrix (Fin 3) (Fin 3) ℝ, Aᵀ = A →
      (turnFrame phi * A * (turnFrame phi)ᵀ)ᵀ = turnFrame phi * A * (turnFrame phi)ᵀ := by
    intro A hA
    rw [transpose_mul, transpose_mul, transpose_transpose, hA, Matrix.mul_assoc]
  set F : Matrix (Fin 3) (Fin 3) ℝ := !![1, 0, -u 0 * Real.sin (f.mu 2); 0, 1, u 0 * Real.cos (f.mu 2); 0, 0, 1]
    with hF
  set F' : Matrix (Fin 3) (Fin 3) ℝ := !![1, 0, -u 0 * Real.sin (moveFrame phi a b f.mu 2);
    0, 1, u 0 * Real.cos (moveFrame phi a b f.mu 2); 0, 0, 1] with hF'
  have hFR : F' * turnFrame phi = turnFrame phi * F := by
    have h2 : moveFrame phi a b f.mu 2 = f.mu 2 + phi := rfl
    rw [hF, hF', turnFrame, h2, Real.sin_add, Real.cos_add]
    ext i j
    fin_cases i <;> fin_cases j <;> simp [Matrix.mul_apply, Fin.sum_univ_three] <;> ring
  have hmean : Mobile.expectedValue ⟨0, turnFrame phi * r.sigma * (turnFrame phi)ᵀ⟩ u (moveFrame phi a b f.mu) =
      moveFrame phi a b (r.expectedValue u f.mu) := by
    funext i
    have h2 : moveFrame phi a b f.mu 2 = f.mu 2 + phi := rfl
    fin_cases i
    · simp [Mobile.expectedValue, moveFrame, hm, Function.update, Real.cos_add]
      ring
    · simp [Mobile.expectedValue, moveFrame, hm, Function.update, Real.sin_add]
      ring
    · simp [Mobile.expectedValue, moveFrame, hm, Function.update]
      ring
  have e1 := sysUpdate_smooth be (st := ((r.model, some u) : PredictStep 3 (Fin 2 → ℝ))) (f := f) (F := F) rfl rfl rfl
    hs hq
  refine ⟨_, e1, ?_, rfl, ?_⟩
  · show (F * f.sigma * Fᵀ + r.sigma)ᵀ = F * f.sigma * Fᵀ + r.sigma
    rw [transpose_add, transpose_mul, transpose_mul, transpose_transpose, hs, hq, Matrix.mul_assoc]
  · have e2 := sysUpdate_smooth be
      (st := ((Mobile.model ⟨0, turnFrame phi * r.sigma * (turnFrame phi)ᵀ⟩, some u) : PredictStep 3 (Fin 2 → ℝ)))
      (f := ⟨moveFrame phi a b f.mu, turnFrame phi * f.sigma * (turnFrame phi)ᵀ, f.timestep⟩) (F := F') rfl rfl rfl
      (sym _ hs) (sym _ hq)
    rw [e2]
    show Outcome.ok (KF.mk (Mobile.expectedValue ⟨0, _⟩ u (moveFrame phi a b f.mu)) _ _) = _
    rw [hmean]
    show Outcome.ok (KF.mk _ (F' * (turnFrame phi * f.sigma * (turnFrame phi)ᵀ) * F'ᵀ +
      turnFrame phi * r.sigma * (turnFrame phi)ᵀ) _) = _
    have : F' * (turnFrame phi * f.sigma * (turnFrame phi)ᵀ) * F'ᵀ =
        turnFrame phi * (F * f.sigma * Fᵀ) * (turnFrame phi)ᵀ := by
      have : F' * (turnFrame phi * f.sigma * (turnFrame phi)ᵀ) * F'ᵀ =
          (F' * turnFrame phi) * f.sigma * (F' * turnFrame phi)ᵀ := by
        simp only [transpose_mul, Matrix.mul_assoc]
      rw [this, hFR]
      simp only [transpose_mul, Matrix.mul_assoc]
    rw [this, ← Matrix.add_mul, ← Matrix.mul_add]

/-- C83: the predictions for the mobile robot do not depend on the frame. If the prior and the noise are
given in a turned and moved frame, the posterior after any sequence of velocities is the turned and moved
posterior. -/
theorem C83_frame (be : Backend) (kind : KF.Kind ℝ 3) (r : Mobile) (hm : r.mu = 0) (hq : r.sigmaᵀ = r.sigma)
    (phi a b : ℝ) (us : List (Fin 2 → ℝ)) (f : KF ℝ 3) (hs : f.sigmaᵀ = f.sigma) :
    ∃ f', runAll be kind (us.map fun u => ⟨3, some (r.model, some u), none⟩) f = .ok f' ∧
      runAll be kind
        (us.map fun u => ⟨3, some (Mobile.model ⟨0, turnFrame phi * r.sigma * (turnFrame phi)ᵀ⟩, some u), none⟩)
        ⟨moveFrame phi a b f.mu, turnFrame phi * f.sigma * (turnFrame phi)ᵀ, f.timestep⟩ =
      .ok ⟨moveFrame phi a b f'.mu, turnFrame phi * f'.sigma * (turnFrame phi)ᵀ, f'.timestep⟩ := by
  induction us generalizing f with
  | nil => exact ⟨f, rfl, rfl⟩
  | cons u us ih =>
    obtain ⟨f1, e1, s1, -, e2⟩ := mobile_frame be r hm hq phi a b u f hs
    obtain ⟨f', r1, r2⟩ := ih f1 s1
    refine ⟨f', ?_, ?_⟩
    · simp only [List.map_cons, runAll, KF.update, KF.sysPart, KF.measPart, e1, Outcome.ok_bind, Outcome.pure_eq]
      exact r1
    · simp only [List.map_cons, runAll, KF.update, KF.sysPart, KF.measPart, e2, Outcome.ok_bind, Outcome.pure_eq]
      exact r2

/-! ## A concrete robot -/

/-- The robot drives 2 ahead, turning left by a right angle, and 3 ahead: it is at (2, 3). -/
example (be : Backend) : ∃ f', runAll be .extended
      ([![2, Real.pi / 2], ![3, 0]].map fun u => ⟨3, some (Mobile.model ⟨0, 1⟩, some u), none⟩)
      (KF.make (0 : Fin 3 → ℝ) 1) = .ok f' ∧ f'.mu 0 = 2 ∧ f'.mu 1 = 3 := by
  obtain ⟨f', h1, -, h3, h4, -⟩ := C83_dead_reckoning be .extended ⟨0, 1⟩ (by simp) rfl [![2, Real.pi / 2], ![3, 0]]
    (KF.make (0 : Fin 3 → ℝ) 1) (by simp [KF.make])
  refine ⟨f', h1, ?_, ?_⟩
  · rw [h3]
    show (0 : Fin 3 → ℝ) 0 + ∑ i : Fin 2, _ = _
    rw [Fin.sum_univ_two]
    simp [KF.make]
  · rw [h4]
    show (0 : Fin 3 → ℝ) 1 + ∑ i : Fin 2, _ = _
    rw [Fin.sum_univ_two]
    simp [KF.make]

/-- Two turns on the spot without noise are one. -/
example (be : Backend) : runAll be .extended
      ([((Mobile.model ⟨0, 0⟩, some ![0, 1]) : PredictStep 3 (Fin 2 → ℝ)), (Mobile.model ⟨0, 0⟩, some ![0, 2])].map
        fun st => ⟨3, some st, none⟩) (KF.make ![4, 5, 6] 1) =
    runAll be .extended [⟨3, some (Mobile.model ⟨0, 0⟩, some ![0, 3]), none⟩] (KF.make ![4, 5, 6] 1) := by
  refine C83_one_step be .extended _ (Mobile.model ⟨0, 0⟩, some ![0, 3]) ?_ (mobile_true _ (by simp) _) ?_ ?_ ?_ _
    (by simp [KF.make])
  · intro st hst
    simp only [List.mem_cons, List.not_mem_nil, or_false] at hst
    rcases hst with rfl | rfl <;> exact mobile_true _ (by simp) _
  · intro st hst x Q hQ
    simp only [List.mem_cons, List.not_mem_nil, or_false] at hst
    rcases hst with rfl | rfl <;> (cases hQ; rfl)
  · intro x Q hQ
    cases hQ
    rfl
  · intro x
    show Outcome.ok _ = Outcome.ok _
    congr 1
    funext i
    fin_cases i <;> simp [Mobile.expectedValue, Function.update]
    ring

end BFL.Props
