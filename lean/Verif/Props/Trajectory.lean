import Verif.Props.Smoothing
import Mathlib.Order.Bounds.Basic

set_option linter.unusedSectionVars false

/-!
# Properties of filtering forward and smoothing backward: C55
-/

namespace BFL.Props

open Matrix Spec

variable {K : Type} [Field K] [LinearOrder K] {n : Nat} {U : Type}

/-- A measurement in a smoothing session: the linear observation with the model, sensor parameter and
the facts that make it linear. -/
structure SmoothMeas (K : Type) [Field K] [LinearOrder K] (n : Nat) (U : Type) where
  obs : Observation K n
  meas : AnalyticModel K n obs.m U
  s : Option U
  linear : meas.IsLinear s obs.H obs.d obs.R
  noise : PD obs.R

/-- One time step of a smoothing session: a linear system model with its input, and possibly a
measurement. -/
structure SmoothStep (K : Type) [Field K] [LinearOrder K] (n : Nat) (U : Type) where
  F : Matrix (Fin n) (Fin n) K
  c : Fin n → K
  Q : Matrix (Fin n) (Fin n) K
  sys : AnalyticModel K n n U
  u : Option U
  linear : sys.IsLinear u F c Q
  noise : PD Q
  meas : Option (SmoothMeas K n U)

/-- The linear stage described by a step. -/
def SmoothStep.stage (st : SmoothStep K n U) : Stage K n := ⟨st.F, st.c, st.Q, st.meas.map (·.obs)⟩

/-- The call of `Update` for this step: with or without measurement. -/
def SmoothStep.filter (be : Backend) (kind : KF.Kind K n) (st : SmoothStep K n U) (f : KF K n) :
    Outcome (Bool × KF K n) :=
  match st.meas with
  | none => f.update (m := 0) be kind (some (st.sys, st.u)) none
  | some o => f.update be kind (some (st.sys, st.u)) (some (o.meas, o.obs.z, o.s))

/-- The client program of the smoother, in the manner of examples/smoother: run the filter over all steps,
remembering every filtered estimate, construct a `RauchTungStriebel` from the last one, and update it
backwards in time, each time with the filtered estimate of that step. The result lists filtered and
smoothed estimates, first time step first. (The loop in
examples/smoother/test_kalman_smoother.cpp:193-291 stores each estimate after the update, so its first
backward update combines the last filtered estimate with itself; that is C114.) -/
def smoothRun (be : Backend) (kind : KF.Kind K n) :
    List (SmoothStep K n U) → KF K n → Outcome ((KF K n × RTS K n) × List (KF K n × RTS K n))
  | [], f => .ok ((f, RTS.make f.mu f.sigma), [])
  | st :: rest, f => do
    let r ← st.filter be kind f
    let l ← smoothRun be kind rest r.2
    let g ← l.1.2.update be st.sys st.u f.mu f.sigma
    return ((f, g.2), l.1 :: l.2)

variable [IsStrictOrderedRing K]

theorem rts_linear {be : Backend} (st : SmoothStep K n U) {xf : Fin n → K}
    {Pf : Matrix (Fin n) (Fin n) K} {g : RTS K n} (hP : PSD Pf) (hS : PSD g.sigma) :
    g.update be st.sys st.u xf Pf = .ok (true,
      ⟨smoothedMean xf Pf st.F st.Q (st.F *ᵥ xf + st.c) g.mu,
        smoothedCov Pf st.F st.Q g.sigma, g.timestep⟩) := by
  simp only [RTS.update]
  rw [C39_formula_partial be st.sys st.u xf st.c Pf st.F st.Q g st.linear hP
    st.noise.psd hS (innovCov_pd hP st.noise).det_ne]
  rfl

/-- The cost of a trajectory, split off its first state. -/
theorem trajectory_step (be : Backend) {kind : KF.Kind K n} (hk : kind.Runs) (st : SmoothStep K n U)
    {f : KF K n} (hP : PD f.sigma) :
    ∃ r, st.filter be kind f = .ok r ∧ PD r.2.sigma ∧ PSD (innovCov f.sigma st.F st.Q - r.2.sigma) ∧
    ∃ κ, ∀ (rest : List (Stage K n)) x y ys,
      trajectoryCost f.mu f.sigma (st.stage :: rest) (x :: y :: ys) =
        quad (kcov f.sigma st.F st.Q)⁻¹
          (x - (kgain f.sigma st.F st.Q *ᵥ (y - (st.F *ᵥ f.mu + st.c)) + f.mu))
        + trajectoryCost r.2.mu r.2.sigma rest (y :: ys) + κ := by
  obtain ⟨F, c, Q, sys, u, hl, hQ, meas⟩ := st
  have hpd := innovCov_pd (H := F) hP.psd hQ
  have hs : f.sysUpdate be sys u = .ok ⟨F *ᵥ f.mu + c, innovCov f.sigma F Q, f.timestep⟩ := by
    rw [sysUpdate_eq (hl f.mu), be.toSym_of_symm hpd.1]
  cases meas with
  | none =>
    refine ⟨(true, ⟨F *ᵥ f.mu + c, innovCov f.sigma F Q, f.timestep⟩), ?_, hpd, ?_, 0, ?_⟩
    · simp only [SmoothStep.filter, KF.update, KF.sysPart, KF.measPart]
      rw [hs]
      rfl
    · simp only [sub_self]
      exact ⟨by simp, fun x => by simp⟩
    · intro rest x y ys
      have e := cost_split hP.1 hQ.1 hpd.det_ne hQ.det_ne hP.det_ne f.mu x y (F *ᵥ f.mu + c)
      simp only [cost] at e
      rw [show F *ᵥ f.mu + c + F *ᵥ (x - f.mu) = F *ᵥ x + c by rw [mulVec_sub]; abel] at e
      simp only [trajectoryCost, transitionCost, SmoothStep.stage, Option.map_none, observationCost]
      linarith
  | some o =>
    obtain ⟨⟨m, H, d, R, z⟩, meas, s, hm, hR⟩ := o
    refine ⟨(true, ⟨kgain (innovCov f.sigma F Q) H R *ᵥ (z - (H *ᵥ (F *ᵥ f.mu + c) + d))
        + (F *ᵥ f.mu + c), kcov (innovCov f.sigma F Q) H R, f.timestep⟩), ?_, kcov_pd hpd hR,
      sub_kcov_psd hpd.psd hR, quad (innovCov (innovCov f.sigma F Q) H R)⁻¹
      (z - (H *ᵥ (F *ᵥ f.mu + c) + d)), ?_⟩
    · simp only [SmoothStep.filter, KF.update, KF.sysPart, KF.measPart]
      rw [hs]
      simp only [Outcome.ok_bind]
      rw [linear_ok hk hm hpd.psd hR]
      rfl
    · intro rest x y ys
      have e := stage_split hP hQ hR f.mu c x y z d (F := F) (H := H)
      simp only [trajectoryCost, transitionCost, SmoothStep.stage, Option.map_some, observationCost]
      linarith

/-- **C55, one run.** Filtering forward and smoothing backward over any number of linear steps with
positive definite covariances ends well, and there is a constant `c` such that for every time `k`
the least cost of a trajectory through `x` at time `k` is `c + (x - m)ᵀ S⁻¹ (x - m)`, where `m` and `S`
are the smoothed mean and covariance of that time: the posterior marginal given all measurements.
No smoothed covariance exceeds the filtered one of the same time. -/
theorem C55_marginals (be : Backend) (kind : KF.Kind K n) (hk : kind.Runs)
    (steps : List (SmoothStep K n U)) (f : KF K n) (hP : PD f.sigma) :
    ∃ l c, smoothRun be kind steps f = .ok l ∧ l.2.length = steps.length ∧ l.1.1 = f ∧
      ∀ k e, (l.1 :: l.2)[k]? = some e → PD e.2.sigma ∧ PSD (e.1.sigma - e.2.sigma) ∧
        ∀ x, IsLeast (costsThrough f.mu f.sigma (steps.map (·.stage)) k x)
          (c + quad e.2.sigma⁻¹ (x - e.2.mu)) := by
  induction steps generalizing f with
  | nil =>
    refine ⟨_, 0, rfl, rfl, rfl, ?_⟩
    intro k e he
    cases k with
    | succ k => simp at he
    | zero =>
      simp only [List.getElem?_cons_zero, Option.some.injEq] at he
      subst he
      refine ⟨hP, by simp only [RTS.make, sub_self]; exact ⟨by simp, fun x => by simp⟩, fun x => ⟨?_, ?_⟩⟩
      · exact ⟨[x], rfl, rfl, by simp [trajectoryCost, transitionCost, RTS.make]⟩
      · rintro v ⟨t, ht, hx, rfl⟩
        match t, ht with
        | [y], _ =>
          simp only [List.getElem?_cons_zero, Option.some.injEq] at hx
          subst hx
          simp [trajectoryCost, transitionCost, RTS.make]
  | cons st rest ih =>
    obtain ⟨r, hr, hr1, hr2, κ, hκ⟩ := trajectory_step be hk st hP
    obtain ⟨l, c, hl, hlen, hl1, hall⟩ := ih r.2 hr1
    obtain ⟨hSpd, hSle, hmin⟩ := hall 0 l.1 rfl
    have hg := rts_linear (be := be) (xf := f.mu) st hP.psd hSpd.psd
    have hpd := innovCov_pd (H := st.F) hP.psd st.noise
    have hW := kcov_pd (H := st.F) hP st.noise
    set W := kcov f.sigma st.F st.Q with hWdef
    set G := kgain f.sigma st.F st.Q with hGdef
    have hcov : smoothedCov f.sigma st.F st.Q l.1.2.sigma =
        innovCov l.1.2.sigma G W := by
      rw [smoothedCov_split hP.1 st.noise.1 hpd.det_ne, add_comm]
      rfl
    have hrun : smoothRun be kind (st :: rest) f = .ok ((f, ⟨smoothedMean f.mu f.sigma st.F
        st.Q (st.F *ᵥ f.mu + st.c) l.1.2.mu,
        smoothedCov f.sigma st.F st.Q l.1.2.sigma, l.1.2.timestep⟩), l.1 :: l.2) := by
      simp only [smoothRun]
      rw [hr]
      simp only [Outcome.ok_bind]
      rw [hl]
      simp only [Outcome.ok_bind]
      rw [hg]
      rfl
    refine ⟨_, c + κ, hrun, by simp [hlen], rfl, ?_⟩
    intro k e he
    cases k with
    | zero =>
      simp only [List.getElem?_cons_zero, Option.some.injEq] at he
      subst he
      simp only
      have hIpd : PD (innovCov l.1.2.sigma G W) := innovCov_pd (H := G) hSpd.psd hW
      refine ⟨by rw [hcov]; exact hIpd, ?_, fun x => ?_⟩
      · rw [smoothedCov_eq, sub_sub_cancel]
        have hle : PSD (innovCov f.sigma st.F st.Q - l.1.2.sigma) := by
          have := hr2.add (hl1 ▸ hSle)
          rwa [sub_add_sub_cancel] at this
        exact hle.congr _
      · rw [hcov]
        have hprof : ∀ y, quad W⁻¹ (x - (G *ᵥ (y - (st.F *ᵥ f.mu + st.c)) + f.mu))
            + quad l.1.2.sigma⁻¹ (y - l.1.2.mu) =
            quad (kcov l.1.2.sigma G W)⁻¹ (y - (kgain l.1.2.sigma G W *ᵥ (x - smoothedMean f.mu f.sigma
              st.F st.Q (st.F *ᵥ f.mu + st.c) l.1.2.mu) + l.1.2.mu))
            + quad (innovCov l.1.2.sigma G W)⁻¹ (x - smoothedMean f.mu f.sigma
              st.F st.Q (st.F *ᵥ f.mu + st.c) l.1.2.mu) :=
          fun y => profile_split hW hSpd f.mu x y l.1.2.mu _
        constructor
        · set y := kgain l.1.2.sigma G W *ᵥ (x - smoothedMean f.mu f.sigma
              st.F st.Q (st.F *ᵥ f.mu + st.c) l.1.2.mu) + l.1.2.mu with hy
          obtain ⟨t, ht, hty, htv⟩ := (hmin y).1
          match t, ht with
          | y' :: ys, ht =>
            simp only [List.getElem?_cons_zero, Option.some.injEq] at hty
            subst hty
            refine ⟨x :: y :: ys, by simpa using ht, rfl, ?_⟩
            have h2 := hprof y
            rw [List.map_cons, hκ, ← htv]
            rw [sub_self, quad_zero] at h2
            linarith
        · rintro v ⟨t, ht, hx, rfl⟩
          match t, ht with
          | x' :: y :: ys, ht =>
            simp only [List.getElem?_cons_zero, Option.some.injEq] at hx
            subst hx
            have h1 := (hmin y).2 ⟨y :: ys, by simpa using ht, rfl, rfl⟩
            have h2 := hprof y
            have h3 := (kcov_pd (H := G) hSpd hW).inv.quad_nonneg (y - (kgain l.1.2.sigma G W *ᵥ
              (x' - smoothedMean f.mu f.sigma st.F st.Q
                (st.F *ᵥ f.mu + st.c) l.1.2.mu) + l.1.2.mu))
            rw [List.map_cons, hκ]
            linarith
    | succ k =>
      simp only [List.getElem?_cons_succ] at he
      obtain ⟨h1, h2, h3⟩ := hall k e he
      refine ⟨h1, h2, fun x => ⟨?_, ?_⟩⟩
      · obtain ⟨t, ht, hty, htv⟩ := (h3 x).1
        match t, ht with
        | y :: ys, ht =>
          refine ⟨(G *ᵥ (y - (st.F *ᵥ f.mu + st.c)) + f.mu) :: y :: ys,
            by simpa using ht, by simpa using hty, ?_⟩
          rw [List.map_cons, hκ, ← htv, sub_self, quad_zero]
          ring
      · rintro v ⟨t, ht, hx, rfl⟩
        match t, ht with
        | x' :: y :: ys, ht =>
          have h4 := (h3 x).2 ⟨y :: ys, by simpa using ht, by simpa using hx, rfl⟩
          have h5 := hW.inv.quad_nonneg
            (x' - (G *ᵥ (y - (st.F *ᵥ f.mu + st.c)) + f.mu))
          rw [List.map_cons, hκ]
          linarith

/-- **C55, the trajectory.** The smoothed means are the one trajectory of least cost, that is the most
probable trajectory given all measurements. -/
theorem C55_trajectory (be : Backend) (kind : KF.Kind K n) (hk : kind.Runs)
    (steps : List (SmoothStep K n U)) (f : KF K n) (hP : PD f.sigma) :
    ∃ l, smoothRun be kind steps f = .ok l ∧
      ∀ t : List (Fin n → K), t.length = steps.length + 1 →
        t ≠ (l.1 :: l.2).map (fun e => e.2.mu) →
        trajectoryCost f.mu f.sigma (steps.map (·.stage)) ((l.1 :: l.2).map (fun e => e.2.mu)) <
          trajectoryCost f.mu f.sigma (steps.map (·.stage)) t := by
  obtain ⟨l, c, hl, hlen, _, hall⟩ := C55_marginals be kind hk steps f hP
  have hge : ∀ t : List (Fin n → K), t.length = steps.length + 1 →
      c ≤ trajectoryCost f.mu f.sigma (steps.map (·.stage)) t ∧
      (trajectoryCost f.mu f.sigma (steps.map (·.stage)) t ≤ c →
        t = (l.1 :: l.2).map (fun e => e.2.mu)) := by
    intro t ht
    have key : ∀ k (e : KF K n × RTS K n) x, (l.1 :: l.2)[k]? = some e → t[k]? = some x →
        c + quad e.2.sigma⁻¹ (x - e.2.mu) ≤ trajectoryCost f.mu f.sigma (steps.map (·.stage)) t ∧
        0 ≤ quad e.2.sigma⁻¹ (x - e.2.mu) := fun k e x he hx =>
      ⟨((hall k e he).2.2 x).2 ⟨t, by simpa using ht, hx, rfl⟩,
        (hall k e he).1.inv.quad_nonneg _⟩
    constructor
    · match t, ht with
      | x :: ys, _ =>
        obtain ⟨h1, h2⟩ := key 0 l.1 x rfl rfl
        linarith
    · intro hle
      refine List.ext_getElem (by simp [ht, hlen]) fun k h1 h2 => ?_
      have h2' : k < (l.1 :: l.2).length := by simpa using h2
      obtain ⟨h3, h4⟩ := key k _ _ (List.getElem?_eq_getElem h2') (List.getElem?_eq_getElem h1)
      have h5 := (hall k _ (List.getElem?_eq_getElem h2')).1.inv.quad_eq_zero
        (le_antisymm (by linarith) h4)
      rw [List.getElem_map]
      exact sub_eq_zero.mp h5
  have hmin : trajectoryCost f.mu f.sigma (steps.map (·.stage))
      ((l.1 :: l.2).map (fun e => e.2.mu)) = c := by
    obtain ⟨t, ht, -, hv⟩ := ((hall 0 l.1 rfl).2.2 l.1.2.mu).1
    rw [sub_self, quad_zero, add_zero] at hv
    rw [← (hge t (by simpa using ht)).2 hv.symm.le, ← hv]
  refine ⟨l, hl, fun t ht hne => ?_⟩
  rw [hmin]
  obtain ⟨h1, h2⟩ := hge t ht
  exact lt_of_le_of_ne h1 fun h => hne (h2 h.symm.le)

/-- Constant velocity motion with noise on both coordinates, the first one being measured or not. -/
def KFixture.smoothStep (z : Option ℚ) : SmoothStep ℚ 2 Unit where
  F := KFixture.F
  c := ![1, 0]
  Q := KFixture.P
  sys := .noInput (fun x => KFixture.F *ᵥ x + ![1, 0]) (fun _ => KFixture.F) (fun _ => KFixture.P)
  u := none
  linear := fun _ => ⟨rfl, rfl, rfl⟩
  noise := KFixture.P_pd
  meas := z.map fun z => ⟨⟨1, KFixture.H, 0, KFixture.R, ![z]⟩, KFixture.meas, none,
    KFixture.meas_linear, KFixture.R_pd⟩

def KFixture.session : List (SmoothStep ℚ 2 Unit) :=
  [KFixture.smoothStep (some 3), KFixture.smoothStep none, KFixture.smoothStep (some 4)]

example : ∃ l, smoothRun .boost .extended KFixture.session KFixture.start = .ok l ∧
    ∀ t : List (Fin 2 → ℚ), t.length = 4 → t ≠ (l.1 :: l.2).map (fun e => e.2.mu) →
      trajectoryCost ![1, 2] KFixture.P (KFixture.session.map (·.stage))
        ((l.1 :: l.2).map (fun e => e.2.mu)) <
      trajectoryCost ![1, 2] KFixture.P (KFixture.session.map (·.stage)) t :=
  C55_trajectory .boost .extended trivial KFixture.session KFixture.start KFixture.P_pd

end BFL.Props
