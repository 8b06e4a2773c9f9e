import Verif.Spec.WrongReadings
import Verif.Props.PriorMean
import Verif.Props.Superposition

/-!
# C126: wrong readings move the Kalman filters' estimates by no more standard deviations than they are wrong
-/

set_option linter.unusedSectionVars false

namespace BFL.Props

open Matrix Spec

variable {K : Type} [Field K] [LinearOrder K] [IsStrictOrderedRing K] {n : Nat} {U : Type}

theorem sq_add_le {a b x y e e' : K} (he : 0 ≤ e) (he' : 0 ≤ e') (hx : 0 ≤ x) (hy : 0 ≤ y) (ha : a ^ 2 ≤ e * x)
    (hb : b ^ 2 ≤ e' * y) : (a + b) ^ 2 ≤ (e + e') * (x + y) := by
  have h1 : (2 * (a * b)) ^ 2 ≤ (e * y + e' * x) ^ 2 := by
    have h2 : a ^ 2 * b ^ 2 ≤ (e * x) * (e' * y) := mul_le_mul ha hb (sq_nonneg _) (mul_nonneg he hx)
    nlinarith [sq_nonneg (e * y - e' * x)]
  have h3 := abs_le_of_sq_le_sq h1 (add_nonneg (mul_nonneg he hy) (mul_nonneg he' hx))
  have h4 := (abs_le.1 h3).2
  nlinarith

/-- Two independent errors add up like their covariances. -/
theorem WithinSigmas_add {m : Nat} {e e' : K} (he : 0 ≤ e) (he' : 0 ≤ e') {P Q : Matrix (Fin m) (Fin m) K} (hP : PSD P)
    (hQ : PSD Q) {d d' : Fin m → K} (h : WithinSigmas e P d) (h' : WithinSigmas e' Q d') :
    WithinSigmas (e + e') (P + Q) (d + d') := by
  intro w
  rw [quad_add_left, dotProduct_add]
  exact sq_add_le he he' (hP.2 w) (hQ.2 w) (h w) (h' w)

theorem WithinSigmas_map {m : Nat} {e : K} {P : Matrix (Fin n) (Fin n) K} {d : Fin n → K} (h : WithinSigmas e P d)
    (A : Matrix (Fin m) (Fin n) K) : WithinSigmas e (A * P * Aᵀ) (A *ᵥ d) := by
  intro w
  have : w ⬝ᵥ (A *ᵥ d) = (Aᵀ *ᵥ w) ⬝ᵥ d := by rw [quad_transpose]
  rw [quad_congr, this]
  exact h _

/-- The two filters agree on the covariance `P`, and their means differ by at most `√e` standard deviations. -/
def Near (e : K) (f : Bool → KF K n) : Prop :=
  ∃ P, PSD P ∧ (∀ i, (f i).sigma = P) ∧ WithinSigmas e P ((f true).mu - (f false).mu)

theorem sysPart_near {be : Bool → Backend} {e p : K} (he : 0 ≤ e) (hp : 0 ≤ p)
    {sys : Option (Bool → AnalyticModel K n n U × Option U)}
    (hl : ∀ g, sys = some g → ∃ A Q, ∃ b : Bool → Fin n → K, PSD Q ∧
      (∀ i, (g i).1.IsLinear (g i).2 A (b i) Q) ∧ WithinSigmas p Q (b true - b false)) {f : Bool → KF K n}
    (h : Near e f) :
    ∃ f', (∀ i, (f i).sysPart (be i) (sys.map fun g => g i) = .ok (f' i)) ∧ Near (e + p) f' := by
  obtain ⟨P, hP, hs, hd⟩ := h
  rcases sys with _ | g
  · refine ⟨f, fun i => rfl, P, hP, hs, fun w => (hd w).trans ?_⟩
    exact mul_le_mul_of_nonneg_right (by linarith) (hP.2 w)
  · obtain ⟨A, Q, b, hQ, hlin, hb⟩ := hl g rfl
    have h1 := (hP.congr A).add hQ
    refine ⟨_, fun i => sysUpdate_eq (hlin i _), A * P * Aᵀ + Q, h1, fun i => ?_, ?_⟩
    · simp only; rw [hs i, (be i).toSym_of_symm h1.1]
    · have e1 : A *ᵥ (f true).mu + b true - (A *ᵥ (f false).mu + b false) =
          A *ᵥ ((f true).mu - (f false).mu) + (b true - b false) := by rw [mulVec_sub]; abel
      simp only
      rw [e1]
      exact WithinSigmas_add he hp (hP.congr A) hQ (WithinSigmas_map hd A) hb

theorem measPart_near {be : Bool → Backend} {kind : Bool → KF.Kind K n} (hk : ∀ i, (kind i).Runs) {e r : K} (he : 0 ≤ e)
    (hr : 0 ≤ r) {m : Nat} {meas : Option (Bool → AnalyticModel K n m U × (Fin m → K) × Option U)}
    (hl : ∀ g, meas = some g → ∃ H R, ∃ c : Bool → Fin m → K, PD R ∧
      (∀ i, (g i).1.IsLinear (g i).2.2 H (c i) R) ∧
      WithinSigmas r R (((g true).2.1 - c true) - ((g false).2.1 - c false))) {f : Bool → KF K n} (h : Near e f) :
    ∃ f', (∀ i, (f i).measPart (be i) (kind i) (meas.map fun g => g i) = .ok (f' i)) ∧ Near (e + r) f' := by
  obtain ⟨P, hP, hs, hd⟩ := h
  rcases meas with _ | g
  · refine ⟨f, fun i => rfl, P, hP, hs, fun w => (hd w).trans ?_⟩
    exact mul_le_mul_of_nonneg_right (by linarith) (hP.2 w)
  · obtain ⟨H, R, c, hR, hlin, hc⟩ := hl g rfl
    refine ⟨_, fun i => (measUpdate_linear (hk i) (hlin i)).trans (calc_valid (by rw [hs]; exact hP) hR), kcov P H R,
      kcov_psd hP hR, fun i => ?_, ?_⟩
    · simp only; rw [hs]
    · simp only [hs]
      have e1 : (kgain P H R *ᵥ ((g true).2.1 - (H *ᵥ (f true).mu + c true)) + (f true).mu) -
            (kgain P H R *ᵥ ((g false).2.1 - (H *ᵥ (f false).mu + c false)) + (f false).mu) =
          (1 - kgain P H R * H) *ᵥ ((f true).mu - (f false).mu) +
            kgain P H R *ᵥ (((g true).2.1 - c true) - ((g false).2.1 - c false)) := by
        simp only [sub_mulVec, one_mulVec, mulVec_sub, mulVec_add, ← mulVec_mulVec]
        abel
      rw [e1, kcov_joseph (innovCov_pd hP hR).det_ne]
      exact WithinSigmas_add he hr (hP.congr _) (hR.psd.congr _) (WithinSigmas_map hd _) (WithinSigmas_map hc _)

/-- C126. Two Kalman filters (extended or iterated) start with the same covariance and process histories with the same
linear models, but their prior means, inputs and readings differ: the prior means by at most `√e` standard deviations of the
prior, and in every step the inputs by at most `√p` and the readings by at most `√r` standard deviations of the system and
sensor noise. Then both report the same covariance, and their estimates differ by at most `√s` of the reported standard
deviations, where `s` is the sum of `e` and all `p` and `r`. -/
theorem C126_gain (be : Bool → Backend) (kind : Bool → KF.Kind K n) (hk : ∀ i, (kind i).Runs)
    (as : List (JointStep K n U Bool × K × K)) (hl : ∀ a ∈ as, 0 ≤ a.2.1 ∧ 0 ≤ a.2.2 ∧ a.1.Off a.2.1 a.2.2) :
    ∀ (f : Bool → KF K n) (P : Matrix (Fin n) (Fin n) K) (e : K), PSD P → (∀ i, (f i).sigma = P) → 0 ≤ e →
    WithinSigmas e P ((f true).mu - (f false).mu) →
    ∃ f' : Bool → KF K n, (∀ i, runAll (be i) (kind i) (as.map fun a => a.1.call i) (f i) = .ok (f' i)) ∧
      (f' false).sigma = (f' true).sigma ∧
      WithinSigmas (e + (as.map fun a => a.2.1 + a.2.2).sum) (f' true).sigma ((f' true).mu - (f' false).mu) := by
  induction as with
  | nil =>
    intro f P e hP hs he hd
    exact ⟨f, fun i => rfl, by rw [hs, hs], by simpa [hs] using hd⟩
  | cons a as ih =>
    intro f P e hP hs he hd
    obtain ⟨hp, hr, ha⟩ := hl a (by simp)
    obtain ⟨f1, e1, h1⟩ := sysPart_near (be := be) he hp ha.1 ⟨P, hP, hs, hd⟩
    obtain ⟨f2, e2, P2, hP2, hs2, hd2⟩ := measPart_near (be := be) hk (add_nonneg he hp) hr ha.2 h1
    obtain ⟨f3, e3, h3, h4⟩ := ih (fun a ha => hl a (by simp [ha])) f2 P2 _ hP2 hs2 (add_nonneg (add_nonneg he hp) hr) hd2
    refine ⟨f3, fun i => ?_, h3, ?_⟩
    · simp only [List.map_cons, runAll, KF.update, JointStep.call]
      rw [e1 i]; simp only [Outcome.ok_bind]; rw [e2 i]; simp only [Outcome.ok_bind, Outcome.pure_eq]
      exact e3 i
    · rw [List.map_cons, List.sum_cons]
      rwa [add_assoc e, add_assoc e] at h4

/-- The same call in both runs. -/
def both (a : KStep K n U) : JointStep K n U Bool := ⟨a.m, a.sys.map fun x _ => x, a.meas.map fun x _ => x⟩

theorem both_call (a : KStep K n U) (i : Bool) : (both a).call i = a := by
  obtain ⟨m, sys, meas⟩ := a
  cases sys <;> cases meas <;> rfl

theorem both_off {a : KStep K n U} (h : LinearCall a) : (both a).Off 0 0 := by
  have zero : ∀ {m : Nat} (P : Matrix (Fin m) (Fin m) K) (x : Fin m → K), WithinSigmas 0 P (x - x) := by
    intro m P x w
    simp
  refine ⟨fun g hg => ?_, fun g hg => ?_⟩
  · obtain ⟨⟨sy, u⟩, h1, rfl⟩ := Option.map_eq_some_iff.1 hg
    obtain ⟨A, b, Q, hlin, hQ⟩ := h.1 sy u h1
    exact ⟨A, Q, fun _ => b, hQ, fun _ => hlin, zero _ _⟩
  · obtain ⟨⟨me, z, s⟩, h1, rfl⟩ := Option.map_eq_some_iff.1 hg
    obtain ⟨H, c, R, hlin, hR⟩ := h.2 me z s h1
    exact ⟨H, R, fun _ => c, hR, fun _ => hlin, zero _ _⟩

/-- C126. One wrong reading somewhere in a history, off by at most `√e` standard deviations of the sensor noise, changes
the estimates at the end by at most `√e` of the reported standard deviations, and the covariance not at all. -/
theorem C126_outlier (be : Backend) (kind : KF.Kind K n) (hk : kind.Runs) (as bs : List (KStep K n U))
    (ha : ∀ a ∈ as, LinearCall a) (hb : ∀ a ∈ bs, LinearCall a) (r : Reading K n U) (hr : r.Right) (wrong : Fin r.m → K)
    (e : K) (he : 0 ≤ e) (hw : WithinSigmas e r.R (wrong - r.z)) (f : KF K n) (hf : PSD f.sigma) :
    ∃ f' g', runAll be kind (as ++ r.call :: bs) f = .ok f' ∧
      runAll be kind (as ++ { r with z := wrong }.call :: bs) f = .ok g' ∧ g'.sigma = f'.sigma ∧
      WithinSigmas e f'.sigma (g'.mu - f'.mu) := by
  obtain ⟨k, hk1, hk2⟩ : ∃ k : List (JointStep K n U Bool × K × K),
      (∀ a ∈ k, 0 ≤ a.2.1 ∧ 0 ≤ a.2.2 ∧ a.1.Off a.2.1 a.2.2) ∧
      (∀ i, k.map (fun a => a.1.call i) = as ++ (if i then { r with z := wrong } else r).call :: bs) ∧
      (k.map fun a => a.2.1 + a.2.2).sum = e := by
    have same : ∀ (l : List (KStep K n U)) (i : Bool),
        (l.map fun a => (both a, (0 : K), (0 : K))).map (fun a => a.1.call i) = l := by
      intro l i
      rw [List.map_map]
      conv_rhs => rw [← List.map_id l]
      exact List.map_congr_left fun a _ => both_call a i
    have none' : ∀ l : List (KStep K n U),
        ((l.map fun a => (both a, (0 : K), (0 : K))).map fun a => a.2.1 + a.2.2).sum = 0 := by
      intro l
      rw [List.map_map]
      refine List.sum_eq_zero fun v hv => ?_
      obtain ⟨a, _, rfl⟩ := List.mem_map.1 hv
      simp
    refine ⟨(as.map fun a => (both a, 0, 0)) ++
      (⟨r.m, none, some fun i => (r.model, if i then wrong else r.z, r.s)⟩, 0, e) :: bs.map fun a => (both a, 0, 0),
      ?_, ?_, ?_⟩
    · intro a h
      rcases List.mem_append.1 h with h | h
      · obtain ⟨x, hx, rfl⟩ := List.mem_map.1 h
        exact ⟨le_rfl, le_rfl, both_off (ha x hx)⟩
      · rcases List.mem_cons.1 h with rfl | h
        · refine ⟨le_rfl, he, ⟨fun g hg => (by cases hg), fun g hg => ?_⟩⟩
          cases hg
          refine ⟨r.H, r.R, fun _ => r.c, hr.2, fun _ => hr.1, ?_⟩
          have e1 : wrong - r.c - (r.z - r.c) = wrong - r.z := by abel
          show WithinSigmas e r.R (wrong - r.c - (r.z - r.c))
          rw [e1]
          exact hw
        · obtain ⟨x, hx, rfl⟩ := List.mem_map.1 h
          exact ⟨le_rfl, le_rfl, both_off (hb x hx)⟩
    · intro i
      rw [List.map_append, List.map_cons, same, same]
      cases i <;> rfl
    · rw [List.map_append, List.map_cons, List.sum_append, List.sum_cons, none', none']
      simp
  obtain ⟨f', h1, h2, h3⟩ := C126_gain (fun _ => be) (fun _ => kind) (fun _ => hk) k hk1 (fun _ => f) f.sigma 0 hf
    (fun _ => rfl) le_rfl (fun w => by simp)
  refine ⟨f' false, f' true, ?_, ?_, h2.symm, ?_⟩
  · have := h1 false
    rwa [hk2.1] at this
  · have := h1 true
    rwa [hk2.1] at this
  · rwa [hk2.2, zero_add, ← h2] at h3

/-- C126. The bound cannot be improved: for every `c` below 1 there is a filter for which a reading that is off by one
standard deviation of the sensor changes the estimate by more than `√c` reported standard deviations. -/
theorem C126_sharp (be : Backend) {c : K} (hc1 : c < 1) :
    ∃ (f f' g' : KF K 1) (r : Reading K 1 Unit) (wrong : Fin r.m → K), PSD f.sigma ∧ r.Right ∧
      WithinSigmas 1 r.R (wrong - r.z) ∧ runAll be .extended [r.call] f = .ok f' ∧
      runAll be .extended [{ r with z := wrong }.call] f = .ok g' ∧ c * f'.sigma 0 0 < (g'.mu 0 - f'.mu 0) ^ 2 := by
  have hd : 0 < 1 - c := by linarith
  obtain ⟨N, hN⟩ : ∃ N : K, N = 1 / (1 - c) := ⟨_, rfl⟩
  have hNpos : 0 < N := by rw [hN]; positivity
  have hPSD : PSD (!![N] : Matrix (Fin 1) (Fin 1) K) := by
    refine ⟨by ext i j; fin_cases i; fin_cases j; rfl, fun x => ?_⟩
    have : x ⬝ᵥ (!![N] *ᵥ x) = N * (x 0 * x 0) := by simp [dotProduct, mulVec]; ring
    rw [this]
    exact mul_nonneg hNpos.le (mul_self_nonneg _)
  have hPD : PD (1 : Matrix (Fin 1) (Fin 1) K) := by
    refine ⟨transpose_one, fun x hx => ?_⟩
    have h0 : x 0 ≠ 0 := fun h => hx (by ext i; fin_cases i; exact h)
    rw [one_mulVec]
    have : x ⬝ᵥ x = x 0 * x 0 := by simp [dotProduct]
    rw [this]
    exact mul_self_pos.2 h0
  obtain ⟨me, hlin⟩ : ∃ me : AnalyticModel K 1 1 Unit, me.IsLinear none 1 0 1 :=
    ⟨.noInput (fun x => x) (fun _ => 1) (fun _ => 1), fun x => ⟨by rw [one_mulVec, add_zero]; rfl, rfl, rfl⟩⟩
  have hcall : ∀ z : Fin 1 → K, runAll be .extended [(⟨1, me, none, 1, 0, 1, z⟩ : Reading K 1 Unit).call]
      (KF.make 0 !![N]) = .ok ⟨kgain !![N]
        (1 : Matrix (Fin 1) (Fin 1) K) 1 *ᵥ (z - ((1 : Matrix (Fin 1) (Fin 1) K) *ᵥ (0 : Fin 1 → K) + 0)) + 0, kcov !![N] (1 : Matrix (Fin 1) (Fin 1) K) 1,
        (KF.make (0 : Fin 1 → K) !![N]).timestep⟩ := by
    intro z
    have := (measUpdate_linear (be := be) (kind := .extended) (f := KF.make 0 !![N]) (z := z) trivial hlin).trans
      (calc_valid hPSD hPD)
    simp only [runAll, Reading.call, KF.update, KF.sysPart, KF.measPart, Outcome.ok_bind]
    rw [this]; rfl
  have hg : kgain !![N] (1 : Matrix (Fin 1) (Fin 1) K) 1 = (!![N / (N + 1)] : Matrix (Fin 1) (Fin 1) K) := by
    have h1 : N + 1 ≠ 0 := by positivity
    have e1 : innovCov !![N] (1 : Matrix (Fin 1) (Fin 1) K) 1 = (!![N + 1] : Matrix (Fin 1) (Fin 1) K) := by
      ext i j; fin_cases i; fin_cases j; simp [innovCov]
    have e2 : (!![N + 1] : Matrix (Fin 1) (Fin 1) K)⁻¹ = !![1 / (N + 1)] := by
      refine inv_eq_right_inv ?_
      ext i j; fin_cases i; fin_cases j; simp [h1]
    rw [kgain, e1, e2]
    ext i j; fin_cases i; fin_cases j; simp [div_eq_mul_inv]
  have hk : (kcov !![N] (1 : Matrix (Fin 1) (Fin 1) K) 1 : Matrix (Fin 1) (Fin 1) K) 0 0 = N / (N + 1) := by
    have h1 : N + 1 ≠ 0 := by positivity
    rw [kcov_joseph (innovCov_pd hPSD hPD).det_ne, hg]
    simp only [Matrix.add_apply, Matrix.mul_apply, Matrix.transpose_apply, Matrix.sub_apply, Fin.sum_univ_one, Matrix.one_apply,
      if_true, Matrix.of_apply, Matrix.cons_val_fin_one]
    field_simp
    ring
  refine ⟨_, _, _, ⟨1, me, none, 1, 0, 1, ![0]⟩, ![1], hPSD, ⟨hlin, hPD⟩, ?_, hcall ![0], hcall ![1], ?_⟩
  · intro w
    simp [quad, dotProduct, sq]
  · simp only
    rw [hk, hg]
    have h1 : N + 1 = (2 - c) / (1 - c) := by rw [hN]; field_simp; ring
    have h2 : N / (N + 1) = 1 / (2 - c) := by rw [h1, hN]; field_simp
    have h3 : 0 < 2 - c := by linarith
    simp [h2]
    field_simp
    nlinarith [mul_pos hd hd]

/-- C126, the boundary: with the sensor `x²` a reading that is off by one standard deviation of the sensor noise changes
the estimate after the next reading by more than 30 standard deviations, whichever of the two filters reports them. -/
theorem C126_nonlinear (be : Backend) :
    ∃ (meas : AnalyticModel ℚ 1 1 Unit) (f f' g' : KF ℚ 1) (z wrong next : Fin 1 → ℚ) (R : Matrix (Fin 1) (Fin 1) ℚ),
      PD R ∧ (∀ x, ∃ Z H, meas.Evaluates none x Z H R) ∧ PD f.sigma ∧ WithinSigmas 1 R (wrong - z) ∧
      runAll be .extended [⟨1, none, some (meas, z, none)⟩, ⟨1, none, some (meas, next, none)⟩] f = .ok f' ∧
      runAll be .extended [⟨1, none, some (meas, wrong, none)⟩, ⟨1, none, some (meas, next, none)⟩] f = .ok g' ∧
      ¬ WithinSigmas 900 f'.sigma (g'.mu - f'.mu) ∧ ¬ WithinSigmas 900 g'.sigma (g'.mu - f'.mu) := by
  have step : ∀ (a p z : ℚ), (2 * a) * p * (2 * a) + 1 ≠ 0 →
      (⟨![a], !![p], 0⟩ : KF ℚ 1).update be .extended none (some (UnitsFixture.square, ![z], none))
        = .ok (true, ⟨![p * (2 * a) * ((2 * a) * p * (2 * a) + 1)⁻¹ * (z - a * a) + a],
            !![p - p * (2 * a) * ((2 * a) * p * (2 * a) + 1)⁻¹ * (2 * a) * p], 0⟩) := by
    intro a p z h
    simp only [KF.update, KF.sysPart, KF.measPart, KF.measUpdate, Outcome.ok_bind]
    rw [ekf_eq (UnitsFixture.ev _)]
    simp only [Matrix.cons_val_zero]
    rw [one_calc be h]
    rfl
  have a1 := step 1 1 (-3 / 2) (by norm_num)
  have a2 := step 0 (1 / 5) 1000 (by norm_num)
  have b1 := step 1 1 (-1 / 2) (by norm_num)
  have b2 := step (2 / 5) (1 / 5) 1000 (by norm_num)
  norm_num at a1 a2 b1 b2
  refine ⟨UnitsFixture.square, ⟨![1], !![1], 0⟩, _, _, ![-3 / 2], ![-1 / 2], ![1000], !![1], UnitsFixture.pd 1 one_pos,
    fun x => ⟨_, _, UnitsFixture.ev x⟩, UnitsFixture.pd 1 one_pos, ?_,
    by simp only [runAll]; norm_num; rw [a1]; simp only [Outcome.ok_bind]; rw [a2]; rfl,
    by simp only [runAll]; norm_num; rw [b1]; simp only [Outcome.ok_bind]; rw [b2]; rfl, ?_, ?_⟩
  · intro w
    have e1 : w ⬝ᵥ ((![-1 / 2] : Fin 1 → ℚ) - ![-3 / 2]) = w 0 := by simp [dotProduct]; norm_num
    have e2 : quad (!![1] : Matrix (Fin 1) (Fin 1) ℚ) w = w 0 * w 0 := by simp [quad, dotProduct, mulVec]
    rw [e1, e2]
    nlinarith
  · intro h
    have := h ![1]
    norm_num [quad, dotProduct, mulVec] at this
  · intro h
    have := h ![1]
    norm_num [quad, dotProduct, mulVec] at this

/-! ### Examples -/

namespace OffFixture

open KFixture

theorem reading_off : WithinSigmas 9 R ((![7] : Fin 1 → ℚ) - ![4]) := by
  intro w
  have e1 : w ⬝ᵥ ((![7] : Fin 1 → ℚ) - ![4]) = 3 * w 0 := by simp [dotProduct]; ring
  have e2 : quad R w = w 0 * w 0 := by simp [quad, R, dotProduct, mulVec]
  rw [e1, e2]
  nlinarith

theorem push_off : WithinSigmas 4 Q ((![1, 2] : Fin 2 → ℚ) - ![1, 0]) := by
  intro w
  have e1 : w ⬝ᵥ ((![1, 2] : Fin 2 → ℚ) - ![1, 0]) = 2 * w 1 := by simp [dotProduct, Fin.sum_univ_two]; ring
  have e2 : quad Q w = w 1 * w 1 := by simp [quad, Q, dotProduct, mulVec, Fin.sum_univ_two]
  rw [e1, e2]
  nlinarith

/-- Both runs are pushed and read the position; pushes and readings differ. -/
def step : JointStep ℚ 2 Unit Bool :=
  ⟨1, some fun i => (SumFixture.pushed (if i then ![1, 2] else ![1, 0]), none),
    some fun i => (meas, (if i then ![7] else ![4]), none)⟩

theorem step_off : step.Off 4 9 := by
  refine ⟨fun g hg => ?_, fun g hg => ?_⟩
  · cases hg
    exact ⟨F, Q, fun i => if i then ![1, 2] else ![1, 0], Q_psd, fun i => SumFixture.pushed_linear _, push_off⟩
  · cases hg
    refine ⟨H, R, fun _ => 0, R_pd, fun i => meas_linear, ?_⟩
    have h : WithinSigmas 9 R (((![7] : Fin 1 → ℚ) - (0 : Fin 1 → ℚ)) - ((![4] : Fin 1 → ℚ) - (0 : Fin 1 → ℚ))) := by
      rw [sub_zero, sub_zero]
      exact reading_off
    exact h

end OffFixture

/-- Other prior means, pushes and readings in two steps: 2 + (4 + 9) + (4 + 9). -/
example : ∃ f' : Bool → KF ℚ 2,
    (∀ i, runAll .boost .extended ([OffFixture.step, OffFixture.step].map fun a => a.call i)
      (if i then KFixture.start else PriorMean.other) = .ok (f' i)) ∧ (f' false).sigma = (f' true).sigma ∧
    WithinSigmas 28 (f' true).sigma ((f' true).mu - (f' false).mu) := by
  obtain ⟨f', h1, h2, h3⟩ := C126_gain (fun _ => .boost) (fun _ => .extended) (fun _ => trivial)
    [(OffFixture.step, 4, 9), (OffFixture.step, 4, 9)]
    (by intro a ha; simp at ha; subst ha; exact ⟨by norm_num, by norm_num, OffFixture.step_off⟩)
    (fun i => if i then KFixture.start else PriorMean.other) KFixture.P 2 KFixture.P_pd.psd
    (by intro i; cases i <;> rfl) (by norm_num) PriorMean.near
  refine ⟨f', h1, h2, ?_⟩
  have e : (2 : ℚ) + ([(OffFixture.step, (4 : ℚ), (9 : ℚ)), (OffFixture.step, 4, 9)].map fun a => a.2.1 + a.2.2).sum = 28 := by
    simp; norm_num
  rwa [e] at h3

/-- A reading that is off by three standard deviations, among other calls. -/
example : ∃ f' g', runAll .boost .extended (Order.rich ++ PriorMean.reading.call :: Order.rich) KFixture.start = .ok f' ∧
    runAll .boost .extended (Order.rich ++ { PriorMean.reading with z := ![7] }.call :: Order.rich) KFixture.start = .ok g' ∧
    g'.sigma = f'.sigma ∧ WithinSigmas 9 f'.sigma (g'.mu - f'.mu) :=
  C126_outlier .boost .extended trivial _ _ Order.linear Order.linear _ PriorMean.reading_right ![7] 9 (by norm_num)
    OffFixture.reading_off KFixture.start KFixture.P_pd.psd

end BFL.Props
