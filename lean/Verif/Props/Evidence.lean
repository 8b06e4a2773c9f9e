import Verif.Lemmas.Evidence
import Verif.Props.Histogram
import Verif.Props.ParticleFilter
import Verif.Props.KalmanFamily

/-!
# C91: what the filters conclude from readings depends only on what the readings tell
-/

set_option linter.unusedSectionVars false

namespace BFL.Props

open Spec

/-! ## The histogram filter -/

section histogram

variable {Z Z' K : Type} [Field K] [LinearOrder K] [IsStrictOrderedRing K]

/-- **C91** (histogram filter). Two histories of calls, of any length, with readings of any kind,
that tell the same about the state lead to the same probabilities. -/
theorem C91_histogram {n : Nat} {prior : DiscretePdf K} (hn : prior.numStates = n) {p : Nat → K}
    (hp : prior.probabilitiesGet = tab n p) (hd : IsDistribution prior.probabilitiesGet)
    {cs : List (HistogramFilter.Call Z K)} {cs' : List (HistogramFilter.Call Z' K)}
    {ss ss' : List (Step K)}
    (hcs : Describes n cs ss) (hcs' : Describes n cs' ss') (hss : ∀ s ∈ ss, s.Nonneg n)
    (hss' : ∀ s ∈ ss', s.Nonneg n) (he : SameEvidence n ss ss')
    (hpos : 0 < historyEvidence n p ss) :
    ∃ f f1 f2, HistogramFilter.make prior = .ok f ∧ f.run cs = .ok (true, f1) ∧
      f.run cs' = .ok (true, f2) ∧ f1.post.probabilitiesGet = f2.post.probabilitiesGet := by
  obtain ⟨c, hc, hj⟩ := he.joint
  have hev : historyEvidence n p ss = c * historyEvidence n p ss' := by
    unfold historyEvidence
    rw [Finset.mul_sum]
    exact Finset.sum_congr rfl fun x hx => hj p x (Finset.mem_range.1 hx)
  have hpos' : 0 < historyEvidence n p ss' := by
    rw [hev] at hpos
    exact pos_of_mul_pos_right hpos hc.le
  obtain ⟨f, f1, e1, e2, e3, -⟩ := C25_exact hn hp hd hcs hss hpos
  obtain ⟨g, f2, g1, g2, g3, -⟩ := C25_exact hn hp hd hcs' hss' hpos'
  obtain rfl : f = g := Outcome.ok.inj (e1.symm.trans g1)
  refine ⟨f, f1, f2, e1, e2, g2, ?_⟩
  rw [e3, g3]
  unfold tab
  apply List.map_congr_left
  intro x hx
  rw [hj p x (List.mem_range.1 hx), hev, mul_div_mul_left _ _ hc.ne']

end histogram

/-! ## The particle filters -/

section particles

open MCPdf ParticleFilter

variable {R SV MV K : Type} [Field K] [LinearOrder K] [IsStrictOrderedRing K]
variable {dflt : SV} {root : Nat → K → K} {period : Nat}

/-- A reading: the model, its likelihood, the measurement and the sensor parameter; and the other
arguments of the call, which do not matter. -/
structure PReading (R SV MV K : Type) where
  mm : Model SV MV K
  L : MV → SV → SV → K
  z : MV
  s : SV
  u : SV
  noise : Noise R K

/-- Likelihood of a state. -/
def PReading.lik (r : PReading R SV MV K) (x : SV) : K := r.L r.z x r.s

/-- Likelihood of a state, given all readings. -/
def likAll (rs : List (PReading R SV MV K)) (x : SV) : K := (rs.map fun r => r.lik x).prod

/-- `Update` calls with one reading each; `true` if all of them returned `true`. -/
def readAll (dflt : SV) (root : Nat → K → K) :
    List (PReading R SV MV K) → ParticleFilter R SV K → Outcome (Bool × ParticleFilter R SV K)
  | [], f => .ok (true, f)
  | r :: rs, f => do
    let (b, f) ← f.update dflt root r.noise ⟨none, r.u, some r.mm, r.z, r.s⟩
    let (b', f) ← readAll dflt root rs f
    return (b && b', f)

theorem reweighted_eq {G : SV → K} {ps ps1 : List (SV × K)} {g : Nat → K}
    (hg : ∀ i (h : i < ps.length), g i = G ps[i].1) (h : Reweighted g ps ps1) :
    ps1 = reweightedBy G ps ∧ totalWeight g ps = (ps.map fun b => b.2 * G b.1).sum := by
  have ht : totalWeight g ps = (ps.map fun b => b.2 * G b.1).sum := by
    rw [totalWeight, ← List.sum_ofFn]
    congr 1
    apply List.ext_getElem
    · simp
    · intro i h1 h2
      simp [hg i (by simpa using h2)]
  refine ⟨?_, ht⟩
  obtain ⟨hl, he⟩ := h
  apply List.ext_getElem
  · simp [reweightedBy, hl]
  · intro i h1 h2
    rw [he i (hl ▸ h1), ht, hg i (hl ▸ h1)]
    simp [reweightedBy]

/-- **C91** (particle filter, resampling only every `period` moves or never degenerate: threshold 0).
After any number of readings every particle has the weight it had times the product of all
likelihoods, normalised. -/
theorem C91_particles_product (hroot : IsRoot root) (rs : List (PReading R SV MV K))
    (hl : ∀ r ∈ rs, IsLikelihood r.mm r.L) (hu : ∀ r ∈ rs, Uniforms r.noise.dynamic) :
    ∀ {f : ParticleFilter R SV K} {n : Nat},
      Reached MV dflt root period 0 .multinomial f n → ∀ {ps : List (SV × K)},
      Holds f.postGet ps → Normalised ps → 0 < (ps.map fun a => a.2 * likAll rs a.1).sum →
    ∃ f', readAll dflt root rs f = .ok (true, f') ∧
      Holds f'.postGet (reweightedBy (likAll rs) ps) := by
  induction rs with
  | nil =>
    intro f n hr ps hh hn hpos
    refine ⟨f, rfl, ?_⟩
    have e1 : (ps.map fun b => b.2 * likAll ([] : List (PReading R SV MV K)) b.1).sum = 1 := by
      have : (ps.map fun b => b.2 * likAll ([] : List (PReading R SV MV K)) b.1) =
          ps.map Prod.snd := by
        apply List.map_congr_left
        intro a _
        simp [likAll]
      rw [this]
      exact hn.2
    have : reweightedBy (likAll ([] : List (PReading R SV MV K))) ps = ps := by
      unfold reweightedBy
      rw [e1]
      simp [likAll]
    rw [this]
    exact hh
  | cons r rs ih =>
    intro f n hr ps hh hn hpos
    have hL : ∀ x, 0 ≤ r.lik x := fun x => by
      obtain ⟨p, _, h⟩ := hl r (by simp)
      exact (h r.z x r.s).1
    have hLs : ∀ x, 0 ≤ likAll rs x := fun x => by
      unfold likAll
      apply List.prod_nonneg
      intro y hy
      obtain ⟨q, hq, rfl⟩ := List.mem_map.1 hy
      obtain ⟨p, _, h⟩ := hl q (by simp [hq])
      exact (h q.z x q.s).1
    have hcons : ∀ x, likAll (r :: rs) x = r.lik x * likAll rs x := fun x => by simp [likAll]
    have hw : ∀ a ∈ ps, 0 ≤ a.2 := fun a ha => hn.1 a.2 (List.mem_map.2 ⟨a, ha, rfl⟩)
    -- some particle is possible
    have hp1 : 0 < (ps.map fun b => b.2 * r.lik b.1).sum := by
      refine lt_of_le_of_ne (List.sum_nonneg ?_) ?_
      · intro y hy
        obtain ⟨a, ha, rfl⟩ := List.mem_map.1 hy
        exact mul_nonneg (hw a ha) (hL _)
      · intro h0
        have hz : ∀ y ∈ ps.map fun b => b.2 * r.lik b.1, y = 0 := by
          refine fun y hy => List.all_zero_of_le_zero_le_of_sum_eq_zero ?_ h0.symm hy
          intro y hy
          obtain ⟨a, ha, rfl⟩ := List.mem_map.1 hy
          exact mul_nonneg (hw a ha) (hL _)
        have : (ps.map fun a => a.2 * likAll (r :: rs) a.1).sum = 0 := by
          apply List.sum_eq_zero
          intro y hy
          obtain ⟨a, ha, rfl⟩ := List.mem_map.1 hy
          have := hz _ (List.mem_map.2 ⟨a, ha, rfl⟩)
          rw [hcons, ← mul_assoc, this, zero_mul]
        rw [this] at hpos
        exact lt_irrefl _ hpos
    have hg : ∀ i (h : i < ps.length),
        (fun i => if h : i < ps.length then r.L r.z ps[i].1 r.s else 0) i = r.lik ps[i].1 := by
      intro i h
      simp [h, PReading.lik]
    have htot : totalWeight (fun i => if h : i < ps.length then r.L r.z ps[i].1 r.s else 0) ps =
        (ps.map fun b => b.2 * r.lik b.1).sum := by
      rw [totalWeight, ← List.sum_ofFn]
      congr 1
      apply List.ext_getElem
      · simp
      · intro i h1 h2
        simp [PReading.lik]
    obtain ⟨f1, ps1, ps2, h1, h2, h3, _, h5, h6, h7⟩ :=
      (C26_measurement hroot hr hh hn (hl r (by simp)) (hu r (by simp)) r.u r.s r.z).1
        (by rw [htot]; exact hp1)
    have hsize : ¬ effectiveSize ps1 < 0 := by
      unfold effectiveSize
      rw [not_lt]
      apply one_div_nonneg.2
      apply List.sum_nonneg
      intro y hy
      obtain ⟨a, _, rfl⟩ := List.mem_map.1 hy
      exact sq_nonneg _
    obtain rfl := h5 hsize
    obtain ⟨rfl, _⟩ := reweighted_eq hg h2
    have hcomp := reweightedBy_comp (G' := likAll rs) hp1.ne'
    have hr' := Reached.update hr h1
    have hpos2 : 0 < ((reweightedBy r.lik ps).map fun a => a.2 * likAll rs a.1).sum := by
      have e : ((reweightedBy r.lik ps).map fun a => a.2 * likAll rs a.1).sum =
          ((ps.map fun b => b.2 * r.lik b.1).sum)⁻¹ *
            (ps.map fun a => a.2 * likAll (r :: rs) a.1).sum := by
        rw [← list_sum_mul]
        unfold reweightedBy
        rw [List.map_map]
        congr 1
        apply List.map_congr_left
        intro a _
        simp only [Function.comp_apply, hcons]
        ring
      rw [e]
      exact mul_pos (inv_pos.2 hp1) hpos
    obtain ⟨f', e1, e2⟩ := ih (fun q hq => hl q (by simp [hq])) (fun q hq => hu q (by simp [hq]))
      hr' h6 h7 hpos2
    refine ⟨f', ?_, ?_⟩
    · simp only [readAll]
      rw [h1]
      simp only [Outcome.ok_bind]
      rw [e1]
      rfl
    · rw [hcomp] at e2
      have : (fun x => r.lik x * likAll rs x) = likAll (r :: rs) := by
        ext x; rw [hcons]
      rw [this] at e2
      exact e2

/-- **C91** (particle filter). Two sequences of readings whose likelihoods multiply, on the particles,
to the same up to a factor, lead to the same particles with the same weights. Missing for the full
claim: resampling when the weights degenerate (`C91_degenerate_false`). -/
theorem C91_particles_partial (hroot : IsRoot root) {rs rs' : List (PReading R SV MV K)}
    (hl : ∀ r ∈ rs, IsLikelihood r.mm r.L) (hu : ∀ r ∈ rs, Uniforms r.noise.dynamic)
    (hl' : ∀ r ∈ rs', IsLikelihood r.mm r.L) (hu' : ∀ r ∈ rs', Uniforms r.noise.dynamic)
    {f : ParticleFilter R SV K} {n : Nat} (hr : Reached MV dflt root period 0 .multinomial f n)
    {ps : List (SV × K)} (hh : Holds f.postGet ps) (hn : Normalised ps) {c : K} (hc : 0 < c)
    (he : ∀ a ∈ ps, likAll rs a.1 = c * likAll rs' a.1)
    (hpos : 0 < (ps.map fun a => a.2 * likAll rs a.1).sum) :
    ∃ f1 f2 qs, readAll dflt root rs f = .ok (true, f1) ∧ readAll dflt root rs' f = .ok (true, f2) ∧
      Holds f1.postGet qs ∧ Holds f2.postGet qs := by
  have hpos' : 0 < (ps.map fun a => a.2 * likAll rs' a.1).sum := by
    have e : (ps.map fun a => a.2 * likAll rs a.1).sum =
        c * (ps.map fun a => a.2 * likAll rs' a.1).sum := by
      rw [← list_sum_mul]
      congr 1
      apply List.map_congr_left
      intro a ha
      rw [he a ha]
      ring
    rw [e] at hpos
    exact pos_of_mul_pos_right hpos hc.le
  obtain ⟨f1, e1, e2⟩ := C91_particles_product hroot rs hl hu hr hh hn hpos
  obtain ⟨f2, g1, g2⟩ := C91_particles_product hroot rs' hl' hu' hr hh hn hpos'
  exact ⟨f1, f2, _, e1, g1, e2, by rw [reweightedBy_scale hc.ne' he]; exact g2⟩

/-- A reading of the fixture. -/
def fixtureReading (z : Nat) : PReading Nat Nat Nat ℚ := ⟨Fixture.meas, Fixture.L, z, 0, 0, Fixture.noise⟩

/-- **C91** fails for a particle filter that resamples when the weights degenerate: two particles, at 0
and at 1, and the readings 0 and 1, which together tell nothing. In one order both particles end at
0, in the other order both at 1, with the same random numbers. -/
theorem C91_degenerate_false :
    Reached Nat 0 Fixture.root 0 2 .multinomial (Fixture.start 0 2 .multinomial) 0 ∧
    Holds (Fixture.start 0 2 .multinomial).postGet [(0, 1 / 2), (1, 1 / 2)] ∧
    (∀ x, likAll [fixtureReading 0, fixtureReading 1] x =
      likAll [fixtureReading 1, fixtureReading 0] x) ∧
    ∃ f1 f2 : ParticleFilter Nat Nat ℚ,
      readAll 0 Fixture.root [fixtureReading 0, fixtureReading 1] (Fixture.start 0 2 .multinomial) =
        .ok (true, f1) ∧
      readAll 0 Fixture.root [fixtureReading 1, fixtureReading 0] (Fixture.start 0 2 .multinomial) =
        .ok (true, f2) ∧
      Holds f1.postGet [(0, 1 / 2), (0, 1 / 2)] ∧ Holds f2.postGet [(1, 1 / 2), (1, 1 / 2)] := by
  refine ⟨Fixture.start_reached _ Fixture.policy_dynamic, Fixture.start_holds,
    fun x => by simp [likAll, mul_comm], ?_⟩
  obtain ⟨f1, a1, a2⟩ := Fixture.observe_eq (x := readAll 0 Fixture.root
    [fixtureReading 0, fixtureReading 1] (Fixture.start 0 2 .multinomial)) (b := true)
    (l := [⟨0, some (1/2)⟩, ⟨0, some (1/2)⟩]) (by decide +kernel)
  obtain ⟨f2, b1, b2⟩ := Fixture.observe_eq (x := readAll 0 Fixture.root
    [fixtureReading 1, fixtureReading 0] (Fixture.start 0 2 .multinomial)) (b := true)
    (l := [⟨1, some (1/2)⟩, ⟨1, some (1/2)⟩]) (by decide +kernel)
  exact ⟨f1, f2, a1, b1, a2, b2⟩

end particles

/-! ## The Kalman filters -/

section kalman

open Matrix

variable {K : Type} [Field K] [LinearOrder K] [IsStrictOrderedRing K] {n : Nat} {U : Type}

/-- What linear readings tell: minus twice the logarithm of their joint likelihood in state `x`,
without the constants of the normal densities. -/
noncomputable def misfit (l : List (LinMeas K n U)) (x : Fin n → K) : K :=
  (l.map fun a => quad a.R⁻¹ (a.z - (a.H *ᵥ x + a.c))).sum

/-- Quadratic part of `misfit`. -/
noncomputable def totalJ (l : List (LinMeas K n U)) : Matrix (Fin n) (Fin n) K :=
  (l.map fun a => a.Hᵀ * a.R⁻¹ * a.H).sum

/-- Linear part of `misfit`. -/
noncomputable def totalB (l : List (LinMeas K n U)) : Fin n → K :=
  (l.map fun a => (a.Hᵀ * a.R⁻¹) *ᵥ (a.z - a.c)).sum

theorem totalJ_symm (l : List (LinMeas K n U)) : (totalJ l)ᵀ = totalJ l := by
  induction l with
  | nil => simp [totalJ]
  | cons a l ih =>
    have hJ : totalJ (a :: l) = a.Hᵀ * a.R⁻¹ * a.H + totalJ l := by simp [totalJ]
    rw [hJ, transpose_add, ih, transpose_mul, transpose_mul, transpose_transpose, a.noise.inv.1,
      Matrix.mul_assoc]

theorem misfit_eq (l : List (LinMeas K n U)) (x : Fin n → K) :
    misfit l x = quad (totalJ l) x - 2 * (totalB l ⬝ᵥ x) + misfit l 0 := by
  induction l with
  | nil => simp [misfit, totalJ, totalB, quad]
  | cons a l ih =>
    have hJ : totalJ (a :: l) = a.Hᵀ * a.R⁻¹ * a.H + totalJ l := by simp [totalJ]
    have hB : totalB (a :: l) = (a.Hᵀ * a.R⁻¹) *ᵥ (a.z - a.c) + totalB l := by simp [totalB]
    have hM : ∀ y, misfit (a :: l) y = quad a.R⁻¹ (a.z - (a.H *ᵥ y + a.c)) + misfit l y :=
      fun y => by simp [misfit]
    have hW := a.noise.inv.1
    have e1 : a.z - (a.H *ᵥ x + a.c) = -(a.H *ᵥ x) + (a.z - a.c) := by abel
    have e2 : a.z - (a.H *ᵥ (0 : Fin n → K) + a.c) = a.z - a.c := by simp
    have e3 : quad a.R⁻¹ (a.H *ᵥ x) = quad (a.Hᵀ * a.R⁻¹ * a.H) x := by
      unfold quad
      rw [← mulVec_mulVec, ← mulVec_mulVec, dotProduct_mulVec x, vecMul_transpose]
    have e4 : (a.H *ᵥ x) ⬝ᵥ (a.R⁻¹ *ᵥ (a.z - a.c)) = ((a.Hᵀ * a.R⁻¹) *ᵥ (a.z - a.c)) ⬝ᵥ x := by
      rw [← mulVec_mulVec, dotProduct_comm _ x, dotProduct_mulVec x, vecMul_transpose]
    have e5 : quad (a.Hᵀ * a.R⁻¹ * a.H + totalJ l) x =
        quad (a.Hᵀ * a.R⁻¹ * a.H) x + quad (totalJ l) x := by
      unfold quad
      rw [add_mulVec, dotProduct_add]
    rw [hM, hM, ih, hJ, hB, e1, e2, quad_add_symm hW, quad_neg', e3, neg_dotProduct, e4, e5,
      add_dotProduct]
    ring

theorem totals_eq {l l' : List (LinMeas K n U)} {k : K} (h : ∀ x, misfit l x = misfit l' x + k) :
    totalJ l = totalJ l' ∧ totalB l = totalB l' := by
  have h0 := h 0
  have e : ∀ x, quad (totalJ l) x - 2 * (totalB l ⬝ᵥ x) =
      quad (totalJ l') x - 2 * (totalB l' ⬝ᵥ x) := by
    intro x
    have h1 := h x
    rw [misfit_eq l x, misfit_eq l' x] at h1
    linarith
  have hq : ∀ x, quad (totalJ l) x = quad (totalJ l') x := by
    intro x
    have a := e x
    have b := e (-x)
    rw [quad_neg', quad_neg', dotProduct_neg, dotProduct_neg] at b
    linarith
  constructor
  · ext i j
    have h1 := hq (Pi.single i 1 + Pi.single j 1)
    rw [quad_add_symm (totalJ_symm l), quad_add_symm (totalJ_symm l'), hq, hq] at h1
    simp only [mulVec_single_one, single_one_dotProduct] at h1
    have : totalJ l i j = totalJ l' i j := by
      simp only [Matrix.col_apply] at h1
      linarith
    exact this
  · have : ∀ x, totalB l ⬝ᵥ x = totalB l' ⬝ᵥ x := by
      intro x
      have := e x
      rw [hq] at this
      linarith
    ext i
    have := this (Pi.single i 1)
    simpa using this

theorem correctAll_information (be : Backend) {kind : KF.Kind K n} (hk : kind.Runs)
    (l : List (LinMeas K n U)) : ∀ (f : KF K n), PSD f.sigma →
    ∃ f', correctAll be kind l f = .ok f' ∧ f'.timestep = f.timestep ∧
      f'.sigma * (1 + totalJ l * f.sigma) = f.sigma ∧ (1 + totalJ l * f.sigma).det ≠ 0 ∧
      f'.mu = f.mu + f'.sigma *ᵥ (totalB l - totalJ l *ᵥ f.mu) := by
  induction l with
  | nil =>
    intro f _
    refine ⟨f, rfl, rfl, ?_, ?_, ?_⟩ <;> simp [totalJ, totalB]
  | cons a l ih =>
    intro f hP
    have hS := (innovCov_pd (H := a.H) hP a.noise).det_ne
    have hR := a.noise.det_ne
    obtain ⟨f', e1, e2, e3, e4, e5⟩ := ih
      ⟨kgain f.sigma a.H a.R *ᵥ (a.z - (a.H *ᵥ f.mu + a.c)) + f.mu, kcov f.sigma a.H a.R,
        f.timestep⟩ (kcov_psd (H := a.H) hP a.noise)
    simp only at e2 e3 e4 e5
    have hJ : totalJ (a :: l) = a.Hᵀ * a.R⁻¹ * a.H + totalJ l := by simp [totalJ]
    have hB : totalB (a :: l) = (a.Hᵀ * a.R⁻¹) *ᵥ (a.z - a.c) + totalB l := by simp [totalB]
    have hinf := kcov_left hS hR
    obtain ⟨s1, s2⟩ := information_step hinf e3
    refine ⟨f', ?_, e2, ?_, ?_, ?_⟩
    · simp only [correctAll]
      rw [linear_ok hk a.linear hP a.noise]
      exact e1
    · rw [hJ]; exact s1
    · rw [hJ, s2, det_mul]
      exact mul_ne_zero e4 (det_information hS hR)
    · rw [hJ, hB, e5]
      apply information_mean e3
      rw [kgain_eq hS hR, add_comm, Matrix.mul_assoc (kcov f.sigma a.H a.R), ← mulVec_mulVec]
      congr 2
      rw [← mulVec_mulVec (M := a.Hᵀ * a.R⁻¹), ← mulVec_sub]
      congr 1
      abel

/-- **C91** (Kalman filters, linear readings). Two sets of readings that tell the same lead to the
same filter, whatever their number, dimensions and order: it is enough that their joint likelihoods
are proportional as functions of the state. The prior covariance may be singular. -/
theorem C91_kalman (be : Backend) (kind : KF.Kind K n) (hk : kind.Runs) (l l' : List (LinMeas K n U))
    {k : K} (h : ∀ x, misfit l x = misfit l' x + k) (f : KF K n) (hP : PSD f.sigma) :
    ∃ f', correctAll be kind l f = .ok f' ∧ correctAll be kind l' f = .ok f' := by
  obtain ⟨hJ, hB⟩ := totals_eq h
  obtain ⟨f1, e1, e2, e3, e4, e5⟩ := correctAll_information be hk l f hP
  obtain ⟨f2, g1, g2, g3, g4, g5⟩ := correctAll_information be hk l' f hP
  refine ⟨f1, e1, ?_⟩
  rw [g1]
  congr 1
  rw [← hJ] at g3
  have hs : f2.sigma = f1.sigma := by
    have := e4.isUnit
    calc f2.sigma = f2.sigma * (1 + totalJ l * f.sigma) * (1 + totalJ l * f.sigma)⁻¹ := by
          rw [Matrix.mul_assoc, mul_nonsing_inv _ this, Matrix.mul_one]
      _ = f1.sigma * (1 + totalJ l * f.sigma) * (1 + totalJ l * f.sigma)⁻¹ := by rw [g3, e3]
      _ = f1.sigma := by rw [Matrix.mul_assoc, mul_nonsing_inv _ this, Matrix.mul_one]
  have hm : f2.mu = f1.mu := by rw [g5, e5, hs, hJ, hB]
  obtain ⟨_, _, _⟩ := f1
  obtain ⟨_, _, _⟩ := f2
  simp only at hs hm e2 g2
  subst hs hm
  rw [g2, e2]

/-- Reads the square of the state. -/
def readSquare : AnalyticModel ℚ 1 1 Unit :=
  .noInput (fun x => ![x 0 ^ 2]) (fun x => !![2 * x 0]) (fun _ => !![1])

/-- Reads the state. -/
def readState : AnalyticModel ℚ 1 1 Unit := .noInput (fun x => ![x 0]) (fun _ => !![1]) (fun _ => !![1])

/-- **C91** fails for the extended Kalman filter with nonlinear readings: the order matters. -/
theorem C91_nonlinear_false (be : Backend) :
    ∃ f1 f2 f12 f21 : KF ℚ 1,
      (⟨![1], !![1], 0⟩ : KF ℚ 1).measUpdate be .extended readSquare ![1] none = .ok f1 ∧
      f1.measUpdate be .extended readState ![0] none = .ok f12 ∧
      (⟨![1], !![1], 0⟩ : KF ℚ 1).measUpdate be .extended readState ![0] none = .ok f2 ∧
      f2.measUpdate be .extended readSquare ![1] none = .ok f21 ∧
      f12.mu 0 = 5 / 6 ∧ f21.mu 0 = 3 / 4 ∧ f12.sigma 0 0 = 1 / 6 ∧ f21.sigma 0 0 = 1 / 3 := by
  refine ⟨⟨![1], !![1 / 5], 0⟩, ⟨![1 / 2], !![1 / 2], 0⟩, ⟨![5 / 6], !![1 / 6], 0⟩,
    ⟨![3 / 4], !![1 / 3], 0⟩, ?_, ?_, ?_, ?_, rfl, rfl, rfl, rfl⟩
  · refine (ekf_eq (Z := ![1]) (H := !![2]) (R := !![1]) ⟨?_, ?_, rfl⟩).trans ?_
    · simp [readSquare, AnalyticModel.predictionGet]
    · simp [readSquare, AnalyticModel.dfGet]
    · rw [one_calc be (by norm_num)]; norm_num
  · refine (ekf_eq (Z := ![1]) (H := !![1]) (R := !![1]) ⟨?_, rfl, rfl⟩).trans ?_
    · simp [readState, AnalyticModel.predictionGet]
    · rw [one_calc be (by norm_num)]; norm_num
  · refine (ekf_eq (Z := ![1]) (H := !![1]) (R := !![1]) ⟨?_, rfl, rfl⟩).trans ?_
    · simp [readState, AnalyticModel.predictionGet]
    · rw [one_calc be (by norm_num)]; norm_num
  · refine (ekf_eq (Z := ![1 / 4]) (H := !![1]) (R := !![1]) ⟨?_, ?_, rfl⟩).trans ?_
    · simp [readSquare, AnalyticModel.predictionGet]; norm_num
    · simp [readSquare, AnalyticModel.dfGet]
    · rw [one_calc be (by norm_num)]; norm_num

end kalman

/-! ## Concrete cases -/

/-- Ten times the likelihood of two readings 1 of `HistogramExample.meas`. -/
def bothPdf : CondPdf Int Unit ℚ where
  numArgs := 1
  prob args _ := match args with
    | [x] => .ok (if x = 0 then 2 / 5 else 32 / 5)
    | _ => .abort
  draw _ := .abort

open HistogramExample in
/-- `C91_histogram`: a move and two readings, against the same with one reading whose likelihood is
ten times the product. -/
example : ∃ f f1 f2, HistogramFilter.make prior = .ok f ∧
    f.run [⟨some (sys, none), some (meas, (1 : Int), none)⟩, ⟨none, some (meas, (1 : Int), none)⟩] =
      .ok (true, f1) ∧
    f.run [⟨some (sys, none), none⟩, ⟨none, some (⟨some bothPdf, some true⟩, (), none)⟩] =
      .ok (true, f2) ∧
    f1.post.probabilitiesGet = f2.post.probabilitiesGet := by
  refine C91_histogram (n := 2) rfl (p := fun _ => 1 / 2) rfl (by
      refine ⟨?_, by decide +kernel⟩
      intro w hw
      simp [prior, DiscretePdf.probabilitiesGet] at hw
      rw [hw]; norm_num)
    (ss := [.move T, .observe L, .observe L])
    (ss' := [.move T, .observe fun x => if x = 0 then 2 / 5 else 32 / 5])
    (.cons (s1 := [.move T]) (s2 := [.observe L]) (ss := [.observe L]) (.some transition)
      (.some likelihood) (.cons (s1 := []) (s2 := [.observe L]) (ss := []) .none (.some likelihood)
        .nil))
    (.cons (s1 := [.move T]) (s2 := []) (.some transition) .none
      (.cons (s1 := []) (s2 := [_]) (ss := []) .none (.some ?_) .nil)) ?_ ?_ ?_ (by decide +kernel)
  · refine Or.inl ⟨bothPdf, rfl, rfl, ?_⟩
    intro x _
    simp [bothPdf]
  · intro s hs
    simp only [List.mem_cons, List.not_mem_nil, or_false] at hs
    rcases hs with rfl | rfl | rfl
    · exact T_nonneg
    · exact L_nonneg
    · exact L_nonneg
  · intro s hs
    simp only [List.mem_cons, List.not_mem_nil, or_false] at hs
    rcases hs with rfl | rfl
    · exact T_nonneg
    · intro x _
      simp only
      split_ifs <;> norm_num
  · refine .move T (.readings [L, L] [fun x => if x = 0 then 2 / 5 else 32 / 5] (1 / 10) (by norm_num)
      ?_ .nil)
    intro x hx
    obtain rfl | rfl : x = 0 ∨ x = 1 := by omega
    · simp [L]; norm_num
    · simp [L]; norm_num

/-- `C91_particles_partial`: the readings 0, 0, 1 tell the same as 0 alone. -/
example : ∃ f1 f2 qs, readAll 0 Fixture.root [fixtureReading 0, fixtureReading 0, fixtureReading 1]
      (Fixture.start 1 0 .multinomial) = .ok (true, f1) ∧
    readAll 0 Fixture.root [fixtureReading 0] (Fixture.start 1 0 .multinomial) = .ok (true, f2) ∧
    Holds f1.postGet qs ∧ Holds f2.postGet qs := by
  refine C91_particles_partial Fixture.root_isRoot ?_ ?_ ?_ ?_
    (Fixture.start_reached _ Fixture.policy_static) Fixture.start_holds Fixture.start_normalised
    (c := 3 / 16) (by norm_num) ?_ (by decide +kernel)
  · intro r hr
    simp only [List.mem_cons, List.not_mem_nil, or_false] at hr
    rcases hr with rfl | rfl | rfl <;> exact Fixture.meas_isLikelihood
  · intro r hr
    simp only [List.mem_cons, List.not_mem_nil, or_false] at hr
    rcases hr with rfl | rfl | rfl <;> exact Fixture.noise_uniform.2
  · intro r hr
    simp only [List.mem_cons, List.not_mem_nil, or_false] at hr
    obtain rfl := hr
    exact Fixture.meas_isLikelihood
  · intro r hr
    simp only [List.mem_cons, List.not_mem_nil, or_false] at hr
    obtain rfl := hr
    exact Fixture.noise_uniform.2
  · intro a ha
    simp only [List.mem_cons, List.not_mem_nil, or_false] at ha
    rcases ha with rfl | rfl <;> decide +kernel

/-- `C91_kalman`: the readings 3 and 7 of the first coordinate tell the same as the readings 4 and 6. -/
example : ∃ f', correctAll .boost .extended
      [⟨1, KFixture.meas, ![3], none, _, _, _, KFixture.meas_linear, KFixture.R_pd⟩,
       ⟨1, KFixture.meas, ![7], none, _, _, _, KFixture.meas_linear, KFixture.R_pd⟩]
      KFixture.start = .ok f' ∧
    correctAll .boost .extended
      [⟨1, KFixture.meas, ![4], none, _, _, _, KFixture.meas_linear, KFixture.R_pd⟩,
       ⟨1, KFixture.meas, ![6], none, _, _, _, KFixture.meas_linear, KFixture.R_pd⟩]
      KFixture.start = .ok f' := by
  refine C91_kalman .boost .extended trivial _ _ (k := 6) ?_ _ KFixture.P_pd.psd
  intro x
  have hR : (KFixture.R)⁻¹ = (1 : Matrix (Fin 1) (Fin 1) ℚ) := by
    have : KFixture.R = 1 := by ext i j; fin_cases i; fin_cases j; rfl
    rw [this, inv_one]
  simp only [misfit, List.map_cons, List.map_nil, List.sum_cons, List.sum_nil, hR]
  simp [quad, KFixture.H, Matrix.mulVec, dotProduct, Fin.sum_univ_succ]
  ring

end BFL.Props
