import Verif.Lemmas.Reduced
import Verif.Props.Unrelated

set_option linter.unusedSectionVars false

/-!
# C106: what does not matter may be left out of the state

`Verif.Spec.Reduced` says when a part of the state stands on its own.
-/

namespace BFL.Props

open Matrix Spec

variable {K : Type} [Field K] [LinearOrder K] [IsStrictOrderedRing K] {n n' m : Nat} {U : Type}

/-- C106, Kalman filters. If the part `A x` of the state moves by itself and is all the sensors react
to, a filter for the part reports after any history what the filter for the full state reports about
the part: its mean and its covariance. -/
theorem C106_kalman (be : Backend) (kind : KF.Kind K n') (hk : kind.Runs)
    (A : Matrix (Fin n') (Fin n) K) (steps : List (TwoViews K n n' U))
    (hag : ∀ v ∈ steps, v.Agree A) (hv : ∀ v ∈ steps, v.full.Valid) (f : KF K n)
    (hP : PSD f.sigma) :
    ∃ g, runAll be (fullKind A kind) (steps.map TwoViews.full) f = .ok g ∧
      runAll be kind (steps.map TwoViews.small) (partOf A f) = .ok (partOf A g) := by
  induction steps generalizing f with
  | nil => exact ⟨f, rfl, rfl⟩
  | cons v rest ih =>
    have h1 := hag v (by simp)
    have h2 := hv v (by simp)
    have step : ∃ g, f.update be (fullKind A kind) v.full.sys v.full.meas = .ok (true, g) ∧
        PSD g.sigma ∧ (partOf A f).update be kind v.small.sys v.small.meas
          = .ok (true, partOf A g) := by
      obtain ⟨m, sys, meas⟩ := v
      have hs : ∃ a, f.sysPart be (sys.map fun a => (a.1, a.2.2)) = .ok a ∧ PSD a.sigma ∧
          (partOf A f).sysPart be (sys.map fun a => (a.2.1, a.2.2)) = .ok (partOf A a) := by
        rcases sys with _ | ⟨a, b, u⟩
        · exact ⟨f, rfl, hP, rfl⟩
        · obtain ⟨J, F, Q, he, hQ⟩ := h2.1 a u rfl f.mu
          exact sysUpdate_part be (h1.1 a b u rfl) he hP hQ
      obtain ⟨a, e1, q, e2⟩ := hs
      have hm : ∃ g, a.measPart be (fullKind A kind) (meas.map fun a => (a.1, a.2.2.1, a.2.2.2))
            = .ok g ∧ PSD g.sigma ∧
          (partOf A a).measPart be kind (meas.map fun a => (a.2.1, a.2.2.1, a.2.2.2))
            = .ok (partOf A g) := by
        rcases meas with _ | ⟨c, d, z, s⟩
        · exact ⟨a, rfl, q, rfl⟩
        · exact measUpdate_part be hk (h1.2 c d z s rfl) q (h2.2 c z s rfl)
      obtain ⟨g, r1, q', r2⟩ := hm
      refine ⟨g, ?_, q', ?_⟩
      · simp only [KF.update, TwoViews.full]; rw [e1, Outcome.ok_bind, r1]; rfl
      · simp only [KF.update, TwoViews.small]; rw [e2, Outcome.ok_bind, r2]; rfl
    obtain ⟨g, e1, q, e2⟩ := step
    obtain ⟨l, r1, r2⟩ := ih (fun v hv => hag v (by simp [hv])) (fun w hw => hv w (by simp [hw])) g q
    refine ⟨l, ?_, ?_⟩
    · simp only [List.map_cons, runAll]; rw [e1]; exact r1
    · simp only [List.map_cons, runAll]; rw [e2]; exact r2

/-! A moving target whose temperature is estimated as well, depends on its position, and is not
measured. The part is position and velocity. -/

namespace PartFixture

/-- Position and velocity out of position, velocity and temperature. -/
def A : Matrix (Fin 2) (Fin 3) ℚ := !![1, 0, 0; 0, 1, 0]

def F3 : Matrix (Fin 3) (Fin 3) ℚ := !![1, 1, 0; 0, 1, 0; 2, 0, 1]

/-- The temperature's noise is correlated with the velocity's. -/
def Q3 : Matrix (Fin 3) (Fin 3) ℚ := !![0, 0, 0; 0, 1, 1; 0, 1, 2]

def sys3 : AnalyticModel ℚ 3 3 Unit := .noInput (fun x => F3 *ᵥ x) (fun _ => F3) (fun _ => Q3)

def square3 : AnalyticModel ℚ 3 1 Unit :=
  .noInput (fun x => ![x 0 * x 0]) (fun x => !![2 * x 0, 0, 0]) (fun _ => KFixture.R)

def start3 : KF ℚ 3 := ⟨![1, 2, 7], !![2, 1, 0; 1, 2, 1; 0, 1, 5], 0⟩

theorem start_part : partOf A start3 = KFixture.start := by
  have e1 : A *ᵥ start3.mu = ![1, 2] := by decide +kernel
  have e2 : A * start3.sigma * Aᵀ = KFixture.P := by decide +kernel
  simp only [partOf, KFixture.start, KF.make, e1, e2]
  rfl

def steps : List (TwoViews ℚ 3 2 Unit) :=
  [⟨1, some (sys3, KFixture.sys, none), some (square3, KFixture.square, ![3], none)⟩,
    ⟨1, none, some (square3, KFixture.square, ![5], none)⟩]

theorem quad3 (M : Matrix (Fin 3) (Fin 3) ℚ) (x : Fin 3 → ℚ) : x ⬝ᵥ (M *ᵥ x) =
    x 0 * (M 0 0 * x 0 + M 0 1 * x 1 + M 0 2 * x 2) + x 1 * (M 1 0 * x 0 + M 1 1 * x 1 + M 1 2 * x 2)
      + x 2 * (M 2 0 * x 0 + M 2 1 * x 1 + M 2 2 * x 2) := by
  simp [dotProduct, mulVec, Fin.sum_univ_three]

theorem Q3_psd : PSD Q3 := by
  refine ⟨by decide +kernel, fun x => ?_⟩
  rw [quad3]
  simp [Q3]
  nlinarith [mul_self_nonneg (x 1 + x 2), mul_self_nonneg (x 2)]

theorem start_psd : PSD start3.sigma := by
  refine ⟨by decide +kernel, fun x => ?_⟩
  rw [quad3]
  simp [start3]
  nlinarith [mul_self_nonneg (x 0 + x 1), mul_self_nonneg (x 1 + x 2), mul_self_nonneg (x 2),
    mul_self_nonneg (x 0)]

theorem moves : PartMoves A none sys3 KFixture.sys := by
  intro x J F Q h
  obtain ⟨rfl, rfl, rfl⟩ := AnalyticModel.Evaluates.unique h ⟨rfl, rfl, rfl⟩
  have e1 : KFixture.F * A = A * F3 := by decide +kernel
  have e2 : KFixture.Q = A * Q3 * Aᵀ := by decide +kernel
  refine ⟨KFixture.F, ⟨?_, rfl, ?_⟩, e1⟩
  · show Outcome.ok (KFixture.F *ᵥ (A *ᵥ x)) = _
    rw [mulVec_mulVec, e1, mulVec_mulVec]
  · show Outcome.ok KFixture.Q = _
    rw [e2]

theorem seen : PartSeen A none square3 KFixture.square := by
  intro x Z H R h
  obtain ⟨rfl, rfl, rfl⟩ := AnalyticModel.Evaluates.unique h ⟨rfl, rfl, rfl⟩
  have e0 : (A *ᵥ x) 0 = x 0 := by simp [A, mulVec, dotProduct, Fin.sum_univ_three]
  refine ⟨!![2 * x 0, 0], ⟨?_, ?_, rfl⟩, ?_⟩
  · show Outcome.ok ![(A *ᵥ x) 0 * (A *ᵥ x) 0] = _
    rw [e0]
  · show Outcome.ok !![2 * (A *ᵥ x) 0, 0] = _
    rw [e0]
  · ext i j
    fin_cases i
    fin_cases j <;> simp [A, Matrix.mul_apply, Fin.sum_univ_two]

end PartFixture

example : ∃ g, runAll .boost (fullKind PartFixture.A (.iterated 3 (some (KF.innovationCheck 1))))
      (PartFixture.steps.map TwoViews.full) PartFixture.start3 = .ok g ∧
    runAll .boost (.iterated 3 (some (KF.innovationCheck 1))) (PartFixture.steps.map TwoViews.small)
      KFixture.start = .ok (partOf PartFixture.A g) := by
  rw [← PartFixture.start_part]
  refine C106_kalman .boost (.iterated 3 (some (KF.innovationCheck 1))) (by simp [KF.Kind.Runs])
    PartFixture.A PartFixture.steps ?_ ?_ PartFixture.start3 PartFixture.start_psd
  · intro v hv
    simp only [PartFixture.steps, List.mem_cons, List.not_mem_nil, or_false] at hv
    rcases hv with rfl | rfl
    · refine ⟨?_, ?_⟩
      · rintro a b u h; cases h; exact PartFixture.moves
      · rintro a b z s h; cases h; exact PartFixture.seen
    · refine ⟨?_, ?_⟩
      · rintro a b u h; cases h
      · rintro a b z s h; cases h; exact PartFixture.seen
  · intro v hv
    simp only [PartFixture.steps, List.mem_cons, List.not_mem_nil, or_false] at hv
    rcases hv with rfl | rfl
    · refine ⟨?_, ?_⟩
      · rintro a u h; cases h
        exact fun x => ⟨_, _, _, ⟨rfl, rfl, rfl⟩, PartFixture.Q3_psd⟩
      · rintro a z s h; cases h
        exact fun x => ⟨_, _, _, ⟨rfl, rfl, rfl⟩, KFixture.R_pd⟩
    · refine ⟨?_, ?_⟩
      · rintro a u h; cases h
      · rintro a z s h; cases h
        exact fun x => ⟨_, _, _, ⟨rfl, rfl, rfl⟩, KFixture.R_pd⟩

/-! ## Histogram filters -/

section histogram

open HistogramFilter Finset

variable {Z : Type}

/-- C106, histogram filters. If the next group depends on the present group only and readings depend
on the group only, a filter for the groups reports after any history the sums over the groups of what
the filter for the detailed states reports. With one state per group this says that the numbering of
the states does not matter. -/
theorem C106_histogram {a b : Nat} {pr pr' : DiscretePdf K} (h : pr.numStates = a)
    (h' : pr'.numStates = b) {c : Nat → Nat} (hc : ∀ x < a, c x < b) {p : Nat → K}
    (hp : pr.probabilitiesGet = tab a p) (hp' : pr'.probabilitiesGet = tab b (grouped a c p))
    (hd : IsDistribution pr.probabilitiesGet) {ss ss' : List (Step K)}
    (hss : List.Forall₂ (SameByGroup a b c) ss ss') (h0 : ∀ s ∈ ss, s.Nonneg a)
    (h0' : ∀ s ∈ ss', s.Nonneg b) {cs cs' : List (Call Z K)} (hcs : Describes a cs ss)
    (hcs' : Describes b cs' ss') (hpos : 0 < historyEvidence a p ss) :
    ∃ f f' g g', HistogramFilter.make pr = .ok f ∧ f.run cs = .ok (true, g) ∧
      HistogramFilter.make pr' = .ok f' ∧ f'.run cs' = .ok (true, g') ∧
      ∃ q : Nat → K, g.post.probabilitiesGet = tab a q ∧
        g'.post.probabilitiesGet = tab b (grouped a c q) := by
  have hd' : IsDistribution pr'.probabilitiesGet := by
    rw [hp] at hd
    rw [hp']
    refine ⟨forall_mem_tab.2 fun y _ => Finset.sum_nonneg fun x hx => ?_, ?_⟩
    · split
      · exact forall_mem_tab.1 hd.1 x (Finset.mem_range.1 hx)
      · exact le_rfl
    · rw [tab_sum, grouped_sum hc, ← tab_sum]
      exact hd.2
  obtain ⟨f, g, a1, b1, c1, _⟩ := C25_exact h hp hd hcs h0 hpos
  obtain ⟨f', g', a2, b2, c2, _⟩ := C25_exact h' hp' hd' hcs' h0'
    (by rw [historyEvidence_grouped hc hss]; exact hpos)
  refine ⟨f, f', g, g', a1, b1, a2, b2, _, c1, c2.trans (tab_congr fun y hy => ?_)⟩
  rw [historyEvidence_grouped hc hss, ← jointLast_grouped hc hss p y hy]
  unfold grouped
  rw [Finset.sum_div]
  refine Finset.sum_congr rfl fun x _ => ?_
  split
  · rfl
  · rw [zero_div]

/-! The pair of sticky systems of C105, of which only the first is kept. -/

open HistogramExample in
example : ∃ f f' g g', HistogramFilter.make PairFixture.prior4 = .ok f ∧
    f.run [⟨some (PairFixture.sys, none), some (PairFixture.meas, (1 : Int), none)⟩] = .ok (true, g) ∧
    HistogramFilter.make HistogramExample.prior = .ok f' ∧
    f'.run [⟨some (HistogramExample.sys, none), some (HistogramExample.meas, (1 : Int), none)⟩]
      = .ok (true, g') ∧
    ∃ q : Nat → ℚ, g.post.probabilitiesGet = tab 4 q ∧
      g'.post.probabilitiesGet = tab 2 (grouped 4 (· / 2) q) := by
  refine C106_histogram (K := ℚ) (Z := Int) (a := 4) (b := 2) (p := fun _ => 1/4) rfl rfl (by omega)
    (by decide +kernel) (by decide +kernel)
    ⟨by decide +kernel, by decide +kernel⟩
    (ss := PairFixture.story.map (TwoStep.pair 2)) (ss' := [.move T, .observe L])
    (.cons (.move ?_) (.cons (.observe fun _ _ => rfl) .nil)) ?_ ?_ ?_ ?_ (by decide +kernel)
  · decide +kernel
  · intro s hs
    simp only [PairFixture.story, List.map_cons, List.map_nil, List.mem_cons, List.not_mem_nil,
      or_false] at hs
    rcases hs with rfl | rfl
    · exact TwoStep.nonneg_pair (n := 2) (n' := 2) ⟨T_nonneg, T_nonneg⟩
    · exact TwoStep.nonneg_pair (n := 2) (n' := 2) L_nonneg
  · intro s hs
    simp only [List.mem_cons, List.not_mem_nil, or_false] at hs
    rcases hs with rfl | rfl
    · exact T_nonneg
    · exact L_nonneg
  · refine .cons (s1 := [.move _]) (s2 := [.observe _]) (ss := []) (.some ?_) (.some ?_) .nil
    · exact Or.inl ⟨PairFixture.sysPdf, rfl, rfl, fun y _ x _ => rfl⟩
    · exact Or.inl ⟨PairFixture.measPdf, rfl, rfl, fun x _ => rfl⟩
  · exact .cons (s1 := [.move T]) (s2 := [.observe L]) (ss := []) (.some transition)
      (.some likelihood) .nil

end histogram

end BFL.Props
