import Verif.Lemmas.Identification
import Verif.Props.Histogram
import Verif.Props.Discrete
import Mathlib.Probability.Independence.InfinitePi

/-!
# Property C87: the histogram filter identifies a constant state

`Spec.Readings`, `Spec.IsDensity` and `Spec.overlap` are in `Verif/Spec/Identification.lean`; `Likelihood` and
`Transition` (what it means that a model has certain probabilities) are in `Verif/Props/Histogram.lean`.
-/

set_option linter.unusedSectionVars false

namespace BFL.Props

open MeasureTheory ProbabilityTheory Spec HistogramFilter

variable {Z Ω : Type}

/-- The system model, if there is one, says that the state does not change. -/
def Static (n : Nat) (sys : Option (Model Int Int ℝ × Option Int)) : Prop :=
  ∀ m u, sys = some (m, u) → Transition n m u fun y x => if y = x then 1 else 0

/-- One `Update` call for every reading. -/
def readingCalls (sys : Option (Model Int Int ℝ × Option Int)) (meas : Model Int Z ℝ) (s : Option Int)
    (zs : List Z) : List (Call Z ℝ) :=
  zs.map fun z => ⟨sys, some (meas, z, s)⟩

/-- After the calls `cs` a new filter with this prior reports `v` as the probability of the state `x`. -/
def Reports (prior : DiscretePdf ℝ) (cs : List (Call Z ℝ)) (x : Nat) (v : ℝ) : Prop :=
  ∃ f f', HistogramFilter.make prior = .ok f ∧ f.run cs = .ok (true, f') ∧ f'.post.probabilityGet x = .ok v

/-- The first `T` readings. -/
def firstReadings (ζ : Nat → Ω → Z) (T : Nat) (ω : Ω) : List Z := (List.range T).map fun t => ζ t ω

/-- What the system part of a call does to the process. -/
def staticSteps : Option (Model Int Int ℝ × Option Int) → List (Step ℝ)
  | none => []
  | some _ => [Step.move fun y x => if y = x then 1 else 0]

/-- What the calls do to the process. -/
def readingSteps (sys : Option (Model Int Int ℝ × Option Int)) (L : Nat → Z → ℝ) : List Z → List (Step ℝ)
  | [] => []
  | z :: zs => staticSteps sys ++ [Step.observe fun x => L x z] ++ readingSteps sys L zs

theorem readings_describe {n : Nat} {sys : Option (Model Int Int ℝ × Option Int)} (hsys : Static n sys)
    {meas : Model Int Z ℝ} {s : Option Int} {L : Nat → Z → ℝ}
    (hL : ∀ z, Likelihood n meas z s fun x => L x z) (zs : List Z) :
    Describes n (readingCalls sys meas s zs) (readingSteps sys L zs) := by
  induction zs with
  | nil => exact .nil
  | cons z zs ih =>
    refine Describes.cons ?_ (.some (hL z)) ih
    rcases sys with _ | ⟨m, u⟩
    · exact .none
    · exact .some (hsys m u rfl)

theorem readings_joint {n : Nat} (sys : Option (Model Int Int ℝ × Option Int)) (L : Nat → Z → ℝ) (zs : List Z) :
    ∀ (p : Nat → ℝ) {x : Nat}, x < n →
      jointLast n p (readingSteps sys L zs) x = p x * (zs.map (L x)).prod := by
  induction zs with
  | nil => intro p x hx; rw [readingSteps, jointLast_nil n p hx]; simp
  | cons z zs ih =>
    intro p x hx
    have hid : ∀ y < n, (Step.move (K := ℝ) fun y x => if y = x then 1 else 0).apply n p y = p y := by
      intro y hy
      show ∑ x ∈ Finset.range n, (if y = x then (1 : ℝ) else 0) * p x = p y
      simp [hy]
    rw [readingSteps]
    rcases sys with _ | ⟨m, u⟩
    · simp only [staticSteps, List.nil_append, List.cons_append]
      rw [jointLast_cons, ih _ hx]
      show p x * L x z * _ = _
      rw [List.map_cons, List.prod_cons]
      ring
    · simp only [staticSteps, List.cons_append, List.nil_append]
      rw [jointLast_cons, jointLast_cons, ih _ hx]
      show (Step.move (K := ℝ) fun y x => if y = x then 1 else 0).apply n p x * L x z * _ = _
      rw [hid x hx, List.map_cons, List.prod_cons]
      ring

theorem readings_nonneg {n : Nat} (sys : Option (Model Int Int ℝ × Option Int)) {L : Nat → Z → ℝ}
    (hL : ∀ x < n, ∀ z, 0 ≤ L x z) (zs : List Z) : ∀ st ∈ readingSteps sys L zs, st.Nonneg n := by
  induction zs with
  | nil => intro st hst; exact absurd hst (by simp [readingSteps])
  | cons z zs ih =>
    intro st hst
    rw [readingSteps, List.mem_append, List.mem_append, List.mem_singleton] at hst
    rcases hst with (hz | rfl) | hst
    · rcases sys with _ | ⟨m, u⟩
      · exact absurd hz (by simp [staticSteps])
      · rw [staticSteps, List.mem_singleton] at hz
        subst hz
        intro y _ x _
        show (0 : ℝ) ≤ if y = x then 1 else 0
        split <;> norm_num
    · exact fun x hx => hL x hx z
    · exact ih st hst

/-- The posterior after some readings. -/
theorem readings_report {n : Nat} {prior : DiscretePdf ℝ} (hn : prior.numStates = n) {p : Nat → ℝ}
    (hp : prior.probabilitiesGet = tab n p) (hd : IsDistribution prior.probabilitiesGet)
    {sys : Option (Model Int Int ℝ × Option Int)} (hsys : Static n sys) {meas : Model Int Z ℝ} {s : Option Int}
    {L : Nat → Z → ℝ} (hL : ∀ z, Likelihood n meas z s fun x => L x z) (hL0 : ∀ x < n, ∀ z, 0 ≤ L x z) {zs : List Z}
    (hpos : 0 < ∑ y ∈ Finset.range n, p y * (zs.map (L y)).prod) :
    ∃ f f', HistogramFilter.make prior = .ok f ∧ f.run (readingCalls sys meas s zs) = .ok (true, f') ∧
      IsDistribution f'.post.probabilitiesGet ∧ f'.post.probabilitiesGet =
        tab n fun x => p x * (zs.map (L x)).prod / ∑ y ∈ Finset.range n, p y * (zs.map (L y)).prod := by
  have hj : ∀ x < n, jointLast n p (readingSteps sys L zs) x = p x * (zs.map (L x)).prod := fun x hx =>
    readings_joint sys L zs p hx
  have he : historyEvidence n p (readingSteps sys L zs) = ∑ y ∈ Finset.range n, p y * (zs.map (L y)).prod :=
    Finset.sum_congr rfl fun x hx => hj x (Finset.mem_range.1 hx)
  obtain ⟨f, f', h1, h2, h3, h4, -⟩ := C25_exact hn hp hd (readings_describe hsys hL zs)
    (readings_nonneg sys hL0 zs) (by rw [he]; exact hpos)
  refine ⟨f, f', h1, h2, h4, ?_⟩
  rw [h3, he]
  exact List.map_congr_left fun x hx => by rw [hj x (List.mem_range.1 hx)]

theorem tab_probabilityGet {n : Nat} {d : DiscretePdf ℝ} {q : Nat → ℝ} (h : d.probabilitiesGet = tab n q) {x : Nat}
    (hx : x < n) : d.probabilityGet x = .ok (q x) := by
  have hl : d.values.length = n := by
    have := congrArg List.length h
    simpa [tab, DiscretePdf.probabilitiesGet] using this
  have hx' : x < d.values.length := by omega
  have hv : d.values[x] = q x := by
    have h' : d.values = tab n q := h
    simp [h', tab]
  simp only [DiscretePdf.probabilityGet]
  rw [cassert_true (by
    refine ⟨Int.natCast_nonneg _, ?_⟩
    show (x : Int) < (d.values.length : Int)
    omega), Outcome.ok_bind, Int.toNat_natCast, vget_of_lt hx', hv]

variable [MeasurableSpace Z] [MeasurableSpace Ω] {μ : Measure Ω} {ν : Measure Z}

theorem rootRatio_sq {a b : Z → ℝ} (ha : ∀ z, 0 ≤ a z) (zs : List Z) (hb : ∀ z ∈ zs, 0 < b z) :
    ((zs.map fun z => Real.sqrt (a z / b z)).prod) ^ 2 * (zs.map b).prod = (zs.map a).prod := by
  induction zs with
  | nil => simp
  | cons z zs ih =>
    have h1 := ih fun y hy => hb y (by simp [hy])
    have hz := hb z (by simp)
    simp only [List.map_cons, List.prod_cons]
    rw [mul_pow, Real.sq_sqrt (div_nonneg (ha z) hz.le), ← h1]
    field_simp

theorem rootRatio_ofReal {a b : Z → ℝ} (ζ : Nat → Ω → Z) (T : Nat) (ω : Ω) :
    ∏ t ∈ Finset.range T, rootRatio a b (ζ t ω) =
      ENNReal.ofReal (((firstReadings ζ T ω).map fun z => Real.sqrt (a z / b z)).prod) := by
  induction T with
  | zero => simp [firstReadings]
  | succ T ih =>
    rw [Finset.prod_range_succ, ih, rootRatio, ← ENNReal.ofReal_mul]
    · simp [firstReadings, List.range_succ]
    · exact List.prod_nonneg (by simp only [List.mem_map]; rintro _ ⟨z, -, rfl⟩; exact Real.sqrt_nonneg _)

section

variable {n : Nat} {prior : DiscretePdf ℝ} (hn : prior.numStates = n) {p : Nat → ℝ}
    (hp : prior.probabilitiesGet = tab n p) (hd : IsDistribution prior.probabilitiesGet)
    {sys : Option (Model Int Int ℝ × Option Int)} (hsys : Static n sys) {meas : Model Int Z ℝ} {s : Option Int}
    {L : Nat → Z → ℝ} (hL : ∀ z, Likelihood n meas z s fun x => L x z) (hdens : ∀ x < n, IsDensity ν (L x))

include hn hp hd hsys hL hdens

/-- When no reading was impossible in the state `x0`, the odds against it are the likelihood ratios. -/
theorem readings_odds {x0 : Nat} (hx0 : x0 < n) (hp0 : 0 < p x0) {zs : List Z} (hz : ∀ z ∈ zs, 0 < L x0 z) :
    ∃ f f' q, HistogramFilter.make prior = .ok f ∧ f.run (readingCalls sys meas s zs) = .ok (true, f') ∧
      IsDistribution f'.post.probabilitiesGet ∧ f'.post.probabilitiesGet = tab n q ∧
      ∀ x < n, q x ≤ p x / p x0 * ((zs.map fun z => Real.sqrt (L x z / L x0 z)).prod) ^ 2 := by
  have hp1 : ∀ x < n, 0 ≤ p x := by
    have := hd.1
    rw [hp] at this
    exact forall_mem_tab.1 this
  have hnn : ∀ y < n, 0 ≤ p y * (zs.map (L y)).prod := fun y hy => mul_nonneg (hp1 y hy)
    (List.prod_nonneg (by simp only [List.mem_map]; rintro _ ⟨z, -, rfl⟩; exact (hdens y hy).nonneg z))
  have hb : 0 < (zs.map (L x0)).prod := List.prod_pos
    (by simp only [List.mem_map]; rintro _ ⟨z, hz', rfl⟩; exact hz z hz')
  have hle : p x0 * (zs.map (L x0)).prod ≤ ∑ y ∈ Finset.range n, p y * (zs.map (L y)).prod :=
    Finset.single_le_sum (f := fun y => p y * (zs.map (L y)).prod) (fun y hy => hnn y (Finset.mem_range.1 hy))
      (Finset.mem_range.2 hx0)
  have hpos := (mul_pos hp0 hb).trans_le hle
  obtain ⟨f, f', h1, h2, h3, h4⟩ := readings_report hn hp hd hsys hL (fun x hx => (hdens x hx).nonneg) hpos
  refine ⟨f, f', _, h1, h2, h3, h4, fun x hx => ?_⟩
  have e := rootRatio_sq (hdens x hx).nonneg zs hz
  calc p x * (zs.map (L x)).prod / ∑ y ∈ Finset.range n, p y * (zs.map (L y)).prod
      ≤ p x * (zs.map (L x)).prod / (p x0 * (zs.map (L x0)).prod) :=
        div_le_div_of_nonneg_left (hnn x hx) (mul_pos hp0 hb) hle
    _ = p x / p x0 * ((zs.map fun z => Real.sqrt (L x z / L x0 z)).prod) ^ 2 := by
        rw [← e]
        field_simp

/-- **C87, rate.** The probability that a wrong state `x` still has the posterior probability `ε` after `T` readings
falls geometrically, with the overlap of the two densities as the factor. The overlap is below one unless the
densities are the same. -/
theorem C87_rate {x0 : Nat} (hx0 : x0 < n) (hp0 : 0 < p x0) {ζ : Nat → Ω → Z} (hζ : Readings μ ν (L x0) ζ)
    {x : Nat} (hx : x < n) {ε : ℝ} (hε : 0 < ε) (T : Nat) :
    μ {ω | ¬ ∃ v, Reports prior (readingCalls sys meas s (firstReadings ζ T ω)) x v ∧ v < ε} ≤
        ENNReal.ofReal (Real.sqrt (p x / (p x0 * ε))) * overlap ν (L x) (L x0) ^ T ∧
      (¬ L x =ᵐ[ν] L x0 → overlap ν (L x) (L x0) < 1) := by
  refine ⟨?_, overlap_lt_one (hdens x hx) (hdens x0 hx0)⟩
  have hp1 : ∀ x < n, 0 ≤ p x := by
    have := hd.1
    rw [hp] at this
    exact forall_mem_tab.1 this
  have hae := readings_pos (hdens x0 hx0) hζ
  set c : ℝ := Real.sqrt (p x / (p x0 * ε)) with hc
  have hsub : {ω | ¬ ∃ v, Reports prior (readingCalls sys meas s (firstReadings ζ T ω)) x v ∧ v < ε} ≤ᵐ[μ]
      {ω | 1 ≤ ENNReal.ofReal c * ∏ t ∈ Finset.range T, rootRatio (L x) (L x0) (ζ t ω)} := by
    filter_upwards [hae] with ω hω hne
    obtain ⟨f, f', q, h1, h2, -, h3, h4⟩ := readings_odds hn hp hd hsys hL hdens hx0 hp0 (zs := firstReadings ζ T ω)
      (by simp only [firstReadings, List.mem_map]; rintro _ ⟨t, -, rfl⟩; exact hω t)
    have hge : ε ≤ q x := by
      by_contra hlt
      exact hne ⟨q x, ⟨f, f', h1, h2, tab_probabilityGet h3 hx⟩, not_le.1 hlt⟩
    have h5 := hge.trans (h4 x hx)
    show 1 ≤ ENNReal.ofReal c * _
    rw [rootRatio_ofReal, ← ENNReal.ofReal_mul (Real.sqrt_nonneg _), ENNReal.one_le_ofReal]
    set r := ((firstReadings ζ T ω).map fun z => Real.sqrt (L x z / L x0 z)).prod with hr
    have hr0 : 0 ≤ r := List.prod_nonneg
      (by simp only [List.mem_map]; rintro _ ⟨z, -, rfl⟩; exact Real.sqrt_nonneg _)
    have hcr : 1 ≤ (c * r) ^ 2 := by
      rw [mul_pow, hc, Real.sq_sqrt (div_nonneg (hp1 x hx) (mul_pos hp0 hε).le), ← div_div, div_mul_eq_mul_div,
        le_div_iff₀ hε, one_mul]
      exact h5
    by_contra hlt
    have : c * r < 1 := not_le.1 hlt
    have h0 : 0 ≤ c * r := mul_nonneg (Real.sqrt_nonneg _) hr0
    nlinarith
  refine (measure_mono_ae hsub).trans ?_
  have hm := prod_measurable (hdens x hx) (hdens x0 hx0) hζ T
  have := mul_meas_ge_le_lintegral₀ (μ := μ) (hm.const_mul (ENNReal.ofReal c)).aemeasurable 1
  rw [one_mul, lintegral_const_mul _ hm, lintegral_ratio (hdens x hx) (hdens x0 hx0) hζ] at this
  exact this

/-- **C87.** If the prior does not exclude the true state and no other state gives readings of the same
distribution, then almost surely the posterior probability of the true state tends to one, and from some time on it is
the most probable state. -/
theorem C87_identifies {x0 : Nat} (hx0 : x0 < n) (hp0 : 0 < p x0) {ζ : Nat → Ω → Z} (hζ : Readings μ ν (L x0) ζ)
    (hdiff : ∀ x < n, x ≠ x0 → ¬ L x =ᵐ[ν] L x0) :
    ∀ᵐ ω ∂μ, ∃ (f : HistogramFilter ℝ) (g : Nat → HistogramFilter ℝ) (v : Nat → ℝ),
      HistogramFilter.make prior = .ok f ∧
      (∀ T, f.run (readingCalls sys meas s (firstReadings ζ T ω)) = .ok (true, g T)) ∧
      (∀ T, (g T).post.probabilityGet x0 = .ok (v T)) ∧ Filter.Tendsto v Filter.atTop (nhds 1) ∧
      ∀ᶠ T in Filter.atTop, (g T).post.mostProbableStateGet = x0 := by
  have hall : ∀ᵐ ω ∂μ, ∀ x, x < n → x ≠ x0 → Filter.Tendsto
      (fun T => ∏ t ∈ Finset.range T, rootRatio (L x) (L x0) (ζ t ω)) Filter.atTop (nhds 0) := by
    rw [ae_all_iff]
    intro x
    by_cases hx : x < n ∧ x ≠ x0
    · filter_upwards [ratio_tendsto (hdens x hx.1) (hdens x0 hx0) (hdiff x hx.1 hx.2) hζ] with ω hω _ _
      exact hω
    · exact Filter.Eventually.of_forall fun ω h1 h2 => absurd ⟨h1, h2⟩ hx
  filter_upwards [readings_pos (hdens x0 hx0) hζ, hall] with ω hω hall
  have hstep := fun T => readings_odds hn hp hd hsys hL hdens hx0 hp0 (zs := firstReadings ζ T ω)
    (by simp only [firstReadings, List.mem_map]; rintro _ ⟨t, -, rfl⟩; exact hω t)
  choose fs g q h1 h2 h3 h4 h5 using hstep
  have hfs : ∀ T, fs T = fs 0 := fun T => by
    simpa using (h1 T).symm.trans (h1 0)
  have hq0 : ∀ T, ∀ x < n, 0 ≤ q T x := fun T => by
    have := (h3 T).1
    rw [h4 T] at this
    exact forall_mem_tab.1 this
  have hq1 : ∀ T, ∑ x ∈ Finset.range n, q T x = 1 := fun T => by
    rw [← tab_sum, ← h4 T]
    exact (h3 T).2
  have hzero : ∀ x, x < n → x ≠ x0 → Filter.Tendsto (fun T => q T x) Filter.atTop (nhds 0) := by
    intro x hx hne
    have ht := hall x hx hne
    simp only [rootRatio_ofReal] at ht
    have ht2 := (ENNReal.tendsto_toReal ENNReal.zero_ne_top).comp ht
    have ht3 : Filter.Tendsto (fun T => ((firstReadings ζ T ω).map fun z => Real.sqrt (L x z / L x0 z)).prod)
        Filter.atTop (nhds 0) := by
      refine ht2.congr fun T => ?_
      exact ENNReal.toReal_ofReal (List.prod_nonneg
        (by simp only [List.mem_map]; rintro _ ⟨z, -, rfl⟩; exact Real.sqrt_nonneg _))
    have ht4 := (ht3.pow 2).const_mul (p x / p x0)
    rw [zero_pow two_ne_zero, mul_zero] at ht4
    exact tendsto_of_tendsto_of_tendsto_of_le_of_le tendsto_const_nhds ht4 (fun T => hq0 T x hx) (fun T => h5 T x hx)
  have hone : Filter.Tendsto (fun T => q T x0) Filter.atTop (nhds 1) := by
    have hs : ∀ T, q T x0 = 1 - ∑ x ∈ (Finset.range n).erase x0, q T x := fun T => by
      rw [← hq1 T, ← Finset.add_sum_erase _ _ (Finset.mem_range.2 hx0)]
      ring
    have : Filter.Tendsto (fun T => 1 - ∑ x ∈ (Finset.range n).erase x0, q T x) Filter.atTop
        (nhds (1 - ∑ x ∈ (Finset.range n).erase x0, (0 : ℝ))) := by
      refine tendsto_const_nhds.sub (tendsto_finsetSum _ fun x hx => ?_)
      rw [Finset.mem_erase, Finset.mem_range] at hx
      exact hzero x hx.2 hx.1
    rw [Finset.sum_const_zero, sub_zero] at this
    exact this.congr fun T => (hs T).symm
  refine ⟨fs 0, g, fun T => q T x0, h1 0, fun T => hfs T ▸ h2 T, fun T => tab_probabilityGet (h4 T) hx0, hone, ?_⟩
  filter_upwards [hone.eventually (lt_mem_nhds (show (1 / 2 : ℝ) < 1 by norm_num))] with T hT
  have hv : (g T).post.values = tab n (q T) := h4 T
  have hlen : (g T).post.values.length = n := by rw [hv]; simp [tab]
  have hget : ∀ i (hi : i < (g T).post.values.length), (g T).post.values[i] = q T i := by
    intro i hi
    simp [hv, tab]
  rcases DiscretePdf.mostProbableLoop_spec (g T).post.values 0 (-1) 0 with ⟨-, h⟩ | ⟨m, hm, e, -, h6, -⟩
  · have := h _ (List.getElem_mem (by omega : x0 < (g T).post.values.length))
    rw [hget] at this
    linarith
  · have h7 := h6 _ (List.getElem_mem (by omega : x0 < (g T).post.values.length))
    rw [hget, hget] at h7
    have hmx : m = x0 := by
      by_contra hne
      have hs : q T m + q T x0 ≤ ∑ x ∈ Finset.range n, q T x := by
        rw [← Finset.sum_pair hne]
        refine Finset.sum_le_sum_of_subset_of_nonneg ?_ fun x hx _ => hq0 T x (Finset.mem_range.1 hx)
        intro x hx
        rw [Finset.mem_insert, Finset.mem_singleton] at hx
        rw [Finset.mem_range]
        rcases hx with rfl | rfl <;> omega
      rw [hq1 T] at hs
      linarith
    show DiscretePdf.mostProbableLoop (g T).post.values 0 (-1) 0 = x0
    rw [hmx] at e
    simpa using e

/-- **C87, the hypotheses are needed.** As long as some state explains all readings: a state that the prior excludes is
never found, and the odds between two states that give all readings the same likelihood do not change. -/
theorem C87_limits {zs : List Z} {x y x1 : Nat} (hx : x < n) (hy : y < n) (hx1 : x1 < n) (hp1 : 0 < p x1)
    (hz : ∀ z ∈ zs, 0 < L x1 z) :
    ∃ v w, Reports prior (readingCalls sys meas s zs) x v ∧ Reports prior (readingCalls sys meas s zs) y w ∧
      (p x = 0 → v = 0) ∧ ((∀ z ∈ zs, L x z = L y z) → v * p y = w * p x) := by
  have hp0 : ∀ x < n, 0 ≤ p x := by
    have := hd.1
    rw [hp] at this
    exact forall_mem_tab.1 this
  have hnn : ∀ y < n, 0 ≤ p y * (zs.map (L y)).prod := fun y hy => mul_nonneg (hp0 y hy)
    (List.prod_nonneg (by simp only [List.mem_map]; rintro _ ⟨z, -, rfl⟩; exact (hdens y hy).nonneg z))
  have hb : 0 < (zs.map (L x1)).prod := List.prod_pos
    (by simp only [List.mem_map]; rintro _ ⟨z, hz', rfl⟩; exact hz z hz')
  have hpos : 0 < ∑ y ∈ Finset.range n, p y * (zs.map (L y)).prod :=
    (mul_pos hp1 hb).trans_le (Finset.single_le_sum (f := fun y => p y * (zs.map (L y)).prod)
      (fun y hy => hnn y (Finset.mem_range.1 hy)) (Finset.mem_range.2 hx1))
  obtain ⟨f, f', h1, h2, -, h4⟩ := readings_report hn hp hd hsys hL (fun x hx => (hdens x hx).nonneg) hpos
  refine ⟨_, _, ⟨f, f', h1, h2, tab_probabilityGet h4 hx⟩, ⟨f, f', h1, h2, tab_probabilityGet h4 hy⟩, fun h => ?_,
    fun h => ?_⟩
  · rw [h, zero_mul, zero_div]
  · have : zs.map (L x) = zs.map (L y) := List.map_congr_left h
    rw [this]
    ring

end

namespace CoinExample

/-- The coin 0 is fair, the coin 1 shows `true` with probability 3/4. -/
noncomputable def chance (x : Int) (z : Bool) : ℝ := if x = 0 then 1 / 2 else if z then 3 / 4 else 1 / 4

noncomputable def prior : DiscretePdf ℝ := { values := [1 / 2, 1 / 2], cum := [0, 1 / 2, 1] }

noncomputable def pdf : CondPdf Int Bool ℝ where
  numArgs := 1
  prob args z := match args with
    | [x] => .ok (chance x z)
    | _ => .abort
  draw _ := .abort

noncomputable def meas : Model Int Bool ℝ := { pdf := some pdf, without := some true }

theorem likelihood (z : Bool) : Likelihood 2 meas z none fun x => chance x z :=
  .inl ⟨pdf, rfl, rfl, fun _ _ => rfl⟩

theorem density (x : Nat) : IsDensity Measure.count fun z => chance x z where
  measurable := measurable_of_finite _
  nonneg z := by unfold chance; split_ifs <;> norm_num
  total := by
    rw [lintegral_count, tsum_bool, ← ENNReal.ofReal_add, ENNReal.ofReal_eq_one]
    · unfold chance; split_ifs <;> norm_num at *
    all_goals unfold chance; split_ifs <;> norm_num

/-- The law of one throw of the coin 1. -/
noncomputable def law : Measure Bool := Measure.count.withDensity fun z => ENNReal.ofReal (chance 1 z)

instance : IsProbabilityMeasure law :=
  ⟨by rw [law, withDensity_apply _ MeasurableSet.univ, Measure.restrict_univ]; exact (density 1).total⟩

/-- Throwing the coin 1 again and again. -/
theorem throws : Readings (Measure.infinitePi fun _ : Nat => law) Measure.count (fun z => chance ((1 : Nat) : Int) z)
    fun t ω => ω t where
  measurable t := measurable_pi_apply t
  independent := iIndepFun_infinitePi (X := fun _ z => z) fun _ => measurable_id
  law t := Measure.infinitePi_map_eval _ t

theorem distribution : IsDistribution prior.probabilitiesGet := by
  constructor
  · intro v hv
    have : v = 1 / 2 := by simpa [DiscretePdf.probabilitiesGet, prior] using hv
    rw [this]
    norm_num
  · norm_num [DiscretePdf.probabilitiesGet, prior]

theorem differ : ¬ (fun z => chance ((0 : Nat) : Int) z) =ᵐ[Measure.count] fun z => chance ((1 : Nat) : Int) z := by
  intro h
  rw [Filter.EventuallyEq, Measure.ae_count_iff] at h
  have := h true
  norm_num [chance] at this

end CoinExample

open CoinExample in
/-- The hypotheses of `C87_rate` and `C87_identifies` hold for throws of a loaded coin, where the filter has to decide
between a fair and a loaded one: almost surely it ends up sure that the coin is loaded. -/
example : ∀ᵐ ω ∂(Measure.infinitePi fun _ : Nat => law),
    ∃ (f : HistogramFilter ℝ) (g : Nat → HistogramFilter ℝ) (v : Nat → ℝ), HistogramFilter.make prior = .ok f ∧
      (∀ T, f.run (readingCalls none meas none (firstReadings (fun t ω => ω t) T ω)) = .ok (true, g T)) ∧
      (∀ T, (g T).post.probabilityGet 1 = .ok (v T)) ∧ Filter.Tendsto v Filter.atTop (nhds 1) ∧
      ∀ᶠ T in Filter.atTop, (g T).post.mostProbableStateGet = 1 :=
  C87_identifies (n := 2) (p := fun _ => 1 / 2) rfl rfl distribution (by intro m u h; cases h) likelihood
    (fun x _ => density x) (x0 := 1) (by norm_num) (by norm_num) throws (fun x hx hne => by
      obtain rfl : x = 0 := by omega
      exact differ)

open CoinExample in
/-- The hypotheses of `C87_limits` hold after two throws. -/
example : ∃ v w, Reports prior (readingCalls none meas none [true, false]) 0 v ∧
    Reports prior (readingCalls none meas none [true, false]) 1 w ∧ ((1 / 2 : ℝ) = 0 → v = 0) ∧
    ((∀ z ∈ [true, false], chance ((0 : Nat) : Int) z = chance ((1 : Nat) : Int) z) → v * (1 / 2) = w * (1 / 2)) :=
  C87_limits (n := 2) (p := fun _ => 1 / 2) (x1 := 0) rfl rfl distribution (by intro m u h; cases h) likelihood
    (fun x _ => density x) (by norm_num) (by norm_num) (by norm_num) (by norm_num)
    (fun z _ => by norm_num [chance])

end BFL.Props
