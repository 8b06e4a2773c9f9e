import Verif.Lemmas.MoreReadings
import Verif.Props.HiddenWorld
import Verif.Props.Identification
import Mathlib.Analysis.SpecialFunctions.Log.NegMulLog

/-!
# C112: on average, more readings make the histogram filter more certain and decisions better

A hidden process is moved and observed according to a plan (`Verif.Spec.HiddenWorld`); a second plan takes
additional readings (`Verif.Spec.MoreReadings`). One filter follows each.
-/

set_option linter.unusedSectionVars false

namespace BFL.Props

open Finset Spec HistogramFilter

section

variable {Z K : Type} [Fintype Z] [Field K] [LinearOrder K] [IsStrictOrderedRing K]

/-- What the filter reports after every record that can occur. -/
def ReportsAll (n : Nat) (prior : DiscretePdf K) (p : Nat → K) (plan : Plan Z K) (cs : List Z → List (Call Z K))
    (report : List Z → List K) : Prop :=
  ∀ zs, plan.Record zs → 0 < plan.chance n p zs →
    ∃ post, EndsWith prior (cs zs) post ∧ post.probabilitiesGet = report zs

variable {n : Nat} {prior : DiscretePdf K} {p : Nat → K} {plan more : Plan Z K}
  {cs ds : List Z → List (Call Z K)} {report report' : List Z → List K}

/-- The filter does report after every record that can occur. -/
theorem C112_reports (hn : prior.numStates = n) (hp : prior.probabilitiesGet = tab n p)
    (hd : IsDistribution prior.probabilitiesGet) (hpl : plan.Proper n)
    (hcs : ∀ zs, plan.Record zs → Describes n (cs zs) (plan.steps zs)) :
    ∃ report, ReportsAll n prior p plan cs report :=
  ⟨fun zs => tab n fun x => plan.joint n p zs x / plan.chance n p zs, fun _ hz hpos =>
    let ⟨post, h1, h2, _⟩ := ends_with hn hp hd hpl hcs hz hpos
    ⟨post, h1, h2⟩⟩

theorem reports_scaled (hn : prior.numStates = n) (hp : prior.probabilitiesGet = tab n p)
    (hd : IsDistribution prior.probabilitiesGet) (hpl : plan.Proper n)
    (hcs : ∀ zs, plan.Record zs → Describes n (cs zs) (plan.steps zs))
    (hr : ReportsAll n prior p plan cs report) (φ : List K → K) :
    plan.sum (fun zs => plan.chance n p zs * φ (report zs)) =
      plan.sum (fun zs => scaledReport n φ (plan.joint n p zs)) := by
  refine plan_sum_congr plan fun zs hz => ?_
  have e : ∑ x ∈ range n, plan.joint n p zs x = plan.chance n p zs := rfl
  by_cases hpos : 0 < plan.chance n p zs
  · obtain ⟨post, ⟨f, f', a1, a2, rfl⟩, h2⟩ := hr zs hz hpos
    obtain ⟨post', ⟨g, g', b1, b2, rfl⟩, h3, _⟩ := ends_with hn hp hd hpl hcs hz hpos
    rw [a1, Outcome.ok.injEq] at b1
    subst b1
    rw [a2, Outcome.ok.injEq, Prod.mk.injEq] at b2
    rw [← b2.2, h2] at h3
    unfold scaledReport
    rw [e, if_pos hpos, h3]
  · rw [scaledReport, e, if_neg hpos, le_antisymm (not_lt.1 hpos) (chance_nonneg hp hd hpl zs), zero_mul]

/-- **C112.** The expected value of a convex function of the report is not smaller for the filter that gets
more readings. -/
theorem C112_average (hn : prior.numStates = n) (hp : prior.probabilitiesGet = tab n p)
    (hd : IsDistribution prior.probabilitiesGet) (hmore : plan.More more)
    (hpl : plan.Proper n) (hml : more.Proper n)
    (hcs : ∀ zs, plan.Record zs → Describes n (cs zs) (plan.steps zs))
    (hds : ∀ zs, more.Record zs → Describes n (ds zs) (more.steps zs))
    (hr : ReportsAll n prior p plan cs report) (hr' : ReportsAll n prior p more ds report')
    {φ : List K → K} (hφ : ConvexReport n φ) :
    plan.sum (fun zs => plan.chance n p zs * φ (report zs)) ≤
      more.sum (fun zs => more.chance n p zs * φ (report' zs)) := by
  rw [reports_scaled hn hp hd hpl hcs hr, reports_scaled hn hp hd hml hds hr']
  exact more_sum hφ hmore hpl hml p (prior_nonneg hp hd)

/-- **C112, reports do not drift.** The expected report is the same with and without the additional
readings: for any numbers `h x`, in particular for the probability of one state. -/
theorem C112_mean (hn : prior.numStates = n) (hp : prior.probabilitiesGet = tab n p)
    (hd : IsDistribution prior.probabilitiesGet) (hmore : plan.More more)
    (hpl : plan.Proper n) (hml : more.Proper n)
    (hcs : ∀ zs, plan.Record zs → Describes n (cs zs) (plan.steps zs))
    (hds : ∀ zs, more.Record zs → Describes n (ds zs) (more.steps zs))
    (hr : ReportsAll n prior p plan cs report) (hr' : ReportsAll n prior p more ds report') (h : Nat → K) :
    plan.sum (fun zs => plan.chance n p zs * ((report zs).mapIdx fun x w => w * h x).sum) =
      more.sum (fun zs => more.chance n p zs * ((report' zs).mapIdx fun x w => w * h x).sum) := by
  have lin : ∀ c : K, ConvexReport n fun q => c * (q.mapIdx fun x w => w * h x).sum := by
    intro c u v a b _ _ _ _ _ _ _
    simp only [mapIdx_tab]
    refine le_of_eq ?_
    rw [Finset.mul_sum, Finset.mul_sum, Finset.mul_sum, Finset.mul_sum, Finset.mul_sum,
      ← Finset.sum_add_distrib]
    exact Finset.sum_congr rfl fun x _ => by ring
  have e : ∀ (c : K) (pl : Plan Z K) (rep : List Z → List K),
      pl.sum (fun zs => pl.chance n p zs * (c * ((rep zs).mapIdx fun x w => w * h x).sum)) =
      c * pl.sum (fun zs => pl.chance n p zs * ((rep zs).mapIdx fun x w => w * h x).sum) := by
    intro c pl rep
    rw [← plan_sum_mul]
    exact plan_sum_congr pl fun zs _ => by ring
  have h1 := C112_average hn hp hd hmore hpl hml hcs hds hr hr' (lin 1)
  have h2 := C112_average hn hp hd hmore hpl hml hcs hds hr hr' (lin (-1))
  rw [e, e] at h1 h2
  linarith

/-- **C112, decisions.** There are finitely many decisions `A`; a decision gains `gain a x` if the state is
`x`. Deciding for the highest expected gain according to the report, one gains on average at least as
much with more readings. -/
theorem C112_decision {A : Type} (D : Finset A) (hD : D.Nonempty) (gain : A → Nat → K)
    (hn : prior.numStates = n) (hp : prior.probabilitiesGet = tab n p)
    (hd : IsDistribution prior.probabilitiesGet) (hmore : plan.More more)
    (hpl : plan.Proper n) (hml : more.Proper n)
    (hcs : ∀ zs, plan.Record zs → Describes n (cs zs) (plan.steps zs))
    (hds : ∀ zs, more.Record zs → Describes n (ds zs) (more.steps zs))
    (hr : ReportsAll n prior p plan cs report) (hr' : ReportsAll n prior p more ds report') :
    plan.sum (fun zs => plan.chance n p zs * D.sup' hD (expectedGain gain (report zs))) ≤
      more.sum (fun zs => more.chance n p zs * D.sup' hD (expectedGain gain (report' zs))) := by
  refine C112_average hn hp hd hmore hpl hml hcs hds hr hr'
    (φ := fun q => D.sup' hD (expectedGain gain q)) ?_
  intro u v a b _ _ _ _ ha hb _
  refine Finset.sup'_le _ _ fun i hi => ?_
  have e : expectedGain gain (tab n fun x => a * u x + b * v x) i =
      a * expectedGain gain (tab n u) i + b * expectedGain gain (tab n v) i := by
    unfold expectedGain
    simp only [mapIdx_tab]
    rw [Finset.mul_sum, Finset.mul_sum, ← Finset.sum_add_distrib]
    exact Finset.sum_congr rfl fun x _ => by ring
  rw [e]
  exact add_le_add (mul_le_mul_of_nonneg_left (Finset.le_sup' (expectedGain gain (tab n u)) hi) ha)
    (mul_le_mul_of_nonneg_left (Finset.le_sup' (expectedGain gain (tab n v)) hi) hb)

/-- **C112, variances.** The variance of any quantity `h` of the state, computed from the report, is on
average not larger with more readings. -/
theorem C112_variance (h : Nat → K) (hn : prior.numStates = n) (hp : prior.probabilitiesGet = tab n p)
    (hd : IsDistribution prior.probabilitiesGet) (hmore : plan.More more)
    (hpl : plan.Proper n) (hml : more.Proper n)
    (hcs : ∀ zs, plan.Record zs → Describes n (cs zs) (plan.steps zs))
    (hds : ∀ zs, more.Record zs → Describes n (ds zs) (more.steps zs))
    (hr : ReportsAll n prior p plan cs report) (hr' : ReportsAll n prior p more ds report') :
    more.sum (fun zs => more.chance n p zs * reportVariance h (report' zs)) ≤
      plan.sum (fun zs => plan.chance n p zs * reportVariance h (report zs)) := by
  have hc : ConvexReport n fun q => -1 * reportVariance h q := by
    intro u v a b _ _ _ _ ha hb hab
    simp only [reportVariance, mapIdx_tab]
    have lin : ∀ g : Nat → K, ∑ x ∈ range n, (a * u x + b * v x) * g x =
        a * ∑ x ∈ range n, u x * g x + b * ∑ x ∈ range n, v x * g x := by
      intro g
      rw [Finset.mul_sum, Finset.mul_sum, ← Finset.sum_add_distrib]
      exact Finset.sum_congr rfl fun x _ => by ring
    have l2 := lin fun x => h x ^ 2
    rw [l2, lin h]
    generalize ∑ x ∈ range n, u x * h x = U
    generalize ∑ x ∈ range n, v x * h x = V
    have hb' : b = 1 - a := by linarith
    subst hb'
    nlinarith [mul_nonneg (mul_nonneg ha hb) (sq_nonneg (U - V))]
  have := C112_average hn hp hd hmore hpl hml hcs hds hr hr' hc
  have e : ∀ (pl : Plan Z K) (rep : List Z → List K),
      pl.sum (fun zs => pl.chance n p zs * (-1 * reportVariance h (rep zs))) =
      -1 * pl.sum (fun zs => pl.chance n p zs * reportVariance h (rep zs)) := by
    intro pl rep
    rw [← plan_sum_mul]
    exact plan_sum_congr pl fun zs _ => by ring
  rw [e, e] at this
  linarith

end

/-- **C112, entropy.** The entropy of the report is on average not larger with more readings. -/
theorem C112_entropy {Z : Type} [Fintype Z] {n : Nat} {prior : DiscretePdf ℝ} {p : Nat → ℝ}
    {plan more : Plan Z ℝ} {cs ds : List Z → List (Call Z ℝ)} {report report' : List Z → List ℝ}
    (hn : prior.numStates = n) (hp : prior.probabilitiesGet = tab n p)
    (hd : IsDistribution prior.probabilitiesGet) (hmore : plan.More more)
    (hpl : plan.Proper n) (hml : more.Proper n)
    (hcs : ∀ zs, plan.Record zs → Describes n (cs zs) (plan.steps zs))
    (hds : ∀ zs, more.Record zs → Describes n (ds zs) (more.steps zs))
    (hr : ReportsAll n prior p plan cs report) (hr' : ReportsAll n prior p more ds report') :
    more.sum (fun zs => more.chance n p zs * ((report' zs).map fun w => -(w * Real.log w)).sum) ≤
      plan.sum (fun zs => plan.chance n p zs * ((report zs).map fun w => -(w * Real.log w)).sum) := by
  have hc : ConvexReport n fun q : List ℝ => -1 * (q.map fun w => -(w * Real.log w)).sum := by
    intro u v a b hu hv _ _ ha hb hab
    have e : ∀ f : Nat → ℝ, -1 * ((tab n f).map fun w => -(w * Real.log w)).sum =
        ∑ x ∈ range n, f x * Real.log (f x) := by
      intro f
      rw [tab_map, tab_sum, Finset.sum_neg_distrib]
      ring
    simp only [e]
    rw [Finset.mul_sum, Finset.mul_sum, ← Finset.sum_add_distrib]
    refine Finset.sum_le_sum fun x hx => ?_
    have := Real.convexOn_mul_log.2 (Set.mem_Ici.2 (hu x (Finset.mem_range.1 hx)))
      (Set.mem_Ici.2 (hv x (Finset.mem_range.1 hx))) ha hb hab
    simpa using this
  have := C112_average hn hp hd hmore hpl hml hcs hds hr hr' hc
  have e : ∀ (pl : Plan Z ℝ) (rep : List Z → List ℝ),
      pl.sum (fun zs => pl.chance n p zs * (-1 * ((rep zs).map fun w => -(w * Real.log w)).sum)) =
      -1 * pl.sum (fun zs => pl.chance n p zs * ((rep zs).map fun w => -(w * Real.log w)).sum) := by
    intro pl rep
    rw [← plan_sum_mul]
    exact plan_sum_congr pl fun zs _ => by ring
  rw [e, e] at this
  linarith

/-! ### Example: a second look -/

namespace MoreExample

open HistogramExample (T prior sys transition T_nonneg)
open HiddenExample (alarm sensor likelihood alarm_nonneg alarm_total)

/-- One look, then the process moves. -/
def less : Plan Bool ℚ := .sense alarm fun _ => .move T .stop

/-- A second look afterwards, only if there was an alarm. -/
def more : Plan Bool ℚ := .sense alarm fun z => .move T (if z then .sense alarm fun _ => .stop else .stop)

theorem less_more : less.More more := by
  refine .sense fun z => .move ?_
  cases z
  · exact .stop
  · exact .extra fun _ => .stop

def lessCalls : List Bool → List (Call Bool ℚ)
  | [z] => [⟨none, some (sensor, z, none)⟩, ⟨some (sys, none), none⟩]
  | _ => []

def moreCalls : List Bool → List (Call Bool ℚ)
  | [z] => [⟨none, some (sensor, z, none)⟩, ⟨some (sys, none), none⟩]
  | [z, z'] => [⟨none, some (sensor, z, none)⟩, ⟨some (sys, none), some (sensor, z', none)⟩]
  | _ => []

theorem less_proper : less.Proper 2 :=
  ⟨alarm_nonneg, alarm_total, fun _ => ⟨T_nonneg, by decide +kernel, trivial⟩⟩

theorem more_proper : more.Proper 2 := by
  refine ⟨alarm_nonneg, alarm_total, fun z => ⟨T_nonneg, by decide +kernel, ?_⟩⟩
  cases z
  · exact trivial
  · exact ⟨alarm_nonneg, alarm_total, fun _ => trivial⟩

theorem less_describes (zs : List Bool) (h : less.Record zs) :
    Describes 2 (lessCalls zs) (less.steps zs) := by
  match zs, h with
  | [z], _ =>
    exact .cons (s1 := []) (s2 := [.observe _]) .none (.some (likelihood z))
      (.cons (s1 := [.move T]) (s2 := []) (ss := []) (.some transition) .none .nil)

theorem more_describes (zs : List Bool) (h : more.Record zs) :
    Describes 2 (moreCalls zs) (more.steps zs) := by
  match zs, h with
  | [false], _ =>
    exact .cons (s1 := []) (s2 := [.observe _]) .none (.some (likelihood false))
      (.cons (s1 := [.move T]) (s2 := []) (ss := []) (.some transition) .none .nil)
  | [true, z], _ =>
    exact .cons (s1 := []) (s2 := [.observe _]) .none (.some (likelihood true))
      (.cons (s1 := [.move T]) (s2 := [.observe _]) (ss := []) (.some transition) (.some (likelihood z)) .nil)

end MoreExample

open HiddenExample in
/-- Not every single reading makes the filter more certain: after a reading without alarm the filter reports
4/5 for state 0, after a further reading with alarm it reports 1/2 for both. -/
theorem C112_not_always : ∃ f g h : HistogramFilter ℚ, HistogramFilter.make HistogramExample.prior = .ok f ∧
    f.run [⟨none, some (sensor, false, none)⟩] = .ok (true, g) ∧
    g.run [⟨none, some (sensor, true, none)⟩] = .ok (true, h) ∧
    g.post.probabilitiesGet = [4/5, 1/5] ∧ h.post.probabilitiesGet = [1/2, 1/2] := by
  obtain ⟨f, f1, a1, a2, a3, -, -⟩ := C25_exact (n := 2) rfl HistogramExample.values dist
    (cs := [⟨none, some (sensor, false, none)⟩])
    (.cons (s1 := []) (s2 := [.observe _]) (ss := []) .none (.some (likelihood false)) .nil)
    (by simp only [List.append_nil, List.nil_append, List.mem_singleton, forall_eq]; exact alarm_nonneg false)
    (by decide +kernel)
  obtain ⟨f', f2, b1, b2, b3, -, -⟩ := C25_exact (n := 2) rfl HistogramExample.values dist
    (cs := [⟨none, some (sensor, false, none)⟩, ⟨none, some (sensor, true, none)⟩])
    (.cons (s1 := []) (s2 := [.observe _]) .none (.some (likelihood false))
      (.cons (s1 := []) (s2 := [.observe _]) (ss := []) .none (.some (likelihood true)) .nil))
    (by
      simp only [List.append_nil, List.nil_append, List.mem_cons, List.cons_append, List.not_mem_nil, or_false,
        forall_eq_or_imp, forall_eq]
      exact ⟨alarm_nonneg false, alarm_nonneg true⟩)
    (by decide +kernel)
  rw [a1, Outcome.ok.injEq] at b1
  subst b1
  refine ⟨f, f1, f2, a1, a2, ?_, a3.trans (by decide +kernel), b3.trans (by decide +kernel)⟩
  simp only [HistogramFilter.run, Outcome.bind_eq_ok, Outcome.pure_eq, Outcome.ok.injEq] at a2 b2 ⊢
  obtain ⟨⟨x, y⟩, h1, ⟨x', y'⟩, h2, h3⟩ := a2
  obtain ⟨⟨u, v⟩, k1, k2⟩ := b2
  rw [h1, Outcome.ok.injEq] at k1
  simp only [Prod.mk.injEq] at h2 h3 k1
  obtain ⟨rfl, rfl⟩ := k1
  obtain ⟨rfl, rfl⟩ := h2
  obtain ⟨h3, rfl⟩ := h3
  obtain ⟨⟨x1, y1⟩, ⟨⟨x2, y2⟩, h5, ⟨x3, y3⟩, h6, h7⟩, h8⟩ := k2
  exact ⟨(x2, y2), h5, (x3, y3), h6, by
    simp only [Prod.mk.injEq] at h7 h8 ⊢
    obtain ⟨rfl, rfl⟩ := h7
    obtain ⟨h8, rfl⟩ := h8
    rw [Bool.and_eq_true] at h8
    exact ⟨h8.2, rfl⟩⟩

open MoreExample in
/-- All hypotheses hold for these two filters. -/
example : ∃ r r', ReportsAll 2 HistogramExample.prior (fun _ => 1/2) less lessCalls r ∧
    ReportsAll 2 HistogramExample.prior (fun _ => 1/2) more moreCalls r' ∧
    less.sum (fun zs => less.chance 2 (fun _ => 1/2) zs *
        (range 2).sup' ⟨0, by decide⟩ (expectedGain (fun a x => if a = x then 1 else 0) (r zs))) ≤
      more.sum (fun zs => more.chance 2 (fun _ => 1/2) zs *
        (range 2).sup' ⟨0, by decide⟩ (expectedGain (fun a x => if a = x then 1 else 0) (r' zs))) := by
  obtain ⟨r, hr⟩ := C112_reports (n := 2) rfl HistogramExample.values HiddenExample.dist less_proper
    less_describes
  obtain ⟨r', hr'⟩ := C112_reports (n := 2) rfl HistogramExample.values HiddenExample.dist more_proper
    more_describes
  exact ⟨r, r', hr, hr', C112_decision _ _ _ rfl HistogramExample.values HiddenExample.dist less_more
    less_proper more_proper less_describes more_describes hr hr'⟩

open MoreExample in
example {r r'} (hr : ReportsAll 2 HistogramExample.prior (fun _ => 1/2) less lessCalls r)
    (hr' : ReportsAll 2 HistogramExample.prior (fun _ => 1/2) more moreCalls r') :
    more.sum (fun zs => more.chance 2 (fun _ => 1/2) zs * reportVariance (fun x => (x : ℚ)) (r' zs)) ≤
      less.sum (fun zs => less.chance 2 (fun _ => 1/2) zs * reportVariance (fun x => (x : ℚ)) (r zs)) ∧
    less.sum (fun zs => less.chance 2 (fun _ => 1/2) zs * ((r zs).mapIdx fun x w => w * (x : ℚ)).sum) =
      more.sum (fun zs => more.chance 2 (fun _ => 1/2) zs * ((r' zs).mapIdx fun x w => w * (x : ℚ)).sum) :=
  ⟨C112_variance _ rfl HistogramExample.values HiddenExample.dist less_more
    less_proper more_proper less_describes more_describes hr hr',
   C112_mean rfl HistogramExample.values HiddenExample.dist less_more
    less_proper more_proper less_describes more_describes hr hr' _⟩

open CoinExample in
/-- `C112_entropy` for one throw of a coin that is fair or loaded, against no throw. -/
example : ∃ r r', ReportsAll 2 prior (fun _ => 1/2) .stop (fun _ => []) r ∧
    ReportsAll 2 prior (fun _ => 1/2) (.sense (fun z x => chance x z) fun _ => .stop)
      (fun zs => zs.map fun z => ⟨none, some (meas, z, none)⟩) r' ∧
    Plan.sum (.sense (fun z x => chance x z) fun _ => .stop) (fun zs =>
        Plan.chance 2 (fun _ => 1/2) (.sense (fun z x => chance x z) fun _ => .stop) zs *
          ((r' zs).map fun w => -(w * Real.log w)).sum) ≤
      Plan.sum .stop (fun zs => Plan.chance (Z := Bool) 2 (fun _ => (1/2 : ℝ)) .stop zs *
        ((r zs).map fun w => -(w * Real.log w)).sum) := by
  have hp : prior.probabilitiesGet = tab 2 fun _ => 1/2 := rfl
  have h1 : ∀ (zs : List Bool), Plan.Record (K := ℝ) .stop zs →
      Describes (Z := Bool) 2 [] (Plan.steps (K := ℝ) .stop zs) := fun zs _ => .nil
  have h2 : ∀ (zs : List Bool), Plan.Record (.sense (fun z x => chance x z) fun _ => .stop) zs →
      Describes 2 (zs.map fun z => ⟨none, some (meas, z, none)⟩)
        (Plan.steps (.sense (fun z x => chance x z) fun _ => .stop) zs) := by
    intro zs h
    match zs, h with
    | [z], _ => exact .cons (s1 := []) (s2 := [.observe _]) (ss := []) .none (.some (likelihood z)) .nil
  have hpr : Plan.Proper 2 (.sense (fun z x => chance x z) fun _ => .stop : Plan Bool ℝ) := by
    refine ⟨fun z x _ => (density x).nonneg z, fun x _ => ?_, fun _ => trivial⟩
    rw [Fintype.sum_bool]
    simp only [chance]
    split_ifs <;> norm_num at *
  obtain ⟨r, hr⟩ := C112_reports (n := 2) rfl hp distribution (plan := .stop) trivial h1
  obtain ⟨r', hr'⟩ := C112_reports (n := 2) rfl hp distribution hpr h2
  exact ⟨r, r', hr, hr', C112_entropy rfl hp distribution (.extra fun _ => .stop) trivial hpr h1 h2 hr hr'⟩

end BFL.Props
