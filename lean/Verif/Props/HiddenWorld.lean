import Verif.Lemmas.HiddenWorld
import Verif.Props.Histogram

/-!
# C96: reports of the histogram filter are calibrated, and its guesses are the best ones

A hidden process is moved and observed according to a plan (`Verif.Spec.HiddenWorld`), in which what is done next may
depend on the readings so far. `plan.joint n p zs x` is the probability that `zs` is read and that the process
ends in `x`; `plan.sum` is the sum over everything that can be read.
-/

set_option linter.unusedSectionVars false

namespace BFL.Props

open Finset Spec HistogramFilter

variable {Z K : Type} [Fintype Z] [Field K] [LinearOrder K] [IsStrictOrderedRing K]

/-- A filter made with this prior and called with `cs` succeeds and ends with this pdf. -/
def EndsWith (prior : DiscretePdf K) (cs : List (Call Z K)) (post : DiscretePdf K) : Prop :=
  ∃ f f', HistogramFilter.make prior = .ok f ∧ f.run cs = .ok (true, f') ∧ f'.post = post

section

variable {n : Nat} {prior : DiscretePdf K} {p : Nat → K} {plan : Plan Z K} {cs : List Z → List (Call Z K)}

/-- The filter after a record with positive probability. -/
theorem ends_with (hn : prior.numStates = n) (hp : prior.probabilitiesGet = tab n p)
    (hd : IsDistribution prior.probabilitiesGet) (hpl : plan.Proper n)
    (hcs : ∀ zs, plan.Record zs → Describes n (cs zs) (plan.steps zs)) {zs : List Z} (hz : plan.Record zs)
    (hpos : 0 < plan.chance n p zs) :
    ∃ post : DiscretePdf K, EndsWith prior (cs zs) post ∧
      post.probabilitiesGet = (tab n fun x => plan.joint n p zs x / plan.chance n p zs) ∧
      IsDistribution post.probabilitiesGet := by
  obtain ⟨f, f', h1, h2, h3, h4, _⟩ := C25_exact hn hp hd (hcs zs hz) (plan_nonneg plan hpl zs) hpos
  exact ⟨f'.post, ⟨f, f', h1, h2, rfl⟩, h3, h4⟩

theorem prior_nonneg (hp : prior.probabilitiesGet = tab n p) (hd : IsDistribution prior.probabilitiesGet) :
    ∀ x < n, 0 ≤ p x := by
  have := hd.1
  rw [hp] at this
  exact forall_mem_tab.1 this

theorem joint_nonneg (hp : prior.probabilitiesGet = tab n p) (hd : IsDistribution prior.probabilitiesGet)
    (hpl : plan.Proper n) (zs : List Z) : ∀ x < n, 0 ≤ plan.joint n p zs x :=
  jointLast_nonneg (plan_nonneg plan hpl zs) (prior_nonneg hp hd)

theorem joint_zero (hp : prior.probabilitiesGet = tab n p) (hd : IsDistribution prior.probabilitiesGet)
    (hpl : plan.Proper n) {zs : List Z} (h : ¬ 0 < plan.chance n p zs) : ∀ x < n, plan.joint n p zs x = 0 := by
  have h0 := joint_nonneg hp hd hpl zs
  have hz : ∑ x ∈ range n, plan.joint n p zs x = 0 :=
    le_antisymm (not_lt.1 h) (Finset.sum_nonneg fun x hx => h0 x (Finset.mem_range.1 hx))
  intro x hx
  exact (Finset.sum_eq_zero_iff_of_nonneg fun x hx => h0 x (Finset.mem_range.1 hx)).1 hz x
    (Finset.mem_range.2 hx)

theorem chance_nonneg (hp : prior.probabilitiesGet = tab n p) (hd : IsDistribution prior.probabilitiesGet)
    (hpl : plan.Proper n) (zs : List Z) : 0 ≤ plan.chance n p zs :=
  Finset.sum_nonneg fun x hx => joint_nonneg hp hd hpl zs x (Finset.mem_range.1 hx)

/-- The probabilities of all records sum to one, so that `plan.sum` is an expectation. -/
theorem C96_world (hp : prior.probabilitiesGet = tab n p) (hd : IsDistribution prior.probabilitiesGet)
    (hpl : plan.Proper n) : plan.sum (fun zs => plan.chance n p zs) = 1 := by
  rw [plan_total plan hpl, ← tab_sum, ← hp]
  exact hd.2

/-- **C96, calibration.** Among all worlds in which the filter reports the probability `q` for the state
`x`, the fraction in which `x` is the state is `q`. The same holds among those worlds only in which the
readings have some property `A`. Records that cannot occur do not count. -/
theorem C96_calibrated (hn : prior.numStates = n) (hp : prior.probabilitiesGet = tab n p)
    (hd : IsDistribution prior.probabilitiesGet) (hpl : plan.Proper n)
    (hcs : ∀ zs, plan.Record zs → Describes n (cs zs) (plan.steps zs)) :
    ∃ report : List Z → Nat → K,
      (∀ zs, plan.Record zs → 0 < plan.chance n p zs →
        ∃ post, EndsWith prior (cs zs) post ∧ post.probabilitiesGet = tab n (report zs)) ∧
      ∀ x < n, ∀ (q : K) (A : List Z → Prop) [DecidablePred A],
        plan.sum (fun zs => if A zs ∧ report zs x = q then plan.joint n p zs x else 0) =
          q * plan.sum (fun zs => if A zs ∧ report zs x = q then plan.chance n p zs else 0) := by
  refine ⟨fun zs x => plan.joint n p zs x / plan.chance n p zs, fun zs hz hpos => ?_, fun x hx q A _ => ?_⟩
  · obtain ⟨post, h1, h2, _⟩ := ends_with hn hp hd hpl hcs hz hpos
    exact ⟨post, h1, h2⟩
  · rw [← plan_sum_mul]
    refine plan_sum_congr plan fun zs _ => ?_
    by_cases hq : A zs ∧ plan.joint n p zs x / plan.chance n p zs = q
    · rw [if_pos hq, if_pos hq]
      by_cases hc : 0 < plan.chance n p zs
      · rw [← hq.2, div_mul_cancel₀ _ hc.ne']
      · rw [joint_zero hp hd hpl hc x hx, le_antisymm (not_lt.1 hc) (chance_nonneg hp hd hpl zs), mul_zero]
    · rw [if_neg hq, if_neg hq, mul_zero]

/-- **C96, best guess.** `MostProbableStateGet` of the posterior is right at least as often as any other way
`guess` of guessing the state from the readings. -/
theorem C96_best_guess (hn : prior.numStates = n) (hp : prior.probabilitiesGet = tab n p)
    (hd : IsDistribution prior.probabilitiesGet) (hpl : plan.Proper n)
    (hcs : ∀ zs, plan.Record zs → Describes n (cs zs) (plan.steps zs)) :
    ∃ best : List Z → Nat,
      (∀ zs, plan.Record zs → 0 < plan.chance n p zs →
        ∃ post, EndsWith prior (cs zs) post ∧ post.mostProbableStateGet = (best zs : Int)) ∧
      ∀ guess : List Z → Nat, (∀ zs, guess zs < n) →
        plan.sum (fun zs => plan.joint n p zs (guess zs)) ≤ plan.sum (fun zs => plan.joint n p zs (best zs)) := by
  have hn0 : 0 < n := by
    by_contra h
    have h0 : n = 0 := by omega
    have := hd.2
    rw [hp, h0] at this
    simp [tab] at this
  have one : ∀ zs : List Z, ∃ b : Nat, b < n ∧ (plan.Record zs → 0 < plan.chance n p zs →
      (∃ post, EndsWith prior (cs zs) post ∧ post.mostProbableStateGet = (b : Int)) ∧
        ∀ x < n, plan.joint n p zs x ≤ plan.joint n p zs b) := by
    intro zs
    by_cases h : plan.Record zs ∧ 0 < plan.chance n p zs
    · obtain ⟨post, h1, h2, h3⟩ := ends_with hn hp hd hpl hcs h.1 h.2
      have h2' : post.values = tab n fun x => plan.joint n p zs x / plan.chance n p zs := h2
      have hlen : post.values.length = n := by rw [h2']; simp [tab]
      rcases DiscretePdf.mostProbableLoop_spec post.values 0 (-1) 0 with ⟨_, hlt⟩ | ⟨m, hm, e, _, hmax, _⟩
      · exact absurd (hlt _ (List.getElem_mem (hlen ▸ hn0))) (not_lt.2 (h3.1 _ (List.getElem_mem _)))
      · refine ⟨m, hlen ▸ hm, fun _ _ => ⟨⟨post, h1, by rw [Nat.zero_add] at e; exact e⟩, fun x hx => ?_⟩⟩
        have hv : ∀ (y : Nat) (hy : y < post.values.length),
            post.values[y] = plan.joint n p zs y / plan.chance n p zs := by
          intro y hy
          have : post.values[y]? = some (plan.joint n p zs y / plan.chance n p zs) := by
            rw [h2']
            simp [tab, hlen ▸ hy]
          simpa [hy] using this
        have := hmax _ (List.getElem_mem (hlen ▸ hx : x < post.values.length))
        rw [hv, hv] at this
        exact (div_le_div_iff_of_pos_right h.2).1 this
    · exact ⟨0, hn0, fun a b => absurd ⟨a, b⟩ h⟩
  choose best hb h using one
  refine ⟨best, fun zs hz hc => (h zs hz hc).1, fun guess hg => plan_sum_le plan fun zs hz => ?_⟩
  by_cases hc : 0 < plan.chance n p zs
  · exact (h zs hz hc).2 _ (hg zs)
  · rw [joint_zero hp hd hpl hc _ (hg zs), joint_zero hp hd hpl hc _ (hb zs)]

/-- **C96, best probabilities.** No other way of computing probabilities from the readings has a smaller expected
quadratic (Brier) score: the sum over all states `y` of `(q(y) − [y is the state])²`. -/
theorem C96_brier (hn : prior.numStates = n) (hp : prior.probabilitiesGet = tab n p)
    (hd : IsDistribution prior.probabilitiesGet) (hpl : plan.Proper n)
    (hcs : ∀ zs, plan.Record zs → Describes n (cs zs) (plan.steps zs)) :
    ∃ report : List Z → Nat → K,
      (∀ zs, plan.Record zs → 0 < plan.chance n p zs →
        ∃ post, EndsWith prior (cs zs) post ∧ post.probabilitiesGet = tab n (report zs)) ∧
      ∀ other : List Z → Nat → K,
        plan.sum (fun zs => ∑ x ∈ range n, plan.joint n p zs x *
            ∑ y ∈ range n, (other zs y - if y = x then 1 else 0) ^ 2) =
          plan.sum (fun zs => ∑ x ∈ range n, plan.joint n p zs x *
            ∑ y ∈ range n, (report zs y - if y = x then 1 else 0) ^ 2) +
          plan.sum (fun zs => plan.chance n p zs * ∑ y ∈ range n, (other zs y - report zs y) ^ 2) := by
  refine ⟨fun zs x => plan.joint n p zs x / plan.chance n p zs, fun zs hz hpos => ?_, fun other => ?_⟩
  · obtain ⟨post, h1, h2, _⟩ := ends_with hn hp hd hpl hcs hz hpos
    exact ⟨post, h1, h2⟩
  · rw [← plan_sum_add]
    refine plan_sum_congr plan fun zs _ => ?_
    have score : ∀ r : Nat → K, ∑ x ∈ range n, plan.joint n p zs x *
        ∑ y ∈ range n, (r y - if y = x then 1 else 0) ^ 2 =
        ∑ y ∈ range n, (plan.chance n p zs * r y ^ 2 - 2 * r y * plan.joint n p zs y + plan.joint n p zs y) := by
      intro r
      simp only [Finset.mul_sum]
      rw [Finset.sum_comm]
      refine Finset.sum_congr rfl fun y hy => ?_
      have e : ∀ x, plan.joint n p zs x * (r y - if y = x then 1 else 0) ^ 2 =
          r y ^ 2 * plan.joint n p zs x + (if y = x then (1 - 2 * r y) * plan.joint n p zs x else 0) := by
        intro x
        split <;> ring
      rw [Finset.sum_congr rfl fun x _ => e x, Finset.sum_add_distrib, Finset.sum_ite_eq, if_pos hy,
        ← Finset.mul_sum]
      have : ∑ x ∈ range n, plan.joint n p zs x = plan.chance n p zs := rfl
      rw [this]
      ring
    rw [score, score, Finset.mul_sum, ← Finset.sum_add_distrib]
    refine Finset.sum_congr rfl fun y hy => ?_
    by_cases hc : 0 < plan.chance n p zs
    · have := hc.ne'
      field_simp
      ring
    · have h0 := joint_zero hp hd hpl hc y (Finset.mem_range.1 hy)
      have h1 := le_antisymm (not_lt.1 hc) (chance_nonneg hp hd hpl zs)
      rw [h0, h1]
      ring

end

/-! ### Example: a second look, only if the first one was suspicious -/

namespace HiddenExample

open HistogramExample (T prior sys transition T_nonneg)

/-- The alarm goes off with probability 1/5 in state 0 and 4/5 in state 1. -/
def alarm (z : Bool) (x : Nat) : ℚ := if z then (if x = 0 then 1/5 else 4/5) else (if x = 0 then 4/5 else 1/5)

def alarmPdf : CondPdf Int Bool ℚ where
  numArgs := 1
  prob args z := match args with
    | [x] => .ok (if z then (if x = 0 then 1/5 else 4/5) else (if x = 0 then 4/5 else 1/5))
    | _ => .abort
  draw _ := .abort

def sensor : Model Int Bool ℚ := { pdf := some alarmPdf, without := some true }

theorem likelihood (z : Bool) : Likelihood 2 sensor z none (alarm z) := by
  refine Or.inl ⟨alarmPdf, rfl, rfl, ?_⟩
  intro x _
  simp [alarmPdf, alarm]

/-- If there is no alarm, stop. Otherwise wait and look again. -/
def plan : Plan Bool ℚ := .sense alarm fun z => if z then .move T (.sense alarm fun _ => .stop) else .stop

def calls : List Bool → List (Call Bool ℚ)
  | [z] => [⟨none, some (sensor, z, none)⟩]
  | [z, z'] => [⟨none, some (sensor, z, none)⟩, ⟨some (sys, none), some (sensor, z', none)⟩]
  | _ => []

theorem alarm_nonneg (z : Bool) : ∀ x < 2, 0 ≤ alarm z x := by
  intro x _
  unfold alarm
  split <;> split <;> norm_num

theorem alarm_total : ∀ x < 2, ∑ z, alarm z x = 1 := by
  intro x _
  simp only [alarm, Fintype.sum_bool]
  by_cases h : x = 0 <;> simp [h] <;> norm_num

theorem proper : plan.Proper 2 := by
  refine ⟨alarm_nonneg, alarm_total, fun z => ?_⟩
  cases z
  · exact trivial
  · exact ⟨T_nonneg, by decide +kernel, alarm_nonneg, alarm_total, fun _ => trivial⟩

theorem describes (zs : List Bool) (h : plan.Record zs) : Describes 2 (calls zs) (plan.steps zs) := by
  match zs, h with
  | [false], _ => exact .cons (s1 := []) (s2 := [.observe _]) (ss := []) .none (.some (likelihood false)) .nil
  | [true, z], _ =>
    exact .cons (s1 := []) (s2 := [.observe _]) .none (.some (likelihood true))
      (.cons (s1 := [.move T]) (s2 := [.observe _]) (ss := []) (.some transition) (.some (likelihood z)) .nil)

theorem dist : IsDistribution prior.probabilitiesGet := HistogramExample.dist

end HiddenExample

open HiddenExample in
/-- To guess state 0 without alarm and state 1 otherwise is right in 29 of 40 worlds. -/
example : ∃ best : List Bool → Nat,
    (∀ zs, plan.Record zs → 0 < plan.chance 2 (fun _ => 1/2) zs →
      ∃ post, EndsWith HistogramExample.prior (calls zs) post ∧ post.mostProbableStateGet = (best zs : Int)) ∧
    29/40 ≤ plan.sum (fun zs => plan.joint 2 (fun _ => 1/2) zs (best zs)) ∧
    plan.sum (fun zs => plan.chance 2 (fun _ => 1/2) zs) = 1 := by
  obtain ⟨best, h1, h2⟩ := C96_best_guess (n := 2) rfl HistogramExample.values dist proper describes
  refine ⟨best, h1, le_trans ?_ (h2 (fun zs => if zs = [false] then 0 else 1) fun zs => by split <;> decide),
    C96_world HistogramExample.values dist proper⟩
  decide +kernel

open HiddenExample in
example : ∃ report : List Bool → Nat → ℚ,
    (∀ zs, plan.Record zs → 0 < plan.chance 2 (fun _ => 1/2) zs →
      ∃ post, EndsWith HistogramExample.prior (calls zs) post ∧ post.probabilitiesGet = tab 2 (report zs)) ∧
    plan.sum (fun zs => if True ∧ report zs 1 = 1/5 then plan.joint 2 (fun _ => 1/2) zs 1 else 0) =
      1/5 * plan.sum (fun zs => if True ∧ report zs 1 = 1/5 then plan.chance 2 (fun _ => 1/2) zs else 0) := by
  obtain ⟨report, h1, h2⟩ := C96_calibrated (n := 2) rfl HistogramExample.values dist proper describes
  exact ⟨report, h1, h2 1 (by decide) (1/5) (fun _ => True)⟩

open HiddenExample in
example : ∃ report : List Bool → Nat → ℚ,
    plan.sum (fun zs => ∑ x ∈ range 2, plan.joint 2 (fun _ => 1/2) zs x *
        ∑ y ∈ range 2, (report zs y - if y = x then 1 else 0) ^ 2) ≤ 1/2 := by
  obtain ⟨report, h1, h2⟩ := C96_brier (n := 2) rfl HistogramExample.values dist proper describes
  refine ⟨report, ?_⟩
  have h := h2 fun _ _ => 1/2
  have h3 : 0 ≤ plan.sum (fun zs => plan.chance 2 (fun _ => 1/2) zs *
      ∑ y ∈ range 2, ((1/2 : ℚ) - report zs y) ^ 2) := by
    refine le_trans (le_of_eq ?_) (plan_sum_le plan (F := fun _ => 0) fun zs _ => mul_nonneg
      (chance_nonneg HistogramExample.values dist proper zs) (Finset.sum_nonneg fun _ _ => sq_nonneg _))
    decide +kernel
  have h4 : plan.sum (fun zs => ∑ x ∈ range 2, plan.joint 2 (fun _ => 1/2) zs x *
      ∑ y ∈ range 2, ((1/2 : ℚ) - if y = x then 1 else 0) ^ 2) = 1/2 := by decide +kernel
  rw [h4] at h
  linarith

end BFL.Props
