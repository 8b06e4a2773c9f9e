import Verif.Lemmas.HistogramFilter
import Verif.Props.DiscreteConditional

/-!
# Properties C22 to C25 of `HistogramFilter` (and its part of C31)
-/

set_option linter.unusedSectionVars false

namespace BFL.Props

open Finset Spec HistogramFilter

variable {Z K : Type} [Field K] [LinearOrder K]

/-- A histogram filter over `n` states after any public `Update` calls that returned normally. -/
inductive HistogramHistory (n : Nat) : HistogramFilter K → Prop
  | make {prior f} : prior.numStates = n → HistogramFilter.make prior = .ok f →
      HistogramHistory n f
  | update {Z : Type} {f f' b} {c : Call Z K} : HistogramHistory n f → f.update c = .ok (b, f') →
      HistogramHistory n f'

/-- The system model `m`, called with input `u`, has the transition probabilities `T y x = P(y|x)`
or `P(y|x,u)`: it was built from a pdf with one argument, or from one with two arguments and the
call passes an input. -/
def Transition (n : Nat) (m : Model Int Int K) (u : Option Int) (T : Nat → Nat → K) : Prop :=
  (∃ p : CondPdf Int Int K, p.numArgs = 1 ∧ Model.make (some p) = .ok m ∧
    ∀ y < n, ∀ x < n, p.prob [(x : Int)] (y : Int) = .ok (T y x)) ∨
  (∃ (p : CondPdf Int Int K) (v : Int), p.numArgs = 2 ∧ Model.make (some p) = .ok m ∧ u = some v ∧
    ∀ y < n, ∀ x < n, p.prob [(x : Int), v] (y : Int) = .ok (T y x))

/-- The measurement model `m`, called with measurement `z` and sensor parameter `s`, has the
likelihood `L x = P(z|x)` or `P(z|x,s)`. -/
def Likelihood (n : Nat) (m : Model Int Z K) (z : Z) (s : Option Int) (L : Nat → K) : Prop :=
  (∃ p : CondPdf Int Z K, p.numArgs = 1 ∧ Model.make (some p) = .ok m ∧
    ∀ x < n, p.prob [(x : Int)] z = .ok (L x)) ∨
  (∃ (p : CondPdf Int Z K) (v : Int), p.numArgs = 2 ∧ Model.make (some p) = .ok m ∧ s = some v ∧
    ∀ x < n, p.prob [(x : Int), v] z = .ok (L x))

/-- What the system part of an `Update` call does to the process. -/
inductive SysSteps (n : Nat) : Option (Model Int Int K × Option Int) → List (Step K) → Prop
  | none : SysSteps n none []
  | some {m u T} : Transition n m u T → SysSteps n (some (m, u)) [.move T]

/-- What the measurement part of an `Update` call does. -/
inductive MeasSteps (n : Nat) : Option (Model Int Z K × Z × Option Int) → List (Step K) → Prop
  | none : MeasSteps n none []
  | some {m z s L} : Likelihood n m z s L → MeasSteps n (some (m, z, s)) [.observe L]

/-- The sequence of `Update` calls describes the history `ss` of moves and observations; in one call
the move comes before the observation. -/
inductive Describes (n : Nat) : List (Call Z K) → List (Step K) → Prop
  | nil : Describes n [] []
  | cons {c cs s1 s2 ss} : SysSteps n c.sys s1 → MeasSteps n c.meas s2 → Describes n cs ss →
      Describes n (c :: cs) (s1 ++ s2 ++ ss)

variable [IsStrictOrderedRing K]

theorem HistogramHistory.sized {n : Nat} {f : HistogramFilter K} (h : HistogramHistory n f) :
    Sized n f := by
  induction h with
  | make h1 h2 => exact h1 ▸ (make_sized h2).1
  | update _ h ih => exact (update_sized ih h).2

theorem Transition.sysProb {n : Nat} {m : Model Int Int K} {u : Option Int} {T : Nat → Nat → K}
    (h : Transition n m u T) :
    (∃ w, m.withoutInputs = .ok w) ∧
      ∀ y < n, ∀ x < n, HistogramFilter.sysProb m u (y : Int) (x : Int) = .ok (T y x) := by
  rcases h with ⟨p, hn, hm, hT⟩ | ⟨p, v, hn, hm, rfl, hT⟩
  · simp only [Model.make, Model.assign, hn, if_true, Outcome.ok.injEq] at hm
    subst hm
    refine ⟨⟨true, rfl⟩, fun y hy x hx => ?_⟩
    simp [HistogramFilter.sysProb, Model.withoutInputs, Model.prob1, Model.pdfGet, cassert, hn,
      hT y hy x hx]
  · simp only [Model.make, Model.assign, hn, if_true] at hm
    rw [if_neg (by omega)] at hm
    simp only [Outcome.ok.injEq] at hm
    subst hm
    refine ⟨⟨false, rfl⟩, fun y hy x hx => ?_⟩
    simp [HistogramFilter.sysProb, Model.withoutInputs, Model.prob2, Model.pdfGet, cassert, hn,
      hT y hy x hx]

theorem Likelihood.measProb {n : Nat} {m : Model Int Z K} {z : Z} {s : Option Int} {L : Nat → K}
    (h : Likelihood n m z s L) :
    ∀ x < n, HistogramFilter.measProb m z s (x : Int) = .ok (L x) := by
  rcases h with ⟨p, hn, hm, hL⟩ | ⟨p, v, hn, hm, rfl, hL⟩
  · simp only [Model.make, Model.assign, hn, if_true, Outcome.ok.injEq] at hm
    subst hm
    intro x hx
    simp [HistogramFilter.measProb, Model.withoutInputs, Model.prob1, Model.pdfGet, cassert, hn,
      hL x hx]
  · simp only [Model.make, Model.assign, hn, if_true] at hm
    rw [if_neg (by omega)] at hm
    simp only [Outcome.ok.injEq] at hm
    subst hm
    intro x hx
    simp [HistogramFilter.measProb, Model.withoutInputs, Model.prob2, Model.pdfGet, cassert, hn,
      hL x hx]

/-! ## A concrete case: two states, a sticky transition table and a noisy sensor -/

namespace HistogramExample

/-- Prior 1/2, 1/2. -/
def prior : DiscretePdf ℚ := { values := [1/2, 1/2], cum := [0, 1/2, 1] }

def filter : HistogramFilter ℚ := { post := prior, newProb := [1/2, 1/2], timestep := 0 }

/-- Stays with probability 3/4. -/
def T (y x : Nat) : ℚ := if y = x then 3/4 else 1/4

/-- Reading 1 has likelihood 1/5 in state 0 and 4/5 in state 1. -/
def L (x : Nat) : ℚ := if x = 0 then 1/5 else 4/5

def sysPdf : CondPdf Int Int ℚ where
  numArgs := 1
  prob args y := match args with
    | [x] => .ok (if y = x then 3/4 else 1/4)
    | _ => .abort
  draw _ := .abort

def measPdf : CondPdf Int Int ℚ where
  numArgs := 1
  prob args z := match args with
    | [x] => .ok (if z = 1 then (if x = 0 then 1/5 else 4/5) else 0)
    | _ => .abort
  draw _ := .abort

def sys : Model Int Int ℚ := { pdf := some sysPdf, without := some true }

def meas : Model Int Int ℚ := { pdf := some measPdf, without := some true }

theorem transition : Transition 2 sys none T := by
  refine Or.inl ⟨sysPdf, rfl, rfl, ?_⟩
  intro y _ x _
  simp [sysPdf, T]

theorem likelihood : Likelihood 2 meas (1 : Int) none L := by
  refine Or.inl ⟨measPdf, rfl, rfl, ?_⟩
  intro x _
  simp [measPdf, L]

/-- The reading 0 is impossible. -/
theorem impossible : Likelihood 2 meas (0 : Int) none (fun _ => 0) := by
  refine Or.inl ⟨measPdf, rfl, rfl, ?_⟩
  intro x _
  simp [measPdf]

theorem history : HistogramHistory 2 filter :=
  .make (prior := prior) rfl (by decide +kernel)

theorem T_nonneg : ∀ y < 2, ∀ x < 2, 0 ≤ T y x := by
  intro y _ x _
  unfold T
  split <;> norm_num

theorem L_nonneg : ∀ x < 2, 0 ≤ L x := by
  intro x _
  unfold L
  split <;> norm_num

theorem values : filter.post.probabilitiesGet = tab 2 fun _ => (1/2 : ℚ) := by decide +kernel

theorem dist : IsDistribution filter.post.probabilitiesGet := by
  constructor
  · rw [values]; exact forall_mem_tab.2 fun _ _ => by norm_num
  · decide +kernel

end HistogramExample

open HistogramExample in
/-- The hypotheses of `C22_prediction` and `C22_normalised` hold in the concrete case. -/
example : ∃ f', filter.update (Z := Int) { sys := some (sys, none), meas := none } = .ok (true, f') ∧
    f'.post.probabilitiesGet = [1/2, 1/2] ∧ (∀ x < 2, ∑ y ∈ range 2, T y x = 1) ∧
    HistogramHistory 2 filter ∧ Transition 2 sys none T ∧
    IsDistribution filter.post.probabilitiesGet := by
  refine ⟨⟨⟨[1/2, 1/2], [0, 1/2, 1]⟩, [1/2, 1/2], 0⟩, ?_, rfl, ?_, history, transition, dist⟩
  · simp only [update, sysPart, measPart]
    rw [sysUpdate_eq history.sized values (by intros; norm_num) (w := true) rfl
      transition.sysProb.2 T_nonneg]
    decide +kernel
  · decide +kernel

open HistogramExample in
/-- The hypotheses of `C23_bayes`, `C23_commute` and `C24_positive_partial` hold; the posterior is
1/5, 4/5 after one reading and 1/17, 16/17 after two. -/
example : 0 < evidence 2 L (fun _ => 1/2) ∧ Likelihood 2 meas (1 : Int) none L ∧
    tab 2 (bayes 2 L fun _ => 1/2) = [1/5, 4/5] ∧
    0 < ∑ x ∈ range 2, (1/2 : ℚ) * (L x * L x) ∧
    tab 2 (bayes 2 (fun x => L x * L x) fun _ => 1/2) = [1/17, 16/17] :=
  ⟨by decide +kernel, likelihood, by decide +kernel, by decide +kernel, by decide +kernel⟩

open HistogramExample in
/-- The hypotheses of `C24_false` hold: the reading 0. -/
example : evidence 2 (fun _ => 0) (fun _ => (1/2 : ℚ)) = 0 ∧
    Likelihood 2 meas (0 : Int) none (fun _ => 0) ∧
    HistogramFilter.measUpdate filter meas 0 none =
      .ok { HistogramExample.filter with post := { prior with values := [0, 0] } } :=
  ⟨by decide +kernel, impossible, by decide +kernel⟩

open HistogramExample in
/-- The hypotheses of `C25_exact` hold for a history of two calls, the first with both models. The
sum runs over four trajectories. -/
example : Describes 2 [⟨some (sys, none), some (meas, (1 : Int), none)⟩, ⟨some (sys, none), none⟩]
      [.move T, .observe L, .move T] ∧
    (∀ s ∈ [Step.move T, .observe L, .move T], s.Nonneg 2) ∧
    0 < historyEvidence 2 (fun _ => 1/2) [.move T, .observe L, .move T] ∧
    tab 2 (fun x => jointLast 2 (fun _ => 1/2) [.move T, .observe L, .move T] x /
      historyEvidence 2 (fun _ => 1/2) [.move T, .observe L, .move T]) = [7/20, 13/20] := by
  refine ⟨?_, ?_, by decide +kernel, by decide +kernel⟩
  · exact .cons (s1 := [.move T]) (s2 := [.observe L]) (.some transition) (.some likelihood)
      (.cons (s1 := [.move T]) (s2 := []) (ss := []) (.some transition) .none .nil)
  · intro s hs
    simp only [List.mem_cons, List.not_mem_nil, or_false] at hs
    rcases hs with rfl | rfl | rfl
    · exact T_nonneg
    · exact L_nonneg
    · exact T_nonneg

/-! ## C22 -/

/-- A system update replaces the posterior by `P'(y) = sum_x P(y|x[,u]) P(x)`, divided by its total
mass. The update returns `true`. -/
theorem C22_normalised {n : Nat} {f : HistogramFilter K} (hf : HistogramHistory n f)
    {p : Nat → K} (hp : f.post.probabilitiesGet = tab n p) (hp0 : ∀ x < n, 0 ≤ p x)
    {m : Model Int Int K} {u : Option Int} {T : Nat → Nat → K} (hT : Transition n m u T)
    (hT0 : ∀ y < n, ∀ x < n, 0 ≤ T y x)
    (hpos : 0 < ∑ y ∈ range n, totalProbability n T p y) :
    ∃ f', f.update (Z := Z) { sys := some (m, u), meas := none } = .ok (true, f') ∧
      f'.post.probabilitiesGet = tab n fun y =>
        totalProbability n T p y / ∑ y ∈ range n, totalProbability n T p y := by
  have hs := hf.sized
  obtain ⟨⟨w, hw⟩, hT'⟩ := hT.sysProb
  have hq : ∀ y < n, 0 ≤ totalProbability n T p y :=
    Step.apply_nonneg hp0 (s := .move T) hT0
  refine ⟨⟨⟨
      (tab n fun y => totalProbability n T p y / ∑ y ∈ range n, totalProbability n T p y),
      (runningSums 0 (tab n fun y =>
        totalProbability n T p y / ∑ y ∈ range n, totalProbability n T p y))⟩,
      tab n (totalProbability n T p), f.timestep⟩, ?_, rfl⟩
  simp only [update, sysPart, measPart]
  rw [sysUpdate_eq hs hp hp0 hw hT' hT0, store_pos hs.1 hq hpos]
  rfl

/-- If the probabilities of the next state sum to one for every present state, the new posterior is
exactly the law of total probability, and it is a distribution again. -/
theorem C22_prediction {n : Nat} {f : HistogramFilter K} (hf : HistogramHistory n f)
    {p : Nat → K} (hp : f.post.probabilitiesGet = tab n p)
    (hd : IsDistribution f.post.probabilitiesGet)
    {m : Model Int Int K} {u : Option Int} {T : Nat → Nat → K} (hT : Transition n m u T)
    (hT0 : ∀ y < n, ∀ x < n, 0 ≤ T y x) (hT1 : ∀ x < n, ∑ y ∈ range n, T y x = 1) :
    ∃ f', f.update (Z := Z) { sys := some (m, u), meas := none } = .ok (true, f') ∧
      f'.post.probabilitiesGet = tab n (totalProbability n T p) ∧
      IsDistribution f'.post.probabilitiesGet := by
  rw [hp] at hd
  have hp0 : ∀ x < n, 0 ≤ p x := forall_mem_tab.1 hd.1
  have hp1 : ∑ x ∈ range n, p x = 1 := by rw [← tab_sum]; exact hd.2
  have hq : ∀ y < n, 0 ≤ totalProbability n T p y :=
    Step.apply_nonneg hp0 (s := .move T) hT0
  have hsum : ∑ y ∈ range n, totalProbability n T p y = 1 := by
    unfold totalProbability
    rw [Finset.sum_comm, ← hp1]
    refine Finset.sum_congr rfl fun x hx => ?_
    rw [← Finset.sum_mul, hT1 x (Finset.mem_range.1 hx), one_mul]
  obtain ⟨f', h1, h2⟩ := C22_normalised (Z := Z) hf hp hp0 hT hT0 (by rw [hsum]; exact one_pos)
  have h3 : f'.post.probabilitiesGet = tab n (totalProbability n T p) := by
    rw [h2, hsum]; simp
  refine ⟨f', h1, h3, ?_⟩
  rw [h3]
  exact ⟨forall_mem_tab.2 hq, by rw [tab_sum]; exact hsum⟩

/-- Calling the overload without input on a model that has inputs reads an uninitialised value. -/
theorem C22_missing_input {n : Nat} {f : HistogramFilter K} (hf : HistogramHistory n f)
    (hn : 0 < n) {p : CondPdf Int Int K} (hp : p.numArgs = 2) {m : Model Int Int K}
    (hm : Model.make (some p) = .ok m) :
    f.update (Z := Z) { sys := some (m, none), meas := none } = .ub := by
  simp only [Model.make, Model.assign, hp] at hm
  rw [if_neg (by omega)] at hm
  simp only [if_true, Outcome.ok.injEq] at hm
  subst hm
  have hs : f.post.values.length = n := hf.sized.1
  obtain ⟨k, rfl⟩ : ∃ k, n = k + 1 := ⟨n - 1, by omega⟩
  simp only [update, sysPart, sysUpdate, DiscretePdf.numStates, hs]
  simp [predictLoop, predictCell, List.range_succ_eq_map, mapOutcome, sysProb, Model.withoutInputs]

/-! ## C23 -/

/-- A measurement update is Bayes' rule whenever the measurement has positive probability, and the
new posterior is a distribution. -/
theorem C23_bayes {n : Nat} {f : HistogramFilter K} (hf : HistogramHistory n f)
    {p : Nat → K} (hp : f.post.probabilitiesGet = tab n p) (hp0 : ∀ x < n, 0 ≤ p x)
    {m : Model Int Z K} {z : Z} {s : Option Int} {L : Nat → K} (hL : Likelihood n m z s L)
    (hL0 : ∀ x < n, 0 ≤ L x) (hpos : 0 < evidence n L p) :
    ∃ f', f.update { sys := none, meas := some (m, z, s) } = .ok (true, f') ∧
      f'.post.probabilitiesGet = tab n (bayes n L p) ∧
      IsDistribution f'.post.probabilitiesGet := by
  have hs := hf.sized
  have hq : ∀ x < n, 0 ≤ p x * L x := fun x hx => mul_nonneg (hp0 x hx) (hL0 x hx)
  refine ⟨{ f with post := { values := tab n (bayes n L p), cum := runningSums 0 (tab n (bayes n L p)) } }, ?_, rfl, ?_⟩
  · simp only [update, sysPart, measPart, Outcome.ok_bind]
    rw [measUpdate_eq hs hp hp0 hL.measProb hL0, store_pos hs.1 hq hpos]
    rfl
  · refine ⟨forall_mem_tab.2 fun x hx => div_nonneg (hq x hx) hpos.le, ?_⟩
    rw [tab_sum]
    simp only [bayes]
    rw [← Finset.sum_div]
    exact div_self hpos.ne'

/-- Two measurements that are conditionally independent given the state and have positive joint
probability: the order in which they are processed does not matter. The final filters are equal in
every member. -/
theorem C23_commute {n : Nat} {f : HistogramFilter K} (hf : HistogramHistory n f)
    {p : Nat → K} (hp : f.post.probabilitiesGet = tab n p) (hp0 : ∀ x < n, 0 ≤ p x)
    {m1 m2 : Model Int Z K} {z1 z2 : Z} {s1 s2 : Option Int} {L1 L2 : Nat → K}
    (hL1 : Likelihood n m1 z1 s1 L1) (hL2 : Likelihood n m2 z2 s2 L2)
    (h1 : ∀ x < n, 0 ≤ L1 x) (h2 : ∀ x < n, 0 ≤ L2 x)
    (hpos : 0 < ∑ x ∈ range n, p x * (L1 x * L2 x)) :
    ∃ f', f.run [⟨none, some (m1, z1, s1)⟩, ⟨none, some (m2, z2, s2)⟩] = .ok (true, f') ∧
      f.run [⟨none, some (m2, z2, s2)⟩, ⟨none, some (m1, z1, s1)⟩] = .ok (true, f') ∧
      f'.post.probabilitiesGet = tab n (bayes n (fun x => L1 x * L2 x) p) := by
  have key : ∀ {m1 m2 : Model Int Z K} {z1 z2 : Z} {s1 s2 : Option Int} {L1 L2 : Nat → K},
      Likelihood n m1 z1 s1 L1 → Likelihood n m2 z2 s2 L2 → (∀ x < n, 0 ≤ L1 x) →
      (∀ x < n, 0 ≤ L2 x) → 0 < ∑ x ∈ range n, p x * (L1 x * L2 x) →
      f.run [⟨none, some (m1, z1, s1)⟩, ⟨none, some (m2, z2, s2)⟩] = .ok (true,
        { f with post :=
          { values := tab n (bayes n (fun x => L1 x * L2 x) p),
            cum := runningSums 0 (tab n (bayes n (fun x => L1 x * L2 x) p)) } }) := by
    intro m1 m2 z1 z2 s1 s2 L1 L2 hL1 hL2 h1 h2 hpos
    have hs := hf.sized
    have hq : ∀ x < n, 0 ≤ p x * L1 x := fun x hx => mul_nonneg (hp0 x hx) (h1 x hx)
    have e1 : 0 < ∑ x ∈ range n, p x * L1 x := by
      have h0 := Finset.sum_nonneg (s := range n) fun x hx => hq x (Finset.mem_range.1 hx)
      rcases h0.lt_or_eq with h | h
      · exact h
      · exfalso
        have hz := (Finset.sum_eq_zero_iff_of_nonneg
          (fun x hx => hq x (Finset.mem_range.1 hx))).1 h.symm
        have : ∑ x ∈ range n, p x * (L1 x * L2 x) = 0 :=
          Finset.sum_eq_zero fun x hx => by rw [← mul_assoc, hz x hx, zero_mul]
        rw [this] at hpos
        exact lt_irrefl _ hpos
    have hq1 : ∀ x < n, 0 ≤ p x * L1 x / ∑ y ∈ range n, p y * L1 y :=
      fun x hx => div_nonneg (hq x hx) e1.le
    have hq2 : ∀ x < n, 0 ≤ p x * L1 x / (∑ y ∈ range n, p y * L1 y) * L2 x :=
      fun x hx => mul_nonneg (hq1 x hx) (h2 x hx)
    have e : ∀ x, p x * L1 x / (∑ y ∈ range n, p y * L1 y) * L2 x =
        p x * (L1 x * L2 x) / ∑ y ∈ range n, p y * L1 y := fun x => by ring
    have e2 : ∑ x ∈ range n, p x * L1 x / (∑ y ∈ range n, p y * L1 y) * L2 x =
        (∑ x ∈ range n, p x * (L1 x * L2 x)) / ∑ y ∈ range n, p y * L1 y := by
      rw [Finset.sum_div]
      exact Finset.sum_congr rfl fun x _ => e x
    simp only [run, update, sysPart, measPart, Outcome.ok_bind]
    rw [measUpdate_eq hs hp hp0 hL1.measProb h1, store_pos hs.1 hq e1]
    simp only [Outcome.ok_bind, Outcome.pure_eq]
    rw [measUpdate_eq (f := ⟨⟨tab n fun x => p x * L1 x / ∑ y ∈ range n, p y * L1 y, _⟩, _, _⟩)
        (p := fun x => p x * L1 x / ∑ y ∈ range n, p y * L1 y)
        ⟨tab_length _ _, hs.2.1, hs.2.2⟩ rfl hq1 hL2.measProb h2,
      store_pos (tab_length _ _) hq2 (by rw [e2]; exact div_pos hpos e1), Outcome.ok_bind]
    have e3 : (tab n fun x => p x * L1 x / (∑ y ∈ range n, p y * L1 y) * L2 x /
        ∑ x ∈ range n, p x * L1 x / (∑ y ∈ range n, p y * L1 y) * L2 x) =
        tab n (bayes n (fun x => L1 x * L2 x) p) := by
      refine tab_congr fun x _ => ?_
      rw [e2, e, bayes, evidence, div_div_div_cancel_right₀ e1.ne']
    rw [e3]
    rfl
  refine ⟨_, key hL1 hL2 h1 h2 hpos, ?_, rfl⟩
  have hc : (fun x => L1 x * L2 x) = fun x => L2 x * L1 x := by
    funext x; ring
  rw [hc]
  refine key hL2 hL1 h2 h1 ?_
  rwa [show (fun x => p x * (L2 x * L1 x)) = fun x => p x * (L1 x * L2 x) by funext x; ring]

/-! ## C24

English claim: if every state has zero likelihood, `Update` reports failure or leaves a valid
distribution. This is false. -/

/-- A measurement of probability zero: `Update` returns `true`, every posterior probability is zero,
and the cumulative table of the posterior, from which it is sampled, keeps its old contents. -/
theorem C24_false {n : Nat} {f : HistogramFilter K} (hf : HistogramHistory n f)
    {p : Nat → K} (hp : f.post.probabilitiesGet = tab n p) (hp0 : ∀ x < n, 0 ≤ p x)
    {m : Model Int Z K} {z : Z} {s : Option Int} {L : Nat → K} (hL : Likelihood n m z s L)
    (hL0 : ∀ x < n, 0 ≤ L x) (hz : evidence n L p = 0) :
    ∃ f', f.update { sys := none, meas := some (m, z, s) } = .ok (true, f') ∧
      f'.post.probabilitiesGet = tab n (fun _ => 0) ∧
      ¬ IsDistribution f'.post.probabilitiesGet ∧
      ∀ method u, f'.post.sampleOne method u = f.post.sampleOne method u := by
  have hs := hf.sized
  have hq : ∀ x < n, p x * L x = 0 := fun x hx =>
    (Finset.sum_eq_zero_iff_of_nonneg (fun x hx => mul_nonneg (hp0 x (Finset.mem_range.1 hx))
      (hL0 x (Finset.mem_range.1 hx)))).1 hz x (Finset.mem_range.2 hx)
  refine ⟨{ f with post := { f.post with values := tab n fun _ => 0 } }, ?_, rfl, ?_, ?_⟩
  · simp only [update, sysPart, measPart, Outcome.ok_bind]
    rw [measUpdate_eq hs hp hp0 hL.measProb hL0, store_zero hs.1 hq]
    rfl
  · intro h
    have h2 : (tab n fun _ => (0 : K)).sum = 1 := h.2
    rw [tab_sum] at h2
    simp at h2
  · intro method u
    have hl : f.post.numStates = n := hs.1
    have hl' : (DiscretePdf.mk (tab n fun _ => (0 : K)) f.post.cum).numStates = n := by
      simp [DiscretePdf.numStates]
    cases method <;> simp only [DiscretePdf.sampleOne, hl, hl']

/-- Once all probabilities are zero, no later update that returns normally repairs them, and none
reports failure. -/
theorem C24_stays_zero {n : Nat} {f : HistogramFilter K} (hf : HistogramHistory n f)
    (hp : f.post.probabilitiesGet = tab n (fun _ => 0)) {cs : List (Call Z K)}
    {ss : List (Step K)} (hcs : Describes n cs ss) (hss : ∀ s ∈ ss, s.Nonneg n) :
    ∃ f', f.run cs = .ok (true, f') ∧ f'.post.probabilitiesGet = tab n (fun _ => 0) := by
  have hs := hf.sized
  clear hf
  induction hcs generalizing f with
  | nil => exact ⟨f, rfl, hp⟩
  | @cons c cs s1 s2 ss h1 h2 _ ih =>
    obtain ⟨csys, cmeas⟩ := c
    simp only at h1 h2
    obtain ⟨f1, e1, hs1, hp1⟩ : ∃ f1, f.sysPart csys = .ok f1 ∧ Sized n f1 ∧
        f1.post.probabilitiesGet = tab n (fun _ => 0) := by
      cases h1 with
      | none => exact ⟨f, rfl, hs, hp⟩
      | @some m u T hT =>
        obtain ⟨⟨w, hw⟩, hT'⟩ := hT.sysProb
        have hT0 : (Step.move T).Nonneg n := hss _ (by simp)
        refine ⟨⟨⟨tab n fun _ => 0, f.post.cum⟩,
          tab n (totalProbability n T fun _ => 0), f.timestep⟩, ?_, ?_, rfl⟩
        · simp only [sysPart]
          rw [sysUpdate_eq hs hp (fun _ _ => le_rfl) hw hT' hT0,
            store_zero hs.1 (fun x _ => by simp [totalProbability])]
          rfl
        · exact ⟨by simp, by simp, hs.2.2⟩
    obtain ⟨f2, e2, hs2, hp2⟩ : ∃ f2, f1.measPart cmeas = .ok f2 ∧ Sized n f2 ∧
        f2.post.probabilitiesGet = tab n (fun _ => 0) := by
      cases h2 with
      | none => exact ⟨f1, rfl, hs1, hp1⟩
      | @some m z s L hL =>
        have hL0 : (Step.observe L).Nonneg n := hss _ (by simp)
        refine ⟨{ f1 with post := { f1.post with values := tab n fun _ => 0 } }, ?_, ?_, rfl⟩
        · simp only [measPart]
          rw [measUpdate_eq hs1 hp1 (fun _ _ => le_rfl) hL.measProb hL0,
            store_zero hs1.1 (fun x _ => by simp)]
          rfl
        · exact ⟨by simp, hs1.2.1, hs1.2.2⟩
    obtain ⟨f3, e3, hp3⟩ := ih (f := f2) hp2 (fun s hs => hss s (by simp [hs])) hs2
    exact ⟨f3, by simp [run, update, e1, e2, e3], hp3⟩

/-- Partial: with positive evidence the claim holds. Missing for the full property: a report, or a
valid posterior, when the evidence is zero (see `C24_false`). -/
theorem C24_positive_partial {n : Nat} {f : HistogramFilter K} (hf : HistogramHistory n f)
    (hd : IsDistribution f.post.probabilitiesGet)
    {m : Model Int Z K} {z : Z} {s : Option Int} {L : Nat → K} (hL : Likelihood n m z s L)
    (hL0 : ∀ x < n, 0 ≤ L x)
    (hpos : ∃ (x : Nat) (w : K), x < n ∧ f.post.probabilityGet x = .ok w ∧ 0 < w ∧ 0 < L x) :
    ∃ f', f.update { sys := none, meas := some (m, z, s) } = .ok (true, f') ∧
      IsDistribution f'.post.probabilitiesGet := by
  have hs := hf.sized
  have hp := eq_tab f.post.probabilitiesGet 0
  rw [show f.post.probabilitiesGet.length = n from hs.1] at hp
  have hp0 : ∀ x < n, 0 ≤ f.post.probabilitiesGet.getD x 0 := by
    have := hd.1
    rw [hp] at this
    exact forall_mem_tab.1 this
  obtain ⟨x, w, hx, hw, hw0, hLx⟩ := hpos
  have hwx : f.post.probabilitiesGet.getD x 0 = w := by
    rw [DiscretePdf.probabilityGet_nat (by rw [hs.1]; exact hx)] at hw
    simp only [Outcome.ok.injEq] at hw
    rw [← hw]
    simp [hs.1, hx]
  have he : 0 < evidence n L fun x => f.post.probabilitiesGet.getD x 0 := by
    refine lt_of_lt_of_le (mul_pos hw0 hLx) ?_
    rw [← hwx]
    exact Finset.single_le_sum (f := fun x => f.post.probabilitiesGet.getD x 0 * L x)
      (fun y hy => mul_nonneg (hp0 y (Finset.mem_range.1 hy)) (hL0 y (Finset.mem_range.1 hy)))
      (Finset.mem_range.2 hx)
  obtain ⟨f', h1, _, h3⟩ := C23_bayes hf hp hp0 hL hL0 he
  exact ⟨f', h1, h3⟩

/-! ## C25 -/

/-- After any sequence of `Update` calls with positive total evidence, the posterior probability of
`x` is the sum over all state trajectories ending in `x` of prior times transition probabilities
times likelihoods, divided by the same sum over all trajectories. Every call returns `true`. The
time step stays 0. -/
theorem C25_exact {n : Nat} {prior : DiscretePdf K} (hn : prior.numStates = n) {p : Nat → K}
    (hp : prior.probabilitiesGet = tab n p) (hd : IsDistribution prior.probabilitiesGet)
    {cs : List (Call Z K)} {ss : List (Step K)} (hcs : Describes n cs ss)
    (hss : ∀ s ∈ ss, s.Nonneg n) (hpos : 0 < historyEvidence n p ss) :
    ∃ f f', HistogramFilter.make prior = .ok f ∧ f.run cs = .ok (true, f') ∧
      f'.post.probabilitiesGet = tab n (fun x => jointLast n p ss x / historyEvidence n p ss) ∧
      IsDistribution f'.post.probabilitiesGet ∧ f'.timestep = 0 := by
  obtain ⟨f, hf⟩ : ∃ f, HistogramFilter.make prior = .ok f := by
    simp only [HistogramFilter.make, DiscretePdf.copy]
    rw [DiscretePdf.cumUpdate_of_sum
      (d := { values := prior.values, cum := List.replicate (prior.numStates + 1) 0 }) hd.2]
    exact ⟨_, rfl⟩
  obtain ⟨hs, hv⟩ := make_sized hf
  rw [show prior.values.length = n from hn] at hs
  have hpf : f.post.values = tab n fun x => p x / ∑ y ∈ range n, p y := by
    rw [hv]
    have h1 : ∑ y ∈ range n, p y = 1 := by
      rw [← tab_sum, ← hp]; exact hd.2
    simp only [h1, div_one]
    exact hp
  have hp0 : ∀ x < n, 0 ≤ p x := by
    have := hd.1
    rw [hp] at this
    exact forall_mem_tab.1 this
  -- generalised statement: the filter holds `q / mass q`
  have key : ∀ (cs : List (Call Z K)) (ss : List (Step K)), Describes n cs ss →
      (∀ s ∈ ss, s.Nonneg n) → ∀ (f : HistogramFilter K) (q : Nat → K), Sized n f →
      (∀ x < n, 0 ≤ q x) → f.post.values = (tab n fun x => q x / ∑ y ∈ range n, q y) →
      0 < historyEvidence n q ss →
      ∃ f', f.run cs = .ok (true, f') ∧ Sized n f' ∧
        f'.post.values = tab n fun x => jointLast n q ss x / historyEvidence n q ss := by
    intro cs ss hcs
    induction hcs with
    | nil =>
      intro _ f q hs _ hq _
      refine ⟨f, rfl, hs, ?_⟩
      rw [hq]
      refine tab_congr fun x hx => ?_
      rw [jointLast_nil n q hx, historyEvidence_nil]
    | @cons c cs s1 s2 ss h1 h2 _ ih =>
      obtain ⟨csys, cmeas⟩ := c
      simp only at h1 h2
      intro hss f q hs hq0 hq hpos
      -- one step
      have one : ∀ (s : Step K) (rest : List (Step K)) (q : Nat → K), (∀ x < n, 0 ≤ q x) →
          s.Nonneg n → 0 < historyEvidence n q (s :: rest) →
          (∀ x < n, 0 ≤ s.apply n q x) ∧ 0 < ∑ x ∈ range n, s.apply n q x ∧
          0 < ∑ x ∈ range n, q x ∧ 0 < historyEvidence n (s.apply n q) rest := by
        intro s rest q hq0 hs hpos
        have hm := mass_pos_of_evidence hq0 hpos
        rw [historyEvidence_cons] at hpos
        have h0 := Step.apply_nonneg hq0 hs
        exact ⟨h0, mass_pos_of_evidence h0 hpos, hm, hpos⟩
      have scaled : ∀ (s : Step K) (q : Nat → K) (c : K) (x : Nat),
          s.apply n (fun x => q x / c) x = s.apply n q x / c := by
        intro s q c x
        cases s with
        | move T =>
          simp only [Step.apply, totalProbability, Finset.sum_div]
          exact Finset.sum_congr rfl fun y _ => by ring
        | observe L => simp only [Step.apply]; ring
      have renorm : ∀ (s : Step K) (q : Nat → K), 0 < ∑ x ∈ range n, q x →
          (tab n fun x => s.apply n (fun x => q x / ∑ y ∈ range n, q y) x /
            ∑ y ∈ range n, s.apply n (fun x => q x / ∑ y ∈ range n, q y) y) =
          tab n fun x => s.apply n q x / ∑ y ∈ range n, s.apply n q y := by
        intro s q hq
        refine tab_congr fun x _ => ?_
        simp only [scaled]
        rw [← Finset.sum_div, div_div_div_cancel_right₀ hq.ne']
      obtain ⟨f1, q1, e1, hs1, hq10, hq1, hpos1, hj1⟩ : ∃ (f1 : HistogramFilter K) (q1 : Nat → K),
          f.sysPart csys = .ok f1 ∧ Sized n f1 ∧ (∀ x < n, 0 ≤ q1 x) ∧
          f1.post.values = (tab n fun x => q1 x / ∑ y ∈ range n, q1 y) ∧
          0 < historyEvidence n q1 (s2 ++ ss) ∧
          ∀ x, jointLast n q (s1 ++ s2 ++ ss) x = jointLast n q1 (s2 ++ ss) x := by
        cases h1 with
        | none => exact ⟨f, q, rfl, hs, hq0, hq, hpos, fun x => rfl⟩
        | @some m u T hT =>
          obtain ⟨⟨w, hw⟩, hT'⟩ := hT.sysProb
          have hT0 : (Step.move T).Nonneg n := hss _ (by simp)
          obtain ⟨a1, a2, a3, a4⟩ := one (.move T) (s2 ++ ss) q hq0 hT0 (by simpa using hpos)
          have hqn : ∀ x < n, 0 ≤ q x / ∑ y ∈ range n, q y :=
            fun x hx => div_nonneg (hq0 x hx) a3.le
          have hnn := Step.apply_nonneg hqn hT0
          have hmass : 0 < ∑ x ∈ range n,
              (Step.move T).apply n (fun x => q x / ∑ y ∈ range n, q y) x := by
            simp only [scaled]
            rw [← Finset.sum_div]
            exact div_pos a2 a3
          refine ⟨⟨⟨
              (tab n fun x => (Step.move T).apply n (fun x => q x / ∑ y ∈ range n, q y) x /
                ∑ y ∈ range n, (Step.move T).apply n (fun x => q x / ∑ y ∈ range n, q y) y),
              (runningSums 0
                (tab n fun x => (Step.move T).apply n (fun x => q x / ∑ y ∈ range n, q y) x /
                ∑ y ∈ range n, (Step.move T).apply n (fun x => q x / ∑ y ∈ range n, q y) y))⟩,
              tab n ((Step.move T).apply n (fun x => q x / ∑ y ∈ range n, q y)), f.timestep⟩,
            (Step.move T).apply n q, ?_, ?_, a1, ?_, a4, ?_⟩
          · simp only [sysPart]
            rw [sysUpdate_eq hs hq hqn hw hT' hT0,
              store_pos (q := totalProbability n T fun x => q x / ∑ y ∈ range n, q y) hs.1 hnn hmass, Outcome.ok_bind]
            rfl
          · exact ⟨by simp, by simp, hs.2.2⟩
          · exact renorm (.move T) q a3
          · intro x
            simpa using jointLast_cons n q (.move T) (s2 ++ ss) x
      obtain ⟨f2, q2, e2, hs2, hq20, hq2, hpos2, hj2⟩ : ∃ (f2 : HistogramFilter K) (q2 : Nat → K),
          f1.measPart cmeas = .ok f2 ∧ Sized n f2 ∧ (∀ x < n, 0 ≤ q2 x) ∧
          f2.post.values = (tab n fun x => q2 x / ∑ y ∈ range n, q2 y) ∧
          0 < historyEvidence n q2 ss ∧
          ∀ x, jointLast n q1 (s2 ++ ss) x = jointLast n q2 ss x := by
        cases h2 with
        | none => exact ⟨f1, q1, rfl, hs1, hq10, hq1, hpos1, fun x => rfl⟩
        | @some m z s L hL =>
          have hL0 : (Step.observe L).Nonneg n := hss _ (by simp)
          obtain ⟨a1, a2, a3, a4⟩ := one (.observe L) ss q1 hq10 hL0 (by simpa using hpos1)
          have hqn : ∀ x < n, 0 ≤ q1 x / ∑ y ∈ range n, q1 y :=
            fun x hx => div_nonneg (hq10 x hx) a3.le
          have hnn := Step.apply_nonneg hqn hL0
          have hmass : 0 < ∑ x ∈ range n,
              (Step.observe L).apply n (fun x => q1 x / ∑ y ∈ range n, q1 y) x := by
            simp only [scaled]
            rw [← Finset.sum_div]
            exact div_pos a2 a3
          refine ⟨⟨⟨
              (tab n fun x => (Step.observe L).apply n (fun x => q1 x / ∑ y ∈ range n, q1 y) x /
                ∑ y ∈ range n, (Step.observe L).apply n (fun x => q1 x / ∑ y ∈ range n, q1 y) y),
              (runningSums 0
                (tab n fun x => (Step.observe L).apply n (fun x => q1 x / ∑ y ∈ range n, q1 y) x /
                ∑ y ∈ range n, (Step.observe L).apply n (fun x => q1 x / ∑ y ∈ range n, q1 y) y))⟩,
              f1.newProb, f1.timestep⟩,
            (Step.observe L).apply n q1, ?_, ?_, a1, ?_, a4, ?_⟩
          · simp only [measPart]
            rw [measUpdate_eq hs1 hq1 hqn hL.measProb hL0]
            rw [store_pos (q := fun x => q1 x / (∑ y ∈ range n, q1 y) * L x) hs1.1 hnn hmass,
              Outcome.ok_bind]
            rfl
          · exact ⟨by simp, hs1.2.1, hs1.2.2⟩
          · exact renorm (.observe L) q1 a3
          · intro x
            simpa using jointLast_cons n q1 (.observe L) ss x
      obtain ⟨f3, e3, hs3, hq3⟩ := ih (fun s hs => hss s (by simp [hs])) f2 q2 hs2 hq20 hq2 hpos2
      refine ⟨f3, by simp [run, update, e1, e2, e3], hs3, ?_⟩
      rw [hq3]
      refine tab_congr fun x _ => ?_
      simp only [historyEvidence, hj1, hj2]
  obtain ⟨f', h1, h2, h3⟩ := key cs ss hcs hss f p hs hp0 hpf hpos
  refine ⟨f, f', hf, h1, h3, ?_, h2.2.2⟩
  have hj0 : ∀ x < n, 0 ≤ jointLast n p ss x := by
    have : ∀ (ss : List (Step K)) (q : Nat → K), (∀ s ∈ ss, s.Nonneg n) → (∀ x < n, 0 ≤ q x) →
        ∀ x < n, 0 ≤ jointLast n q ss x := by
      intro ss
      induction ss with
      | nil => intro q _ hq x hx; rw [jointLast_nil n q hx]; exact hq x hx
      | cons s ss ih =>
        intro q hss hq x hx
        rw [jointLast_cons]
        exact ih _ (fun s hs => hss s (by simp [hs]))
          (Step.apply_nonneg hq (hss s (by simp))) x hx
    exact this ss p hss hp0
  show IsDistribution f'.post.values
  rw [h3]
  refine ⟨forall_mem_tab.2 fun x hx => div_nonneg (hj0 x hx) hpos.le, ?_⟩
  rw [tab_sum, ← Finset.sum_div]
  exact div_self hpos.ne'

/-- The trajectories summed over are exactly the sequences of states, each once. -/
theorem C25_trajectories (n k : Nat) :
    (∀ xs, xs ∈ paths n k ↔ xs.length = k ∧ ∀ x ∈ xs, x < n) ∧ (paths n k).Nodup :=
  ⟨fun _ => mem_paths, nodup_paths n k⟩

/-- A `DiscreteConditionalPdf` with one argument, filled so that reading `P(y|x)` gives `T y x`,
makes a system model with these transition probabilities. -/
theorem C25_table_model {n : Nat} {d : DiscreteConditionalPdf K} (hd : TableHistory n [n] d)
    {T : Nat → Nat → K} (hT : ∀ y < n, ∀ x < n, d.read y [x] = .ok (T y x)) (r : K) :
    ∃ m, Model.make (some (d.toCondPdf r)) = .ok m ∧ ∀ u, Transition n m u T := by
  have h1 : (d.toCondPdf r).numArgs = 1 := by
    have := hd.shape.2.1
    simp only [DiscreteConditionalPdf.toCondPdf, DiscreteConditionalPdf.numArgs]
    rw [hd.shape.2.2.2]
    rfl
  refine ⟨{ pdf := some (d.toCondPdf r), without := some true }, by
    simp [Model.make, Model.assign, h1], fun u => Or.inl ⟨d.toCondPdf r, h1, by
    simp [Model.make, Model.assign, h1], ?_⟩⟩
  intro y hy x hx
  rw [← hT y hy x hx]
  rfl

/-! ## C31 for the histogram filter -/

/-- C31 fails for the histogram filter: whatever updates are made, the time step stays 0. -/
theorem C31_histogram_false {prior : DiscretePdf K} {f g : HistogramFilter K}
    (hf : HistogramFilter.make prior = .ok f) {cs : List (Call Z K)} {b : Bool}
    (hr : f.run cs = .ok (b, g)) : g.timestep = 0 := by
  have h0 : f.timestep = 0 := by
    simp only [HistogramFilter.make, Outcome.bind_eq_ok, Outcome.pure_eq, Outcome.ok.injEq] at hf
    obtain ⟨_, _, rfl⟩ := hf
    rfl
  clear hf
  induction cs generalizing f b with
  | nil =>
    simp only [HistogramFilter.run, Outcome.ok.injEq, Prod.mk.injEq] at hr
    rw [← hr.2]; exact h0
  | cons c cs ih =>
    simp only [HistogramFilter.run, Outcome.bind_eq_ok, Outcome.pure_eq, Outcome.ok.injEq,
      Prod.mk.injEq, Prod.exists] at hr
    obtain ⟨b1, f1, h1, b2, f2, h2, _, rfl⟩ := hr
    refine ih h2 ?_
    simp only [HistogramFilter.update, Outcome.bind_eq_ok, Outcome.pure_eq, Outcome.ok.injEq,
      Prod.mk.injEq] at h1
    obtain ⟨fa, ha, fb, hb, _, rfl⟩ := h1
    have hfa : fa.timestep = f.timestep := by
      rcases hs : c.sys with _ | ⟨m, u⟩
      · rw [hs] at ha
        simp only [HistogramFilter.sysPart, Outcome.ok.injEq] at ha
        rw [ha]
      · rw [hs] at ha
        simp only [HistogramFilter.sysPart, HistogramFilter.sysUpdate, Outcome.bind_eq_ok,
          Outcome.pure_eq, Outcome.ok.injEq, Prod.exists] at ha
        obtain ⟨_, _, _, _, _, _, _, rfl⟩ := ha
        rfl
    have hfb : fb.timestep = fa.timestep := by
      rcases hs : c.meas with _ | ⟨m, z, s⟩
      · rw [hs] at hb
        simp only [HistogramFilter.measPart, Outcome.ok.injEq] at hb
        rw [hb]
      · rw [hs] at hb
        simp only [HistogramFilter.measPart, HistogramFilter.measUpdate, Outcome.bind_eq_ok,
          Outcome.pure_eq, Outcome.ok.injEq, Prod.exists] at hb
        obtain ⟨_, _, _, _, _, rfl⟩ := hb
        rfl
    rw [hfb, hfa, h0]

/-- One system update returns `true`; the time step is still 0. -/
example : ((HistogramExample.filter.run (Z := Int) [⟨some (HistogramExample.sys, none), none⟩]) >>= fun r =>
    (pure (r.1, r.2.timestep) : Outcome (Bool × Nat))) = .ok (true, 0) := by decide +kernel

end BFL.Props
