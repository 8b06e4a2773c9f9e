import Verif.Props.Histogram
import Verif.Lemmas.Merging

set_option linter.unusedSectionVars false

/-!
# Property C110: states that behave alike may be merged, and the numbering of states does not matter
-/

namespace BFL.Props

open Finset Spec HistogramFilter

variable {Z Z' K : Type} [Field K] [LinearOrder K] [IsStrictOrderedRing K]

/-- **C110.** A process is described twice, with `n` states and with `m` states, where state `x` of the
first description belongs to state `φ x` of the second, and states that belong together behave alike.
Both filters process the same history. Then the probability that the second filter reports for `X` is
the sum of the probabilities that the first one reports for the states belonging to `X`. -/
theorem C110_merge {n m : Nat} {φ : Nat → Nat} (hφ : ∀ x < n, φ x < m)
    {prior prior' : DiscretePdf K} (hn : prior.numStates = n) (hm : prior'.numStates = m)
    {p p' : Nat → K} (hp : prior.probabilitiesGet = tab n p) (hp' : prior'.probabilitiesGet = tab m p')
    (hd : IsDistribution prior.probabilitiesGet)
    (hpp : ∀ X < m, p' X = mergedMass n φ p X)
    {cs : List (Call Z K)} {cs' : List (Call Z' K)} {ss ss' : List (Step K)}
    (hcs : Describes n cs ss) (hcs' : Describes m cs' ss')
    (hss : ∀ s ∈ ss, s.Nonneg n) (hss' : ∀ s ∈ ss', s.Nonneg m)
    (hpos : 0 < historyEvidence n p ss) (hmerge : List.Forall₂ (Step.Merges n m φ) ss ss') :
    ∃ f g f' g' q q', HistogramFilter.make prior = .ok f ∧ HistogramFilter.make prior' = .ok g ∧
      f.run cs = .ok (true, f') ∧ g.run cs' = .ok (true, g') ∧
      f'.post.probabilitiesGet = tab n q ∧ g'.post.probabilitiesGet = tab m q' ∧
      ∀ X < m, q' X = mergedMass n φ q X := by
  have hd' : IsDistribution prior'.probabilitiesGet := by
    rw [hp] at hd
    rw [hp']
    have h0 : ∀ x < n, 0 ≤ p x := forall_mem_tab.1 hd.1
    have h1 : ∑ x ∈ range n, p x = 1 := by rw [← tab_sum]; exact hd.2
    refine ⟨forall_mem_tab.2 fun X hX => ?_, ?_⟩
    · rw [hpp X hX]
      refine Finset.sum_nonneg fun x hx => ?_
      split
      · exact h0 x (Finset.mem_range.1 hx)
      · exact le_rfl
    · rw [tab_sum, ← h1, ← sum_mergedMass hφ p]
      exact Finset.sum_congr rfl fun X hX => hpp X (Finset.mem_range.1 hX)
  obtain ⟨b, hb, hj⟩ := merged_joint hφ hmerge (p := p) (p' := p') one_pos
    fun X hX => by rw [one_mul, hpp X hX]
  have he : historyEvidence n p ss = b * historyEvidence m p' ss' := by
    unfold historyEvidence
    rw [← sum_mergedMass hφ (jointLast n p ss), Finset.mul_sum]
    exact Finset.sum_congr rfl fun X hX => hj X (Finset.mem_range.1 hX)
  have hpos' : 0 < historyEvidence m p' ss' := by
    rw [he] at hpos
    exact (mul_pos_iff_of_pos_left hb).1 hpos
  obtain ⟨f, f', h1, h2, h3, -, -⟩ := C25_exact hn hp hd hcs hss hpos
  obtain ⟨g, g', k1, k2, k3, -, -⟩ := C25_exact hm hp' hd' hcs' hss' hpos'
  refine ⟨f, g, f', g', fun x => jointLast n p ss x / historyEvidence n p ss,
    fun x => jointLast m p' ss' x / historyEvidence m p' ss', h1, k1, h2, k2, h3, k3, fun X hX => ?_⟩
  have e : mergedMass n φ (fun x => jointLast n p ss x / historyEvidence n p ss) X =
      mergedMass n φ (jointLast n p ss) X / historyEvidence n p ss := by
    unfold mergedMass
    rw [Finset.sum_div]
    refine Finset.sum_congr rfl fun x _ => ?_
    split
    · rfl
    · rw [zero_div]
  rw [e, hj X hX, he, mul_div_mul_left _ _ hb.ne']

/-- **C110, renumbering.** If different states get different numbers, every state is reported with the
same probability under its new number. There may be new states that no old state belongs to: they are
reported with probability zero. -/
theorem C110_renumber {n m : Nat} {φ : Nat → Nat} (hφ : ∀ x < n, φ x < m)
    (hinj : ∀ x < n, ∀ y < n, φ x = φ y → x = y)
    {prior prior' : DiscretePdf K} (hn : prior.numStates = n) (hm : prior'.numStates = m)
    {p p' : Nat → K} (hp : prior.probabilitiesGet = tab n p) (hp' : prior'.probabilitiesGet = tab m p')
    (hd : IsDistribution prior.probabilitiesGet) (hold : ∀ x < n, p' (φ x) = p x)
    (hnew : ∀ X < m, (∀ x < n, φ x ≠ X) → p' X = 0)
    {cs : List (Call Z K)} {cs' : List (Call Z' K)} {ss ss' : List (Step K)}
    (hcs : Describes n cs ss) (hcs' : Describes m cs' ss')
    (hss : ∀ s ∈ ss, s.Nonneg n) (hss' : ∀ s ∈ ss', s.Nonneg m)
    (hpos : 0 < historyEvidence n p ss) (hmerge : List.Forall₂ (Step.Merges n m φ) ss ss') :
    ∃ f g f' g' q q', HistogramFilter.make prior = .ok f ∧ HistogramFilter.make prior' = .ok g ∧
      f.run cs = .ok (true, f') ∧ g.run cs' = .ok (true, g') ∧
      f'.post.probabilitiesGet = tab n q ∧ g'.post.probabilitiesGet = tab m q' ∧
      (∀ x < n, q' (φ x) = q x) ∧ ∀ X < m, (∀ x < n, φ x ≠ X) → q' X = 0 := by
  have key : ∀ (r : Nat → K) (x : Nat), x < n → mergedMass n φ r (φ x) = r x := by
    intro r x hx
    unfold mergedMass
    rw [Finset.sum_eq_single x]
    · simp
    · intro y hy hyx
      rw [if_neg fun h => hyx (hinj y (Finset.mem_range.1 hy) x hx h)]
    · intro h
      exact absurd (Finset.mem_range.2 hx) h
  have zero : ∀ (r : Nat → K) (X : Nat), (∀ x < n, φ x ≠ X) → mergedMass n φ r X = 0 := by
    intro r X h
    exact Finset.sum_eq_zero fun x hx => if_neg (h x (Finset.mem_range.1 hx))
  have hpp : ∀ X < m, p' X = mergedMass n φ p X := by
    intro X hX
    by_cases h : ∀ x < n, φ x ≠ X
    · rw [hnew X hX h, zero p X h]
    · push Not at h
      obtain ⟨x, hx, rfl⟩ := h
      rw [hold x hx, key p x hx]
  obtain ⟨f, g, f', g', q, q', h1, h2, h3, h4, h5, h6, h7⟩ :=
    C110_merge hφ hn hm hp hp' hd hpp hcs hcs' hss hss' hpos hmerge
  exact ⟨f, g, f', g', q, q', h1, h2, h3, h4, h5, h6, fun x hx => by rw [h7 _ (hφ x hx), key q x hx],
    fun X hX h => by rw [h7 X hX, zero q X h]⟩

/-- **C110, the condition is needed.** One prediction with the tables `T` and `T'` gives matching
reports from all matching priors if and only if states that belong together behave alike. -/
theorem C110_condition {n m : Nat} {φ : Nat → Nat} (hφ : ∀ x < n, φ x < m)
    {M M' : Model Int Int K} {u u' : Option Int} {T T' : Nat → Nat → K}
    (hT : Transition n M u T) (hT' : Transition m M' u' T')
    (hT0 : ∀ y < n, ∀ x < n, 0 ≤ T y x) (hT1 : ∀ x < n, ∑ y ∈ range n, T y x = 1)
    (hT0' : ∀ Y < m, ∀ X < m, 0 ≤ T' Y X) (hT1' : ∀ X < m, ∑ Y ∈ range m, T' Y X = 1) :
    (∀ (prior prior' : DiscretePdf K) (f g f' g' : HistogramFilter K) (p p' q q' : Nat → K),
      prior.probabilitiesGet = tab n p → prior'.probabilitiesGet = tab m p' →
      IsDistribution prior.probabilitiesGet → (∀ X < m, p' X = mergedMass n φ p X) →
      HistogramFilter.make prior = .ok f → HistogramFilter.make prior' = .ok g →
      f.update (Z := Z) ⟨some (M, u), none⟩ = .ok (true, f') →
      g.update (Z := Z) ⟨some (M', u'), none⟩ = .ok (true, g') →
      f'.post.probabilitiesGet = tab n q → g'.post.probabilitiesGet = tab m q' →
      ∀ X < m, q' X = mergedMass n φ q X) ↔ (Step.move T).Merges n m φ (.move T') := by
  constructor
  case mpr =>
    intro hm prior prior' f g f' g' p p' q q' hp hp' hd hpp hf hg hf' hg' hq hq' X hX
    have hd2 := hd
    rw [hp] at hd2
    have hp1 : ∑ x ∈ range n, p x = 1 := by rw [← tab_sum]; exact hd2.2
    have hlen : prior.numStates = n := by
      have := congrArg List.length hp
      simpa [DiscretePdf.probabilitiesGet] using this
    have hlen' : prior'.numStates = m := by
      have := congrArg List.length hp'
      simpa [DiscretePdf.probabilitiesGet] using this
    obtain ⟨f0, g0, f1, g1, r, r', a1, a2, a3, a4, a5, a6, a7⟩ :=
      C110_merge (Z := Z) (Z' := Z) hφ hlen hlen' hp hp' hd hpp
      (cs := [⟨some (M, u), none⟩]) (cs' := [⟨some (M', u'), none⟩])
      (.cons (s1 := [.move T]) (s2 := []) (ss := []) (.some hT) .none .nil)
      (.cons (s1 := [.move T']) (s2 := []) (ss := []) (.some hT') .none .nil)
      (by intro s hs; simp at hs; subst hs; exact hT0)
      (by intro s hs; simp at hs; subst hs; exact hT0')
      (by
        show 0 < historyEvidence n p [Step.move T]
        rw [historyEvidence_cons, historyEvidence_nil]
        have : ∑ x ∈ range n, Step.apply n p (.move T) x = 1 := by
          show ∑ x ∈ range n, totalProbability n T p x = 1
          unfold totalProbability
          rw [Finset.sum_comm, ← hp1]
          refine Finset.sum_congr rfl fun x hx => ?_
          rw [← Finset.sum_mul, hT1 x (Finset.mem_range.1 hx), one_mul]
        rw [this]
        exact one_pos)
      (.cons hm .nil)
    rw [hf, Outcome.ok.injEq] at a1
    rw [hg, Outcome.ok.injEq] at a2
    subst a1 a2
    simp only [HistogramFilter.run, hf', hg', Outcome.ok_bind, Outcome.pure_eq, Outcome.ok.injEq,
      Prod.mk.injEq, Bool.and_self, true_and] at a3 a4
    subst a3 a4
    rw [hq] at a5
    rw [hq'] at a6
    have same : ∀ {k : Nat} {a b : Nat → K}, tab k a = tab k b → ∀ x < k, a x = b x := by
      intro k a b h x hx
      have := congrArg (fun l => l[x]?) h
      simpa [tab, hx] using this
    rw [same a6 X hX, a7 X hX]
    exact Finset.sum_congr rfl fun x hx => by rw [same a5 x (Finset.mem_range.1 hx)]
  intro h
  intro x hx Y hY
  have hd : ∀ (k : Nat) (i : Nat), i < k → IsDistribution (tab k fun j => if j = i then (1 : K) else 0) := by
    intro k i hi
    refine ⟨forall_mem_tab.2 fun j _ => by split <;> norm_num, ?_⟩
    rw [tab_sum, Finset.sum_ite_eq' (range k) i, if_pos (Finset.mem_range.2 hi)]
  have hmake : ∀ (k : Nat) (i : Nat), i < k → ∃ f : HistogramFilter K,
      HistogramFilter.make ⟨tab k fun j => if j = i then (1 : K) else 0, []⟩ = .ok f ∧
        HistogramHistory k f ∧ f.post.probabilitiesGet = tab k fun j => if j = i then (1 : K) else 0 := by
    intro k i hi
    obtain ⟨f, f', h1, h2, h3, -, -⟩ := C25_exact (Z := Z) (n := k)
      (prior := ⟨tab k fun j => if j = i then (1 : K) else 0, []⟩) (tab_length _ _) rfl (hd k i hi)
      (cs := []) (ss := []) .nil (by simp) (by
        rw [historyEvidence_nil, Finset.sum_ite_eq' (range k) i, if_pos (Finset.mem_range.2 hi)]
        exact one_pos)
    exact ⟨f, h1, .make (tab_length _ _) h1, (make_sized h1).2⟩
  obtain ⟨f, f1, f2, f3⟩ := hmake n x hx
  obtain ⟨g, g1, g2, g3⟩ := hmake m (φ x) (hφ x hx)
  obtain ⟨f', f4, f5, -⟩ := C22_prediction (Z := Z) f2 f3 (f3 ▸ hd n x hx) hT hT0 hT1
  obtain ⟨g', g4, g5, -⟩ := C22_prediction (Z := Z) g2 g3 (g3 ▸ hd m (φ x) (hφ x hx)) hT' hT0' hT1'
  have e := h ⟨tab n fun j => if j = x then (1 : K) else 0, []⟩
    ⟨tab m fun j => if j = φ x then (1 : K) else 0, []⟩ f g f' g'
    (fun j => if j = x then (1 : K) else 0) (fun j => if j = φ x then (1 : K) else 0) _ _ rfl rfl
    (hd n x hx) (fun X _ => by
      unfold mergedMass
      rw [Finset.sum_eq_single x]
      · by_cases hX : X = φ x
        · simp [hX]
        · rw [if_neg hX, if_neg fun h => hX h.symm]
      · intro y _ hy
        simp [hy]
      · intro h
        exact absurd (Finset.mem_range.2 hx) h) f1 g1 f4 g4 f5 g5 Y hY
  have one : ∀ (k i : Nat) (S : Nat → Nat → K) (y : Nat), i < k →
      totalProbability k S (fun j => if j = i then (1 : K) else 0) y = S y i := by
    intro k i S y hi
    unfold totalProbability
    simp only [mul_ite, mul_one, mul_zero]
    rw [Finset.sum_ite_eq' (range k) i, if_pos (Finset.mem_range.2 hi)]
  rw [one m (φ x) T' Y (hφ x hx)] at e
  rw [e]
  unfold mergedMass
  exact Finset.sum_congr rfl fun y _ => by rw [one n x T y hx]

/-! ## Concrete cases -/

namespace MergeFixture

/-- Three places: the robot is in one of two equal rooms (0 and 1) or in the corridor (2). From a room it
leaves with probability 1/2, from the corridor it enters each room with probability 1/4. -/
def T (y x : Nat) : ℚ :=
  if x = 2 then (if y = 2 then 1/2 else 1/4) else if y = 2 then 1/2 else if y = x then 3/8 else 1/8

/-- Two places: some room or the corridor. -/
def T' (_ _ : Nat) : ℚ := 1/2

/-- The sensor reports a wall: 9/10 in a room, 3/10 in the corridor. -/
def L (x : Nat) : ℚ := if x = 2 then 3/10 else 9/10

/-- Another description of the same reading, without the constant. -/
def L' (X : Nat) : ℚ := if X = 1 then 1 else 3

def room (x : Nat) : Nat := if x = 2 then 1 else 0

def sysPdf : CondPdf Int Int ℚ where
  numArgs := 1
  prob args y := match args with
    | [x] => .ok (T y.toNat x.toNat)
    | _ => .abort
  draw _ := .abort

def sysPdf' : CondPdf Int Int ℚ where
  numArgs := 1
  prob args y := match args with
    | [x] => .ok (T' y.toNat x.toNat)
    | _ => .abort
  draw _ := .abort

def measPdf : CondPdf Int Int ℚ where
  numArgs := 1
  prob args _ := match args with
    | [x] => .ok (L x.toNat)
    | _ => .abort
  draw _ := .abort

def measPdf' : CondPdf Int Int ℚ where
  numArgs := 1
  prob args _ := match args with
    | [x] => .ok (L' x.toNat)
    | _ => .abort
  draw _ := .abort

def sys : Model Int Int ℚ := { pdf := some sysPdf, without := some true }
def sys' : Model Int Int ℚ := { pdf := some sysPdf', without := some true }
def meas : Model Int Int ℚ := { pdf := some measPdf, without := some true }
def meas' : Model Int Int ℚ := { pdf := some measPdf', without := some true }

theorem transition : Transition 3 sys none T :=
  Or.inl ⟨sysPdf, rfl, rfl, fun y _ x _ => by simp [sysPdf]⟩
theorem transition' : Transition 2 sys' none T' :=
  Or.inl ⟨sysPdf', rfl, rfl, fun y _ x _ => by simp [sysPdf']⟩
theorem likelihood : Likelihood 3 meas (0 : Int) none L :=
  Or.inl ⟨measPdf, rfl, rfl, fun x _ => by simp [measPdf]⟩
theorem likelihood' : Likelihood 2 meas' (0 : Int) none L' :=
  Or.inl ⟨measPdf', rfl, rfl, fun x _ => by simp [measPdf']⟩

theorem T_nonneg : ∀ y < 3, ∀ x < 3, 0 ≤ T y x := by
  intro y _ x _
  unfold T
  split_ifs <;> norm_num

theorem T_merges : (Step.move T).Merges 3 2 room (.move T') := by
  intro x hx Y hY
  have h : ∀ x ∈ range 3, ∀ Y ∈ range 2, mergedMass 3 room (fun y => T y x) Y = T' Y (room x) := by
    decide +kernel
  exact h x (Finset.mem_range.2 hx) Y (Finset.mem_range.2 hY)

theorem L_merges : (Step.observe L).Merges 3 2 room (.observe L') :=
  ⟨3/10, by norm_num, fun x _ => by unfold L L' room; split_ifs <;> norm_num at *⟩

theorem describes : Describes 3 [⟨some (sys, none), some (meas, (0 : Int), none)⟩]
    [.move T, .observe L] :=
  .cons (s1 := [.move T]) (s2 := [.observe L]) (ss := []) (.some transition) (.some likelihood) .nil

theorem describes' : Describes 2 [⟨some (sys', none), some (meas', (0 : Int), none)⟩]
    [.move T', .observe L'] :=
  .cons (s1 := [.move T']) (s2 := [.observe L']) (ss := []) (.some transition') (.some likelihood') .nil

theorem nonneg : ∀ s ∈ [Step.move T, .observe L], s.Nonneg 3 := by
  intro s hs
  simp only [List.mem_cons, List.not_mem_nil, or_false] at hs
  rcases hs with rfl | rfl
  · exact T_nonneg
  · intro x _
    unfold L
    split <;> norm_num

theorem nonneg' : ∀ s ∈ [Step.move T', .observe L'], s.Nonneg 2 := by
  intro s hs
  simp only [List.mem_cons, List.not_mem_nil, or_false] at hs
  rcases hs with rfl | rfl
  · intro _ _ _ _
    unfold T'
    norm_num
  · intro x _
    unfold L'
    split <;> norm_num

/-- The robot starts in room 0. -/
def prior : DiscretePdf ℚ := { values := [1, 0, 0], cum := [0, 1, 1, 1] }

def prior' : DiscretePdf ℚ := { values := [1, 0], cum := [0, 1, 1] }

/-- Place `x` has the number `3 - x`; place 0 cannot be entered. -/
def T4 (Y X : Nat) : ℚ := if Y = 0 then 0 else T (3 - Y) (3 - X)

def sysPdf4 : CondPdf Int Int ℚ where
  numArgs := 1
  prob args y := match args with
    | [x] => .ok (T4 y.toNat x.toNat)
    | _ => .abort
  draw _ := .abort

def sys4 : Model Int Int ℚ := { pdf := some sysPdf4, without := some true }

theorem transition4 : Transition 4 sys4 none T4 :=
  Or.inl ⟨sysPdf4, rfl, rfl, fun y _ x _ => by simp [sysPdf4]⟩

def prior4 : DiscretePdf ℚ := { values := [0, 0, 0, 1], cum := [0, 0, 0, 0, 1] }

def start (x : Nat) : ℚ := if x = 0 then 1 else 0

end MergeFixture

open MergeFixture in
/-- `C110_merge` for the two rooms. -/
example : ∃ f g f' g' q q', HistogramFilter.make prior = .ok f ∧ HistogramFilter.make prior' = .ok g ∧
    f.run [⟨some (sys, none), some (meas, (0 : Int), none)⟩] = .ok (true, f') ∧
    g.run [⟨some (sys', none), some (meas', (0 : Int), none)⟩] = .ok (true, g') ∧
    f'.post.probabilitiesGet = tab 3 q ∧ g'.post.probabilitiesGet = tab 2 q' ∧
    ∀ X < 2, q' X = mergedMass 3 room q X :=
  C110_merge (n := 3) (m := 2) (fun x _ => by unfold room; split <;> norm_num) rfl rfl (p := start) (p' := start)
    (by decide +kernel) (by decide +kernel) ⟨by decide +kernel, by decide +kernel⟩
    (fun X hX => by
      have h : ∀ X ∈ range 2, start X = mergedMass 3 room start X := by decide +kernel
      exact h X (Finset.mem_range.2 hX))
    describes describes' nonneg nonneg' (by decide +kernel) (.cons T_merges (.cons L_merges .nil))

open MergeFixture in
/-- The reports: 9/16, 3/16 and 1/4 for the three places, 3/4 and 1/4 for the two. -/
example : tab 3 (fun x => jointLast 3 start [.move T, .observe L] x /
      historyEvidence 3 start [.move T, .observe L]) = [9/16, 3/16, 1/4] ∧
    tab 2 (fun x => jointLast 2 start [.move T', .observe L'] x /
      historyEvidence 2 start [.move T', .observe L']) = [3/4, 1/4] :=
  ⟨by decide +kernel, by decide +kernel⟩

open MergeFixture in
/-- `C110_renumber`: the places get new numbers, and there is a fourth place that the robot cannot get
to. -/
example : ∃ f g f' g' q q', HistogramFilter.make prior = .ok f ∧ HistogramFilter.make prior4 = .ok g ∧
    f.run [⟨some (sys, none), (none : Option (Model Int Int ℚ × Int × Option Int))⟩] = .ok (true, f') ∧
    g.run [⟨some (sys4, none), (none : Option (Model Int Int ℚ × Int × Option Int))⟩] = .ok (true, g') ∧
    f'.post.probabilitiesGet = tab 3 q ∧ g'.post.probabilitiesGet = tab 4 q' ∧
    (∀ x < 3, q' (3 - x) = q x) ∧ ∀ X < 4, (∀ x < 3, 3 - x ≠ X) → q' X = 0 :=
  C110_renumber (n := 3) (m := 4) (φ := fun x => 3 - x) (by omega) (by omega) rfl rfl (p := start)
    (p' := fun X => if X = 0 then 0 else start (3 - X))
    (by decide +kernel) (by decide +kernel) ⟨by decide +kernel, by decide +kernel⟩
    (fun x hx => by
      have h : ∀ x ∈ range 3, (fun X => if X = 0 then 0 else start (3 - X)) (3 - x) = start x := by
        decide +kernel
      exact h x (Finset.mem_range.2 hx))
    (fun X hX h => by
      have : X = 0 := by
        by_contra h0
        exact h (3 - X) (by omega) (by omega)
      simp [this])
    (.cons (s1 := [.move T]) (s2 := []) (ss := []) (.some transition) .none .nil)
    (.cons (s1 := [.move T4]) (s2 := []) (ss := []) (.some transition4) .none .nil)
    (by intro s hs; simp at hs; subst hs; exact T_nonneg)
    (by
      intro s hs
      simp at hs
      subst hs
      intro y _ x _
      unfold T4 T
      split_ifs <;> norm_num)
    (by decide +kernel)
    (.cons (fun x hx Y hY => by
      have h : ∀ x ∈ range 3, ∀ Y ∈ range 4, mergedMass 3 (fun x => 3 - x) (fun y => T y x) Y =
        T4 Y (3 - x) := by decide +kernel
      exact h x (Finset.mem_range.2 hx) Y (Finset.mem_range.2 hY)) .nil)

open MergeFixture in
/-- `C110_condition` for the two rooms. -/
example : (∀ x < 3, ∑ y ∈ range 3, T y x = 1) ∧ (∀ X < 2, ∑ Y ∈ range 2, T' Y X = 1) ∧
    (Step.move T).Merges 3 2 room (.move T') := by
  refine ⟨fun x hx => ?_, fun X _ => by norm_num [Finset.sum_range_succ, T'], T_merges⟩
  have h : ∀ x ∈ range 3, ∑ y ∈ range 3, T y x = 1 := by decide +kernel
  exact h x (Finset.mem_range.2 hx)

open MergeFixture in
/-- The condition is not met if a room and the corridor are merged (`C110_condition`): room 0 is left to
room 1 with probability 1/8, the corridor with probability 1/4. -/
example (T'' : Nat → Nat → ℚ) :
    ¬ (Step.move T).Merges 3 2 (fun x => if x = 1 then 0 else 1) (.move T'') := by
  intro h
  have h0 := h 0 (by norm_num) 0 (by norm_num)
  have h2 := h 2 (by norm_num) 0 (by norm_num)
  norm_num [mergedMass, Finset.sum_range_succ, T] at h0 h2
  rw [← h0] at h2
  norm_num at h2

end BFL.Props
