import Verif.Props.Histogram
import Verif.Spec.Forgetting
import Mathlib.Algebra.Order.Archimedean.Basic

/-!
# C77: the histogram filter forgets its prior
-/

set_option linter.unusedSectionVars false

namespace BFL.Props

open Finset Spec HistogramFilter

variable {Z K : Type} [Field K] [LinearOrder K] [IsStrictOrderedRing K]

theorem jointLast_add (n : Nat) (p q : Nat → K) (ss : List (Step K)) (x : Nat) :
    jointLast n (fun y => p y + q y) ss x = jointLast n p ss x + jointLast n q ss x := by
  unfold jointLast
  rw [← Finset.sum_add_distrib]
  refine Finset.sum_congr rfl fun x0 _ => ?_
  rw [← List.sum_map_add]
  refine congrArg List.sum (List.map_congr_left fun xs _ => ?_)
  split
  · ring
  · simp

theorem historyEvidence_add (n : Nat) (p q : Nat → K) (ss : List (Step K)) :
    historyEvidence n (fun y => p y + q y) ss = historyEvidence n p ss + historyEvidence n q ss := by
  unfold historyEvidence
  rw [← Finset.sum_add_distrib]
  exact Finset.sum_congr rfl fun x _ => jointLast_add n p q ss x

theorem jointLast_nonneg' {n : Nat} {p : Nat → K} {ss : List (Step K)}
    (hss : ∀ s ∈ ss, s.Nonneg n) (hp : ∀ x < n, 0 ≤ p x) : ∀ x < n, 0 ≤ jointLast n p ss x := by
  induction ss generalizing p with
  | nil => intro x hx; rw [jointLast_nil n p hx]; exact hp x hx
  | cons s ss ih =>
    intro x hx
    rw [jointLast_cons]
    exact ih (fun s hs => hss s (by simp [hs])) (Step.apply_nonneg hp (hss s (by simp))) x hx

theorem historyEvidence_mono {n : Nat} {p q : Nat → K} {ss : List (Step K)}
    (hss : ∀ s ∈ ss, s.Nonneg n) (h : ∀ x < n, p x ≤ q x) :
    historyEvidence n p ss ≤ historyEvidence n q ss := by
  have e : historyEvidence n q ss =
      historyEvidence n p ss + historyEvidence n (fun y => q y - p y) ss := by
    rw [← historyEvidence_add]
    exact historyEvidence_congr (fun x _ => by ring) ss
  rw [e]
  have : 0 ≤ historyEvidence n (fun y => q y - p y) ss :=
    Finset.sum_nonneg fun x hx => jointLast_nonneg' hss (fun x hx => sub_nonneg.2 (h x hx)) x
      (mem_range.1 hx)
  linarith

/-- Two unnormalised priors under which the observations have the same probability. -/
theorem joint_distance {n : Nat} {σ : K} (h0 : 0 ≤ σ) :
    ∀ (ss : List (Step K)), (∀ s ∈ ss, s.Nonneg n) → (∀ s ∈ ss, s.MixesBy n σ) →
    ∀ (a b : Nat → K), (∀ x < n, 0 ≤ a x) → (∀ x < n, 0 ≤ b x) →
      historyEvidence n a ss = historyEvidence n b ss →
      ∑ x ∈ range n, |jointLast n a ss x - jointLast n b ss x| ≤
        2 * (1 - σ) ^ moves ss * historyEvidence n a ss := by
  intro ss
  induction ss with
  | nil =>
    intro _ _ a b ha hb hab
    have hs : ∑ x ∈ range n, |jointLast n a [] x - jointLast n b [] x| ≤
        ∑ x ∈ range n, (a x + b x) := by
      refine Finset.sum_le_sum fun x hx => ?_
      rw [mem_range] at hx
      rw [jointLast_nil n a hx, jointLast_nil n b hx]
      have := ha x hx
      have := hb x hx
      exact abs_le.2 ⟨by linarith, by linarith⟩
    rw [Finset.sum_add_distrib, ← historyEvidence_nil n a, ← historyEvidence_nil n b, ← hab] at hs
    simp only [moves, pow_zero]
    linarith
  | cons s ss ih =>
    intro hss hmix a b ha hb hab
    have hss' : ∀ s ∈ ss, s.Nonneg n := fun s hs => hss s (by simp [hs])
    have ih := ih hss' (fun s hs => hmix s (by simp [hs]))
    have hsn := hss s (by simp)
    have ha' := Step.apply_nonneg ha hsn
    have hb' := Step.apply_nonneg hb hsn
    rw [historyEvidence_cons, historyEvidence_cons] at hab
    rw [historyEvidence_cons]
    simp only [jointLast_cons]
    cases s with
    | observe L => exact ih _ _ ha' hb' hab
    | move T =>
      obtain ⟨v, hv⟩ : Mixes n σ T := hmix (.move T) (by simp)
      set qa := (Step.move T).apply n a with hqa
      set qb := (Step.move T).apply n b with hqb
      set E := historyEvidence n qa ss with hE
      have hEn : 0 ≤ E :=
        Finset.sum_nonneg fun x hx => jointLast_nonneg' hss' ha' x (mem_range.1 hx)
      have bound : ∀ c : Nat → K, (∀ x < n, 0 ≤ c x) → ∀ y < n,
          σ * ((∑ x ∈ range n, c x) * v y) ≤ (Step.move T).apply n c y ∧
          (Step.move T).apply n c y ≤ (∑ x ∈ range n, c x) * v y := by
        intro c hc y hy
        show σ * ((∑ x ∈ range n, c x) * v y) ≤ ∑ x ∈ range n, T y x * c x ∧
          ∑ x ∈ range n, T y x * c x ≤ (∑ x ∈ range n, c x) * v y
        rw [Finset.sum_mul, Finset.mul_sum]
        refine ⟨Finset.sum_le_sum fun x hx => ?_, Finset.sum_le_sum fun x hx => ?_⟩
        · have := mul_le_mul_of_nonneg_right (hv y hy x (mem_range.1 hx)).1 (hc x (mem_range.1 hx))
          linarith
        · have := mul_le_mul_of_nonneg_right (hv y hy x (mem_range.1 hx)).2 (hc x (mem_range.1 hx))
          linarith
      rcases hEn.eq_or_lt with hE0 | hEpos
      · -- nothing is possible
        have hz : ∀ c : Nat → K, (∀ x < n, 0 ≤ c x) → historyEvidence n c ss = 0 →
            ∀ x ∈ range n, jointLast n c ss x = 0 := by
          intro c hc h
          exact (Finset.sum_eq_zero_iff_of_nonneg
            (fun x hx => jointLast_nonneg' hss' hc x (mem_range.1 hx))).1 h
        have hza := hz qa ha' hE0.symm
        have hzb := hz qb hb' (hab ▸ hE0.symm)
        rw [Finset.sum_eq_zero (fun x hx => by rw [hza x hx, hzb x hx]; simp), ← hE0]
        simp
      · set V := historyEvidence n v ss with hV
        have hVa : E ≤ (∑ x ∈ range n, a x) * V := by
          rw [hV, ← historyEvidence_smul]
          exact historyEvidence_mono hss' fun x hx => (bound a ha x hx).2
        have hVb : E ≤ (∑ x ∈ range n, b x) * V := by
          rw [hV, ← historyEvidence_smul, hab]
          exact historyEvidence_mono hss' fun x hx => (bound b hb x hx).2
        have hsa : 0 ≤ ∑ x ∈ range n, a x := Finset.sum_nonneg fun x hx => ha x (mem_range.1 hx)
        have hVpos : 0 < V := by
          by_contra hneg
          have := mul_nonpos_of_nonneg_of_nonpos hsa (not_lt.1 hneg)
          linarith
        have hv0 : ∀ y < n, 0 ≤ v y := fun y hy =>
          (hsn y hy y hy).trans (hv y hy y hy).2
        have low : ∀ c : Nat → K, (∀ x < n, 0 ≤ c x) → E ≤ (∑ x ∈ range n, c x) * V →
            ∀ y < n, 0 ≤ (Step.move T).apply n c y + -(σ * (E / V)) * v y := by
          intro c hc hcE y hy
          have h2 : E / V ≤ ∑ x ∈ range n, c x := (div_le_iff₀ hVpos).2 hcE
          have h3 := (bound c hc y hy).1
          have h4 := mul_le_mul_of_nonneg_left
            (mul_le_mul_of_nonneg_right h2 (hv0 y hy)) h0
          linarith
        have hev : ∀ q : Nat → K, historyEvidence n q ss = E →
            historyEvidence n (fun y => q y + -(σ * (E / V)) * v y) ss = (1 - σ) * E := by
          intro q hq
          rw [historyEvidence_add, historyEvidence_smul, hq, ← hV]
          field_simp
          ring
        have key := ih _ _ (low a ha hVa) (low b hb hVb)
          ((hev qa rfl).trans (hev qb hab.symm).symm)
        have hdiff : ∀ x, jointLast n (fun y => qa y + -(σ * (E / V)) * v y) ss x -
            jointLast n (fun y => qb y + -(σ * (E / V)) * v y) ss x =
            jointLast n qa ss x - jointLast n qb ss x := by
          intro x
          rw [jointLast_add, jointLast_add]
          ring
        have e3 : historyEvidence n (fun y => (Step.move T).apply n a y + -(σ * (E / V)) * v y) ss =
            (1 - σ) * E := hev qa rfl
        rw [e3] at key
        simp only [← hqa, ← hqb, hdiff] at key
        refine key.trans (le_of_eq ?_)
        simp only [moves]
        ring

/-- The posteriors of two histogram filters that start from different priors and then get the same
updates: their total variation distance is at most `(1 - σ) ^ k` after `k` moves that mix with
factor `σ`, whatever the observations. -/
theorem C77_forgets {n : Nat} {prior1 prior2 : DiscretePdf K} (hn1 : prior1.numStates = n)
    (hn2 : prior2.numStates = n) {p1 p2 : Nat → K} (hp1 : prior1.probabilitiesGet = tab n p1)
    (hp2 : prior2.probabilitiesGet = tab n p2) (hd1 : IsDistribution prior1.probabilitiesGet)
    (hd2 : IsDistribution prior2.probabilitiesGet) {cs : List (Call Z K)} {ss : List (Step K)}
    (hcs : Describes n cs ss) (hss : ∀ s ∈ ss, s.Nonneg n)
    (hpos1 : 0 < historyEvidence n p1 ss) (hpos2 : 0 < historyEvidence n p2 ss)
    {σ : K} (h0 : 0 ≤ σ) (hmix : ∀ s ∈ ss, s.MixesBy n σ) :
    ∃ f1 f2 f1' f2' q1 q2, HistogramFilter.make prior1 = .ok f1 ∧
      HistogramFilter.make prior2 = .ok f2 ∧
      f1.run cs = .ok (true, f1') ∧ f2.run cs = .ok (true, f2') ∧
      f1'.post.probabilitiesGet = tab n q1 ∧ f2'.post.probabilitiesGet = tab n q2 ∧
      totalVariation n q1 q2 ≤ (1 - σ) ^ moves ss := by
  obtain ⟨f1, f1', a1, a2, a3, _⟩ := C25_exact hn1 hp1 hd1 hcs hss hpos1
  obtain ⟨f2, f2', b1, b2, b3, _⟩ := C25_exact hn2 hp2 hd2 hcs hss hpos2
  refine ⟨f1, f2, f1', f2', _, _, a1, b1, a2, b2, a3, b3, ?_⟩
  have hp10 : ∀ x < n, 0 ≤ p1 x := by
    have := hd1.1
    rw [hp1] at this
    exact forall_mem_tab.1 this
  have hp20 : ∀ x < n, 0 ≤ p2 x := by
    have := hd2.1
    rw [hp2] at this
    exact forall_mem_tab.1 this
  have e : ∀ p : Nat → K, 0 < historyEvidence n p ss →
      historyEvidence n (fun y => (historyEvidence n p ss)⁻¹ * p y) ss = 1 := by
    intro p hp
    rw [historyEvidence_smul, inv_mul_cancel₀ hp.ne']
  have h := joint_distance h0 ss hss hmix
    (fun y => (historyEvidence n p1 ss)⁻¹ * p1 y) (fun y => (historyEvidence n p2 ss)⁻¹ * p2 y)
    (fun x hx => mul_nonneg (inv_nonneg.2 hpos1.le) (hp10 x hx))
    (fun x hx => mul_nonneg (inv_nonneg.2 hpos2.le) (hp20 x hx))
    ((e p1 hpos1).trans (e p2 hpos2).symm)
  simp only [jointLast_smul] at h
  rw [e p1 hpos1, mul_one] at h
  unfold totalVariation
  simp only [div_eq_inv_mul]
  linarith

/-- For every tolerance there is a number of mixing moves after which the posteriors are closer than
that, whatever the priors and the observations. -/
theorem C77_limit [Archimedean K] (n : Nat) {σ : K} (h0 : 0 < σ) {ε : K} (hε : 0 < ε) :
    ∃ k : Nat, ∀ (prior1 prior2 : DiscretePdf K) (p1 p2 : Nat → K) (cs : List (Call Z K))
      (ss : List (Step K)), prior1.numStates = n → prior2.numStates = n →
      prior1.probabilitiesGet = tab n p1 → prior2.probabilitiesGet = tab n p2 →
      IsDistribution prior1.probabilitiesGet → IsDistribution prior2.probabilitiesGet →
      Describes n cs ss → (∀ s ∈ ss, s.Nonneg n) → 0 < historyEvidence n p1 ss →
      0 < historyEvidence n p2 ss → (∀ s ∈ ss, s.MixesBy n σ) → k ≤ moves ss →
      ∃ f1 f2 f1' f2' q1 q2, HistogramFilter.make prior1 = .ok f1 ∧
        HistogramFilter.make prior2 = .ok f2 ∧
        f1.run cs = .ok (true, f1') ∧ f2.run cs = .ok (true, f2') ∧
        f1'.post.probabilitiesGet = tab n q1 ∧ f2'.post.probabilitiesGet = tab n q2 ∧
        totalVariation n q1 q2 < ε := by
  -- a factor above 1 is no better than the factor 1
  have hτ0 : 0 < min σ 1 := lt_min h0 one_pos
  have hτ1 : 0 ≤ 1 - min σ 1 := sub_nonneg.2 (min_le_right _ _)
  obtain ⟨k, hk⟩ := exists_pow_lt_of_lt_one hε (show 1 - min σ 1 < 1 by linarith)
  refine ⟨k, ?_⟩
  intro prior1 prior2 p1 p2 cs ss hn1 hn2 hp1 hp2 hd1 hd2 hcs hss hpos1 hpos2 hmix hle
  have hmix' : ∀ s ∈ ss, s.MixesBy n (min σ 1) := by
    intro s hs
    have h := hmix s hs
    have h2 := hss s hs
    cases s with
    | observe L => trivial
    | move T =>
      obtain ⟨v, hv⟩ := h
      refine ⟨v, fun y hy x hx => ⟨le_trans ?_ (hv y hy x hx).1, (hv y hy x hx).2⟩⟩
      exact mul_le_mul_of_nonneg_right (min_le_left _ _) ((h2 y hy x hx).trans (hv y hy x hx).2)
  obtain ⟨f1, f2, f1', f2', q1, q2, a1, a2, a3, a4, a5, a6, a7⟩ :=
    C77_forgets hn1 hn2 hp1 hp2 hd1 hd2 hcs hss hpos1 hpos2 hτ0.le hmix'
  exact ⟨f1, f2, f1', f2', q1, q2, a1, a2, a3, a4, a5, a6,
    a7.trans_lt ((pow_le_pow_of_le_one hτ1 (by linarith) hle).trans_lt hk)⟩

/-- A prediction brings two filters closer: if every state goes to `y` with probability at least
`σ w y`, for a distribution `w`, the distance shrinks by the factor `1 - σ`. With `σ = 0` this says
that a prediction never takes two filters further apart. -/
theorem C77_prediction {n : Nat} {f1 f2 : HistogramFilter K} (hf1 : HistogramHistory n f1)
    (hf2 : HistogramHistory n f2) {p1 p2 : Nat → K} (hp1 : f1.post.probabilitiesGet = tab n p1)
    (hp2 : f2.post.probabilitiesGet = tab n p2) (hd1 : IsDistribution f1.post.probabilitiesGet)
    (hd2 : IsDistribution f2.post.probabilitiesGet) {m : Model Int Int K} {u : Option Int}
    {T : Nat → Nat → K} (hT : Transition n m u T) (hT0 : ∀ y < n, ∀ x < n, 0 ≤ T y x)
    (hT1 : ∀ x < n, ∑ y ∈ range n, T y x = 1) {σ : K} {w : Nat → K}
    (hw1 : ∑ y ∈ range n, w y = 1) (hw : ∀ y < n, ∀ x < n, σ * w y ≤ T y x) :
    ∃ f1' f2' q1 q2, f1.update (Z := Z) { sys := some (m, u), meas := none } = .ok (true, f1') ∧
      f2.update (Z := Z) { sys := some (m, u), meas := none } = .ok (true, f2') ∧
      f1'.post.probabilitiesGet = tab n q1 ∧ f2'.post.probabilitiesGet = tab n q2 ∧
      totalVariation n q1 q2 ≤ (1 - σ) * totalVariation n p1 p2 := by
  obtain ⟨f1', a1, a2, _⟩ := C22_prediction (Z := Z) hf1 hp1 hd1 hT hT0 hT1
  obtain ⟨f2', b1, b2, _⟩ := C22_prediction (Z := Z) hf2 hp2 hd2 hT hT0 hT1
  refine ⟨f1', f2', _, _, a1, b1, a2, b2, ?_⟩
  have hs1 : ∑ x ∈ range n, p1 x = 1 := by rw [← tab_sum, ← hp1]; exact hd1.2
  have hs2 : ∑ x ∈ range n, p2 x = 1 := by rw [← tab_sum, ← hp2]; exact hd2.2
  have e : ∀ y, totalProbability n T p1 y - totalProbability n T p2 y =
      ∑ x ∈ range n, (T y x - σ * w y) * (p1 x - p2 x) := by
    intro y
    have h1 : ∑ x ∈ range n, (T y x - σ * w y) * (p1 x - p2 x) =
        ∑ x ∈ range n, (T y x * p1 x - T y x * p2 x - σ * w y * (p1 x - p2 x)) :=
      Finset.sum_congr rfl fun x _ => by ring
    rw [h1, Finset.sum_sub_distrib, Finset.sum_sub_distrib, ← Finset.mul_sum,
      Finset.sum_sub_distrib, hs1, hs2]
    simp [totalProbability]
  have h : ∑ y ∈ range n, |totalProbability n T p1 y - totalProbability n T p2 y| ≤
      ∑ y ∈ range n, ∑ x ∈ range n, (T y x - σ * w y) * |p1 x - p2 x| := by
    refine Finset.sum_le_sum fun y hy => ?_
    rw [e]
    refine (Finset.abs_sum_le_sum_abs _ _).trans (Finset.sum_le_sum fun x hx => ?_)
    rw [abs_mul, abs_of_nonneg (sub_nonneg.2 (hw y (mem_range.1 hy) x (mem_range.1 hx)))]
  rw [Finset.sum_comm] at h
  have h2 : ∑ x ∈ range n, ∑ y ∈ range n, (T y x - σ * w y) * |p1 x - p2 x| =
      (1 - σ) * ∑ x ∈ range n, |p1 x - p2 x| := by
    rw [Finset.mul_sum]
    refine Finset.sum_congr rfl fun x hx => ?_
    rw [← Finset.sum_mul, Finset.sum_sub_distrib, hT1 x (mem_range.1 hx), ← Finset.mul_sum, hw1,
      mul_one]
  unfold totalVariation
  rw [h2] at h
  linarith

/-! ## Concrete cases -/

namespace HistogramExample

/-- A confident prior. -/
def sure : DiscretePdf ℚ := { values := [1, 0], cum := [0, 1, 1] }

/-- The sticky transition mixes with factor 1/3. -/
theorem T_mixes : Mixes 2 (1 / 3) T :=
  ⟨fun _ => 3 / 4, fun y _ x _ => by unfold T; split <;> norm_num⟩

/-- The state stays. -/
def stayPdf : CondPdf Int Int ℚ where
  numArgs := 1
  prob args y := match args with
    | [x] => .ok (if y = x then 1 else 0)
    | _ => .abort
  draw _ := .abort

def stay : Model Int Int ℚ := { pdf := some stayPdf, without := some true }

theorem run_stay {f : HistogramFilter ℚ}
    (h : f.update (Z := Int) ⟨some (stay, none), none⟩ = .ok (true, f)) (k : Nat) :
    f.run (Z := Int) (List.replicate k ⟨some (stay, none), none⟩) = .ok (true, f) := by
  induction k with
  | zero => rfl
  | succ k ih => simp [List.replicate_succ, HistogramFilter.run, h, ih]

theorem describes_two : Describes 2 [⟨some (sys, none), some (meas, (1 : Int), none)⟩,
    ⟨some (sys, none), some (meas, (1 : Int), none)⟩]
    [.move T, .observe L, .move T, .observe L] :=
  .cons (s1 := [.move T]) (s2 := [.observe L]) (ss := [.move T, .observe L])
    (.some transition) (.some likelihood)
    (.cons (s1 := [.move T]) (s2 := [.observe L]) (ss := []) (.some transition) (.some likelihood)
      .nil)

end HistogramExample

open HistogramExample in
/-- `C77_forgets` for two sticky moves with two readings, from the priors (1/2, 1/2) and (1, 0): the
distance is at most 4/9. -/
example : ∃ f1 f2 f1' f2' q1 q2, HistogramFilter.make prior = .ok f1 ∧
    HistogramFilter.make sure = .ok f2 ∧
    f1.run [⟨some (sys, none), some (meas, (1 : Int), none)⟩,
      ⟨some (sys, none), some (meas, (1 : Int), none)⟩] = .ok (true, f1') ∧
    f2.run [⟨some (sys, none), some (meas, (1 : Int), none)⟩,
      ⟨some (sys, none), some (meas, (1 : Int), none)⟩] = .ok (true, f2') ∧
    f1'.post.probabilitiesGet = tab 2 q1 ∧ f2'.post.probabilitiesGet = tab 2 q2 ∧
    totalVariation 2 q1 q2 ≤ 4 / 9 := by
  have h := C77_forgets (n := 2) (prior1 := prior) (prior2 := sure) rfl rfl
    (p1 := fun _ => 1 / 2) (p2 := fun x => if x = 0 then 1 else 0)
    (by decide +kernel) (by decide +kernel) ⟨by decide +kernel, by decide +kernel⟩
    ⟨by decide +kernel, by decide +kernel⟩ describes_two
    (by
      intro s hs
      simp only [List.mem_cons, List.not_mem_nil, or_false] at hs
      rcases hs with rfl | rfl | rfl | rfl
      · exact T_nonneg
      · exact L_nonneg
      · exact T_nonneg
      · exact L_nonneg)
    (by decide +kernel) (by decide +kernel) (σ := 1 / 3) (by norm_num)
    (by
      intro s hs
      simp only [List.mem_cons, List.not_mem_nil, or_false] at hs
      rcases hs with rfl | rfl | rfl | rfl
      · exact T_mixes
      · trivial
      · exact T_mixes
      · trivial)
  have e : ((1 : ℚ) - 1 / 3) ^ moves [Step.move T, .observe L, .move T, .observe L] = 4 / 9 := by
    norm_num [moves]
  rwa [e] at h

open HistogramExample in
/-- `C77_prediction`: the sticky transition halves the distance. -/
example {f1 f2 : HistogramFilter ℚ} (h1 : HistogramFilter.make prior = .ok f1)
    (h2 : HistogramFilter.make sure = .ok f2) :
    ∃ f1' f2' q1 q2, f1.update (Z := Int) { sys := some (sys, none), meas := none } =
        .ok (true, f1') ∧
      f2.update (Z := Int) { sys := some (sys, none), meas := none } = .ok (true, f2') ∧
      f1'.post.probabilitiesGet = tab 2 q1 ∧ f2'.post.probabilitiesGet = tab 2 q2 ∧
      totalVariation 2 q1 q2 ≤ (1 - 1 / 2) *
        totalVariation 2 (fun _ => (1 : ℚ) / 2) (fun x => if x = 0 then 1 else 0) := by
  have e1 : HistogramFilter.make prior = .ok filter := by decide +kernel
  have e2 : HistogramFilter.make sure = .ok ⟨sure, [1, 0], 0⟩ := by decide +kernel
  rw [h1, Outcome.ok.injEq] at e1
  rw [h2, Outcome.ok.injEq] at e2
  subst e1 e2
  exact C77_prediction (.make (prior := prior) rfl h1) (.make (prior := sure) rfl h2)
    (by decide +kernel) (by decide +kernel) ⟨by decide +kernel, by decide +kernel⟩
    ⟨by decide +kernel, by decide +kernel⟩ transition T_nonneg
    (by decide +kernel) (w := fun _ => 1 / 2) (by decide +kernel)
    (fun y _ x _ => by unfold T; split <;> norm_num)

open HistogramExample in
/-- Without mixing the prior is not forgotten: if the state stays, the two filters keep their
distance for ever. -/
theorem C77_static (k : Nat) :
    Transition 2 stay none (fun y x => if y = x then 1 else 0) ∧
    ∃ f1 f2 f1' f2', HistogramFilter.make prior = .ok f1 ∧ HistogramFilter.make sure = .ok f2 ∧
      f1.run (Z := Int) (List.replicate k ⟨some (stay, none), none⟩) = .ok (true, f1') ∧
      f2.run (Z := Int) (List.replicate k ⟨some (stay, none), none⟩) = .ok (true, f2') ∧
      f1'.post.probabilitiesGet = [1 / 2, 1 / 2] ∧ f2'.post.probabilitiesGet = [1, 0] :=
  ⟨Or.inl ⟨stayPdf, rfl, rfl, fun y _ x _ => by simp [stayPdf]⟩, filter, ⟨sure, [1, 0], 0⟩, filter,
    ⟨sure, [1, 0], 0⟩, by decide +kernel, by decide +kernel, run_stay (by decide +kernel) k,
    run_stay (by decide +kernel) k, rfl, rfl⟩

end BFL.Props
