import Verif.Lemmas.Ordered

set_option linter.unusedSectionVars false

/-!
# C122: higher readings and higher priors give higher posteriors
-/

namespace BFL.Props

open Finset Spec HistogramFilter

variable {Z Z' K : Type} [Field K] [LinearOrder K] [IsStrictOrderedRing K] {n : Nat}

/-- **C122, order.** Two histogram filters make the same orderly moves. If the prior of the second one lies higher than
that of the first, or is the same, and its readings point higher, or are the same, then its posterior lies higher:
in the likelihood ratio order, in the average of every function that grows with the state (so also in the probability
of being above any state), and in the most probable state that is reported. -/
theorem C122_order {prior prior' : DiscretePdf K} (hn : prior.numStates = n) (hn' : prior'.numStates = n) {p p' : Nat → K}
    (hp : prior.probabilitiesGet = tab n p) (hp' : prior'.probabilitiesGet = tab n p')
    (hd : IsDistribution prior.probabilitiesGet) (hd' : IsDistribution prior'.probabilitiesGet) (hb : Below n p p')
    {cs : List (Call Z K)} {cs' : List (Call Z' K)} {ss ss' : List (Step K)} (hcs : Describes n cs ss)
    (hcs' : Describes n cs' ss') (hss : ∀ s ∈ ss, s.Nonneg n) (hss' : ∀ s ∈ ss', s.Nonneg n)
    (hr : List.Forall₂ (Step.Rises n) ss ss') (hpos : 0 < historyEvidence n p ss) (hpos' : 0 < historyEvidence n p' ss') :
    ∃ f f' f1 f2 q1 q2, HistogramFilter.make prior = .ok f ∧ HistogramFilter.make prior' = .ok f' ∧
      f.run cs = .ok (true, f1) ∧ f'.run cs' = .ok (true, f2) ∧ f1.post.probabilitiesGet = tab n q1 ∧
      f2.post.probabilitiesGet = tab n q2 ∧ Below n q1 q2 ∧
      (∀ g : Nat → K, (∀ x y, x < y → y < n → g x ≤ g y) → ∑ x ∈ range n, g x * q1 x ≤ ∑ x ∈ range n, g x * q2 x) ∧
      f1.post.mostProbableStateGet ≤ f2.post.mostProbableStateGet := by
  have hp0 : ∀ x < n, 0 ≤ p x := by have := hd.1; rw [hp] at this; exact forall_mem_tab.1 this
  have hp0' : ∀ x < n, 0 ≤ p' x := by have := hd'.1; rw [hp'] at this; exact forall_mem_tab.1 this
  obtain ⟨f, f1, a1, a2, a3, a4, -⟩ := C25_exact hn hp hd hcs hss hpos
  obtain ⟨f', f2, b1, b2, b3, b4, -⟩ := C25_exact hn' hp' hd' hcs' hss' hpos'
  have h := below_div (below_history hr hss hss' hp0 hp0' hb) hpos hpos'
  rw [a3] at a4
  rw [b3] at b4
  have s1 := a4.2
  have s2 := b4.2
  rw [tab_sum] at s1 s2
  have n1 := forall_mem_tab.1 a4.1
  have n2 := forall_mem_tab.1 b4.1
  refine ⟨f, f', f1, f2, _, _, a1, b1, a2, b2, a3, b3, h, fun g hg => below_mean h s1 s2 hg, ?_⟩
  obtain ⟨m1, e1, l1, k1, -⟩ := mostProbable_tab a3 n1 s1
  obtain ⟨m2, e2, l2, -, k2⟩ := mostProbable_tab b3 n2 s2
  rw [e1, e2]
  exact_mod_cast below_mode h n2 s1 l1 k1 l2 k2

/-- All the probability on one state. -/
def surely (n x : Nat) : DiscretePdf K := ⟨tab n fun i => if i = x then 1 else 0, []⟩

theorem surely_distribution {x : Nat} (hx : x < n) :
    (surely n x : DiscretePdf K).numStates = n ∧
      IsDistribution (surely n x : DiscretePdf K).probabilitiesGet := by
  refine ⟨by simp [surely, DiscretePdf.numStates], ?_, ?_⟩
  · refine forall_mem_tab.2 fun i _ => ?_
    split
    · exact zero_le_one
    · exact le_rfl
  · show (tab n _).sum = 1
    rw [tab_sum, Finset.sum_ite_eq' (range n) x, if_pos (mem_range.2 hx)]

/-- **C122, the condition on the moves is needed.** If a prediction keeps the order of all pairs of priors, the transition
is orderly. -/
theorem C122_moves_needed {m : Model Int Int K} {u : Option Int} {T : Nat → Nat → K} (hT : Transition n m u T)
    (hT0 : ∀ y < n, ∀ x < n, 0 ≤ T y x) (hT1 : ∀ x < n, ∑ y ∈ range n, T y x = 1)
    (h : ∀ (prior prior' : DiscretePdf K) (p p' : Nat → K), prior.numStates = n → prior'.numStates = n →
      prior.probabilitiesGet = tab n p → prior'.probabilitiesGet = tab n p' → IsDistribution prior.probabilitiesGet →
      IsDistribution prior'.probabilitiesGet → Below n p p' →
      ∀ f f' f1 f2 q1 q2, HistogramFilter.make prior = .ok f → HistogramFilter.make prior' = .ok f' →
      f.run (Z := Z) [⟨some (m, u), none⟩] = .ok (true, f1) → f'.run (Z := Z) [⟨some (m, u), none⟩] = .ok (true, f2) →
      f1.post.probabilitiesGet = tab n q1 → f2.post.probabilitiesGet = tab n q2 → Below n q1 q2) :
    Orderly n T := by
  intro x x' hx hx'
  have hxn := hx.trans hx'
  have hdesc : Describes (Z := Z) n [⟨some (m, u), none⟩] [.move T] :=
    .cons (s1 := [.move T]) (s2 := []) (ss := []) (.some hT) .none .nil
  have hs : ∀ s ∈ [Step.move T], s.Nonneg n := by
    intro s hs
    rw [List.mem_singleton.1 hs]
    exact hT0
  have hj : ∀ a < n, ∀ y < n, jointLast n (fun i => if i = a then (1 : K) else 0) [.move T] y = T y a := by
    intro a ha y hy
    rw [jointLast_cons, jointLast_nil n _ hy]
    show ∑ i ∈ range n, T y i * (if i = a then (1 : K) else 0) = _
    simp only [mul_ite, mul_one, mul_zero]
    rw [Finset.sum_ite_eq' (range n) a, if_pos (mem_range.2 ha)]
  have he : ∀ a < n, historyEvidence n (fun i => if i = a then (1 : K) else 0) [.move T] = 1 := by
    intro a ha
    unfold historyEvidence
    rw [Finset.sum_congr rfl fun y hy => hj a ha y (mem_range.1 hy), hT1 a ha]
  obtain ⟨c1, c2⟩ := surely_distribution (K := K) hxn
  obtain ⟨c1', c2'⟩ := surely_distribution (K := K) hx'
  obtain ⟨f, f1, a1, a2, a3, -⟩ := C25_exact c1 rfl c2 hdesc hs (by rw [he x hxn]; exact one_pos)
  obtain ⟨f', f2, b1, b2, b3, -⟩ := C25_exact c1' rfl c2' hdesc hs (by rw [he x' hx']; exact one_pos)
  have hb : Below n (fun i => if i = x then (1 : K) else 0) (fun i => if i = x' then (1 : K) else 0) := by
    intro a b hab _
    beta_reduce
    split_ifs <;> first | (simp; done) | omega
  have := h _ _ _ _ c1 c1' rfl rfl c2 c2' hb f f' f1 f2 _ _ a1 b1 a2 b2 a3 b3
  intro y y' hy hy'
  have k := this y y' hy hy'
  simp only [he x hxn, he x' hx', div_one, hj x hxn y (hy.trans hy'), hj x hxn y' hy', hj x' hx' y (hy.trans hy'),
    hj x' hx' y' hy'] at k
  exact k

/-- **C122, the condition on the readings is needed.** If from every prior that rules out neither reading the second
reading gives a higher posterior than the first, then it points higher. -/
theorem C122_readings_needed {m m' : Model Int Z K} {z z' : Z} {s s' : Option Int} {L L' : Nat → K}
    (hL : Likelihood n m z s L) (hL' : Likelihood n m' z' s' L') (h0 : ∀ x < n, 0 ≤ L x) (h0' : ∀ x < n, 0 ≤ L' x)
    (h : ∀ (prior : DiscretePdf K) (p : Nat → K), prior.numStates = n → prior.probabilitiesGet = tab n p →
      IsDistribution prior.probabilitiesGet → ∀ f f1 f2 q1 q2, HistogramFilter.make prior = .ok f →
      f.run [⟨none, some (m, z, s)⟩] = .ok (true, f1) → f.run [⟨none, some (m', z', s')⟩] = .ok (true, f2) →
      f1.post.probabilitiesGet = tab n q1 → f2.post.probabilitiesGet = tab n q2 → Below n q1 q2) :
    Below n L L' := by
  intro x y hxy hy
  have hx := hxy.trans hy
  have hn : (0 : K) < n := by exact_mod_cast (by omega : 0 < n)
  have zero : ∀ M : Nat → K, (∀ x < n, 0 ≤ M x) → ¬ 0 < ∑ i ∈ range n, M i → ∀ i < n, M i = 0 := by
    intro M hM hs i hi
    exact (Finset.sum_eq_zero_iff_of_nonneg fun i hi => hM i (mem_range.1 hi)).1
      (le_antisymm (not_lt.1 hs) (Finset.sum_nonneg fun i hi => hM i (mem_range.1 hi))) i (mem_range.2 hi)
  by_cases hs : 0 < ∑ i ∈ range n, L i
  swap
  · rw [zero L h0 hs x hx, zero L h0 hs y hy]; simp
  by_cases hs' : 0 < ∑ i ∈ range n, L' i
  swap
  · rw [zero L' h0' hs' x hx, zero L' h0' hs' y hy]; simp
  have hdesc : Describes n [⟨none, some (m, z, s)⟩] [.observe L] :=
    .cons (s1 := []) (s2 := [.observe L]) (ss := []) .none (.some hL) .nil
  have hdesc' : Describes n [⟨none, some (m', z', s')⟩] [.observe L'] :=
    .cons (s1 := []) (s2 := [.observe L']) (ss := []) .none (.some hL') .nil
  have hj : ∀ (M : Nat → K), ∀ y < n, jointLast n (fun _ => (n : K)⁻¹) [.observe M] y = (n : K)⁻¹ * M y := by
    intro M y hy
    rw [jointLast_cons, jointLast_nil n _ hy]
    rfl
  have he : ∀ M : Nat → K, historyEvidence n (fun _ => (n : K)⁻¹) [.observe M] = (n : K)⁻¹ * ∑ i ∈ range n, M i := by
    intro M
    unfold historyEvidence
    rw [Finset.sum_congr rfl fun y hy => hj M y (mem_range.1 hy), Finset.mul_sum]
  have hd : IsDistribution (DiscretePdf.mk (tab n fun _ => (n : K)⁻¹) []).probabilitiesGet := by
    refine ⟨forall_mem_tab.2 fun i _ => by positivity, ?_⟩
    show (tab n _).sum = 1
    rw [tab_sum]
    simp [hn.ne']
  have hn1 : (DiscretePdf.mk (tab n fun _ => (n : K)⁻¹) []).numStates = n := by simp [DiscretePdf.numStates]
  have hinv : 0 < (n : K)⁻¹ := inv_pos.2 hn
  obtain ⟨f, f1, a1, a2, a3, -⟩ := C25_exact hn1 rfl hd hdesc (by
    intro s hs; rw [List.mem_singleton.1 hs]; exact h0) (by rw [he]; exact mul_pos hinv hs)
  obtain ⟨f', f2, b1, b2, b3, -⟩ := C25_exact hn1 rfl hd hdesc' (by
    intro s hs; rw [List.mem_singleton.1 hs]; exact h0') (by rw [he]; exact mul_pos hinv hs')
  rw [a1] at b1
  obtain rfl := Outcome.ok.inj b1
  have k := h _ _ hn1 rfl hd f f1 f2 _ _ a1 a2 b2 a3 b3 x y hxy hy
  simp only [he, hj L x hx, hj L y hy, hj L' x hx, hj L' y hy, mul_div_mul_left _ _ hinv.ne'] at k
  rw [div_mul_div_comm, div_mul_div_comm, div_le_div_iff_of_pos_right (mul_pos hs hs')] at k
  exact k

/-! ## Concrete cases -/

namespace OrderedExample

/-- A walk on three states. -/
def walk (y x : Nat) : ℚ := if y = x then (if y = 1 then 1/2 else 3/4) else if y = x + 1 ∨ x = y + 1 then 1/4 else 0

def walkPdf : CondPdf Int Int ℚ where
  numArgs := 1
  prob args y := match args with
    | [x] => .ok (walk y.toNat x.toNat)
    | _ => .abort
  draw _ := .abort

def walkModel : Model Int Int ℚ := { pdf := some walkPdf, without := some true }

/-- A sensor with the readings "low" (`false`) and "high". -/
def side (z : Bool) (x : Nat) : ℚ := if z then (x + 1) / 4 else (3 - x) / 4

def sidePdf : CondPdf Int Bool ℚ where
  numArgs := 1
  prob args z := match args with
    | [x] => .ok (side z x.toNat)
    | _ => .abort
  draw _ := .abort

def sideModel : Model Int Bool ℚ := { pdf := some sidePdf, without := some true }

theorem walk_transition : Transition 3 walkModel none walk := Or.inl ⟨walkPdf, rfl, rfl, fun y _ x _ => by simp [walkPdf]⟩

theorem side_likelihood (z : Bool) : Likelihood 3 sideModel z none (side z) :=
  Or.inl ⟨sidePdf, rfl, rfl, fun x _ => by simp [sidePdf]⟩

theorem walk_nonneg : ∀ y < 3, ∀ x < 3, 0 ≤ walk y x := by decide +kernel

theorem walk_sum : ∀ x < 3, ∑ y ∈ range 3, walk y x = 1 := by decide +kernel

theorem walk_orderly : Orderly 3 walk := by
  have : ∀ x' < 3, ∀ x < x', ∀ y' < 3, ∀ y < y', walk y' x * walk y x' ≤ walk y x * walk y' x' := by decide +kernel
  exact fun x x' h h' y y' k k' => this x' h' x h y' k' y k

theorem side_nonneg (z : Bool) : ∀ x < 3, 0 ≤ side z x := by
  cases z
  · decide +kernel
  · decide +kernel

theorem side_below : Below 3 (side false) (side true) := by
  have : ∀ y < 3, ∀ x < y, side false y * side true x ≤ side false x * side true y := by decide +kernel
  exact fun x y h h' => this y h' x h

def flat : DiscretePdf ℚ := ⟨[1/3, 1/3, 1/3], [0, 1/3, 2/3, 1]⟩

/-- Two steps of the walk, with the given readings. -/
def calls (z z' : Bool) : List (Call Bool ℚ) :=
  [⟨some (walkModel, none), some (sideModel, z, none)⟩, ⟨some (walkModel, none), some (sideModel, z', none)⟩]

def steps (z z' : Bool) : List (Step ℚ) := [.move walk, .observe (side z), .move walk, .observe (side z')]

theorem describes (z z' : Bool) : Describes 3 (calls z z') (steps z z') :=
  .cons (s1 := [.move walk]) (s2 := [.observe (side z)]) (.some walk_transition) (.some (side_likelihood z))
    (.cons (s1 := [.move walk]) (s2 := [.observe (side z')]) (ss := []) (.some walk_transition) (.some (side_likelihood z'))
      .nil)

theorem steps_nonneg (z z' : Bool) : ∀ s ∈ steps z z', s.Nonneg 3 := by
  intro s hs
  simp only [steps, List.mem_cons, List.not_mem_nil, or_false] at hs
  rcases hs with rfl | rfl | rfl | rfl
  exacts [walk_nonneg, side_nonneg z, walk_nonneg, side_nonneg z']

end OrderedExample

open OrderedExample in
/-- Two steps of the walk; the readings "low, high" point lower than "high, high". -/
example : ∃ f f' f1 f2 q1 q2, HistogramFilter.make flat = .ok f ∧ HistogramFilter.make flat = .ok f' ∧
    f.run (calls false true) = .ok (true, f1) ∧ f'.run (calls true true) = .ok (true, f2) ∧
    f1.post.probabilitiesGet = tab 3 q1 ∧ f2.post.probabilitiesGet = tab 3 q2 ∧ Below 3 q1 q2 ∧
    (∀ g : Nat → ℚ, (∀ x y, x < y → y < 3 → g x ≤ g y) → ∑ x ∈ range 3, g x * q1 x ≤ ∑ x ∈ range 3, g x * q2 x) ∧
    f1.post.mostProbableStateGet ≤ f2.post.mostProbableStateGet :=
  C122_order (n := 3) (prior := flat) (prior' := flat) (p := fun _ => 1/3) (p' := fun _ => 1/3) rfl rfl (by decide +kernel) (by decide +kernel)
    ⟨by decide +kernel, by decide +kernel⟩ ⟨by decide +kernel, by decide +kernel⟩ (below_refl 3 _) (describes false true)
    (describes true true) (steps_nonneg _ _) (steps_nonneg _ _)
    (.cons ⟨walk_orderly, fun _ _ _ _ => rfl⟩ (.cons side_below (.cons ⟨walk_orderly, fun _ _ _ _ => rfl⟩
      (.cons (below_refl 3 _) .nil)))) (by decide +kernel) (by decide +kernel)

open OrderedExample in
/-- The two reports. -/
example : ∃ f f1 f2, HistogramFilter.make flat = .ok f ∧ f.run (calls false true) = .ok (true, f1) ∧
    f.run (calls true true) = .ok (true, f2) ∧ f1.post.probabilitiesGet = [11/42, 8/21, 5/14] ∧
    f2.post.probabilitiesGet = [5/54, 8/27, 11/18] :=
  ⟨⟨flat, [1/3, 1/3, 1/3], 0⟩, ⟨⟨[11/42, 8/21, 5/14], [0, 11/42, 9/14, 1]⟩, [11/24, 1/3, 5/24], 0⟩,
    ⟨⟨[5/54, 8/27, 11/18], [0, 5/54, 7/18, 1]⟩, [5/24, 1/3, 11/24], 0⟩, by decide +kernel, by decide +kernel,
    by decide +kernel, rfl, rfl⟩

theorem below_of_tab {p q p' q' : Nat → K} (h : Below n p q) (hp : tab n p = tab n p') (hq : tab n q = tab n q') :
    Below n p' q' := by
  have e : ∀ {a b : Nat → K}, tab n a = tab n b → ∀ x < n, a x = b x := by
    intro a b hab x hx
    exact List.map_inj_left.1 hab x (List.mem_range.2 hx)
  intro x y hxy hy
  rw [← e hp x (hxy.trans hy), ← e hp y hy, ← e hq x (hxy.trans hy), ← e hq y hy]
  exact h x y hxy hy

open OrderedExample in
/-- The walk keeps the order of all pairs of priors, and so it is orderly. -/
example : Orderly 3 walk := by
  refine C122_moves_needed (Z := Unit) walk_transition walk_nonneg walk_sum ?_
  intro prior prior' p p' hn hn' hp hp' hd hd' hb f f' f1 f2 q1 q2 e1 e2 e3 e4 e5 e6
  have hdesc : Describes (Z := Unit) 3 [⟨some (walkModel, none), none⟩] [.move walk] :=
    .cons (s1 := [.move walk]) (s2 := []) (ss := []) (.some walk_transition) .none .nil
  have hs : ∀ s ∈ [Step.move walk], s.Nonneg 3 := by
    intro s hs
    rw [List.mem_singleton.1 hs]
    exact walk_nonneg
  have he : ∀ r : Nat → ℚ, (tab 3 r).sum = 1 → 0 < historyEvidence 3 r [.move walk] := by
    intro r hr
    rw [historyEvidence_cons, historyEvidence_nil]
    show 0 < ∑ y ∈ range 3, ∑ x ∈ range 3, walk y x * r x
    rw [Finset.sum_comm, Finset.sum_congr rfl fun x hx => by rw [← Finset.sum_mul, walk_sum x (mem_range.1 hx), one_mul],
      ← tab_sum, hr]
    exact one_pos
  obtain ⟨g, g', g1, g2, r1, r2, k1, k2, k3, k4, k5, k6, k7, -⟩ := C122_order hn hn' hp hp' hd hd' hb hdesc hdesc hs hs
    (.cons ⟨walk_orderly, fun _ _ _ _ => rfl⟩ .nil) (he p (hp ▸ hd.2)) (he p' (hp' ▸ hd'.2))
  rw [e1] at k1
  obtain rfl := Outcome.ok.inj k1
  rw [e2] at k2
  obtain rfl := Outcome.ok.inj k2
  rw [e3] at k3
  rw [e4] at k4
  obtain rfl := (Prod.mk.inj (Outcome.ok.inj k3)).2
  obtain rfl := (Prod.mk.inj (Outcome.ok.inj k4)).2
  exact below_of_tab k7 (k5.symm.trans e5) (k6.symm.trans e6)

open OrderedExample in
/-- From every prior "high" gives a higher posterior than "low", and so it points higher. -/
example : Below 3 (side false) (side true) := by
  refine C122_readings_needed (side_likelihood false) (side_likelihood true) (side_nonneg _) (side_nonneg _) ?_
  intro prior p hn hp hd f f1 f2 q1 q2 e1 e2 e3 e4 e5
  have hp0 : ∀ x < 3, 0 ≤ p x := by have := hd.1; rw [hp] at this; exact forall_mem_tab.1 this
  have hdesc : ∀ z, Describes 3 [⟨none, some (sideModel, z, none)⟩] [.observe (side z)] := fun z =>
    .cons (s1 := []) (s2 := [.observe (side z)]) (ss := []) .none (.some (side_likelihood z)) .nil
  have hs : ∀ z, ∀ s ∈ [Step.observe (side z)], s.Nonneg 3 := by
    intro z s hs
    rw [List.mem_singleton.1 hs]
    exact side_nonneg z
  have h1 : ∑ x ∈ range 3, p x = 1 := by rw [← tab_sum, ← hp]; exact hd.2
  have he : ∀ z, 0 < historyEvidence 3 p [.observe (side z)] := by
    intro z
    rw [historyEvidence_cons, historyEvidence_nil]
    show 0 < ∑ x ∈ range 3, p x * side z x
    have h4 : ∀ x ∈ range 3, p x * (1/4) ≤ p x * side z x := fun x hx =>
      mul_le_mul_of_nonneg_left ((show ∀ z, ∀ x < 3, 1/4 ≤ side z x by decide +kernel) z x (mem_range.1 hx))
        (hp0 x (mem_range.1 hx))
    have := Finset.sum_le_sum h4
    rw [← Finset.sum_mul, h1] at this
    linarith
  obtain ⟨g, g', g1, g2, r1, r2, k1, k2, k3, k4, k5, k6, k7, -⟩ := C122_order hn hn hp hp hd hd (below_refl 3 p)
    (hdesc false) (hdesc true) (hs _) (hs _) (.cons side_below .nil) (he _) (he _)
  rw [e1] at k1
  obtain rfl := Outcome.ok.inj k1
  rw [e1] at k2
  obtain rfl := Outcome.ok.inj k2
  rw [e2] at k3
  rw [e3] at k4
  obtain rfl := (Prod.mk.inj (Outcome.ok.inj k3)).2
  obtain rfl := (Prod.mk.inj (Outcome.ok.inj k4)).2
  exact below_of_tab k7 (k5.symm.trans e4) (k6.symm.trans e5)

/-- **C122, dominance is not enough.** The second prior gives every state and all above it at least the probability that
the first gives them, but it does not lie higher in the likelihood ratio order; after one reading, the same for both,
the second posterior lies lower, and its most probable state is lower. -/
theorem C122_dominance_false : ∃ (prior prior' : DiscretePdf ℚ) (p p' : Nat → ℚ) (m : Model Int Unit ℚ)
    (f f' f1 f2 : HistogramFilter ℚ) (q1 q2 : Nat → ℚ),
    prior.probabilitiesGet = tab 3 p ∧ prior'.probabilitiesGet = tab 3 p' ∧
    (∀ k < 3, ∑ x ∈ Ico k 3, p x ≤ ∑ x ∈ Ico k 3, p' x) ∧ HistogramFilter.make prior = .ok f ∧
    HistogramFilter.make prior' = .ok f' ∧ f.run [⟨none, some (m, (), none)⟩] = .ok (true, f1) ∧
    f'.run [⟨none, some (m, (), none)⟩] = .ok (true, f2) ∧ f1.post.probabilitiesGet = tab 3 q1 ∧
    f2.post.probabilitiesGet = tab 3 q2 ∧ (∑ x ∈ Ico 1 3, q2 x < ∑ x ∈ Ico 1 3, q1 x) ∧
    f2.post.mostProbableStateGet < f1.post.mostProbableStateGet := by
  refine ⟨⟨[1/2, 1/2, 0], []⟩, ⟨[1/2, 0, 1/2], []⟩, fun x => [1/2, 1/2, 0].getD x 0, fun x => [1/2, 0, 1/2].getD x 0,
    ⟨some ⟨1, fun args _ => match args with | [x] => .ok ([1/2, 1/2, 0].getD x.toNat 0) | _ => .abort, fun _ => .abort⟩,
      some true⟩, ⟨⟨[1/2, 1/2, 0], [0, 1/2, 1, 1]⟩, [1/2, 1/2, 0], 0⟩, ⟨⟨[1/2, 0, 1/2], [0, 1/2, 1/2, 1]⟩, [1/2, 0, 1/2], 0⟩,
    ⟨⟨[1/2, 1/2, 0], [0, 1/2, 1, 1]⟩, [1/2, 1/2, 0], 0⟩, ⟨⟨[1, 0, 0], [0, 1, 1, 1]⟩, [1/2, 0, 1/2], 0⟩,
    fun x => [1/2, 1/2, 0].getD x 0, fun x => [1, 0, 0].getD x 0, ?_, ?_, ?_, ?_, ?_, ?_, ?_, ?_, ?_, ?_, ?_⟩ <;>
    decide +kernel

end BFL.Props
