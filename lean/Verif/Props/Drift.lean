import Verif.Lemmas.Drift

set_option linter.unusedSectionVars false

/-!
# C121: small errors do not add up if the process mixes
-/

namespace BFL.Props

open Finset Spec HistogramFilter

variable {Z Z' K : Type} [Field K] [LinearOrder K] [IsStrictOrderedRing K] {u : K} {fl : K → K}

/-- **C121, tables.** One histogram filter uses the right tables, another one tables with a relative error of at most `ε`.
Both run without failure, and the total variation distance of their posteriors is at most `2 ε` times what is
remembered of one error per step. -/
theorem C121_tables {n : Nat} {prior : DiscretePdf K} (hn : prior.numStates = n) {p : Nat → K}
    (hp : prior.probabilitiesGet = tab n p) (hd : IsDistribution prior.probabilitiesGet) {cs : List (Call Z K)}
    {cs' : List (Call Z' K)} {ss ss' : List (Step K)} (hcs : Describes n cs ss) (hcs' : Describes n cs' ss')
    (hss : ∀ s ∈ ss, s.Nonneg n) (hss' : ∀ s ∈ ss', s.Nonneg n) {ε : K} (h0 : 0 ≤ ε) (h1 : ε < 1)
    (ha : List.Forall₂ (Step.Alike n ε) ss ss') {σ : K} (hσ0 : 0 ≤ σ) (hσ1 : σ ≤ 1) (hmix : ∀ s ∈ ss, s.MixesBy n σ)
    (hpos : 0 < historyEvidence n p ss) :
    ∃ f f1 f2 q1 q2, HistogramFilter.make prior = .ok f ∧ f.run cs = .ok (true, f1) ∧ f.run cs' = .ok (true, f2) ∧
      f1.post.probabilitiesGet = tab n q1 ∧ f2.post.probabilitiesGet = tab n q2 ∧
      totalVariation n q2 q1 ≤ 2 * ε * remembered σ ss := by
  have hp0 : ∀ x < n, 0 ≤ p x := by
    have := hd.1
    rw [hp] at this
    exact forall_mem_tab.1 this
  obtain ⟨a1, a2⟩ := (alike_drifts ha hss hss' hp0).distance h0 h1 hσ0 hss hmix hp0 hpos
  obtain ⟨f, f1, b1, b2, b3, -⟩ := C25_exact hn hp hd hcs hss hpos
  obtain ⟨g, f2, c1, c2, c3, -⟩ := C25_exact hn hp hd hcs' hss' a1
  rw [b1] at c1
  obtain rfl := Outcome.ok.inj c1
  refine ⟨f, f1, f2, _, _, b1, b2, c2, b3, c3, a2.trans ?_⟩
  have := one_sub_pow_le h1.le (2 * 1)
  norm_num at this
  exact mul_le_mul_of_nonneg_right (by norm_num; exact this) (remembered_nonneg hσ1 ss)

/-- **C121, tables, for ever.** If every update has a move, the distance never exceeds `4 ε / σ`, however many updates
there are. -/
theorem C121_tables_forever {n : Nat} {prior : DiscretePdf K} (hn : prior.numStates = n) {p : Nat → K}
    (hp : prior.probabilitiesGet = tab n p) (hd : IsDistribution prior.probabilitiesGet) {cs : List (Call Z K)}
    {cs' : List (Call Z' K)} {ss ss' : List (Step K)} (hcs : Describes n cs ss) (hcs' : Describes n cs' ss')
    (hm : ∀ c ∈ cs, c.sys.isSome) (hss : ∀ s ∈ ss, s.Nonneg n) (hss' : ∀ s ∈ ss', s.Nonneg n) {ε : K} (h0 : 0 ≤ ε)
    (h1 : ε < 1) (ha : List.Forall₂ (Step.Alike n ε) ss ss') {σ : K} (hσ0 : 0 < σ) (hσ1 : σ ≤ 1)
    (hmix : ∀ s ∈ ss, s.MixesBy n σ) (hpos : 0 < historyEvidence n p ss) :
    ∃ f f1 f2 q1 q2, HistogramFilter.make prior = .ok f ∧ f.run cs = .ok (true, f1) ∧ f.run cs' = .ok (true, f2) ∧
      f1.post.probabilitiesGet = tab n q1 ∧ f2.post.probabilitiesGet = tab n q2 ∧
      totalVariation n q2 q1 ≤ 4 * ε / σ := by
  obtain ⟨f, f1, f2, q1, q2, a1, a2, a3, a4, a5, a6⟩ :=
    C121_tables hn hp hd hcs hcs' hss hss' h0 h1 ha hσ0.le hσ1 hmix hpos
  refine ⟨f, f1, f2, q1, q2, a1, a2, a3, a4, a5, a6.trans ?_⟩
  rw [le_div_iff₀ hσ0]
  have h := remembered_le hσ0 hσ1 hcs hm
  have hq : 0 ≤ (1 - σ) ^ moves ss := pow_nonneg (by linarith) _
  have h2 : remembered σ ss * σ ≤ 2 := by linarith
  have := mul_le_mul_of_nonneg_left h2 h0
  linarith

/-- **C121, rounding.** A histogram filter in rounded arithmetic whose every update has a move that mixes with factor `σ`:
the total variation distance from the exact posterior never exceeds `6 (n + 2) u / σ`, however many updates there
are. (The bound of C78 on the relative errors grows with their number.) -/
theorem C121_rounding (h : IsRounding u fl) {n : Nat}
    (hn : (2 * (n : K) + 4) * u ≤ 1 / (2 * 10 ^ 9)) {d : DiscretePdf K} (hd : d.numStates = n)
    {v : Nat → K} (hv : ∀ x < n, 0 ≤ v x) {cs : List (Call Z K)} {ss : List (Step K)}
    (hcs : Describes n cs ss) (hm : ∀ c ∈ cs, c.sys.isSome) (hss : ∀ s ∈ ss, s.Nonneg n) {σ : K} (hσ0 : 0 < σ) (hσ1 : σ ≤ 1)
    (hmix : ∀ s ∈ ss, s.MixesBy n σ) (hpos : 0 < historyEvidence n v ss) :
    ∃ prior f f' q, Rounded.probabilitiesSet fl d (tab n v) = .ok (true, prior) ∧
      Rounded.makeFilter fl prior = .ok f ∧ Rounded.run fl f cs = .ok (true, f') ∧
      f'.post.probabilitiesGet = tab n q ∧
      totalVariation n q (fun x => jointLast n v ss x / historyEvidence n v ss) ≤ 6 * (n + 2) * u / σ := by
  have hf : Fits u n := hn
  have hu := hf.lt_one h
  have hmass := mass_pos_of_evidence hv hpos
  have h0 : Sized n (⟨d, d.values, 0⟩ : HistogramFilter K) := ⟨hd, hd, rfl⟩
  obtain ⟨prior, e1, hk⟩ := knows_store h hf (k := 0) (f := ⟨d, d.values, 0⟩) h0 (j := v) (q := v)
    (c := 1) one_pos hmass (fun x hx => ⟨hv x hx, by
      rw [one_mul]; exact near_refl h.1 hu.le 0 (hv x hx)⟩) d.values hd
  obtain ⟨hs, p, c, hp, hp0, hc, hnear, hsum⟩ := hk
  obtain ⟨pv, pc⟩ := prior
  simp only at hp
  subst hp
  have hc' := cumUpdate_near h hf hp0 hsum (List.replicate (n + 1) 0)
  have hl : (DiscretePdf.mk (tab n p) pc).numStates = n := by simp [DiscretePdf.numStates]
  rw [zero_add] at hnear
  obtain ⟨-, -, hpos'⟩ := near_evidence hu hc hnear hss hpos
  obtain ⟨f', q, a1, a2, a3, a4, a5⟩ := rounded_drifts h hf hcs hss
    ⟨⟨tab n p, setLast (Rounded.runningSums fl 0 (tab n p)) 1⟩, tab n p, 0⟩ p ⟨by simp, by simp, rfl⟩ rfl hp0 hsum hpos'
  refine ⟨_, _, f', q, e1, ?_, a1, a2, ?_⟩
  · simp only [Rounded.makeFilter, Rounded.copy, hl, hc', Outcome.ok_bind, Outcome.pure_eq]
  have b1 := near_posterior h.1 hu hc hv hnear hss hσ0.le hmix hpos
  obtain ⟨hS, b2⟩ := a5.distance h.1 hu hσ0.le hss hmix hp0 hpos'
  have hn0 : (0 : K) ≤ n := Nat.cast_nonneg n
  have hnu : 0 ≤ (n : K) * u := mul_nonneg hn0 h.1
  have b3 : totalVariation n q (fun x => q x / ∑ y ∈ range n, q y) ≤ (n + 1) * u := by
    have e := Near.error h.1 (k := n + 1) (by
      push_cast
      have : (1 / (2 * 10 ^ 9) : K) ≤ 1 := by norm_num
      linarith [h.1]) hu.le zero_le_one hS.le a4
    set S := ∑ y ∈ range n, q y with hSd
    unfold totalVariation
    have e2 : ∀ x ∈ range n, |q x - q x / S| = q x * (|S - 1| / S) := by
      intro x hx
      have hqx := a3 x (mem_range.1 hx)
      have : q x - q x / S = q x * ((S - 1) / S) := by
        field_simp
      rw [this, abs_mul, abs_div, abs_of_nonneg hqx, abs_of_pos hS]
    rw [Finset.sum_congr rfl e2, ← Finset.sum_mul, ← hSd, mul_div_cancel₀ _ hS.ne']
    push_cast at e
    linarith
  have hq : 0 ≤ (1 - σ) ^ moves ss := pow_nonneg (by linarith) _
  have hq1 : (1 - σ) ^ moves ss ≤ 1 := pow_le_one₀ (by linarith) (by linarith)
  have c1 : (1 - (1 - u) ^ (2 * 1)) * (1 - σ) ^ moves ss ≤ 2 * u := by
    have k1 := one_sub_pow_le hu.le (2 * 1)
    refine (mul_le_mul_of_nonneg_right k1 hq).trans ?_
    rw [show ((2 * 1 : Nat) : K) = 2 by norm_num]
    exact mul_le_of_le_one_right (mul_nonneg zero_le_two h.1) hq1
  have c2 : (1 - (1 - u) ^ (2 * (n + 2))) * remembered σ ss * σ ≤ 4 * (n + 2) * u := by
    have k1 := one_sub_pow_le hu.le (2 * (n + 2))
    have k2 := mul_le_mul_of_nonneg_right k1 (mul_nonneg (remembered_nonneg hσ1 ss) hσ0.le)
    have k3 := remembered_le hσ0 hσ1 hcs hm
    have k4 : remembered σ ss * σ ≤ 2 := by linarith
    have k5 := mul_le_mul_of_nonneg_left k4 (mul_nonneg (Nat.cast_nonneg (2 * (n + 2))) h.1 : (0 : K) ≤ (2 * (n + 2) : Nat) * u)
    push_cast at k2 k5
    linarith
  have t1 := totalVariation_triangle n q (fun x => q x / ∑ y ∈ range n, q y)
    (fun x => jointLast n p ss x / historyEvidence n p ss)
  have t2 := totalVariation_triangle n q (fun x => jointLast n p ss x / historyEvidence n p ss)
    (fun x => jointLast n v ss x / historyEvidence n v ss)
  have t3 : totalVariation n q (fun x => jointLast n v ss x / historyEvidence n v ss) ≤
      (n + 3) * u + (1 - (1 - u) ^ (2 * (n + 2))) * remembered σ ss := by
    have b4 := b1.trans c1
    clear b1 c1 c2
    generalize (1 - (1 - u) ^ (2 * (n + 2))) * remembered σ ss = D at *
    linarith
  rw [le_div_iff₀ hσ0]
  have t4 := mul_le_mul_of_nonneg_right t3 hσ0.le
  have t5 : (n + 3) * u * σ ≤ (n + 3) * u := mul_le_of_le_one_right (mul_nonneg (by linarith) h.1) hσ1
  linarith [h.1]

/-! ### Without moves errors do add up -/

theorem jointLast_readings {n : Nat} {p L : Nat → K} {x : Nat} (hx : x < n) :
    ∀ k, jointLast n p (List.replicate k (.observe L)) x = p x * L x ^ k := by
  intro k
  induction k generalizing p with
  | zero => simp [jointLast_nil n p hx]
  | succ k ih =>
    rw [List.replicate_succ, jointLast_cons, ih]
    show p x * L x * L x ^ k = _
    ring

theorem describes_readings {n : Nat} {m : Model Int Z K} {z : Z} {L : Nat → K} (h : Likelihood n m z none L) :
    ∀ k, Describes n (List.replicate k ⟨none, some (m, z, none)⟩) (List.replicate k (.observe L))
  | 0 => .nil
  | k + 1 => .cons (s1 := []) (s2 := [.observe L]) .none (.some h) (describes_readings h k)

/-- **C121, no moves.** A filter for a state that does not move, whose table for one reading is wrong by a relative error
`ε`, however small: if the reading is repeated often enough, the posterior is wrong by almost 1/2. -/
theorem C121_accumulates [Archimedean K] {ε : K} (h0 : 0 < ε) (h1 : ε < 1) {B : K} (hB : B < 1 / 2) :
    ∃ (prior : DiscretePdf K) (m m' : Model Int Unit K) (L L' : Nat → K) (k : Nat) (f f1 f2 : HistogramFilter K)
      (q1 q2 : Nat → K), Likelihood 2 m () none L ∧ Likelihood 2 m' () none L' ∧
      Step.Alike 2 ε (.observe L) (.observe L') ∧ HistogramFilter.make prior = .ok f ∧
      f.run (List.replicate k ⟨none, some (m, (), none)⟩) = .ok (true, f1) ∧
      f.run (List.replicate k ⟨none, some (m', (), none)⟩) = .ok (true, f2) ∧
      f1.post.probabilitiesGet = tab 2 q1 ∧ f2.post.probabilitiesGet = tab 2 q2 ∧ B < totalVariation 2 q2 q1 := by
  have hr0 : 0 < 1 - ε := by linarith
  have hB' : 0 < 1 / 2 - B := by linarith
  obtain ⟨k, hk⟩ := exists_pow_lt_of_lt_one hB' (show 1 - ε < 1 by linarith)
  set L : Nat → K := fun _ => 1 / 2 with hL
  set L' : Nat → K := fun x => if x = 0 then 1 / 2 else 1 / 2 * (1 - ε) with hL'
  have lik : ∀ M : Nat → K, Likelihood 2
      (⟨some ⟨1, fun args _ => match args with | [x] => .ok (M x.toNat) | _ => .abort, fun _ => .abort⟩, some true⟩ :
        Model Int Unit K) () none M := fun M => Or.inl
      ⟨⟨1, fun args _ => match args with | [x] => .ok (M x.toNat) | _ => .abort, fun _ => .abort⟩, rfl, rfl,
        fun x _ => by simp⟩
  have hd : IsDistribution (DiscretePdf.mk [(1 / 2 : K), 1 / 2] [0, 1 / 2, 1]).probabilitiesGet := by
    refine ⟨?_, ?_⟩
    · intro w hw
      simp [DiscretePdf.probabilitiesGet] at hw
      rw [hw]
      positivity
    · simp [DiscretePdf.probabilitiesGet]
      norm_num
  have hev : ∀ M : Nat → K, historyEvidence 2 (fun _ => 1 / 2) (List.replicate k (.observe M)) =
      1 / 2 * M 0 ^ k + 1 / 2 * M 1 ^ k := by
    intro M
    unfold historyEvidence
    rw [Finset.sum_range_succ, Finset.sum_range_one, jointLast_readings (by norm_num), jointLast_readings (by norm_num)]
  have hn : ∀ M : Nat → K, (∀ x, 0 ≤ M x) → ∀ s ∈ List.replicate k (Step.observe M), s.Nonneg 2 := by
    intro M hM s hs
    rw [List.eq_of_mem_replicate hs]
    exact fun x _ => hM x
  have hp' : 0 < (1 / 2 : K) ^ k := pow_pos (by norm_num) _
  have hq' : 0 < (1 / 2 * (1 - ε)) ^ k := pow_pos (by linarith) _
  obtain ⟨f, f1, a1, a2, a3, -⟩ := C25_exact (prior := ⟨[1 / 2, 1 / 2], [0, 1 / 2, 1]⟩) (n := 2) rfl (p := fun _ => 1 / 2) rfl hd
    (describes_readings (lik L) k) (hn L fun x => by rw [hL]; norm_num) (by rw [hev]; simp only [hL]; linarith)
  obtain ⟨g, f2, b1, b2, b3, -⟩ := C25_exact (prior := ⟨[1 / 2, 1 / 2], [0, 1 / 2, 1]⟩) (n := 2) rfl (p := fun _ => 1 / 2) rfl hd
    (describes_readings (lik L') k) (hn L' fun x => by
      simp only [hL']
      split
      · norm_num
      · linarith) (by rw [hev]; simp only [hL', if_true, one_ne_zero, if_false]; linarith)
  rw [a1] at b1
  obtain rfl := Outcome.ok.inj b1
  refine ⟨_, _, _, L, L', k, f, f1, f2, _, _, lik L, lik L', ⟨1, one_pos, fun x _ => ?_⟩, a1, a2, b2, a3, b3, ?_⟩
  · simp only [hL, hL']
    split
    · constructor <;> linarith
    · constructor
      · linarith
      · have := mul_nonneg h0.le hr0.le
        nlinarith
  · have e1 : ∀ x < 2, jointLast 2 (fun _ => (1 / 2 : K)) (List.replicate k (.observe L)) x /
        historyEvidence 2 (fun _ => 1 / 2) (List.replicate k (.observe L)) = 1 / 2 := by
      intro x hx
      rw [hev, jointLast_readings hx]
      simp only [hL]
      field_simp
      norm_num
    set t := (1 - ε) ^ k with ht
    have ht0 : 0 < t := pow_pos hr0 _
    have e2 : jointLast 2 (fun _ => (1 / 2 : K)) (List.replicate k (.observe L')) 0 /
        historyEvidence 2 (fun _ => 1 / 2) (List.replicate k (.observe L')) = 1 / (1 + t) := by
      rw [hev, jointLast_readings (by norm_num)]
      simp only [hL', if_true, one_ne_zero, if_false, mul_pow, ← ht]
      field_simp
    have e3 : jointLast 2 (fun _ => (1 / 2 : K)) (List.replicate k (.observe L')) 1 /
        historyEvidence 2 (fun _ => 1 / 2) (List.replicate k (.observe L')) = t / (1 + t) := by
      rw [hev, jointLast_readings (by norm_num)]
      simp only [hL', if_true, one_ne_zero, if_false, mul_pow, ← ht]
      field_simp
    unfold totalVariation
    rw [Finset.sum_range_succ, Finset.sum_range_one]
    beta_reduce
    rw [e1 0 (by norm_num), e1 1 (by norm_num), e2, e3]
    have g1 := le_abs_self (1 / (1 + t) - 1 / 2)
    have g2 := neg_le_abs (t / (1 + t) - 1 / 2)
    have g3 : t / (1 + t) ≤ t := div_le_self ht0.le (by linarith)
    have g4 : 1 / (1 + t) = 1 - t / (1 + t) := by field_simp; ring
    linarith

/-! ## Concrete cases -/

namespace HistogramExample

/-- The sticky transition, slightly wrong. -/
def T' (y x : Nat) : ℚ := if y = x then 7501/10000 else 2499/10000

def sysPdf' : CondPdf Int Int ℚ where
  numArgs := 1
  prob args y := match args with
    | [x] => .ok (if y = x then 7501/10000 else 2499/10000)
    | _ => .abort
  draw _ := .abort

def sys' : Model Int Int ℚ := { pdf := some sysPdf', without := some true }

theorem transition' : Transition 2 sys' none T' := by
  refine Or.inl ⟨sysPdf', rfl, rfl, ?_⟩
  intro y _ x _
  simp [sysPdf', T']

/-- `k` sticky moves with a reading each. -/
def times (T : Nat → Nat → ℚ) : Nat → List (Step ℚ)
  | 0 => []
  | k + 1 => .move T :: .observe L :: times T k

theorem mem_times {T : Nat → Nat → ℚ} {s : Step ℚ} : ∀ {k}, s ∈ times T k → s = .move T ∨ s = .observe L
  | 0, h => by simp [times] at h
  | k + 1, h => by
    simp only [times, List.mem_cons] at h
    rcases h with h | h | h
    · exact .inl h
    · exact .inr h
    · exact mem_times h

theorem describes_times {m : Model Int Int ℚ} {T : Nat → Nat → ℚ} (h : Transition 2 m none T) : ∀ k,
    Describes 2 (List.replicate k ⟨some (m, none), some (meas, (1 : Int), none)⟩) (times T k)
  | 0 => .nil
  | k + 1 => .cons (s1 := [.move T]) (s2 := [.observe L]) (.some h) (.some likelihood) (describes_times h k)

theorem alike_times : ∀ k, List.Forall₂ (Step.Alike 2 (1/2000)) (times T k) (times T' k)
  | 0 => .nil
  | k + 1 => by
    refine .cons ?_ (.cons ?_ (alike_times k))
    · intro y _ x _
      unfold T T'
      split <;> norm_num
    · refine ⟨1, one_pos, fun x _ => ?_⟩
      unfold L
      split <;> norm_num

theorem times_pos {T : Nat → Nat → ℚ} (hT : ∀ y < 2, ∀ x < 2, 1/5 ≤ T y x) : ∀ (k : Nat) {p : Nat → ℚ}, (∀ x < 2, 0 < p x) →
    0 < historyEvidence 2 p (times T k)
  | 0, p, hp => by
    show 0 < historyEvidence 2 p []
    rw [historyEvidence_nil]
    exact Finset.sum_pos (fun x hx => hp x (mem_range.1 hx)) ⟨0, by simp⟩
  | k + 1, p, hp => by
    show 0 < historyEvidence 2 p (.move T :: .observe L :: times T k)
    rw [historyEvidence_cons, historyEvidence_cons]
    refine times_pos hT k fun y hy => mul_pos (Finset.sum_pos (fun x hx => mul_pos ?_ (hp x (mem_range.1 hx))) ⟨0, by simp⟩) ?_
    · exact lt_of_lt_of_le (by norm_num) (hT y hy x (mem_range.1 hx))
    · unfold L
      split <;> norm_num

end HistogramExample

open HistogramExample in
/-- The tables say 0.7501 instead of 0.75: after any number of moves and readings the posteriors differ by at most 0.6
per cent. -/
example (k : Nat) : ∃ f f1 f2 q1 q2, HistogramFilter.make prior = .ok f ∧
    f.run (List.replicate k ⟨some (sys, none), some (meas, (1 : Int), none)⟩) = .ok (true, f1) ∧
    f.run (List.replicate k ⟨some (sys', none), some (meas, (1 : Int), none)⟩) = .ok (true, f2) ∧
    f1.post.probabilitiesGet = tab 2 q1 ∧ f2.post.probabilitiesGet = tab 2 q2 ∧ totalVariation 2 q2 q1 ≤ 6/1000 := by
  have h := C121_tables_forever (n := 2) (prior := prior) rfl (p := fun _ => 1/2) (by decide +kernel)
    ⟨by decide +kernel, by decide +kernel⟩ (describes_times transition k) (describes_times transition' k)
    (fun c hc => by rw [List.eq_of_mem_replicate hc]; rfl)
    (fun s hs => by rcases mem_times hs with rfl | rfl; exacts [T_nonneg, L_nonneg])
    (fun s hs => by
      rcases mem_times hs with rfl | rfl
      · intro y _ x _
        unfold T'
        split <;> norm_num
      · exact L_nonneg)
    (ε := 1/2000) (by norm_num) (by norm_num) (alike_times k) (σ := 1/3) (by norm_num) (by norm_num)
    (fun s hs => by rcases mem_times hs with rfl | rfl; exacts [T_mixes, trivial])
    (times_pos (fun y _ x _ => by unfold T; split <;> norm_num) k fun x _ => by norm_num)
  rw [show (4 * (1 / 2000) / (1 / 3) : ℚ) = 6 / 1000 by norm_num] at h
  exact h

open HistogramExample in
/-- What is remembered of errors in a move, two readings and another move: the errors before the last move count only
two thirds. -/
example : remembered (1/3 : ℚ) [.move T, .observe L, .observe L, .move T] = 1 + 2/3 * 3 := by
  norm_num [remembered, moves]

open HistogramExample in
/-- In double precision, any number of moves and readings: the posterior is within `72 * 2^-53` of the exact one. -/
example (k : Nat) : ∃ d f f' q, Rounded.probabilitiesSet nearest53 prior (tab 2 fun _ => (1 / 3 : ℚ)) = .ok (true, d) ∧
    Rounded.makeFilter nearest53 d = .ok f ∧
    Rounded.run nearest53 f (List.replicate k ⟨some (sys, none), some (meas, (1 : Int), none)⟩) = .ok (true, f') ∧
    f'.post.probabilitiesGet = tab 2 q ∧
    totalVariation 2 q (fun x => jointLast 2 (fun _ => 1/3) (times T k) x / historyEvidence 2 (fun _ => 1/3) (times T k)) ≤
      72 / 2 ^ 53 := by
  have h := C121_rounding (nearest53_isRounding (K := ℚ)) (n := 2) (by norm_num) (d := prior) rfl (v := fun _ => 1/3)
    (by norm_num) (describes_times transition k) (fun c hc => by rw [List.eq_of_mem_replicate hc]; rfl)
    (fun s hs => by rcases mem_times hs with rfl | rfl; exacts [T_nonneg, L_nonneg]) (σ := 1/3) (by norm_num) (by norm_num)
    (fun s hs => by rcases mem_times hs with rfl | rfl; exacts [T_mixes, trivial])
    (times_pos (fun y _ x _ => by unfold T; split <;> norm_num) k fun x _ => by norm_num)
  have e : (6 * (((2 : Nat) : ℚ) + 2) * (1 / 2 ^ 53) / (1 / 3)) = 72 / 2 ^ 53 := by norm_num
  rw [e] at h
  exact h

/-- A relative error of one in a million, repeated often enough, makes the posterior wrong by more than 0.49. -/
example : ∃ (prior : DiscretePdf ℚ) (m m' : Model Int Unit ℚ) (L L' : Nat → ℚ) (k : Nat) (f f1 f2 : HistogramFilter ℚ)
    (q1 q2 : Nat → ℚ), Likelihood 2 m () none L ∧ Likelihood 2 m' () none L' ∧
    Step.Alike 2 (1/1000000) (.observe L) (.observe L') ∧ HistogramFilter.make prior = .ok f ∧
    f.run (List.replicate k ⟨none, some (m, (), none)⟩) = .ok (true, f1) ∧
    f.run (List.replicate k ⟨none, some (m', (), none)⟩) = .ok (true, f2) ∧
    f1.post.probabilitiesGet = tab 2 q1 ∧ f2.post.probabilitiesGet = tab 2 q2 ∧ 49/100 < totalVariation 2 q2 q1 :=
  C121_accumulates (by norm_num) (by norm_num) (by norm_num)

end BFL.Props
