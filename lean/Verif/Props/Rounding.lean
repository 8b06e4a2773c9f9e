import Verif.Lemmas.Rounded
import Verif.Props.Histogram

/-!
# C78: the histogram filter with rounded arithmetic
-/

set_option linter.unusedSectionVars false

namespace BFL.Props

open Finset Spec HistogramFilter

variable {Z K : Type} [Field K] [LinearOrder K] [IsStrictOrderedRing K] {u : K} {fl : K → K}

theorem roundings_append (n : Nat) (s1 s2 : List (Step K)) :
    roundings n (s1 ++ s2) = roundings n s1 + roundings n s2 := by
  induction s1 with
  | nil => simp [roundings]
  | cons s s1 ih => cases s <;> simp [roundings, ih] <;> omega

/-- What the filter knows: the probabilities `p` are up to `k` roundings proportional to `j`, and
sum to 1 up to `n + 1` roundings. -/
structure Knows (u : K) (n k : Nat) (f : HistogramFilter K) (j : Nat → K) : Prop where
  sized : Sized n f
  near : ∃ (p : Nat → K) (c : K), f.post.values = tab n p ∧ (∀ x < n, 0 ≤ p x) ∧ 0 < c ∧
    (∀ x < n, Near u k (c * j x) (p x)) ∧ Near u (n + 1) 1 (∑ x ∈ range n, p x)

/-- Storing. -/
theorem knows_store (h : IsRounding u fl) {n k : Nat} (hf : Fits u n) {f : HistogramFilter K}
    (hs : Sized n f) {j q : Nat → K} {c : K} (hc : 0 < c) (hj : 0 < ∑ x ∈ range n, j x)
    (hq : ∀ x < n, 0 ≤ q x ∧ Near u k (c * j x) (q x)) (w : List K)
    (hw : w.length = n) :
    ∃ d, Rounded.probabilitiesSet fl f.post (tab n q) = .ok (true, d) ∧
      Knows u n (k + 1) { f with post := d, newProb := w } j := by
  have h1 := hf.lt_one h
  have hpos : 0 < ∑ x ∈ range n, q x := by
    have a : Near u k (∑ x ∈ range n, c * j x) (∑ x ∈ range n, q x) :=
      near_sum fun x hx => (hq x hx).2
    rw [← Finset.mul_sum] at a
    exact a.pos h1 (mul_pos hc hj)
  obtain ⟨hS, hx, hsum, e⟩ := storeF h hf (d := f.post) hs.1 (fun x hx => (hq x hx).1) hpos
  refine ⟨_, e, ⟨by simp, hw, hs.2.2⟩, _, c / Rounded.sum fl (tab n q), rfl,
    fun x hx' => (hx x hx').1, div_pos hc hS, fun x hx' => ?_, hsum⟩
  have a := ((hq x hx').2.const_mul (inv_nonneg.2 hS.le)).trans h1.le
    (by rw [← div_eq_inv_mul]; exact (hx x hx').2)
  have e2 : c / Rounded.sum fl (tab n q) * j x = (Rounded.sum fl (tab n q))⁻¹ * (c * j x) := by
    rw [div_eq_inv_mul, mul_assoc]
  rw [e2]
  exact a

theorem knows_sys (h : IsRounding u fl) {n k : Nat} (hf : Fits u n) {f : HistogramFilter K}
    {j : Nat → K} (hk : Knows u n k f j) {m : Model Int Int K}
    {v : Option Int} {T : Nat → Nat → K} (hT : Transition n m v T)
    (hT0 : ∀ y < n, ∀ x < n, 0 ≤ T y x)
    (hpos : 0 < ∑ y ∈ range n, totalProbability n T j y) :
    ∃ f', Rounded.sysUpdate fl f m v = .ok f' ∧
      Knows u n (k + (n + 2)) f' (totalProbability n T j) := by
  have h1 := (hf.lt_one h).le
  obtain ⟨hs, p, c, hp, hp0, hc, hn, _⟩ := hk
  obtain ⟨⟨w, hw⟩, hT'⟩ := hT.sysProb
  obtain ⟨q, hq, e⟩ := sysUpdateF h h1 hs hp hp0 hw hT' hT0
  have hq' : ∀ y < n, 0 ≤ q y ∧ Near u (k + (1 + n)) (c * totalProbability n T j y) (q y) := by
    intro y hy
    refine ⟨(hq y hy).1, ?_⟩
    have a : Near u k (∑ x ∈ range n, T y x * (c * j x)) (∑ x ∈ range n, T y x * p x) :=
      near_sum fun x hx => (hn x hx).const_mul (hT0 y hy x hx)
    have e3 : ∑ x ∈ range n, T y x * (c * j x) = c * totalProbability n T j y := by
      rw [totalProbability, Finset.mul_sum]
      exact Finset.sum_congr rfl fun x _ => by ring
    rw [e3] at a
    exact a.trans h1 (hq y hy).2
  obtain ⟨d, e1, hk'⟩ := knows_store h hf hs hc hpos hq'
    (tab n q) (by simp)
  refine ⟨{ f with post := d, newProb := tab n q }, ?_, ?_⟩
  · rw [e, e1]; rfl
  · have : k + (1 + n) + 1 = k + (n + 2) := by omega
    rw [this] at hk'
    exact hk'

theorem knows_meas (h : IsRounding u fl) {n k : Nat} (hf : Fits u n) {f : HistogramFilter K}
    {j : Nat → K} (hk : Knows u n k f j) {m : Model Int Z K} {z : Z}
    {s : Option Int} {L : Nat → K} (hL : Likelihood n m z s L) (hL0 : ∀ x < n, 0 ≤ L x)
    (hpos : 0 < ∑ y ∈ range n, j y * L y) :
    ∃ f', Rounded.measUpdate fl f m z s = .ok f' ∧ Knows u n (k + 2) f' (fun y => j y * L y) := by
  have h1 := (hf.lt_one h).le
  obtain ⟨hs, p, c, hp, hp0, hc, hn, _⟩ := hk
  obtain ⟨q, hq, e⟩ := measUpdateF h h1 hs hp hp0 hL.measProb hL0
  have hq' : ∀ y < n, 0 ≤ q y ∧ Near u (k + 1) (c * (j y * L y)) (q y) := by
    intro y hy
    refine ⟨(hq y hy).1, ?_⟩
    have a := (hn y hy).const_mul (hL0 y hy)
    have e3 : L y * (c * j y) = c * (j y * L y) := by ring
    rw [e3, mul_comm (L y)] at a
    exact a.trans h1 (hq y hy).2
  obtain ⟨d, e1, hk'⟩ := knows_store h hf hs hc hpos hq' f.newProb hs.2.1
  exact ⟨{ f with post := d }, by rw [e, e1]; rfl, hk'⟩

theorem knows_run (h : IsRounding u fl) {n : Nat} (hf : Fits u n) {cs : List (Call Z K)}
    {ss : List (Step K)} (hcs : Describes n cs ss) : (∀ s ∈ ss, s.Nonneg n) →
    ∀ (k : Nat) (f : HistogramFilter K) (j : Nat → K), Knows u n k f j → (∀ x < n, 0 ≤ j x) →
      0 < historyEvidence n j ss →
      ∃ f', Rounded.run fl f cs = .ok (true, f') ∧
        Knows u n (k + roundings n ss) f' (jointLast n j ss) := by
  induction hcs with
  | nil =>
    intro _ k f j hk _ _
    refine ⟨f, rfl, hk.1, ?_⟩
    obtain ⟨p, c, a1, a2, a3, a4, a5⟩ := hk.2
    exact ⟨p, c, a1, a2, a3, fun x hx => by rw [jointLast_nil n j hx]; exact a4 x hx, a5⟩
  | @cons c cs s1 s2 ss h1 h2 _ ih =>
    obtain ⟨csys, cmeas⟩ := c
    simp only at h1 h2
    intro hss k f j hk hj hpos
    have one : ∀ (s : Step K) (rest : List (Step K)) (q : Nat → K), (∀ x < n, 0 ≤ q x) →
        s.Nonneg n → 0 < historyEvidence n q (s :: rest) →
        (∀ x < n, 0 ≤ s.apply n q x) ∧ 0 < ∑ x ∈ range n, s.apply n q x ∧
        0 < historyEvidence n (s.apply n q) rest := by
      intro s rest q hq0 hs hpos
      rw [historyEvidence_cons] at hpos
      have h0 := Step.apply_nonneg hq0 hs
      exact ⟨h0, mass_pos_of_evidence h0 hpos, hpos⟩
    obtain ⟨f1, j1, e1, hk1, hj1, hpos1, hl1⟩ : ∃ (f1 : HistogramFilter K) (j1 : Nat → K),
        Rounded.sysPart fl f csys = .ok f1 ∧ Knows u n (k + roundings n s1) f1 j1 ∧
        (∀ x < n, 0 ≤ j1 x) ∧ 0 < historyEvidence n j1 (s2 ++ ss) ∧
        ∀ x, jointLast n j (s1 ++ s2 ++ ss) x = jointLast n j1 (s2 ++ ss) x := by
      cases h1 with
      | none => exact ⟨f, j, rfl, hk, hj, hpos, fun x => rfl⟩
      | @some m v T hT =>
        have hT0 : (Step.move T).Nonneg n := hss _ (by simp)
        obtain ⟨a1, a2, a3⟩ := one (.move T) (s2 ++ ss) j hj hT0 (by simpa using hpos)
        obtain ⟨f1, b1, b2⟩ := knows_sys h hf hk hT hT0 a2
        refine ⟨f1, _, b1, ?_, a1, a3, fun x => by
          simpa using jointLast_cons n j (.move T) (s2 ++ ss) x⟩
        simp only [roundings, Nat.add_zero]
        exact b2
    obtain ⟨f2, j2, e2, hk2, hj2, hpos2, hl2⟩ : ∃ (f2 : HistogramFilter K) (j2 : Nat → K),
        Rounded.measPart fl f1 cmeas = .ok f2 ∧
        Knows u n (k + roundings n s1 + roundings n s2) f2 j2 ∧
        (∀ x < n, 0 ≤ j2 x) ∧ 0 < historyEvidence n j2 ss ∧
        ∀ x, jointLast n j1 (s2 ++ ss) x = jointLast n j2 ss x := by
      cases h2 with
      | none => exact ⟨f1, j1, rfl, hk1, hj1, hpos1, fun x => rfl⟩
      | @some m z s L hL =>
        have hL0 : (Step.observe L).Nonneg n := hss _ (by simp)
        obtain ⟨a1, a2, a3⟩ := one (.observe L) ss j1 hj1 hL0 (by simpa using hpos1)
        obtain ⟨f2, b1, b2⟩ := knows_meas h hf hk1 hL hL0 a2
        refine ⟨f2, _, b1, ?_, a1, a3, fun x => by
          simpa using jointLast_cons n j1 (.observe L) ss x⟩
        simp only [roundings, Nat.add_zero]
        exact b2
    obtain ⟨f3, e3, hk3⟩ := ih (fun s hs => hss s (by simp [hs])) _ f2 j2 hk2 hj2 hpos2
    refine ⟨f3, by simp [Rounded.run, Rounded.update, e1, e2, e3], ?_⟩
    rw [roundings_append, roundings_append]
    have e4 : k + roundings n s1 + roundings n s2 + roundings n ss =
        k + (roundings n s1 + roundings n s2 + roundings n ss) := by omega
    rw [e4] at hk3
    have e5 : jointLast n j (s1 ++ s2 ++ ss) = jointLast n j2 ss := by
      funext x
      rw [hl1, hl2]
    rw [e5]
    exact hk3

/-- From a number of roundings to a relative error. -/
theorem Near.error {u : K} {k : Nat} {x y : K} (h0 : 0 ≤ u) (hk : (k : K) * u ≤ 1 / 2)
    (hu : u ≤ 1) (hx : 0 ≤ x) (hy : 0 ≤ y) (h : Near u k x y) :
    |y - x| ≤ 2 * (k * u) * x := by
  have hb : 1 - (k : K) * u ≤ (1 - u) ^ k := by
    have := one_add_mul_le_pow (a := -u) (by linarith) k
    have e : (1 : K) + -u = 1 - u := by ring
    rw [e] at this
    linarith
  have a := (mul_le_mul_of_nonneg_left hb hx).trans h.1
  have b := (mul_le_mul_of_nonneg_left hb hy).trans h.2
  have he : 0 ≤ (k : K) * u := mul_nonneg (Nat.cast_nonneg k) h0
  generalize (k : K) * u = e at *
  have hxe : 0 ≤ e * x := mul_nonneg he hx
  refine abs_le.2 ⟨by linarith, ?_⟩
  have hy2 : y ≤ 2 * x := by
    have := mul_le_mul_of_nonneg_left (show (1 / 2 : K) ≤ 1 - e by linarith) hy
    linarith
  have := mul_le_mul_of_nonneg_left hy2 he
  linarith

/-- A histogram filter in rounded arithmetic. A client stores weights `v` in a `DiscretePdf` with
`n` states, makes a filter of it and calls `Update` any number of times. If `n` is not too large for
the precision `u` and the observations are possible, nothing fails and every posterior probability
has a relative error of at most `2 N u`, where `N` counts roundings and grows linearly with the
number of updates. -/
theorem C78_history (h : IsRounding u fl) {n : Nat}
    (hn : (2 * (n : K) + 4) * u ≤ 1 / (2 * 10 ^ 9)) {d : DiscretePdf K} (hd : d.numStates = n)
    {v : Nat → K} (hv : ∀ x < n, 0 ≤ v x) {cs : List (Call Z K)} {ss : List (Step K)}
    (hcs : Describes n cs ss) (hss : ∀ s ∈ ss, s.Nonneg n) (hpos : 0 < historyEvidence n v ss)
    {N : Nat} (hN : N = 2 * (1 + roundings n ss) + (n + 1)) (hNu : (N : K) * u ≤ 1 / 2) :
    ∃ prior f f' q, Rounded.probabilitiesSet fl d (tab n v) = .ok (true, prior) ∧
      Rounded.makeFilter fl prior = .ok f ∧ Rounded.run fl f cs = .ok (true, f') ∧
      f'.post.probabilitiesGet = tab n q ∧
      ∀ x < n, |q x - jointLast n v ss x / historyEvidence n v ss| ≤
        2 * (N * u) * (jointLast n v ss x / historyEvidence n v ss) := by
  have hf : Fits u n := hn
  have hu := hf.lt_one h
  have hmass := mass_pos_of_evidence hv hpos
  have h0 : Sized n (⟨d, d.values, 0⟩ : HistogramFilter K) := ⟨hd, hd, rfl⟩
  obtain ⟨prior, e1, hk⟩ := knows_store h hf (k := 0) (f := ⟨d, d.values, 0⟩) h0 (j := v) (q := v)
    (c := 1) one_pos hmass (fun x hx => ⟨hv x hx, by
      rw [one_mul]; exact near_refl h.1 hu.le 0 (hv x hx)⟩) d.values hd
  obtain ⟨f, e2, hkf⟩ : ∃ f, Rounded.makeFilter fl prior = .ok f ∧ Knows u n 1 f v := by
    obtain ⟨hs, p, c, hp, hp0, hc, hnear, hsum⟩ := hk
    obtain ⟨pv, pc⟩ := prior
    simp only at hp
    subst hp
    have hc' := cumUpdate_near h hf hp0 hsum (List.replicate (n + 1) 0)
    refine ⟨⟨⟨tab n p, setLast (Rounded.runningSums fl 0 (tab n p)) 1⟩, tab n p, 0⟩, ?_, ?_⟩
    · have hl : (DiscretePdf.mk (tab n p) pc).numStates = n := by simp [DiscretePdf.numStates]
      simp only [Rounded.makeFilter, Rounded.copy, hl, hc', Outcome.ok_bind, Outcome.pure_eq]
    · exact ⟨⟨by simp, by simp, rfl⟩, p, c, rfl, hp0, hc, by simpa using hnear, hsum⟩
  obtain ⟨f', e3, hk'⟩ := knows_run h hf hcs hss 1 f v hkf hv hpos
  obtain ⟨_, q, c, hq, hq0, hc, hnear, hsum⟩ := hk'
  refine ⟨prior, f, f', q, e1, e2, e3, hq, fun x hx => ?_⟩
  have hJ0 : ∀ x < n, 0 ≤ jointLast n v ss x := by
    have : ∀ (ss : List (Step K)) (q : Nat → K), (∀ s ∈ ss, s.Nonneg n) → (∀ x < n, 0 ≤ q x) →
        ∀ x < n, 0 ≤ jointLast n q ss x := by
      intro ss
      induction ss with
      | nil => intro q _ hq x hx; rw [jointLast_nil n q hx]; exact hq x hx
      | cons s ss ih =>
        intro q hss hq x hx
        rw [jointLast_cons]
        exact ih _ (fun s hs => hss s (by simp [hs])) (Step.apply_nonneg hq (hss s (by simp))) x hx
    exact this ss v hss hv
  have a1 : Near u (1 + roundings n ss) (c * historyEvidence n v ss) (∑ x ∈ range n, q x) := by
    unfold historyEvidence
    rw [Finset.mul_sum]
    exact near_sum hnear
  have a2 := hsum.trans hu.le a1.symm
  have hr : 0 ≤ jointLast n v ss x / historyEvidence n v ss := div_nonneg (hJ0 x hx) hpos.le
  have a3 := a2.const_mul hr
  have e4 : jointLast n v ss x / historyEvidence n v ss * (c * historyEvidence n v ss) =
      c * jointLast n v ss x := by
    field_simp
  rw [mul_one, e4] at a3
  have a4 := a3.trans hu.le (hnear x hx)
  have e5 : n + 1 + (1 + roundings n ss) + (1 + roundings n ss) = N := by omega
  rw [e5] at a4
  exact Near.error h.1 hNu hu.le hr (hq0 x hx) a4

/-- The uniform distribution on `n` states can be constructed, and each of its probabilities is
`1 / n` up to the relative error `u`. -/
theorem C78_uniform (h : IsRounding u fl) {n : Nat} (h0 : 0 < n)
    (hn : (2 * (n : K) + 4) * u ≤ 1 / (2 * 10 ^ 9)) :
    ∃ d q, Rounded.make fl n = .ok d ∧ d.probabilitiesGet = tab n q ∧
      ∀ x < n, |q x - 1 / n| ≤ u * (1 / n) := by
  have hf : Fits u n := hn
  have hu := hf.lt_one h
  have hn0 : (0 : K) < n := by exact_mod_cast h0
  have hp : (0 : K) ≤ 1 / n := by positivity
  have e1 : mapOutcome (fun _ => Rounded.divProb fl 1 (n : K)) (List.range n) =
      .ok (tab n fun _ => fl (1 / n)) := by
    rw [mapOutcome_eq_ok (g := fun _ => fl (1 / (n : K)))]
    · rfl
    · intro _ _
      unfold Rounded.divProb
      rw [if_neg hn0.ne']
      exact mkProb_of_nonneg (h.nonneg hu.le hp)
  have hs : Near u (n + 1) 1 (∑ x ∈ range n, fl (1 / (n : K))) := by
    have a : Near u 1 (∑ x ∈ range n, 1 / (n : K)) (∑ x ∈ range n, fl (1 / (n : K))) :=
      near_sum fun x _ => h.near hu.le hp
    have e : ∑ x ∈ range n, 1 / (n : K) = 1 := by
      rw [Finset.sum_const, card_range, nsmul_eq_mul, mul_one_div_cancel hn0.ne']
    rw [e] at a
    refine a.mono h.1 hu.le zero_le_one ?_ (by omega)
    exact Finset.sum_nonneg fun _ _ => h.nonneg hu.le hp
  refine ⟨⟨tab n fun _ => fl (1 / n),
    setLast (Rounded.runningSums fl 0 (tab n fun _ => fl (1 / n))) 1⟩,
    fun _ => fl (1 / n), ?_, rfl, ?_⟩
  · unfold Rounded.make
    rw [e1, Outcome.ok_bind, cumUpdate_near h hf (fun _ _ => h.nonneg hu.le hp) hs]
    rfl
  · intro x _
    have := h.2 (1 / (n : K))
    rwa [abs_of_nonneg hp] at this

/-- Rounding to 53 bits has the relative error `2⁻⁵³`. -/
theorem nearest53_isRounding [FloorRing K] : IsRounding (1 / 2 ^ 53 : K) nearest53 := by
  refine ⟨by positivity, fun x => ?_⟩
  rcases eq_or_ne x 0 with rfl | hx
  · simp [nearest53]
  have hx' : 0 < |x| := abs_pos.2 hx
  unfold nearest53
  have hlog := Int.zpow_log_le_self (b := 2) (r := |x|) one_lt_two hx'
  set e := Int.log 2 |x| with he
  have hs : (0 : K) < 2 ^ (e - 52) := by positivity
  have h2 : (2 : K) ^ (e - 52) = 2 ^ e / 2 ^ 52 := by
    rw [zpow_sub₀ two_ne_zero]
    norm_cast
  have h3 := abs_sub_round (x / (2 : K) ^ (e - 52))
  have e1 : (round (x / (2 : K) ^ (e - 52)) : K) * 2 ^ (e - 52) - x =
      -((x / (2 : K) ^ (e - 52) - round (x / (2 : K) ^ (e - 52))) * 2 ^ (e - 52)) := by
    rw [sub_mul, div_mul_cancel₀ _ hs.ne']
    ring
  rw [e1, abs_neg, abs_mul, abs_of_pos hs]
  have h4 := mul_le_mul_of_nonneg_right h3 hs.le
  refine h4.trans ?_
  rw [h2]
  have h5 : ((2 : Nat) : K) ^ e = (2 : K) ^ e := by norm_cast
  rw [h5] at hlog
  have e2 : (1 / 2 : K) * (2 ^ e / 2 ^ 52) = 1 / 2 ^ 53 * 2 ^ e := by
    field_simp
  rw [e2]
  exact mul_le_mul_of_nonneg_left hlog (by positivity)

/-- Without underflow there is no `C78_history`: if results below `δ` are flushed to zero, an update
with an observation of probability `δ > 0` returns `true` and leaves all probabilities zero. -/
theorem C78_underflow {δ : K} (h0 : 0 < δ) (h1 : δ ≤ 1 / 2) {fl : K → K}
    (hfl : ∀ x, fl x = if |x| < δ then 0 else x) (hδ : (1 / 10 ^ 9 : K) ≥ δ) :
    ∃ (prior : DiscretePdf K) (f f' : HistogramFilter K) (m : Model Int Int K),
      prior.probabilitiesGet = tab 2 (fun _ => 1 / 2) ∧ Likelihood 2 m (0 : Int) none (fun _ => δ) ∧
      0 < historyEvidence 2 (fun _ => 1 / 2) [Step.observe fun _ => δ] ∧
      Rounded.makeFilter fl prior = .ok f ∧
      Rounded.run fl f [⟨none, some (m, (0 : Int), none)⟩] = .ok (true, f') ∧
      f'.post.probabilitiesGet = tab 2 (fun _ => 0) := by
  have hz : fl 0 = 0 := by rw [hfl]; simp
  have hbig : ∀ x : K, δ ≤ x → fl x = x := by
    intro x hx
    rw [hfl, if_neg]
    rw [abs_of_nonneg (h0.le.trans hx)]
    exact not_lt.2 hx
  have hhalf : fl (1 / 2) = (1 / 2 : K) := hbig _ h1
  have hone : fl 1 = (1 : K) := hbig _ (h1.trans (by norm_num))
  have hp : fl (numericPrecision : K) = 1 / 10 ^ 9 := hbig _ hδ
  have hsm : fl (1 / 2 * δ) = 0 := by
    rw [hfl, if_pos]
    rw [abs_of_nonneg (by positivity)]
    linarith
  have hlo : fl (1 - 1 / 10 ^ 9) = (1 - 1 / 10 ^ 9 : K) := hbig _ (h1.trans (by norm_num))
  have hhi : fl (1 + 1 / 10 ^ 9) = (1 + 1 / 10 ^ 9 : K) := hbig _ (h1.trans (by norm_num))
  have hsum : fl (1 / 2 + 1 / 2) = (1 : K) := by rw [add_halves]; exact hone
  refine ⟨⟨[1 / 2, 1 / 2], [0, 1 / 2, 1]⟩,
    ⟨⟨[1 / 2, 1 / 2], [0, 1 / 2, 1]⟩, [1 / 2, 1 / 2], 0⟩,
    ⟨⟨[0, 0], [0, 1 / 2, 1]⟩, [1 / 2, 1 / 2], 0⟩,
    ⟨some ⟨1, fun _ _ => .ok δ, fun _ => .abort⟩, some true⟩, rfl,
    Or.inl ⟨⟨1, fun _ _ => .ok δ, fun _ => .abort⟩, rfl, rfl, fun _ _ => rfl⟩, ?_, ?_, ?_, rfl⟩
  · rw [historyEvidence_cons, historyEvidence_nil]
    simp only [Step.apply, Finset.sum_range_succ, Finset.sum_range_zero]
    linarith
  · have hc : (fl (1 - fl numericPrecision) ≤ (1 : K) ∧ (1 : K) ≤ fl (1 + fl numericPrecision)) := by
      rw [hp, hlo, hhi]
      constructor <;> norm_num
    have hr : Rounded.runningSums fl 0 [(1 / 2 : K), 1 / 2] = [0, 1 / 2, 1] := by
      simp only [Rounded.runningSums, zero_add, hhalf, hsum]
    simp only [Rounded.makeFilter, Rounded.copy, Rounded.cumUpdate, hr]
    show (do
      let r ← (do
        let r ← (do
          cassert (fl (1 - fl numericPrecision) ≤ (1 : K) ∧ (1 : K) ≤ fl (1 + fl numericPrecision))
          return (true, DiscretePdf.mk [(1 / 2 : K), 1 / 2] [0, 1 / 2, 1]))
        return r.2)
      return HistogramFilter.mk r [(1 / 2 : K), 1 / 2] 0) = _
    rw [cassert_true hc]
    rfl
  · have hl : mapOutcome (fun state : Nat => do
        let o ← vget [(1 / 2 : K), 1 / 2] state
        let p ← HistogramFilter.measProb
          (⟨some ⟨1, fun _ _ => .ok δ, fun _ => .abort⟩, some true⟩ : Model Int Int K) 0 none state
        mkProb (fl (o * p))) (List.range 2) = .ok [0, 0] := by
      show mapOutcome _ [0, 1] = _
      have hm : mkProb (fl (1 / 2 * δ)) = .ok 0 := by rw [hsm]; exact mkProb_of_nonneg le_rfl
      simp only [mapOutcome]
      show (do
        let b ← mkProb (fl (1 / 2 * δ))
        let bs ← (do
          let b ← mkProb (fl (1 / 2 * δ))
          return [b])
        return b :: bs) = _
      rw [hm]
      rfl
    have hs : ¬ 0 < Rounded.sum fl [(0 : K), 0] := by simp [Rounded.sum, hz]
    simp only [Rounded.run, Rounded.update, Rounded.sysPart, Rounded.measPart, Rounded.measUpdate,
      Outcome.ok_bind, DiscretePdf.numStates, List.length_cons, List.length_nil, zero_add,
      Nat.reduceAdd, hl, Rounded.probabilitiesSet]
    have hm2 : mapOutcome mkProb [(0 : K), 0] = .ok [0, 0] := by
      simp [mapOutcome, mkProb]
    rw [hm2]
    simp [Rounded.normalizeProbs, hs, cassert]

/-! ## Concrete cases -/

open HistogramExample in
/-- `C78_history` with 53 bits, for two states, one sticky move and one reading: the relative error
is at most 34 times 2⁻⁵³. -/
example : ∃ d f f' q, Rounded.probabilitiesSet nearest53 prior (tab 2 fun _ => (1 / 3 : ℚ)) =
      .ok (true, d) ∧
    Rounded.makeFilter nearest53 d = .ok f ∧
    Rounded.run nearest53 f [⟨some (sys, none), some (meas, (1 : Int), none)⟩] = .ok (true, f') ∧
    f'.post.probabilitiesGet = tab 2 q ∧
    ∀ x < 2, |q x - L x| ≤ 34 / 2 ^ 53 * L x := by
  obtain ⟨d, f, f', q, h1, h2, h3, h4, h5⟩ := C78_history (nearest53_isRounding (K := ℚ)) (n := 2)
    (by norm_num) (d := prior) rfl (v := fun _ => 1 / 3) (by norm_num)
    (cs := [⟨some (sys, none), some (meas, (1 : Int), none)⟩]) (ss := [.move T, .observe L])
    (.cons (s1 := [.move T]) (s2 := [.observe L]) (ss := []) (.some transition) (.some likelihood)
      .nil)
    (by
      intro s hs
      simp only [List.mem_cons, List.not_mem_nil, or_false] at hs
      rcases hs with rfl | rfl
      · exact T_nonneg
      · exact L_nonneg)
    (by decide +kernel) (N := 17) rfl (by norm_num)
  refine ⟨d, f, f', q, h1, h2, h3, h4, fun x hx => ?_⟩
  have e : jointLast 2 (fun _ => (1 / 3 : ℚ)) [.move T, .observe L] x /
      historyEvidence 2 (fun _ => 1 / 3) [.move T, .observe L] = L x := by
    obtain rfl | rfl : x = 0 ∨ x = 1 := by omega
    · decide +kernel
    · decide +kernel
  have := h5 x hx
  rw [e] at this
  have e2 : 2 * (((17 : Nat) : ℚ) * (1 / 2 ^ 53)) = 34 / 2 ^ 53 := by norm_num
  rwa [e2] at this

/-- `C78_uniform` with 53 bits for two million states. -/
example : ∃ d q, Rounded.make nearest53 2000000 = .ok d ∧ d.probabilitiesGet = tab 2000000 q ∧
    ∀ x < 2000000, |q x - 1 / ((2000000 : Nat) : ℚ)| ≤ 1 / 2 ^ 53 * (1 / ((2000000 : Nat) : ℚ)) :=
  C78_uniform (nearest53_isRounding (K := ℚ)) (by norm_num) (by norm_num)

/-- The rounding is not the identity: 1/3 is not a binary fraction. -/
example : nearest53 (1 / 3 : ℚ) ≠ 1 / 3 := by
  unfold nearest53
  have : Int.log 2 |(1 / 3 : ℚ)| = -2 := by decide +kernel
  rw [this]
  decide +kernel

/-- `C78_underflow` with the smallest normal double. -/
example : ∃ (prior : DiscretePdf ℚ) (f f' : HistogramFilter ℚ) (m : Model Int Int ℚ),
    prior.probabilitiesGet = tab 2 (fun _ => 1 / 2) ∧
    Likelihood 2 m (0 : Int) none (fun _ => 1 / 2 ^ 1022) ∧
    0 < historyEvidence 2 (fun _ => 1 / 2) [Step.observe fun _ => (1 / 2 ^ 1022 : ℚ)] ∧
    Rounded.makeFilter (fun x => if |x| < 1 / 2 ^ 1022 then 0 else x) prior = .ok f ∧
    Rounded.run (fun x => if |x| < 1 / 2 ^ 1022 then 0 else x) f
      [⟨none, some (m, (0 : Int), none)⟩] = .ok (true, f') ∧
    f'.post.probabilitiesGet = tab 2 (fun _ => 0) :=
  C78_underflow (by positivity) (by decide +kernel) (fun _ => rfl) (by decide +kernel)

end BFL.Props
