import Verif.Lemmas.DiscretePdf
import Mathlib.Analysis.SpecialFunctions.Pow.Real
import Mathlib.MeasureTheory.Measure.Lebesgue.Basic
import Mathlib.Data.Rat.Init

/-!
# Properties C01-C06 of `DiscretePdf`
-/

set_option linter.unusedSectionVars false

namespace BFL.Props

open Spec DiscretePdf

variable {K : Type} [Field K] [LinearOrder K] [IsStrictOrderedRing K]

/-- A pdf object obtained by constructing a `DiscretePdf` and calling public operations that all
returned `true`. -/
def Reachable (d : DiscretePdf K) : Prop :=
  ∃ n d0 ops, make n = .ok d0 ∧ d0.run ops = .ok (true, d)

/-! ## C01 -/

/-- The constructor accepts exactly the positive numbers of states; `DiscretePdf(0)` aborts. -/
theorem C01_constructor (n : Nat) :
    (∃ d, make (K := K) n = .ok d) ↔ 0 < n := by
  constructor
  · rintro ⟨d, h⟩
    by_contra hn
    obtain rfl : n = 0 := by omega
    have : make (K := K) 0 = .abort := by
      have h0 : (1 : K) - numericPrecision > 0 := by
        unfold numericPrecision; norm_num
      unfold make
      simp only [List.range_zero, mapOutcome, Outcome.ok_bind]
      rw [cumUpdate_bad (by simpa using h0)]
      rfl
    rw [this] at h
    simp at h
  · intro hn
    exact ⟨_, make_eq hn⟩

theorem C01_history {n : Nat} {d0 d : DiscretePdf K} {ops : List (Op K)}
    (h0 : make n = .ok d0) (h : d0.run ops = .ok (true, d)) :
    IsDistribution d.probabilitiesGet ∧ d.probabilitiesGet.length = n ∧ d.numStates = n ∧
      ∀ (s : Nat) (hs : s < d.probabilitiesGet.length),
        d.probabilityGet s = .ok d.probabilitiesGet[s] := by
  have hn : 0 < n := (C01_constructor (K := K) n).1 ⟨_, h0⟩
  have hd0 := make_eq (K := K) hn
  rw [hd0] at h0
  simp only [Outcome.ok.injEq] at h0
  subst h0
  obtain ⟨g, l⟩ := run_good ⟨uniform_dist hn, rfl⟩ h
  have l' : d.values.length = n := by simpa using l
  exact ⟨g.1, l', l', fun s hs => probabilityGet_nat hs⟩

theorem Reachable.good {d : DiscretePdf K} (h : Reachable d) : Good d ∧ 0 < d.values.length := by
  obtain ⟨n, d0, ops, h0, h⟩ := h
  have hn : 0 < n := (C01_constructor (K := K) n).1 ⟨_, h0⟩
  rw [make_eq hn] at h0
  simp only [Outcome.ok.injEq] at h0
  subst h0
  obtain ⟨g, l⟩ := run_good ⟨uniform_dist hn, rfl⟩ h
  exact ⟨g, by rw [l]; simpa using hn⟩

/-- Every distribution is reached by `ProbabilitiesSet`, so statements about reachable objects
cover all distributions. -/
theorem C01_all_distributions_reachable {p : List K} (hp : IsDistribution p) :
    ∃ d, Reachable d ∧ d.probabilitiesGet = p := by
  have hn : 0 < p.length := by
    by_contra h
    have : p = [] := List.length_eq_zero_iff.1 (by omega)
    have := hp.2
    simp_all
  refine ⟨{ values := p, cum := runningSums 0 p }, ⟨p.length, _, [.probabilitiesSet p],
    make_eq hn, ?_⟩, rfl⟩
  have h1 : p.map (· / p.sum) = p := by simp [hp.2]
  have hs := probabilitiesSet_pos (K := K) (d := { values := List.replicate p.length (1 / (p.length : K)), cum := runningSums 0 (List.replicate p.length (1 / (p.length : K))) })
    (v := p) hp.1 (by simp) (by rw [hp.2]; exact one_pos)
  rw [h1] at hs
  simp only [run, step]
  rw [hs]
  rfl

/-- A constructed pdf describes the uniform distribution. -/
theorem C01_constructor_uniform {n : Nat} {d : DiscretePdf K} (h : make n = .ok d) :
    d.probabilitiesGet = List.replicate n (1 / (n : K)) := by
  have hn : 0 < n := (C01_constructor (K := K) n).1 ⟨_, h⟩
  rw [make_eq hn] at h
  simp only [Outcome.ok.injEq] at h
  subst h; rfl

/-- Concrete history: construct 3 states, set state 1 to 1/2, set all, copy. -/
example : ∃ d0 d : DiscretePdf ℚ, make 3 = .ok d0 ∧
    d0.run [.probabilitySet 1 (1/2), .probabilitiesSet [1, 2, 5], .copy, .probabilitySet 2 0]
      = .ok (true, d) ∧ d.probabilitiesGet = [1/3, 2/3, 0] := by
  refine ⟨⟨[1/3, 1/3, 1/3], [0, 1/3, 2/3, 1]⟩, ⟨[1/3, 2/3, 0], [0, 1/3, 1, 1]⟩, ?_, ?_, ?_⟩ <;>
    decide +kernel

/-! ## C02 -/

theorem C02_probabilitySet {d : DiscretePdf K} (hd : Reachable d) (hn : 2 ≤ d.numStates) {s : Nat}
    (hs : s < d.probabilitiesGet.length) {a : K} (h0 : 0 ≤ a) (h1 : a ≤ 1) :
    ∃ d', d.probabilitySet s a = .ok (true, d') ∧ Reachable d' ∧
      d'.probabilityGet s = .ok a ∧
      ∃ hl : d'.probabilitiesGet.length = d.probabilitiesGet.length,
      (d.probabilitiesGet[s] ≠ 1 → ∀ i (hi : i < d.probabilitiesGet.length), i ≠ s →
        d'.probabilitiesGet[i] =
          d.probabilitiesGet[i] * ((1 - a) / (1 - d.probabilitiesGet[s]))) ∧
      (d.probabilitiesGet[s] = 1 → ∀ i (hi : i < d.probabilitiesGet.length), i ≠ s →
        d'.probabilitiesGet[i] = (1 - a) / ((d.numStates : K) - 1)) := by
  obtain ⟨vs, he, hdist, hl, hv⟩ := probabilitySet_eq hd.good.1.1 hs hn h0 h1
  refine ⟨_, he, ?_, ?_, hl, ?_, ?_⟩
  · obtain ⟨n, d0, ops, hm, hr⟩ := hd
    refine ⟨n, d0, ops ++ [.probabilitySet s a], hm, ?_⟩
    have happ : ∀ (ops : List (Op K)) (d0 : DiscretePdf K), d0.run ops = .ok (true, d) →
        d0.run (ops ++ [.probabilitySet s a]) =
          .ok (true, { values := vs, cum := runningSums 0 vs }) := by
      intro ops
      induction ops with
      | nil =>
        intro d0 h
        simp only [run, Outcome.pure_eq, Outcome.ok.injEq, Prod.mk.injEq, true_and] at h
        subst h
        simp [run, step, he]
      | cons o os ih =>
        intro d0 h
        simp only [run, Outcome.bind_eq_ok] at h
        obtain ⟨⟨b, d1⟩, h1, ⟨bs, d2⟩, h2, h3⟩ := h
        simp only [Outcome.pure_eq, Outcome.ok.injEq, Prod.mk.injEq, Bool.and_eq_true] at h3
        obtain ⟨⟨rfl, rfl⟩, rfl⟩ := h3
        simp only [List.cons_append, run, h1, Outcome.ok_bind]
        rw [ih d1 h2]
        rfl
    exact happ ops d0 hr
  · have hs' : s < vs.length := by rw [hl]; exact hs
    rw [probabilityGet_nat (d := { values := vs, cum := runningSums 0 vs }) hs']
    congr 1
    simp only [hv]
    split <;> simp [rescaled, shared]
  · intro hne i hi his
    have hne' : d.values[s] ≠ 1 := hne
    rw [if_pos hne'] at hv
    simp only [hv, rescaled]
    rw [List.getElem_set_ne (by omega), List.getElem_map]
  · intro heq i hi his
    have heq' : ¬ d.values[s] ≠ 1 := by simpa using heq
    rw [if_neg heq'] at hv
    simp only [hv, shared]
    rw [List.getElem_set_ne (by omega), List.getElem_map]

/-- Odds of two other states are preserved. -/
theorem C02_odds {d d' : DiscretePdf K} (hd : Reachable d) {s : Nat}
    (hs : s < d.probabilitiesGet.length) {a : K}
    (h : d.probabilitySet s a = .ok (true, d')) (hne : d.probabilitiesGet[s] ≠ 1)
    {i j : Nat} (hi : i < d.probabilitiesGet.length) (hj : j < d.probabilitiesGet.length)
    (his : i ≠ s) (hjs : j ≠ s)
    (hi' : i < d'.probabilitiesGet.length) (hj' : j < d'.probabilitiesGet.length) :
    d'.probabilitiesGet[i] * d.probabilitiesGet[j] =
      d'.probabilitiesGet[j] * d.probabilitiesGet[i] := by
  obtain ⟨h0, h1, _⟩ := probabilitySet_inv h
  have hn : 2 ≤ d.numStates := by
    by_contra hc
    have : d.values.length = 1 := by
      have := hd.good.2
      simp only [numStates] at hc; omega
    rw [probabilitySet_single hd.good.1.1 this] at h
    simp at h
  obtain ⟨d1, he, _, _, hl, hr, _⟩ := C02_probabilitySet hd hn hs h0 h1
  rw [he] at h
  simp only [Outcome.ok.injEq, Prod.mk.injEq, true_and] at h
  subst h
  rw [hr hne i hi his, hr hne j hj hjs]
  ring

example : ∃ d : DiscretePdf ℚ, make 3 = .ok d ∧ 2 ≤ d.numStates ∧
    (d.probabilitySet 2 (1/2)) = .ok (true, ⟨[1/4, 1/4, 1/2], [0, 1/4, 1/2, 1]⟩) := by
  refine ⟨⟨[1/3, 1/3, 1/3], [0, 1/3, 2/3, 1]⟩, ?_, ?_, ?_⟩ <;> decide +kernel

/-- The claim fails for one state: `ProbabilitySet(0, 1)` on a one-state pdf aborts, although it
would not change anything. -/
theorem C02_single_state_aborts {d : DiscretePdf K} (hd : Reachable d) (hn : d.numStates = 1)
    (a : K) : d.probabilitySet 0 a = .abort :=
  probabilitySet_single hd.good.1.1 hn 0 a

example : ∃ d : DiscretePdf ℚ, make 1 = .ok d ∧ d.probabilitySet 0 1 = .abort := by
  refine ⟨⟨[1], [0, 1]⟩, ?_, ?_⟩ <;> decide +kernel

/-! ## C03 -/

/-- A rejected `ProbabilitiesSet` always destroys the probabilities: afterwards every state has
probability zero. -/
theorem C03_rejected_is_destructive {d d' : DiscretePdf K} {v : List K}
    (h : d.probabilitiesSet v = .ok (false, d')) :
    ∀ x ∈ d'.probabilitiesGet, x = 0 := by
  obtain ⟨hv, hl, _, h0⟩ := probabilitiesSet_inv h
  rw [probabilitiesSet_zero hv hl (h0 rfl)] at h
  simp only [Outcome.ok.injEq, Prod.mk.injEq, true_and] at h
  subst h
  intro x hx
  obtain ⟨i, hi, rfl⟩ := List.getElem_of_mem hx
  refine le_antisymm ?_ (hv _ hx)
  have := getElem_le_sum hv hi
  rwa [h0 rfl] at this

/-- The property as stated is false: for every reachable pdf a rejected call changes the
distribution. -/
theorem C03_false {d d' : DiscretePdf K} (hd : Reachable d) {v : List K}
    (h : d.probabilitiesSet v = .ok (false, d')) : d'.probabilitiesGet ≠ d.probabilitiesGet := by
  intro heq
  have h1 := hd.good.1.1.2
  have h2 := C03_rejected_is_destructive h
  rw [heq] at h2
  have : d.values.sum = 0 := List.sum_eq_zero h2
  rw [this] at h1
  exact zero_ne_one h1

/-- After the rejected call a state of probability zero is drawn. -/
theorem C03_witness : ∃ d d' : DiscretePdf ℚ, Reachable d ∧
    d.probabilitiesSet [0, 0] = .ok (false, d') ∧
    d'.sampleOne .default (1/4) = .ok (some 0) ∧ d'.probabilityGet 0 = .ok 0 :=
  ⟨⟨[1/2, 1/2], [0, 1/2, 1]⟩, ⟨[0, 0], [0, 1/2, 1]⟩, ⟨2, _, [], by decide +kernel, rfl⟩,
    by decide +kernel, by decide +kernel, by decide +kernel⟩

/-- What remains of C03: sampling is not affected by a rejected call. Missing: the probabilities
are lost. -/
theorem C03_sampling_unchanged_partial {d d' : DiscretePdf K} {v : List K}
    (h : d.probabilitiesSet v = .ok (false, d')) (m : SampleMthd) (u : K) :
    d'.sampleOne m u = d.sampleOne m u := by
  obtain ⟨hv, hl, _, h0⟩ := probabilitiesSet_inv h
  rw [probabilitiesSet_zero hv hl (h0 rfl)] at h
  simp only [Outcome.ok.injEq, Prod.mk.injEq, true_and] at h
  subst h
  unfold sampleOne numStates
  simp only [hl]

/-- A later accepted call repairs the object completely. -/
theorem C03_recovers {d d' : DiscretePdf K} {v w : List K}
    (h : d.probabilitiesSet v = .ok (false, d')) :
    d'.probabilitiesSet w = d.probabilitiesSet w ∨ w.sum = 0 := by
  obtain ⟨hv, hl, _, h0⟩ := probabilitiesSet_inv h
  rw [probabilitiesSet_zero hv hl (h0 rfl)] at h
  simp only [Outcome.ok.injEq, Prod.mk.injEq, true_and] at h
  subst h
  by_cases hw : w.sum = 0
  · exact Or.inr hw
  left
  by_cases hnn : ∀ x ∈ w, 0 ≤ x
  · have hpos : 0 < w.sum := lt_of_le_of_ne (sum_nonneg' hnn) (Ne.symm hw)
    by_cases hlen : w.length = d.values.length
    · rw [probabilitiesSet_pos hnn (hlen.trans hl.symm) hpos, probabilitiesSet_pos hnn hlen hpos]
    · unfold probabilitiesSet
      rw [mapOutcome_mkProb_eq_ok.2 ⟨hnn, rfl⟩]
      rw [Outcome.ok_bind, Outcome.ok_bind, cassert_false (c := w.length = d.numStates) hlen,
        cassert_false (by rw [numStates, hl]; exact hlen)]
  · unfold probabilitiesSet
    have : ∀ r, mapOutcome mkProb w ≠ .ok r := fun r hr =>
      hnn (mapOutcome_mkProb_eq_ok.1 hr).1
    cases hc : mapOutcome mkProb w with
    | ok r => exact absurd hc (this r)
    | abort => rfl
    | ub => rfl

/-! ## C04 -/

/-- Full statement: for every draw in `[0,1)` the result is the inversion. It fails at `u = 0`, see
`C04_zero_draw`; this theorem covers every other draw (and also `u = 1`). -/
theorem C04_inversion_partial {d : DiscretePdf K} (hd : Reachable d) {u : K} (h0 : 0 < u)
    (h1 : u ≤ 1) (i : Int) :
    d.sampleOne .default u = .ok (some i) ↔
      ∃ s : Nat, i = s ∧ Inverts d.probabilitiesGet u s := by
  obtain ⟨⟨hdist, hcum⟩, _⟩ := hd.good
  obtain ⟨s, hs⟩ := Inverts.exists (p := d.values) h0 (by rw [hdist.2]; exact h1)
  have h := sweep_runningSums hdist.1 hs (n := d.numStates) le_rfl
  have hv : d.sampleOne .default u = .ok (some (s : Int)) := by
    unfold sampleOne
    rw [hcum, h]
    simp
  rw [hv]
  simp only [Outcome.ok.injEq, Option.some.injEq]
  constructor
  · rintro rfl; exact ⟨s, rfl, hs⟩
  · rintro ⟨t, rfl, ht⟩
    rw [Inverts.unique hdist.1 hs ht]

/-- Every draw in `(0,1]` returns a valid state of positive probability. -/
theorem C04_valid_positive {d : DiscretePdf K} (hd : Reachable d) {u : K} (h0 : 0 < u)
    (h1 : u ≤ 1) :
    ∃ s : Nat, d.sampleOne .default u = .ok (some (s : Int)) ∧
      ∃ hs : s < d.probabilitiesGet.length, 0 < d.probabilitiesGet[s] := by
  obtain ⟨⟨hdist, hcum⟩, _⟩ := hd.good
  obtain ⟨s, hs⟩ := Inverts.exists (p := d.values) h0 (by rw [hdist.2]; exact h1)
  refine ⟨s, (C04_inversion_partial hd h0 h1 s).2 ⟨s, rfl, hs⟩, hs.1, ?_⟩
  have := massBelow_succ hs.1
  have h2 := hs.2.1
  have h3 := hs.2.2
  linarith

/-- The draws that select state `s` form an interval whose length is the probability of `s`. -/
theorem C04_interval {d : DiscretePdf K} (hd : Reachable d) {s : Nat}
    (hs : s < d.probabilitiesGet.length) :
    ∃ a b : K, b - a = d.probabilitiesGet[s] ∧ 0 ≤ a ∧ b ≤ 1 ∧
      ∀ u, 0 < u → u ≤ 1 →
        (d.sampleOne .default u = .ok (some (s : Int)) ↔ a < u ∧ u ≤ b) := by
  obtain ⟨⟨hdist, hcum⟩, _⟩ := hd.good
  refine ⟨massBelow d.values s, massBelow d.values (s + 1), ?_, ?_, ?_, ?_⟩
  · rw [massBelow_succ hs]; simp
  · simpa [massBelow] using massBelow_mono hdist.1 (Nat.zero_le s)
  · have := massBelow_mono hdist.1 (show s + 1 ≤ d.values.length from hs)
    rw [show massBelow d.values d.values.length = 1 by simp [massBelow, hdist.2]] at this
    exact this
  · intro u h0 h1
    rw [C04_inversion_partial hd h0 h1]
    constructor
    · rintro ⟨t, ht, hi⟩
      obtain rfl : s = t := by exact_mod_cast ht
      exact hi.2
    · intro h
      exact ⟨s, rfl, hs, h⟩

/-- For real numbers and a uniform draw from `[0,1)`, state `s` is returned with probability
exactly `ProbabilityGet(s)`. -/
theorem C04_law {d : DiscretePdf ℝ} (hd : Reachable d) {s : Nat}
    (hs : s < d.probabilitiesGet.length) :
    MeasureTheory.volume {u : ℝ | u ∈ Set.Ico 0 1 ∧ d.sampleOne .default u = .ok (some (s : Int))}
      = ENNReal.ofReal d.probabilitiesGet[s] := by
  obtain ⟨a, b, hab, ha, hb, hiff⟩ := C04_interval hd hs
  have hz : d.sampleOne .default 0 = .ok (some (-1)) := by
    obtain ⟨⟨hdist, hcum⟩, _⟩ := hd.good
    unfold sampleOne
    rw [hcum, sweep_runningSums_zero _ le_rfl]
    simp
  have hle : a ≤ b := by
    have h1 := hd.good.1.1.1 _ (List.getElem_mem hs)
    have h2 : (0:ℝ) ≤ d.probabilitiesGet[s] := h1
    linarith
  apply le_antisymm
  · calc _ ≤ MeasureTheory.volume (Set.Ioc a b) := by
          apply MeasureTheory.measure_mono
          rintro u ⟨⟨h0, h1⟩, h2⟩
          rcases eq_or_lt_of_le h0 with rfl | h0
          · rw [hz] at h2
            simp only [Outcome.ok.injEq, Option.some.injEq] at h2
            omega
          · exact (hiff u h0 h1.le).1 h2
      _ = _ := by rw [Real.volume_Ioc, hab]
  · calc ENNReal.ofReal d.probabilitiesGet[s] = MeasureTheory.volume (Set.Ioo a b) := by
          rw [Real.volume_Ioo, hab]
      _ ≤ _ := by
          apply MeasureTheory.measure_mono
          rintro u ⟨h1, h2⟩
          have hu0 : 0 < u := lt_of_le_of_lt ha h1
          have hu1 : u < 1 := lt_of_lt_of_le h2 hb
          exact ⟨⟨hu0.le, hu1⟩, (hiff u hu0 hu1.le).2 ⟨h1, h2.le⟩⟩

/-- The draw `u = 0`, which `runif()` can produce, returns the invalid state `-1` for every pdf. -/
theorem C04_zero_draw {d : DiscretePdf K} (hd : Reachable d) :
    d.sampleOne .default 0 = .ok (some (-1)) := by
  obtain ⟨⟨hdist, hcum⟩, _⟩ := hd.good
  unfold sampleOne
  rw [hcum, sweep_runningSums_zero _ le_rfl]
  simp

/-- Version that does not assume exact arithmetic: whatever numbers the cumulative table holds, a
draw above the first and at most the last entry returns a state `s` in range whose table entries
enclose the draw. -/
theorem C04_any_table (d : DiscretePdf K) (hlen : d.cum.length = d.numStates + 1) {u : K}
    (hfirst : ∀ c, d.cum[0]? = some c → c < u) (hlast : ∃ c ∈ d.cum, u ≤ c) :
    ∃ s : Nat, d.sampleOne .default u = .ok (some (s : Int)) ∧ s < d.numStates ∧
      ∃ lo hi, d.cum[s]? = some lo ∧ d.cum[s + 1]? = some hi ∧ lo < u ∧ u ≤ hi := by
  obtain ⟨c, hc, huc⟩ := hlast
  obtain ⟨k, hk, rfl⟩ := List.getElem_of_mem hc
  classical
  have hex : ∃ m, ∃ h : m < d.cum.length, u ≤ d.cum[m] := ⟨k, hk, huc⟩
  obtain ⟨hm, hum⟩ := Nat.find_spec hex
  have hmin := fun j => Nat.find_min hex (m := j)
  set m := Nat.find hex
  have hm0 : m ≠ 0 := by
    intro h0
    have h1 : 0 < d.cum.length := by omega
    have h2 := hfirst d.cum[0] (by simp [h1])
    have h3 : d.cum[m] = d.cum[0] := by congr 1
    rw [h3] at hum
    exact absurd hum (not_le.2 h2)
  obtain ⟨s, hs⟩ := Nat.exists_eq_succ_of_ne_zero hm0
  have hlt : ∀ j (hj : j < m), d.cum[j] < u := by
    intro j hj
    by_contra hc
    exact hmin j hj ⟨by omega, not_lt.1 hc⟩
  have hsw := sweep_ok (n := d.numStates) (k := 0) hm hum hlt (by omega)
  refine ⟨s, ?_, by omega, d.cum[s], d.cum[s + 1], by simp [show s < d.cum.length by omega],
    by simp [show s + 1 < d.cum.length by omega], hlt s (by omega), ?_⟩
  · unfold sampleOne
    rw [hsw]
    simp only [Outcome.ok_bind, Outcome.pure_eq, Outcome.ok.injEq, Option.some.injEq]
    omega
  · have h3 : d.cum[m] = d.cum[s + 1] := by congr 1
    rw [← h3]; exact hum

/-- A draw above every table entry reads past the end of the table. -/
theorem C04_beyond_table (d : DiscretePdf K) (hlen : d.cum.length = d.numStates + 1) {u : K}
    (h : ∀ c ∈ d.cum, c < u) : d.sampleOne .default u = .ub := by
  unfold sampleOne
  rw [sweep_ub h (by omega)]
  rfl

/-- Sampling methods other than DEFAULT are refused by the single draw. -/
theorem C04_other_methods (d : DiscretePdf K) {m : SampleMthd} (hm : m ≠ .default) (u : K) :
    d.sampleOne m u = .ok none := by
  cases m <;> first | exact absurd rfl hm | rfl

example : ∃ d : DiscretePdf ℚ, Reachable d ∧ d.probabilitiesGet = [1/8, 0, 7/8] ∧
    d.sampleOne .default (1/8) = .ok (some 0) ∧ d.sampleOne .default (1/4) = .ok (some 2) :=
  ⟨⟨[1/8, 0, 7/8], [0, 1/8, 1/8, 1]⟩,
    ⟨3, ⟨[1/3, 1/3, 1/3], [0, 1/3, 2/3, 1]⟩, [.probabilitiesSet [1, 0, 7]], by decide +kernel,
      by decide +kernel⟩, rfl, by decide +kernel, by decide +kernel⟩

/-! ## C05 -/

/-- Specification of the ordered uniforms: the `i`-th one is the product of the `(j+1)`-th roots
of the draws `u_j`, `j >= i`. -/
def orderedUniform (root : Nat → K → K) (us : List K) (i : Nat) : K :=
  ((us.drop i).mapIdx fun m u => root (i + m + 1) u).prod

/-- The ordered uniforms are non-decreasing and lie in the unit interval. -/
theorem C05_ordered {root : Nat → K → K}
    (hroot : ∀ k x, 0 ≤ x → x ≤ 1 → 0 ≤ root k x ∧ root k x ≤ 1) {us : List K}
    (hus : ∀ u ∈ us, 0 ≤ u ∧ u ≤ 1) {i j : Nat} (hij : i ≤ j) (hj : j < us.length) :
    0 ≤ orderedUniform root us i ∧ orderedUniform root us i ≤ orderedUniform root us j ∧
      orderedUniform root us j ≤ 1 := by
  obtain ⟨hb, hs⟩ := orderedUniforms_bounds hroot 0 us hus
  have hl := orderedUniforms_length root 0 us
  have hget : ∀ k (hk : k < us.length), orderedUniform root us k =
      (orderedUniforms root 0 us)[k] := by
    intro k hk
    rw [orderedUniforms_getElem root 0 us k hk (by omega)]
    simp [orderedUniform]
  rw [hget i (by omega), hget j hj]
  refine ⟨(hb _ (List.getElem_mem _)).1, ?_, (hb _ (List.getElem_mem _)).2⟩
  rcases eq_or_lt_of_le hij with rfl | hlt
  · exact le_rfl
  · exact (List.pairwise_iff_getElem.1 hs) i j (by omega) (by omega) hlt

/-- The one-sweep RIPLEY algorithm equals separate look-ups: with at least one draw it returns the
list of DEFAULT single draws at the ordered uniforms, including all failure outcomes. -/
theorem C05_equals_lookups {root : Nat → K → K}
    (hroot : ∀ k x, 0 ≤ x → x ≤ 1 → 0 ≤ root k x ∧ root k x ≤ 1) (d : DiscretePdf K) {us : List K}
    (hne : us ≠ []) (hus : ∀ u ∈ us, 0 ≤ u ∧ u ≤ 1) :
    d.sampleList root .ripley us =
      d.sampleList root .default (List.ofFn fun i : Fin us.length => orderedUniform root us i) := by
  obtain ⟨hb, hs⟩ := orderedUniforms_bounds hroot 0 us hus
  have hl := orderedUniforms_length root 0 us
  have he : (List.ofFn fun i : Fin us.length => orderedUniform root us i) =
      orderedUniforms root 0 us := by
    apply List.ext_getElem
    · simp
    · intro k h1 h2
      rw [orderedUniforms_getElem root 0 us k (by omega) h2]
      simp [orderedUniform]
  rw [he]
  unfold sampleList
  simp only [hne, if_false]
  rw [sweepAll_eq hs, ← mapOutcome_map]
  cases mapOutcome (fun u => sweep d.numStates u 0 d.cum) (orderedUniforms root 0 us) <;> simp

/-- For draws in `(0,1]` the call returns exactly `N` samples and sample `i` is the inversion of
the `i`-th ordered uniform. Full statement: all draws in `[0,1)`; missing: a draw equal to 0, where
`C05_zero_draw` shows that the first sample is the invalid state -1. -/
theorem C05_inversions_partial {root : Nat → K → K}
    (hroot : ∀ k x, 0 ≤ x → x ≤ 1 → 0 ≤ root k x ∧ root k x ≤ 1)
    (hpos : ∀ k x, 0 < x → 0 < root k x)
    {d : DiscretePdf K} (hd : Reachable d) {us : List K}
    (hne : us ≠ []) (hus : ∀ u ∈ us, 0 < u ∧ u ≤ 1) :
    ∃ ss : List Int, d.sampleList root .ripley us = .ok (some ss) ∧
      ∃ hl : ss.length = us.length, ∀ i (hi : i < us.length),
        ∃ s : Nat, ss[i] = s ∧ Inverts d.probabilitiesGet (orderedUniform root us i) s := by
  have hus' : ∀ u ∈ us, 0 ≤ u ∧ u ≤ 1 := fun u hu => ⟨(hus u hu).1.le, (hus u hu).2⟩
  obtain ⟨⟨hdist, hcum⟩, _⟩ := hd.good
  have hpos' : ∀ i, i < us.length → 0 < orderedUniform root us i := by
    intro i hi
    unfold orderedUniform
    apply List.prod_pos
    intro x hx
    rw [List.mem_mapIdx] at hx
    obtain ⟨m, hm, rfl⟩ := hx
    have hmem : (us.drop i)[m] ∈ us := List.mem_of_mem_drop (List.getElem_mem hm)
    exact hpos _ _ (hus _ hmem).1
  have hle : ∀ i, i < us.length → orderedUniform root us i ≤ 1 := fun i hi =>
    (C05_ordered hroot hus' le_rfl hi).2.2
  choose f hf using fun (u : {u : K // 0 < u ∧ u ≤ 1}) =>
    Inverts.exists (p := d.values) u.2.1 (by rw [hdist.2]; exact u.2.2)
  let g : K → Nat := fun u => if h : 0 < u ∧ u ≤ 1 then f ⟨u, h⟩ else 0
  have hg : ∀ i, i < us.length → Inverts d.values (orderedUniform root us i)
      (g (orderedUniform root us i)) := by
    intro i hi
    have h : 0 < orderedUniform root us i ∧ orderedUniform root us i ≤ 1 := ⟨hpos' i hi, hle i hi⟩
    simp only [g, h, and_self, dif_pos]
    exact hf ⟨_, h⟩
  rw [C05_equals_lookups hroot d hne hus']
  set ws := List.ofFn fun i : Fin us.length => orderedUniform root us i with hws
  have hm : mapOutcome (fun u => sweep d.numStates u 0 d.cum) ws =
      .ok (ws.map fun u => (g u + 1, (runningSums 0 d.values).drop (g u + 1))) := by
    apply mapOutcome_eq_ok
    intro w hw
    rw [hws, List.mem_ofFn] at hw
    obtain ⟨i, rfl⟩ := hw
    rw [hcum]
    exact sweep_runningSums hdist.1 (hg i i.2) le_rfl
  refine ⟨ws.map fun u => (g u : Int), ?_, by simp [hws], ?_⟩
  · unfold sampleList
    simp only [hm, Outcome.ok_bind, Outcome.pure_eq, List.map_map]
    congr 2
    apply List.map_congr_left
    intro w _
    simp
  · intro i hi
    refine ⟨g (orderedUniform root us i), by simp [hws], hg i hi⟩

/-- RIPLEY with zero samples requested is undefined behaviour (write to element -1). -/
theorem C05_zero_samples (root : Nat → K → K) (d : DiscretePdf K) :
    d.sampleList root .ripley [] = .ub := rfl

/-- If the draw `u_0` is 0 the first returned sample is the invalid state `-1`. -/
theorem C05_zero_draw {root : Nat → K → K} (hroot0 : ∀ k, 0 < k → root k 0 = 0)
    (hroot : ∀ k x, 0 ≤ x → x ≤ 1 → 0 ≤ root k x ∧ root k x ≤ 1)
    {d : DiscretePdf K} (hd : Reachable d) {us : List K} (hus : ∀ u ∈ us, 0 ≤ u ∧ u ≤ 1)
    {ss : List Int} (h : d.sampleList root .ripley (0 :: us) = .ok (some ss)) :
    ss.head? = some (-1) := by
  obtain ⟨⟨hdist, hcum⟩, _⟩ := hd.good
  rw [C05_equals_lookups hroot d (by simp) (by simpa using hus)] at h
  have h0 : orderedUniform root (0 :: us) 0 = 0 := by
    simp [orderedUniform, hroot0]
  simp only [List.length_cons, List.ofFn_succ, sampleList, Fin.val_zero, h0, mapOutcome] at h
  rw [hcum, sweep_runningSums_zero _ le_rfl] at h
  simp only [Outcome.ok_bind, bind_assoc, Outcome.bind_eq_ok, Outcome.pure_eq, Outcome.ok.injEq,
    Option.some.injEq] at h
  obtain ⟨r, _, rfl⟩ := h
  simp

/-- The real power function used by the code, `root k x = pow(x, 1.0/k)`, satisfies the assumptions
made on `root` in the theorems above. -/
theorem C05_pow_ok :
    (∀ (k : Nat) (x : ℝ), 0 ≤ x → x ≤ 1 → 0 ≤ x ^ (1 / (k : ℝ)) ∧ x ^ (1 / (k : ℝ)) ≤ 1) ∧
    (∀ (k : Nat) (x : ℝ), 0 < x → 0 < x ^ (1 / (k : ℝ))) ∧
    (∀ k : Nat, 0 < k → (0 : ℝ) ^ (1 / (k : ℝ)) = 0) := by
  refine ⟨fun k x h0 h1 => ⟨Real.rpow_nonneg h0 _, Real.rpow_le_one h0 h1 (by positivity)⟩,
    fun k x h0 => Real.rpow_pos_of_pos h0 _, fun k hk => Real.zero_rpow ?_⟩
  have : (0 : ℝ) < k := by exact_mod_cast hk
  positivity

/-- The largest ordered uniform has the distribution function of the maximum of `N` independent
uniforms: it is at most `x` exactly when the draw is at most `x^N`. -/
theorem C05_max_law {us : List ℝ} (hne : us ≠ []) (hus : ∀ u ∈ us, 0 ≤ u) {x : ℝ} (hx : 0 ≤ x) :
    orderedUniform (fun k u => u ^ (1 / (k : ℝ))) us (us.length - 1) ≤ x ↔
      us.getLast hne ≤ x ^ us.length := by
  have hlen : 0 < us.length := List.length_pos_iff.2 hne
  have hd : us.drop (us.length - 1) = [us.getLast hne] := List.drop_length_sub_one hne
  have hu : 0 ≤ us.getLast hne := hus _ (List.getLast_mem hne)
  have hk : us.length - 1 + 0 + 1 = us.length := by omega
  simp only [orderedUniform, hd, List.mapIdx_cons, List.mapIdx_nil, List.prod_cons, List.prod_nil,
    mul_one, hk]
  have hN : (0 : ℝ) < us.length := by exact_mod_cast hlen
  rw [one_div, Real.rpow_inv_le_iff_of_pos hu hx hN, Real.rpow_natCast]

example : ∃ d : DiscretePdf ℚ, Reachable d ∧ d.probabilitiesGet = [1/8, 0, 7/8] ∧
    d.sampleList (fun _ x => x) .ripley [1/8, 1/2, 1/3] = .ok (some [0, 2, 2]) ∧
    d.sampleList (fun _ x => x) .ripley [0, 1/2, 1/3] = .ok (some [-1, 2, 2]) :=
  ⟨⟨[1/8, 0, 7/8], [0, 1/8, 1/8, 1]⟩,
    ⟨3, ⟨[1/3, 1/3, 1/3], [0, 1/3, 2/3, 1]⟩, [.probabilitiesSet [1, 0, 7]], by decide +kernel,
      by decide +kernel⟩, rfl, by decide +kernel, by decide +kernel⟩

/-! ## C06 -/

theorem C06_argmax {d : DiscretePdf K} (hd : Reachable d) :
    ∃ s : Nat, d.mostProbableStateGet = s ∧ ∃ hs : s < d.probabilitiesGet.length,
      (∀ x ∈ d.probabilitiesGet, x ≤ d.probabilitiesGet[s]) ∧
      ∀ j (hj : j < d.probabilitiesGet.length), s < j →
        d.probabilitiesGet[j] < d.probabilitiesGet[s] := by
  obtain ⟨⟨hdist, _⟩, hn⟩ := hd.good
  rcases mostProbableLoop_spec d.values 0 (-1) 0 with ⟨_, h⟩ | ⟨m, hm, h1, h2, h3, h4⟩
  · exact absurd (h _ (List.getElem_mem hn)) (not_lt.2 (hdist.1 _ (List.getElem_mem hn)))
  · exact ⟨m, by rw [Nat.zero_add] at h1; exact h1, hm, h3, h4⟩

example : ∃ d : DiscretePdf ℚ, Reachable d ∧ d.probabilitiesGet = [2/5, 1/5, 2/5] ∧
    d.mostProbableStateGet = 2 :=
  ⟨⟨[2/5, 1/5, 2/5], [0, 2/5, 3/5, 1]⟩,
    ⟨3, ⟨[1/3, 1/3, 1/3], [0, 1/3, 2/3, 1]⟩, [.probabilitiesSet [2, 1, 2]], by decide +kernel,
      by decide +kernel⟩, rfl, by decide +kernel⟩

end BFL.Props
