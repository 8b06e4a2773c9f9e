import Verif.Model.DiscretePdf
import Verif.Lemmas.Table

/-! Helper lemmas for `DiscretePdf`. -/

set_option linter.unusedSectionVars false

namespace BFL

open Spec

variable {K : Type} [Field K] [LinearOrder K] [IsStrictOrderedRing K]

theorem numericPrecision_pos : (0 : K) < numericPrecision := by
  unfold numericPrecision; positivity

theorem sum_map_mul_right (l : List K) (c : K) : (l.map (· * c)).sum = l.sum * c := by
  induction l with
  | nil => simp
  | cons x xs ih => simp [ih, add_mul]

theorem sum_map_div (l : List K) (c : K) : (l.map (· / c)).sum = l.sum / c := by
  simpa [div_eq_mul_inv] using sum_map_mul_right l c⁻¹

theorem sum_set {l : List K} {i : Nat} (hi : i < l.length) (a : K) :
    (l.set i a).sum = l.sum - l[i] + a := by
  induction l generalizing i with
  | nil => simp at hi
  | cons x xs ih =>
    cases i with
    | zero => simp; ring
    | succ i =>
      simp only [List.set_cons_succ, List.sum_cons, List.getElem_cons_succ]
      rw [ih (by simpa using hi)]
      ring

theorem getElem_le_sum {l : List K} (h : ∀ x ∈ l, 0 ≤ x) {i : Nat} (hi : i < l.length) :
    l[i] ≤ l.sum := List.single_le_sum h _ (List.getElem_mem hi)

theorem sum_nonneg' {l : List K} (h : ∀ x ∈ l, 0 ≤ x) : 0 ≤ l.sum := List.sum_nonneg h

/-- When one entry carries the whole mass the others are zero. -/
theorem other_zero {l : List K} (h : ∀ x ∈ l, 0 ≤ x) {i j : Nat} (hi : i < l.length)
    (hj : j < l.length) (hij : i ≠ j) (hs : l.sum = l[i]) : l[j] = 0 := by
  have h2 : ∀ x ∈ l.set i 0, 0 ≤ x := by
    intro x hx
    rcases List.mem_or_eq_of_mem_set hx with hx | rfl
    · exact h x hx
    · exact le_rfl
  have h3 : (l.set i 0).sum = 0 := by rw [sum_set hi, hs]; ring
  have h4 := getElem_le_sum h2 (i := j) (by simpa using hj)
  rw [h3, List.getElem_set_ne hij] at h4
  exact le_antisymm h4 (h _ (List.getElem_mem hj))

namespace DiscretePdf

/-- The invariant: the values are a distribution and the table holds their running sums. -/
def Good (d : DiscretePdf K) : Prop :=
  IsDistribution d.values ∧ d.cum = runningSums 0 d.values

theorem cumUpdate_of_sum {d : DiscretePdf K} (h : d.values.sum = 1) :
    d.cumUpdate = .ok (true, { d with cum := runningSums 0 d.values }) := by
  have h1 : vget (runningSums 0 d.values) d.numStates = .ok 1 := by
    rw [vget_eq_ok, numStates, runningSums_getElem? _ _ _ le_rfl]
    simp [h]
  have hp := numericPrecision_pos (K := K)
  have h2 : cassert ((1 : K) - numericPrecision ≤ 1 ∧ (1 : K) ≤ 1 + numericPrecision) = .ok () := by
    rw [cassert_eq_ok]
    constructor <;> linarith
  unfold cumUpdate
  rw [h1, Outcome.ok_bind, h2, Outcome.ok_bind, setLast_runningSums h]
  rfl

/-- `CumPDFUpdate` never returns `false`. -/
theorem cumUpdate_ok {d d' : DiscretePdf K} {b : Bool} (h : d.cumUpdate = .ok (b, d')) :
    b = true ∧ d'.values = d.values ∧ d'.cum = setLast (runningSums 0 d.values) 1 := by
  simp only [cumUpdate, Outcome.bind_eq_ok, Outcome.pure_eq, Outcome.ok.injEq] at h
  obtain ⟨t, _, u, _, h3⟩ := h
  simp only [Prod.mk.injEq] at h3
  obtain ⟨h3, rfl⟩ := h3
  exact ⟨h3.symm, rfl, rfl⟩

theorem cumUpdate_bad {d : DiscretePdf K} (h : d.values.sum < 1 - numericPrecision) :
    d.cumUpdate = .abort := by
  have h1 : vget (runningSums 0 d.values) d.numStates = .ok d.values.sum := by
    rw [vget_eq_ok, numStates, runningSums_getElem? _ _ _ le_rfl]
    simp
  unfold cumUpdate
  rw [h1, Outcome.ok_bind, cassert_false (fun h' => absurd h'.1 (not_le.2 h))]
  rfl

theorem good_of_cumUpdate {d d' : DiscretePdf K} {b : Bool} (hd : IsDistribution d.values)
    (h : d.cumUpdate = .ok (b, d')) : b = true ∧ Good d' ∧ d'.values = d.values := by
  rw [cumUpdate_of_sum hd.2] at h
  simp only [Outcome.ok.injEq, Prod.mk.injEq] at h
  obtain ⟨rfl, rfl⟩ := h
  exact ⟨rfl, ⟨hd, rfl⟩, rfl⟩

theorem make_eq {n : Nat} (hn : 0 < n) :
    make (K := K) n = .ok { values := List.replicate n (1 / (n : K)),
                            cum := runningSums 0 (List.replicate n (1 / (n : K))) } := by
  have hn' : (0 : K) < n := by exact_mod_cast hn
  have h1 : mapOutcome (fun _ => divProb 1 (n : K)) (List.range n) =
      .ok (List.replicate n (1 / (n : K))) := by
    rw [mapOutcome_eq_ok (g := fun _ => 1 / (n : K))
      (fun _ _ => divProb_of hn'.ne' (by positivity))]
    simp
  have hs : (List.replicate n (1 / (n : K))).sum = 1 := by
    rw [List.sum_replicate, nsmul_eq_mul]; field_simp
  unfold make
  rw [h1, Outcome.ok_bind, cumUpdate_of_sum hs]
  rfl

theorem uniform_dist {n : Nat} (hn : 0 < n) :
    IsDistribution (List.replicate n (1 / (n : K))) := by
  have hn' : (0 : K) < n := by exact_mod_cast hn
  refine ⟨?_, ?_⟩
  · intro x hx
    rw [List.mem_replicate] at hx
    rw [hx.2]; positivity
  · rw [List.sum_replicate, nsmul_eq_mul]; field_simp

/-- Values written by `ProbabilitySet` when the state did not hold all the mass. -/
def rescaled (vs : List K) (s : Nat) (a old : K) : List K :=
  (vs.map fun v => v * ((1 - a) / (1 - old))).set s a

/-- Values written by `ProbabilitySet` when the state held all the mass. -/
def shared (vs : List K) (s : Nat) (a : K) : List K :=
  (vs.map fun _ => (1 - a) / ((vs.length : K) - 1)).set s a

theorem probabilityGet_nat {d : DiscretePdf K} {s : Nat} (hs : s < d.values.length) :
    d.probabilityGet (s : Int) = .ok d.values[s] := by
  have h1 : (0 : Int) ≤ s ∧ (s : Int) < d.numStates := by
    constructor
    · exact Int.natCast_nonneg _
    · unfold numStates; exact_mod_cast hs
  unfold probabilityGet
  rw [cassert_true h1, Outcome.ok_bind]
  simpa using vget_of_lt hs

/-- Complete behaviour of `ProbabilitySet` on a valid pdf with at least two states. -/
theorem probabilitySet_eq {d : DiscretePdf K} (hd : IsDistribution d.values) {s : Nat}
    (hs : s < d.values.length) (hn : 2 ≤ d.values.length) {a : K} (h0 : 0 ≤ a) (h1 : a ≤ 1) :
    ∃ vs, d.probabilitySet (s : Int) a = .ok (true, { values := vs, cum := runningSums 0 vs }) ∧
      IsDistribution vs ∧ vs.length = d.values.length ∧
      vs = (if d.values[s] ≠ 1 then rescaled d.values s a d.values[s]
            else shared d.values s a) := by
  have hr : (0 : Int) ≤ s ∧ (s : Int) < d.numStates := by
    constructor
    · exact Int.natCast_nonneg _
    · unfold numStates; exact_mod_cast hs
  have hle : d.values[s] ≤ 1 := by
    have := getElem_le_sum hd.1 hs
    rwa [hd.2] at this
  have hn1 : (0 : K) < (d.values.length : K) - 1 := by
    have : (2 : K) ≤ d.values.length := by exact_mod_cast hn
    linarith
  have key : ∀ vs : List K, vs.sum = 1 →
      cumUpdate { d with values := vs } = .ok (true, { values := vs, cum := runningSums 0 vs }) :=
    fun vs h => cumUpdate_of_sum (d := { d with values := vs }) h
  unfold probabilitySet
  rw [mkProb_of_nonneg h0, Outcome.ok_bind, cassert_true hr, Outcome.ok_bind, cassert_true h1,
    Outcome.ok_bind, probabilityGet_nat hs, Outcome.ok_bind]
  by_cases hold : d.values[s] ≠ 1
  · have hpos : 0 < 1 - d.values[s] := by
      have := lt_of_le_of_ne hle hold
      linarith
    have hf : 0 ≤ (1 - a) / (1 - d.values[s]) := div_nonneg (by linarith) hpos.le
    have hm : mapOutcome (fun v => mkProb (v * ((1 - a) / (1 - d.values[s])))) d.values =
        .ok (d.values.map fun v => v * ((1 - a) / (1 - d.values[s]))) :=
      mapOutcome_eq_ok fun v hv => mkProb_of_nonneg (mul_nonneg (hd.1 v hv) hf)
    have hdist : IsDistribution (rescaled d.values s a d.values[s]) := by
      refine ⟨?_, ?_⟩
      · intro x hx
        rcases List.mem_or_eq_of_mem_set hx with hx | rfl
        · obtain ⟨v, hv, rfl⟩ := List.mem_map.1 hx
          exact mul_nonneg (hd.1 v hv) hf
        · exact h0
      · unfold rescaled
        rw [sum_set (by simpa using hs), sum_map_mul_right, hd.2, List.getElem_map]
        field_simp
        ring
    refine ⟨rescaled d.values s a d.values[s], ?_, hdist, by simp [rescaled], by simp [hold]⟩
    rw [if_pos hold, hm, Outcome.ok_bind, Int.toNat_natCast]
    beta_reduce
    rw [vset_of_lt (by simpa using hs), Outcome.ok_bind]
    exact key _ hdist.2
  · have hf : 0 ≤ (1 - a) / ((d.values.length : K) - 1) := div_nonneg (by linarith) hn1.le
    have hm : mapOutcome (fun _ => divProb (1 - a) ((d.numStates : K) - 1)) d.values =
        .ok (d.values.map fun _ => (1 - a) / ((d.values.length : K) - 1)) :=
      mapOutcome_eq_ok fun v _ => divProb_of hn1.ne' hf
    have hdist : IsDistribution (shared d.values s a) := by
      refine ⟨?_, ?_⟩
      · intro x hx
        rcases List.mem_or_eq_of_mem_set hx with hx | rfl
        · obtain ⟨v, hv, rfl⟩ := List.mem_map.1 hx
          exact hf
        · exact h0
      · unfold shared
        rw [sum_set (by simpa using hs), List.getElem_map]
        simp only [List.map_const', List.sum_replicate, nsmul_eq_mul]
        field_simp
        ring
    refine ⟨shared d.values s a, ?_, hdist, by simp [shared], by simp [hold]⟩
    rw [if_neg hold, hm, Outcome.ok_bind, Int.toNat_natCast]
    beta_reduce
    rw [vset_of_lt (by simpa using hs), Outcome.ok_bind]
    exact key _ hdist.2

/-- With a single state `ProbabilitySet` can only end in an abort. -/
theorem probabilitySet_single {d : DiscretePdf K} (hd : IsDistribution d.values)
    (hn : d.values.length = 1) (s : Int) (a : K) : d.probabilitySet s a = .abort := by
  unfold probabilitySet
  by_cases h0 : 0 ≤ a
  · rw [mkProb_of_nonneg h0, Outcome.ok_bind]
    by_cases hr : 0 ≤ s ∧ s < d.numStates
    · rw [cassert_true hr, Outcome.ok_bind]
      by_cases h1 : a ≤ 1
      · rw [cassert_true h1, Outcome.ok_bind]
        obtain ⟨v, hv⟩ := List.length_eq_one_iff.1 hn
        have hv1 : v = 1 := by have := hd.2; rw [hv] at this; simpa using this
        have hs : s = ((0 : Nat) : Int) := by
          have := hr.2; unfold numStates at this; rw [hn] at this; omega
        have h00 : 0 < d.values.length := by omega
        rw [hs, probabilityGet_nat h00, Outcome.ok_bind]
        have : d.values[0] = 1 := by simp [hv, hv1]
        rw [if_neg (by simp [this])]
        rw [mapOutcome_eq_abort (by simp [hv]) (fun x _ => by simp [numStates, hn, divProb_zero])]
        rfl
      · rw [cassert_false h1]; rfl
    · rw [cassert_false hr]; rfl
  · rw [mkProb_of_neg (not_le.1 h0)]; rfl

theorem normalizeProbs_pos {d : DiscretePdf K} (hd : ∀ x ∈ d.values, 0 ≤ x)
    (h : 0 < d.values.sum) :
    d.normalizeProbs = .ok (true, { d with values := d.values.map (· / d.values.sum) }) := by
  unfold normalizeProbs
  rw [if_pos h, mapOutcome_eq_ok (g := (· / d.values.sum))
    (fun v hv => divProb_of h.ne' (div_nonneg (hd v hv) h.le))]
  rfl

theorem normalized_dist {v : List K} (hv : ∀ x ∈ v, 0 ≤ x) (h : 0 < v.sum) :
    IsDistribution (v.map (· / v.sum)) := by
  refine ⟨?_, ?_⟩
  · intro x hx
    obtain ⟨y, hy, rfl⟩ := List.mem_map.1 hx
    exact div_nonneg (hv y hy) h.le
  · rw [sum_map_div, div_self h.ne']

/-- `ProbabilitiesSet` on acceptable input. -/
theorem probabilitiesSet_pos {d : DiscretePdf K} {v : List K} (hv : ∀ x ∈ v, 0 ≤ x)
    (hl : v.length = d.values.length) (h : 0 < v.sum) :
    d.probabilitiesSet v = .ok (true, { values := v.map (· / v.sum),
                                        cum := runningSums 0 (v.map (· / v.sum)) }) := by
  unfold probabilitiesSet
  rw [mapOutcome_mkProb_eq_ok.2 ⟨hv, rfl⟩, Outcome.ok_bind,
    cassert_true (by exact hl), Outcome.ok_bind,
    normalizeProbs_pos (d := { d with values := v }) hv h, Outcome.ok_bind]
  exact cumUpdate_of_sum (d := { d with values := v.map (· / v.sum) }) (normalized_dist hv h).2

/-- `ProbabilitiesSet` with an all-zero vector. -/
theorem probabilitiesSet_zero {d : DiscretePdf K} {v : List K} (hv : ∀ x ∈ v, 0 ≤ x)
    (hl : v.length = d.values.length) (h : v.sum = 0) :
    d.probabilitiesSet v = .ok (false, { d with values := v }) := by
  unfold probabilitiesSet
  rw [mapOutcome_mkProb_eq_ok.2 ⟨hv, rfl⟩, Outcome.ok_bind,
    cassert_true (by exact hl), Outcome.ok_bind]
  unfold normalizeProbs
  simp [h]

theorem probabilitiesSet_inv {d d' : DiscretePdf K} {v : List K} {b : Bool}
    (h : d.probabilitiesSet v = .ok (b, d')) :
    (∀ x ∈ v, 0 ≤ x) ∧ v.length = d.values.length ∧
      (b = true → 0 < v.sum) ∧ (b = false → v.sum = 0) := by
  have h' := h
  unfold probabilitiesSet at h'
  rw [Outcome.bind_eq_ok] at h'
  obtain ⟨w, hw, h'⟩ := h'
  rw [mapOutcome_mkProb_eq_ok] at hw
  obtain ⟨hv, rfl⟩ := hw
  rw [Outcome.bind_eq_ok] at h'
  obtain ⟨_, hc, _⟩ := h'
  rw [cassert_eq_ok] at hc
  have hl : w.length = d.values.length := hc
  refine ⟨hv, hl, ?_, ?_⟩
  · intro hb
    by_contra hn
    have h0 : w.sum = 0 := le_antisymm (not_lt.1 hn) (sum_nonneg' hv)
    rw [probabilitiesSet_zero hv hl h0] at h
    simp [hb] at h
  · intro hb
    by_contra hn
    have h0 : 0 < w.sum := lt_of_le_of_ne (sum_nonneg' hv) (Ne.symm hn)
    rw [probabilitiesSet_pos hv hl h0] at h
    simp [hb] at h

theorem probabilitySet_inv {d d' : DiscretePdf K} {s : Int} {a : K} {b : Bool}
    (h : d.probabilitySet s a = .ok (b, d')) :
    0 ≤ a ∧ a ≤ 1 ∧ ∃ n : Nat, s = n ∧ n < d.values.length := by
  unfold probabilitySet at h
  rw [Outcome.bind_eq_ok] at h
  obtain ⟨a', ha, h⟩ := h
  rw [mkProb_eq_ok] at ha
  obtain ⟨h0, rfl⟩ := ha
  rw [Outcome.bind_eq_ok] at h
  obtain ⟨_, hr, h⟩ := h
  rw [Outcome.bind_eq_ok] at h
  obtain ⟨_, h1, _⟩ := h
  rw [cassert_eq_ok] at hr h1
  unfold numStates at hr
  exact ⟨h0, h1, s.toNat, by omega, by omega⟩

theorem copy_good {d : DiscretePdf K} (h : Good d) : d.copy = .ok d := by
  unfold copy
  rw [cumUpdate_of_sum (d := { values := d.values, cum := List.replicate (d.numStates + 1) 0 })
    h.1.2]
  simp only [Outcome.ok_bind, Outcome.pure_eq]
  rw [← h.2]

theorem step_good {d d' : DiscretePdf K} {o : Op K} (hd : Good d)
    (h : d.step o = .ok (true, d')) : Good d' ∧ d'.values.length = d.values.length := by
  cases o with
  | probabilitySet s a =>
    have h' : d.probabilitySet s a = .ok (true, d') := h
    obtain ⟨h0, h1, n, rfl, hn⟩ := probabilitySet_inv h'
    by_cases h2 : 2 ≤ d.values.length
    · obtain ⟨vs, he, hdist, hl, _⟩ := probabilitySet_eq hd.1 hn h2 h0 h1
      rw [he] at h'
      simp only [Outcome.ok.injEq, Prod.mk.injEq, true_and] at h'
      subst h'
      exact ⟨⟨hdist, rfl⟩, hl⟩
    · rw [probabilitySet_single hd.1 (by omega)] at h'
      simp at h'
  | probabilitiesSet v =>
    have h' : d.probabilitiesSet v = .ok (true, d') := h
    obtain ⟨hv, hl, hp, _⟩ := probabilitiesSet_inv h'
    rw [probabilitiesSet_pos hv hl (hp rfl)] at h'
    simp only [Outcome.ok.injEq, Prod.mk.injEq, true_and] at h'
    subst h'
    exact ⟨⟨normalized_dist hv (hp rfl), rfl⟩, by simpa using hl⟩
  | copy =>
    simp only [step, copy_good hd, Outcome.ok_bind, Outcome.pure_eq, Outcome.ok.injEq,
      Prod.mk.injEq, true_and] at h
    subst h
    exact ⟨hd, rfl⟩

theorem run_good {ops : List (Op K)} {d d' : DiscretePdf K} (hd : Good d)
    (h : d.run ops = .ok (true, d')) : Good d' ∧ d'.values.length = d.values.length := by
  induction ops generalizing d with
  | nil =>
    simp only [run, Outcome.pure_eq, Outcome.ok.injEq, Prod.mk.injEq, true_and] at h
    subst h; exact ⟨hd, rfl⟩
  | cons o os ih =>
    simp only [run, Outcome.bind_eq_ok] at h
    obtain ⟨⟨b, d1⟩, h1, ⟨bs, d2⟩, h2, h3⟩ := h
    simp only [Outcome.pure_eq, Outcome.ok.injEq, Prod.mk.injEq, Bool.and_eq_true] at h3
    obtain ⟨⟨rfl, rfl⟩, rfl⟩ := h3
    obtain ⟨g1, l1⟩ := step_good hd h1
    obtain ⟨g2, l2⟩ := ih g1 h2
    exact ⟨g2, l2.trans l1⟩

theorem mostProbableLoop_spec (vs : List K) (s : Nat) (best : Int) (pb : K) :
    (mostProbableLoop vs s best pb = best ∧ ∀ v ∈ vs, v < pb) ∨
    ∃ m, ∃ hm : m < vs.length, mostProbableLoop vs s best pb = ((s + m : Nat) : Int) ∧
      pb ≤ vs[m] ∧ (∀ v ∈ vs, v ≤ vs[m]) ∧ ∀ j (hj : j < vs.length), m < j → vs[j] < vs[m] := by
  induction vs generalizing s best pb with
  | nil => left; simp [mostProbableLoop]
  | cons v vs ih =>
    have hs : (s : Int) + 1 = ((s + 1 : Nat) : Int) := by push_cast; rfl
    unfold mostProbableLoop
    split
    · next hv =>
      right
      rw [hs]
      rcases ih (s + 1) (s : Int) v with ⟨h1, h2⟩ | ⟨m, hm, h1, h2, h3, h4⟩
      · refine ⟨0, by simp, by simpa using h1, by simpa using hv, ?_, ?_⟩
        · intro x hx
          rcases List.mem_cons.1 hx with rfl | hx
          · simp
          · simpa using (h2 x hx).le
        · intro j hj hlt
          obtain ⟨j, rfl⟩ := Nat.exists_eq_succ_of_ne_zero (show j ≠ 0 by omega)
          simpa using h2 _ (List.getElem_mem _)
      · refine ⟨m + 1, by simpa using hm, by rw [h1]; congr 1; omega, ?_, ?_, ?_⟩
        · simpa using le_trans hv h2
        · intro x hx
          rcases List.mem_cons.1 hx with rfl | hx
          · simpa using h2
          · simpa using h3 x hx
        · intro j hj hlt
          obtain ⟨j, rfl⟩ := Nat.exists_eq_succ_of_ne_zero (show j ≠ 0 by omega)
          simpa using h4 j (by simpa using hj) (by omega)
    · next hv =>
      have hv' : v < pb := not_le.1 hv
      rw [hs]
      rcases ih (s + 1) best pb with ⟨h1, h2⟩ | ⟨m, hm, h1, h2, h3, h4⟩
      · left
        refine ⟨h1, ?_⟩
        intro x hx
        rcases List.mem_cons.1 hx with rfl | hx
        · exact hv'
        · exact h2 x hx
      · right
        refine ⟨m + 1, by simpa using hm, by rw [h1]; congr 1; omega, by simpa using h2, ?_, ?_⟩
        · intro x hx
          rcases List.mem_cons.1 hx with rfl | hx
          · simpa using hv'.le.trans h2
          · simpa using h3 x hx
        · intro j hj hlt
          obtain ⟨j, rfl⟩ := Nat.exists_eq_succ_of_ne_zero (show j ≠ 0 by omega)
          simpa using h4 j (by simpa using hj) (by omega)

end DiscretePdf

end BFL
