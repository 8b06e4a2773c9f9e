import Verif.Model.Mixture
import Verif.Lemmas.DiscretePdf
import Verif.Lemmas.Moments

/-! Helper lemmas for `Mixture`. -/

set_option linter.unusedSectionVars false

namespace BFL

open Spec

variable {K P T : Type} [Field K] [LinearOrder K] [IsStrictOrderedRing K]

theorem mapOutcome_forall {α β : Type} {f : α → Outcome β} {q : β → Prop} {l : List α} {r : List β}
    (hf : ∀ a b, f a = .ok b → q b) (h : mapOutcome f l = .ok r) : ∀ b ∈ r, q b := by
  induction l generalizing r with
  | nil => simp only [mapOutcome, Outcome.ok.injEq] at h; simp [← h]
  | cons a l ih =>
    simp only [mapOutcome, Outcome.bind_eq_ok, Outcome.pure_eq, Outcome.ok.injEq] at h
    obtain ⟨b, h1, bs, h2, rfl⟩ := h
    intro x hx
    rcases List.mem_cons.1 hx with rfl | hx
    · exact hf _ _ h1
    · exact ih h2 x hx

theorem divProb_nonneg {x y b : K} (h : divProb x y = .ok b) : 0 ≤ b := by
  unfold divProb at h
  split at h
  · simp at h
  · rw [mkProb_eq_ok] at h; rw [h.2]; exact h.1

theorem mkProb_nonneg {x b : K} (h : mkProb x = .ok b) : 0 ≤ b := by
  rw [mkProb_eq_ok] at h; rw [h.2]; exact h.1

namespace Mixture

/-- What every successful history guarantees. -/
def Tol (m : Mixture K P) : Prop :=
  m.weights.length = m.comps.length ∧ (∀ w ∈ m.weights, 0 ≤ w) ∧
    (m.comps ≠ [] → 1 - numericPrecision ≤ m.weights.sum ∧
      m.weights.sum ≤ 1 + numericPrecision ∧ m.cum = setLast (runningSums 0 m.weights) 1)

/-- Exactly normalised mixture. -/
def Exact (m : Mixture K P) : Prop :=
  m.weights.length = m.comps.length ∧ (∀ w ∈ m.weights, 0 ≤ w) ∧
    (m.comps ≠ [] → m.weights.sum = 1 ∧ m.cum = runningSums 0 m.weights)

theorem Exact.tol {m : Mixture K P} (h : Exact m) : Tol m := by
  refine ⟨h.1, h.2.1, fun hne => ?_⟩
  obtain ⟨hs, hc⟩ := h.2.2 hne
  have := numericPrecision_pos (K := K)
  refine ⟨by linarith, by linarith, ?_⟩
  rw [setLast_runningSums hs, hc]

theorem Exact.dist {m : Mixture K P} (h : Exact m) (hne : m.comps ≠ []) :
    IsDistribution m.weights := ⟨h.2.1, (h.2.2 hne).1⟩

theorem testNotInit_ok {m : Mixture K P} (h : m.comps ≠ []) : m.testNotInit = .ok () := by
  unfold testNotInit
  exact cassert_true (by simpa using h)

theorem testNotInit_empty {m : Mixture K P} (h : m.comps = []) : m.testNotInit = .abort := by
  unfold testNotInit
  exact cassert_false (by simp [h])

theorem cumUpdate_ok {m m' : Mixture K P} {b : Bool} (hl : m.weights.length = m.comps.length)
    (h : m.cumUpdate = .ok (b, m')) :
    b = true ∧ m' = { m with cum := setLast (runningSums 0 m.weights) 1 } ∧
      1 - numericPrecision ≤ m.weights.sum ∧ m.weights.sum ≤ 1 + numericPrecision := by
  simp only [cumUpdate, Outcome.bind_eq_ok, Outcome.pure_eq, Outcome.ok.injEq] at h
  obtain ⟨t, ht, u, hu, h3⟩ := h
  simp only [Prod.mk.injEq] at h3
  obtain ⟨h3, rfl⟩ := h3
  rw [cassert_eq_ok] at hu
  rw [vget_eq_ok, numComponents, ← hl, runningSums_getElem? _ _ _ le_rfl] at ht
  simp only [List.take_length, zero_add, Option.some.injEq] at ht
  subst ht
  exact ⟨h3.symm, rfl, hu.1, hu.2⟩

theorem cumUpdate_tol {m m' : Mixture K P} {b : Bool} (hl : m.weights.length = m.comps.length)
    (hw : ∀ w ∈ m.weights, 0 ≤ w) (h : m.cumUpdate = .ok (b, m')) :
    b = true ∧ Tol m' ∧ m'.comps = m.comps ∧ m'.weights = m.weights ∧ m'.dim = m.dim := by
  obtain ⟨hb, rfl, h1, h2⟩ := cumUpdate_ok hl h
  exact ⟨hb, ⟨hl, hw, fun _ => ⟨h1, h2, rfl⟩⟩, rfl, rfl, rfl⟩

theorem cumUpdate_of_bounds {m : Mixture K P} (hl : m.weights.length = m.comps.length)
    (h1 : 1 - numericPrecision ≤ m.weights.sum) (h2 : m.weights.sum ≤ 1 + numericPrecision) :
    m.cumUpdate = .ok (true, { m with cum := setLast (runningSums 0 m.weights) 1 }) := by
  have ht : vget (runningSums 0 m.weights) m.numComponents = .ok m.weights.sum := by
    rw [vget_eq_ok, numComponents, ← hl, runningSums_getElem? _ _ _ le_rfl]
    simp
  unfold cumUpdate
  rw [ht, Outcome.ok_bind, cassert_true ⟨h1, h2⟩]
  rfl

theorem cumUpdate_of_sum {m : Mixture K P} (hl : m.weights.length = m.comps.length)
    (h : m.weights.sum = 1) :
    m.cumUpdate = .ok (true, { m with cum := runningSums 0 m.weights }) := by
  have hp := numericPrecision_pos (K := K)
  rw [cumUpdate_of_bounds hl (by linarith) (by linarith), setLast_runningSums h]

theorem cumUpdate_bad {m : Mixture K P} (hl : m.weights.length = m.comps.length)
    (h : m.weights.sum < 1 - numericPrecision ∨ 1 + numericPrecision < m.weights.sum) :
    m.cumUpdate = .abort := by
  have ht : vget (runningSums 0 m.weights) m.numComponents = .ok m.weights.sum := by
    rw [vget_eq_ok, numComponents, ← hl, runningSums_getElem? _ _ _ le_rfl]
    simp
  unfold cumUpdate
  rw [ht, Outcome.ok_bind, cassert_false]
  · rfl
  · rintro ⟨h1, h2⟩
    rcases h with h | h
    · exact absurd h1 (not_le.2 h)
    · exact absurd h2 (not_le.2 h)

theorem renormalize_pos {m : Mixture K P} (hl : m.weights.length = m.comps.length)
    (hw : ∀ w ∈ m.weights, 0 ≤ w) (h : 0 < m.weights.sum) :
    m.renormalize = .ok (true, { m with weights := m.weights.map (· / m.weights.sum),
                                        cum := runningSums 0 (m.weights.map (· / m.weights.sum)) }) := by
  unfold renormalize normalizeWeights
  rw [if_pos h, mapOutcome_eq_ok (g := (· / m.weights.sum))
    (fun v hv => divProb_of h.ne' (div_nonneg (hw v hv) h.le))]
  simp only [Outcome.ok_bind, Outcome.pure_eq, if_true]
  rw [cumUpdate_of_sum (by simpa using hl) (DiscretePdf.normalized_dist hw h).2]

theorem renormalize_zero {m : Mixture K P} (h : m.weights.sum = 0) :
    m.renormalize = .ok (false, m) := by
  unfold renormalize normalizeWeights
  simp [h]

theorem renormalize_exact {m m' : Mixture K P} (hl : m.weights.length = m.comps.length)
    (hw : ∀ w ∈ m.weights, 0 ≤ w) (h : m.renormalize = .ok (true, m')) :
    0 < m.weights.sum ∧ Exact m' ∧ m'.comps = m.comps ∧ m'.dim = m.dim := by
  have hpos : 0 < m.weights.sum := by
    by_contra hn
    have h0 : m.weights.sum = 0 := le_antisymm (not_lt.1 hn) (sum_nonneg' hw)
    rw [renormalize_zero h0] at h
    simp at h
  rw [renormalize_pos hl hw hpos] at h
  simp only [Outcome.ok.injEq, Prod.mk.injEq, true_and] at h
  subst h
  refine ⟨hpos, ⟨by simpa using hl, (DiscretePdf.normalized_dist hw hpos).1, fun _ =>
    ⟨(DiscretePdf.normalized_dist hw hpos).2, rfl⟩⟩, rfl, rfl⟩

/-- Everything a returning `WeightSet` call guarantees. -/
theorem weightSet_inv {m m' : Mixture K P} {i : Nat} {w : K} {b : Bool}
    (hl : m.weights.length = m.comps.length) (h : m.weightSet i w = .ok (b, m')) :
    b = true ∧ 0 ≤ w ∧ w ≤ 1 ∧ i < m.comps.length ∧ Tol m' ∧ m'.comps = m.comps ∧
      m'.dim = m.dim ∧ m'.weights[i]? = some w := by
  unfold weightSet at h
  simp only [Outcome.bind_eq_ok] at h
  obtain ⟨w', hw, _, _, _, hi, _, h1, h⟩ := h
  rw [mkProb_eq_ok] at hw
  obtain ⟨h0, rfl⟩ := hw
  rw [cassert_eq_ok] at hi h1
  have hi' : i < m.comps.length := hi
  split at h
  · next hn =>
    have hn' : m.comps.length = 1 := hn
    have h00 : 0 < m.weights.length := by omega
    simp only [Outcome.bind_eq_ok] at h
    obtain ⟨ws, hs, h⟩ := h
    rw [vset_of_lt h00, Outcome.ok.injEq] at hs
    subst hs
    have hi0 : i = 0 := by omega
    have hwn : ∀ x ∈ m.weights.set 0 w', 0 ≤ x := by
      obtain ⟨a, ha⟩ := List.length_eq_one_iff.1 (hl.trans hn')
      simp [ha, h0]
    obtain ⟨hb, ht, hc, hwt, hd⟩ := cumUpdate_tol (by simpa using hl) hwn h
    refine ⟨hb, h0, h1, hi', ht, hc, hd, ?_⟩
    rw [hwt]; subst hi0; simp [h00]
  · next hn =>
    simp only [Outcome.bind_eq_ok] at h
    obtain ⟨ws, hm, ws2, hs, h⟩ := h
    unfold rescaleOthers at hm
    simp only [Outcome.bind_eq_ok] at hm
    obtain ⟨old, _, hm⟩ := hm
    have hlen : ws.length = m.weights.length := by
      split at hm <;> exact mapOutcome_ok_length hm
    have hnn : ∀ x ∈ ws, 0 ≤ x := by
      split at hm
      · exact mapOutcome_forall (fun a b hb => mkProb_nonneg hb) hm
      · exact mapOutcome_forall (fun a b hb => divProb_nonneg hb) hm
    have hil : i < ws.length := by omega
    rw [vset_of_lt hil, Outcome.ok.injEq] at hs
    subst hs
    have hnn' : ∀ x ∈ ws.set i w', 0 ≤ x := by
      intro x hx
      rcases List.mem_or_eq_of_mem_set hx with hx | rfl
      · exact hnn x hx
      · exact h0
    obtain ⟨hb, ht, hc, hwt, hd⟩ := cumUpdate_tol (by simp [hlen, hl]) hnn' h
    refine ⟨hb, h0, h1, hi', ht, hc, hd, ?_⟩
    rw [hwt]; simp [hil]

/-- With two or more components `WeightSet` does to the weights what `DiscretePdf::ProbabilitySet`
does to the probabilities. -/
theorem weightSet_eq {m : Mixture K P} (hl : m.weights.length = m.comps.length)
    (hd : IsDistribution m.weights) {i : Nat} (hi : i < m.weights.length)
    (hn : 2 ≤ m.weights.length) {w : K} (h0 : 0 ≤ w) (h1 : w ≤ 1) :
    ∃ vs, m.weightSet i w = .ok (true, { m with weights := vs, cum := runningSums 0 vs }) ∧
      IsDistribution vs ∧ vs.length = m.weights.length ∧
      vs = (if m.weights[i] ≠ 1 then DiscretePdf.rescaled m.weights i w m.weights[i]
            else DiscretePdf.shared m.weights i w) := by
  obtain ⟨vs, he, hdist, hlen, hv⟩ := DiscretePdf.probabilitySet_eq
    (d := ⟨m.weights, m.cum⟩) hd hi hn h0 h1
  refine ⟨vs, ?_, hdist, hlen, hv⟩
  have hne : m.comps ≠ [] := by
    intro h; rw [h] at hl; simp at hl; rw [hl] at hi; simp at hi
  have hic : i < m.numComponents := by unfold numComponents; omega
  have hr : (0 : Int) ≤ i ∧ (i : Int) < (DiscretePdf.numStates ⟨m.weights, m.cum⟩ : Nat) := by
    constructor
    · exact Int.natCast_nonneg _
    · unfold DiscretePdf.numStates; exact_mod_cast hi
  have hg : m.weightGet i = .ok m.weights[i] := by
    unfold weightGet
    rw [testNotInit_ok hne, Outcome.ok_bind, cassert_true hic, Outcome.ok_bind, vget_of_lt hi]
  have hn1 : ¬ m.numComponents = 1 := by unfold numComponents; omega
  unfold DiscretePdf.probabilitySet at he
  rw [mkProb_of_nonneg h0, Outcome.ok_bind, cassert_true hr, Outcome.ok_bind, cassert_true h1,
    Outcome.ok_bind, DiscretePdf.probabilityGet_nat (d := ⟨m.weights, m.cum⟩) hi,
    Outcome.ok_bind] at he
  have hnum : (DiscretePdf.numStates ⟨m.weights, m.cum⟩ : Nat) = m.numComponents := hl
  have hres : ∃ ws, m.rescaleOthers i w = .ok ws ∧
      (vset ws i w >>= fun ws => DiscretePdf.cumUpdate ⟨ws, m.cum⟩) =
        .ok (true, ⟨vs, runningSums 0 vs⟩) := by
    unfold rescaleOthers
    rw [hg, Outcome.ok_bind]
    rw [hnum, Int.toNat_natCast] at he
    by_cases hold : m.weights[i] ≠ 1
    · rw [if_pos hold] at he ⊢
      rw [Outcome.bind_eq_ok] at he
      obtain ⟨ws, hws, he⟩ := he
      exact ⟨ws, hws, he⟩
    · rw [if_neg hold] at he ⊢
      rw [Outcome.bind_eq_ok] at he
      obtain ⟨ws, hws, he⟩ := he
      exact ⟨ws, hws, he⟩
  obtain ⟨ws, hws, he⟩ := hres
  unfold weightSet
  rw [mkProb_of_nonneg h0, Outcome.ok_bind, testNotInit_ok hne, Outcome.ok_bind, cassert_true hic,
    Outcome.ok_bind, cassert_true h1, Outcome.ok_bind, if_neg hn1, hws, Outcome.ok_bind]
  rw [Outcome.bind_eq_ok] at he
  obtain ⟨ws2, hws2, he⟩ := he
  rw [hws2, Outcome.ok_bind]
  obtain ⟨_, hvv, hcc⟩ := DiscretePdf.cumUpdate_ok he
  simp only at hvv hcc
  subst hvv
  rw [cumUpdate_of_sum (by rw [← hl]; exact hlen) hdist.2]

theorem append_lengths {m : Mixture K P} (hl : m.weights.length = m.comps.length) (c : P) :
    (m.weights ++ [(0 : K)]).length = (m.comps ++ [c]).length := by simp [hl]

theorem append_nonneg {m : Mixture K P} (hw : ∀ w ∈ m.weights, 0 ≤ w) :
    ∀ w ∈ m.weights ++ [(0 : K)], 0 ≤ w := by
  intro w h
  rcases List.mem_append.1 h with h | h
  · exact hw w h
  · simp at h; rw [h]

theorem appendComponent_exact {m m' : Mixture K P} {c : P} {w : K} (hm : Tol m)
    (h : m.appendComponent c w = .ok (true, m')) :
    Exact m' ∧ m'.comps = m.comps ++ [c] ∧ m'.dim = m.dim := by
  unfold appendComponent at h
  simp only [Outcome.bind_eq_ok] at h
  obtain ⟨⟨b, m2⟩, h1, h2⟩ := h
  obtain ⟨_, _, _, _, ht, hc, hd, _⟩ := weightSet_inv (append_lengths hm.1 c) h1
  obtain ⟨_, he, hc2, hd2⟩ := renormalize_exact ht.1 ht.2.1 h2
  exact ⟨he, by rw [hc2, hc], by rw [hd2, hd]⟩

theorem addComponentW_exact {m m' : Mixture K P} {c : P} {w : K} (hm : Tol m)
    (h : m.addComponentW c w = .ok (true, m')) :
    Exact m' ∧ m'.comps = m.comps ++ [c] ∧ m'.dim = m.dim := by
  unfold addComponentW at h
  simp only [Outcome.bind_eq_ok] at h
  obtain ⟨w', _, h⟩ := h
  split at h <;> exact appendComponent_exact hm h

theorem addComponent_exact {m m' : Mixture K P} {c : P} (hm : Tol m)
    (h : m.addComponent c = .ok (true, m')) :
    Exact m' ∧ m'.comps = m.comps ++ [c] ∧ m'.dim = m.dim := by
  unfold addComponent at h
  split at h
  · exact addComponentW_exact hm h
  · obtain ⟨_, he, hc2, hd2⟩ := renormalize_exact (append_lengths hm.1 c) (append_nonneg hm.2.1) h
    exact ⟨he, hc2, hd2⟩

theorem eraseIdx_lengths {m : Mixture K P} (hl : m.weights.length = m.comps.length) (i : Nat) :
    (m.weights.eraseIdx i).length = (m.comps.eraseIdx i).length := by
  simp [List.length_eraseIdx, hl]

theorem eraseIdx_nonneg {ws : List K} (hw : ∀ w ∈ ws, 0 ≤ w) (i : Nat) :
    ∀ w ∈ ws.eraseIdx i, 0 ≤ w := fun w h => hw w (List.mem_of_mem_eraseIdx h)

theorem deleteComponent_exact {m m' : Mixture K P} {i : Nat} (hm : Tol m)
    (h : m.deleteComponent i = .ok (true, m')) :
    Exact m' ∧ m'.comps = m.comps.eraseIdx i ∧ m'.dim = m.dim := by
  unfold deleteComponent at h
  simp only [Outcome.bind_eq_ok] at h
  obtain ⟨_, _, _, _, h⟩ := h
  split at h
  · next h0 =>
    simp only [Outcome.pure_eq, Outcome.ok.injEq, Prod.mk.injEq, true_and] at h
    subst h
    refine ⟨⟨eraseIdx_lengths hm.1 i, eraseIdx_nonneg hm.2.1 i, fun hne => ?_⟩, rfl, rfl⟩
    exact absurd (List.length_eq_zero_iff.1 h0) hne
  · obtain ⟨_, he, hc2, hd2⟩ := renormalize_exact
      (m := { m with comps := m.comps.eraseIdx i, weights := m.weights.eraseIdx i,
                     cum := m.cum.dropLast })
      (eraseIdx_lengths hm.1 i) (eraseIdx_nonneg hm.2.1 i) h
    exact ⟨he, hc2, hd2⟩

theorem weightsSet_exact {m m' : Mixture K P} {ws : List K} 
    (h : m.weightsSet ws = .ok (true, m')) :
    Exact m' ∧ m'.comps = m.comps ∧ m'.dim = m.dim := by
  unfold weightsSet at h
  simp only [Outcome.bind_eq_ok] at h
  obtain ⟨ws', hws, _, _, _, hl, h⟩ := h
  rw [mapOutcome_mkProb_eq_ok] at hws
  obtain ⟨hnn, rfl⟩ := hws
  rw [cassert_eq_ok] at hl
  obtain ⟨_, he, hc2, hd2⟩ := renormalize_exact (m := { m with weights := ws' }) hl hnn h
  exact ⟨he, hc2, hd2⟩

theorem step_tol {m m' : Mixture K P} {o : Op K P} (hm : Tol m) (h : m.step o = .ok (true, m')) :
    Tol m' := by
  cases o with
  | add c => exact (addComponent_exact hm h).1.tol
  | addW c w => exact (addComponentW_exact hm h).1.tol
  | delete i => exact (deleteComponent_exact hm h).1.tol
  | weightSet i w => exact (weightSet_inv hm.1 h).2.2.2.2.1
  | weightsSet ws => exact (weightsSet_exact h).1.tol

theorem step_exact {m m' : Mixture K P} {o : Op K P} (hm : Exact m)
    (ho : ∀ i w, o = .weightSet i w → m.comps.length = 1 → w = 1)
    (h : m.step o = .ok (true, m')) : Exact m' := by
  cases o with
  | add c => exact (addComponent_exact hm.tol h).1
  | addW c w => exact (addComponentW_exact hm.tol h).1
  | delete i => exact (deleteComponent_exact hm.tol h).1
  | weightSet i w =>
    have h' : m.weightSet i w = .ok (true, m') := h
    obtain ⟨_, h0, h1, hi, ht, hc, hd, hget⟩ := weightSet_inv hm.1 h'
    by_cases hn : m.comps.length = 1
    · have hw1 : w = 1 := ho i w rfl hn
      have hlen : m'.weights.length = 1 := by rw [ht.1, hc, hn]
      obtain ⟨a, ha⟩ := List.length_eq_one_iff.1 hlen
      have hi0 : i = 0 := by omega
      have ha1 : a = 1 := by rw [ha, hi0] at hget; simpa [hw1] using hget
      have hs : m'.weights.sum = 1 := by rw [ha, ha1]; simp
      have hne : m'.comps ≠ [] := by
        intro h0; rw [h0] at hc; rw [← hc] at hn; simp at hn
      refine ⟨ht.1, ht.2.1, fun _ => ⟨hs, ?_⟩⟩
      rw [(ht.2.2 hne).2.2, setLast_runningSums hs]
    · have hne : m.comps ≠ [] := by intro h0; rw [h0] at hi; simp at hi
      have hl := hm.1
      obtain ⟨vs, he, hdist, hlen, _⟩ := weightSet_eq hm.1 (hm.dist hne) (i := i)
        (by omega) (by omega) h0 h1
      rw [he] at h'
      simp only [Outcome.ok.injEq, Prod.mk.injEq, true_and] at h'
      subst h'
      exact ⟨by rw [← hl, ← hlen], hdist.1, fun _ => ⟨hdist.2, rfl⟩⟩
  | weightsSet ws => exact (weightsSet_exact h).1

theorem make_exact (dim : Nat) : Exact (make (K := K) (P := P) dim) :=
  ⟨rfl, by simp [make], fun h => absurd rfl h⟩

theorem ofComponents_eq {dims : P → Nat} {cs : List P} (hne : cs ≠ []) :
    ofComponents (K := K) dims cs = .ok
      { dim := dims (cs.head hne), comps := cs, weights := List.replicate cs.length (1 / (cs.length : K)),
        cum := runningSums 0 (List.replicate cs.length (1 / (cs.length : K))) } := by
  have hpos : 0 < cs.length := List.length_pos_iff.2 hne
  have hn' : (0 : K) < cs.length := by exact_mod_cast hpos
  have h1 : mapOutcome (fun _ => divProb 1 (cs.length : K)) cs =
      .ok (List.replicate cs.length (1 / (cs.length : K))) := by
    rw [mapOutcome_eq_ok (g := fun _ => 1 / (cs.length : K))
      (fun _ _ => divProb_of hn'.ne' (by positivity))]
    simp
  unfold ofComponents
  rw [vget_of_lt hpos, Outcome.ok_bind, h1, Outcome.ok_bind,
    cumUpdate_of_sum (by simp) (DiscretePdf.uniform_dist hpos).2]
  simp [List.head_eq_getElem]

theorem copy_tol {m : Mixture K P} (hm : Tol m) (hne : m.comps ≠ []) : m.copy = .ok m := by
  obtain ⟨h1, h2, h3⟩ := hm.2.2 hne
  unfold copy weightsGet
  rw [testNotInit_ok hne]
  simp only [Outcome.ok_bind, Outcome.pure_eq]
  rw [cumUpdate_of_bounds (by exact hm.1) (by exact h1) (by exact h2)]
  simp only [Outcome.ok_bind]
  rw [← h3]

theorem mostProbableLoop_spec (vs : List K) (s : Nat) (best : Int) (pb : K) :
    (mostProbableLoop vs s best pb = best ∧ ∀ v ∈ vs, v ≤ pb) ∨
    ∃ m, ∃ hm : m < vs.length, mostProbableLoop vs s best pb = ((s + m : Nat) : Int) ∧
      pb < vs[m] ∧ (∀ v ∈ vs, v ≤ vs[m]) ∧ ∀ j (hj : j < vs.length), j < m → vs[j] < vs[m] := by
  induction vs generalizing s best pb with
  | nil => left; simp [mostProbableLoop]
  | cons v vs ih =>
    have hs : (s : Int) + 1 = ((s + 1 : Nat) : Int) := by push_cast; rfl
    unfold mostProbableLoop
    split
    · next hv =>
      right
      rw [hs]
      rcases ih (s + 1) (s : Int) v with ⟨h1, h2⟩ | ⟨m, hm, h1, h2, h3, h4⟩
      · refine ⟨0, by simp, by simpa using h1, by simpa using hv, ?_, by simp⟩
        intro x hx
        rcases List.mem_cons.1 hx with rfl | hx
        · simp
        · simpa using (h2 x hx)
      · refine ⟨m + 1, by simpa using hm, by rw [h1]; congr 1; omega, ?_, ?_, ?_⟩
        · simpa using lt_trans hv h2
        · intro x hx
          rcases List.mem_cons.1 hx with rfl | hx
          · simpa using h2.le
          · simpa using h3 x hx
        · intro j hj hlt
          cases j with
          | zero => simpa using h2
          | succ j => simpa using h4 j (by simpa using hj) (by omega)
    · next hv =>
      have hv' : v ≤ pb := not_lt.1 hv
      rw [hs]
      rcases ih (s + 1) best pb with ⟨h1, h2⟩ | ⟨m, hm, h1, h2, h3, h4⟩
      · left
        refine ⟨h1, ?_⟩
        intro x hx
        rcases List.mem_cons.1 hx with rfl | hx
        · exact hv'
        · exact h2 x hx
      · right
        refine ⟨m + 1, by simpa using hm, by rw [h1]; congr 1; omega, by simpa using h2, ?_, ?_⟩
        · intro x hx
          rcases List.mem_cons.1 hx with rfl | hx
          · simpa using hv'.trans h2.le
          · simpa using h3 x hx
        · intro j hj hlt
          cases j with
          | zero => simpa using lt_of_le_of_lt hv' h2
          | succ j => simpa using h4 j (by simpa using hj) (by omega)

/-- `densityLoop` computes the weighted sum when nothing is negative. -/
theorem densityLoop_eq {acc : K} (hacc : 0 ≤ acc) {l : List (K × K)}
    (h : ∀ q ∈ l, 0 ≤ q.1 ∧ 0 ≤ q.2) :
    densityLoop acc l = .ok (acc + (l.map fun q => q.1 * q.2).sum) := by
  induction l generalizing acc with
  | nil => simp [densityLoop]
  | cons q l ih =>
    obtain ⟨w, p⟩ := q
    have hq := h (w, p) (by simp)
    have hwp : 0 ≤ w * p := mul_nonneg hq.1 hq.2
    simp only [densityLoop]
    rw [mkProb_of_nonneg hwp, Outcome.ok_bind, mkProb_of_nonneg (by linarith), Outcome.ok_bind,
      ih (by linarith) (fun q' hq' => h q' (by simp [hq']))]
    simp [add_assoc]

theorem probabilityGet_eq {density : P → T → Outcome K} {m : Mixture K P} {x : T} {d : P → K}
    (_hl : m.weights.length = m.comps.length) (hw : ∀ w ∈ m.weights, 0 ≤ w) (hne : m.comps ≠ [])
    (hd : ∀ c ∈ m.comps, density c x = .ok (d c) ∧ 0 ≤ d c) :
    m.probabilityGet density x = .ok (average m.comps m.weights d) := by
  unfold probabilityGet
  rw [testNotInit_ok hne, Outcome.ok_bind, mapOutcome_eq_ok (g := d) (fun c hc => (hd c hc).1),
    Outcome.ok_bind, densityLoop_eq le_rfl]
  · congr 1
    rw [zero_add, average, List.zip_map_right, List.map_map]
    rw [List.zip, List.map_zipWith, List.zipWith_comm]
    rfl
  · intro q hq
    obtain ⟨h1, h2⟩ := List.of_mem_zip (a := q.1) (b := q.2) hq
    refine ⟨hw _ h1, ?_⟩
    obtain ⟨c, hc, he⟩ := List.mem_map.1 h2
    rw [← he]; exact (hd c hc).2

theorem bestStateLoop_spec (g : Nat → K) {f : Nat → Outcome K} (k j best : Nat) (pb : K)
    (hf : ∀ i, j ≤ i → i < j + k → f i = .ok (g i)) :
    ∃ r, bestStateLoop f k j best pb = .ok r ∧
      ((r = best ∧ ∀ i, j ≤ i → i < j + k → g i ≤ pb) ∨
       (j ≤ r ∧ r < j + k ∧ pb < g r ∧ (∀ i, j ≤ i → i < j + k → g i ≤ g r) ∧
         ∀ i, j ≤ i → i < r → g i < g r)) := by
  induction k generalizing j best pb with
  | zero => exact ⟨best, rfl, Or.inl ⟨rfl, fun i h1 h2 => by omega⟩⟩
  | succ k ih =>
    unfold bestStateLoop
    rw [hf j le_rfl (by omega), Outcome.ok_bind]
    split
    · next hp =>
      obtain ⟨r, hr, h⟩ := ih (j + 1) j (g j) (fun i h1 h2 => hf i (by omega) (by omega))
      refine ⟨r, hr, Or.inr ?_⟩
      rcases h with ⟨rfl, h⟩ | ⟨h1, h2, h3, h4, h5⟩
      · refine ⟨le_rfl, by omega, hp, ?_, fun i h1 h2 => by omega⟩
        intro i h1 h2
        rcases Nat.eq_or_lt_of_le h1 with rfl | h1
        · exact le_rfl
        · exact h i h1 (by omega)
      · refine ⟨by omega, by omega, hp.trans h3, ?_, ?_⟩
        · intro i h1 h2
          rcases Nat.eq_or_lt_of_le h1 with rfl | h1
          · exact h3.le
          · exact h4 i h1 (by omega)
        · intro i h1 h2
          rcases Nat.eq_or_lt_of_le h1 with rfl | h1
          · exact h3
          · exact h5 i h1 (by omega)
    · next hp =>
      have hp' : g j ≤ pb := not_lt.1 hp
      obtain ⟨r, hr, h⟩ := ih (j + 1) best pb (fun i h1 h2 => hf i (by omega) (by omega))
      refine ⟨r, hr, ?_⟩
      rcases h with ⟨rfl, h⟩ | ⟨h1, h2, h3, h4, h5⟩
      · left
        refine ⟨rfl, ?_⟩
        intro i h1 h2
        rcases Nat.eq_or_lt_of_le h1 with rfl | h1
        · exact hp'
        · exact h i h1 (by omega)
      · right
        refine ⟨by omega, by omega, h3, ?_, ?_⟩
        · intro i h1 h2
          rcases Nat.eq_or_lt_of_le h1 with rfl | h1
          · exact hp'.trans h3.le
          · exact h4 i h1 (by omega)
        · intro i h1 h2
          rcases Nat.eq_or_lt_of_le h1 with rfl | h1
          · exact lt_of_le_of_lt hp' h3
          · exact h5 i h1 (by omega)

end Mixture

end BFL
