import Verif.Lemmas.Mixture
import Verif.Props.Discrete

/-!
# Properties C14-C19, C51 and C52 of `Mixture`
-/

set_option linter.unusedSectionVars false

namespace BFL.Props

open Spec Mixture

variable {K P T : Type} [Field K] [LinearOrder K] [IsStrictOrderedRing K]

/-- A mixture object obtained from a constructor (empty, from components, by copying) and public
operations that all returned `true`. -/
inductive Built (dims : P → Nat) : Mixture K P → Prop
  | empty (dim : Nat) : Built dims (make dim)
  | ofComponents {cs m} : ofComponents dims cs = .ok m → Built dims m
  | copy {m m'} : Built dims m → m.copy = .ok m' → Built dims m'
  | step {m m' o} : Built dims m → m.step o = .ok (true, m') → Built dims m'

/-- The same, but a `WeightSet` on a mixture with a single component is called with weight 1
only. -/
inductive BuiltExact (dims : P → Nat) : Mixture K P → Prop
  | empty (dim : Nat) : BuiltExact dims (make dim)
  | ofComponents {cs m} : ofComponents dims cs = .ok m → BuiltExact dims m
  | copy {m m'} : BuiltExact dims m → m.copy = .ok m' → BuiltExact dims m'
  | step {m m' o} : BuiltExact dims m →
      (∀ i w, o = .weightSet i w → m.comps.length = 1 → w = 1) →
      m.step o = .ok (true, m') → BuiltExact dims m'

theorem ofComponents_exact {dims : P → Nat} {cs : List P} {m : Mixture K P}
    (h : Mixture.ofComponents dims cs = .ok m) : Exact m ∧ m.comps = cs := by
  by_cases hne : cs = []
  · subst hne; simp [Mixture.ofComponents, vget] at h
  · rw [ofComponents_eq hne] at h
    simp only [Outcome.ok.injEq] at h
    subst h
    have hd := DiscretePdf.uniform_dist (K := K) (List.length_pos_iff.2 hne)
    exact ⟨⟨by simp, hd.1, fun _ => ⟨hd.2, rfl⟩⟩, rfl⟩

theorem copy_of_tol {m m' : Mixture K P} (hm : Tol m) (h : m.copy = .ok m') :
    m.comps ≠ [] ∧ m' = m := by
  by_cases hne : m.comps = []
  · simp [Mixture.copy, weightsGet, testNotInit_empty hne] at h
  · rw [copy_tol hm hne] at h
    simp only [Outcome.ok.injEq] at h
    exact ⟨hne, h.symm⟩

theorem Built.tol {dims : P → Nat} {m : Mixture K P} (h : Built dims m) : Tol m := by
  induction h with
  | empty dim => exact (make_exact dim).tol
  | ofComponents h => exact (ofComponents_exact h).1.tol
  | copy _ hc ih => rw [(copy_of_tol ih hc).2]; exact ih
  | step _ hs ih => exact step_tol ih hs

theorem BuiltExact.exact {dims : P → Nat} {m : Mixture K P} (h : BuiltExact dims m) : Exact m := by
  induction h with
  | empty dim => exact make_exact dim
  | ofComponents h => exact (ofComponents_exact h).1
  | copy _ hc ih => rw [(copy_of_tol ih.tol hc).2]; exact ih
  | step _ ho hs ih => exact step_exact ih ho hs

/-! ## C14 -/

/-- After every successful history there is one weight per component, no weight is negative, and
the weights sum to one within `1e-9`. -/
theorem C14_history {dims : P → Nat} {m : Mixture K P} (h : Built dims m) :
    m.weights.length = m.numComponents ∧ (∀ w ∈ m.weights, 0 ≤ w) ∧
      (m.numComponents ≠ 0 → |m.weights.sum - 1| ≤ 1 / 10 ^ 9) := by
  refine ⟨h.tol.1, h.tol.2.1, fun hne => ?_⟩
  obtain ⟨h1, h2, _⟩ := h.tol.2.2 (by simpa [numComponents] using hne)
  unfold numericPrecision at h1 h2
  rw [abs_le]
  constructor <;> linarith

/-- The weights sum to exactly one if `WeightSet` on a one-component mixture is only used with
weight 1. Full statement: for all histories; missing (and false, see `C14_exact_false`): a
`WeightSet` to a weight other than 1 but within `1e-9` of 1 on a one-component mixture. -/
theorem C14_exact_partial {dims : P → Nat} {m : Mixture K P} (h : BuiltExact dims m)
    (hne : m.numComponents ≠ 0) : IsDistribution m.weights :=
  h.exact.dist (by simpa [numComponents] using hne)

/-- A single component accepts a weight slightly below 1. -/
theorem C14_exact_false : ∃ m : Mixture ℚ Unit, Built (fun _ => 1) m ∧ m.numComponents = 1 ∧
    m.weights = [1 - 1 / 10 ^ 10] :=
  ⟨⟨1, [()], [1 - 1 / 10 ^ 10], [0, 1]⟩,
    .step (o := .weightSet 0 (1 - 1 / 10 ^ 10))
      (.step (o := .add ()) (m' := ⟨1, [()], [1], [0, 1]⟩) (.empty 1) (by decide +kernel))
      (by decide +kernel), rfl, rfl⟩

/-- What each successful operation does to the list of components. -/
theorem C14_components {dims : P → Nat} {m m' : Mixture K P} {o : Op K P} (h : Built dims m)
    (hs : m.step o = .ok (true, m')) :
    m'.dim = m.dim ∧ m'.comps = match o with
      | .add c => m.comps ++ [c]
      | .addW c _ => m.comps ++ [c]
      | .delete i => m.comps.eraseIdx i
      | .weightSet _ _ => m.comps
      | .weightsSet _ => m.comps := by
  cases o with
  | add c => exact ⟨(addComponent_exact h.tol hs).2.2, (addComponent_exact h.tol hs).2.1⟩
  | addW c w => exact ⟨(addComponentW_exact h.tol hs).2.2, (addComponentW_exact h.tol hs).2.1⟩
  | delete i => exact ⟨(deleteComponent_exact h.tol hs).2.2, (deleteComponent_exact h.tol hs).2.1⟩
  | weightSet i w =>
    obtain ⟨_, _, _, _, _, hc, hd, _⟩ := weightSet_inv h.tol.1 hs
    exact ⟨hd, hc⟩
  | weightsSet ws => exact ⟨(weightsSet_exact hs).2.2, (weightsSet_exact hs).2.1⟩

/-- `WeightsSet` with non-negative weights of positive sum succeeds and stores them scaled to sum
one. -/
theorem C14_weightsSet {dims : P → Nat} {m : Mixture K P} (_h : Built dims m)
    (hne : m.numComponents ≠ 0) {ws : List K} (hl : ws.length = m.numComponents)
    (hw : ∀ w ∈ ws, 0 ≤ w) (hs : 0 < ws.sum) :
    ∃ m', m.weightsSet ws = .ok (true, m') ∧ m'.weights = ws.map (· / ws.sum) := by
  have hne' : m.comps ≠ [] := by simpa [numComponents] using hne
  refine ⟨{ m with weights := ws.map (· / ws.sum),
                   cum := runningSums 0 (ws.map (· / ws.sum)) }, ?_, rfl⟩
  · unfold weightsSet
    rw [mapOutcome_mkProb_eq_ok.2 ⟨hw, rfl⟩, Outcome.ok_bind, testNotInit_ok hne', Outcome.ok_bind,
      cassert_true hl, Outcome.ok_bind, renormalize_pos (m := { m with weights := ws }) hl hw hs]

/-- `WeightSet` on an exactly normalised mixture of two or more components pins one weight and
keeps the proportions of the others. -/
theorem C14_weightSet {dims : P → Nat} {m : Mixture K P} (h : BuiltExact dims m)
    (hn : 2 ≤ m.numComponents) {i : Nat} (hi : i < m.weights.length) {w : K} (h0 : 0 ≤ w)
    (h1 : w ≤ 1) :
    ∃ m', m.weightSet i w = .ok (true, m') ∧ IsDistribution m'.weights ∧
      m'.weights[i]? = some w ∧
      (m.weights[i] ≠ 1 → ∀ j (hj : j < m.weights.length), j ≠ i →
        m'.weights[j]? = some (m.weights[j] * ((1 - w) / (1 - m.weights[i])))) ∧
      (m.weights[i] = 1 → ∀ j, j < m.weights.length → j ≠ i →
        m'.weights[j]? = some ((1 - w) / ((m.numComponents : K) - 1))) := by
  have hl := h.exact.1
  have hne : m.comps ≠ [] := by
    intro h0; rw [numComponents, h0] at hn; simp at hn
  have hn' : 2 ≤ m.weights.length := by rw [hl]; exact hn
  obtain ⟨vs, he, hdist, hlen, hv⟩ := weightSet_eq hl (h.exact.dist hne) hi hn' h0 h1
  refine ⟨_, he, hdist, ?_, ?_, ?_⟩
  · have hi' : i < vs.length := by rw [hlen]; exact hi
    simp only [hv]
    split <;> simp [DiscretePdf.rescaled, DiscretePdf.shared, hi]
  · intro hold j hj hji
    simp only [hv, if_pos hold, DiscretePdf.rescaled]
    rw [List.getElem?_set_ne (Ne.symm hji)]
    simp [hj]
  · intro hold j hj hji
    simp only [hv, hold, ne_eq, not_true_eq_false, if_false, DiscretePdf.shared]
    rw [List.getElem?_set_ne (Ne.symm hji)]
    rw [hl] at hj
    simp [hj, hl, numComponents]

example : ∃ m : Mixture ℚ Nat, BuiltExact (fun _ => 1) m ∧ m.comps = [7, 9] ∧
    m.weights = [1/4, 3/4] :=
  ⟨⟨1, [7, 9], [1/4, 3/4], [0, 1/4, 1]⟩,
    .step (o := .addW 9 (3/4))
      (.step (o := .add 7) (m' := ⟨1, [7], [1], [0, 1]⟩) (.empty 1) (by simp) (by decide +kernel))
      (by simp) (by decide +kernel), rfl, rfl⟩

/-! ## C15 -/

/-- Deleting a component while the others keep some weight succeeds and renormalises the rest. Full
statement: for every component; missing (and false, see `C15_false`): the others have zero
weight. -/
theorem C15_positive_remainder_partial {dims : P → Nat} {m : Mixture K P} (h : Built dims m)
    {i : Nat} (hi : i < m.numComponents) (hpos : 0 < (m.weights.eraseIdx i).sum) :
    ∃ m', m.deleteComponent i = .ok (true, m') ∧ m'.comps = m.comps.eraseIdx i ∧
      m'.weights = (m.weights.eraseIdx i).map (· / (m.weights.eraseIdx i).sum) ∧
      IsDistribution m'.weights := by
  have hne : m.comps ≠ [] := by intro h0; rw [numComponents, h0] at hi; simp at hi
  have hrest : (m.comps.eraseIdx i).length ≠ 0 := by
    intro h0
    have := eraseIdx_lengths h.tol.1 i
    rw [h0] at this
    rw [List.length_eq_zero_iff.1 this] at hpos
    simp at hpos
  have hw := eraseIdx_nonneg h.tol.2.1 i
  refine ⟨{ m with comps := m.comps.eraseIdx i,
                   weights := (m.weights.eraseIdx i).map (· / (m.weights.eraseIdx i).sum),
                   cum := runningSums 0
                     ((m.weights.eraseIdx i).map (· / (m.weights.eraseIdx i).sum)) },
    ?_, rfl, rfl, DiscretePdf.normalized_dist hw hpos⟩
  · unfold deleteComponent
    rw [testNotInit_ok hne, Outcome.ok_bind, cassert_true hi, Outcome.ok_bind]
    simp only
    rw [if_neg hrest, renormalize_pos (eraseIdx_lengths h.tol.1 i) hw hpos]

/-- Deleting the last component leaves an empty mixture. -/
theorem C15_last_component {dims : P → Nat} {m : Mixture K P} (h : Built dims m)
    (hn : m.numComponents = 1) :
    ∃ m', m.deleteComponent 0 = .ok (true, m') ∧ m'.comps = [] ∧ m'.weights = [] := by
  obtain ⟨c, hc⟩ := List.length_eq_one_iff.1 hn
  obtain ⟨w, hw⟩ := List.length_eq_one_iff.1 (h.tol.1.trans hn)
  refine ⟨{ m with comps := [], weights := [], cum := m.cum.dropLast }, ?_, rfl, rfl⟩
  unfold deleteComponent
  rw [testNotInit_ok (by simp [hc]), Outcome.ok_bind, cassert_true (by omega), Outcome.ok_bind]
  simp [hc, hw]

/-- The property is false: deleting the only weighted component of several reports failure, yet the
component is gone, and the object left behind cannot even be copied. -/
theorem C15_false {dims : P → Nat} {m : Mixture K P} (h : Built dims m) {i : Nat}
    (hi : i < m.numComponents) (hn : 2 ≤ m.numComponents) (h0 : (m.weights.eraseIdx i).sum = 0) :
    ∃ m', m.deleteComponent i = .ok (false, m') ∧ m'.comps = m.comps.eraseIdx i ∧
      m'.numComponents + 1 = m.numComponents ∧ m'.copy = .abort := by
  have hne : m.comps ≠ [] := by intro h0; rw [numComponents, h0] at hi; simp at hi
  have hlen : (m.comps.eraseIdx i).length + 1 = m.comps.length := by
    rw [List.length_eraseIdx, if_pos hi]; have : 2 ≤ m.comps.length := hn; omega
  have hlen2 : (m.comps.eraseIdx i).length ≠ 0 := by
    have : 2 ≤ m.comps.length := hn; omega
  refine ⟨{ m with comps := m.comps.eraseIdx i, weights := m.weights.eraseIdx i,
                   cum := m.cum.dropLast }, ?_, rfl, hlen, ?_⟩
  · unfold deleteComponent
    rw [testNotInit_ok hne, Outcome.ok_bind, cassert_true hi, Outcome.ok_bind]
    simp only
    rw [if_neg hlen2, renormalize_zero h0]
  · have hp : (0 : K) < 1 - numericPrecision := by unfold numericPrecision; norm_num
    unfold Mixture.copy weightsGet
    rw [testNotInit_ok (fun hnil => hlen2 (List.length_eq_zero_iff.2 hnil))]
    simp only [Outcome.ok_bind, Outcome.pure_eq]
    rw [cumUpdate_bad (eraseIdx_lengths h.tol.1 i) (Or.inl (by rw [h0]; exact hp))]
    rfl

/-- Concrete case: components A (weight 1) and B (weight 0); deleting A fails and removes A. -/
theorem C15_witness : ∃ m m' : Mixture ℚ Nat, BuiltExact (fun _ => 1) m ∧ m.comps = [7, 9] ∧
    m.deleteComponent 0 = .ok (false, m') ∧ m'.comps = [9] ∧ m'.weights = [0] :=
  ⟨⟨1, [7, 9], [1, 0], [0, 1, 1]⟩, ⟨1, [9], [0], [0, 1]⟩,
    .step (o := .add 9)
      (.step (o := .add 7) (m' := ⟨1, [7], [1], [0, 1]⟩) (.empty 1) (by simp) (by decide +kernel))
      (by simp) (by decide +kernel), rfl, by decide +kernel, rfl, rfl⟩

/-! ## C16 -/

/-- Adding a component with weight `w < 1` scales the others by `1 - w`; deleting it restores the
mixture. Full statement: for every non-empty mixture; missing: mixtures whose weights do not sum to
exactly one (see `C14_exact_false`), which deletion renormalises. -/
theorem C16_round_trip_partial {dims : P → Nat} {m : Mixture K P} (h : BuiltExact dims m)
    (hne : m.numComponents ≠ 0) (c : P) {w : K} (h0 : 0 ≤ w) (h1 : w < 1) :
    ∃ m', m.addComponentW c w = .ok (true, m') ∧ m'.comps = m.comps ++ [c] ∧
      m'.weights = m.weights.map (· * (1 - w)) ++ [w] ∧
      m'.deleteComponent m.numComponents = .ok (true, m) := by
  have hne' : m.comps ≠ [] := by simpa [numComponents] using hne
  have hd := h.exact.dist hne'
  have hl := h.exact.1
  have hcum := (h.exact.2.2 hne').2
  have h1w : 0 < 1 - w := by linarith
  -- the appended mixture before WeightSet
  set m1 : Mixture K P :=
    { m with comps := m.comps ++ [c], weights := m.weights ++ [0], cum := m.cum ++ [0] } with hm1
  have hl1 : m1.weights.length = m1.comps.length := append_lengths hl c
  have hd1 : IsDistribution m1.weights := ⟨append_nonneg hd.1, by simp [hm1, hd.2]⟩
  have hpos : 0 < m.weights.length := by rw [hl]; exact List.length_pos_iff.2 hne'
  have hidx : m1.numComponents - 1 = m.weights.length := by simp [hm1, numComponents, hl]
  have hi : m.weights.length < m1.weights.length := by simp [hm1]
  obtain ⟨vs, he, hdist, hlen, hv⟩ := weightSet_eq hl1 hd1 hi (by simp [hm1]; omega) h0 h1.le
  have hzero : m1.weights[m.weights.length] = 0 := by simp [hm1]
  have hvs : vs = m.weights.map (· * (1 - w)) ++ [w] := by
    rw [hv, hzero, if_pos (by norm_num)]
    simp [DiscretePdf.rescaled, hm1]
  have happ : m.addComponentW c w = .ok (true, { m1 with weights := vs, cum := runningSums 0 vs }) := by
    unfold addComponentW
    rw [mkProb_of_nonneg h0, Outcome.ok_bind, if_neg (by simp [hne'])]
    unfold appendComponent
    simp only
    rw [← hm1, hidx, he, Outcome.ok_bind]
    simp only
    rw [renormalize_pos (by simp only; rw [hlen, hl1]) hdist.1 (by simp only; rw [hdist.2]; exact one_pos)]
    simp only [hdist.2, div_one, List.map_id']
  refine ⟨_, happ, rfl, hvs, ?_⟩
  unfold deleteComponent
  have hc1 : m1.comps ≠ [] := by simp [hm1]
  rw [testNotInit_ok (m := { m1 with weights := vs, cum := runningSums 0 vs }) hc1, Outcome.ok_bind,
    cassert_true (by simp [hm1, numComponents]), Outcome.ok_bind]
  simp only
  have e1 : m1.comps.eraseIdx m.numComponents = m.comps := by
    simp [hm1, numComponents, List.eraseIdx_append]
  have e2 : vs.eraseIdx m.numComponents = m.weights.map (· * (1 - w)) := by
    rw [hvs, numComponents, ← hl]; simp [List.eraseIdx_append]
  have hlen0 : m.comps.length ≠ 0 := hne
  rw [e1, e2, if_neg hlen0]
  have hsum : (m.weights.map (· * (1 - w))).sum = 1 - w := by
    rw [sum_map_mul_right, hd.2, one_mul]
  have hback : (m.weights.map (· * (1 - w))).map (· / (m.weights.map (· * (1 - w))).sum) =
      m.weights := by
    rw [hsum, List.map_map]
    conv_rhs => rw [← List.map_id m.weights]
    apply List.map_congr_left
    intro x _
    simp only [Function.comp_apply, id]
    field_simp
  rw [renormalize_pos (by simpa using hl) (by
      intro x hx
      obtain ⟨y, hy, rfl⟩ := List.mem_map.1 hx
      exact mul_nonneg (hd.1 y hy) h1w.le) (by simp only; rw [hsum]; exact h1w)]
  simp only [hback, ← hcum, hm1]

/-- `AddComponent(pdf)` on a non-empty mixture adds a component of weight zero and leaves the other
weights alone. -/
theorem C16_add_zero_weight {dims : P → Nat} {m : Mixture K P} (h : BuiltExact dims m)
    (hne : m.numComponents ≠ 0) (c : P) :
    ∃ m', m.addComponent c = .ok (true, m') ∧ m'.comps = m.comps ++ [c] ∧
      m'.weights = m.weights ++ [0] := by
  have hne' : m.comps ≠ [] := by simpa [numComponents] using hne
  have hd := h.exact.dist hne'
  have hs : (m.weights ++ [(0 : K)]).sum = 1 := by simp [hd.2]
  refine ⟨{ m with comps := m.comps ++ [c], weights := m.weights ++ [0],
                   cum := runningSums 0 (m.weights ++ [0]) }, ?_, rfl, rfl⟩
  · unfold addComponent
    rw [if_neg hne, renormalize_pos (append_lengths h.exact.1 c) (append_nonneg hd.1)
      (by simp only; rw [hs]; exact one_pos)]
    simp only [hs, div_one, List.map_id']

/-- The first component gets weight one whatever weight is asked for. -/
theorem C16_first_component (dim : Nat) (c : P) {w : K} (h0 : 0 ≤ w) :
    ∃ m', (make dim : Mixture K P).addComponentW c w = .ok (true, m') ∧ m'.comps = [c] ∧
      m'.weights = [1] := by
  have key : (make dim : Mixture K P).appendComponent c 1 =
      .ok (true, ⟨dim, [c], [1], [0, 1]⟩) := by
    have hc : cumUpdate (⟨dim, [c], [1], [0, 0]⟩ : Mixture K P) =
        .ok (true, ⟨dim, [c], [1], [0, 1]⟩) := by
      rw [cumUpdate_of_sum rfl (by simp)]
      simp [runningSums]
    have hw : weightSet (⟨dim, [c], [0], [0, 0]⟩ : Mixture K P) 0 1 =
        .ok (true, ⟨dim, [c], [1], [0, 1]⟩) := by
      unfold weightSet
      rw [mkProb_of_nonneg zero_le_one, Outcome.ok_bind, testNotInit_ok (by simp),
        Outcome.ok_bind, cassert_true (by simp [numComponents]), Outcome.ok_bind,
        cassert_true le_rfl, Outcome.ok_bind, if_pos (by simp [numComponents]),
        vset_of_lt (by simp), Outcome.ok_bind]
      exact hc
    unfold appendComponent
    simp only [make, List.nil_append, List.cons_append, numComponents, List.length_cons,
      List.length_nil, Nat.zero_add, Nat.sub_self]
    rw [hw, Outcome.ok_bind]
    simp only
    rw [renormalize_pos rfl (by simp) (by simp)]
    simp [runningSums]
  refine ⟨⟨dim, [c], [1], [0, 1]⟩, ?_, rfl, rfl⟩
  · unfold addComponentW
    rw [mkProb_of_nonneg h0, Outcome.ok_bind]
    split
    · exact key
    · next hn =>
      have : w = 1 := by
        by_contra hw
        exact hn ⟨rfl, hw⟩
      rw [this]; exact key

example : ∃ m m' : Mixture ℚ Nat, BuiltExact (fun _ => 1) m ∧ m.numComponents = 2 ∧
    m.addComponentW 11 (1/3) = .ok (true, m') ∧ m'.weights = [1/6, 1/2, 1/3] :=
  ⟨⟨1, [7, 9], [1/4, 3/4], [0, 1/4, 1]⟩, ⟨1, [7, 9, 11], [1/6, 1/2, 1/3], [0, 1/6, 2/3, 1]⟩,
    .step (o := .addW 9 (3/4))
      (.step (o := .add 7) (m' := ⟨1, [7], [1], [0, 1]⟩) (.empty 1) (by simp) (by decide +kernel))
      (by simp) (by decide +kernel), rfl, by decide +kernel, rfl⟩

/-! ## C17 -/

/-- The mixture density is the weighted average of the component densities. -/
theorem C17_density {dims : P → Nat} {m : Mixture K P} (h : Built dims m)
    (hne : m.numComponents ≠ 0) {density : P → T → Outcome K} {x : T} {d : P → K}
    (hd : ∀ c ∈ m.comps, density c x = .ok (d c) ∧ 0 ≤ d c) :
    m.probabilityGet density x = .ok (average m.comps m.weights d) :=
  probabilityGet_eq h.tol.1 h.tol.2.1 (by simpa [numComponents] using hne) hd

/-- It lies between the smallest and the largest component density. Full statement: for every
mixture; missing: mixtures whose weights sum to one only within `1e-9`. -/
theorem C17_between_partial {dims : P → Nat} {m : Mixture K P} (h : BuiltExact dims m)
    (hne : m.numComponents ≠ 0) {density : P → T → Outcome K} {x : T} {d : P → K}
    (hd : ∀ c ∈ m.comps, density c x = .ok (d c) ∧ 0 ≤ d c) {lo hi : K}
    (hb : ∀ c ∈ m.comps, lo ≤ d c ∧ d c ≤ hi) :
    ∃ p, m.probabilityGet density x = .ok p ∧ lo ≤ p ∧ p ≤ hi := by
  have hne' : m.comps ≠ [] := by simpa [numComponents] using hne
  have hdist := h.exact.dist hne'
  refine ⟨_, probabilityGet_eq h.exact.1 h.exact.2.1 hne' hd, ?_, ?_⟩
  · have := average_mono (xs := m.comps) hdist.1 (f := fun _ => lo) (g := d)
      (fun c hc => (hb c hc).1)
    rwa [average_const h.exact.1.symm, hdist.2, one_mul] at this
  · have := average_mono (xs := m.comps) hdist.1 (g := fun _ => hi) (f := d)
      (fun c hc => (hb c hc).2)
    rwa [average_const h.exact.1.symm, hdist.2, one_mul] at this

/-- A mixture of discrete pdfs over the same `n` states is again a distribution over these states.
The same restriction as above applies. -/
theorem C17_discrete_partial {dims : DiscretePdf K → Nat} {m : Mixture K (DiscretePdf K)}
    (h : BuiltExact dims m) (hne : m.numComponents ≠ 0) {n : Nat}
    (hc : ∀ c ∈ m.comps, Reachable c ∧ c.numStates = n) :
    ∃ q : List K, IsDistribution q ∧ q.length = n ∧ ∀ s (hs : s < q.length),
      m.probabilityGet DiscretePdf.probabilityGet (s : Int) = .ok q[s] := by
  have hne' : m.comps ≠ [] := by simpa [numComponents] using hne
  have hdist := h.exact.dist hne'
  let f : Nat → K := fun s => average m.comps m.weights (fun c => c.values.getD s 0)
  have hget : ∀ s, s < n →
      m.probabilityGet DiscretePdf.probabilityGet (s : Int) = .ok (f s) := by
    intro s hs
    apply probabilityGet_eq h.exact.1 h.exact.2.1 hne'
    intro c hcm
    obtain ⟨hr, hn⟩ := hc c hcm
    have hs' : s < c.values.length := by
      have : c.values.length = n := hn
      omega
    rw [DiscretePdf.probabilityGet_nat hs']
    have : c.values.getD s 0 = c.values[s] := by simp [List.getD, hs']
    rw [this]
    exact ⟨rfl, hr.good.1.1.1 _ (List.getElem_mem _)⟩
  refine ⟨(List.range n).map f, ⟨?_, ?_⟩, by simp, ?_⟩
  · intro x hx
    obtain ⟨s, hs, rfl⟩ := List.mem_map.1 hx
    apply average_nonneg hdist.1
    intro c hcm
    obtain ⟨hr, hn⟩ := hc c hcm
    have hs' : s < c.values.length := by
      have : c.values.length = n := hn
      have := List.mem_range.1 hs
      omega
    have : c.values.getD s 0 = c.values[s] := by simp [List.getD, hs']
    rw [this]
    exact hr.good.1.1.1 _ (List.getElem_mem _)
  · have h1 : ((List.range n).map f).sum = ∑ s ∈ Finset.range n, f s := by
      rw [Finset.sum_range, ← List.sum_ofFn]
      congr 1
      apply List.ext_getElem <;> simp
    rw [h1]
    simp only [f]
    rw [← average_finset, average_congr (g := fun _ => (1 : K))]
    · rw [average_const h.exact.1.symm, hdist.2, one_mul]
    · intro c hcm
      obtain ⟨hr, hn⟩ := hc c hcm
      have hn' : c.values.length = n := hn
      have hsum := hr.good.1.1.2
      rw [← hsum, ← hn', Finset.sum_range]
      conv_rhs => rw [← List.ofFn_getElem (xs := c.values)]
      rw [List.sum_ofFn]
      apply Finset.sum_congr rfl
      intro i _
      simp [List.getD]
  · intro s hs
    rw [hget s (by simpa using hs)]
    simp

/-- The expected value of a vector mixture is the weighted average of the component means. -/
theorem C17_mean {dims : P → Nat} {m : Mixture K P} (_h : Built dims m) (hne : m.numComponents ≠ 0)
    {n : Nat} (mean : P → Fin n → K) :
    ∃ e, m.expectedValueGet mean = .ok e ∧
      ∀ k, e k = average m.comps m.weights (fun c => mean c k) := by
  have hne' : m.comps ≠ [] := by simpa [numComponents] using hne
  refine ⟨_, by unfold expectedValueGet; rw [testNotInit_ok hne']; rfl, ?_⟩
  intro k
  rw [list_sum_apply, List.map_zipWith]
  rfl

example : ∃ m : Mixture ℚ (DiscretePdf ℚ), BuiltExact (fun _ => 1) m ∧ m.numComponents = 2 ∧
    (∀ c ∈ m.comps, Reachable c ∧ c.numStates = 2) ∧
    m.probabilityGet DiscretePdf.probabilityGet 1 = .ok (7/12) := by
  refine ⟨⟨1, [⟨[1/2, 1/2], [0, 1/2, 1]⟩, ⟨[1/3, 2/3], [0, 1/3, 1]⟩], [1/2, 1/2], [0, 1/2, 1]⟩,
    .ofComponents (cs := [⟨[1/2, 1/2], [0, 1/2, 1]⟩, ⟨[1/3, 2/3], [0, 1/3, 1]⟩])
      (by decide +kernel), rfl, ?_, by decide +kernel⟩
  intro c hc
  simp only [List.mem_cons, List.not_mem_nil, or_false] at hc
  rcases hc with rfl | rfl
  · exact ⟨⟨2, ⟨[1/2, 1/2], [0, 1/2, 1]⟩, [], by decide +kernel, rfl⟩, rfl⟩
  · exact ⟨⟨2, ⟨[1/2, 1/2], [0, 1/2, 1]⟩, [.probabilitiesSet [1, 2]], by decide +kernel,
      by decide +kernel⟩, rfl⟩

/-! ## C18 -/

theorem selected_of_lt {m : Mixture K P} {i : Nat} (hi : i < m.comps.length) :
    m.selected (i + 1) = .ok m.comps[i] := vget_of_lt hi

/-- A draw in (0,1] asks the component whose weight interval contains it, and that component has
positive weight. Full statement: for every draw of the generator and every mixture; missing: the
draw 0 (undefined behaviour, see `C18_zero_draw`), and mixtures normalised only within `1e-9`. -/
theorem C18_inversion_partial {dims : P → Nat} {m : Mixture K P} (h : BuiltExact dims m)
    (hne : m.numComponents ≠ 0) {u : K} (h0 : 0 < u) (h1 : u ≤ 1) :
    ∃ i, Inverts m.weights u i ∧ (∃ hw : i < m.weights.length, 0 < m.weights[i]) ∧
      ∃ hi : i < m.comps.length, ∀ (draw : P → SampleMthd → Outcome (Option T)) (init : T),
        m.sampleOne draw .default init u =
          (draw m.comps[i] .default >>= fun r => .ok (some (r.getD init))) := by
  have hne' : m.comps ≠ [] := by simpa [numComponents] using hne
  have hd := h.exact.dist hne'
  obtain ⟨i, hinv⟩ := Inverts.exists (p := m.weights) h0 (by rw [hd.2]; exact h1)
  have hi : i < m.comps.length := by rw [← h.exact.1]; exact hinv.1
  refine ⟨i, hinv, ⟨hinv.1, ?_⟩, hi, ?_⟩
  · have := massBelow_succ hinv.1
    have h2 := hinv.2.1.trans_le hinv.2.2
    rw [this] at h2
    linarith
  · intro draw init
    unfold sampleOne
    rw [testNotInit_ok hne', Outcome.ok_bind]
    simp only
    rw [(h.exact.2.2 hne').2, sweep_runningSums hd.1 hinv (by rw [h.exact.1]), Outcome.ok_bind]
    simp only
    rw [selected_of_lt hi, Outcome.ok_bind]
    rfl

/-- For every successful history (also within tolerance) a draw in (0,1] finds an existing
component. -/
theorem C18_exists {dims : P → Nat} {m : Mixture K P} (h : Built dims m)
    (hne : m.numComponents ≠ 0) {u : K} (h0 : 0 < u) (h1 : u ≤ 1) :
    ∃ i, ∃ hi : i < m.comps.length,
      ∀ (draw : P → SampleMthd → Outcome (Option T)) (init : T),
        m.sampleOne draw .default init u =
          (draw m.comps[i] .default >>= fun r => .ok (some (r.getD init))) := by
  have hne' : m.comps ≠ [] := by simpa [numComponents] using hne
  obtain ⟨_, _, hcum⟩ := h.tol.2.2 hne'
  have hclen : m.cum.length = m.comps.length + 1 := by
    rw [hcum, setLast_length _ _ (runningSums_ne_nil _ _), runningSums_length, h.tol.1]
  have hlast : m.cum[m.comps.length]'(by omega) = 1 := by
    have hdl : (runningSums 0 m.weights).dropLast.length = m.comps.length := by
      simp [h.tol.1]
    simp only [hcum, setLast]
    rw [List.getElem_append_right (by omega)]
    simp
  have hex : ∃ k, ∃ hk : k < m.cum.length, u ≤ m.cum[k] :=
    ⟨m.comps.length, by omega, by rw [hlast]; exact h1⟩
  classical
  obtain ⟨k, ⟨hk, hle⟩, hmin⟩ : ∃ k, (∃ hk : k < m.cum.length, u ≤ m.cum[k]) ∧
      ∀ j, j < k → ¬ ∃ hj : j < m.cum.length, u ≤ m.cum[j] :=
    ⟨Nat.find hex, Nat.find_spec hex, fun j => Nat.find_min hex (m := j)⟩
  have hzero : m.cum[0]'(by omega) = 0 := by
    have hwpos : 0 < m.weights.length := by rw [h.tol.1]; exact List.length_pos_iff.2 hne'
    obtain ⟨w, ws, hw⟩ := List.exists_cons_of_ne_nil (List.length_pos_iff.1 hwpos)
    have : ∃ l, m.cum = 0 :: l := by
      obtain ⟨x, l, hx⟩ := List.exists_cons_of_ne_nil (runningSums_ne_nil (0 + w) ws)
      rw [hcum, hw, runningSums, hx]
      exact ⟨_, rfl⟩
    obtain ⟨l, hl⟩ := this
    simp [hl]
  have hk0 : k ≠ 0 := by
    intro hk0
    subst hk0
    rw [hzero] at hle
    exact absurd h0 (not_lt.2 hle)
  obtain ⟨i, hi⟩ := Nat.exists_eq_succ_of_ne_zero hk0
  have hkle : k ≤ m.comps.length := by omega
  have hil : i < m.comps.length := by omega
  refine ⟨i, hil, ?_⟩
  intro draw init
  have hs := sweep_ok (n := m.numComponents) (k := 0) hk hle (fun j hj => by
    by_contra hc
    exact hmin j hj ⟨by omega, not_lt.1 hc⟩) (by unfold numComponents; omega)
  unfold sampleOne
  rw [testNotInit_ok hne', Outcome.ok_bind]
  simp only
  rw [hs, Outcome.ok_bind, Nat.zero_add]
  simp only
  rw [hi, Nat.succ_eq_add_one, selected_of_lt hil, Outcome.ok_bind]
  rfl

/-- The draw 0, which the generator can return, reads a component at index `2^32 - 1`. -/
theorem C18_zero_draw {dims : P → Nat} {m : Mixture K P} (h : BuiltExact dims m)
    (hne : m.numComponents ≠ 0) (draw : P → SampleMthd → Outcome (Option T)) (init : T) :
    m.sampleOne draw .default init 0 = .ub := by
  have hne' : m.comps ≠ [] := by simpa [numComponents] using hne
  unfold sampleOne
  rw [testNotInit_ok hne', Outcome.ok_bind]
  simp only
  rw [(h.exact.2.2 hne').2, sweep_runningSums_zero _ le_rfl, Outcome.ok_bind]
  rfl

/-- The RIPLEY list draw asks, for each ordered uniform value, the component that a look-up of that
value selects. -/
theorem C18_ripley_lookups {dims : P → Nat} {m : Mixture K P} (h : BuiltExact dims m)
    (hne : m.numComponents ≠ 0) {root : Nat → K → K}
    (hroot : ∀ k x, 0 ≤ x → x ≤ 1 → 0 ≤ root k x ∧ root k x ≤ 1)
    (hpos : ∀ k x, 0 < x → 0 < root k x) {us : List K} (hus : ∀ u ∈ us, 0 < u ∧ u ≤ 1)
    (hnil : us ≠ []) (sample : Nat → P → T) (init : T) :
    ∃ ts, m.sampleList root (fun k c _ => .ok (some (sample k c))) .ripley init us = .ok (some ts) ∧
      ts.length = us.length ∧
      ∀ k (hk : k < ts.length), ∃ i, Inverts m.weights (orderedUniform root us k) i ∧
        ∃ hi : i < m.comps.length, ts[k] = sample k m.comps[i] := by
  have hne' : m.comps ≠ [] := by simpa [numComponents] using hne
  have hd := h.exact.dist hne'
  have hcum := (h.exact.2.2 hne').2
  obtain ⟨hb, hsort⟩ := orderedUniforms_bounds hroot 0 us (fun u hu => ⟨(hus u hu).1.le, (hus u hu).2⟩)
  have hp := orderedUniforms_pos hpos 0 us (fun u hu => (hus u hu).1)
  have key : ∀ (vs : List K) (k j : Nat) (idx : Nat) (rest : List K),
      vs.Pairwise (· ≤ ·) → (∀ v ∈ vs, 0 < v ∧ v ≤ 1) →
      (∀ v ∈ vs, sweep m.numComponents v idx rest = sweep m.numComponents v 0 m.cum) →
      ∃ ts, m.ripleyLoop (fun k c _ => .ok (some (sample k c))) init k vs idx rest = .ok ts ∧
        ts.length = vs.length ∧ ∀ j (hj : j < ts.length), ∃ v i, vs[j]? = some v ∧
          Inverts m.weights v i ∧ ∃ hi : i < m.comps.length, ts[j] = sample (k + j) m.comps[i] := by
    intro vs
    induction vs with
    | nil => intro k j idx rest _ _ _; exact ⟨[], rfl, rfl, by simp⟩
    | cons v vs ih =>
      intro k j idx rest hs hb heq
      rw [List.pairwise_cons] at hs
      obtain ⟨hv0, hv1⟩ := hb v (by simp)
      obtain ⟨i, hinv⟩ := Inverts.exists (p := m.weights) hv0 (by rw [hd.2]; exact hv1)
      have hi : i < m.comps.length := by rw [← h.exact.1]; exact hinv.1
      have hsw : sweep m.numComponents v 0 m.cum = .ok (i + 1, m.cum.drop (i + 1)) := by
        rw [hcum]; exact sweep_runningSums hd.1 hinv (by rw [h.exact.1])
      obtain ⟨ts, hts, hlen, hspec⟩ := ih (k + 1) j (i + 1) (m.cum.drop (i + 1)) hs.2
        (fun v' hv' => hb v' (by simp [hv'])) (fun v' hv' => sweep_resume (hs.1 v' hv') hsw)
      refine ⟨sample k m.comps[i] :: ts, ?_, by simp [hlen], ?_⟩
      · unfold ripleyLoop
        rw [heq v (by simp), hsw, Outcome.ok_bind]
        simp only
        rw [selected_of_lt hi, Outcome.ok_bind, Outcome.ok_bind, hts]
        rfl
      · intro j hj
        cases j with
        | zero => exact ⟨v, i, rfl, hinv, hi, rfl⟩
        | succ j =>
          obtain ⟨v', i', h1, h2, h3, h4⟩ := hspec j (by simpa using hj)
          refine ⟨v', i', by simpa using h1, h2, h3, ?_⟩
          simp only [List.getElem_cons_succ]
          rw [h4]; congr 1; omega
  obtain ⟨ts, hts, hlen, hspec⟩ := key (orderedUniforms root 0 us) 0 0 0 m.cum hsort
    (fun v hv => ⟨hp v hv, (hb v hv).2⟩) (fun _ _ => rfl)
  refine ⟨ts, ?_, by simpa using hlen, ?_⟩
  · unfold sampleList
    rw [testNotInit_ok hne', Outcome.ok_bind]
    simp only
    rw [if_neg hnil, hts]
    rfl
  · intro k hk
    obtain ⟨v, i, h1, h2, h3, h4⟩ := hspec k hk
    have hku : k < us.length := by rw [hlen] at hk; simpa using hk
    have hk' : k < (orderedUniforms root 0 us).length := by simpa using hku
    rw [List.getElem?_eq_getElem hk', Option.some.injEq,
      orderedUniforms_getElem root 0 us k hku hk'] at h1
    refine ⟨i, ?_, h3, by rw [h4, Nat.zero_add]⟩
    rw [← h1] at h2
    simpa [orderedUniform] using h2

example : ∃ m : Mixture ℚ Nat, BuiltExact (fun _ => 1) m ∧ m.numComponents = 2 ∧
    m.sampleOne (fun c _ => .ok (some (10 * c))) .default 0 (1/4) = .ok (some 70) ∧
    m.sampleOne (fun c _ => .ok (some (10 * c))) .default 0 (1/2) = .ok (some 90) :=
  ⟨⟨1, [7, 9], [1/4, 3/4], [0, 1/4, 1]⟩,
    .step (o := .addW 9 (3/4))
      (.step (o := .add 7) (m' := ⟨1, [7], [1], [0, 1]⟩) (.empty 1) (by simp) (by decide +kernel))
      (by simp) (by decide +kernel), rfl, by decide +kernel, by decide +kernel⟩

/-! ## C19 -/

/-- Copying a non-empty mixture gives an equal mixture. Full statement: for every mixture; missing
(and false, see `C19_false`): the empty mixture. -/
theorem C19_copy_partial {dims : P → Nat} {m : Mixture K P} (h : Built dims m)
    (hne : m.numComponents ≠ 0) : m.copy = .ok m :=
  copy_tol h.tol (by simpa [numComponents] using hne)

/-- The empty mixture cannot be copied. -/
theorem C19_false (dim : Nat) : (make dim : Mixture K P).copy = .abort := by
  simp [Mixture.copy, weightsGet, testNotInit_empty (m := (make dim : Mixture K P)) rfl]

example : ∃ m : Mixture ℚ Nat, Built (fun _ => 1) m ∧ m.numComponents ≠ 0 :=
  ⟨⟨1, [7], [1], [0, 1]⟩, .step (o := .add 7) (.empty 1) (by decide +kernel), by decide⟩

/-! ## C51 -/

/-- The property is false: if no component can draw with method RIPLEY, the list draw still returns
`true`, and every sample keeps the value it had before the call. -/
theorem C51_false {dims : P → Nat} {m : Mixture K P} (h : BuiltExact dims m)
    (hne : m.numComponents ≠ 0) {root : Nat → K → K}
    (hroot : ∀ k x, 0 ≤ x → x ≤ 1 → 0 ≤ root k x ∧ root k x ≤ 1)
    (hpos : ∀ k x, 0 < x → 0 < root k x) {us : List K} (hus : ∀ u ∈ us, 0 < u ∧ u ≤ 1)
    (hnil : us ≠ []) {draw : Nat → P → SampleMthd → Outcome (Option T)}
    (hdraw : ∀ k c, draw k c .ripley = .ok none) (init : T) :
    m.sampleList root draw .ripley init us = .ok (some (List.replicate us.length init)) := by
  obtain ⟨ts, hts, hlen, _⟩ := C18_ripley_lookups h hne hroot hpos hus hnil
    (fun _ _ => init) init
  have hne' : m.comps ≠ [] := by simpa [numComponents] using hne
  have key : ∀ (vs : List K) (k idx : Nat) (rest : List K) (ts : List T),
      m.ripleyLoop (fun _ _ _ => .ok (some init)) init k vs idx rest = .ok ts →
      m.ripleyLoop draw init k vs idx rest = .ok (List.replicate vs.length init) := by
    intro vs
    induction vs with
    | nil => intro k idx rest ts _; rfl
    | cons v vs ih =>
      intro k idx rest ts hh
      unfold ripleyLoop at hh ⊢
      rw [Outcome.bind_eq_ok] at hh
      obtain ⟨⟨i, r⟩, h1, hh⟩ := hh
      rw [Outcome.bind_eq_ok] at hh
      obtain ⟨c, h2, hh⟩ := hh
      rw [Outcome.ok_bind, Outcome.bind_eq_ok] at hh
      obtain ⟨ts', h3, _⟩ := hh
      rw [h1, Outcome.ok_bind]
      simp only
      rw [h2, Outcome.ok_bind, hdraw, Outcome.ok_bind, ih _ _ _ _ h3]
      simp [List.replicate_succ]
  unfold sampleList at hts ⊢
  rw [testNotInit_ok hne', Outcome.ok_bind] at hts ⊢
  simp only at hts ⊢
  rw [if_neg hnil] at hts ⊢
  rw [Outcome.bind_eq_ok] at hts
  obtain ⟨ts', h3, _⟩ := hts
  rw [key _ _ _ _ _ h3]
  simp

/-- Single draws of `DiscretePdf`, `MCPdf` and `Mixture` itself refuse the method RIPLEY, so
`C51_false` applies to mixtures of them. -/
theorem C51_library_components :
    (∀ (d : DiscretePdf K) (u : K), d.sampleOne .ripley u = .ok none) ∧
    (∀ (p : MCPdf K T) (u : K), p.sampleOne .ripley u = .ok none) ∧
    (∀ (m : Mixture K P) (draw : P → SampleMthd → Outcome (Option T)) (init : T) (u : K),
      m.comps ≠ [] → m.sampleOne draw .ripley init u = .ok none) := by
  refine ⟨fun _ _ => rfl, fun _ _ => rfl, fun m draw init u hne => ?_⟩
  unfold sampleOne
  rw [testNotInit_ok hne]
  rfl

/-- With method DEFAULT a successful list draw does contain one component draw per element. Full
statement: for every method; missing (and false): RIPLEY. -/
theorem C51_default_partial {m : Mixture K P} {root : Nat → K → K} {us : List K} {init : T}
    {ts : List T} {draw : Nat → P → SampleMthd → Outcome (Option T)}
    (hdraw : ∀ k c, ∃ t, draw k c .default = .ok (some t))
    (h : m.sampleList root draw .default init us = .ok (some ts)) :
    ts.length = us.length ∧ ∀ k (hk : k < ts.length), ∃ c ∈ m.comps,
      draw k c .default = .ok (some ts[k]) := by
  have key : ∀ (us : List K) (k : Nat) (ts : List T), m.defaultLoop draw init k us = .ok ts →
      ts.length = us.length ∧ ∀ j (hj : j < ts.length), ∃ c ∈ m.comps,
        draw (k + j) c .default = .ok (some ts[j]) := by
    intro us
    induction us with
    | nil => intro k ts h; simp [defaultLoop] at h; subst h; simp
    | cons u us ih =>
      intro k ts h
      unfold defaultLoop at h
      simp only [Outcome.bind_eq_ok] at h
      obtain ⟨⟨i, r⟩, h1, c, h2, t, h3, ts', h4, h5⟩ := h
      simp only [Outcome.pure_eq, Outcome.ok.injEq] at h5
      subst h5
      obtain ⟨hlen, hspec⟩ := ih _ _ h4
      have hc : c ∈ m.comps := by
        cases i with
        | zero => simp [selected] at h2
        | succ i =>
          simp only [selected, vget_eq_ok] at h2
          exact List.mem_of_getElem? h2
      refine ⟨by simp [hlen], ?_⟩
      intro j hj
      cases j with
      | zero =>
        obtain ⟨t', ht'⟩ := hdraw k c
        rw [ht'] at h3
        simp only [Outcome.ok.injEq] at h3
        subst h3
        exact ⟨c, hc, by simpa using ht'⟩
      | succ j =>
        obtain ⟨c', hc', hd'⟩ := hspec j (by simpa using hj)
        refine ⟨c', hc', ?_⟩
        simp only [List.getElem_cons_succ]
        rw [← hd']; congr 1; omega
  unfold sampleList at h
  simp only [Outcome.bind_eq_ok, Outcome.pure_eq, Outcome.ok.injEq, Option.some.injEq] at h
  obtain ⟨_, _, ts', h1, rfl⟩ := h
  obtain ⟨h2, h3⟩ := key us 0 ts' h1
  exact ⟨h2, fun k hk => by simpa using h3 k hk⟩

example : ∃ m : Mixture ℚ Nat, BuiltExact (fun _ => 1) m ∧ m.numComponents = 2 ∧
    m.sampleList (fun _ x => x) (fun _ c s => .ok (if s = .default then some (10 * c) else none))
      .ripley 5 [1/2, 1/3] = .ok (some [5, 5]) ∧
    m.sampleList (fun _ x => x) (fun _ c s => .ok (if s = .default then some (10 * c) else none))
      .default 5 [1/2, 1/5] = .ok (some [90, 70]) :=
  ⟨⟨1, [7, 9], [1/4, 3/4], [0, 1/4, 1]⟩,
    .step (o := .addW 9 (3/4))
      (.step (o := .add 7) (m' := ⟨1, [7], [1], [0, 1]⟩) (.empty 1) (by simp) (by decide +kernel))
      (by simp) (by decide +kernel), rfl, by decide +kernel, by decide +kernel⟩

/-! ## C52 -/

/-- `MostProbableComponentGet` returns the first component of largest weight. -/
theorem C52_component {dims : P → Nat} {m : Mixture K P} (h : Built dims m)
    (hne : m.numComponents ≠ 0) :
    ∃ i, ∃ hi : i < m.weights.length, m.mostProbableComponentGet = .ok (i : Int) ∧
      (∀ w ∈ m.weights, w ≤ m.weights[i]) ∧
      ∀ j (hj : j < m.weights.length), j < i → m.weights[j] < m.weights[i] := by
  have hne' : m.comps ≠ [] := by simpa [numComponents] using hne
  have hsum : 0 < m.weights.sum := by
    have h1 := (h.tol.2.2 hne').1
    have h2 : (0 : K) < 1 - numericPrecision := by unfold numericPrecision; norm_num
    linarith
  unfold mostProbableComponentGet
  rw [testNotInit_ok hne', Outcome.ok_bind]
  rcases mostProbableLoop_spec m.weights 0 (-1) 0 with ⟨_, h2⟩ | ⟨i, hi, h1, _, h3, h4⟩
  · exfalso
    have hz : ∀ l : List K, (∀ w ∈ l, w ≤ 0) → l.sum ≤ 0 := by
      intro l
      induction l with
      | nil => simp
      | cons a l ih =>
        intro hl
        rw [List.sum_cons]
        have := hl a (by simp)
        have := ih fun w hw => hl w (by simp [hw])
        linarith
    have := hz m.weights h2
    linarith
  · refine ⟨i, hi, ?_, h3, h4⟩
    simp only [Outcome.pure_eq, Nat.zero_add] at h1 ⊢
    rw [← h1]; rfl

/-- The expected value of a mixture of discrete pdfs is its most probable state, the first one in
case of ties. -/
theorem C52_state {dims : DiscretePdf K → Nat} {m : Mixture K (DiscretePdf K)}
    (h : Built dims m) (hne : m.numComponents ≠ 0) {n : Nat}
    (hc : ∀ c ∈ m.comps, Reachable c ∧ c.numStates = n) :
    ∃ s p, m.mostProbableState DiscretePdf.numStates DiscretePdf.probabilityGet = .ok s ∧ s < n ∧
      m.probabilityGet DiscretePdf.probabilityGet (s : Int) = .ok p ∧
      ∀ s' : Nat, s' < n → ∃ p', m.probabilityGet DiscretePdf.probabilityGet (s' : Int) = .ok p' ∧
        p' ≤ p ∧ (s' < s → p' < p) := by
  have hne' : m.comps ≠ [] := by simpa [numComponents] using hne
  let d : Nat → DiscretePdf K → K := fun s c => c.values.getD s 0
  let f : Nat → K := fun s => average m.comps m.weights (d s)
  have hdc : ∀ s, s < n → ∀ c ∈ m.comps,
      DiscretePdf.probabilityGet c (s : Int) = .ok (d s c) ∧ 0 ≤ d s c := by
    intro s hs c hcm
    obtain ⟨hr, hn⟩ := hc c hcm
    have hs' : s < c.values.length := by
      have : c.values.length = n := hn
      omega
    rw [DiscretePdf.probabilityGet_nat hs']
    have : d s c = c.values[s] := by simp [d, List.getD, hs']
    rw [this]
    exact ⟨rfl, hr.good.1.1.1 _ (List.getElem_mem _)⟩
  have hget : ∀ s, s < n →
      m.probabilityGet DiscretePdf.probabilityGet (s : Int) = .ok (f s) :=
    fun s hs => probabilityGet_eq h.tol.1 h.tol.2.1 hne' (hdc s hs)
  have hst : ∀ s, s < n → m.stateProb DiscretePdf.probabilityGet s = .ok (f s) := by
    intro s hs
    unfold stateProb
    rw [mapOutcome_eq_ok (g := d s) (fun c hc => (hdc s hs c hc).1), Outcome.ok_bind]
    simp only [Outcome.pure_eq, Outcome.ok.injEq, f, average, List.zipWith_map_left]
    congr 2
    funext c w
    ring
  obtain ⟨c0, cs, hcs⟩ := List.exists_cons_of_ne_nil hne'
  have hc0 : c0.numStates = n := (hc c0 (by simp [hcs])).2
  have hnpos : 0 < n := by
    rw [← hc0]; exact (hc c0 (by simp [hcs])).1.good.2
  have hf0 : ∀ s, s < n → 0 ≤ f s := fun s hs =>
    average_nonneg h.tol.2.1 (fun c hcm => (hdc s hs c hcm).2)
  obtain ⟨r, hr, hcase⟩ := bestStateLoop_spec f (f := m.stateProb DiscretePdf.probabilityGet)
    n 0 0 (-1) (fun i _ hi => hst i (by omega))
  have hmp : m.mostProbableState DiscretePdf.numStates DiscretePdf.probabilityGet = .ok r := by
    unfold mostProbableState
    rw [testNotInit_ok hne', Outcome.ok_bind]
    have : vget m.comps 0 = .ok c0 := by rw [hcs]; rfl
    rw [this, Outcome.ok_bind, cassert_true (by
      intro c hcm
      rw [hc0, (hc c hcm).2]), Outcome.ok_bind, hc0, hr]
  rcases hcase with ⟨_, hbad⟩ | ⟨_, hrn, _, hmax, htie⟩
  · exfalso
    have := hbad 0 le_rfl (by omega)
    have := hf0 0 hnpos
    linarith
  · have hrn' : r < n := by omega
    refine ⟨r, f r, hmp, hrn', hget r hrn', ?_⟩
    intro s' hs'
    exact ⟨f s', hget s' hs', hmax s' (Nat.zero_le _) (by omega), fun hlt => htie s' (Nat.zero_le _) hlt⟩

example : ∃ m : Mixture ℚ Nat, Built (fun _ => 1) m ∧ m.numComponents = 3 ∧
    m.weights = [1/5, 2/5, 2/5] ∧ m.mostProbableComponentGet = .ok 1 :=
  ⟨⟨1, [7, 8, 9], [1/5, 2/5, 2/5], [0, 1/5, 3/5, 1]⟩,
    .step (o := .weightsSet [1, 2, 2])
      (.ofComponents (cs := [7, 8, 9]) (m := ⟨1, [7, 8, 9], [1/3, 1/3, 1/3], [0, 1/3, 2/3, 1]⟩)
        (by decide +kernel)) (by decide +kernel), rfl, rfl, by decide +kernel⟩

end BFL.Props
