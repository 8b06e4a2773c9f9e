import Verif.Model.MCPdf
import Verif.Lemmas.DiscretePdf

/-! Helper lemmas for `MCPdf`. -/

set_option linter.unusedSectionVars false

namespace BFL

open Spec

variable {K T : Type} [Field K] [LinearOrder K] [IsStrictOrderedRing K]

theorem weightGets_eq_ok {ss : List (WSample K T)} {ws : List K} :
    mapOutcome WSample.weightGet ss = .ok ws ↔ ss.map (·.weight) = ws.map some := by
  induction ss generalizing ws with
  | nil => cases ws <;> simp [mapOutcome]
  | cons s ss ih =>
    simp only [mapOutcome, Outcome.bind_eq_ok, ih, Outcome.pure_eq, Outcome.ok.injEq]
    cases ws with
    | nil => simp
    | cons w ws =>
      simp only [List.map_cons, List.cons.injEq]
      constructor
      · rintro ⟨a, h1, b, h2, h3, h4⟩
        subst h3 h4
        refine ⟨?_, h2⟩
        unfold WSample.weightGet at h1
        split at h1 <;> simp_all
      · rintro ⟨h1, h2⟩
        exact ⟨w, by simp [WSample.weightGet, h1], ws, h2, rfl, rfl⟩

theorem list_sum_apply {ι : Type} (l : List (ι → K)) (k : ι) :
    l.sum k = (l.map (fun x => x k)).sum := by
  induction l with
  | nil => rfl
  | cons x xs ih => simp [ih]

namespace MCPdf

/-- The table always has one more entry than there are samples. -/
def Sized (p : MCPdf K T) : Prop := p.cum.length = p.samples.length + 1

/-- State after a successful assignment of a non-empty list. -/
def Good (p : MCPdf K T) (ws : List K) : Prop :=
  p.samples.map (·.weight) = ws.map some ∧ IsDistribution ws ∧ p.cum = runningSums 0 ws ∧
    p.sumWeights = 1

theorem Good.length {p : MCPdf K T} {ws : List K} (h : Good p ws) :
    p.samples.length = ws.length := by
  have := congrArg List.length h.1
  simpa using this

theorem Good.sized {p : MCPdf K T} {ws : List K} (h : Good p ws) : Sized p := by
  unfold Sized
  rw [h.2.2.1, h.length]; simp

theorem Good.pos {p : MCPdf K T} {ws : List K} (h : Good p ws) : 0 < ws.length := by
  by_contra hc
  have : ws = [] := List.length_eq_zero_iff.1 (by omega)
  have h2 := h.2.1.2
  simp [this] at h2

theorem numSamplesSet_length (dflt : T) (p : MCPdf K T) (k : Nat) :
    (p.numSamplesSet dflt k).samples.length = k := by
  unfold numSamplesSet
  simp only
  split
  · simp; omega
  · split
    · simp; omega
    · omega

theorem numSamplesSet_sized (dflt : T) {p : MCPdf K T} (h : Sized p) (k : Nat) :
    (p.numSamplesSet dflt k).cum.length = k + 1 := by
  unfold Sized at h
  unfold numSamplesSet
  simp only
  split
  · simp; omega
  · split
    · simp; omega
    · omega

theorem cumUpdate_eq {p : MCPdf K T} (hs : Sized p) {ws : List K}
    (hw : p.samples.map (·.weight) = ws.map some) (h1 : p.sumWeights = 1) :
    p.cumUpdate = .ok { p with cum := runningSums 0 ws } := by
  unfold cumUpdate
  rw [weightGets_eq_ok.2 hw, Outcome.ok_bind, if_neg (by rw [hs]; omega)]
  have : p.cum.drop (p.samples.length + 1) = [] := List.drop_of_length_le (by rw [hs])
  rw [this, h1]
  simp

/-- Samples with all weights divided by `c`. -/
def scaled (los : List (WSample K T)) (c : K) : List (WSample K T) :=
  los.map fun s => { s with weight := s.weight.map (· / c) }

theorem scaled_weights {los : List (WSample K T)} {ws : List K}
    (hw : los.map (·.weight) = ws.map some) (c : K) :
    (scaled los c).map (·.weight) = (ws.map (· / c)).map some := by
  have h := congrArg (List.map (Option.map (· / c))) hw
  simpa [scaled, Function.comp_def] using h

theorem scaled_values (los : List (WSample K T)) (c : K) :
    (scaled los c).map (·.value) = los.map (·.value) := by
  simp [scaled, Function.comp_def]

theorem normalizeWeights_pos {p : MCPdf K T} (hs : Sized p) {ws : List K}
    (hw : p.samples.map (·.weight) = ws.map some) (hnn : ∀ w ∈ ws, 0 ≤ w) (hpos : 0 < ws.sum) :
    p.normalizeWeights = .ok (true,
      { samples := scaled p.samples ws.sum, cum := runningSums 0 (ws.map (· / ws.sum)),
        sumWeights := 1 }) := by
  unfold normalizeWeights sumWeightsUpdate
  rw [weightGets_eq_ok.2 hw, Outcome.ok_bind, if_pos hpos]
  simp only [Outcome.pure_eq, Outcome.ok_bind, if_true]
  have hm : mapOutcome (fun (s : WSample K T) => do
      let w ← s.weightGet
      s.weightSet (w / ws.sum)) p.samples = .ok (scaled p.samples ws.sum) := by
    apply mapOutcome_eq_ok
    intro s hs
    have h1 : s.weight ∈ ws.map some := by rw [← hw]; exact List.mem_map_of_mem hs
    obtain ⟨w, hw1, hw2⟩ := List.mem_map.1 h1
    simp only [WSample.weightGet, ← hw2, Outcome.ok_bind, WSample.weightSet]
    rw [cassert_true (div_nonneg (hnn w hw1) hpos.le)]
    simp
  rw [hm]
  simp only [Outcome.ok_bind]
  rw [cumUpdate_eq (p := { samples := scaled p.samples ws.sum, cum := p.cum, sumWeights := 1 })
    (by unfold Sized at *; simpa [scaled] using hs) (scaled_weights hw _) rfl]
  rfl

theorem normalizeWeights_zero {p : MCPdf K T} {ws : List K}
    (hw : p.samples.map (·.weight) = ws.map some) (h0 : ¬ 0 < ws.sum) :
    p.normalizeWeights = .ok (false, p) := by
  unfold normalizeWeights sumWeightsUpdate
  rw [weightGets_eq_ok.2 hw, Outcome.ok_bind, if_neg h0]
  simp

/-- Inversion of a completed `NormalizeWeights`. -/
theorem normalizeWeights_inv {p p' : MCPdf K T} {b : Bool}
    (h : p.normalizeWeights = .ok (b, p')) :
    ∃ ws : List K, p.samples.map (·.weight) = ws.map some ∧ (b = true ↔ 0 < ws.sum) := by
  have h' := h
  unfold normalizeWeights sumWeightsUpdate at h'
  cases hc : mapOutcome WSample.weightGet p.samples with
  | abort => rw [hc] at h'; simp at h'
  | ub => rw [hc] at h'; simp at h'
  | ok ws =>
    rw [weightGets_eq_ok] at hc
    refine ⟨ws, hc, ?_⟩
    by_cases hp : 0 < ws.sum
    · simp only [hp, iff_true]
      rw [weightGets_eq_ok.2 hc, Outcome.ok_bind, if_pos hp] at h'
      simp only [Outcome.pure_eq, Outcome.ok_bind, if_true, Outcome.bind_eq_ok] at h'
      obtain ⟨_, _, _, _, h3⟩ := h'
      simp only [Outcome.ok.injEq, Prod.mk.injEq] at h3
      exact h3.1.symm
    · rw [normalizeWeights_zero hc hp] at h
      simp only [Outcome.ok.injEq, Prod.mk.injEq] at h
      simp [hp, ← h.1]

/-- `NormalizeWeights` keeps the sizes of the two vectors consistent. -/
theorem normalizeWeights_sized {p p' : MCPdf K T} (hs : Sized p) {b : Bool}
    (h : p.normalizeWeights = .ok (b, p')) : Sized p' := by
  unfold normalizeWeights sumWeightsUpdate at h
  cases hc : mapOutcome WSample.weightGet p.samples with
  | abort => rw [hc] at h; simp at h
  | ub => rw [hc] at h; simp at h
  | ok ws =>
    rw [hc, Outcome.ok_bind] at h
    split at h
    · simp only [Outcome.pure_eq, Outcome.ok_bind, if_true, Outcome.bind_eq_ok] at h
      obtain ⟨ss, h1, q, h2, h3⟩ := h
      simp only [Outcome.ok.injEq, Prod.mk.injEq] at h3
      obtain ⟨_, rfl⟩ := h3
      have hl := mapOutcome_ok_length h1
      unfold cumUpdate at h2
      simp only [Outcome.bind_eq_ok] at h2
      obtain ⟨ws', h4, h5⟩ := h2
      have hl2 := mapOutcome_ok_length h4
      split at h5
      · simp at h5
      · simp only [Outcome.pure_eq, Outcome.ok.injEq] at h5
        subst h5
        unfold Sized at *
        simp only [List.length_append, runningSums_length, List.length_map, List.length_drop] at *
        omega
    · simp at h
      obtain ⟨_, rfl⟩ := h
      exact hs

theorem uniformWeights_eq (los : List T) :
    uniformWeights (K := K) los =
      .ok (los.map fun t => { value := t, weight := some (1 / (los.length : K)) }) := by
  unfold uniformWeights
  apply mapOutcome_eq_ok
  intro t ht
  unfold WSample.weightSet WSample.ofSample
  rw [cassert_true (by positivity)]
  rfl

theorem uniform_weights (los : List T) :
    ((los.map fun t => ({ value := t, weight := some (1 / (los.length : K)) } : WSample K T)).map
      (·.weight)) = (List.replicate los.length (1 / (los.length : K))).map some := by
  simp [Function.comp_def]

theorem listSetU_eq (dflt : T) {p : MCPdf K T} (hs : Sized p) (los : List T) :
    p.listSetU dflt los = .ok (true,
      { samples := los.map fun t => { value := t, weight := some (1 / (los.length : K)) }
        cum := runningSums 0 (List.replicate los.length (1 / (los.length : K)))
        sumWeights := 1 }) := by
  unfold listSetU
  rw [uniformWeights_eq, Outcome.ok_bind]
  rw [cumUpdate_eq (ws := List.replicate los.length (1 / (los.length : K)))
    (by unfold Sized; simpa using numSamplesSet_sized dflt hs los.length)
    (uniform_weights los) rfl]
  rfl

theorem listUpdateU_eq (dflt : T) {p : MCPdf K T} {los : List T}
    (hl : los.length = p.samples.length) (hne : los ≠ []) :
    p.listUpdateU dflt los = p.listSetU dflt los := by
  unfold listUpdateU listSetU
  rw [if_pos hl, cassert_true (by simpa using hne)]
  rfl

theorem step_sized (dflt : T) {p p' : MCPdf K T} (hs : Sized p) {o : Op K T} {b : Bool}
    (h : p.step dflt o = .ok (b, p')) : Sized p' := by
  cases o with
  | setW los =>
    refine normalizeWeights_sized ?_ h
    unfold Sized
    simpa using numSamplesSet_sized dflt hs los.length
  | setU los =>
    simp only [step] at h
    rw [listSetU_eq dflt hs] at h
    simp only [Outcome.ok.injEq, Prod.mk.injEq] at h
    rw [← h.2]; simp [Sized]
  | updateW los =>
    simp only [step, listUpdateW, Outcome.bind_eq_ok] at h
    obtain ⟨_, hc, h⟩ := h
    rw [cassert_eq_ok] at hc
    split at h
    · refine normalizeWeights_sized ?_ h
      unfold Sized at *
      simpa [hc] using hs
    · simp only [Outcome.pure_eq, Outcome.ok.injEq, Prod.mk.injEq] at h
      rw [← h.2]; exact hs
  | updateU los =>
    simp only [step] at h
    by_cases hl : los.length = p.samples.length
    · by_cases hne : los = []
      · subst hne
        simp only [listUpdateU, hl, if_true] at h
        rw [cassert_false (by simpa using hl.symm)] at h
        simp at h
      · rw [listUpdateU_eq dflt hl hne, listSetU_eq dflt hs] at h
        simp only [Outcome.ok.injEq, Prod.mk.injEq] at h
        rw [← h.2]; simp [Sized]
    · simp only [listUpdateU, hl, if_false, Outcome.pure_eq, Outcome.ok.injEq, Prod.mk.injEq] at h
      rw [← h.2]; exact hs
  | numSamplesSet k =>
    simp only [step, Outcome.pure_eq, Outcome.ok.injEq, Prod.mk.injEq] at h
    rw [← h.2]
    unfold Sized
    rw [numSamplesSet_sized dflt hs, numSamplesSet_length]
  | copy =>
    simp only [step, Outcome.pure_eq, Outcome.ok.injEq, Prod.mk.injEq] at h
    rw [← h.2]; exact hs

theorem make_sized (n : Nat) (dflt : T) : Sized (make (K := K) n dflt) := by simp [Sized, make]

theorem run_sized (dflt : T) {ops : List (Op K T)} {p p' : MCPdf K T} (hs : Sized p)
    (h : p.run dflt ops = .ok p') : Sized p' := by
  induction ops generalizing p with
  | nil =>
    simp only [run, Outcome.pure_eq, Outcome.ok.injEq] at h
    rw [← h]; exact hs
  | cons o os ih =>
    simp only [run, Outcome.bind_eq_ok] at h
    obtain ⟨⟨b, q⟩, h1, h2⟩ := h
    exact ih (step_sized dflt hs h1) h2

/-! ### Sampling -/

theorem previous_eq {p : MCPdf K T} {i : Nat} (hi : i < p.samples.length) :
    p.previous (i + 1) = .ok (p.samples[i]).value := by
  simp [previous, vget_of_lt hi]

theorem sampleOne_eq {p : MCPdf K T} {ws : List K} (hg : Good p ws) {u : K} {i : Nat}
    (hi : Inverts ws u i) (hi' : i < p.samples.length) :
    p.sampleOne .default u = .ok (some (p.samples[i]).value) := by
  unfold sampleOne
  rw [hg.2.2.1, sweep_runningSums hg.2.1.1 hi hg.length.ge]
  simp [previous_eq hi']

theorem ripleyLoop_eq {p : MCPdf K T} {us : List K} (hs : us.Pairwise (· ≤ ·)) {k : Nat}
    {rest : List K} :
    p.ripleyLoop us k rest =
      mapOutcome (fun u => do
        let (index, _) ← sweep p.numSamples u k rest
        p.previous index) us := by
  induction us generalizing k rest with
  | nil => rfl
  | cons u us ih =>
    rw [List.pairwise_cons] at hs
    simp only [ripleyLoop, mapOutcome]
    cases h : sweep p.numSamples u k rest with
    | abort => rfl
    | ub => rfl
    | ok q =>
      obtain ⟨i, r⟩ := q
      simp only [Outcome.ok_bind]
      rw [ih hs.2, mapOutcome_congr (g := fun u => do
        let (index, _) ← sweep p.numSamples u k rest
        p.previous index)]
      intro u' hu'
      rw [sweep_resume (hs.1 u' hu') h]

end MCPdf

end BFL
