import Verif.Lemmas.MCPdf
import Verif.Props.Discrete
import Mathlib.MeasureTheory.Integral.Bochner.Set
import Mathlib.MeasureTheory.Integral.IntegrableOn

/-!
# Properties C07-C10 and C13 of `MCPdf`
-/

set_option linter.unusedSectionVars false

namespace BFL.Props

open Spec MCPdf

variable {K T : Type} [Field K] [LinearOrder K] [IsStrictOrderedRing K]

/-- Any object a program can hold: a constructed `MCPdf` after any calls, whatever they returned. -/
def History (dflt : T) (p : MCPdf K T) : Prop :=
  ∃ n ops, (MCPdf.make n dflt).run dflt ops = .ok p

/-- The samples `l` carry the weights `ws`. -/
def HasWeights (l : List (WSample K T)) (ws : List K) : Prop := l.map (·.weight) = ws.map some

/-- Weights that a caller can store: `WeightSet` rejects negative numbers. -/
def Admissible (l : List (WSample K T)) : Prop := ∀ s ∈ l, ∀ w, s.weight = some w → 0 ≤ w

theorem History.sized {dflt : T} {p : MCPdf K T} (h : History dflt p) : Sized p := by
  obtain ⟨n, ops, h⟩ := h
  exact run_sized dflt (make_sized n dflt) h

theorem Admissible.nonneg {l : List (WSample K T)} {ws : List K} (h : Admissible l)
    (hw : HasWeights l ws) : ∀ w ∈ ws, 0 ≤ w := by
  intro w hmem
  have : some w ∈ l.map (·.weight) := by rw [hw]; exact List.mem_map_of_mem hmem
  obtain ⟨s, hs, he⟩ := List.mem_map.1 this
  exact h s hs w he

/-! ## C07 -/

/-- Assigning a weighted list with positive total weight succeeds after any history; values and
order are kept, weights are divided by their sum, and they sum to 1. -/
theorem C07_set_weighted {dflt : T} {q : MCPdf K T} (hq : History dflt q)
    {los : List (WSample K T)} (ha : Admissible los) {ws : List K} (hw : HasWeights los ws)
    (hpos : 0 < ws.sum) :
    ∃ p, q.listSetW dflt los = .ok (true, p) ∧ p.numSamples = los.length ∧
      p.listGet.map (·.value) = los.map (·.value) ∧
      HasWeights p.listGet (ws.map (· / ws.sum)) ∧ IsDistribution (ws.map (· / ws.sum)) := by
  have hs : Sized { q.numSamplesSet dflt los.length with samples := los } := by
    unfold Sized; simpa using numSamplesSet_sized dflt hq.sized los.length
  refine ⟨_, normalizeWeights_pos hs hw (ha.nonneg hw) hpos, ?_, ?_, ?_, ?_⟩
  · simp [numSamples, scaled]
  · exact scaled_values _ _
  · exact scaled_weights hw _
  · exact DiscretePdf.normalized_dist (ha.nonneg hw) hpos

/-- The same for the update call, which requires an equally long non-empty list. -/
theorem C07_update_weighted {dflt : T} {q : MCPdf K T} (hq : History dflt q)
    {los : List (WSample K T)} (hl : los.length = q.numSamples) (ha : Admissible los) {ws : List K}
    (hw : HasWeights los ws) (hpos : 0 < ws.sum) :
    ∃ p, q.listUpdateW los = .ok (true, p) ∧ p.numSamples = los.length ∧
      p.listGet.map (·.value) = los.map (·.value) ∧
      HasWeights p.listGet (ws.map (· / ws.sum)) ∧ IsDistribution (ws.map (· / ws.sum)) := by
  have hs : Sized { q with samples := los } := by
    have := hq.sized
    unfold Sized at *; simp only [hl, this]
  have hne : los.length ≠ 0 := by
    intro h0
    have h1 : los = [] := List.length_eq_zero_iff.1 h0
    rw [h1] at hw
    have h2 : ws = [] := by simpa [HasWeights] using hw.symm
    rw [h2] at hpos
    exact absurd hpos (by simp)
  refine ⟨{ samples := scaled los ws.sum, cum := runningSums 0 (ws.map (· / ws.sum)),
            sumWeights := 1 }, ?_, ?_, ?_, ?_, ?_⟩
  · unfold listUpdateW
    rw [cassert_true hl, Outcome.ok_bind, if_pos hne]
    exact normalizeWeights_pos hs hw (ha.nonneg hw) hpos
  · simp [numSamples, scaled]
  · exact scaled_values _ _
  · exact scaled_weights hw _
  · exact DiscretePdf.normalized_dist (ha.nonneg hw) hpos

/-- Assigning an unweighted list always succeeds and gives every sample weight `1/N`. -/
theorem C07_set_unweighted {dflt : T} {q : MCPdf K T} (hq : History dflt q) (los : List T) :
    ∃ p, q.listSetU dflt los = .ok (true, p) ∧ p.numSamples = los.length ∧
      p.listGet.map (·.value) = los ∧
      HasWeights p.listGet (List.replicate los.length (1 / (los.length : K))) ∧
      (los ≠ [] → IsDistribution (List.replicate los.length (1 / (los.length : K)))) := by
  refine ⟨_, listSetU_eq dflt hq.sized los, by simp [numSamples], ?_, uniform_weights los, ?_⟩
  · simp [listGet, Function.comp_def]
  · intro hne
    exact DiscretePdf.uniform_dist (List.length_pos_iff.2 hne)

/-- An unweighted update with a list of the right, positive length behaves like assignment. -/
theorem C07_update_unweighted {dflt : T} {q : MCPdf K T} (hq : History dflt q) {los : List T}
    (hl : los.length = q.numSamples) (hne : los ≠ []) :
    ∃ p, q.listUpdateU dflt los = .ok (true, p) ∧ p.numSamples = los.length ∧
      p.listGet.map (·.value) = los ∧
      HasWeights p.listGet (List.replicate los.length (1 / (los.length : K))) ∧
      IsDistribution (List.replicate los.length (1 / (los.length : K))) := by
  rw [listUpdateU_eq dflt hl hne]
  obtain ⟨p, h1, h2, h3, h4, h5⟩ := C07_set_unweighted hq los
  exact ⟨p, h1, h2, h3, h4, h5 hne⟩

/-- Weighted assignment reports success only for positive total weight, so the hypotheses of
`C07_set_weighted` are not restrictive. -/
theorem C07_set_weighted_success_only {dflt : T} {q p : MCPdf K T}
    {los : List (WSample K T)} (h : q.listSetW dflt los = .ok (true, p)) :
    ∃ ws : List K, HasWeights los ws ∧ 0 < ws.sum := by
  obtain ⟨ws, h1, h2⟩ := normalizeWeights_inv h
  exact ⟨ws, h1, h2.1 rfl⟩

/-- A weighted list of total weight zero is rejected, but it has already replaced the samples. -/
theorem C07_rejected_replaces {dflt : T} {q : MCPdf K T} {los : List (WSample K T)} {ws : List K}
    (hw : HasWeights los ws) (h0 : ws.sum = 0) :
    ∃ p, q.listSetW dflt los = .ok (false, p) ∧ p.listGet = los := by
  exact ⟨_, normalizeWeights_zero (p := { q.numSamplesSet dflt los.length with samples := los }) hw
    (by rw [h0]; exact lt_irrefl _), rfl⟩

/-- The empty unweighted list is accepted although no weights can then sum to 1. -/
theorem C07_empty_accepted {dflt : T} {q : MCPdf K T} (hq : History dflt q) :
    ∃ p, q.listSetU dflt [] = .ok (true, p) ∧ p.listGet = [] ∧
      ¬ ∃ ws : List K, HasWeights p.listGet ws ∧ IsDistribution ws := by
  refine ⟨_, listSetU_eq dflt hq.sized [], by simp, ?_⟩
  rintro ⟨ws, h1, h2⟩
  have h3 : ws = [] := by simpa [HasWeights, listGet] using h1.symm
  have := h2.2
  simp [h3] at this

/-- An assignment of samples (as opposed to `NumSamplesSet` or copying) to the object `q`, with a
list the specification of the class admits. -/
def Assigns (q : MCPdf K T) : Op K T → Prop
  | .setW los => Admissible los
  | .setU los => los ≠ []
  | .updateW los => Admissible los ∧ los ≠ []
  | .updateU los => los.length = q.numSamples
  | _ => False

/-- `p` results from any history followed by an assignment that returned `true`. -/
def Assigned (dflt : T) (p : MCPdf K T) : Prop :=
  ∃ q o, History dflt q ∧ Assigns q o ∧ q.step dflt o = .ok (true, p)

theorem Assigned.good {dflt : T} {p : MCPdf K T} (h : Assigned dflt p) : ∃ ws, Good p ws := by
  obtain ⟨q, o, hq, ha, h⟩ := h
  have hs := hq.sized
  cases o with
  | setW los =>
    obtain ⟨ws, hw, hb⟩ := normalizeWeights_inv h
    have hpos := hb.1 rfl
    have hw' : HasWeights los ws := hw
    have hs' : Sized { q.numSamplesSet dflt los.length with samples := los } := by
      unfold Sized; simpa using numSamplesSet_sized dflt hs los.length
    have he := normalizeWeights_pos hs' hw (Admissible.nonneg ha hw') hpos
    have h' := h
    simp only [step, listSetW] at h'
    rw [he] at h'
    simp only [Outcome.ok.injEq, Prod.mk.injEq, true_and] at h'
    subst h'
    exact ⟨_, scaled_weights hw _, DiscretePdf.normalized_dist (Admissible.nonneg ha hw') hpos,
      rfl, rfl⟩
  | setU los =>
    simp only [step] at h
    rw [listSetU_eq dflt hs] at h
    simp only [Outcome.ok.injEq, Prod.mk.injEq, true_and] at h
    subst h
    exact ⟨_, uniform_weights los, DiscretePdf.uniform_dist (List.length_pos_iff.2 ha), rfl, rfl⟩
  | updateW los =>
    obtain ⟨ha, hne⟩ := ha
    simp only [step, listUpdateW, Outcome.bind_eq_ok] at h
    obtain ⟨_, hc, h⟩ := h
    rw [cassert_eq_ok] at hc
    rw [if_pos (by simpa using hne)] at h
    obtain ⟨ws, hw, hb⟩ := normalizeWeights_inv h
    have hpos := hb.1 rfl
    have hw' : HasWeights los ws := hw
    have hs' : Sized { q with samples := los } := by
      unfold Sized at *; simp only [hc, hs]
    rw [normalizeWeights_pos hs' hw (Admissible.nonneg ha hw') hpos] at h
    simp only [Outcome.ok.injEq, Prod.mk.injEq, true_and] at h
    subst h
    exact ⟨_, scaled_weights hw _, DiscretePdf.normalized_dist (Admissible.nonneg ha hw') hpos,
      rfl, rfl⟩
  | updateU los =>
    have hl : los.length = q.samples.length := ha
    simp only [step] at h
    by_cases hne : los = []
    · subst hne
      simp only [listUpdateU, hl, if_true] at h
      rw [cassert_false (by simpa using hl.symm)] at h
      simp at h
    · rw [listUpdateU_eq dflt hl hne, listSetU_eq dflt hs] at h
      simp only [Outcome.ok.injEq, Prod.mk.injEq, true_and] at h
      subst h
      exact ⟨_, uniform_weights los, DiscretePdf.uniform_dist (List.length_pos_iff.2 hne), rfl, rfl⟩
  | numSamplesSet k => exact absurd ha id
  | copy => exact absurd ha id

/-- After any history and any successful assignment the reported weights are a distribution. -/
theorem C07_normalised {dflt : T} {p : MCPdf K T} (h : Assigned dflt p) :
    ∃ ws : List K, HasWeights p.listGet ws ∧ IsDistribution ws ∧ p.numSamples = ws.length := by
  obtain ⟨ws, hg⟩ := h.good
  exact ⟨ws, hg.1, hg.2.1, hg.length⟩

example : ∃ p : MCPdf ℚ Nat, Assigned 0 p ∧
    p.listGet = [⟨7, some (1/4)⟩, ⟨8, some (3/4)⟩] :=
  ⟨_, ⟨MCPdf.make 5 0, .setW [⟨7, some 1⟩, ⟨8, some 3⟩], ⟨5, [], rfl⟩,
    by simp [Assigns, Admissible],
    (by decide +kernel : _ = Outcome.ok (true, (⟨[⟨7, some (1/4)⟩, ⟨8, some (3/4)⟩], [0, 1/4, 1], 1⟩ :
      MCPdf ℚ Nat)))⟩, rfl⟩

/-! ## C08 -/

/-- The property is false: a list of another length is ignored although `true` is returned. -/
theorem C08_mismatch_ignored {dflt : T} (q : MCPdf K T) {los : List T}
    (hl : los.length ≠ q.numSamples) : q.listUpdateU dflt los = .ok (true, q) := by
  unfold listUpdateU
  rw [if_neg hl]
  rfl

theorem C08_false : ∃ q : MCPdf ℚ Nat, ∃ los : List Nat, ∃ p, Assigned 0 q ∧
    q.listUpdateU 0 los = .ok (true, p) ∧ p.listGet.map (·.value) ≠ los :=
  ⟨⟨[⟨7, some 1⟩], [0, 1], 1⟩, [1, 2], _,
    ⟨MCPdf.make 0 0, .setU [7], ⟨0, [], rfl⟩, by simp [Assigns], by decide +kernel⟩,
    by exact C08_mismatch_ignored _ (by decide), by decide⟩

/-- What holds: with a list of the current length the update is never silent; it either replaces
the values or (empty list) aborts. Missing: lists of another length. -/
theorem C08_same_length_partial {dflt : T} {q : MCPdf K T} (hq : History dflt q) {los : List T}
    (hl : los.length = q.numSamples) :
    (los = [] ∧ q.listUpdateU dflt los = .abort) ∨
      ∃ p, q.listUpdateU dflt los = .ok (true, p) ∧ p.listGet.map (·.value) = los := by
  by_cases hne : los = []
  · left
    refine ⟨hne, ?_⟩
    unfold listUpdateU
    rw [if_pos hl, cassert_false (by simp [hne])]
    rfl
  · right
    obtain ⟨p, h1, _, h3, _⟩ := C07_update_unweighted hq hl hne
    exact ⟨p, h1, h3⟩

/-! ## C09 -/

/-- For a draw in `(0,1]` the returned value is that of the particle whose weight interval contains
the draw; the particle exists, has positive weight and is unique. Full statement: draws in `[0,1)`;
the draw 0 is undefined behaviour, see `C09_zero_draw`. -/
theorem C09_inversion_partial {dflt : T} {p : MCPdf K T} (h : Assigned dflt p) {u : K}
    (h0 : 0 < u) (h1 : u ≤ 1) :
    ∃ ws : List K, HasWeights p.listGet ws ∧ ∃ i, Inverts ws u i ∧
      (∀ j, Inverts ws u j → j = i) ∧
      (∃ hi : i < ws.length, 0 < ws[i]) ∧
      ∃ hi : i < p.listGet.length, p.sampleOne .default u = .ok (some (p.listGet[i]).value) := by
  obtain ⟨ws, hg⟩ := h.good
  obtain ⟨i, hi⟩ := Inverts.exists (p := ws) h0 (by rw [hg.2.1.2]; exact h1)
  have hi' : i < p.samples.length := by rw [hg.length]; exact hi.1
  refine ⟨ws, hg.1, i, hi, fun j hj => Inverts.unique hg.2.1.1 hj hi, ⟨hi.1, ?_⟩, hi',
    sampleOne_eq hg hi hi'⟩
  have := massBelow_succ hi.1
  have h2 := hi.2.1
  have h3 := hi.2.2
  linarith

/-- Particle `i` is selected exactly for the draws in a half-open interval whose length is its
weight. -/
theorem C09_interval {dflt : T} {p : MCPdf K T} (h : Assigned dflt p) :
    ∃ ws : List K, HasWeights p.listGet ws ∧ ∀ i (hi : i < ws.length),
      massBelow ws (i + 1) - massBelow ws i = ws[i] ∧
      ∀ u, massBelow ws i < u → u ≤ massBelow ws (i + 1) →
        ∃ hi' : i < p.listGet.length, p.sampleOne .default u = .ok (some (p.listGet[i]).value) := by
  obtain ⟨ws, hg⟩ := h.good
  refine ⟨ws, hg.1, fun i hi => ⟨by rw [massBelow_succ hi]; ring, fun u h1 h2 => ?_⟩⟩
  have hi' : i < p.samples.length := by rw [hg.length]; exact hi
  exact ⟨hi', sampleOne_eq hg ⟨hi, h1, h2⟩ hi'⟩

/-- The draw 0 decrements the begin iterator: undefined behaviour for every particle set. -/
theorem C09_zero_draw {dflt : T} {p : MCPdf K T} (h : Assigned dflt p) :
    p.sampleOne .default 0 = .ub := by
  obtain ⟨ws, hg⟩ := h.good
  unfold sampleOne
  rw [hg.2.2.1, sweep_runningSums_zero _ le_rfl]
  rfl

/-- Without exact arithmetic: the last table entry is not forced to 1, and a draw above it (possible
when rounding leaves the last running sum below the draw) reads past the end of the table. -/
theorem C09_beyond_table (p : MCPdf K T) (hlen : p.cum.length = p.numSamples + 1) {u : K}
    (h : ∀ c ∈ p.cum, c < u) : p.sampleOne .default u = .ub := by
  unfold sampleOne
  rw [sweep_ub h (by omega)]
  rfl

/-- The one-sweep RIPLEY list draw equals separate draws at the ordered uniforms. -/
theorem C09_ripley_equals_lookups {root : Nat → K → K}
    (hroot : ∀ k x, 0 ≤ x → x ≤ 1 → 0 ≤ root k x ∧ root k x ≤ 1) (p : MCPdf K T) {us : List K}
    (hne : us ≠ []) (hus : ∀ u ∈ us, 0 ≤ u ∧ u ≤ 1) :
    p.sampleList root .ripley us =
      p.sampleList root .default (List.ofFn fun i : Fin us.length => orderedUniform root us i) := by
  obtain ⟨hb, hs⟩ := orderedUniforms_bounds hroot 0 us hus
  have he : (List.ofFn fun i : Fin us.length => orderedUniform root us i) =
      orderedUniforms root 0 us := by
    apply List.ext_getElem
    · simp
    · intro k h1 h2
      have hk : k < us.length := by simpa using h1
      rw [orderedUniforms_getElem root 0 us k hk h2]
      simp [orderedUniform]
  rw [he]
  unfold sampleList
  simp only [hne, if_false]
  rw [ripleyLoop_eq hs]

/-- The RIPLEY draw on a normalised particle list. -/
theorem ripley_good {root : Nat → K → K}
    (hroot : ∀ k x, 0 ≤ x → x ≤ 1 → 0 ≤ root k x ∧ root k x ≤ 1)
    (hpos : ∀ k x, 0 < x → 0 < root k x)
    {p : MCPdf K T} {ws : List K} (hg : Good p ws) {us : List K}
    (hne : us ≠ []) (hus : ∀ u ∈ us, 0 < u ∧ u ≤ 1) :
    ∃ ts : List T,
      p.sampleList root .ripley us = .ok (some ts) ∧
      ∃ hl : ts.length = us.length, ∀ i (hi : i < us.length),
        ∃ j, Inverts ws (orderedUniform root us i) j ∧
          ∃ hj : j < p.listGet.length, ts[i] = (p.listGet[j]).value := by
  have hus' : ∀ u ∈ us, 0 ≤ u ∧ u ≤ 1 := fun u hu => ⟨(hus u hu).1.le, (hus u hu).2⟩
  have hpos' : ∀ i, i < us.length → 0 < orderedUniform root us i := by
    intro i hi
    unfold orderedUniform
    apply List.prod_pos
    intro x hx
    rw [List.mem_mapIdx] at hx
    obtain ⟨m, hm, rfl⟩ := hx
    have hmem : (us.drop i)[m] ∈ us := List.mem_of_mem_drop (List.getElem_mem hm)
    exact hpos _ _ (hus _ hmem).1
  have hex : ∀ u : {u : K // 0 < u ∧ u ≤ 1}, ∃ j, Inverts ws u j := fun u =>
    Inverts.exists (p := ws) u.2.1 (by rw [hg.2.1.2]; exact u.2.2)
  choose f hf using hex
  have hlt : ∀ u, f u < p.samples.length := fun u => by rw [hg.length]; exact (hf u).1
  let g : K → T := fun u =>
    if h : 0 < u ∧ u ≤ 1 then (p.samples[f ⟨u, h⟩]'(hlt _)).value else (p.samples[0]'(by rw [hg.length]; exact hg.pos)).value
  have hmem : ∀ i (hi : i < us.length), 0 < orderedUniform root us i ∧
      orderedUniform root us i ≤ 1 := fun i hi =>
    ⟨hpos' i hi, (C05_ordered hroot hus' le_rfl hi).2.2⟩
  rw [C09_ripley_equals_lookups hroot p hne hus']
  set vs := List.ofFn fun i : Fin us.length => orderedUniform root us i with hvs
  have hm : mapOutcome (fun u => do
      let (index, _) ← sweep p.numSamples u 0 p.cum
      p.previous index) vs = .ok (vs.map g) := by
    apply mapOutcome_eq_ok
    intro w hw
    rw [hvs, List.mem_ofFn] at hw
    obtain ⟨i, rfl⟩ := hw
    have hw := hmem i i.2
    rw [hg.2.2.1, sweep_runningSums hg.2.1.1 (hf ⟨_, hw⟩) hg.length.ge]
    simp only [Outcome.ok_bind, g, hw, and_self, dif_pos]
    exact previous_eq (hlt _)
  refine ⟨vs.map g, ?_, by simp [hvs], ?_⟩
  · unfold sampleList
    simp only [hm, Outcome.ok_bind, Outcome.pure_eq]
  · intro i hi
    refine ⟨f ⟨_, hmem i hi⟩, hf _, hlt _, ?_⟩
    simp [hvs, g, hmem i hi]

/-- The RIPLEY list draw returns exactly `N` values, each the value of a particle of positive weight
selected by inversion. -/
theorem C09_ripley_partial {root : Nat → K → K}
    (hroot : ∀ k x, 0 ≤ x → x ≤ 1 → 0 ≤ root k x ∧ root k x ≤ 1)
    (hpos : ∀ k x, 0 < x → 0 < root k x)
    {dflt : T} {p : MCPdf K T} (h : Assigned dflt p) {us : List K}
    (hne : us ≠ []) (hus : ∀ u ∈ us, 0 < u ∧ u ≤ 1) :
    ∃ ws : List K, HasWeights p.listGet ws ∧ ∃ ts : List T,
      p.sampleList root .ripley us = .ok (some ts) ∧
      ∃ hl : ts.length = us.length, ∀ i (hi : i < us.length),
        ∃ j, Inverts ws (orderedUniform root us i) j ∧
          ∃ hj : j < p.listGet.length, ts[i] = (p.listGet[j]).value := by
  obtain ⟨ws, hg⟩ := h.good
  exact ⟨ws, hg.1, ripley_good hroot hpos hg hne hus⟩

/-- RIPLEY with zero samples requested is undefined behaviour. -/
theorem C09_ripley_zero_samples (root : Nat → K → K) (p : MCPdf K T) :
    p.sampleList root .ripley [] = .ub := rfl

example : ∃ p : MCPdf ℚ Nat, Assigned 0 p ∧ p.sampleOne .default (1/4) = .ok (some 7) ∧
    p.sampleOne .default (1/2) = .ok (some 8) ∧
    p.sampleList (fun _ x => x) .ripley [1/2, 1/3] = .ok (some [7, 8]) :=
  ⟨⟨[⟨7, some (1/4)⟩, ⟨8, some (3/4)⟩], [0, 1/4, 1], 1⟩,
    ⟨MCPdf.make 5 0, .setW [⟨7, some 1⟩, ⟨8, some 3⟩], ⟨5, [], rfl⟩,
    by simp [Assigns, Admissible], by decide +kernel⟩, by decide +kernel, by decide +kernel,
    by decide +kernel⟩

/-! ## C10 -/

/-- The value of `g` at the particle drawn with `u` (0 if the draw fails). -/
noncomputable def drawn (p : MCPdf ℝ T) (g : T → ℝ) (u : ℝ) : ℝ :=
  match p.sampleOne .default u with
  | .ok (some t) => g t
  | _ => 0

/-- For every test function, the average over a uniform draw of the function of the drawn particle
equals the weighted average over the particles. -/
theorem C10_unbiased {dflt : T} {p : MCPdf ℝ T} (h : Assigned dflt p) (g : T → ℝ) :
    ∃ ws : List ℝ, HasWeights p.listGet ws ∧
      ∫ u in Set.Ioc (0 : ℝ) 1, drawn p g u =
        (List.zipWith (fun (s : WSample ℝ T) w => w * g s.value) p.listGet ws).sum := by
  obtain ⟨ws, hg⟩ := h.good
  refine ⟨ws, hg.1, ?_⟩
  have hlen := hg.length
  have hnn := hg.2.1.1
  -- each draw hits exactly one weight interval
  have hpt : ∀ u ∈ Set.Ioc (0 : ℝ) 1, drawn p g u =
      ∑ i : Fin ws.length, (Set.Ioc (massBelow ws i) (massBelow ws (i + 1))).indicator
        (fun _ => g (p.samples[i.1]'(by rw [hlen]; exact i.2)).value) u := by
    intro u hu
    obtain ⟨i, hi⟩ := Inverts.exists (p := ws) hu.1 (by rw [hg.2.1.2]; exact hu.2)
    have hi' : i < p.samples.length := by rw [hlen]; exact hi.1
    rw [Finset.sum_eq_single (⟨i, hi.1⟩ : Fin ws.length)]
    · rw [Set.indicator_of_mem (show u ∈ Set.Ioc _ _ from hi.2)]
      simp [drawn, sampleOne_eq hg hi hi']
    · intro j _ hne
      apply Set.indicator_of_notMem
      intro hmem
      exact hne (Fin.ext (Inverts.unique hnn ⟨j.2, hmem.1, hmem.2⟩ hi))
    · intro hc; exact absurd (Finset.mem_univ _) hc
  rw [MeasureTheory.setIntegral_congr_fun measurableSet_Ioc hpt,
    MeasureTheory.integral_finsetSum]
  · have hterm : ∀ i : Fin ws.length,
        ∫ u in Set.Ioc (0 : ℝ) 1, (Set.Ioc (massBelow ws i) (massBelow ws (i + 1))).indicator
          (fun _ => g (p.samples[i.1]'(by rw [hlen]; exact i.2)).value) u =
        ws[i] * g (p.samples[i.1]'(by rw [hlen]; exact i.2)).value := by
      intro i
      have h0 : 0 ≤ massBelow ws i := by
        simpa [massBelow] using massBelow_mono hnn (Nat.zero_le i)
      have h1 : massBelow ws (i + 1) ≤ 1 := by
        have := massBelow_mono hnn (show i.1 + 1 ≤ ws.length from i.2)
        rwa [show massBelow ws ws.length = 1 by simp [massBelow, hg.2.1.2]] at this
      have hw : 0 ≤ ws[i.1] := hnn _ (List.getElem_mem _)
      rw [MeasureTheory.setIntegral_indicator measurableSet_Ioc]
      have hint : Set.Ioc (0 : ℝ) 1 ∩ Set.Ioc (massBelow ws i) (massBelow ws (i + 1)) =
          Set.Ioc (massBelow ws i) (massBelow ws (i + 1)) := by
        apply Set.inter_eq_right.2
        exact Set.Ioc_subset_Ioc h0 h1
      rw [hint, MeasureTheory.setIntegral_const, MeasureTheory.measureReal_def, Real.volume_Ioc,
        massBelow_succ i.2]
      rw [add_sub_cancel_left, ENNReal.toReal_ofReal hw]
      rfl
    rw [Finset.sum_congr rfl (fun i _ => hterm i)]
    have hlist : List.zipWith (fun (s : WSample ℝ T) w => w * g s.value) p.samples ws =
        List.ofFn fun i : Fin ws.length => ws[i] * g (p.samples[i.1]'(by rw [hlen]; exact i.2)).value := by
      apply List.ext_getElem
      · simp [hlen]
      · intro k h1 h2; simp
    show _ = (List.zipWith (fun (s : WSample ℝ T) w => w * g s.value) p.samples ws).sum
    rw [hlist, List.sum_ofFn]
  · intro i _
    apply MeasureTheory.Integrable.indicator _ measurableSet_Ioc
    exact MeasureTheory.integrable_const _

/-- Unbiasedness for vector particles: the average drawn vector is `ExpectedValueGet()`. -/
theorem C10_mean {n : Nat} {dflt : Fin n → ℝ} {p : MCPdf ℝ (Fin n → ℝ)} (h : Assigned dflt p) :
    ∃ m, p.meanGet = .ok m ∧
      ∀ k, ∫ u in Set.Ioc (0 : ℝ) 1, drawn p (fun x => x k) u = m k := by
  obtain ⟨ws, hg⟩ := h.good
  have hm : p.meanGet = .ok ((List.zipWith (fun (s : WSample ℝ (Fin n → ℝ)) w => w • s.value)
      p.samples ws).sum) := by
    unfold meanGet
    rw [weightGets_eq_ok.2 hg.1, Outcome.ok_bind, hg.2.2.2]
    simp
  refine ⟨_, hm, fun k => ?_⟩
  obtain ⟨ws', hw', hint⟩ := C10_unbiased h (fun x => x k)
  have hww : ws' = ws := by
    have : ws'.map some = ws.map some := hw'.symm.trans hg.1
    exact List.map_injective_iff.2 (Option.some_injective _) this
  subst hww
  rw [hint, list_sum_apply]
  congr 1
  rw [List.map_zipWith]
  rfl

/-! ## C13 -/

theorem C13_length (dflt : T) (p : MCPdf K T) (k : Nat) :
    (p.numSamplesSet dflt k).numSamples = k := numSamplesSet_length dflt p k

/-- Growing keeps all old samples in front; shrinking keeps the last `k` samples in order. -/
theorem C13_survivors (dflt : T) (p : MCPdf K T) (k : Nat) :
    (p.numSamples ≤ k → (p.numSamplesSet dflt k).listGet.take p.numSamples = p.listGet) ∧
    (k ≤ p.numSamples →
      (p.numSamplesSet dflt k).listGet = p.listGet.drop (p.numSamples - k)) := by
  simp only [numSamplesSet, numSamples, listGet]
  constructor
  · intro h
    split
    · simp
    · rw [if_neg (by omega)]; simp
  · intro h
    rw [if_neg (by omega)]
    split
    · rfl
    · have : p.samples.length = k := by omega
      simp [this]

/-- Changing the number of samples does not renormalise: after shrinking, a small positive draw is
undefined behaviour. -/
theorem C13_shrink_then_draw : ∃ p : MCPdf ℚ Nat, Assigned 0 p ∧
    (p.numSamplesSet 0 1).sampleOne .default (1/8) = .ub :=
  ⟨⟨[⟨7, some (1/4)⟩, ⟨8, some (3/4)⟩], [0, 1/4, 1], 1⟩,
    ⟨MCPdf.make 5 0, .setW [⟨7, some 1⟩, ⟨8, some 3⟩], ⟨5, [], rfl⟩,
    by simp [Assigns, Admissible], by decide +kernel⟩, by decide +kernel⟩

example : ((⟨[⟨7, some (1/4)⟩, ⟨8, some (3/4)⟩], [0, 1/4, 1], 1⟩ : MCPdf ℚ Nat).numSamplesSet 0 1).listGet
    = [⟨8, some (3/4)⟩] := by decide +kernel

end BFL.Props
