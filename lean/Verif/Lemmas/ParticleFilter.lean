import Verif.Model.ParticleFilter
import Verif.Spec.Particles
import Verif.Props.MCPdf
import Mathlib.Algebra.BigOperators.Fin
import Mathlib.Algebra.Order.BigOperators.Ring.Finset

/-!
# Lemmas about the particle filter model
-/

set_option linter.unusedSectionVars false

namespace BFL

open Spec MCPdf

variable {R SV MV K : Type} [Field K] [LinearOrder K] [IsStrictOrderedRing K]

/-- A pair as a weighted sample. -/
def wrap (a : SV × K) : WSample K SV := { value := a.1, weight := some a.2 }

@[simp] theorem wrap_value (a : SV × K) : (wrap a).value = a.1 := rfl
@[simp] theorem wrap_weight (a : SV × K) : (wrap a).weight = some a.2 := rfl

theorem map_wrap_weight (ps : List (SV × K)) :
    (ps.map wrap).map (·.weight) = (ps.map Prod.snd).map some := by
  simp [Function.comp_def]

theorem scaled_map_wrap (ps : List (SV × K)) (c : K) :
    scaled (ps.map wrap) c = (ps.map fun a => (a.1, a.2 / c)).map wrap := by
  simp [scaled, wrap, Function.comp_def]

/-- Weighted update with a list of positive total weight. -/
theorem listUpdateW_wrap {p : MCPdf K SV} (hs : Sized p) {qs : List (SV × K)}
    (hl : qs.length = p.samples.length) (hnn : ∀ a ∈ qs, 0 ≤ a.2)
    (hpos : 0 < (qs.map Prod.snd).sum) :
    ∃ p', p.listUpdateW (qs.map wrap) = .ok (true, p') ∧
      p'.samples = (qs.map fun a => (a.1, a.2 / (qs.map Prod.snd).sum)).map wrap ∧
      Good p' ((qs.map fun a => (a.1, a.2 / (qs.map Prod.snd).sum)).map Prod.snd) := by
  have hne : qs ≠ [] := by rintro rfl; simp at hpos
  have hs' : Sized { p with samples := qs.map wrap } := by
    unfold Sized at *; simpa [hl] using hs
  have hnn' : ∀ w ∈ qs.map Prod.snd, 0 ≤ w := by
    intro w hw
    obtain ⟨a, ha, rfl⟩ := List.mem_map.1 hw
    exact hnn a ha
  have h := normalizeWeights_pos hs' (map_wrap_weight qs) hnn' hpos
  refine ⟨⟨scaled (qs.map wrap) (qs.map Prod.snd).sum,
    runningSums 0 ((qs.map Prod.snd).map (· / (qs.map Prod.snd).sum)), 1⟩, ?_,
    scaled_map_wrap _ _, ?_, ?_, ?_, rfl⟩
  · unfold listUpdateW
    rw [cassert_true (by simpa using hl), Outcome.ok_bind, if_pos (by simpa using hne)]
    exact h
  · rw [scaled_map_wrap]; exact map_wrap_weight _
  · have := DiscretePdf.normalized_dist hnn' hpos
    simpa [Function.comp_def] using this
  · simp [Function.comp_def]

namespace Cloud

/-- The cloud holds the particles `ps`, normalised, and its buffers have the right lengths. -/
structure Live (c : Cloud K SV) (ps : List (SV × K)) : Prop where
  samples : c.post.samples = ps.map wrap
  good : Good c.post (ps.map Prod.snd)
  old : c.old.length = ps.length
  new : c.new.length = ps.length

theorem Live.dist {c : Cloud K SV} {ps : List (SV × K)} (h : Live c ps) : Normalised ps := h.good.2.1

theorem Live.pos {c : Cloud K SV} {ps : List (SV × K)} (h : Live c ps) : 0 < ps.length := by
  simpa using h.good.pos

theorem Live.nonneg {c : Cloud K SV} {ps : List (SV × K)} (h : Live c ps) : ∀ a ∈ ps, 0 ≤ a.2 :=
  fun _ ha => h.dist.1 _ (List.mem_map_of_mem ha)

theorem proposeLoop_eq {q : Option (Proposal R SV K)} {m : SysModel R SV K} {u : SV}
    (hd : ∀ r x prev, ∃ y, drawOne q m u r x prev = .ok y) (rs : Nat → R) :
    ∀ (ps : List (SV × K)) (i : Nat) (news : List (WSample K SV)) (prev : SV),
      (∀ a ∈ ps, 0 ≤ a.2) → news.length = ps.length →
      ∃ ps' last, proposeLoop q m u rs i (ps.map wrap) news prev = .ok (ps'.map wrap, last) ∧
        Moved (fun k x y => ∃ prev, drawOne q m u (rs (i + k)) x prev = .ok y) ps ps' := by
  intro ps
  induction ps with
  | nil =>
    intro i news prev _ hl
    have : news = [] := List.length_eq_zero_iff.1 hl
    subst this
    exact ⟨[], prev, rfl, rfl, fun i hi => absurd hi (by simp)⟩
  | cons a ps ih =>
    intro i news prev hnn hl
    obtain ⟨y, hy⟩ := hd (rs i) a.1 prev
    cases news with
    | nil => simp at hl
    | cons n ns =>
      obtain ⟨ps', last, h1, hl', h2⟩ := ih (i + 1) ns y (fun b hb => hnn b (by simp [hb]))
        (by simpa using hl)
      refine ⟨(y, a.2) :: ps', last, ?_, by simp [hl'], ?_⟩
      · simp only [List.map_cons, proposeLoop, wrap_value, hy, Outcome.ok_bind]
        simp only [WSample.weightGet, wrap_weight, Outcome.ok_bind, WSample.weightSet]
        rw [cassert_true (hnn a (by simp))]
        simp only [Outcome.ok_bind, Outcome.pure_eq, h1]
        rfl
      · intro k hk
        cases k with
        | zero => exact ⟨⟨prev, hy⟩, rfl⟩
        | succ k =>
          have := h2 k (by simpa using hk)
          simp only [List.getElem_cons_succ]
          rwa [show i + (k + 1) = i + 1 + k by omega]

theorem Moved.snd {draw : Nat → SV → SV → Prop} {ps ps' : List (SV × K)}
    (h : Moved draw ps ps') : ps'.map Prod.snd = ps.map Prod.snd := by
  obtain ⟨hl, h⟩ := h
  apply List.ext_getElem (by simp [hl])
  intro i h1 h2
  simpa using (h i (by simpa using h2)).2

/-- The proposal step moves the particles and leaves their weights. -/
theorem propose_live {q : Option (Proposal R SV K)} {m : SysModel R SV K} {u : SV}
    (hd : ∀ r x prev, ∃ y, drawOne q m u r x prev = .ok y) (rs : Nat → R) {c : Cloud K SV}
    {ps : List (SV × K)} (h : Live c ps) (prev : SV) :
    ∃ ps' c' last, propose q m u rs c prev = .ok ((true, c'), last) ∧ Live c' ps' ∧
      c'.old = ps.map wrap ∧ c'.unweighted = c.unweighted ∧
      Moved (fun k x y => ∃ prev, drawOne q m u (rs k) x prev = .ok y) ps ps' := by
  obtain ⟨ps', last, h1, h2⟩ := proposeLoop_eq hd rs ps 0 c.new prev h.nonneg h.new
  have hsnd := Moved.snd h2
  have hsum : (ps'.map Prod.snd).sum = 1 := by rw [hsnd]; exact h.dist.2
  have hdist : IsDistribution (ps'.map Prod.snd) := by rw [hsnd]; exact h.dist
  have hl : ps'.length = ps.length := h2.1
  obtain ⟨p', h3, h4, h5⟩ := listUpdateW_wrap (p := c.post) (qs := ps') h.good.sized
    (by rw [h.samples]; simpa using hl)
    (fun a ha => hdist.1 _ (List.mem_map_of_mem ha)) (by rw [hsum]; exact one_pos)
  have hid : (ps'.map fun a => (a.1, a.2 / (ps'.map Prod.snd).sum)) = ps' := by
    rw [hsum]; simp
  rw [hid] at h4 h5
  refine ⟨ps', ⟨p', c.post.samples, ps'.map wrap, c.unweighted⟩, last, ?_, ?_, h.samples, rfl, ?_⟩
  · unfold propose
    simp only [listGet, h.samples, h1, Outcome.ok_bind, h3, Outcome.pure_eq]
  · exact ⟨h4, h5, by simp [h.samples, hl], by simp⟩
  · simpa using h2

theorem totalWeight_eq (g : Nat → K) (ps : List (SV × K)) :
    totalWeight g ps = ((ps.mapIdx fun i a => (a.1, a.2 * g i)).map Prod.snd).sum := by
  unfold totalWeight
  rw [← List.sum_ofFn]
  congr 1
  apply List.ext_getElem <;> simp

theorem weightLoop_eq {f : SV → SV → Outcome K} :
    ∀ (ps : List (SV × K)) (olds : List (WSample K SV)) (g : Nat → K),
      (∀ a ∈ ps, 0 ≤ a.2) → (∀ i, 0 ≤ g i) → (hl : olds.length = ps.length) →
      (∀ i (hi : i < ps.length), f (olds[i]'(hl ▸ hi)).value ps[i].1 = .ok (g i)) →
      weightLoop f olds (ps.map wrap) =
        .ok ((ps.mapIdx fun i a => (a.1, a.2 * g i)).map wrap, totalWeight g ps) := by
  intro ps
  induction ps with
  | nil => intro olds g _ _ _ _; simp [weightLoop, totalWeight]
  | cons a ps ih =>
    intro olds g hnn hg hl hf
    cases olds with
    | nil => simp at hl
    | cons o os =>
      have h0 := hf 0 (by simp)
      simp only [List.getElem_cons_zero] at h0
      have hr := ih os (fun i => g (i + 1)) (fun b hb => hnn b (by simp [hb]))
        (fun i => hg _) (by simpa using hl) (fun i hi => by
          have := hf (i + 1) (by simpa using hi)
          simpa using this)
      simp only [List.map_cons, weightLoop, wrap_value, h0, Outcome.ok_bind, WSample.weightGet,
        wrap_weight, WSample.weightSet]
      rw [cassert_true (mul_nonneg (hnn a (by simp)) (hg 0))]
      simp only [Outcome.ok_bind, Outcome.pure_eq, hr, List.mapIdx_cons, List.map_cons]
      rw [show totalWeight g (a :: ps) = a.2 * g 0 + totalWeight (fun i => g (i + 1)) ps by
        rw [totalWeight_eq, totalWeight_eq]; simp [List.mapIdx_cons]]
      rfl

/-- The weight update multiplies and renormalises. -/
theorem weightLoop_congr {f f' : SV → SV → Outcome K} :
    ∀ {olds news : List (WSample K SV)},
      (∀ i (ho : i < olds.length) (hn : i < news.length),
        f olds[i].value news[i].value = f' olds[i].value news[i].value) →
      weightLoop f olds news = weightLoop f' olds news := by
  intro olds news
  induction news generalizing olds with
  | nil => intro _; simp only [weightLoop]
  | cons n ns ih =>
    intro h
    cases olds with
    | nil => rfl
    | cons o os =>
      have h0 := h 0 (by simp) (by simp)
      have hr := ih (olds := os) (fun i ho hn => h (i + 1) (by simpa using ho) (by simpa using hn))
      simp only [List.getElem_cons_zero] at h0
      simp only [weightLoop, h0, hr]

theorem reweight_live {f : SV → SV → Outcome K} {c : Cloud K SV} {ps : List (SV × K)}
    (h : Live c ps) {g : Nat → K} (hg : ∀ i, 0 ≤ g i)
    (hf : ∀ i (hi : i < ps.length), f (c.old[i]'(h.old ▸ hi)).value ps[i].1 = .ok (g i))
    (hpos : 0 < totalWeight g ps) :
    ∃ ps' c', c.reweight f = .ok ((true, c'), totalWeight g ps) ∧ Live c' ps' ∧
      c'.old = c.old ∧ c'.unweighted = c.unweighted ∧ Reweighted g ps ps' := by
  have h1 := weightLoop_eq ps c.old g h.nonneg hg h.old hf
  set qs := ps.mapIdx fun i a => (a.1, a.2 * g i) with hqs
  have hsum : (qs.map Prod.snd).sum = totalWeight g ps := (totalWeight_eq g ps).symm
  have hl : qs.length = ps.length := by simp [hqs]
  obtain ⟨p', h3, h4, h5⟩ := listUpdateW_wrap (p := c.post) (qs := qs) h.good.sized
    (by rw [h.samples]; simpa using hl)
    (fun a ha => by
      rw [hqs, List.mem_mapIdx] at ha
      obtain ⟨i, hi, rfl⟩ := ha
      exact mul_nonneg (h.nonneg _ (List.getElem_mem hi)) (hg i))
    (by rw [hsum]; exact hpos)
  rw [hsum] at h4 h5
  refine ⟨qs.map fun a => (a.1, a.2 / totalWeight g ps),
    ⟨p', c.old, qs.map wrap, c.unweighted⟩, ?_, ?_, rfl, rfl, ?_⟩
  · unfold reweight
    simp only [listGet, h.samples, h1, Outcome.ok_bind, h3, Outcome.pure_eq]
  · exact ⟨h4, h5, by simp [h.old, hl], by simp⟩
  · refine ⟨by simp [hl], ?_⟩
    intro i hi
    simp [hqs]

/-- If the new total weight is zero the update reports failure; the zero weights are stored. -/
theorem reweight_zero {f : SV → SV → Outcome K} {c : Cloud K SV} {ps : List (SV × K)}
    (h : Live c ps) {g : Nat → K} (hg : ∀ i, 0 ≤ g i)
    (hf : ∀ i (hi : i < ps.length), f (c.old[i]'(h.old ▸ hi)).value ps[i].1 = .ok (g i))
    (hpos : totalWeight g ps = 0) :
    ∃ c', c.reweight f = .ok ((false, c'), 0) ∧
      c'.post.samples = (ps.mapIdx fun i a => (a.1, a.2 * g i)).map wrap ∧
      c'.post.cum = c.post.cum ∧ c'.old = c.old := by
  have h1 := weightLoop_eq ps c.old g h.nonneg hg h.old hf
  set qs := ps.mapIdx fun i a => (a.1, a.2 * g i) with hqs
  have hsum : (qs.map Prod.snd).sum = totalWeight g ps := (totalWeight_eq g ps).symm
  have hl : qs.length = ps.length := by simp [hqs]
  have hz := normalizeWeights_zero (p := { c.post with samples := qs.map wrap })
    (map_wrap_weight qs) (by rw [hsum, hpos]; exact lt_irrefl _)
  refine ⟨⟨{ c.post with samples := qs.map wrap }, c.old, qs.map wrap, c.unweighted⟩, ?_, rfl, rfl,
    rfl⟩
  unfold reweight
  have hpos' := h.pos
  simp only [listGet, h.samples, h1, Outcome.ok_bind, Outcome.pure_eq, listUpdateW]
  rw [cassert_true (by simp [hl]), Outcome.ok_bind, if_pos (by rw [List.length_map, hl]; omega), hz]
  simp [hpos]

/-- Multinomial resampling. -/
theorem resample_live {root : Nat → K → K}
    (hroot : ∀ k x, 0 ≤ x → x ≤ 1 → 0 ≤ root k x ∧ root k x ≤ 1)
    (hrpos : ∀ k x, 0 < x → 0 < root k x) (dflt : SV) {us : Nat → K}
    (hus : ∀ i, 0 < us i ∧ us i ≤ 1) {c : Cloud K SV} {ps : List (SV × K)} (h : Live c ps) :
    ∃ ps' c', c.resample dflt root .multinomial us = .ok (true, c') ∧ Live c' ps' ∧
      c'.old = c.old ∧
      Resampled (Props.orderedUniform root ((List.range ps.length).map us)) ps ps' := by
  have hlen : c.post.numSamples = ps.length := by simp [numSamples, h.samples]
  have hp := h.pos
  obtain ⟨ts, h1, hl, h2⟩ := Props.ripley_good hroot hrpos h.good
    (us := (List.range ps.length).map us) (by
      intro h0
      have := congrArg List.length h0
      simp at this
      simp [this] at hp)
    (by simp only [List.mem_map]; rintro _ ⟨i, _, rfl⟩; exact hus i)
  have hl' : ts.length = ps.length := by simpa using hl
  have hlp : ts.length = c.post.samples.length := by rw [h.samples]; simpa using hl'
  have hne : ts ≠ [] := by rintro rfl; simp at hl'; omega
  have h3 := listUpdateU_eq dflt hlp hne (K := K)
  rw [listSetU_eq dflt h.good.sized] at h3
  refine ⟨ts.map fun t => (t, 1 / (ts.length : K)), ⟨⟨ts.map fun t => ⟨t, some (1 / (ts.length : K))⟩,
    runningSums 0 (List.replicate ts.length (1 / (ts.length : K))), 1⟩, c.old, c.new, ts⟩,
    ?_, ?_, rfl, ?_⟩
  · unfold resample drawUnweighted
    simp only [hlen, h1, Outcome.ok_bind, Outcome.pure_eq, h3]
  · constructor
    · simp [wrap, Function.comp_def]
    · refine ⟨?_, ?_, ?_, rfl⟩
      · simp [Function.comp_def]
      · have := DiscretePdf.uniform_dist (K := K) (n := ts.length) (by omega)
        simpa [Function.comp_def] using this
      · simp [Function.comp_def]
    · simp [h.old, hl']
    · simp [h.new, hl']
  · refine ⟨by simp [hl'], ?_⟩
    intro i hi
    have hi' : i < ps.length := by simpa [hl'] using hi
    obtain ⟨j, hj1, hj2, hj3⟩ := h2 i (by simpa using hi')
    have hj : j < ps.length := by simpa [h.samples] using hj2
    refine ⟨j, hj, hj1, ?_⟩
    simp only [List.getElem_map, hl']
    rw [hj3]
    simp [listGet, h.samples]

/-! ## Invariant of arbitrary histories -/

/-- Every particle has a non-negative weight, the buffers have the right lengths, and the weights
are normalised unless all are zero. -/
def Inv (c : Cloud K SV) : Prop :=
  ∃ ps : List (SV × K), c.post.samples = ps.map wrap ∧ (∀ a ∈ ps, 0 ≤ a.2) ∧ Sized c.post ∧
    c.old.length = ps.length ∧ c.new.length = ps.length ∧ 0 < ps.length ∧
    (Good c.post (ps.map Prod.snd) ∨ (ps.map Prod.snd).sum = 0)

theorem wrap_injective : Function.Injective (wrap : SV × K → WSample K SV) := by
  rintro ⟨a, b⟩ ⟨c, d⟩ h
  simp only [wrap, WSample.mk.injEq, Option.some.injEq] at h
  rw [h.1, h.2]

/-- Normalised weights seen from outside make the cloud live. -/
theorem Inv.live {c : Cloud K SV} (h : Inv c) {ps : List (SV × K)}
    (hp : c.post.samples = ps.map wrap) (hn : Normalised ps) : Live c ps := by
  obtain ⟨qs, h1, _, _, h4, h5, _, h7⟩ := h
  have : qs = ps := List.map_injective_iff.2 wrap_injective (h1.symm.trans hp)
  subst this
  refine ⟨h1, ?_, h4, h5⟩
  rcases h7 with h7 | h7
  · exact h7
  · have := hn.2; rw [h7] at this; exact absurd this zero_ne_one

theorem Live.inv {c : Cloud K SV} {ps : List (SV × K)} (h : Live c ps) : Inv c :=
  ⟨ps, h.samples, h.nonneg, h.good.sized, h.old, h.new, h.pos, Or.inl h.good⟩

theorem listUpdateW_inv {p p' : MCPdf K SV} {b : Bool} (hs : Sized p) {qs : List (SV × K)}
    (hnn : ∀ a ∈ qs, 0 ≤ a.2) (hq : 0 < qs.length)
    (h : p.listUpdateW (qs.map wrap) = .ok (b, p')) :
    ∃ ps : List (SV × K), p'.samples = ps.map wrap ∧ (∀ a ∈ ps, 0 ≤ a.2) ∧ Sized p' ∧
      ps.length = qs.length ∧ (Good p' (ps.map Prod.snd) ∨ (ps.map Prod.snd).sum = 0) := by
  have hl : qs.length = p.samples.length := by
    unfold listUpdateW at h
    by_contra hc
    rw [cassert_false (by simpa using hc)] at h
    simp at h
  have hnn' : ∀ w ∈ qs.map Prod.snd, 0 ≤ w := by
    intro w hw
    obtain ⟨a, ha, rfl⟩ := List.mem_map.1 hw
    exact hnn a ha
  by_cases hpos : 0 < (qs.map Prod.snd).sum
  · obtain ⟨p2, h1, h2, h3⟩ := listUpdateW_wrap hs hl hnn hpos
    rw [h1] at h
    simp only [Outcome.ok.injEq, Prod.mk.injEq] at h
    obtain ⟨_, rfl⟩ := h
    refine ⟨_, h2, ?_, h3.sized, by simp, Or.inl h3⟩
    intro a ha
    obtain ⟨b, hb, rfl⟩ := List.mem_map.1 ha
    exact div_nonneg (hnn b hb) hpos.le
  · have hz := normalizeWeights_zero (p := { p with samples := qs.map wrap })
      (map_wrap_weight qs) hpos
    unfold listUpdateW at h
    rw [cassert_true (by simpa using hl), Outcome.ok_bind,
      if_pos (by rw [List.length_map]; omega), hz] at h
    simp only [Outcome.ok.injEq, Prod.mk.injEq] at h
    obtain ⟨_, rfl⟩ := h
    refine ⟨qs, rfl, hnn, ?_, rfl, Or.inr ?_⟩
    · unfold Sized at *; simpa [hl] using hs
    · exact le_antisymm (not_lt.1 hpos) (List.sum_nonneg hnn')

theorem weightSet_ok {s s' : WSample K SV} {w : K} (h : s.weightSet w = .ok s') :
    0 ≤ w ∧ s' = wrap (s.value, w) := by
  unfold WSample.weightSet at h
  simp only [Outcome.bind_eq_ok, Outcome.pure_eq, Outcome.ok.injEq] at h
  obtain ⟨_, h1, h2⟩ := h
  rw [cassert_eq_ok] at h1
  exact ⟨h1, h2.symm⟩

theorem proposeLoop_inv {q : Option (Proposal R SV K)} {m : SysModel R SV K} {u : SV}
    {rs : Nat → R} :
    ∀ (olds : List (WSample K SV)) (i : Nat) (news : List (WSample K SV)) (prev : SV)
      (res : List (WSample K SV)) (last : SV), news.length = olds.length →
      proposeLoop q m u rs i olds news prev = .ok (res, last) →
      ∃ qs : List (SV × K), res = qs.map wrap ∧ qs.length = olds.length ∧ ∀ a ∈ qs, 0 ≤ a.2 := by
  intro olds
  induction olds with
  | nil =>
    intro i news prev res last hl h
    have : news = [] := List.length_eq_zero_iff.1 hl
    subst this
    simp only [proposeLoop, Outcome.ok.injEq, Prod.mk.injEq] at h
    obtain ⟨rfl, _⟩ := h
    exact ⟨[], rfl, rfl, by simp⟩
  | cons o os ih =>
    intro i news prev res last hl h
    cases news with
    | nil => simp at hl
    | cons n ns =>
      simp only [proposeLoop, Outcome.bind_eq_ok, Outcome.pure_eq, Outcome.ok.injEq,
        Prod.mk.injEq, Prod.exists] at h
      obtain ⟨x, _, w, _, n', hn, rest, last', hr, rfl, rfl⟩ := h
      obtain ⟨qs, rfl, hql, hqn⟩ := ih _ _ _ _ _ (by simpa using hl) hr
      obtain ⟨hw, rfl⟩ := weightSet_ok hn
      refine ⟨(x, w) :: qs, rfl, by simp [hql], ?_⟩
      simpa using ⟨hw, fun a b hab => hqn (a, b) hab⟩

theorem propose_inv {q : Option (Proposal R SV K)} {m : SysModel R SV K} {u : SV}
    {rs : Nat → R} {c c' : Cloud K SV} {prev last : SV} {b : Bool} (hc : Inv c)
    (h : propose q m u rs c prev = .ok ((b, c'), last)) : Inv c' := by
  obtain ⟨ps, h1, _, h3, _, h5, h6, _⟩ := hc
  unfold propose at h
  simp only [Outcome.bind_eq_ok, Outcome.pure_eq, Outcome.ok.injEq, Prod.mk.injEq,
    Prod.exists] at h
  obtain ⟨new, l, hp, b', post, hu, ⟨_, rfl⟩, _⟩ := h
  obtain ⟨qs, rfl, hql, hqn⟩ := proposeLoop_inv _ _ _ _ _ _ (by simp [listGet, h1, h5]) hp
  have hql' : qs.length = ps.length := by simpa [listGet, h1] using hql
  obtain ⟨ps', g1, g2, g3, g4, g5⟩ := listUpdateW_inv h3 hqn (by omega) hu
  exact ⟨ps', g1, g2, g3, by simp [listGet, h1, g4, hql'], by simp [g4], by omega, g5⟩

theorem weightLoop_inv {f : SV → SV → Outcome K} :
    ∀ (news olds res : List (WSample K SV)) (sum : K),
      weightLoop f olds news = .ok (res, sum) →
      ∃ qs : List (SV × K), res = qs.map wrap ∧ qs.length = news.length ∧ ∀ a ∈ qs, 0 ≤ a.2 := by
  intro news
  induction news with
  | nil =>
    intro olds res sum h
    simp only [weightLoop, Outcome.ok.injEq, Prod.mk.injEq] at h
    exact ⟨[], by simp [← h.1], rfl, by simp⟩
  | cons n ns ih =>
    intro olds res sum h
    cases olds with
    | nil => simp [weightLoop] at h
    | cons o os =>
      simp only [weightLoop, Outcome.bind_eq_ok, Outcome.pure_eq, Outcome.ok.injEq,
        Prod.mk.injEq, Prod.exists] at h
      obtain ⟨g, _, w, _, n', hn, rest, s, hr, rfl, _⟩ := h
      obtain ⟨qs, rfl, hql, hqn⟩ := ih _ _ _ hr
      obtain ⟨hw, rfl⟩ := weightSet_ok hn
      refine ⟨(n.value, w * g) :: qs, rfl, by simp [hql], ?_⟩
      simpa using ⟨hw, fun a b hab => hqn (a, b) hab⟩

theorem reweight_inv {f : SV → SV → Outcome K} {c c' : Cloud K SV} {s : K} {b : Bool}
    (hc : Inv c) (h : c.reweight f = .ok ((b, c'), s)) : Inv c' := by
  obtain ⟨ps, h1, _, h3, h4, _, h6, _⟩ := hc
  unfold reweight at h
  simp only [Outcome.bind_eq_ok, Outcome.pure_eq, Outcome.ok.injEq, Prod.mk.injEq,
    Prod.exists] at h
  obtain ⟨new, l, hp, b', post, hu, ⟨_, rfl⟩, _⟩ := h
  obtain ⟨qs, rfl, hql, hqn⟩ := weightLoop_inv _ _ _ _ hp
  have hql' : qs.length = ps.length := by simpa [listGet, h1] using hql
  obtain ⟨ps', g1, g2, g3, g4, g5⟩ := listUpdateW_inv h3 hqn (by omega) hu
  exact ⟨ps', g1, g2, g3, by simp [h4, g4, hql'], by simp [g4], by omega, g5⟩

theorem listUpdateU_inv (dflt : SV) {p p' : MCPdf K SV} {b : Bool} (hs : Sized p) {ts : List SV}
    (h : p.listUpdateU dflt ts = .ok (b, p')) :
    b = true ∧ (p' = p ∨ ∃ ps : List (SV × K), p'.samples = ps.map wrap ∧ (∀ a ∈ ps, 0 ≤ a.2) ∧
      Sized p' ∧ ps.length = p.samples.length ∧ Good p' (ps.map Prod.snd)) := by
  by_cases hl : ts.length = p.samples.length
  · by_cases hne : ts = []
    · subst hne
      unfold listUpdateU at h
      rw [if_pos hl, cassert_false (by simp)] at h
      simp at h
    · rw [listUpdateU_eq dflt hl hne, listSetU_eq dflt hs] at h
      simp only [Outcome.ok.injEq, Prod.mk.injEq] at h
      obtain ⟨rfl, rfl⟩ := h
      refine ⟨rfl, Or.inr ⟨ts.map fun t => (t, 1 / (ts.length : K)), ?_, ?_, ?_, by simp [hl], ?_⟩⟩
      · simp [wrap, Function.comp_def]
      · intro a ha
        obtain ⟨t, _, rfl⟩ := List.mem_map.1 ha
        simp
      · simp [Sized]
      · refine ⟨by simp [Function.comp_def], ?_, by simp [Function.comp_def], rfl⟩
        have := DiscretePdf.uniform_dist (K := K) (n := ts.length) (List.length_pos_iff.2 hne)
        simpa [Function.comp_def] using this
  · unfold listUpdateU at h
    rw [if_neg hl] at h
    simp only [Outcome.pure_eq, Outcome.ok.injEq, Prod.mk.injEq] at h
    exact ⟨h.1.symm, Or.inl h.2.symm⟩

theorem resample_inv {dflt : SV} {root : Nat → K → K} {scheme : Scheme} {us : Nat → K}
    {c c' : Cloud K SV} {b : Bool} (hc : Inv c)
    (h : c.resample dflt root scheme us = .ok (b, c')) : b = true ∧ Inv c' := by
  obtain ⟨ps, h1, h2, h3, h4, h5, h6, h7⟩ := hc
  unfold resample at h
  simp only [Outcome.bind_eq_ok, Outcome.pure_eq, Outcome.ok.injEq, Prod.mk.injEq,
    Prod.exists] at h
  obtain ⟨ts, _, b', post, hu, rfl, rfl⟩ := h
  obtain ⟨rfl, h | ⟨ps', g1, g2, g3, g4, g5⟩⟩ := listUpdateU_inv dflt h3 hu
  · exact ⟨rfl, ps, by simp [h, h1], h2, by simpa [h] using h3, h4, h5, h6, by simpa [h] using h7⟩
  · have g4' : ps'.length = ps.length := by simpa [h1] using g4
    exact ⟨rfl, ps', g1, g2, g3, by simp [h4, g4'], by simp [h5, g4'], by omega, Or.inl g5⟩

theorem resampleIfDegenerate_inv {dflt : SV} {root : Nat → K → K} {scheme : Scheme}
    {threshold : K} {us : Nat → K} {c c' : Cloud K SV} {b : Bool} (hc : Inv c)
    (h : c.resampleIfDegenerate dflt root scheme threshold us = .ok (b, c')) :
    b = true ∧ Inv c' := by
  have hc' : Inv { c with new := c.post.listGet } := by
    obtain ⟨ps, h1, h2, h3, h4, h5, h6, h7⟩ := hc
    exact ⟨ps, h1, h2, h3, h4, by simp [listGet, h1], h6, h7⟩
  unfold resampleIfDegenerate at h
  rw [Outcome.bind_eq_ok] at h
  obtain ⟨s, _, h⟩ := h
  split at h
  · exact resample_inv hc' h
  · simp only [Outcome.pure_eq, Outcome.ok.injEq, Prod.mk.injEq] at h
    obtain ⟨rfl, rfl⟩ := h
    exact ⟨rfl, hc'⟩

theorem sumSquares_live {c : Cloud K SV} {ps : List (SV × K)} (h : Live c ps) :
    c.sumSquares = .ok (ps.map fun a => a.2 ^ 2).sum := by
  unfold sumSquares
  rw [listGet, h.samples, weightGets_eq_ok.2 (map_wrap_weight ps)]
  simp [Function.comp_def]

/-- For normalised weights the sum of squares is positive. -/
theorem sumSq_pos {ps : List (SV × K)} (h : Normalised ps) : 0 < (ps.map fun a => a.2 ^ 2).sum := by
  have hnn : ∀ x ∈ ps.map (fun a => a.2 ^ 2), 0 ≤ x := by
    intro x hx
    obtain ⟨a, _, rfl⟩ := List.mem_map.1 hx
    exact sq_nonneg _
  rcases (List.sum_nonneg hnn).lt_or_eq with h0 | h0
  · exact h0
  · exfalso
    have hz : ∀ a ∈ ps, a.2 = 0 := by
      intro a ha
      have hle := List.single_le_sum hnn (a.2 ^ 2)
        (List.mem_map_of_mem (f := fun a : SV × K => a.2 ^ 2) ha)
      rw [← h0] at hle
      exact pow_eq_zero_iff (two_ne_zero) |>.1 (le_antisymm hle (sq_nonneg _))
    have : (ps.map Prod.snd).sum = 0 := by
      apply List.sum_eq_zero
      intro x hx
      obtain ⟨a, ha, rfl⟩ := List.mem_map.1 hx
      exact hz a ha
    have h1 := h.2
    rw [this] at h1
    exact zero_ne_one h1

/-- Dynamic resampling: exactly when the effective size is below the threshold. -/
theorem resampleIfDegenerate_live {root : Nat → K → K}
    (hroot : ∀ k x, 0 ≤ x → x ≤ 1 → 0 ≤ root k x ∧ root k x ≤ 1)
    (hrpos : ∀ k x, 0 < x → 0 < root k x) (dflt : SV) {us : Nat → K}
    (hus : ∀ i, 0 < us i ∧ us i ≤ 1) (threshold : K) {c : Cloud K SV} {ps : List (SV × K)}
    (h : Live c ps) :
    ∃ ps' c', c.resampleIfDegenerate dflt root .multinomial threshold us = .ok (true, c') ∧
      Live c' ps' ∧ c'.old = c.old ∧
      (effectiveSize ps < threshold →
        Resampled (Props.orderedUniform root ((List.range ps.length).map us)) ps ps') ∧
      (¬ effectiveSize ps < threshold → ps' = ps) := by
  have hl : Live { c with new := c.post.listGet } ps :=
    ⟨h.samples, h.good, h.old, by simp [listGet, h.samples]⟩
  have hs := sumSq_pos h.dist
  unfold resampleIfDegenerate
  rw [sumSquares_live h]
  simp only [Outcome.ok_bind, tooFew, decide_eq_true_eq]
  by_cases ht : effectiveSize ps < threshold
  · obtain ⟨ps', c', h1, h2, h3, h4⟩ := resample_live hroot hrpos dflt hus hl
    refine ⟨ps', c', ?_, h2, h3, fun _ => h4, fun hn => absurd ht hn⟩
    rw [if_pos ⟨hs.ne', ht⟩]
    exact h1
  · refine ⟨ps, _, ?_, hl, rfl, fun h => absurd h ht, fun _ => rfl⟩
    rw [if_neg (fun hc => ht hc.2)]
    rfl

end Cloud

end BFL
