import Verif.Model.AsirFilter
import Verif.Spec.Auxiliary
import Verif.Props.ParticleFilterSetup

/-!
# The loops of the auxiliary particle filter
-/

set_option linter.unusedSectionVars false

namespace BFL

open Spec Props MCPdf Cloud

variable {R SV MV K : Type} [Field K] [LinearOrder K] [IsStrictOrderedRing K]

theorem valueAt_of_lt (d : SV) {ps : List (SV × K)} {i : Nat} (hi : i < ps.length) :
    valueAt d ps i = ps[i].1 := by
  simp [valueAt, hi]

theorem valueAt_mem {P : SV → Prop} {d : SV} (hd : P d) {ps : List (SV × K)} (h : ∀ a ∈ ps, P a.1) (i : Nat) :
    P (valueAt d ps i) := by
  by_cases hi : i < ps.length
  · rw [valueAt_of_lt d hi]; exact h _ (List.getElem_mem hi)
  · simpa [valueAt, show ps[i]? = none by simpa using hi] using hd

/-- Weighted update of a live cloud with particles whose weights were multiplied. -/
theorem Cloud.Live.rescale {c : Cloud K SV} {ps : List (SV × K)} (h : Live c ps) {g : Nat → K}
    (hg : ∀ i, 0 ≤ g i) (hpos : 0 < totalWeight g ps) :
    ∃ ps' p', c.post.listUpdateW ((ps.mapIdx fun i a => (a.1, a.2 * g i)).map wrap) = .ok (true, p') ∧
      p'.samples = ps'.map wrap ∧ Good p' (ps'.map Prod.snd) ∧ ps'.length = ps.length ∧
      Reweighted g ps ps' := by
  set qs := ps.mapIdx fun i a => (a.1, a.2 * g i) with hqs
  have hsum : (qs.map Prod.snd).sum = totalWeight g ps := (totalWeight_eq g ps).symm
  have hl : qs.length = ps.length := by simp [hqs]
  obtain ⟨p', h3, h4, h5⟩ := listUpdateW_wrap (p := c.post) (qs := qs) h.good.sized
    (by rw [h.samples]; simpa using hl)
    (fun a ha => by
      rw [hqs, List.mem_mapIdx] at ha
      obtain ⟨i, hi, rfl⟩ := ha
      exact mul_nonneg (h.nonneg _ (List.getElem_mem hi)) (hg i))
    (by rw [hsum]; exact hpos)
  rw [hsum] at h4 h5
  refine ⟨qs.map fun a => (a.1, a.2 / totalWeight g ps), p', h3, h4, h5, by simp [hl], by simp [hl], ?_⟩
  intro i hi
  simp [hqs]

/-- The same particles with all weights zero: the update is refused. -/
theorem Cloud.Live.rescale_zero {c : Cloud K SV} {ps : List (SV × K)} (h : Live c ps) {g : Nat → K}
    (hpos : totalWeight g ps = 0) :
    ∃ p', c.post.listUpdateW ((ps.mapIdx fun i a => (a.1, a.2 * g i)).map wrap) = .ok (false, p') ∧
      p'.samples = (ps.mapIdx fun i a => (a.1, a.2 * g i)).map wrap := by
  have hsum : ((ps.mapIdx fun i a => (a.1, a.2 * g i)).map Prod.snd).sum = 0 := by
    rw [← totalWeight_eq, hpos]
  have hl : (ps.mapIdx fun i a => (a.1, a.2 * g i)).length = ps.length := by simp
  generalize (ps.mapIdx fun i a => (a.1, a.2 * g i)) = qs at hsum hl
  refine ⟨{ c.post with samples := qs.map wrap }, ?_, rfl⟩
  have hw : mapOutcome WSample.weightGet (qs.map wrap) = .ok (qs.map Prod.snd) :=
    weightGets_eq_ok.2 (map_wrap_weight qs)
  have hpos := h.pos
  simp only [MCPdf.listUpdateW]
  rw [cassert_true (by simp [h.samples, hl]), Outcome.ok_bind, if_pos (by simp; rintro rfl; simp at hl; omega)]
  simp only [MCPdf.normalizeWeights, MCPdf.sumWeightsUpdate, hw, Outcome.ok_bind, hsum, lt_irrefl, if_false]
  rfl

namespace AsirFilter

variable {q : Option (Proposal R SV K)} {a : AuxSystem R SV K} {u s : SV} {z : MV}

theorem lookLoop_eq {mm : Model SV MV K} {l : SV → K} {look : SV → SV}
    (hlook : ∀ x, lookAhead q a u x = .ok (look x))
    (hl : ∀ x, 0 ≤ l x ∧ Cloud.likelihood mm z s x = .ok (l x)) :
    ∀ (ps : List (SV × K)) (mus : List SV), (∀ x ∈ ps, 0 ≤ x.2) → ps.length ≤ mus.length →
      lookLoop q a u (some mm) z s (ps.map wrap) mus =
        .ok ((ps.map fun x => (x.1, x.2 * l (look x.1))).map wrap,
          (ps.map fun x => look x.1) ++ mus.drop ps.length) := by
  intro ps
  induction ps with
  | nil => intro mus _ _; simp [lookLoop]
  | cons x ps ih =>
    intro mus hx hm
    cases mus with
    | nil => simp at hm
    | cons m mus =>
      have h0 : 0 ≤ x.2 * l (look x.1) := mul_nonneg (hx x (by simp)) (hl _).1
      have := ih mus (fun y hy => hx y (by simp [hy])) (by simpa using hm)
      simp only [List.map_cons, lookLoop, hlook, Outcome.ok_bind, deref, wrap_value, (hl _).2,
        WSample.weightGet, wrap_weight, WSample.weightSet, cassert_true h0, this, Outcome.pure_eq]
      simp [wrap]

/-- The static vector is too short. -/
theorem lookLoop_short {mm : Model SV MV K} {l : SV → K} {look : SV → SV}
    (hlook : ∀ x, lookAhead q a u x = .ok (look x))
    (hl : ∀ x, 0 ≤ l x ∧ Cloud.likelihood mm z s x = .ok (l x)) :
    ∀ (ps : List (SV × K)) (mus : List SV), (∀ x ∈ ps, 0 ≤ x.2) → mus.length < ps.length →
      lookLoop q a u (some mm) z s (ps.map wrap) mus = .ub := by
  intro ps
  induction ps with
  | nil => intro mus _ h; simp at h
  | cons x ps ih =>
    intro mus hx hm
    cases mus with
    | nil => simp [lookLoop, hlook]
    | cons m mus =>
      have h0 : 0 ≤ x.2 * l (look x.1) := mul_nonneg (hx x (by simp)) (hl _).1
      have := ih mus (fun y hy => hx y (by simp [hy])) (by simpa using hm)
      simp only [List.map_cons, lookLoop, hlook, Outcome.ok_bind, deref, wrap_value, (hl _).2,
        WSample.weightGet, wrap_weight, WSample.weightSet, cassert_true h0, this, Outcome.pure_eq,
        Outcome.ub_bind]

theorem weightLoop_eq {f : SV → SV → Outcome K} :
    ∀ (ps : List (SV × K)) (mus : List SV) (g : Nat → K),
      (∀ x ∈ ps, 0 ≤ x.2) → (∀ i, 0 ≤ g i) → (hl : ps.length ≤ mus.length) →
      (∀ i (hi : i < ps.length), f (mus[i]'(by omega)) ps[i].1 = .ok (g i)) →
      weightLoop f mus (ps.map wrap) = .ok ((ps.mapIdx fun i a => (a.1, a.2 * g i)).map wrap) := by
  intro ps
  induction ps with
  | nil => intro mus g _ _ _ _; simp [weightLoop]
  | cons x ps ih =>
    intro mus g hx hg hm hf
    cases mus with
    | nil => simp at hm
    | cons m mus =>
      have h0 : 0 ≤ x.2 * g 0 := mul_nonneg (hx x (by simp)) (hg 0)
      have h1 : f m x.1 = .ok (g 0) := hf 0 (by simp)
      have := ih mus (fun i => g (i + 1)) (fun y hy => hx y (by simp [hy])) (fun i => hg _)
        (by simpa using hm) (fun i hi => hf (i + 1) (by simpa using hi))
      simp only [List.map_cons, weightLoop, wrap_value, h1, Outcome.ok_bind, WSample.weightGet,
        wrap_weight, WSample.weightSet, cassert_true h0, this, Outcome.pure_eq]
      simp [wrap, List.mapIdx_cons]

theorem auxFactor_eq {mm : Model SV MV K} {l : SV → K}
    (hl : ∀ x, 0 ≤ l x ∧ Cloud.likelihood mm z s x = .ok (l x)) (m y : SV) :
    auxFactor mm z s m y = .ok (l y / l m) := by
  simp only [auxFactor, (hl _).2, Outcome.ok_bind]
  by_cases h : l m = 0
  · simp [h]
  · rw [if_pos h]
    simp only [divProb, h, if_false, mkProb_of_nonneg (div_nonneg (hl y).1 (hl m).1)]

end AsirFilter

end BFL
