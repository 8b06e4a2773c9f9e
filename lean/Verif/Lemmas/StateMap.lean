import Verif.Spec.StateMap
import Mathlib.Algebra.Order.BigOperators.Group.List
import Mathlib.Algebra.BigOperators.Ring.List
import Mathlib.Tactic.Ring
import Mathlib.Tactic.FieldSimp
import Mathlib.Tactic.Positivity

set_option linter.unusedSectionVars false

/-!
# The particle filter works in the same way in both descriptions
-/

namespace BFL

open Spec

variable {R SV SW MV MW X X' K : Type} [Field K] [LinearOrder K] [IsStrictOrderedRing K]

namespace Spec

theorem Same.ok {α β : Type} {r : α → β → Prop} {a : α} {b : β} (h : r a b) : Same r (.ok a) (.ok b) := h

theorem Same.bind {α β γ δ : Type} {r : α → β → Prop} {s : γ → δ → Prop} {x : Outcome α} {y : Outcome β}
    {f : α → Outcome γ} {g : β → Outcome δ} (h : Same r x y) (hf : ∀ a b, r a b → Same s (f a) (g b)) :
    Same s (x >>= f) (y >>= g) := by
  cases x <;> cases y <;> simp_all [Same]

theorem Same.mono {α β : Type} {r s : α → β → Prop} {x : Outcome α} {y : Outcome β} (h : Same r x y)
    (hs : ∀ a b, r a b → s a b) : Same s x y := by
  cases x <;> cases y <;> simp_all [Same]

theorem Same.refl {α : Type} (x : Outcome α) : Same (fun a b => a = b) x x := by
  cases x <;> simp [Same]

theorem Same.of_eq {α : Type} {x y : Outcome α} (h : y = x) : Same (fun a b => a = b) x y := by
  subst h; exact Same.refl _

theorem Same.cassert {c d : Prop} [Decidable c] [Decidable d] (h : c ↔ d) :
    Same (fun _ _ => True) (cassert c) (cassert d) := by
  unfold BFL.cassert
  by_cases hc : c
  · simp [hc, h.1 hc, Same]
  · simp [hc, show ¬ d from fun hd => hc (h.2 hd), Same]

end Spec

section basic

variable (φ : SV → SW)

/-- The particles in the other description, with all weights multiplied. -/
def scaled (φ : SV → SW) (c : K) (s : WSample K SV) : WSample K SW := ⟨φ s.value, s.weight.map (c * ·)⟩

theorem scaled_one : scaled (K := K) φ 1 = moved φ := by
  funext s
  cases h : s.weight <;> simp [scaled, moved, h]

theorem moved_weightGet (s : WSample K SV) : (moved φ s).weightGet = s.weightGet := rfl

theorem moved_weights (l : List (WSample K SV)) :
    mapOutcome WSample.weightGet (l.map (moved φ)) = mapOutcome WSample.weightGet l := by
  induction l with
  | nil => rfl
  | cons a l ih => simp only [List.map_cons, mapOutcome, ih]; rfl

theorem scaled_weights (c : K) (l : List (WSample K SV)) :
    Same (fun ws ws' => ws' = ws.map (c * ·)) (mapOutcome WSample.weightGet l)
      (mapOutcome WSample.weightGet (l.map (scaled φ c))) := by
  induction l with
  | nil => exact Same.ok rfl
  | cons a l ih =>
    simp only [List.map_cons, mapOutcome]
    refine Same.bind (r := fun a b => b = c * a) ?_ ?_
    · cases h : a.weight <;> simp [scaled, WSample.weightGet, h, Same]
    · rintro w _ rfl
      refine Same.bind ih ?_
      rintro ws _ rfl
      exact Same.ok rfl

theorem cumUpdate_moved (p : MCPdf K SV) :
    Same (fun a b => b = movedPdf φ a) p.cumUpdate (movedPdf φ p).cumUpdate := by
  unfold MCPdf.cumUpdate
  simp only [movedPdf, moved_weights, List.length_map]
  refine Same.bind (Same.refl _) ?_
  rintro ws _ rfl
  split
  · trivial
  · exact Same.ok rfl

theorem normalise_scaled {c : K} (hc : 0 < c) {p : MCPdf K SV}
    (hp : ∀ s ∈ p.samples, ∀ w, s.weight = some w → 0 ≤ w) :
    Same (fun a b => b = (a.1, movedPdf φ a.2)) p.normalizeWeights
      (MCPdf.normalizeWeights ⟨p.samples.map (scaled φ c), p.cum, p.sumWeights⟩) := by
  by_cases hall : ∀ s ∈ p.samples, s.weight.isSome
  swap
  · have h1 : mapOutcome WSample.weightGet p.samples = .ub := by
      clear hp
      induction hl : p.samples generalizing p with
      | nil => simp [hl] at hall
      | cons a l ih =>
        simp only [mapOutcome]
        cases ha : a.weight with
        | none => simp [WSample.weightGet, ha]
        | some w =>
          have := ih (p := ⟨l, p.cum, p.sumWeights⟩)
            (by intro h; apply hall; rw [hl]; intro s hs; rcases List.mem_cons.1 hs with rfl | hs
                · simp [ha]
                · exact h s hs) rfl
          simp [WSample.weightGet, ha]
          rw [this]; rfl
    have h2 := scaled_weights φ c p.samples
    rw [h1] at h2
    have h3 : mapOutcome WSample.weightGet (p.samples.map (scaled φ c)) = .ub := by
      revert h2
      cases mapOutcome WSample.weightGet (p.samples.map (scaled φ c)) <;> simp [Same]
    simp only [MCPdf.normalizeWeights, MCPdf.sumWeightsUpdate, h1, h3]
    trivial
  · -- all weights are set
    have get : ∀ s ∈ p.samples, s.weightGet = .ok (s.weight.getD 0) := by
      intro s hs
      obtain ⟨w, hw⟩ := Option.isSome_iff_exists.1 (hall s hs)
      simp [WSample.weightGet, hw]
    have nonneg : ∀ s ∈ p.samples, 0 ≤ s.weight.getD 0 := by
      intro s hs
      obtain ⟨w, hw⟩ := Option.isSome_iff_exists.1 (hall s hs)
      simpa [hw] using hp s hs w hw
    have e1 : mapOutcome WSample.weightGet p.samples = .ok (p.samples.map fun s => s.weight.getD 0) :=
      mapOutcome_eq_ok get
    have e2 : mapOutcome WSample.weightGet (p.samples.map (scaled φ c))
        = .ok ((p.samples.map fun s => s.weight.getD 0).map (c * ·)) := by
      have := scaled_weights φ c p.samples
      rw [e1] at this
      revert this
      cases mapOutcome WSample.weightGet (p.samples.map (scaled φ c)) <;> simp [Same]
    have esum : ((p.samples.map fun s => s.weight.getD 0).map (c * ·)).sum
        = c * (p.samples.map fun s => s.weight.getD 0).sum := by
      rw [List.sum_map_mul_left, List.map_id']
    simp only [MCPdf.normalizeWeights, MCPdf.sumWeightsUpdate, e1, e2, Outcome.ok_bind, esum]
    by_cases hpos : 0 < (p.samples.map fun s => s.weight.getD 0).sum
    · rw [if_pos hpos, if_pos (mul_pos hc hpos)]
      simp only [Outcome.pure_eq, Outcome.ok_bind, if_true]
      have n1 : mapOutcome (fun (s : WSample K SV) => do
          let w ← s.weightGet
          s.weightSet (w / (p.samples.map fun s => s.weight.getD 0).sum)) p.samples
          = .ok (p.samples.map fun s => ⟨s.value,
              some (s.weight.getD 0 / (p.samples.map fun s => s.weight.getD 0).sum)⟩) := by
        refine mapOutcome_eq_ok fun s hs => ?_
        rw [get s hs]
        simp only [Outcome.ok_bind, WSample.weightSet]
        rw [cassert_true (div_nonneg (nonneg s hs) hpos.le)]
        rfl
      have n2 : mapOutcome (fun (s : WSample K SW) => do
          let w ← s.weightGet
          s.weightSet (w / (c * (p.samples.map fun s => s.weight.getD 0).sum)))
            (p.samples.map (scaled φ c))
          = .ok ((p.samples.map fun s => (⟨s.value,
              some (s.weight.getD 0 / (p.samples.map fun s => s.weight.getD 0).sum)⟩ :
                WSample K SV)).map (moved φ)) := by
        rw [List.map_map]
        have : ∀ s ∈ p.samples, ((scaled φ c s).weightGet >>= fun w => (scaled φ c s).weightSet
            (w / (c * (p.samples.map fun s => s.weight.getD 0).sum)))
            = .ok (moved φ (⟨s.value,
              some (s.weight.getD 0 / (p.samples.map fun s => s.weight.getD 0).sum)⟩ :
                WSample K SV)) := by
          intro s hs
          obtain ⟨w, hw⟩ := Option.isSome_iff_exists.1 (hall s hs)
          have hw0 : 0 ≤ w := hp s hs w hw
          have : c * w / (c * (p.samples.map fun s => s.weight.getD 0).sum)
              = w / (p.samples.map fun s => s.weight.getD 0).sum := by
            rw [mul_div_mul_left _ _ hc.ne']
          simp only [scaled, WSample.weightGet, hw, Option.map_some, Outcome.ok_bind, WSample.weightSet,
            this, moved, Option.getD_some]
          rw [cassert_true (div_nonneg hw0 hpos.le)]
          rfl
        have key : ∀ l : List (WSample K SV), (∀ s ∈ l, s ∈ p.samples) →
            mapOutcome (fun (s : WSample K SW) => do
              let w ← s.weightGet
              s.weightSet (w / (c * (p.samples.map fun s => s.weight.getD 0).sum))) (l.map (scaled φ c))
            = .ok (l.map (moved φ ∘ fun s => (⟨s.value,
              some (s.weight.getD 0 / (p.samples.map fun s => s.weight.getD 0).sum)⟩ :
                WSample K SV))) := by
          intro l
          induction l with
          | nil => intro _; rfl
          | cons a l ih =>
            intro h
            simp only [List.map_cons, mapOutcome]
            rw [this a (h a (by simp)), ih (fun s hs => h s (by simp [hs]))]
            rfl
        exact key p.samples (fun _ h => h)
      rw [n1, n2]
      simp only [Outcome.ok_bind]
      refine Same.bind (cumUpdate_moved φ _) ?_
      rintro a _ rfl
      exact Same.ok rfl
    · rw [if_neg hpos, if_neg (fun h => hpos ((mul_pos_iff_of_pos_left hc).1 h))]
      have hz : ∀ s ∈ p.samples, s.weight.getD 0 = 0 := by
        have h0 : (p.samples.map fun s => s.weight.getD 0).sum = 0 := by
          refine le_antisymm (not_lt.1 hpos) (List.sum_nonneg ?_)
          intro x hx
          obtain ⟨s, hs, rfl⟩ := List.mem_map.1 hx
          exact nonneg s hs
        intro s hs
        refine le_antisymm ?_ (nonneg s hs)
        have := List.single_le_sum (l := p.samples.map fun s => s.weight.getD 0) (by
          intro x hx
          obtain ⟨s, hs, rfl⟩ := List.mem_map.1 hx
          exact nonneg s hs) (s.weight.getD 0) (List.mem_map.2 ⟨s, hs, rfl⟩)
        rwa [h0] at this
      simp only [Outcome.pure_eq, Outcome.ok_bind, Bool.false_eq_true, if_false]
      refine Same.ok ?_
      simp only [movedPdf]
      congr 2
      refine List.map_congr_left fun s hs => ?_
      obtain ⟨w, hw⟩ := Option.isSome_iff_exists.1 (hall s hs)
      have := hz s hs
      simp only [hw, Option.getD_some] at this
      simp [scaled, moved, hw, this]

theorem listUpdateW_scaled {c : K} (hc : 0 < c) (p : MCPdf K SV) {l : List (WSample K SV)}
    {l' : List (WSample K SW)} (hl : l'.length = l.length)
    (h : l.length = p.samples.length → l' = l.map (scaled φ c) ∧
      ∀ s ∈ l, ∀ w, s.weight = some w → 0 ≤ w) :
    Same (fun a b => b = (a.1, movedPdf φ a.2)) (p.listUpdateW l) ((movedPdf φ p).listUpdateW l') := by
  unfold MCPdf.listUpdateW
  have hlen : (movedPdf φ p).samples.length = p.samples.length := by simp [movedPdf]
  by_cases e : l.length = p.samples.length
  · rw [cassert_true e, cassert_true (by rw [hl, hlen, e])]
    simp only [Outcome.ok_bind, hl]
    obtain ⟨rfl, h2⟩ := h e
    split
    · exact normalise_scaled φ hc h2
    · exact Same.ok rfl
  · rw [cassert_false e, cassert_false (by rw [hl, hlen]; exact e)]
    trivial

theorem numSamplesSet_moved_cum (d : SV) (d' : SW) (p : MCPdf K SV) (k : Nat) :
    ((movedPdf φ p).numSamplesSet d' k).cum = (p.numSamplesSet d k).cum := by
  simp only [MCPdf.numSamplesSet, movedPdf, List.length_map]
  split
  · rfl
  · split <;> rfl

theorem uniformWeights_moved (l : List SV) :
    Same (fun a b => b = a.map (moved φ)) (MCPdf.uniformWeights (K := K) l)
      (MCPdf.uniformWeights (K := K) (l.map φ)) := by
  have key : ∀ (c : K) (l : List SV), Same (fun a b => b = a.map (moved φ))
      (mapOutcome (fun t => (WSample.ofSample (K := K) t).weightSet c) l)
      (mapOutcome (fun t => (WSample.ofSample (K := K) t).weightSet c) (l.map φ)) := by
    intro c l
    induction l with
    | nil => exact Same.ok rfl
    | cons a l ih =>
      simp only [List.map_cons, mapOutcome]
      refine Same.bind (r := fun a b => b = moved φ a) ?_ ?_
      · unfold WSample.weightSet
        refine Same.bind (Same.refl _) ?_
        intro _ _ _
        exact Same.ok rfl
      · rintro w _ rfl
        refine Same.bind ih ?_
        rintro ws _ rfl
        exact Same.ok rfl
  unfold MCPdf.uniformWeights
  rw [List.length_map]
  exact key _ l

theorem listUpdateU_moved (d : SV) (d' : SW) (p : MCPdf K SV) (l : List SV) :
    Same (fun a b => b = (a.1, movedPdf φ a.2)) (p.listUpdateU d l)
      ((movedPdf φ p).listUpdateU d' (l.map φ)) := by
  unfold MCPdf.listUpdateU
  have hlen : (movedPdf φ p).samples.length = p.samples.length := by simp [movedPdf]
  rw [hlen, List.length_map]
  split
  · refine Same.bind (Same.refl _) ?_
    intro _ _ _
    refine Same.bind (uniformWeights_moved φ l) ?_
    rintro ss _ rfl
    have := cumUpdate_moved φ { p.numSamplesSet d l.length with samples := ss, sumWeights := 1 }
    refine Same.bind (x := MCPdf.cumUpdate { p.numSamplesSet d l.length with samples := ss, sumWeights := 1 })
      (y := MCPdf.cumUpdate { (movedPdf φ p).numSamplesSet d' l.length with
        samples := ss.map (moved φ), sumWeights := 1 }) (r := fun a b => b = movedPdf φ a) ?_ ?_
    · show Same _ (MCPdf.cumUpdate ⟨ss, (p.numSamplesSet d l.length).cum, 1⟩)
        (MCPdf.cumUpdate ⟨ss.map (moved φ), ((movedPdf φ p).numSamplesSet d' l.length).cum, 1⟩)
      rw [numSamplesSet_moved_cum φ d d' p l.length]; exact this
    · rintro a _ rfl
      exact Same.ok rfl
  · exact Same.ok rfl

theorem listSetW_moved (d : SV) (d' : SW) (p : MCPdf K SV) (p' : MCPdf K SW)
    (h1 : p'.samples.length = p.samples.length) (h2 : p'.cum = p.cum) (h3 : p'.sumWeights = p.sumWeights)
    {l : List (WSample K SV)} (hl : ∀ s ∈ l, ∀ w, s.weight = some w → 0 ≤ w) :
    Same (fun a b => b = (a.1, movedPdf φ a.2)) (p.listSetW d l)
      (p'.listSetW d' (l.map (moved φ))) := by
  unfold MCPdf.listSetW
  have e1 : (p'.numSamplesSet d' l.length).sumWeights = (p.numSamplesSet d l.length).sumWeights := by
    simp only [MCPdf.numSamplesSet, h1]
    split
    · exact h3
    · split <;> exact h3
  have e2 : (p'.numSamplesSet d' l.length).cum = (p.numSamplesSet d l.length).cum := by
    simp only [MCPdf.numSamplesSet, h1]
    split
    · simp only [h2]
    · split <;> simp only [h2]
  have := normalise_scaled φ (c := 1) one_pos (p := { p.numSamplesSet d l.length with samples := l }) hl
  rw [scaled_one] at this
  rw [List.length_map]
  show Same _ (MCPdf.normalizeWeights ⟨l, (p.numSamplesSet d l.length).cum,
      (p.numSamplesSet d l.length).sumWeights⟩)
    (MCPdf.normalizeWeights ⟨l.map (moved φ), (p'.numSamplesSet d' l.length).cum,
      (p'.numSamplesSet d' l.length).sumWeights⟩)
  rw [e2, e1]
  exact this

theorem previous_moved (p : MCPdf K SV) (i : Nat) :
    Same (fun a b => b = φ a) (p.previous i) ((movedPdf φ p).previous i) := by
  cases i with
  | zero => trivial
  | succ i =>
    simp only [MCPdf.previous, movedPdf, vget, List.getElem?_map]
    cases p.samples[i]? with
    | none => trivial
    | some s => exact Same.ok rfl

theorem ripleyLoop_moved (p : MCPdf K SV) : ∀ (us : List K) (i : Nat) (rest : List K),
    Same (fun a b => b = a.map φ) (p.ripleyLoop us i rest) ((movedPdf φ p).ripleyLoop us i rest) := by
  intro us
  induction us with
  | nil => intro i rest; exact Same.ok rfl
  | cons u us ih =>
    intro i rest
    simp only [MCPdf.ripleyLoop]
    have : (movedPdf φ p).numSamples = p.numSamples := by simp [movedPdf, MCPdf.numSamples]
    rw [this]
    refine Same.bind (Same.refl _) ?_
    rintro ⟨j, r⟩ _ rfl
    refine Same.bind (previous_moved φ p j) ?_
    rintro t _ rfl
    refine Same.bind (ih j r) ?_
    rintro ts _ rfl
    exact Same.ok rfl

theorem ripley_moved (root : Nat → K → K) (p : MCPdf K SV) (us : List K) :
    Same (fun a b => b = a.map (List.map φ)) (p.sampleList root .ripley us)
      ((movedPdf φ p).sampleList root .ripley us) := by
  simp only [MCPdf.sampleList]
  split
  · trivial
  · refine Same.bind (ripleyLoop_moved φ p _ _ _) ?_
    rintro ts _ rfl
    exact Same.ok rfl

end basic

section parts

variable {φ : SV → SW} {d : SV} {d' : SW} {c : K} {u : SV} {u' : SW}

theorem SameModel.withoutInputs {at_ : X → X' → Prop} {m : Model SV X K} {m' : Model SW X' K}
    (h : SameModel φ u u' at_ c m m') : m'.withoutInputs = m.withoutInputs := by
  simp only [Model.withoutInputs, h.without]

theorem SameModel.prob1 {at_ : X → X' → Prop} {m : Model SV X K} {m' : Model SW X' K}
    (h : SameModel φ u u' at_ c m m') {y : X} {y' : X'} (hy : at_ y y') (x : SV) :
    Same (fun a b => b = c * a) (m.prob1 y x) (m'.prob1 y' (φ x)) := by
  unfold Model.prob1
  rw [SameModel.withoutInputs h]
  refine Same.bind (Same.refl _) ?_
  rintro w _ rfl
  refine Same.bind (Same.refl _) ?_
  intro _ _ _
  refine Same.bind (r := SamePdf φ u u' at_ c) ?_ ?_
  · have := h.pdf
    unfold Model.pdfGet
    revert this
    cases m.pdf <;> cases m'.pdf <;> intro this <;> cases this
    · trivial
    · assumption
  · intro p p' hp
    rw [hp.numArgs]
    refine Same.bind (Same.refl _) ?_
    intro _ _ _
    exact hp.density _ _ (.one x) _ _ hy

theorem SameModel.prob2 {at_ : X → X' → Prop} {m : Model SV X K} {m' : Model SW X' K}
    (h : SameModel φ u u' at_ c m m') {y : X} {y' : X'} (hy : at_ y y') (x : SV) :
    Same (fun a b => b = c * a) (m.prob2 y x u) (m'.prob2 y' (φ x) u') := by
  unfold Model.prob2
  rw [SameModel.withoutInputs h]
  refine Same.bind (Same.refl _) ?_
  rintro w _ rfl
  refine Same.bind (Same.refl _) ?_
  intro _ _ _
  refine Same.bind (r := SamePdf φ u u' at_ c) ?_ ?_
  · have := h.pdf
    unfold Model.pdfGet
    revert this
    cases m.pdf <;> cases m'.pdf <;> intro this <;> cases this
    · trivial
    · assumption
  · intro p p' hp
    rw [hp.numArgs]
    refine Same.bind (Same.refl _) ?_
    intro _ _ _
    refine Same.bind (Same.refl _) ?_
    intro _ _ _
    exact hp.density _ _ (.two x) _ _ hy

theorem propArgs_same {q : Proposal R SV K} {q' : Proposal R SW K} (h : q'.numArgs = q.numArgs)
    (without : Bool) (x : SV) :
    Same (SameArgs φ u u') (Cloud.propArgs q without u x) (Cloud.propArgs q' without u' (φ x)) := by
  unfold Cloud.propArgs
  rw [h]
  refine Same.bind (Same.refl _) ?_
  intro _ _ _
  split
  · exact Same.ok (.one x)
  · refine Same.bind (Same.refl _) ?_
    intro _ _ _
    exact Same.ok (.two x)

theorem deref_same {q : Option (Proposal R SV K)} {q' : Option (Proposal R SW K)}
    {r : Proposal R SV K → Proposal R SW K → Prop} (h : Option.Rel r q q') :
    Same r (Cloud.deref q) (Cloud.deref q') := by
  cases h with
  | none => trivial
  | some h => exact h

theorem drawOne_same {q : Option (Proposal R SV K)} {q' : Option (Proposal R SW K)}
    {m : SysModel R SV K} {m' : SysModel R SW K} (hq : Option.Rel (SameProposal φ d d' c u u') q q')
    (hm : SameSystem φ d d' c u u' m m') (r : R) (x : SV) {prev : SV} {prev' : SW}
    (hp : Held φ d d' prev prev') :
    Same (fun a b => b = φ a) (Cloud.drawOne q m u r x prev) (Cloud.drawOne q' m' u' r (φ x) prev') := by
  unfold Cloud.drawOne
  refine Same.bind (deref_same hq) ?_
  intro q q' hq
  rw [SameModel.withoutInputs hm.model]
  refine Same.bind (Same.refl _) ?_
  rintro w _ rfl
  refine Same.bind (propArgs_same hq.numArgs w x) ?_
  intro args args' ha
  exact hq.draw r args args' ha prev prev' hp

theorem proposeLoop_same {q : Option (Proposal R SV K)} {q' : Option (Proposal R SW K)}
    {m : SysModel R SV K} {m' : SysModel R SW K} (hq : Option.Rel (SameProposal φ d d' c u u') q q')
    (hm : SameSystem φ d d' c u u' m m') (rs : Nat → R) (os : List (WSample K SV)) :
    ∀ (i : Nat) (news : List (WSample K SV)) (news' : List (WSample K SW)) (prev : SV) (prev' : SW),
    news'.length = news.length → Held φ d d' prev prev' →
    Same (fun a b => b.1.length = a.1.length ∧
        (a.1.length = os.length → b.1 = a.1.map (scaled φ 1) ∧
          ∀ s ∈ a.1, ∀ w, s.weight = some w → 0 ≤ w) ∧ Held φ d d' a.2 b.2)
      (Cloud.proposeLoop q m u rs i os news prev)
      (Cloud.proposeLoop q' m' u' rs i (os.map (moved φ)) news' prev') := by
  induction os with
  | nil =>
    intro i news news' prev prev' hl hp
    refine Same.ok ⟨hl, fun h => ?_, hp⟩
    have : news = [] := List.eq_nil_of_length_eq_zero h
    subst this
    have : news' = [] := List.eq_nil_of_length_eq_zero hl
    subst this
    simp
  | cons o os ih =>
    intro i news news' prev prev' hl hp
    simp only [List.map_cons, Cloud.proposeLoop]
    refine Same.bind (drawOne_same hq hm (rs i) o.value hp) ?_
    rintro x _ rfl
    cases news with
    | nil =>
      have : news' = [] := List.eq_nil_of_length_eq_zero hl
      subst this
      trivial
    | cons n ns =>
      cases news' with
      | nil => simp at hl
      | cons n' ns' =>
        simp only [List.length_cons, Nat.add_right_cancel_iff] at hl
        simp only
        refine Same.bind (Same.of_eq (moved_weightGet φ o)) ?_
        rintro w _ rfl
        unfold WSample.weightSet
        by_cases hw : 0 ≤ w
        · simp only [cassert_true hw, Outcome.ok_bind, Outcome.pure_eq]
          refine Same.bind (ih (i + 1) ns ns' x (φ x) hl (Or.inl rfl)) ?_
          rintro ⟨rest, last⟩ ⟨rest', last'⟩ ⟨h1, h2, h3⟩
          refine Same.ok ⟨by simpa using h1, fun h => ?_, h3⟩
          simp only [List.length_cons, Nat.add_right_cancel_iff] at h
          obtain ⟨h4, h5⟩ := h2 h
          refine ⟨?_, ?_⟩
          · simp only [List.map_cons]
            rw [show rest' = _ from h4]
            simp [scaled]
          · intro s hs w' hw'
            rcases List.mem_cons.1 hs with rfl | hs
            · cases hw'; exact hw
            · exact h5 s hs w' hw'
        · simp only [cassert_false hw]
          trivial

/-- Corresponding particle sets of two filters. The weights of the scratch vector `new` are always
overwritten before they are used. -/
structure SameCloud (φ : SV → SW) (a : Cloud K SV) (b : Cloud K SW) : Prop where
  post : b.post = movedPdf φ a.post
  old : b.old = a.old.map (moved φ)
  new : b.new.length = a.new.length
  unweighted : b.unweighted = a.unweighted.map φ

theorem propose_same {q : Option (Proposal R SV K)} {q' : Option (Proposal R SW K)}
    {m : SysModel R SV K} {m' : SysModel R SW K} (hq : Option.Rel (SameProposal φ d d' c u u') q q')
    (hm : SameSystem φ d d' c u u' m m') (rs : Nat → R) {a : Cloud K SV} {b : Cloud K SW}
    (h : SameCloud φ a b) {prev : SV} {prev' : SW} (hp : Held φ d d' prev prev') :
    Same (fun x y => y.1.1 = x.1.1 ∧ SameCloud φ x.1.2 y.1.2 ∧ Held φ d d' x.2 y.2)
      (Cloud.propose q m u rs a prev) (Cloud.propose q' m' u' rs b prev') := by
  unfold Cloud.propose
  rw [h.post]
  refine Same.bind (proposeLoop_same hq hm rs a.post.samples 0 a.new b.new prev prev' h.new hp) ?_
  rintro ⟨new, last⟩ ⟨new', last'⟩ ⟨h1, h2, h3⟩
  refine Same.bind (listUpdateW_scaled φ one_pos a.post h1 h2) ?_
  rintro ⟨x, post⟩ _ rfl
  exact Same.ok ⟨rfl, ⟨rfl, rfl, h1, h.unweighted⟩, h3⟩

theorem likelihood_same {cz : K} {s : SV} {s' : SW} {z : MV} {z' : MW} {mm : Model SV MV K}
    {mm' : Model SW MW K} (h : SameModel φ s s' (fun y y' => y = z ∧ y' = z') cz mm mm') (x : SV) :
    Same (fun a b => b = cz * a) (Cloud.likelihood mm z s x) (Cloud.likelihood mm' z' s' (φ x)) := by
  unfold Cloud.likelihood
  rw [SameModel.withoutInputs h]
  refine Same.bind (Same.refl _) ?_
  rintro w _ rfl
  split
  · exact SameModel.prob1 h ⟨rfl, rfl⟩ x
  · exact SameModel.prob2 h ⟨rfl, rfl⟩ x

theorem transition_same {m : SysModel R SV K} {m' : SysModel R SW K}
    (hm : SameSystem φ d d' c u u' m m') (x y : SV) :
    Same (fun a b => b = c * a) (Cloud.transition m u x y) (Cloud.transition m' u' (φ x) (φ y)) := by
  unfold Cloud.transition
  rw [SameModel.withoutInputs hm.model]
  refine Same.bind (Same.refl _) ?_
  rintro w _ rfl
  split
  · exact SameModel.prob1 hm.model rfl x
  · exact SameModel.prob2 hm.model rfl x

theorem correction_same (hc : 0 < c) {cz : K} (hz : 0 < cz) {q : Proposal R SV K} {q' : Proposal R SW K}
    (hq : SameProposal φ d d' c u u' q q') {m : SysModel R SV K} {m' : SysModel R SW K}
    (hm : SameSystem φ d d' c u u' m m') (x y : SV) {args : List SV} {args' : List SW}
    (ha : SameArgs φ u u' args args') (l : K) :
    Same (fun a b => b = cz * a) (Cloud.correction q m u x y args l)
      (Cloud.correction q' m' u' (φ x) (φ y) args' (cz * l)) := by
  unfold Cloud.correction
  refine Same.bind (hq.density args args' ha y (φ y) rfl) ?_
  rintro p _ rfl
  by_cases hp : p = 0
  · simp [hp, Same]
  · rw [if_pos hp, if_pos (mul_ne_zero hc.ne' hp)]
    refine Same.bind (transition_same hm x y) ?_
    rintro t _ rfl
    refine Same.bind (r := fun a b => a = b) (Same.of_eq ?_) ?_
    · unfold divProb
      rw [if_neg hp, if_neg (mul_ne_zero hc.ne' hp), mul_div_mul_left _ _ hc.ne']
    · rintro r _ rfl
      unfold mkProb
      by_cases h : 0 ≤ l * r
      · rw [if_pos h, if_pos (by rw [mul_assoc]; exact mul_nonneg hz.le h)]
        exact Same.ok (mul_assoc _ _ _)
      · rw [if_neg h, if_neg (by rw [mul_assoc]; exact fun h' => h (nonneg_of_mul_nonneg_right h' hz))]
        trivial

theorem factor_same (hc : 0 < c) {cz : K} (hz : 0 < cz) {q : Option (Proposal R SV K)}
    {q' : Option (Proposal R SW K)} {sys : Option (SysModel R SV K)} {sys' : Option (SysModel R SW K)}
    (hs : Option.Rel (SameSystem φ d d' c u u') sys sys')
    (hq : sys ≠ none → Option.Rel (SameProposal φ d d' c u u') q q') {s : SV} {s' : SW} {z : MV} {z' : MW}
    {mm : Model SV MV K} {mm' : Model SW MW K}
    (h : SameModel φ s s' (fun y y' => y = z ∧ y' = z') cz mm mm') (x y : SV) :
    Same (fun a b => b = cz * a) (Cloud.factor q sys u mm z s x y)
      (Cloud.factor q' sys' u' mm' z' s' (φ x) (φ y)) := by
  cases hs with
  | none => exact likelihood_same h y
  | some hm =>
    simp only [Cloud.factor, Cloud.factorSys]
    refine Same.bind (deref_same (hq (by simp))) ?_
    intro q q' hq
    rw [hq.numArgs]
    refine Same.bind (Same.refl _) ?_
    intro _ _ _
    rw [SameModel.withoutInputs h]
    refine Same.bind (Same.refl _) ?_
    rintro w _ rfl
    split
    · refine Same.bind (SameModel.prob1 h ⟨rfl, rfl⟩ y) ?_
      rintro l _ rfl
      rw [SameModel.withoutInputs hm.model]
      refine Same.bind (Same.refl _) ?_
      rintro w _ rfl
      refine Same.bind (propArgs_same hq.numArgs w x) ?_
      intro args args' ha
      exact correction_same hc hz hq hm x y ha l
    · exact SameModel.prob2 h ⟨rfl, rfl⟩ y

theorem weightLoop_same {cz : K} (hz : 0 < cz) {f : SV → SV → Outcome K} {f' : SW → SW → Outcome K}
    (hf : ∀ x y, Same (fun a b => b = cz * a) (f x y) (f' (φ x) (φ y))) (ns : List (WSample K SV)) :
    ∀ olds : List (WSample K SV),
    Same (fun a b => b.1 = a.1.map (scaled φ cz) ∧ a.1.length = ns.length ∧
        (∀ s ∈ a.1, ∀ w, s.weight = some w → 0 ≤ w) ∧ b.2 = cz * a.2)
      (Cloud.weightLoop f olds ns) (Cloud.weightLoop f' (olds.map (moved φ)) (ns.map (moved φ))) := by
  induction ns with
  | nil => intro olds; simp only [List.map_nil, Cloud.weightLoop]; exact Same.ok ⟨rfl, rfl, by simp, by simp⟩
  | cons n ns ih =>
    intro olds
    cases olds with
    | nil => simp only [List.map_nil, List.map_cons, Cloud.weightLoop]; trivial
    | cons o os =>
      simp only [List.map_cons, Cloud.weightLoop]
      refine Same.bind (hf o.value n.value) ?_
      rintro g _ rfl
      refine Same.bind (Same.of_eq (moved_weightGet φ n)) ?_
      rintro w _ rfl
      unfold WSample.weightSet
      have e : w * (cz * g) = cz * (w * g) := by ring
      rw [e]
      by_cases hw : 0 ≤ w * g
      · simp only [cassert_true hw, cassert_true (mul_nonneg hz.le hw), Outcome.ok_bind, Outcome.pure_eq]
        refine Same.bind (ih os) ?_
        rintro ⟨rest, sum⟩ ⟨rest', sum'⟩ ⟨h1, h2, h3, h4⟩
        simp only at h1 h2 h3 h4
        subst h1 h4
        refine Same.ok ⟨rfl, by simpa using h2, ?_, by ring⟩
        intro s hs w' hw'
        rcases List.mem_cons.1 hs with rfl | hs
        · cases hw'; exact hw
        · exact h3 s hs w' hw'
      · rw [cassert_false hw, cassert_false (fun h' => hw (nonneg_of_mul_nonneg_right h' hz))]
        trivial

theorem reweight_same {cz : K} (hz : 0 < cz) {f : SV → SV → Outcome K} {f' : SW → SW → Outcome K}
    (hf : ∀ x y, Same (fun a b => b = cz * a) (f x y) (f' (φ x) (φ y))) {a : Cloud K SV} {b : Cloud K SW}
    (h : SameCloud φ a b) :
    Same (fun x y => y.1.1 = x.1.1 ∧ SameCloud φ x.1.2 y.1.2 ∧ y.2 = cz * x.2) (a.reweight f)
      (b.reweight f') := by
  unfold Cloud.reweight
  rw [h.post, h.old]
  refine Same.bind (weightLoop_same hz hf a.post.samples a.old) ?_
  rintro ⟨new, sum⟩ ⟨new', sum'⟩ ⟨h1, h2, h3, h4⟩
  simp only at h1 h4
  subst h1
  refine Same.bind (listUpdateW_scaled φ hz a.post (by simp) (fun _ => ⟨rfl, h3⟩)) ?_
  rintro ⟨x, post⟩ _ rfl
  exact Same.ok ⟨rfl, ⟨rfl, rfl, by simp, h.unweighted⟩, h4⟩

theorem resample_same (d : SV) (d' : SW) (root : Nat → K → K) (scheme : Scheme) (us : Nat → K)
    {a : Cloud K SV} {b : Cloud K SW} (h : SameCloud φ a b) :
    Same (fun x y => y.1 = x.1 ∧ SameCloud φ x.2 y.2) (a.resample d root scheme us)
      (b.resample d' root scheme us) := by
  unfold Cloud.resample
  refine Same.bind (r := fun ts ts' => ts' = ts.map φ) ?_ ?_
  · unfold Cloud.drawUnweighted
    cases scheme <;> try exact Same.ok h.unweighted
    simp only
    rw [h.post]
    have : (movedPdf φ a.post).numSamples = a.post.numSamples := by simp [movedPdf, MCPdf.numSamples]
    rw [this]
    refine Same.bind (ripley_moved φ root a.post _) ?_
    rintro ts _ rfl
    cases ts with
    | none => exact Same.ok h.unweighted
    | some ts => exact Same.ok rfl
  · rintro ts _ rfl
    rw [h.post]
    refine Same.bind (listUpdateU_moved φ d d' a.post ts) ?_
    rintro ⟨x, post⟩ _ rfl
    exact Same.ok ⟨rfl, rfl, h.old, h.new, rfl⟩

theorem resampleIfDegenerate_same (d : SV) (d' : SW) (root : Nat → K → K) (scheme : Scheme)
    (threshold : K) (us : Nat → K) {a : Cloud K SV} {b : Cloud K SW} (h : SameCloud φ a b) :
    Same (fun x y => y.1 = x.1 ∧ SameCloud φ x.2 y.2)
      (a.resampleIfDegenerate d root scheme threshold us)
      (b.resampleIfDegenerate d' root scheme threshold us) := by
  unfold Cloud.resampleIfDegenerate
  have h' : SameCloud φ { a with new := a.post.listGet } { b with new := b.post.listGet } :=
    ⟨h.post, h.old, by simp [h.post, movedPdf, MCPdf.listGet], h.unweighted⟩
  refine Same.bind (Same.of_eq ?_) ?_
  · unfold Cloud.sumSquares
    rw [h.post]
    simp only [MCPdf.listGet, movedPdf, moved_weights]
  · rintro sq _ rfl
    split
    · exact resample_same d d' root scheme us h'
    · exact Same.ok ⟨rfl, h'⟩

end parts

end BFL
