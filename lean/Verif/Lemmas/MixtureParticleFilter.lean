import Verif.Model.MixtureParticleFilter
import Verif.Lemmas.ParticleFilter
import Verif.Props.Mixture
import Mathlib.Tactic.FieldSimp
import Mathlib.Tactic.Ring

/-!
# Lemmas about the mixture particle filter model
-/

set_option linter.unusedSectionVars false

namespace BFL

open Spec MCPdf

variable {R SV MV K : Type} [Field K] [LinearOrder K] [IsStrictOrderedRing K]

namespace Cloud

/-- The cloud holds the particles `ps`, normalised or not. -/
structure Holding (c : Cloud K SV) (ps : List (SV × K)) : Prop where
  samples : c.post.samples = ps.map wrap
  nonneg : ∀ a ∈ ps, 0 ≤ a.2
  sized : Sized c.post
  old : c.old.length = ps.length
  pos : 0 < ps.length

theorem Inv.holding {c : Cloud K SV} (h : Inv c) {ps : List (SV × K)}
    (hp : c.post.samples = ps.map wrap) : Holding c ps := by
  obtain ⟨qs, h1, h2, h3, h4, _, h6, _⟩ := h
  have : qs = ps := List.map_injective_iff.2 wrap_injective (h1.symm.trans hp)
  subst this
  exact ⟨h1, h2, h3, h4, h6⟩

/-- Sum of the weights times the likelihood of the values. -/
def tot (G : SV → K) (ps : List (SV × K)) : K := (ps.map fun a => a.2 * G a.1).sum

/-- Particles after the weight update of one component. -/
def after (G : SV → K) (ps : List (SV × K)) : List (SV × K) :=
  if 0 < tot G ps then ps.map fun a => (a.1, a.2 * G a.1 / tot G ps)
  else ps.map fun a => (a.1, a.2 * G a.1)

theorem weightLoop_value {f : SV → SV → Outcome K} {G : SV → K} (hf : ∀ x y, f x y = .ok (G y))
    (hG : ∀ x, 0 ≤ G x) : ∀ (ps : List (SV × K)) (olds : List (WSample K SV)),
      (∀ a ∈ ps, 0 ≤ a.2) → olds.length = ps.length →
      weightLoop f olds (ps.map wrap) =
        .ok ((ps.map fun a => (a.1, a.2 * G a.1)).map wrap, tot G ps) := by
  intro ps
  induction ps with
  | nil => intro olds _ _; simp [weightLoop, tot]
  | cons a ps ih =>
    intro olds hnn hl
    cases olds with
    | nil => simp at hl
    | cons o os =>
      simp only [List.map_cons, weightLoop, wrap_value, hf, Outcome.ok_bind, WSample.weightGet,
        wrap_weight, WSample.weightSet]
      rw [cassert_true (mul_nonneg (hnn a (by simp)) (hG _)),
        ih os (fun b hb => hnn b (by simp [hb])) (by simpa using hl)]
      simp [tot, wrap]

theorem reweight_value {f : SV → SV → Outcome K} {G : SV → K} (hf : ∀ x y, f x y = .ok (G y))
    (hG : ∀ x, 0 ≤ G x) {c : Cloud K SV} {ps : List (SV × K)} (h : Holding c ps) :
    ∃ b c', c.reweight f = .ok ((b, c'), tot G ps) ∧ c'.post.samples = (after G ps).map wrap := by
  have h1 := weightLoop_value hf hG ps c.old h.nonneg h.old
  set qs := ps.map fun a => (a.1, a.2 * G a.1) with hqs
  have hsum : (qs.map Prod.snd).sum = tot G ps := by simp [hqs, tot, Function.comp_def]
  have hl : qs.length = ps.length := by simp [hqs]
  have hnn : ∀ a ∈ qs, 0 ≤ a.2 := by
    intro a ha
    obtain ⟨b, hb, rfl⟩ := List.mem_map.1 ha
    exact mul_nonneg (h.nonneg b hb) (hG _)
  have hpos := h.pos
  by_cases ht : 0 < tot G ps
  · obtain ⟨p', h3, h4, h5⟩ := listUpdateW_wrap (p := c.post) (qs := qs) h.sized
      (by rw [h.samples]; simpa using hl) hnn (by rw [hsum]; exact ht)
    refine ⟨true, ⟨p', c.old, qs.map wrap, c.unweighted⟩, ?_, ?_⟩
    · unfold reweight
      simp only [listGet, h.samples, h1, Outcome.ok_bind, h3, Outcome.pure_eq]
    · rw [h4, after, if_pos ht, hsum]
      simp [hqs, Function.comp_def]
  · have hz := normalizeWeights_zero (p := { c.post with samples := qs.map wrap })
      (map_wrap_weight qs) (by rw [hsum]; exact ht)
    refine ⟨false, ⟨{ c.post with samples := qs.map wrap }, c.old, qs.map wrap, c.unweighted⟩,
      ?_, ?_⟩
    · unfold reweight
      simp only [listGet, h.samples, h1, Outcome.ok_bind, Outcome.pure_eq, listUpdateW]
      rw [cassert_true (by simp [hl]), Outcome.ok_bind,
        if_pos (by rw [List.length_map, hl]; omega), hz]
      simp
    · simp [after, ht, hqs]

theorem tot_nonneg {G : SV → K} (hG : ∀ x, 0 ≤ G x) {ps : List (SV × K)}
    (h : ∀ a ∈ ps, 0 ≤ a.2) : 0 ≤ tot G ps := by
  apply List.sum_nonneg
  intro x hx
  obtain ⟨a, ha, rfl⟩ := List.mem_map.1 hx
  exact mul_nonneg (h a ha) (hG _)

theorem proposeLoop_weights {q : Option (Proposal R SV K)} {m : SysModel R SV K} {u : SV}
    {rs : Nat → R} :
    ∀ (olds : List (WSample K SV)) (i : Nat) (news : List (WSample K SV)) (prev : SV)
      (res : List (WSample K SV)) (last : SV), news.length = olds.length →
      proposeLoop q m u rs i olds news prev = .ok (res, last) →
      res.map (·.weight) = olds.map (·.weight) := by
  intro olds
  induction olds with
  | nil =>
    intro i news prev res last hl h
    have : news = [] := List.length_eq_zero_iff.1 hl
    subst this
    simp only [proposeLoop, Outcome.ok.injEq, Prod.mk.injEq] at h
    obtain ⟨rfl, _⟩ := h
    rfl
  | cons o os ih =>
    intro i news prev res last hl h
    cases news with
    | nil => simp at hl
    | cons n ns =>
      simp only [proposeLoop, Outcome.bind_eq_ok, Outcome.pure_eq, Outcome.ok.injEq,
        Prod.mk.injEq, Prod.exists] at h
      obtain ⟨x, _, w, hw, n', hn, rest, last', hr, rfl, rfl⟩ := h
      obtain ⟨_, rfl⟩ := weightSet_ok hn
      have := ih _ _ _ _ _ (by simpa using hl) hr
      simp only [List.map_cons, this, wrap_weight, List.cons.injEq, and_true]
      unfold WSample.weightGet at hw
      cases ho : o.weight with
      | none => rw [ho] at hw; simp at hw
      | some v => rw [ho] at hw; simpa using hw.symm

/-- All particles of the cloud have weight zero. -/
def Dead (c : Cloud K SV) : Prop := Inv c ∧ ∀ s ∈ c.post.samples, s.weight = some 0

theorem listUpdateW_dead {p p' : MCPdf K SV} {b : Bool} {news : List (WSample K SV)}
    (hz : ∀ s ∈ news, s.weight = some 0) (hne : 0 < news.length)
    (h : p.listUpdateW news = .ok (b, p')) : b = false ∧ p'.samples = news := by
  unfold listUpdateW at h
  rw [Outcome.bind_eq_ok] at h
  obtain ⟨_, _, h⟩ := h
  rw [if_pos hne.ne', normalizeWeights_zero (ws := news.map fun _ => 0)] at h
  · simp only [Outcome.ok.injEq, Prod.mk.injEq] at h
    obtain ⟨rfl, rfl⟩ := h
    exact ⟨rfl, rfl⟩
  · simp only [List.map_map]
    apply List.map_congr_left
    intro s hs
    simp [hz s hs]
  · simp

theorem propose_dead {q : Option (Proposal R SV K)} {m : SysModel R SV K} {u : SV}
    {rs : Nat → R} {c c' : Cloud K SV} {prev last : SV} {b : Bool} (hc : Dead c)
    (h : propose q m u rs c prev = .ok ((b, c'), last)) : b = false ∧ Dead c' := by
  have hi := propose_inv hc.1 h
  obtain ⟨⟨ps, h1, _, h3, _, h5, h6, _⟩, hz⟩ := hc
  unfold propose at h
  simp only [Outcome.bind_eq_ok, Outcome.pure_eq, Outcome.ok.injEq, Prod.mk.injEq,
    Prod.exists] at h
  obtain ⟨new, l, hp, b', post, hu, ⟨rfl, rfl⟩, _⟩ := h
  have hw := proposeLoop_weights _ _ _ _ _ _ (by simp [listGet, h1, h5]) hp
  have hl := congrArg List.length hw
  simp only [List.length_map, listGet] at hl
  have hnz : ∀ s ∈ new, s.weight = some 0 := by
    intro s hs
    have : s.weight ∈ c.post.listGet.map (·.weight) := by
      rw [← hw]; exact List.mem_map_of_mem hs
    obtain ⟨t, ht, he⟩ := List.mem_map.1 this
    rw [← he]; exact hz t ht
  obtain ⟨rfl, he⟩ := listUpdateW_dead hnz (by rw [hl, h1]; simpa using h6) hu
  exact ⟨rfl, hi, by rw [he]; exact hnz⟩

theorem weightLoop_dead {f : SV → SV → Outcome K} :
    ∀ (news olds res : List (WSample K SV)) (sum : K), (∀ s ∈ news, s.weight = some 0) →
      weightLoop f olds news = .ok (res, sum) →
      (∀ s ∈ res, s.weight = some 0) ∧ res.length = news.length := by
  intro news
  induction news with
  | nil =>
    intro olds res sum _ h
    simp only [weightLoop, Outcome.ok.injEq, Prod.mk.injEq] at h
    rw [← h.1]; simp
  | cons n ns ih =>
    intro olds res sum hz h
    cases olds with
    | nil => simp [weightLoop] at h
    | cons o os =>
      simp only [weightLoop, Outcome.bind_eq_ok, Outcome.pure_eq, Outcome.ok.injEq,
        Prod.mk.injEq, Prod.exists] at h
      obtain ⟨g, _, w, hw, n', hn, rest, s, hr, rfl, _⟩ := h
      obtain ⟨g1, g2⟩ := ih _ _ _ (fun s hs => hz s (by simp [hs])) hr
      obtain ⟨_, rfl⟩ := weightSet_ok hn
      have h0 := hz n (by simp)
      unfold WSample.weightGet at hw
      rw [h0] at hw
      simp only [Outcome.ok.injEq] at hw
      subst hw
      refine ⟨?_, by simp [g2]⟩
      intro t ht
      rcases List.mem_cons.1 ht with rfl | ht
      · simp
      · exact g1 t ht

theorem reweight_dead {f : SV → SV → Outcome K} {c c' : Cloud K SV} {s : K} {b : Bool}
    (hc : Dead c) (h : c.reweight f = .ok ((b, c'), s)) : Dead c' := by
  have hi := reweight_inv hc.1 h
  obtain ⟨⟨ps, h1, _, h3, _, h5, h6, _⟩, hz⟩ := hc
  unfold reweight at h
  simp only [Outcome.bind_eq_ok, Outcome.pure_eq, Outcome.ok.injEq, Prod.mk.injEq,
    Prod.exists] at h
  obtain ⟨new, l, hp, b', post, hu, ⟨_, rfl⟩, _⟩ := h
  obtain ⟨g1, g2⟩ := weightLoop_dead _ _ _ _ hz hp
  obtain ⟨_, he⟩ := listUpdateW_dead g1 (by rw [g2]; simp only [h1]; simpa using h6) hu
  exact ⟨hi, by rw [he]; exact g1⟩

theorem resampleIfDegenerate_dead {dflt : SV} {root : Nat → K → K} {scheme : Scheme}
    {threshold : K} {us : Nat → K} {c c' : Cloud K SV} {b : Bool} (hc : Dead c)
    (h : c.resampleIfDegenerate dflt root scheme threshold us = .ok (b, c')) :
    c'.post = c.post ∧ Dead c' := by
  have hi := (resampleIfDegenerate_inv hc.1 h).2
  have hs : c.sumSquares = .ok 0 := by
    unfold sumSquares
    rw [mapOutcome_eq_ok (g := fun _ => 0)]
    · simp
    · intro s hs
      simp [WSample.weightGet, hc.2 s hs]
  unfold resampleIfDegenerate at h
  rw [hs, Outcome.ok_bind] at h
  simp only [tooFew, ne_eq, not_true_eq_false, false_and, decide_false, Bool.false_eq_true,
    if_false, Outcome.pure_eq, Outcome.ok.injEq, Prod.mk.injEq] at h
  obtain ⟨_, rfl⟩ := h
  exact ⟨rfl, hi, hc.2⟩

end Cloud

namespace MixtureParticleFilter

open Cloud

theorem reweightLoop_value {f : SV → SV → Outcome K} {G : SV → K} (hf : ∀ x y, f x y = .ok (G y))
    (hG : ∀ x, 0 ≤ G x) : ∀ {cs : List (Cloud K SV)} {pss : List (List (SV × K))},
      List.Forall₂ Holding cs pss → ∃ cs', reweightLoop f cs = .ok (cs', pss.map (tot G)) ∧
        List.Forall₂ (fun c ps => c.post.samples = List.map wrap ps) cs' (pss.map (after G)) := by
  intro cs pss h
  induction h with
  | nil => exact ⟨[], rfl, List.Forall₂.nil⟩
  | cons h _ ih =>
    obtain ⟨cs', h1, h2⟩ := ih
    obtain ⟨b, c', h3, h4⟩ := reweight_value hf hG h
    refine ⟨c' :: cs', ?_, List.Forall₂.cons h4 h2⟩
    simp [reweightLoop, h3, h1]

theorem newWeights_eq {mix : Mixture K (Cloud K SV)} {sums : List K}
    (hl : mix.weights.length = mix.comps.length) (hs : sums.length = mix.comps.length)
    (hw : ∀ w ∈ mix.weights, 0 ≤ w) (hn : ∀ s ∈ sums, 0 ≤ s) (hne : mix.comps ≠ []) :
    newWeights mix sums = .ok (List.zipWith (· * ·) mix.weights sums) := by
  unfold newWeights
  rw [mapOutcome_eq_ok (g := fun i => (mix.weights[i]?.getD 0) * (sums[i]?.getD 0))]
  · congr 1
    apply List.ext_getElem
    · simp [hl, hs]
    · intro i h1 h2
      have : i < mix.comps.length := by simpa using h1
      simp [hl, hs, this]
  · intro i hi
    have hi' : i < mix.comps.length := by simpa using hi
    unfold Mixture.weightGet
    rw [Mixture.testNotInit_ok hne, Outcome.ok_bind, cassert_true hi', Outcome.ok_bind,
      vget_of_lt (by omega), Outcome.ok_bind, vget_of_lt (by omega), Outcome.ok_bind,
      mkProb_of_nonneg (mul_nonneg (hw _ (List.getElem_mem _)) (hn _ (List.getElem_mem _)))]
    simp [hl, hs, hi']

theorem flattened_sum (G : SV → K) : ∀ (Ws : List K) (pss : List (List (SV × K))),
    ((flattened Ws pss).map fun a => a.2 * G a.1).sum =
      (List.zipWith (· * ·) Ws (pss.map (tot G))).sum := by
  intro Ws
  induction Ws with
  | nil => intro pss; simp [flattened]
  | cons W Ws ih =>
    intro pss
    cases pss with
    | nil => simp [flattened]
    | cons ps pss =>
      have := ih pss
      simp only [flattened, List.zipWith_cons_cons, List.flatten_cons, List.map_append,
        List.sum_append, List.map_cons, List.sum_cons] at this ⊢
      rw [this]
      congr 1
      simp only [List.map_map, Function.comp_def, tot]
      rw [← List.sum_map_mul_left]
      congr 1
      apply List.map_congr_left
      intro a _
      ring

theorem flattened_after {G : SV → K} (hG : ∀ x, 0 ≤ G x) (S : K) :
    ∀ (Ws : List K) (pss : List (List (SV × K))), (∀ ps ∈ pss, ∀ a ∈ ps, 0 ≤ a.2) →
      flattened ((List.zipWith (· * ·) Ws (pss.map (tot G))).map (· / S)) (pss.map (after G)) =
        (flattened Ws pss).map fun a => (a.1, a.2 * G a.1 / S) := by
  intro Ws
  induction Ws with
  | nil => intro pss _; simp [flattened]
  | cons W Ws ih =>
    intro pss hnn
    cases pss with
    | nil => simp [flattened]
    | cons ps pss =>
      have := ih pss (fun p hp => hnn p (by simp [hp]))
      simp only [flattened, List.map_cons, List.zipWith_cons_cons, List.flatten_cons,
        List.map_append] at this ⊢
      rw [this]
      congr 1
      have hps := hnn ps (by simp)
      by_cases ht : 0 < tot G ps
      · simp only [after, ht, if_true, List.map_map, Function.comp_def]
        apply List.map_congr_left
        intro a _
        have := ht.ne'
        congr 1
        field_simp
      · have h0 : tot G ps = 0 := le_antisymm (not_lt.1 ht) (tot_nonneg hG hps)
        simp only [after, ht, if_false, List.map_map, Function.comp_def]
        apply List.map_congr_left
        intro a ha
        have hz : a.2 * G a.1 = 0 := by
          have hle := List.single_le_sum (l := ps.map fun a => a.2 * G a.1) (by
            intro x hx
            obtain ⟨b, hb, rfl⟩ := List.mem_map.1 hx
            exact mul_nonneg (hps b hb) (hG _)) _ (List.mem_map_of_mem ha)
          have : (ps.map fun a => a.2 * G a.1).sum = 0 := h0
          rw [this] at hle
          exact le_antisymm hle (mul_nonneg (hps a ha) (hG _))
        rw [h0, hz, mul_assoc, hz]
        simp

/-! ## Loops over the components -/

theorem proposeLoop_rel {q : Option (Proposal R SV K)} {m : SysModel R SV K} {u : SV}
    {noise : Nat → Noise R K} {P : Cloud K SV → Prop}
    (hP : ∀ i c prev b c' last, P c → Cloud.propose q m u (noise i).prop c prev =
      .ok ((b, c'), last) → P c') :
    ∀ (cs : List (Cloud K SV)) (i : Nat) (prev : SV) (t : Nat) {b : Bool}
      {cs' : List (Cloud K SV)} {last : SV} {t' : Nat}, (∀ c ∈ cs, P c) →
      proposeLoop q m u noise i cs prev t = .ok (b, cs', last, t') →
      (∀ c ∈ cs', P c) ∧ cs'.length = cs.length ∧ (b = true → t' = t + cs.length) := by
  intro cs
  induction cs with
  | nil =>
    intro i prev t b cs' last t' _ h
    simp only [proposeLoop, Outcome.ok.injEq, Prod.mk.injEq] at h
    obtain ⟨rfl, rfl, _, rfl⟩ := h
    simp
  | cons c cs ih =>
    intro i prev t b cs' last t' hc h
    simp only [proposeLoop, Outcome.bind_eq_ok, Prod.exists] at h
    obtain ⟨b1, c1, l1, h1, h2⟩ := h
    have hc1 := hP _ _ _ _ _ _ (hc c (by simp)) h1
    cases b1 with
    | false =>
      simp only [Bool.false_eq_true, if_false, Outcome.pure_eq, Outcome.ok.injEq,
        Prod.mk.injEq] at h2
      obtain ⟨rfl, rfl, _, _⟩ := h2
      refine ⟨?_, by simp, by simp⟩
      intro x hx
      rcases List.mem_cons.1 hx with rfl | hx
      · exact hc1
      · exact hc x (by simp [hx])
    | true =>
      simp only [if_true, Outcome.bind_eq_ok, Outcome.pure_eq, Outcome.ok.injEq, Prod.mk.injEq,
        Prod.exists] at h2
      obtain ⟨b2, cs2, l2, t2, h3, rfl, rfl, _, rfl⟩ := h2
      obtain ⟨g1, g2, g3⟩ := ih _ _ _ (fun x hx => hc x (by simp [hx])) h3
      refine ⟨?_, by simp [g2], ?_⟩
      · intro x hx
        rcases List.mem_cons.1 hx with rfl | hx
        · exact hc1
        · exact g1 x hx
      · intro hb
        rw [g3 hb, List.length_cons]; omega

/-- A dead component stops the loop: it stays dead and what comes after it is not touched. -/
theorem proposeLoop_dead {q : Option (Proposal R SV K)} {m : SysModel R SV K} {u : SV}
    {noise : Nat → Noise R K} :
    ∀ (cs : List (Cloud K SV)) (i j : Nat) (prev : SV) (t : Nat) {b : Bool}
      {cs' : List (Cloud K SV)} {last : SV} {t' : Nat}, (∃ c, cs[j]? = some c ∧ Dead c) →
      proposeLoop q m u noise i cs prev t = .ok (b, cs', last, t') →
      b = false ∧ (∃ c, cs'[j]? = some c ∧ Dead c) ∧ ∀ k, j < k → cs'[k]? = cs[k]? := by
  intro cs
  induction cs with
  | nil => intro i j prev t b cs' last t' h; simp at h
  | cons c cs ih =>
    intro i j prev t b cs' last t' hd h
    simp only [proposeLoop, Outcome.bind_eq_ok, Prod.exists] at h
    obtain ⟨b1, c1, l1, h1, h2⟩ := h
    cases j with
    | zero =>
      simp only [List.getElem?_cons_zero, Option.some.injEq] at hd
      obtain ⟨c0, rfl, hd⟩ := hd
      obtain ⟨rfl, hd1⟩ := propose_dead hd h1
      simp only [Bool.false_eq_true, if_false, Outcome.pure_eq, Outcome.ok.injEq,
        Prod.mk.injEq] at h2
      obtain ⟨rfl, rfl, _, _⟩ := h2
      refine ⟨rfl, ⟨c1, by simp, hd1⟩, ?_⟩
      intro k hk
      obtain ⟨k, rfl⟩ : ∃ k', k = k' + 1 := ⟨k - 1, by omega⟩
      simp
    | succ j =>
      simp only [List.getElem?_cons_succ] at hd
      cases b1 with
      | false =>
        simp only [Bool.false_eq_true, if_false, Outcome.pure_eq, Outcome.ok.injEq,
          Prod.mk.injEq] at h2
        obtain ⟨rfl, rfl, _, _⟩ := h2
        refine ⟨rfl, by simpa using hd, ?_⟩
        intro k hk
        obtain ⟨k, rfl⟩ : ∃ k', k = k' + 1 := ⟨k - 1, by omega⟩
        simp
      | true =>
        simp only [if_true, Outcome.bind_eq_ok, Outcome.pure_eq, Outcome.ok.injEq, Prod.mk.injEq,
          Prod.exists] at h2
        obtain ⟨b2, cs2, l2, t2, h3, rfl, rfl, _, rfl⟩ := h2
        obtain ⟨g1, g2, g3⟩ := ih _ j _ _ hd h3
        refine ⟨g1, by simpa using g2, ?_⟩
        intro k hk
        obtain ⟨k, rfl⟩ : ∃ k', k = k' + 1 := ⟨k - 1, by omega⟩
        simpa using g3 k (by omega)

theorem reweightLoop_rel {f : SV → SV → Outcome K} {P : Nat → Cloud K SV → Prop}
    (hP : ∀ i c b c' s, P i c → c.reweight f = .ok ((b, c'), s) → P i c') :
    ∀ (cs : List (Cloud K SV)) {cs' : List (Cloud K SV)} {sums : List K} (o : Nat),
      (∀ i c, cs[i]? = some c → P (o + i) c) → reweightLoop f cs = .ok (cs', sums) →
      (∀ i c, cs'[i]? = some c → P (o + i) c) ∧ cs'.length = cs.length ∧
        sums.length = cs.length := by
  intro cs
  induction cs with
  | nil =>
    intro cs' sums o _ h
    simp only [reweightLoop, Outcome.ok.injEq, Prod.mk.injEq] at h
    obtain ⟨rfl, rfl⟩ := h
    simp
  | cons c cs ih =>
    intro cs' sums o hc h
    simp only [reweightLoop, Outcome.bind_eq_ok, Outcome.pure_eq, Outcome.ok.injEq, Prod.mk.injEq,
      Prod.exists] at h
    obtain ⟨b1, c1, s1, h1, cs2, ss, h2, rfl, rfl⟩ := h
    obtain ⟨g1, g2, g3⟩ := ih (o + 1) (fun i c hi => by
      rw [show o + 1 + i = o + (i + 1) by omega]; exact hc (i + 1) c (by simpa using hi)) h2
    refine ⟨?_, by simp [g2], by simp [g3]⟩
    intro i x hx
    cases i with
    | zero =>
      simp only [List.getElem?_cons_zero, Option.some.injEq] at hx
      subst hx
      exact hP _ _ _ _ _ (hc 0 c (by simp)) h1
    | succ i =>
      have := g1 i x (by simpa using hx)
      rwa [show o + 1 + i = o + (i + 1) by omega] at this

theorem eachComponent_rel {step : Nat → Cloud K SV → Outcome (Bool × Cloud K SV)}
    {P : Nat → Cloud K SV → Prop}
    (hP : ∀ i k c b c', P i c → step k c = .ok (b, c') → b = true ∧ P i c') :
    ∀ (cs : List (Cloud K SV)) {cs' : List (Cloud K SV)} {b : Bool} (o k : Nat),
      (∀ i c, cs[i]? = some c → P (o + i) c) → eachComponent step k cs = .ok (b, cs') →
      b = true ∧ (∀ i c, cs'[i]? = some c → P (o + i) c) ∧ cs'.length = cs.length := by
  intro cs
  induction cs with
  | nil =>
    intro cs' b o k _ h
    simp only [eachComponent, Outcome.ok.injEq, Prod.mk.injEq] at h
    obtain ⟨rfl, rfl⟩ := h
    simp
  | cons c cs ih =>
    intro cs' b o k hc h
    simp only [eachComponent, Outcome.bind_eq_ok, Prod.exists] at h
    obtain ⟨b1, c1, h1, h2⟩ := h
    obtain ⟨rfl, hp⟩ := hP _ _ _ _ _ (hc 0 c (by simp)) h1
    simp only [if_true, Outcome.bind_eq_ok, Outcome.pure_eq, Outcome.ok.injEq, Prod.mk.injEq,
      Prod.exists] at h2
    obtain ⟨b2, cs2, h3, rfl, rfl⟩ := h2
    obtain ⟨g0, g1, g2⟩ := ih (o + 1) (k + 1) (fun i c hi => by
      rw [show o + 1 + i = o + (i + 1) by omega]; exact hc (i + 1) c (by simpa using hi)) h3
    refine ⟨g0, ?_, by simp [g2]⟩
    intro i x hx
    cases i with
    | zero =>
      simp only [List.getElem?_cons_zero, Option.some.injEq] at hx
      subst hx
      exact hp
    | succ i =>
      have := g1 i x (by simpa using hx)
      rwa [show o + 1 + i = o + (i + 1) by omega] at this

end MixtureParticleFilter

end BFL
