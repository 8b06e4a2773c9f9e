import Verif.Lemmas.RoundedParticle
import Verif.Lemmas.Table
import Verif.Lemmas.RoundedKalman
import Verif.Props.RoundedParticleSetup

/-!
# Resampling with rounded arithmetic follows resampling with exact arithmetic
-/

set_option linter.unusedSectionVars false

namespace BFL

open Spec

variable {R SV MV K : Type} [Field K] [LinearOrder K] [IsStrictOrderedRing K] {u : K} {fl : K → K}

theorem ordered_near (h : IsRounding u fl) (h1 : u ≤ 1) {root : Nat → K → K}
    (hroot : ∀ k x, 0 ≤ x → x ≤ 1 → 0 ≤ root k x ∧ root k x ≤ 1) {us : List K}
    (hus : ∀ x ∈ us, 0 ≤ x ∧ x ≤ 1) (i : Nat) :
    List.Forall₂ (fun y y' => 0 ≤ y ∧ y ≤ 1 ∧ 0 ≤ y' ∧ Near u us.length y y')
      (orderedUniforms root i us) (Rounded.MC.orderedUniforms fl root i us) := by
  induction us generalizing i with
  | nil => exact .nil
  | cons x us ih =>
    obtain ⟨r0, r1⟩ := hroot (i + 1) x (hus x (by simp)).1 (hus x (by simp)).2
    cases us with
    | nil => exact .cons ⟨r0, r1, r0, near_refl h.1 h1 _ r0⟩ .nil
    | cons v us =>
      have ih := ih (fun x hx => hus x (by simp [List.mem_cons.1 hx])) (i + 1)
      rw [orderedUniforms, Rounded.MC.orderedUniforms]
      generalize orderedUniforms root (i + 1) (v :: us) = ys at ih ⊢
      generalize Rounded.MC.orderedUniforms fl root (i + 1) (v :: us) = ys' at ih ⊢
      cases ih with
      | nil => exact .nil
      | @cons y y' ys ys' a rest =>
        obtain ⟨a1, a2, a3, a4⟩ := a
        have b : 0 ≤ root (i + 1) x * y' := mul_nonneg r0 a3
        refine .cons ⟨mul_nonneg r0 a1, mul_le_one₀ r1 a1 a2, h.nonneg h1 b, ?_⟩
          (.cons ⟨a1, a2, a3, a4.mono h.1 h1 a1 a3 (by simp)⟩
            (rest.imp fun y y' a => ⟨a.1, a.2.1, a.2.2.1, a.2.2.2.mono h.1 h1 a.1 a.2.2.1 (by simp)⟩))
        exact (a4.const_mul r0).trans h1 (h.near h1 b)

theorem sweep_same {n : Nat} {y y' : K} {rest rest' : List K}
    (h : List.Forall₂ (fun c c' => c < y ↔ c' < y') rest rest') {k m : Nat} {r : List K}
    (e : sweep n y k rest = .ok (m, r)) :
    ∃ d, m = k + d ∧ r = rest.drop d ∧ sweep n y' k rest' = .ok (m, rest'.drop d) := by
  induction h generalizing k with
  | nil => simp [sweep] at e
  | @cons c c' rest rest' a _ ih =>
    rw [sweep] at e ⊢
    by_cases hc : c < y
    · have hc' := a.1 hc
      rw [if_pos hc] at e
      rw [if_pos hc']
      by_cases hk : k ≤ n
      · rw [if_pos hk] at e ⊢
        obtain ⟨d, e1, e2, e3⟩ := ih e
        exact ⟨d + 1, by omega, by simpa using e2, by simpa using e3⟩
      · rw [if_neg hk] at e; simp at e
    · have hc' : ¬ c' < y' := fun hh => hc (a.2 hh)
      rw [if_neg hc] at e
      rw [if_neg hc']
      simp only [Outcome.ok.injEq, Prod.mk.injEq] at e
      obtain ⟨rfl, rfl⟩ := e
      exact ⟨0, rfl, rfl, rfl⟩

theorem previous_same {p q : MCPdf K SV} (hv : p.samples.map (·.value) = q.samples.map (·.value))
    {m : Nat} {t : SV} (e : p.previous m = .ok t) : q.previous m = .ok t := by
  cases m with
  | zero => simp [MCPdf.previous] at e
  | succ i =>
    have hl : p.samples.length = q.samples.length := by simpa using congrArg List.length hv
    by_cases hi : i < p.samples.length
    · simp only [MCPdf.previous, vget_of_lt hi, Outcome.ok_bind, Outcome.pure_eq, Outcome.ok.injEq] at e
      simp only [MCPdf.previous, vget_of_lt (show i < q.samples.length by omega), Outcome.ok_bind,
        Outcome.pure_eq, Outcome.ok.injEq]
      rw [← e]
      have a := List.getElem_map (f := (·.value)) (l := p.samples) (i := i) (h := by simpa using hi)
      have b := List.getElem_map (f := (·.value)) (l := q.samples) (i := i)
        (h := by rw [List.length_map]; omega)
      rw [← a, ← b]
      simp only [hv]
    · have : vget p.samples i = .ub := by simp [vget, hi]
      simp [MCPdf.previous, this] at e

theorem ripley_same {p q : MCPdf K SV} (hv : p.samples.map (·.value) = q.samples.map (·.value))
    {ys ys' : List K}
    (hy : List.Forall₂ (fun y y' => List.Forall₂ (fun c c' => c < y ↔ c' < y') p.cum q.cum) ys ys')
    {k : Nat} {l : List SV} (e : p.ripleyLoop ys k (p.cum.drop k) = .ok l) :
    q.ripleyLoop ys' k (q.cum.drop k) = .ok l ∧ l.length = ys.length := by
  have hl : p.samples.length = q.samples.length := by simpa using congrArg List.length hv
  induction hy generalizing k l with
  | nil =>
    simp only [MCPdf.ripleyLoop, Outcome.ok.injEq] at e
    subst e
    exact ⟨rfl, rfl⟩
  | @cons y y' ys ys' a _ ih =>
    simp only [MCPdf.ripleyLoop, Outcome.bind_eq_ok, Outcome.pure_eq, Outcome.ok.injEq] at e
    obtain ⟨⟨m, r⟩, e1, t, e2, ts, e3, rfl⟩ := e
    obtain ⟨d, rfl, rfl, e4⟩ := sweep_same (List.forall₂_drop k a) e1
    simp only at e2 e3
    rw [List.drop_drop] at e3 e4
    obtain ⟨i1, i2⟩ := ih e3
    refine ⟨?_, by simp [i2]⟩
    have hn : q.numSamples = p.numSamples := hl.symm
    rw [MCPdf.ripleyLoop, hn, e4, Outcome.ok_bind]
    simp only [previous_same hv e2, Outcome.ok_bind, i1]
    rfl

/-- Weights themselves: the common factor is close to one. -/
theorem Follows.weight (h1 : u < 1) {k N : Nat} {f g : ParticleFilter R SV K}
    {ts : List (Twin K SV)} (hs : Follows fl u N k f g ts) {t : Twin K SV} (ht : t ∈ ts) :
    0 ≤ t.2.1 ∧ 0 ≤ t.2.2 ∧ Near u (2 * k + N + 1) t.2.1 t.2.2 := by
  obtain ⟨c, hc, htw⟩ := hs.twins
  obtain ⟨b1, b2⟩ := hs.balanced
  have a := htw.sum
  rw [b1, mul_one] at a
  have b := (b2.trans h1.le a.symm).const_mul (htw t ht).1
  rw [mul_one, mul_comm t.2.1 c] at b
  have := b.trans h1.le (htw t ht).2.2
  rw [hs.length] at this
  have e : N + 1 + k + k = 2 * k + N + 1 := by omega
  rw [e] at this
  exact ⟨(htw t ht).1, (htw t ht).2.1, this⟩

theorem near_close {k : Nat} {x y : K} (h0 : 0 ≤ u) (hk : (k : K) * u ≤ 1 / 2) (hu : u ≤ 1)
    (hx : 0 ≤ x) (h : Near u k x y) : |y - x| ≤ 2 * (k * u) * x := by
  have hb : 1 - (k : K) * u ≤ (1 - u) ^ k := by
    have := one_add_mul_le_pow (a := -u) (by linarith) k
    have e : (1 : K) + -u = 1 - u := by ring
    rw [e] at this
    linarith
  have hy : 0 ≤ y := (mul_nonneg hx (pow_nonneg (by linarith) _)).trans h.1
  have a := (mul_le_mul_of_nonneg_left hb hx).trans h.1
  have b := (mul_le_mul_of_nonneg_left hb hy).trans h.2
  have he : 0 ≤ (k : K) * u := mul_nonneg (Nat.cast_nonneg k) h0
  generalize (k : K) * u = e at *
  have hxe : 0 ≤ e * x := mul_nonneg he hx
  refine abs_le.2 ⟨by linarith, ?_⟩
  have hy2 : y ≤ 2 * x := by
    have := mul_le_mul_of_nonneg_left (show (1 / 2 : K) ≤ 1 - e by linarith) hy
    linarith
  have := mul_le_mul_of_nonneg_left hy2 he
  linarith

/-- The comparisons of the search come out as in exact arithmetic. -/
theorem Follows.compare (h : IsRounding u fl) (h1 : u < 1) {k N M : Nat}
    {f g : ParticleFilter R SV K} {ts : List (Twin K SV)} (hs : Follows fl u N k f g ts)
    (hM : 2 * k + 3 * N + 2 ≤ M) (hMu : (M : K) * u ≤ 1 / 2) {y y' : K} (hy0 : 0 ≤ y) (hy1 : y ≤ 1)
    (hy : Near u N y y') (ha : AwayFromJumps (ts.map (·.2.1)) (2 * (M * u)) y) :
    List.Forall₂ (fun c c' => c < y ↔ c' < y') f.cloud.post.cum g.cloud.post.cum := by
  have h0 := h.1
  have hl := hs.length
  refine List.forall₂_iff_get.2 ⟨by rw [hs.cumLeft, hs.cumRight], fun j hj hj' => ?_⟩
  have hjN : j ≤ N := by rw [hs.cumLeft] at hj; omega
  simp only [List.get_eq_getElem]
  have e1 : f.cloud.post.cum[j] = massBelow (ts.map (·.2.1)) j := by
    simp only [hs.tableLeft]
    rw [runningSums_getElem, zero_add]
    rfl
  have hmem0 : ∀ x ∈ ts.map (·.2.1), 0 ≤ x := by
    intro x hx
    obtain ⟨t, ht, rfl⟩ := List.mem_map.1 hx
    exact (hs.weight h1 ht).1
  rw [e1]
  rcases Nat.eq_zero_or_pos j with rfl | hj0
  · have e2 : g.cloud.post.cum[0] = 0 := by
      simp only [hs.tableRight]
      obtain ⟨r, hr⟩ := Rounded.MC.runningSums_cons fl 0 (ts.map fun t => fl t.2.2)
      simp [hr]
    rw [e2]
    simp only [massBelow, List.take_zero, List.sum_nil]
    constructor
    · exact fun hp => hy.pos h1 hp
    · intro hp
      rcases hy0.lt_or_eq with a | a
      · exact a
      · have := hy.2
        rw [← a] at this
        exact absurd this (not_le.2 (mul_pos hp (pow_pos (by linarith) _)))
  · have hn : Near u (2 * k + N + 1 + 1 + N) (massBelow (ts.map (·.2.1)) j) g.cloud.post.cum[j] := by
      have hlen : (ts.map fun t => fl t.2.2).length = N := by rw [List.length_map, hl]
      have := table_near h h1.le (k := 2 * k + N + 1 + 1) (p := ts.map (·.2.1))
        (t := ts.map fun t => fl t.2.2) (by
          intro x hx
          obtain ⟨t, ht, rfl⟩ := List.mem_map.1 hx
          exact h.nonneg h1.le (hs.weight h1 ht).2.1) hmem0 (by
          rw [List.forall₂_map_left_iff, List.forall₂_map_right_iff, List.forall₂_same]
          intro t ht
          obtain ⟨_, b, c⟩ := hs.weight h1 ht
          exact c.trans h1.le (h.near h1.le b)) j (by omega)
          (by rw [Rounded.runningSums_length]; omega)
      simp only [hs.tableRight]
      rwa [show 2 * k + N + 1 + 1 + (ts.map fun t => fl t.2.2).length = 2 * k + N + 1 + 1 + N by rw [hlen]]
        at this
    have hm0 : 0 ≤ massBelow (ts.map (·.2.1)) j :=
      List.sum_nonneg fun x hx => hmem0 x (List.mem_of_mem_take hx)
    have hm1 : massBelow (ts.map (·.2.1)) j ≤ 1 := by
      have a := List.sum_take_add_sum_drop (ts.map (·.2.1)) j
      rw [hs.balanced.1] at a
      have b : 0 ≤ ((ts.map (·.2.1)).drop j).sum :=
        List.sum_nonneg fun x hx => hmem0 x (List.mem_of_mem_drop hx)
      unfold massBelow
      linarith
    have hA := ha j hj0 (by rw [List.length_map]; omega)
    generalize massBelow (ts.map (·.2.1)) j = m at *
    generalize g.cloud.post.cum[j] = m' at *
    have hcast : ((2 * k + N + 1 + 1 + N : Nat) : K) * u + (N : K) * u ≤ M * u := by
      rw [← add_mul]
      refine mul_le_mul_of_nonneg_right ?_ h0
      have : 2 * k + N + 1 + 1 + N + N ≤ M := by omega
      exact_mod_cast this
    have c1 : (0 : K) ≤ ((2 * k + N + 1 + 1 + N : Nat) : K) * u := by positivity
    have c2 : (0 : K) ≤ (N : K) * u := by positivity
    have d1 := abs_le.1 (near_close h0 (by linarith) h1.le hm0 hn)
    have d2 := abs_le.1 (near_close h0 (by linarith) h1.le hy0 hy)
    have d3 := mul_le_of_le_one_right (show 0 ≤ 2 * (((2 * k + N + 1 + 1 + N : Nat) : K) * u) by linarith) hm1
    have d4 := mul_le_of_le_one_right (show 0 ≤ 2 * ((N : K) * u) by linarith) hy1
    rcases lt_abs.1 hA with b | b
    · constructor <;> intro <;> linarith
    · constructor <;> intro <;> linarith

theorem SafeDraws.ordered {root : Nat → K → K} {us : Nat → K} {δ : K} {scheme : Scheme} {ws : List K}
    (h : SafeDraws root us δ scheme ws) (hs : scheme = .multinomial) :
    ∀ y ∈ orderedUniforms root 0 ((List.range ws.length).map us), AwayFromJumps ws δ y := by
  intro y hy
  obtain ⟨i, hi, rfl⟩ := List.getElem_of_mem hy
  have hi' : i < ((List.range ws.length).map us).length := by simpa using hi
  rw [orderedUniforms_getElem _ _ _ _ hi']
  have := h hs i (by simpa using hi')
  simpa only [Props.orderedUniform, zero_add] using this

theorem resample_follows (h : IsRounding u fl) (h1 : u < 1) {dflt : SV} {root : Nat → K → K}
    (hroot : ∀ k x, 0 ≤ x → x ≤ 1 → 0 ≤ root k x ∧ root k x ≤ 1) {us : Nat → K}
    (hus : ∀ i, 0 ≤ us i ∧ us i ≤ 1) {k N M : Nat}
    {f g : ParticleFilter R SV K} {ts : List (Twin K SV)} (hs : Follows fl u N k f g ts) (hk : 1 ≤ k)
    (hM : 2 * k + 3 * N + 2 ≤ M) (hMu : (M : K) * u ≤ 1 / 2)
    (ha : SafeDraws root us (2 * (M * u)) f.scheme (ts.map (·.2.1))) {b : Bool} {c : Cloud K SV}
    (e : f.cloud.resample dflt root f.scheme us = .ok (b, c)) :
    ∃ c' ts1, Rounded.PF.resample fl dflt root g.scheme us g.cloud = .ok (true, c') ∧
      Follows fl u N k { f with cloud := c } { g with cloud := c' } ts1 ∧ b = true := by
  have hgs : g.scheme = f.scheme := by rw [hs.rest]
  have hvals : f.cloud.post.samples.map (·.value) = g.cloud.post.samples.map (·.value) := by
    rw [hs.left, hs.right]
    simp [Twin.left, Twin.right, Function.comp_def]
  have hfl : f.cloud.post.samples.length = N := by rw [hs.left, List.length_map, hs.length]
  have hgl : g.cloud.post.samples.length = N := by rw [hs.right, List.length_map, hs.length]
  simp only [Cloud.resample, Outcome.bind_eq_ok, Outcome.pure_eq, Outcome.ok.injEq,
    Prod.mk.injEq] at e
  obtain ⟨l, e1, ⟨b', post⟩, e2, e3, e4⟩ := e
  simp only at e3 e4
  subst e3 e4
  have d1 : Rounded.PF.drawUnweighted fl root g.scheme us g.cloud = .ok l := by
    rw [hgs]
    cases hsch : f.scheme with
    | multinomial =>
      rw [hsch] at e1
      simp only [Cloud.drawUnweighted] at e1
      simp only [Rounded.PF.drawUnweighted, Rounded.MC.sampleRipley]
      have hn : g.cloud.post.numSamples = f.cloud.post.numSamples := hgl.trans hfl.symm
      rw [hn]
      have hne : (List.range f.cloud.post.numSamples).map us ≠ [] := by
        intro hh
        have := congrArg List.length hh
        simp only [List.length_map, List.length_range, List.length_nil] at this
        have h2 := hs.pos
        have h3 : f.cloud.post.numSamples = N := hfl
        omega
      rw [if_neg hne]
      simp only [MCPdf.sampleList, if_neg hne, Outcome.bind_eq_ok, Outcome.pure_eq,
        Outcome.ok.injEq] at e1
      obtain ⟨o, ⟨l', e1, rfl⟩, e5⟩ := e1
      simp only [Outcome.ok.injEq] at e5
      subst e5
      have hn2 := ordered_near (fl := fl) h h1.le hroot (us := (List.range f.cloud.post.numSamples).map us)
        (by
          intro x hx
          obtain ⟨i, _, rfl⟩ := List.mem_map.1 hx
          exact hus i) 0
      refine (ripley_same hvals ?_ (k := 0) e1).1
      have ha' := ha.ordered hsch
      rw [List.length_map, hs.length, ← hfl] at ha'
      refine List.forall₂_iff_get.2 ⟨hn2.length_eq, fun i hi hi' => ?_⟩
      have hfn : f.cloud.post.numSamples = N := hfl
      have hn3 := hn2.imp (S := fun y y' => 0 ≤ y ∧ y ≤ 1 ∧ 0 ≤ y' ∧ Near u N y y') (fun y y' a => by
        obtain ⟨a1, a2, a3, a4⟩ := a
        rw [List.length_map, List.length_range, hfn] at a4
        exact ⟨a1, a2, a3, a4⟩)
      obtain ⟨a1, a2, a3, a4⟩ := (List.forall₂_iff_get.1 hn3).2 i hi hi'
      exact hs.compare h h1 hM hMu a1 a2 a4 (ha' _ (List.getElem_mem _))
    | _ =>
      rw [hsch] at e1
      simp only [Cloud.drawUnweighted, Outcome.pure_eq, Outcome.ok.injEq] at e1
      simp only [Rounded.PF.drawUnweighted, Outcome.pure_eq, hs.unweighted, e1]
  simp only [Rounded.PF.resample, d1, Outcome.ok_bind]
  by_cases hlen : l.length = N
  · have hl0 : l.length ≠ 0 := by have := hs.pos; omega
    have hN0 : (0 : K) < N := by exact_mod_cast hs.pos
    set w : K := 1 / (l.length : K) with hw
    have hlK : (0 : K) < (l.length : K) := by rw [hlen]; exact hN0
    have hw0 : 0 ≤ w := by rw [hw]; positivity
    have hw0' : 0 ≤ fl w := h.nonneg h1.le hw0
    let ts1 : List (Twin K SV) := l.map fun v => (v, w, fl w)
    have hl1 : ts1.length = N := by simp [ts1, hlen]
    have u1 : MCPdf.uniformWeights (K := K) l = .ok (ts1.map Twin.left) := by
      unfold MCPdf.uniformWeights
      rw [← hw]
      rw [mapOutcome_eq_ok (g := fun t => (⟨t, some w⟩ : WSample K SV))]
      · simp [ts1, Twin.left, Function.comp_def]
      · intro t _
        simp [WSample.weightSet, cassert, hw0, WSample.ofSample]
    have u2 : Rounded.MC.uniformWeights fl l = .ok (ts1.map Twin.right) := by
      unfold Rounded.MC.uniformWeights
      rw [← hw]
      rw [mapOutcome_eq_ok (g := fun t => (⟨t, some (fl w)⟩ : WSample K SV))]
      · simp [ts1, Twin.right, Function.comp_def]
      · intro t _
        simp [WSample.weightSet, cassert, hw0', WSample.ofSample]
    have n1 : f.cloud.post.numSamplesSet dflt l.length = f.cloud.post := by
      simp [MCPdf.numSamplesSet, hfl, hlen]
    have n2 : g.cloud.post.numSamplesSet dflt l.length = g.cloud.post := by
      simp [MCPdf.numSamplesSet, hgl, hlen]
    obtain ⟨p2, ep, ep1, ep2, ep3⟩ := cumUpdate_left
      (q := { f.cloud.post with samples := ts1.map Twin.left, sumWeights := 1 }) (ts := ts1) rfl
      (by rw [hl1]; exact hs.cumLeft) rfl
    obtain ⟨q2, eq, eq1, eq2, eq3⟩ := cumUpdate_right (fl := fl)
      (q := { g.cloud.post with samples := ts1.map Twin.right, sumWeights := 1 }) (ts := ts1) rfl
      (by rw [hl1]; exact hs.cumRight) rfl
    have hgc : l.length = g.cloud.post.samples.length := by rw [hlen, hgl]
    simp only [MCPdf.listUpdateU, if_pos (show l.length = f.cloud.post.samples.length by rw [hlen, hfl]),
      cassert_true hl0, Outcome.ok_bind, u1, n1, ep, Outcome.pure_eq, Outcome.ok.injEq,
      Prod.mk.injEq] at e2
    obtain ⟨rfl, rfl⟩ := e2
    have hsum : ∀ x : K, (l.map fun _ => x).sum = l.length * x := by
      intro x
      rw [List.map_const', List.sum_replicate, nsmul_eq_mul]
    refine ⟨{ g.cloud with post := q2, unweighted := l }, ts1, ?_, ⟨⟨1, one_pos, ?_⟩, ⟨?_, ?_⟩, hl1, hs.pos,
      ep1, eq1, ep2, eq2, ep3, eq3, hs.newLeft, hs.newRight, hs.old, rfl, by rw [hs.rest]⟩, rfl⟩
    · simp only [Rounded.MC.listUpdateU, if_pos hgc, cassert_true hl0, Outcome.ok_bind, u2, n2, eq,
        Outcome.pure_eq]
    · intro t ht
      obtain ⟨v, _, rfl⟩ := List.mem_map.1 ht
      refine ⟨hw0, hw0', ?_⟩
      rw [one_mul]
      exact (h.near h1.le hw0).mono h.1 h1.le hw0 hw0' hk
    · simp only [ts1, List.map_map, Function.comp_def]
      rw [hsum, hw, mul_one_div_cancel hlK.ne']
    · simp only [ts1, List.map_map, Function.comp_def]
      rw [hsum]
      have a := (h.near h1.le hw0).const_mul hlK.le
      rw [hw, mul_one_div_cancel hlK.ne', ← hw] at a
      exact a.mono h.1 h1.le zero_le_one (mul_nonneg hlK.le hw0') (by omega)
  · simp only [MCPdf.listUpdateU, if_neg (show ¬ l.length = f.cloud.post.samples.length by rw [hfl]; exact hlen),
      Outcome.pure_eq, Outcome.ok.injEq, Prod.mk.injEq] at e2
    obtain ⟨rfl, rfl⟩ := e2
    refine ⟨{ g.cloud with unweighted := l }, ts, ?_, ⟨hs.twins, hs.balanced, hs.length, hs.pos, hs.left,
      hs.right, hs.sumLeft, hs.sumRight, hs.tableLeft, hs.tableRight, hs.newLeft, hs.newRight, hs.old, rfl,
      by rw [hs.rest]⟩, rfl⟩
    simp only [Rounded.MC.listUpdateU,
      if_neg (show ¬ l.length = g.cloud.post.samples.length by rw [hgl]; exact hlen), Outcome.ok_bind,
      Outcome.pure_eq]

theorem Follows.weights {k N : Nat} {f g : ParticleFilter R SV K} {ts : List (Twin K SV)}
    (hs : Follows fl u N k f g ts) : f.weights = ts.map (·.2.1) := by
  show f.cloud.post.samples.filterMap _ = _
  rw [hs.left]
  induction ts with
  | nil => rfl
  | cons t ts ih => simp [Twin.left, Function.comp_def]

theorem staticStep_follows (h : IsRounding u fl) (h1 : u < 1) {dflt : SV} {root : Nat → K → K}
    (hroot : ∀ k x, 0 ≤ x → x ≤ 1 → 0 ≤ root k x ∧ root k x ≤ 1) {us : Nat → K}
    (hus : ∀ i, 0 ≤ us i ∧ us i ≤ 1) {k N M : Nat}
    {f g f1 : ParticleFilter R SV K} {ts : List (Twin K SV)} (hs : Follows fl u N k f g ts) (hk : 1 ≤ k)
    (hM : 4 * k + 3 * N + 4 ≤ M) (hMu : (M : K) * u ≤ 1 / 2)
    (ha : SafeStatic root us (2 * (M * u)) f) {b : Bool}
    (e : f.staticStep dflt root us = .ok (b, f1)) :
    ∃ g1 ts1, Rounded.PF.staticStep fl dflt root us g = .ok (true, g1) ∧ Follows fl u N k f1 g1 ts1 ∧
      b = true := by
  have hgd : g.dynamic = f.dynamic ∧ g.timestep = f.timestep ∧ g.period = f.period := by
    rw [hs.rest]; exact ⟨rfl, rfl, rfl⟩
  unfold ParticleFilter.staticStep at e
  unfold Rounded.PF.staticStep
  by_cases hc : f.dynamic = false ∧ f.timestep % f.period = 0 ∧ f.timestep ≠ 0
  · rw [if_pos hc] at e
    rw [if_pos (by rw [hgd.1, hgd.2.1, hgd.2.2]; exact hc)]
    simp only [Outcome.bind_eq_ok, Outcome.pure_eq, Outcome.ok.injEq, Prod.mk.injEq] at e
    obtain ⟨⟨b', c⟩, e1, rfl, rfl⟩ := e
    have ha' := ha hc.1 hc.2.1 hc.2.2
    rw [hs.weights] at ha'
    obtain ⟨c', ts1, x1, x2, x3⟩ := resample_follows h h1 hroot hus hs hk (by omega) hMu ha' e1
    exact ⟨{ g with cloud := c' }, ts1, by rw [x1]; rfl, x2, x3⟩
  · rw [if_neg hc] at e
    rw [if_neg (by rw [hgd.1, hgd.2.1, hgd.2.2]; exact hc)]
    simp only [Outcome.pure_eq, Outcome.ok.injEq, Prod.mk.injEq] at e
    obtain ⟨rfl, rfl⟩ := e
    exact ⟨g, ts, rfl, hs, rfl⟩

theorem squares_near (h : IsRounding u fl) (h1 : u < 1) {k N : Nat}
    {f g : ParticleFilter R SV K} {ts : List (Twin K SV)} (hs : Follows fl u N k f g ts) :
    0 < (ts.map fun t => t.2.1 ^ 2).sum ∧
      Near u (4 * k + 3 * N + 3) (ts.map fun t => t.2.1 ^ 2).sum
        (Rounded.sum fl (ts.map fun t => fl (t.2.2 ^ 2))) := by
  constructor
  · have : ∀ l : List (Twin K SV), (∀ t ∈ l, 0 ≤ t.2.1) → 0 < (l.map (·.2.1)).sum →
        0 < (l.map fun t => t.2.1 ^ 2).sum := by
      intro l hl hpos
      have hnn : 0 ≤ (l.map fun t => t.2.1 ^ 2).sum := List.sum_nonneg fun x hx => by
        obtain ⟨t, _, rfl⟩ := List.mem_map.1 hx
        exact sq_nonneg _
      rcases hnn.lt_or_eq with a | a
      · exact a
      · exfalso
        have hz : ∀ t ∈ l, t.2.1 = 0 := by
          intro t ht
          have := (List.all_zero_of_le_zero_le_of_sum_eq_zero (l := l.map fun t => t.2.1 ^ 2) (fun x hx => by
            obtain ⟨t, _, rfl⟩ := List.mem_map.1 hx
            exact sq_nonneg _) a.symm) (List.mem_map_of_mem ht)
          exact pow_eq_zero_iff (two_ne_zero) |>.1 this
        have : (l.map (·.2.1)).sum = 0 := by
          rw [List.sum_eq_zero]
          intro x hx
          obtain ⟨t, ht, rfl⟩ := List.mem_map.1 hx
          exact hz t ht
        linarith
    refine this ts (fun t ht => (hs.weight h1 ht).1) ?_
    rw [hs.balanced.1]
    exact one_pos
  · have hn : ∀ t ∈ ts, 0 ≤ fl (t.2.2 ^ 2) := fun t ht => h.nonneg h1.le (sq_nonneg _)
    have a := near_list_sum (u := u) (k := 2 * (2 * k + N + 1) + 1) (l := ts.map fun t => t.2.1 ^ 2)
      (l' := ts.map fun t => fl (t.2.2 ^ 2)) (by
        rw [List.forall₂_map_left_iff, List.forall₂_map_right_iff, List.forall₂_same]
        intro t ht
        obtain ⟨b0, b1, b2⟩ := hs.weight h1 ht
        have := b2.mul h1.le b0 b1 b0 b1 b2
        rw [← sq, ← sq, ← two_mul] at this
        exact this.trans h1.le (h.near h1.le (sq_nonneg _)))
    obtain ⟨_, b⟩ := sum_near h h1.le (ts.map fun t => fl (t.2.2 ^ 2)) (by
      intro x hx
      obtain ⟨t, ht, rfl⟩ := List.mem_map.1 hx
      exact hn t ht)
    rw [List.length_map, hs.length] at b
    have := a.trans h1.le b
    rwa [show 2 * (2 * k + N + 1) + 1 + N = 4 * k + 3 * N + 3 by omega] at this

theorem dynamicStep_follows (h : IsRounding u fl) (h1 : u < 1) {dflt : SV} {root : Nat → K → K}
    (hroot : ∀ k x, 0 ≤ x → x ≤ 1 → 0 ≤ root k x ∧ root k x ≤ 1) {us : Nat → K}
    (hus : ∀ i, 0 ≤ us i ∧ us i ≤ 1) {k N M : Nat}
    {f g f1 : ParticleFilter R SV K} {ts : List (Twin K SV)} (hs : Follows fl u N k f g ts) (hk : 1 ≤ k)
    (hM : 4 * k + 3 * N + 4 ≤ M) (hMu : (M : K) * u ≤ 1 / 2)
    (ha : SafeDynamic root us (2 * (M * u)) f) {b : Bool}
    (e : f.dynamicStep dflt root us = .ok (b, f1)) :
    ∃ g1 ts1, Rounded.PF.dynamicStep fl dflt root us g = .ok (true, g1) ∧ Follows fl u N k f1 g1 ts1 ∧
      b = true := by
  have h0 := h.1
  have hgd : g.dynamic = f.dynamic ∧ g.scheme = f.scheme ∧ g.threshold = f.threshold := by
    rw [hs.rest]; exact ⟨rfl, rfl, rfl⟩
  unfold ParticleFilter.dynamicStep at e
  unfold Rounded.PF.dynamicStep
  by_cases hc : f.dynamic = true
  · rw [if_pos hc] at e
    rw [if_pos (hgd.1.trans hc)]
    obtain ⟨m1, m2⟩ := ha hc
    rw [hs.weights] at m1 m2
    simp only [List.map_map, Function.comp_def] at m1 m2
    obtain ⟨s0, s1⟩ := squares_near h h1 hs
    have hsq : f.cloud.sumSquares = .ok (ts.map fun t => t.2.1 ^ 2).sum := by
      have : f.cloud.post.listGet = ts.map Twin.left := hs.left
      rw [Cloud.sumSquares, this, weights_left]
      simp [Function.comp_def]
    have hsq' : Rounded.PF.sumSquares fl g.cloud =
        .ok (Rounded.sum fl (ts.map fun t => fl (t.2.2 ^ 2))) := by
      have : g.cloud.post.listGet = ts.map Twin.right := hs.right
      rw [Rounded.PF.sumSquares, this, weights_right]
      simp [Function.comp_def]
    have s0' := s1.pos h1 s0
    set S := (ts.map fun t => t.2.1 ^ 2).sum with hS
    set S' := Rounded.sum fl (ts.map fun t => fl (t.2.2 ^ 2)) with hS'
    have hdec : (S' ≠ 0 ∧ fl (1 / S') < g.threshold) ↔ (S ≠ 0 ∧ 1 / S < f.threshold) := by
      have a := (s1.inv h1 s0).trans h1.le (h.near h1.le (inv_nonneg.2 s0'.le))
      rw [← one_div, ← one_div, show 4 * k + 3 * N + 3 + 1 = 4 * k + 3 * N + 4 by omega] at a
      have hle : ((4 * k + 3 * N + 4 : Nat) : K) * u ≤ M * u :=
        mul_le_mul_of_nonneg_right (by exact_mod_cast hM) h0
      have hp : 0 ≤ 1 / S := by positivity
      have d := abs_le.1 (near_close h0 (by linarith) h1.le hp a)
      have d' : 2 * (((4 * k + 3 * N + 4 : Nat) : K) * u) * (1 / S) ≤ 2 * (M * u) * (1 / S) :=
        mul_le_mul_of_nonneg_right (by linarith) hp
      rw [hgd.2.2]
      simp only [ne_eq, s0.ne', s0'.ne', not_false_eq_true, true_and]
      rcases lt_abs.1 m1 with m | m
      · constructor <;> intro <;> linarith
      · constructor <;> intro <;> linarith
    have hs' : Follows fl u N k { f with cloud := { f.cloud with new := f.cloud.post.listGet } }
        { g with cloud := { g.cloud with new := g.cloud.post.listGet } } ts :=
      ⟨hs.twins, hs.balanced, hs.length, hs.pos, hs.left, hs.right, hs.sumLeft, hs.sumRight, hs.tableLeft,
        hs.tableRight, by
          show f.cloud.post.samples.length = N
          rw [hs.left, List.length_map, hs.length], by
          show g.cloud.post.samples.length = N
          rw [hs.right, List.length_map, hs.length], hs.old, hs.unweighted, by rw [hs.rest]⟩
    simp only [Cloud.resampleIfDegenerate, hsq, Outcome.ok_bind, Cloud.tooFew, decide_eq_true_eq] at e
    simp only [Rounded.PF.resampleIfDegenerate, hsq', Outcome.ok_bind]
    by_cases ht : S ≠ 0 ∧ 1 / S < f.threshold
    · rw [if_pos ht] at e
      rw [if_pos (hdec.2 ht)]
      simp only [Outcome.bind_eq_ok, Outcome.pure_eq, Outcome.ok.injEq, Prod.mk.injEq] at e
      obtain ⟨⟨b', c⟩, e1, rfl, rfl⟩ := e
      obtain ⟨c', ts1, x1, x2, x3⟩ := resample_follows h h1 hroot hus hs' hk (by omega) hMu (m2 ht.2) e1
      refine ⟨{ g with cloud := c' }, ts1, ?_, x2, x3⟩
      simp only at x1
      rw [x1]
      rfl
    · rw [if_neg ht] at e
      rw [if_neg fun hh => ht (hdec.1 hh)]
      simp only [Outcome.pure_eq, Outcome.ok_bind, Outcome.ok.injEq, Prod.mk.injEq] at e
      obtain ⟨rfl, rfl⟩ := e
      exact ⟨_, ts, rfl, hs', rfl⟩
  · rw [if_neg hc] at e
    rw [if_neg (by rw [hgd.1]; exact hc)]
    simp only [Outcome.pure_eq, Outcome.ok.injEq, Prod.mk.injEq] at e
    obtain ⟨rfl, rfl⟩ := e
    exact ⟨g, ts, rfl, hs, rfl⟩

theorem update_follows (h : IsRounding u fl) (h1 : u < 1) {dflt : SV} {root : Nat → K → K}
    (hroot : ∀ k x, 0 ≤ x → x ≤ 1 → 0 ≤ root k x ∧ root k x ≤ 1) {noise : Noise R K}
    (hst : ∀ i, 0 ≤ noise.static i ∧ noise.static i ≤ 1)
    (hdy : ∀ i, 0 ≤ noise.dynamic i ∧ noise.dynamic i ≤ 1) {k N M : Nat}
    {f g f1 : ParticleFilter R SV K} {ts : List (Twin K SV)} (hs : Follows fl u N k f g ts) (hk : 1 ≤ k)
    {c : UpdateCall R SV MV K} (hM : 4 * (k + c.cost) + 3 * N + 4 ≤ M) (hMu : (M : K) * u ≤ 1 / 2)
    (hq : ClearUpdate dflt root (2 * (M * u)) noise c f)
    (e : f.update dflt root noise c = .ok (true, f1)) :
    ∃ g1 ts1, Rounded.PF.update fl dflt root noise c g = .ok (true, g1) ∧
      Follows fl u N (k + c.cost) f1 g1 ts1 := by
  obtain ⟨sys, v, meas, z, s⟩ := c
  obtain ⟨hq1, hq2⟩ := hq
  simp only [UpdateCall.cost] at hM
  have hsys : ∀ f2, ParticleFilter.sysPart dflt root noise ⟨sys, v, meas, z, s⟩ (true, f) = .ok (true, f2) →
      ∃ g2 ts2, Rounded.PF.sysPart fl dflt root noise ⟨sys, v, meas, z, s⟩ (true, g) =
          .ok (true, g2) ∧ Follows fl u N (k + if sys.isSome then 1 else 0) f2 g2 ts2 := by
    intro f2 er
    cases sys with
    | none =>
      simp only [ParticleFilter.sysPart, Outcome.ok.injEq, Prod.mk.injEq, true_and] at er
      subst er
      exact ⟨g, ts, rfl, by simpa using hs⟩
    | some m =>
      simp only [ParticleFilter.sysPart, andStep, if_true, Outcome.bind_eq_ok] at er
      obtain ⟨⟨b, f3⟩, e1, e2⟩ := er
      obtain ⟨g3, ts3, y1, y2, rfl⟩ := staticStep_follows h h1 hroot hst hs hk (by omega) hMu (hq1 rfl) e1
      simp only [if_true] at e2
      obtain ⟨g2, ts2, x1, x2, _⟩ := proposalStep_follows h h1 y2 e2
      refine ⟨g2, ts2, ?_, by simpa using x2⟩
      simp only [Rounded.PF.sysPart, andStep, if_true, y1, Outcome.ok_bind, x1]
  simp only [ParticleFilter.update, Outcome.bind_eq_ok] at e
  obtain ⟨⟨b, f2⟩, e1, e⟩ := e
  cases meas with
  | none =>
    simp only [ParticleFilter.measPart, Outcome.ok.injEq, Prod.mk.injEq] at e
    obtain ⟨rfl, rfl⟩ := e
    obtain ⟨g2, ts2, x1, x2⟩ := hsys _ e1
    refine ⟨g2, ts2, ?_, by simpa [UpdateCall.cost] using x2⟩
    simp only [Rounded.PF.update, x1, Outcome.ok_bind, Rounded.PF.measPart]
  | some mm =>
    simp only [ParticleFilter.measPart, andStep] at e
    cases b with
    | false => simp at e
    | true =>
      obtain ⟨g2, ts2, x1, x2⟩ := hsys _ e1
      simp only [if_true, Outcome.bind_eq_ok] at e
      obtain ⟨⟨b, f3⟩, e2, e⟩ := e
      cases b with
      | false => simp at e
      | true =>
        obtain ⟨g3, ts3, y1, y2, -⟩ := weightStep_follows h h1 x2 e2
        simp only [if_true] at e
        simp only [Option.isSome_some, if_true] at hM
        obtain ⟨g4, ts4, z1, z2, -⟩ := dynamicStep_follows h h1 hroot hdy y2 (by omega) (by omega) hMu
          (hq2 mm f2 f3 rfl e1 e2) e
        refine ⟨g4, ts4, ?_, by simpa [UpdateCall.cost, add_assoc] using z2⟩
        simp only [Rounded.PF.update, x1, Outcome.ok_bind, Rounded.PF.measPart, andStep, if_true,
          y1, z1]

theorem Follows.setProposal {k N : Nat} {f g : ParticleFilter R SV K} {ts : List (Twin K SV)}
    (hs : Follows fl u N k f g ts) (q : Option (Proposal R SV K)) :
    Follows fl u N k { f with proposal := q } { g with proposal := q } ts :=
  ⟨hs.twins, hs.balanced, hs.length, hs.pos, hs.left, hs.right, hs.sumLeft, hs.sumRight, hs.tableLeft,
    hs.tableRight, hs.newLeft, hs.newRight, hs.old, hs.unweighted, by rw [hs.rest]⟩

theorem bootUpdate_follows (h : IsRounding u fl) (h1 : u < 1) {dflt : SV} {root : Nat → K → K}
    (hroot : ∀ k x, 0 ≤ x → x ≤ 1 → 0 ≤ root k x ∧ root k x ≤ 1) {noise : Noise R K}
    (hst : ∀ i, 0 ≤ noise.static i ∧ noise.static i ≤ 1)
    (hdy : ∀ i, 0 ≤ noise.dynamic i ∧ noise.dynamic i ≤ 1) {k N M : Nat}
    {f g f1 : ParticleFilter R SV K} {ts : List (Twin K SV)} (hs : Follows fl u N k f g ts) (hk : 1 ≤ k)
    {c : UpdateCall R SV MV K} (hM : 4 * (k + c.cost) + 3 * N + 4 ≤ M) (hMu : (M : K) * u ≤ 1 / 2)
    (hq : ClearBoot dflt root (2 * (M * u)) noise c f)
    (e : f.bootUpdate dflt root noise c = .ok (true, f1)) :
    ∃ g1 ts1, Rounded.PF.bootUpdate fl dflt root noise c g = .ok (true, g1) ∧
      Follows fl u N (k + c.cost) f1 g1 ts1 := by
  obtain ⟨sys, v, meas, z, s⟩ := c
  obtain ⟨hq1, hq2⟩ := hq
  simp only [UpdateCall.cost] at hM
  simp only [ParticleFilter.bootUpdate, Outcome.bind_eq_ok] at e
  obtain ⟨⟨b, f2⟩, e1, e⟩ := e
  have hsys : b = true → ∃ g2 ts2, Rounded.PF.bootSys fl dflt root noise ⟨sys, v, meas, z, s⟩ g =
        .ok (true, g2) ∧ Follows fl u N (k + if sys.isSome then 1 else 0) f2 g2 ts2 := by
    rintro rfl
    cases sys with
    | none =>
      simp only [ParticleFilter.bootSys, Outcome.ok.injEq, Prod.mk.injEq, true_and] at e1
      subst e1
      exact ⟨g, ts, rfl, by simpa using hs⟩
    | some m =>
      simp only [ParticleFilter.bootSys] at e1
      obtain ⟨g2, ts2, x1, x2⟩ := update_follows h h1 hroot hst hdy (hs.setProposal m.proposal) hk
        (c := ⟨some m, v, none, z, s⟩) (by simp [UpdateCall.cost] at hM ⊢; omega) hMu (hq1 m rfl) e1
      exact ⟨g2, ts2, x1, by simpa [UpdateCall.cost] using x2⟩
  cases meas with
  | none =>
    simp only [ParticleFilter.bootMeas, Outcome.ok.injEq, Prod.mk.injEq] at e
    obtain ⟨rfl, rfl⟩ := e
    obtain ⟨g2, ts2, x1, x2⟩ := hsys rfl
    refine ⟨g2, ts2, ?_, by simpa [UpdateCall.cost] using x2⟩
    simp only [Rounded.PF.bootUpdate, x1, Outcome.ok_bind, Rounded.PF.bootMeas]
  | some mm =>
    simp only [ParticleFilter.bootMeas, Outcome.bind_eq_ok, Outcome.pure_eq, Outcome.ok.injEq,
      Prod.mk.injEq, Bool.and_eq_true] at e
    obtain ⟨⟨b', f3⟩, e2, ⟨hb', hb⟩, e3⟩ := e
    simp only at hb' e3 hb
    subst hb' e3 hb
    obtain ⟨g2, ts2, x1, x2⟩ := hsys rfl
    obtain ⟨g3, ts3, y1, y2⟩ := update_follows h h1 hroot hst hdy x2 (by omega)
      (c := ⟨none, v, some mm, z, s⟩) (by simp [UpdateCall.cost] at hM ⊢; omega) hMu (hq2 f2 e1) e2
    refine ⟨g3, ts3, ?_, by simpa [UpdateCall.cost, add_assoc] using y2⟩
    simp only [Rounded.PF.bootUpdate, x1, Outcome.ok_bind, Rounded.PF.bootMeas, y1, Outcome.pure_eq,
      Bool.and_self]

/-- Histories, of the particle filter and of the bootstrap filter. -/
theorem run_follows
    {step step' : Noise R K → UpdateCall R SV MV K → ParticleFilter R SV K →
      Outcome (Bool × ParticleFilter R SV K)}
    {clear : Noise R K → UpdateCall R SV MV K → ParticleFilter R SV K → Prop}
    {ok : Noise R K → Prop} {N M : Nat}
    (hstep : ∀ {k f g f1 ts} (noise : Noise R K) (c : UpdateCall R SV MV K), ok noise →
      Follows fl u N k f g ts → 1 ≤ k → 4 * (k + c.cost) + 3 * N + 4 ≤ M →
      clear noise c f → step noise c f = .ok (true, f1) →
      ∃ g1 ts1, step' noise c g = .ok (true, g1) ∧ Follows fl u N (k + c.cost) f1 g1 ts1)
    {k : Nat} {f g f' : ParticleFilter R SV K} {ts : List (Twin K SV)} (hs : Follows fl u N k f g ts)
    (hk : 1 ≤ k) {calls : List (Noise R K × UpdateCall R SV MV K)} (hok : ∀ nc ∈ calls, ok nc.1)
    (hM : 4 * (k + (calls.map (·.2.cost)).sum) + 3 * N + 4 ≤ M) (hq : ClearRun step clear calls f)
    (e : ParticleFilter.run step calls f = .ok (true, f')) :
    ∃ g' ts', ParticleFilter.run step' calls g = .ok (true, g') ∧
      Follows fl u N (k + (calls.map (·.2.cost)).sum) f' g' ts' := by
  induction calls generalizing k f g ts with
  | nil =>
    simp only [ParticleFilter.run, Outcome.ok.injEq, Prod.mk.injEq, true_and] at e
    subst e
    exact ⟨g, ts, rfl, by simpa using hs⟩
  | cons nc calls ih =>
    obtain ⟨noise, c⟩ := nc
    simp only [ParticleFilter.run, Outcome.bind_eq_ok, Outcome.pure_eq, Outcome.ok.injEq,
      Prod.mk.injEq, Bool.and_eq_true] at e
    obtain ⟨⟨b, f1⟩, e1, ⟨b', f2⟩, e2, ⟨hb, hb'⟩, rfl⟩ := e
    simp only at hb hb'
    subst hb hb'
    simp only [List.map_cons, List.sum_cons] at hM
    obtain ⟨g1, ts1, x1, x2⟩ := hstep noise c (hok (noise, c) (by simp)) hs hk (by omega) hq.1 e1
    obtain ⟨g2, ts2, y1, y2⟩ := ih x2 (by omega) (fun nc h => hok nc (by simp [h])) (by omega)
      (hq.2 f1 e1) e2
    refine ⟨g2, ts2, ?_, ?_⟩
    · simp only [ParticleFilter.run, x1, Outcome.ok_bind, y1, Outcome.pure_eq, Bool.and_self]
    · simpa [add_assoc] using y2

/-- The constructors. -/
theorem make_follows (h : IsRounding u fl) (h1 : u < 1) {dflt : SV} {prior : MCPdf K SV}
    {proposal : Option (Proposal R SV K)} {period : Nat} {threshold : K} {scheme : Scheme}
    {f : ParticleFilter R SV K}
    (e : ParticleFilter.make dflt prior proposal period threshold scheme = .ok f) :
    ∃ g ts, Rounded.PF.make fl dflt prior proposal period threshold scheme = .ok g ∧
      Follows fl u prior.numSamples 1 f g ts ∧ f.timestep = 0 ∧ f.period = period ∧
      f.dynamic = decide (period = 0) ∧
      ts.map (·.1) = prior.listGet.map (·.value) := by
  simp only [ParticleFilter.make, Outcome.bind_eq_ok, Outcome.pure_eq, Outcome.ok.injEq] at e
  obtain ⟨⟨b, post⟩, e1, ⟨⟩, e2, d, e3, e⟩ := e
  have hb : b = true := by
    by_contra hn
    simp [cassert, hn] at e2
  subst hb e
  have hN : prior.numSamples = prior.listGet.length := rfl
  have hset : ((MCPdf.make prior.numSamples dflt : MCPdf K SV).numSamplesSet dflt
      prior.listGet.length).cum.length = prior.listGet.length + 1 := by
    unfold MCPdf.numSamplesSet
    simp only
    split
    · simp [MCPdf.make]
    · split
      · simp [MCPdf.make]
      · simp [MCPdf.make] at *
  -- the weights of the prior
  have hw : ∃ ts : List (Twin K SV), prior.listGet = ts.map Twin.left ∧
      prior.listGet = ts.map Twin.right ∧ (∀ t ∈ ts, t.2.1 = t.2.2 ∧ 0 ≤ t.2.1) := by
    have e1' := e1
    simp only [MCPdf.listSetW, MCPdf.normalizeWeights, MCPdf.sumWeightsUpdate,
      Outcome.bind_eq_ok, Outcome.pure_eq] at e1'
    obtain ⟨⟨b1, p1⟩, ⟨ws, ews, eb⟩, e4⟩ := e1'
    by_cases hS : 0 < ws.sum
    · rw [if_pos hS] at eb
      simp only [Outcome.ok.injEq, Prod.mk.injEq] at eb
      obtain ⟨rfl, rfl⟩ := eb
      simp only [if_true, Outcome.bind_eq_ok] at e4
      obtain ⟨ss, ess, _⟩ := e4
      have : ∀ (l ss : List (WSample K SV)), mapOutcome (fun (s : WSample K SV) => do
          let w ← s.weightGet
          s.weightSet (w / ws.sum)) l = .ok ss →
          ∃ ts : List (Twin K SV), l = ts.map Twin.left ∧ l = ts.map Twin.right ∧
            (∀ t ∈ ts, t.2.1 = t.2.2 ∧ 0 ≤ t.2.1) := by
        intro l
        induction l with
        | nil => intro ss _; exact ⟨[], rfl, rfl, by simp⟩
        | cons s l ih =>
          intro ss hss
          simp only [mapOutcome, Outcome.bind_eq_ok, Outcome.pure_eq, Outcome.ok.injEq] at hss
          obtain ⟨s1, ⟨w, ew, es⟩, ss1, hss1, -⟩ := hss
          obtain ⟨ts, i1, i2, i3⟩ := ih ss1 hss1
          obtain ⟨val, wt⟩ := s
          cases wt with
          | none => simp [WSample.weightGet] at ew
          | some w' =>
            simp only [WSample.weightGet, Outcome.ok.injEq] at ew
            subst ew
            have hw0 : 0 ≤ w' := by
              by_contra hn
              have : ¬ 0 ≤ w' / ws.sum := not_le.2 (div_neg_of_neg_of_pos (not_le.1 hn) hS)
              simp [WSample.weightSet, cassert, this] at es
            refine ⟨(val, w', w') :: ts, ?_, ?_, ?_⟩
            · simp [Twin.left, i1.symm]
            · simp [Twin.right, i2.symm]
            · intro t ht
              rcases List.mem_cons.1 ht with rfl | ht
              · exact ⟨rfl, hw0⟩
              · exact i3 t ht
      exact this _ _ ess
    · rw [if_neg hS] at eb
      simp only [Outcome.ok.injEq, Prod.mk.injEq] at eb
      obtain ⟨rfl, rfl⟩ := eb
      simp at e4
  obtain ⟨ts, hl, hr, hw⟩ := hw
  have hlen : ts.length = prior.listGet.length := by
    have := congrArg List.length hl
    simpa using this.symm
  have htw : Twins u 0 1 ts := fun t ht => by
    obtain ⟨a1, a2⟩ := hw t ht
    refine ⟨a2, a1 ▸ a2, ?_⟩
    rw [one_mul, ← a1]
    exact near_refl h.1 h1.le 0 a2
  obtain ⟨q1, ts1, c1, x1, x2, x3, x4, x5, x6, x7, x8, x9, x10, x11⟩ := normalise_twins h h1 one_pos htw
    (p := { (MCPdf.make prior.numSamples dflt : MCPdf K SV).numSamplesSet dflt
      prior.listGet.length with samples := prior.listGet })
    (q := { (MCPdf.make prior.numSamples dflt : MCPdf K SV).numSamplesSet dflt
      prior.listGet.length with samples := prior.listGet }) hl hr
    (by rw [hlen]; exact hset) (by rw [hlen]; exact hset) e1
  have hl1 : ts1.length = prior.numSamples := by
    have := congrArg List.length x5
    simp only [List.length_map] at this
    rw [this, hlen, hN]
  have hpos : 0 < prior.numSamples := by
    rcases Nat.eq_zero_or_pos prior.numSamples with h0 | h0
    · rw [h0, List.length_eq_zero_iff] at hl1
      have := x4.1
      rw [hl1] at this
      simp at this
    · exact h0
  refine ⟨⟨⟨q1, prior.listGet, prior.listGet, []⟩, dflt, 0, d, period, threshold, scheme, proposal⟩,
    ts1, ?_, ⟨⟨c1, x2, x3⟩, x4, hl1, hpos, x6, x7, x8, x9, x10, x11, rfl, rfl, rfl, rfl, rfl⟩, rfl, rfl, ?_, ?_⟩
  · have x1' : Rounded.MC.listSetW fl dflt (MCPdf.make prior.numSamples dflt) prior.listGet =
      .ok (true, q1) := x1
    simp only [Rounded.PF.make, x1', Outcome.ok_bind, e3, Outcome.pure_eq]
    rfl
  · simp only [ParticleFilter.policy, Outcome.bind_eq_ok, Outcome.pure_eq, Outcome.ok.injEq] at e3
    obtain ⟨_, _, _, _, e3⟩ := e3
    exact e3.symm
  · rw [x5, hl]
    simp [Twin.left, Function.comp_def]

/-- A sum of terms of either sign. -/
theorem foldl_rel (h : IsRounding u fl) (h1 : u ≤ 1) {M : Nat} {δ : K}
    (hδ : ∀ {x y : K}, Rel u M x y → |y - x| ≤ δ * |x|) {k : Nat} (xs ys : List K)
    (hn : List.Forall₂ (Rel u k) xs ys) (hM : k + xs.length ≤ M) :
    |Rounded.sum fl ys - xs.sum| ≤ δ * (xs.map (|·|)).sum := by
  have mono : ∀ {j l : Nat} {x y : K}, j ≤ l → Rel u j x y → Rel u l x y := by
    rintro j l x y hjl ⟨t, e, a, b⟩
    have : (1 - u) ^ l ≤ (1 - u) ^ j := pow_le_pow_of_le_one (by linarith) (by linarith [h.1]) hjl
    have ht : 0 ≤ t := (pow_nonneg (by linarith) _).trans a
    exact ⟨t, e, this.trans a, (mul_le_mul_of_nonneg_left this ht).trans b⟩
  -- the sum is a sum of terms with more roundings
  have key : ∀ (ys : List K) (s : K), ∃ zs, List.Forall₂ (Rel u ys.length) ys zs ∧
      ∃ s', Rel u ys.length s s' ∧ ys.foldl (fun s x => fl (s + x)) s = s' + zs.sum := by
    intro ys
    induction ys with
    | nil => intro s; exact ⟨[], .nil, s, Rel.refl s, by simp⟩
    | cons y ys ih =>
      intro s
      obtain ⟨zs, i1, s', i2, i3⟩ := ih (fl (s + y))
      obtain ⟨t, e, a, b⟩ := (h.rel h1 (s + y)).trans h1 i2
      rw [Nat.add_comm 1] at a b
      refine ⟨y * t :: zs, .cons ⟨t, rfl, a, b⟩ (i1.imp fun _ _ r => mono (by simp) r), s * t,
        ⟨t, rfl, a, b⟩, ?_⟩
      rw [List.foldl_cons, i3, e, List.sum_cons]
      ring
  obtain ⟨zs, k1, s', k2, k3⟩ := key ys 0
  have hs' : s' = 0 := by obtain ⟨t, rfl, _⟩ := k2; simp
  have hsum : Rounded.sum fl ys = zs.sum := by rw [Rounded.sum, k3, hs', zero_add]
  rw [hsum]
  have hlen := hn.length_eq
  have hxz : List.Forall₂ (Rel u M) xs zs := by
    have : ∀ {xs ys zs : List K} {a b : Nat}, List.Forall₂ (Rel u a) xs ys → List.Forall₂ (Rel u b) ys zs →
        List.Forall₂ (Rel u (a + b)) xs zs := by
      intro xs ys zs a b h2
      induction h2 generalizing zs with
      | nil => intro h3; cases h3; exact .nil
      | cons r _ ih =>
        intro h3
        cases h3 with
        | cons r' h3 => exact .cons (r.trans h1 r') (ih h3)
    exact (this hn k1).imp fun _ _ r => mono (by omega) r
  clear hn k1 k3 hsum hlen hM
  induction hxz with
  | nil => simp
  | @cons x z xs zs r _ ih =>
    simp only [List.sum_cons, List.map_cons]
    have := hδ r
    have e : z + zs.sum - (x + xs.sum) = (z - x) + (zs.sum - xs.sum) := by ring
    rw [e]
    refine (abs_add_le _ _).trans ?_
    rw [mul_add]
    exact add_le_add this ih

end BFL
