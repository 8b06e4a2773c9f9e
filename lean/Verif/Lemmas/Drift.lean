import Verif.Spec.Drift
import Verif.Props.Forgetting
import Verif.Props.Rounding

set_option linter.unusedSectionVars false

/-!
# Errors of a histogram filter that mixes
-/

namespace BFL.Props

open Finset Spec HistogramFilter

variable {Z K : Type} [Field K] [LinearOrder K] [IsStrictOrderedRing K] {u : K} {fl : K → K}

theorem totalVariation_triangle (n : Nat) (p q r : Nat → K) :
    totalVariation n p r ≤ totalVariation n p q + totalVariation n q r := by
  unfold totalVariation
  rw [← add_div, ← Finset.sum_add_distrib]
  exact div_le_div_of_nonneg_right (Finset.sum_le_sum fun x _ => abs_sub_le _ _ _) zero_le_two

theorem evidence_nonneg' {n : Nat} {p : Nat → K} {ss : List (Step K)} (hss : ∀ s ∈ ss, s.Nonneg n)
    (hp : ∀ x < n, 0 ≤ p x) : 0 ≤ historyEvidence n p ss :=
  Finset.sum_nonneg fun x hx => jointLast_nonneg' hss hp x (mem_range.1 hx)

theorem near_evidence {n k : Nat} (h1 : u < 1) {p q : Nat → K} {c : K} (hc : 0 < c)
    (h : ∀ x < n, Near u k (c * p x) (q x)) {ss : List (Step K)} (hss : ∀ s ∈ ss, s.Nonneg n)
    (hpos : 0 < historyEvidence n p ss) :
    (1 - u) ^ k * (c * historyEvidence n p ss) ≤ historyEvidence n q ss ∧
    (1 - u) ^ k * historyEvidence n q ss ≤ c * historyEvidence n p ss ∧ 0 < historyEvidence n q ss := by
  have a : (1 - u) ^ k * (c * historyEvidence n p ss) ≤ historyEvidence n q ss := by
    rw [← historyEvidence_smul, ← historyEvidence_smul]
    exact historyEvidence_mono hss fun x hx => by
      have := (h x hx).1
      rwa [mul_comm] at this
  refine ⟨a, ?_, lt_of_lt_of_le (mul_pos (pow_pos (by linarith) _) (mul_pos hc hpos)) a⟩
  rw [← historyEvidence_smul, ← historyEvidence_smul]
  exact historyEvidence_mono hss fun x hx => by
    have := (h x hx).2
    rwa [mul_comm] at this

/-- An error of `k` roundings before the steps `ss` is mostly forgotten afterwards. -/
theorem near_posterior {n k : Nat} (h0 : 0 ≤ u) (h1 : u < 1) {p q : Nat → K} {c : K} (hc : 0 < c) (hp : ∀ x < n, 0 ≤ p x)
    (h : ∀ x < n, Near u k (c * p x) (q x)) {ss : List (Step K)} (hss : ∀ s ∈ ss, s.Nonneg n)
    {σ : K} (hσ : 0 ≤ σ) (hmix : ∀ s ∈ ss, s.MixesBy n σ) (hpos : 0 < historyEvidence n p ss) :
    totalVariation n (fun x => jointLast n q ss x / historyEvidence n q ss)
      (fun x => jointLast n p ss x / historyEvidence n p ss) ≤ (1 - (1 - u) ^ (2 * k)) * (1 - σ) ^ moves ss := by
  obtain ⟨_, e1, e2⟩ := near_evidence h1 hc h hss hpos
  set Ep := historyEvidence n p ss with hEp
  set Eq := historyEvidence n q ss with hEq
  set r := (1 - u) ^ k with hr
  have hr0 : 0 < r := pow_pos (by linarith) _
  have hr1 : r ≤ 1 := pow_le_one₀ (by linarith) (by linarith)
  have hrr : r * r ≤ 1 := mul_le_one₀ hr1 hr0.le hr1
  have hP : (1 - u) ^ (2 * k) = r * r := by rw [two_mul, pow_add]
  have hinv : r * (c * Ep)⁻¹ ≤ Eq⁻¹ := by
    rw [← div_eq_mul_inv, div_le_iff₀ (mul_pos hc hpos), ← div_eq_inv_mul, le_div_iff₀ e2]
    exact e1
  have low : ∀ x < n, 0 ≤ Eq⁻¹ * q x + -(r * r) * (Ep⁻¹ * p x) := by
    intro x hx
    have a := (h x hx).1
    have hcp : 0 ≤ c * p x := mul_nonneg hc.le (hp x hx)
    have b : r * (c * Ep)⁻¹ * (c * p x * r) ≤ Eq⁻¹ * q x :=
      mul_le_mul hinv a (mul_nonneg hcp hr0.le) (inv_nonneg.2 e2.le)
    have e : r * (c * Ep)⁻¹ * (c * p x * r) = r * r * (Ep⁻¹ * p x) := by
      field_simp
    rw [e] at b
    linarith
  have ev : historyEvidence n (fun x => Eq⁻¹ * q x + -(r * r) * (Ep⁻¹ * p x)) ss = 1 - r * r := by
    rw [historyEvidence_add, historyEvidence_smul, historyEvidence_smul, historyEvidence_smul, ← hEq, ← hEp,
      inv_mul_cancel₀ e2.ne', inv_mul_cancel₀ hpos.ne']
    ring
  have ev' : historyEvidence n (fun x => (1 - r * r) * (Ep⁻¹ * p x)) ss = 1 - r * r := by
    rw [historyEvidence_smul, historyEvidence_smul, ← hEp, inv_mul_cancel₀ hpos.ne', mul_one]
  have key := joint_distance hσ ss hss hmix _ _ low
    (fun x hx => mul_nonneg (sub_nonneg.2 hrr) (mul_nonneg (inv_nonneg.2 hpos.le) (hp x hx))) (ev.trans ev'.symm)
  rw [ev] at key
  have e3 : ∀ x, jointLast n (fun x => Eq⁻¹ * q x + -(r * r) * (Ep⁻¹ * p x)) ss x -
      jointLast n (fun x => (1 - r * r) * (Ep⁻¹ * p x)) ss x = jointLast n q ss x / Eq - jointLast n p ss x / Ep := by
    intro x
    rw [jointLast_add, jointLast_smul, jointLast_smul, jointLast_smul, jointLast_smul, jointLast_smul]
    ring
  simp only [e3] at key
  unfold totalVariation
  rw [hP]
  linarith

/-- A computation that makes an error of at most `k` roundings in every step. -/
inductive Drifts (u : K) (n k : Nat) : List (Step K) → (Nat → K) → (Nat → K) → Prop
  | nil {p q} (h : ∀ x < n, q x = p x) : Drifts u n k [] p q
  | cons {s ss p p' q c} (h0 : ∀ x < n, 0 ≤ p' x) (hc : 0 < c) (h : ∀ x < n, Near u k (c * s.apply n p x) (p' x))
      (ht : Drifts u n k ss p' q) : Drifts u n k (s :: ss) p q

theorem Drifts.distance {n k : Nat} (h0 : 0 ≤ u) (h1 : u < 1) {σ : K} (hσ : 0 ≤ σ) {ss : List (Step K)} {p q : Nat → K}
    (h : Drifts u n k ss p q) : (∀ s ∈ ss, s.Nonneg n) → (∀ s ∈ ss, s.MixesBy n σ) → (∀ x < n, 0 ≤ p x) →
    0 < historyEvidence n p ss → 0 < ∑ x ∈ range n, q x ∧
    totalVariation n (fun x => q x / ∑ y ∈ range n, q y) (fun x => jointLast n p ss x / historyEvidence n p ss) ≤
      (1 - (1 - u) ^ (2 * k)) * remembered σ ss := by
  induction h with
  | @nil p q h =>
    intro _ _ _ hpos
    have e : ∑ x ∈ range n, q x = historyEvidence n p [] := by
      rw [historyEvidence_nil]
      exact Finset.sum_congr rfl fun x hx => h x (mem_range.1 hx)
    refine ⟨e ▸ hpos, ?_⟩
    unfold totalVariation remembered
    rw [e, Finset.sum_eq_zero, mul_zero, zero_div]
    intro x hx
    beta_reduce
    rw [jointLast_nil n p (mem_range.1 hx), h x (mem_range.1 hx), sub_self, abs_zero]
  | @cons s ss p p' q c hp0 hc hn _ ih =>
    intro hss hmix hp hpos
    have hss' : ∀ s ∈ ss, s.Nonneg n := fun s hs => hss s (by simp [hs])
    have hmix' : ∀ s ∈ ss, s.MixesBy n σ := fun s hs => hmix s (by simp [hs])
    rw [historyEvidence_cons] at hpos
    obtain ⟨-, -, hpos'⟩ := near_evidence h1 hc hn hss' hpos
    obtain ⟨a, b⟩ := ih hss' hmix' hp0 hpos'
    refine ⟨a, ?_⟩
    have d := near_posterior h0 h1 hc (Step.apply_nonneg hp (hss s (by simp))) hn hss' hσ hmix' hpos
    rw [historyEvidence_cons]
    simp only [jointLast_cons]
    refine (totalVariation_triangle n _ _ _).trans ((add_le_add b d).trans (le_of_eq ?_))
    show _ = _ * ((1 - σ) ^ moves ss + remembered σ ss)
    ring

/-- From roundings to an error. -/
theorem one_sub_pow_le (h1 : u ≤ 1) (k : Nat) : 1 - (1 - u) ^ k ≤ k * u := by
  have := one_add_mul_le_pow (a := -u) (by linarith) k
  have e : (1 : K) + -u = 1 - u := by ring
  rw [e] at this
  linarith

theorem remembered_nonneg {σ : K} (h1 : σ ≤ 1) : ∀ ss : List (Step K), 0 ≤ remembered σ ss
  | [] => le_rfl
  | _ :: ss => add_nonneg (pow_nonneg (by linarith) _) (remembered_nonneg h1 ss)

/-- If every update has a move, little is left. -/
theorem remembered_le {σ : K} (h0 : 0 < σ) (h1 : σ ≤ 1) {n : Nat} {cs : List (Call Z K)} {ss : List (Step K)}
    (hcs : Describes n cs ss) (hm : ∀ c ∈ cs, c.sys.isSome) : remembered σ ss * σ ≤ 2 * (1 - (1 - σ) ^ moves ss) := by
  induction hcs with
  | nil => simp [remembered, moves]
  | @cons c cs s1 s2 ss a b _ ih =>
    have ih := ih fun c hc => hm c (by simp [hc])
    obtain ⟨csys, cmeas⟩ := c
    have := hm ⟨csys, cmeas⟩ (by simp)
    simp only at a b this
    have hq : 0 ≤ (1 - σ) ^ moves ss := pow_nonneg (by linarith) _
    have hq2 : 0 ≤ σ * (1 - σ) ^ moves ss := mul_nonneg h0.le hq
    cases a with
    | none => simp at this
    | @some m v T hT =>
      cases b with
      | none =>
        simp only [List.append_nil, List.cons_append, List.nil_append, remembered, moves, pow_succ]
        linarith
      | @some m z s L hL =>
        simp only [List.cons_append, List.nil_append, remembered, moves, pow_succ]
        linarith

/-- Tables that are alike. -/
theorem alike_drifts {n : Nat} {ε : K} {ss ss' : List (Step K)} (h : List.Forall₂ (Step.Alike n ε) ss ss') :
    (∀ s ∈ ss, s.Nonneg n) → (∀ s ∈ ss', s.Nonneg n) → ∀ {p : Nat → K}, (∀ x < n, 0 ≤ p x) →
    Drifts ε n 1 ss p (jointLast n p ss') := by
  induction h with
  | nil => intro _ _ p _; exact .nil fun x hx => jointLast_nil n p hx
  | @cons s s' ss ss' h _ ih =>
    intro hss hss' p hp
    have hs := hss s (by simp)
    have hs' := hss' s' (by simp)
    have a0 := Step.apply_nonneg hp hs'
    have ih := ih (fun s hs => hss s (by simp [hs])) (fun s hs => hss' s (by simp [hs])) a0
    have e : jointLast n p (s' :: ss') = jointLast n (s'.apply n p) ss' := by
      funext x
      exact jointLast_cons n p s' ss' x
    rw [e]
    cases s with
    | move T =>
      cases s' with
      | observe L' => exact h.elim
      | move T' =>
        refine .cons a0 one_pos (fun y hy => ?_) ih
        rw [one_mul]
        refine near_sum fun x hx => ?_
        obtain ⟨b1, b2⟩ := h y hy x hx
        have := mul_le_mul_of_nonneg_right b1 (hp x hx)
        have := mul_le_mul_of_nonneg_right b2 (hp x hx)
        constructor <;> rw [pow_one] <;> linarith
    | observe L =>
      cases s' with
      | move T' => exact h.elim
      | observe L' =>
        obtain ⟨c, hc, h⟩ := h
        refine .cons a0 hc (fun y hy => ?_) ih
        obtain ⟨b1, b2⟩ := h y hy
        have := mul_le_mul_of_nonneg_right b1 (hp y hy)
        have := mul_le_mul_of_nonneg_right b2 (hp y hy)
        show Near ε 1 (c * (p y * L y)) (p y * L' y)
        constructor <;> rw [pow_one] <;> linarith

/-- Rounded arithmetic. -/
theorem rounded_drifts (h : IsRounding u fl) {n : Nat} (hf : Fits u n) {cs : List (Call Z K)} {ss : List (Step K)}
    (hcs : Describes n cs ss) : (∀ s ∈ ss, s.Nonneg n) → ∀ (f : HistogramFilter K) (p : Nat → K), Sized n f →
      f.post.values = tab n p → (∀ x < n, 0 ≤ p x) → Near u (n + 1) 1 (∑ x ∈ range n, p x) → 0 < historyEvidence n p ss →
      ∃ f' q, Rounded.run fl f cs = .ok (true, f') ∧ f'.post.values = tab n q ∧ (∀ x < n, 0 ≤ q x) ∧
        Near u (n + 1) 1 (∑ x ∈ range n, q x) ∧ Drifts u n (n + 2) ss p q := by
  have hu := hf.lt_one h
  induction hcs with
  | nil =>
    intro _ f p _ hv hp hs _
    exact ⟨f, p, rfl, hv, hp, hs, .nil fun _ _ => rfl⟩
  | @cons c cs s1 s2 ss h1 h2 _ ih =>
    obtain ⟨csys, cmeas⟩ := c
    simp only at h1 h2
    intro hss f p hsz hv hp hs hpos
    have knows : ∀ {f : HistogramFilter K} {p : Nat → K}, Sized n f → f.post.values = tab n p → (∀ x < n, 0 ≤ p x) →
        Near u (n + 1) 1 (∑ x ∈ range n, p x) → Knows u n 0 f p := by
      intro f p a b c d
      exact ⟨a, p, 1, b, c, one_pos, fun x hx => by rw [one_mul]; exact near_refl h.1 hu.le 0 (c x hx), d⟩
    obtain ⟨f1, p1, e1, z1, v1, n1, m1, pos1, d1⟩ : ∃ (f1 : HistogramFilter K) (p1 : Nat → K),
        Rounded.sysPart fl f csys = .ok f1 ∧ Sized n f1 ∧ f1.post.values = tab n p1 ∧ (∀ x < n, 0 ≤ p1 x) ∧
        Near u (n + 1) 1 (∑ x ∈ range n, p1 x) ∧ 0 < historyEvidence n p1 (s2 ++ ss) ∧
        ∀ q, Drifts u n (n + 2) (s2 ++ ss) p1 q → Drifts u n (n + 2) (s1 ++ s2 ++ ss) p q := by
      cases h1 with
      | none => exact ⟨f, p, rfl, hsz, hv, hp, hs, hpos, fun q hq => hq⟩
      | @some m v T hT =>
        have hT0 : (Step.move T).Nonneg n := hss _ (by simp)
        have hpos' : 0 < historyEvidence n ((Step.move T).apply n p) (s2 ++ ss) := by
          rw [← historyEvidence_cons]
          simpa using hpos
        have a0 := Step.apply_nonneg hp hT0
        obtain ⟨f1, b1, b2, p1, c, b3, b4, b5, b6, b7⟩ := knows_sys h hf (knows hsz hv hp hs) hT hT0
          (mass_pos_of_evidence a0 hpos')
        rw [zero_add] at b6
        exact ⟨f1, p1, b1, b2, b3, b4, b7,
          (near_evidence hu b5 b6 (fun s hs => hss s (by simp at hs ⊢; tauto)) hpos').2.2,
          fun q hq => .cons (c := c) b4 b5 b6 hq⟩
    obtain ⟨f2, p2, e2, z2, v2, n2, m2, pos2, d2⟩ : ∃ (f2 : HistogramFilter K) (p2 : Nat → K),
        Rounded.measPart fl f1 cmeas = .ok f2 ∧ Sized n f2 ∧ f2.post.values = tab n p2 ∧ (∀ x < n, 0 ≤ p2 x) ∧
        Near u (n + 1) 1 (∑ x ∈ range n, p2 x) ∧ 0 < historyEvidence n p2 ss ∧
        ∀ q, Drifts u n (n + 2) ss p2 q → Drifts u n (n + 2) (s2 ++ ss) p1 q := by
      cases h2 with
      | none => exact ⟨f1, p1, rfl, z1, v1, n1, m1, pos1, fun q hq => hq⟩
      | @some m z s L hL =>
        have hL0 : (Step.observe L).Nonneg n := hss _ (by simp)
        have hpos' : 0 < historyEvidence n ((Step.observe L).apply n p1) ss := by
          rw [← historyEvidence_cons]
          simpa using pos1
        have a0 := Step.apply_nonneg n1 hL0
        obtain ⟨f2, b1, b2, p2, c, b3, b4, b5, b6, b7⟩ := knows_meas h hf (knows z1 v1 n1 m1) hL hL0
          (mass_pos_of_evidence a0 hpos')
        rw [zero_add] at b6
        exact ⟨f2, p2, b1, b2, b3, b4, b7,
          (near_evidence hu b5 b6 (fun s hs => hss s (by simp [hs])) hpos').2.2,
          fun q hq => .cons (c := c) b4 b5 (fun x hx => (b6 x hx).mono h.1 hu.le
            (mul_nonneg b5.le (a0 x hx)) (b4 x hx) (by omega)) hq⟩
    obtain ⟨f3, q, e3, c1, c2, c3, c4⟩ := ih (fun s hs => hss s (by simp [hs])) f2 p2 z2 v2 n2 m2 pos2
    exact ⟨f3, q, by simp [Rounded.run, Rounded.update, e1, e2, e3], c1, c2, c3, d1 q (d2 q c4)⟩

end BFL.Props
