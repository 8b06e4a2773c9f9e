import Verif.Model.SmootherProgram
import Verif.Props.SmootherLaws

set_option linter.unusedSectionVars false

/-!
# C114: the example programs for the smoother

The claim: the smoothed estimate that the programs report for a time step is the smoothed estimate of that
time step. It is false, because the programs store each filtered estimate after the update instead of before
it, and so step backward with the filtered estimate of the wrong time.
-/

namespace BFL.Props

open Matrix Spec SmootherProgram

variable {K : Type} [Field K] [LinearOrder K] [IsStrictOrderedRing K] {n : Nat} {U : Type}

/-- The calls of the program's filter, in the terms of the other properties. -/
def programCall (sys : AnalyticModel K n n U) (u : Option U) : Option (ProgramReading K n U) → KStep K n U
  | none => ⟨0, some (sys, u), none⟩
  | some r => ⟨r.1, some (sys, u), some r.2⟩

def programCalls (sys : AnalyticModel K n n U) (u : Option U) (rs : List (Option (ProgramReading K n U))) :
    List (KStep K n U) := rs.map (programCall sys u)

theorem filterStep_eq (be : Backend) (kind : KF.Kind K n) (sys : AnalyticModel K n n U) (u : Option U)
    (r : Option (ProgramReading K n U)) (f : KF K n) :
    filterStep be kind sys u r f = f.update be kind (programCall sys u r).sys (programCall sys u r).meas := by
  cases r <;> rfl

/-- **C114, which estimates are combined.** The smoother (`smoothCalls`) steps back from time `k + 1` to time
`k` with the filtered estimate after `k` calls. The program steps back with the one after `k + 1` calls, which
is the estimate of time `k + 1` itself. (`g :: l` and `out` list the results by time; `out` ends with the last
filtered estimate.) -/
theorem C114_pairing (be : Backend) (kind : KF.Kind K n) (sys : AnalyticModel K n n U) (u : Option U)
    (rs : List (Option (ProgramReading K n U))) (f : KF K n) :
    (∀ g l, smoothCalls be kind (programCalls sys u rs) f = .ok (g, l) →
      l.length = rs.length ∧ ∀ k < rs.length, ∃ fk a b, runAll be kind (programCalls sys u (rs.take k)) f = .ok fk ∧
        (g :: l)[k]? = some a ∧ (g :: l)[k + 1]? = some b ∧ b.update be sys u fk.mu fk.sigma = .ok (true, a)) ∧
    (∀ last out, program be kind sys u rs f = .ok (last, out) →
      runAll be kind (programCalls sys u rs) f = .ok last ∧ out.length = rs.length ∧
      ∀ k < rs.length, ∃ fk a b, runAll be kind (programCalls sys u (rs.take (k + 1))) f = .ok fk ∧
        out[k]? = some a ∧ (out ++ [RTS.make last.mu last.sigma])[k + 1]? = some b ∧
        b.update be sys u fk.mu fk.sigma = .ok (true, a)) := by
  have upd : ∀ (g : RTS K n) (x : Fin n → K) (P : Matrix (Fin n) (Fin n) K) r,
      g.update be sys u x P = .ok r → r = (true, r.2) := by
    intro g x P r h
    simp only [RTS.update, Outcome.bind_eq_ok, Outcome.pure_eq, Outcome.ok.injEq] at h
    obtain ⟨_, _, rfl⟩ := h
    rfl
  constructor
  · induction rs generalizing f with
    | nil =>
      intro g l h
      simp only [programCalls, List.map_nil, smoothCalls, Outcome.ok.injEq, Prod.mk.injEq] at h
      exact ⟨by rw [← h.2]; rfl, by simp⟩
    | cons r rs ih =>
      intro g l h
      simp only [programCalls, List.map_cons, smoothCalls, Outcome.bind_eq_ok, Outcome.pure_eq,
        Outcome.ok.injEq, Prod.mk.injEq] at h
      obtain ⟨f1, h1, ⟨g1, l1⟩, h2, g', h3, rfl, rfl⟩ := h
      obtain ⟨e1, e2⟩ := ih f1.2 g1 l1 h2
      refine ⟨by simp [e1], ?_⟩
      intro k hk
      cases k with
      | zero =>
        refine ⟨f, g', g1, rfl, rfl, rfl, ?_⟩
        cases r <;>
        · simp only [programCall, backward, Outcome.bind_eq_ok, Outcome.pure_eq, Outcome.ok.injEq] at h3
          obtain ⟨r', h3, rfl⟩ := h3
          rw [h3, upd _ _ _ _ h3]
      | succ k =>
        obtain ⟨fk, a, b, a1, a2, a3, a4⟩ := e2 k (by simpa using hk)
        refine ⟨fk, a, b, ?_, by simpa using a2, by simpa using a3, a4⟩
        simp only [programCalls, List.take_succ_cons, List.map_cons, runAll]
        rw [h1]
        exact a1
  · have back : ∀ (ps : List (KF K n)) (g : RTS K n) out, backwardLoop be sys u ps g = .ok out →
        out.length = ps.length ∧ ∀ k < ps.length, ∃ p a b, ps[k]? = some p ∧ out[k]? = some a ∧
          (g :: out)[k]? = some b ∧ b.update be sys u p.mu p.sigma = .ok (true, a) := by
      intro ps
      induction ps with
      | nil =>
        intro g out h
        simp only [backwardLoop, Outcome.ok.injEq] at h
        exact ⟨by rw [← h]; rfl, by simp⟩
      | cons p ps ih =>
        intro g out h
        simp only [backwardLoop, Outcome.bind_eq_ok, Outcome.pure_eq, Outcome.ok.injEq] at h
        obtain ⟨g', h1, l, h2, rfl⟩ := h
        obtain ⟨e1, e2⟩ := ih _ _ h2
        refine ⟨by simp [e1], fun k hk => ?_⟩
        cases k with
        | zero => exact ⟨p, g'.2, g, rfl, rfl, rfl, by rw [h1, upd _ _ _ _ h1]⟩
        | succ k =>
          obtain ⟨q, a, b, a1, a2, a3, a4⟩ := e2 k (by simpa using hk)
          exact ⟨q, a, b, by simpa using a1, by simpa using a2, by simpa using a3, a4⟩
    have fwd : ∀ (rs : List (Option (ProgramReading K n U))) (f : KF K n) ps last,
        forward be kind sys u rs f = .ok (ps, last) →
        runAll be kind (programCalls sys u rs) f = .ok last ∧ ps.length = rs.length ∧
        ∀ (k : Nat) p, ps[k]? = some p → runAll be kind (programCalls sys u (rs.take (k + 1))) f = .ok p := by
      intro rs
      induction rs with
      | nil =>
        intro f ps last h
        simp only [forward, Outcome.ok.injEq, Prod.mk.injEq] at h
        obtain ⟨rfl, rfl⟩ := h
        exact ⟨rfl, rfl, by simp⟩
      | cons r rs ih =>
        intro f ps last h
        simp only [forward, Outcome.bind_eq_ok, Outcome.pure_eq, Outcome.ok.injEq, Prod.mk.injEq] at h
        obtain ⟨f1, h1, ⟨l1, l2⟩, h2, rfl, rfl⟩ := h
        rw [filterStep_eq] at h1
        obtain ⟨e1, e2, e3⟩ := ih _ _ _ h2
        refine ⟨?_, by simp [e2], fun k p hp => ?_⟩
        · simp only [programCalls, List.map_cons, runAll]
          rw [h1]
          exact e1
        · simp only [programCalls, List.take_succ_cons, List.map_cons, runAll]
          rw [h1]
          cases k with
          | zero =>
            simp only [List.getElem?_cons_zero, Option.some.injEq] at hp
            subst hp
            simp [runAll]
          | succ k => exact e3 k p (by simpa using hp)
    intro last out h
    simp only [program, Outcome.bind_eq_ok, Outcome.pure_eq, Outcome.ok.injEq, Prod.mk.injEq] at h
    obtain ⟨⟨ps, la⟩, h1, l, h2, rfl, rfl⟩ := h
    obtain ⟨a1, a2, a3⟩ := fwd _ _ _ _ h1
    obtain ⟨b1, b2⟩ := back _ _ _ h2
    simp only [List.length_reverse] at b1 b2
    refine ⟨a1, by simp [b1, a2], fun k hk => ?_⟩
    obtain ⟨p, a, b, c1, c2, c3, c4⟩ := b2 (ps.length - 1 - k) (by omega)
    have hl : l.length = rs.length := b1.trans a2
    refine ⟨p, a, b, a3 k p ?_, ?_, ?_, c4⟩
    · rw [List.getElem?_reverse (by omega)] at c1
      rw [← c1]
      congr 1
      omega
    · rw [List.getElem?_reverse (by omega), ← c2]
      congr 1
      omega
    · by_cases hk' : k + 1 < rs.length
      · rw [List.getElem?_append_left (by simpa [hl] using hk'), List.getElem?_reverse (by omega), ← c3]
        rw [show ps.length - 1 - k = (l.length - 1 - (k + 1)) + 1 by omega]
        simp
      · rw [List.getElem?_append_right (by simp [hl]; omega)]
        rw [show ps.length - 1 - k = 0 by omega] at c3
        simp only [List.getElem?_cons_zero, Option.some.injEq] at c3
        simp only [List.length_reverse]
        rw [show k + 1 - l.length = 0 by omega, ← c3]
        rfl

namespace SmootherProgramFixture

/-- A state that moves by `b` in every step, with noise of variance `q`. -/
def drift (b q : K) : AnalyticModel K 1 1 Unit :=
  .noInput (fun x => ![x 0 + b]) (fun _ => !![1]) (fun _ => !![q])

end SmootherProgramFixture

open SmootherProgramFixture

open SmootherLawsFixture in
/-- The example of two steps with a motion that bends: the second pass of the program uses the estimate after
one update. -/
example : ∃ last out fk a b, program .boost .extended bend none
      [some ⟨1, KFixture.square, ![3], none⟩, none] KFixture.start = .ok (last, out) ∧
    runAll .boost .extended (programCalls bend none [some ⟨1, KFixture.square, ![3], none⟩]) KFixture.start = .ok fk ∧
    out[0]? = some a ∧ out[1]? = some b ∧ b.update .boost bend none fk.mu fk.sigma = .ok (true, a) := by
  obtain ⟨last, out, h⟩ : ∃ last out, program .boost .extended bend none
      [some ⟨1, KFixture.square, ![3], none⟩, none] KFixture.start = .ok (last, out) := by
    have hr : (match program .boost .extended bend none [some ⟨1, KFixture.square, ![3], none⟩, none]
        KFixture.start with | .ok _ => true | _ => false) = true := by decide +kernel
    revert hr
    cases program .boost .extended bend none [some ⟨1, KFixture.square, ![3], none⟩, none] KFixture.start with
    | ok r => exact fun _ => ⟨r.1, r.2, rfl⟩
    | abort => exact fun h => absurd h (by simp)
    | ub => exact fun h => absurd h (by simp)
  obtain ⟨-, hl, hp⟩ := (C114_pairing .boost .extended bend none _ KFixture.start).2 last out h
  obtain ⟨fk, a, b, h1, h2, h3, h4⟩ := hp 0 (by simp)
  refine ⟨last, out, fk, a, b, h, h1, h2, ?_, h4⟩
  rw [List.getElem?_append_left (by rw [hl]; simp)] at h3
  exact h3

/-- **C114 fails, for every noise.** One step without any reading: nothing is learnt about the first state, and
the smoother gives back the prior. The program reports another variance, and another mean unless the state
stands still on average. -/
theorem C114_wrong (be : Backend) (x b : K) {p q : K} (hp : 0 < p) (hq : 0 < q) :
    (∃ g l, smoothCalls be .extended (programCalls (drift b q) none [none]) ⟨![x], !![p], 0⟩ = .ok (g, l) ∧
      g.mu = ![x] ∧ g.sigma = !![p]) ∧
    ∃ last g, program be .extended (drift b q) none [none] ⟨![x], !![p], 0⟩ = .ok (last, [g]) ∧
      g.mu = ![x + b * (q / (p + 2 * q))] ∧ (g.mu = ![x] ↔ b = 0) ∧
      g.sigma = !![p + q - ((p + q) / (p + 2 * q)) ^ 2 * q] ∧ g.sigma ≠ !![p] := by
  have h1 : (p + q) + q ≠ 0 := by positivity
  have h2 : p + q ≠ 0 := by positivity
  have h3 : p + 2 * q ≠ 0 := by positivity
  have hi : ∀ a : K, (!![1] * !![a] * (!![1])ᵀ + !![q] : Matrix (Fin 1) (Fin 1) K) = !![a + q] := by
    intro a
    have := one_innovCov a 1 q
    simp only [one_mul, mul_one] at this
    exact this
  have hs : (⟨![x], !![p], 0⟩ : KF K 1).sysUpdate be (drift b q) none = .ok ⟨![x + b], !![p + q], 0⟩ := by
    rw [sysUpdate_eq (J := ![x + b]) (F := !![1]) (Q := !![q]) ⟨rfl, rfl, rfl⟩]
    simp only [hi]
    rw [be.toSym_of_symm (one_transpose _)]
  have e1 : ∀ a c : K, (![a] - ![c] : Fin 1 → K) = ![a - c] := by intro a c; ext i; fin_cases i; rfl
  have e2 : ∀ a c : K, (!![a] - !![c] : Matrix (Fin 1) (Fin 1) K) = !![a - c] := by
    intro a c; ext i j; fin_cases i; fin_cases j; rfl
  have e3 : ∀ a c : K, (![a] + ![c] : Fin 1 → K) = ![a + c] := by intro a c; ext i; fin_cases i; rfl
  have step : ∀ y s xf pf : K, pf + q ≠ 0 → (RTS.make ![y] !![s]).update be (drift b q) none ![xf] !![pf] =
      .ok (true, ⟨![xf + pf * (pf + q)⁻¹ * (y - (xf + b))],
        !![pf - pf * (pf + q)⁻¹ * (pf + q - s) * (pf * (pf + q)⁻¹)], 0⟩) := by
    intro y s xf pf h
    have hk : smootherGain (!![pf] : Matrix (Fin 1) (Fin 1) K) !![1] !![q] = !![pf * (pf + q)⁻¹] := by
      have := one_kgain (p := pf) (h := 1) (r := q) (by simpa using h)
      simp only [one_mul, mul_one] at this
      exact this
    simp only [RTS.update]
    rw [RTS.sysUpdate_ok be (F := !![1]) (Q := !![q]) (xpred := ![xf + b]) rfl rfl rfl
      (by rw [one_innovCov, one_det]; simpa using h), smoothedMean, smoothedCov_eq, hk, hi]
    simp only [RTS.make, e1, e2, e3, one_transpose, one_mul_one, one_mulVec_one, Outcome.ok_bind]
    rw [be.toSym_of_symm (one_transpose _)]
    rfl
  constructor
  · refine ⟨⟨![x + p * (p + q)⁻¹ * (x + b - (x + b))],
        !![p - p * (p + q)⁻¹ * (p + q - (p + q)) * (p * (p + q)⁻¹)], 0⟩, [RTS.make ![x + b] !![p + q]], ?_, ?_, ?_⟩
    · simp only [programCalls, List.map_cons, List.map_nil, programCall, smoothCalls, KF.update, KF.sysPart,
        KF.measPart]
      rw [hs]
      simp only [Outcome.ok_bind, Outcome.pure_eq, backward]
      rw [step _ _ _ _ h2]
      rfl
    · simp
    · simp
  · refine ⟨⟨![x + b], !![p + q], 0⟩, ⟨![x + b + (p + q) * (p + q + q)⁻¹ * (x + b - (x + b + b))],
        !![p + q - (p + q) * (p + q + q)⁻¹ * (p + q + q - (p + q)) * ((p + q) * (p + q + q)⁻¹)], 0⟩, ?_, ?_, ?_, ?_, ?_⟩
    · simp only [program, forward, filterStep, KF.update, KF.sysPart, KF.measPart]
      rw [hs]
      simp only [Outcome.ok_bind, Outcome.pure_eq, List.reverse_cons, List.reverse_nil, List.nil_append,
        backwardLoop]
      rw [step _ _ _ _ h1]
      rfl
    · simp only
      congr 1
      field_simp
      ring
    · have e : x + b + (p + q) * (p + q + q)⁻¹ * (x + b - (x + b + b)) = x + b * (q / (p + 2 * q)) := by
        field_simp
        ring
      simp only [e]
      constructor
      · intro h
        have h := congrFun h 0
        simp only [Matrix.cons_val_zero, add_eq_left, mul_eq_zero, div_eq_zero_iff] at h
        rcases h with h | h | h
        · exact h
        · exact absurd h hq.ne'
        · exact absurd h h3
      · rintro rfl
        simp
    · simp only
      congr 3
      field_simp
      ring
    · intro h
      have h := congrFun (congrFun h 0) 0
      simp only [Matrix.of_apply, Matrix.cons_val_zero] at h
      field_simp at h
      nlinarith [mul_pos hq hq, mul_pos hp hq, mul_pos (mul_pos hq hq) hq, mul_pos (mul_pos hp hq) hq, mul_pos (mul_pos hp hp) hq]

example : ∃ last g, program .boost .extended (drift 3 1) none [none] ⟨![(0 : ℚ)], !![2], 0⟩ = .ok (last, [g]) ∧
    g.mu = ![3 / 4] ∧ g.sigma = !![39 / 16] := by
  obtain ⟨-, last, g, h1, h2, -, h3, -⟩ := C114_wrong .boost (0 : ℚ) 3 (p := 2) (q := 1) (by norm_num) (by norm_num)
  exact ⟨last, g, h1, by rw [h2]; norm_num, by rw [h3]; norm_num⟩

/-- **C114, what holds.** If the state does not move, every filtered estimate is about the same state, and
program and smoother agree: both report the last filtered estimate for all times. (Missing: states that move.) -/
theorem C114_constant_partial (be : Backend) (kind : KF.Kind K n) (hk : kind.Runs) (sys : AnalyticModel K n n U)
    (u : Option U) (hsys : sys.IsLinear u 1 0 0) (rs : List (Option (ProgramReading K n U)))
    (hr : ∀ r, some r ∈ rs → ∀ x, ∃ Z H R, r.2.1.Evaluates r.2.2.2 x Z H R ∧ PD R) (f : KF K n)
    (hP : PD f.sigma) :
    ∃ last, runAll be kind (programCalls sys u rs) f = .ok last ∧
      program be kind sys u rs f = .ok (last, List.replicate rs.length (RTS.make last.mu last.sigma)) ∧
      smoothCalls be kind (programCalls sys u rs) f =
        .ok (RTS.make last.mu last.sigma, List.replicate rs.length (RTS.make last.mu last.sigma)) := by
  have hdet : ∀ P : Matrix (Fin n) (Fin n) K, PD P → (innovCov P (1 : Matrix (Fin n) (Fin n) K) 0).det ≠ 0 := by
    intro P h
    simp only [innovCov, Matrix.one_mul, Matrix.transpose_one, Matrix.mul_one, add_zero]
    exact h.det_ne
  have gain : ∀ P : Matrix (Fin n) (Fin n) K, PD P → smootherGain P 1 0 = 1 := by
    intro P h
    simp only [smootherGain, Matrix.one_mul, Matrix.transpose_one, Matrix.mul_one, add_zero]
    exact mul_nonsing_inv _ h.det_ne.isUnit
  have back : ∀ (g : RTS K n) (p : KF K n), g.sigmaᵀ = g.sigma → PD p.sigma →
      g.update be sys u p.mu p.sigma = .ok (true, g) := by
    intro g p hg hp
    simp only [RTS.update]
    rw [RTS.sysUpdate_ok be (hsys g.mu).2.1 (hsys g.mu).2.2 (hsys p.mu).1 (hdet _ hp)]
    simp only [Outcome.ok_bind, Outcome.pure_eq]
    rw [smoothedMean, smoothedCov, gain _ hp]
    simp only [Matrix.one_mul, Matrix.transpose_one, Matrix.mul_one, add_zero, Matrix.one_mulVec,
      add_sub_cancel, be.toSym_of_symm hg]
  have fstep : ∀ (r : Option (ProgramReading K n U)) (f : KF K n), PD f.sigma →
      (∀ r', r = some r' → ∀ x, ∃ Z H R, r'.2.1.Evaluates r'.2.2.2 x Z H R ∧ PD R) →
      ∃ f', filterStep be kind sys u r f = .ok (true, f') ∧ PD f'.sigma := by
    intro r f hf hr
    have e1 : f.sysUpdate be sys u = .ok f := by
      rw [sysUpdate_eq (hsys f.mu)]
      simp only [Matrix.one_mul, Matrix.transpose_one, Matrix.mul_one, add_zero, Matrix.one_mulVec]
      rw [be.toSym_of_symm hf.1]
    cases r with
    | none =>
      refine ⟨f, ?_, hf⟩
      simp only [filterStep, KF.update, KF.sysPart, KF.measPart]
      rw [e1]
      rfl
    | some r =>
      obtain ⟨xj, h, H, R, he, hR, e⟩ := measUpdate_total (be := be) (z := r.2.2.1) hk hf.psd
        (hr r rfl)
      have hu : filterStep be kind sys u (some r) f = (f.measUpdate be kind r.2.1 r.2.2.1 r.2.2.2).bind
          (fun g => .ok (true, g)) := by
        simp only [filterStep, KF.update, KF.sysPart]
        rw [e1]
        rfl
      rw [hu, e]
      exact ⟨_, rfl, kcov_pd hf hR⟩
  have fwd : ∀ (rs : List (Option (ProgramReading K n U))) (f : KF K n), PD f.sigma →
      (∀ r, some r ∈ rs → ∀ x, ∃ Z H R, r.2.1.Evaluates r.2.2.2 x Z H R ∧ PD R) →
      ∃ ps last, forward be kind sys u rs f = .ok (ps, last) ∧ ps.length = rs.length ∧ PD last.sigma ∧
        (∀ p ∈ ps, PD p.sigma) ∧ runAll be kind (programCalls sys u rs) f = .ok last ∧
        smoothCalls be kind (programCalls sys u rs) f =
          .ok (RTS.make last.mu last.sigma, List.replicate rs.length (RTS.make last.mu last.sigma)) := by
    intro rs
    induction rs with
    | nil => exact fun f hf _ => ⟨[], f, rfl, rfl, hf, by simp, rfl, rfl⟩
    | cons r rs ih =>
      intro f hf hr
      obtain ⟨f1, e1, hf1⟩ := fstep r f hf (fun r' h => hr r' (by simp [h]))
      obtain ⟨ps, last, a1, a2, a3, a4, a5, a6⟩ := ih f1 hf1 (fun r' h => hr r' (by simp [h]))
      have e1' := e1
      rw [filterStep_eq] at e1'
      refine ⟨f1 :: ps, last, ?_, by simp [a2], a3, ?_, ?_, ?_⟩
      · simp only [forward]
        rw [e1]
        simp only [Outcome.ok_bind]
        rw [a1]
        rfl
      · intro p hp
        rcases List.mem_cons.1 hp with rfl | hp
        · exact hf1
        · exact a4 p hp
      · simp only [programCalls, List.map_cons, runAll]
        rw [e1']
        exact a5
      · simp only [programCalls, List.map_cons, smoothCalls]
        rw [e1']
        simp only [Outcome.ok_bind]
        simp only [programCalls] at a6
        rw [a6]
        simp only [Outcome.ok_bind]
        have hb : backward be (programCall sys u r).sys f (RTS.make last.mu last.sigma) =
            .ok (RTS.make last.mu last.sigma) := by
          have e : (programCall sys u r).sys = some (sys, u) := by cases r <;> rfl
          rw [e]
          simp only [backward]
          rw [back (RTS.make last.mu last.sigma) f a3.1 hf]
          rfl
        rw [hb]
        rfl
  have loop : ∀ (ps : List (KF K n)) (g : RTS K n), g.sigmaᵀ = g.sigma → (∀ p ∈ ps, PD p.sigma) →
      backwardLoop be sys u ps g = .ok (List.replicate ps.length g) := by
    intro ps g hg
    induction ps with
    | nil => intro _; rfl
    | cons p ps ih =>
      intro hp
      simp only [backwardLoop]
      rw [back g p hg (hp p (by simp))]
      simp only [Outcome.ok_bind]
      rw [ih fun q hq => hp q (by simp [hq])]
      rfl
  obtain ⟨ps, last, a1, a2, a3, a4, a5, a6⟩ := fwd rs f hP hr
  refine ⟨last, a5, ?_, a6⟩
  simp only [program]
  rw [a1]
  simp only [Outcome.ok_bind]
  rw [loop ps.reverse (RTS.make last.mu last.sigma) a3.1 (fun p hp => a4 p (List.mem_reverse.1 hp))]
  simp [a2]

example : ∃ last, program .eigen (.iterated 3 (some (KF.innovationCheck 1))) (.noInput (fun x => x) (fun _ => 1)
      (fun _ => 0) : AnalyticModel ℚ 2 2 Unit) none [some ⟨1, KFixture.square, ![5], none⟩, none] KFixture.start =
    .ok (last, [RTS.make last.mu last.sigma, RTS.make last.mu last.sigma]) := by
  obtain ⟨last, -, h, -⟩ := C114_constant_partial .eigen (.iterated 3 (some (KF.innovationCheck 1)))
    (by simp [KF.Kind.Runs])
    (.noInput (fun x => x) (fun _ => 1) (fun _ => 0) : AnalyticModel ℚ 2 2 Unit) none
    (fun x => ⟨by simp; rfl, rfl, rfl⟩) [some ⟨1, KFixture.square, ![5], none⟩, none]
    (by intro r hr x; simp at hr; subst hr; exact ⟨_, _, _, KFixture.square_evaluates x, KFixture.R_pd⟩)
    KFixture.start KFixture.P_pd
  exact ⟨last, h⟩

/-- **C114, the prior of the example.** The heading of the prior is never assigned. The position that the
filter reports after `N` moves follows whatever the memory held. -/
theorem C114_heading (be : Backend) (Q P : Matrix (Fin 3) (Fin 3) ℝ) (junk : ℝ) (N : Nat) :
    ∃ ps last, forward be .extended (Mobile.model ⟨0, Q⟩) (some input) (List.replicate N none)
        (KF.make (priorMean junk) P) = .ok (ps, last) ∧
      last.mu = ![-1 / 10 + N / 10 * Real.cos junk, 1 / 10 + N / 10 * Real.sin junk, junk] := by
  have gen : ∀ (N : Nat) (x y : ℝ) (S : Matrix (Fin 3) (Fin 3) ℝ) (t : Nat),
      ∃ ps last, forward be .extended (Mobile.model ⟨0, Q⟩) (some input) (List.replicate N none)
        ⟨![x, y, junk], S, t⟩ = .ok (ps, last) ∧
      last.mu = ![x + N / 10 * Real.cos junk, y + N / 10 * Real.sin junk, junk] := by
    intro N
    induction N with
    | zero => intro x y S t; exact ⟨[], _, rfl, by simp⟩
    | succ N ih =>
      intro x y S t
      have e : (Mobile.expectedValue ⟨0, Q⟩ input ![x, y, junk]) =
          ![x + 1 / 10 * Real.cos junk, y + 1 / 10 * Real.sin junk, junk] := by
        ext i
        fin_cases i <;> simp [Mobile.expectedValue, input, Function.update, mul_comm]
      obtain ⟨S', hs⟩ : ∃ S', (⟨![x, y, junk], S, t⟩ : KF ℝ 3).sysUpdate be (Mobile.model ⟨0, Q⟩) (some input) =
          .ok ⟨![x + 1 / 10 * Real.cos junk, y + 1 / 10 * Real.sin junk, junk], S', t⟩ := by
        have h := sysUpdate_eq (be := be) (sys := Mobile.model ⟨0, Q⟩) (u := some input)
          (f := (⟨![x, y, junk], S, t⟩ : KF ℝ 3)) ⟨rfl, rfl, rfl⟩
        simp only [e] at h
        exact ⟨_, h⟩
      obtain ⟨ps, last, h1, h2⟩ := ih (x + 1 / 10 * Real.cos junk) (y + 1 / 10 * Real.sin junk) S' t
      refine ⟨⟨![x + 1 / 10 * Real.cos junk, y + 1 / 10 * Real.sin junk, junk], S', t⟩ :: ps, last, ?_, ?_⟩
      · simp only [List.replicate_succ, forward, filterStep, KF.update, KF.sysPart, KF.measPart]
        rw [hs]
        simp only [Outcome.ok_bind, Outcome.pure_eq]
        rw [h1]
        rfl
      · rw [h2]
        push_cast
        congr 1
        · ring
        · congr 1
          ring
  exact gen N _ _ P 0

/-- Two values of the memory whose reports differ by `N / 5`. -/
theorem C114_heading_junk (be : Backend) (Q P : Matrix (Fin 3) (Fin 3) ℝ) (N : Nat) :
    ∃ junk junk' ps ps' last last',
      forward be .extended (Mobile.model ⟨0, Q⟩) (some input) (List.replicate N none)
        (KF.make (priorMean junk) P) = .ok (ps, last) ∧
      forward be .extended (Mobile.model ⟨0, Q⟩) (some input) (List.replicate N none)
        (KF.make (priorMean junk') P) = .ok (ps', last') ∧ last.mu 0 - last'.mu 0 = N / 5 := by
  obtain ⟨ps, last, h1, h2⟩ := C114_heading be Q P 0 N
  obtain ⟨ps', last', h1', h2'⟩ := C114_heading be Q P Real.pi N
  refine ⟨_, _, ps, ps', last, last', h1, h1', ?_⟩
  rw [h2, h2']
  simp
  ring

/-- **C114, the arguments.** Started without argument, the second program advises arguments that it refuses. -/
theorem C114_usage : (∀ a ∈ advised, accepts a = false) ∧ ∃ a, accepts a = true :=
  ⟨by intro a ha; fin_cases ha <;> rfl, "kalman_filter", rfl⟩

end BFL.Props
