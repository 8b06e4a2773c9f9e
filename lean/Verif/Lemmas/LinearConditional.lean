import Verif.Model.LinearConditional
import Verif.Spec.LinearConditional
import Mathlib.Algebra.BigOperators.Intervals

/-! Helper lemmas about the linear conditional Gaussian. -/

set_option linter.unusedSectionVars false

namespace BFL

open Matrix Spec

variable {K : Type} [Field K] {n : Nat}

namespace LinCond

/-- The observable members agree; only the work vectors may differ. -/
def Same (p q : LinCond K n) : Prop :=
  p.numArgs = q.numArgs ∧ p.args = q.args ∧ p.ratio = q.ratio ∧ p.mu = q.mu ∧ p.sigma = q.sigma

/-- As many matrices and arguments as announced. -/
def WF (p : LinCond K n) : Prop := p.args.length = p.numArgs ∧ p.ratio.length = p.numArgs

theorem Same.refl (p : LinCond K n) : Same p p := ⟨rfl, rfl, rfl, rfl, rfl⟩

theorem Same.trans {p q r : LinCond K n} (h : Same p q) (h' : Same q r) : Same p r := by
  obtain ⟨a, b, c, d, e⟩ := h
  obtain ⟨a', b', c', d', e'⟩ := h'
  exact ⟨a.trans a', b.trans b', c.trans c', d.trans d', e.trans e'⟩

theorem addMulVec_ok {c : Nat} (A : Matrix (Fin n) (Fin c) K) (v : Fin c → K) (t : Fin n → K) :
    DMat.addMulVec ⟨n, c, A⟩ ⟨c, v⟩ t = .ok (t + A *ᵥ v) := by
  unfold DMat.addMulVec
  rw [dif_pos ⟨rfl, rfl⟩]
  rfl

theorem addMulVec_ub {M : DMat K} {v : DVec K} (h : ¬ (M.1 = n ∧ M.2.1 = v.1)) (t : Fin n → K) :
    M.addMulVec v t = .ub := dif_neg h

theorem addMulVec_some {M : DMat K} {v : DVec K} (h : M.1 = n ∧ M.2.1 = v.1) (t : Fin n → K) :
    ∃ t', M.addMulVec v t = .ok t' := ⟨_, dif_pos h⟩

theorem meanLoop_ok (c : Nat → Nat) (A : (j : Nat) → Matrix (Fin n) (Fin (c j)) K)
    (v : (j : Nat) → Fin (c j) → K) (k : Nat) :
    ∀ (i : Nat) (p : LinCond K n) (t : Fin n → K), i + k = p.numArgs → p.meanTemp = some t →
      (∀ j, i ≤ j → j < p.numArgs → p.ratio[j]? = some ⟨n, c j, A j⟩) →
      (∀ j, i ≤ j → j < p.numArgs → p.args[j]? = some ⟨c j, v j⟩) →
      ∃ p', meanLoop p i k = .ok p' ∧ Same p p' ∧
        p'.meanTemp = some (t + ∑ j ∈ Finset.range k, A (i + j) *ᵥ v (i + j)) := by
  induction k with
  | zero =>
    intro i p t _ ht _ _
    exact ⟨p, rfl, Same.refl p, by simp [ht]⟩
  | succ k ih =>
    intro i p t hk ht hA hv
    have hi : i < p.numArgs := by omega
    have h1 : p.argGet i = .ok ⟨c i, v i⟩ := by
      simp only [argGet, cassert_true hi, Outcome.ok_bind]
      exact vget_eq_ok.mpr (hv i le_rfl hi)
    have h2 : matrixGet { p with arg := some (⟨c i, v i⟩ : DVec K) } i = .ok ⟨n, c i, A i⟩ := by
      simp only [matrixGet, cassert_true hi, Outcome.ok_bind]
      exact vget_eq_ok.mpr (hA i le_rfl hi)
    obtain ⟨p', h3, h4, h5⟩ := ih (i + 1)
      { p with arg := some (⟨c i, v i⟩ : DVec K), meanTemp := some (t + A i *ᵥ v i) } _
      (by simpa using by omega) rfl
      (fun j hj hj' => hA j (by omega) hj') (fun j hj hj' => hv j (by omega) hj')
    refine ⟨p', ?_, h4, ?_⟩
    · simp only [meanLoop, h1, Outcome.ok_bind, h2]
      simp only [readMember, ht, Outcome.ok_bind, addMulVec_ok]
      exact h3
    · rw [h5, Finset.sum_range_succ']
      congr 1
      rw [add_assoc, add_comm (A i *ᵥ v i)]
      have e : ∀ j, A (i + 1 + j) *ᵥ v (i + 1 + j) = A (i + (j + 1)) *ᵥ v (i + (j + 1)) := fun j =>
        congrArg (fun l => A l *ᵥ v l) (by omega : i + 1 + j = i + (j + 1))
      simp only [e, Nat.add_zero]

theorem meanLoop_ub (k : Nat) :
    ∀ (i : Nat) (p : LinCond K n) (t : Fin n → K), i + k = p.numArgs → p.meanTemp = some t → p.WF →
      (∃ (j : Nat) (M : DMat K) (v : DVec K), i ≤ j ∧ p.ratio[j]? = some M ∧ p.args[j]? = some v ∧
        ¬ (M.1 = n ∧ M.2.1 = v.1)) →
      meanLoop p i k = .ub := by
  induction k with
  | zero =>
    rintro i p t hk _ hw ⟨j, M, v, hj, hM, -, -⟩
    have := (List.getElem?_eq_some_iff.mp hM).1
    rw [hw.2] at this
    omega
  | succ k ih =>
    rintro i p t hk ht hw ⟨j, M, v, hj, hM, hv, hb⟩
    have hi : i < p.numArgs := by omega
    have hia : i < p.args.length := by rw [hw.1]; exact hi
    have hir : i < p.ratio.length := by rw [hw.2]; exact hi
    have h1 : p.argGet i = .ok p.args[i] := by
      simp only [argGet, cassert_true hi, Outcome.ok_bind]
      exact vget_of_lt hia
    have h2 : matrixGet { p with arg := some p.args[i] } i = .ok p.ratio[i] := by
      simp only [matrixGet, cassert_true hi, Outcome.ok_bind]
      exact vget_of_lt hir
    simp only [meanLoop, h1, Outcome.ok_bind, h2]
    simp only [readMember, ht, Outcome.ok_bind]
    by_cases hg : p.ratio[i].1 = n ∧ p.ratio[i].2.1 = p.args[i].1
    · obtain ⟨t', ht'⟩ := addMulVec_some hg t
      rw [ht']
      simp only [Outcome.ok_bind]
      refine ih (i + 1) _ t' (by simpa using by omega) rfl hw ⟨j, M, v, ?_, hM, hv, hb⟩
      rcases Nat.lt_or_ge i j with h | h
      · exact h
      · have : i = j := by omega
        subst this
        rw [List.getElem?_eq_getElem hir] at hM
        rw [List.getElem?_eq_getElem hia] at hv
        cases hM; cases hv
        exact absurd hg hb
    · rw [addMulVec_ub hg]
      rfl

/-- Sizes fit at every index. -/
def Fits (p : LinCond K n) : Prop :=
  ∀ (j : Nat) (M : DMat K) (v : DVec K), p.ratio[j]? = some M → p.args[j]? = some v →
    M.1 = n ∧ M.2.1 = v.1

theorem expectedValueGet_ok (c : Nat → Nat) (A : (j : Nat) → Matrix (Fin n) (Fin (c j)) K)
    (v : (j : Nat) → Fin (c j) → K) (p : LinCond K n)
    (hA : ∀ j < p.numArgs, p.ratio[j]? = some ⟨n, c j, A j⟩)
    (hv : ∀ j < p.numArgs, p.args[j]? = some ⟨c j, v j⟩) :
    ∃ p', p.expectedValueGet = .ok (∑ j ∈ Finset.range p.numArgs, A j *ᵥ v j + p.mu, p') ∧
      Same p p' := by
  obtain ⟨p', h1, h2, h3⟩ := meanLoop_ok c A v p.numArgs 0 { p with meanTemp := some 0 } 0
    (Nat.zero_add _) rfl (fun j _ hj => hA j hj) (fun j _ hj => hv j hj)
  have e : p.expectedValueGet = .ok (∑ j ∈ Finset.range p.numArgs, A j *ᵥ v j + p.mu,
      { p' with meanTemp := some (∑ j ∈ Finset.range p.numArgs, A j *ᵥ v j + p.mu) }) := by
    have e0 : ∀ j, A (0 + j) *ᵥ v (0 + j) = A j *ᵥ v j := fun j =>
      congrArg (fun l => A l *ᵥ v l) (Nat.zero_add j)
    simp only [e0, zero_add] at h3
    have e1 : p'.mu = p.mu := h2.2.2.2.1.symm
    simp only [expectedValueGet, h1, Outcome.ok_bind, h3, readMember, Outcome.pure_eq, e1]
  exact ⟨_, e, h2⟩

theorem expectedValueGet_ub (p : LinCond K n) (hw : p.WF) (h : ¬ p.Fits) :
    p.expectedValueGet = .ub := by
  unfold Fits at h
  push Not at h
  obtain ⟨j, M, v, hM, hv, hb⟩ := h
  have := meanLoop_ub p.numArgs 0 { p with meanTemp := some 0 } 0 (Nat.zero_add _) rfl hw
    ⟨j, M, v, Nat.zero_le _, hM, hv, fun hc => hb hc.1 hc.2⟩
  simp only [expectedValueGet, this]
  rfl

theorem expectedValueGet_same {p p' : LinCond K n} {r : Fin n → K} (hw : p.WF)
    (h : p.expectedValueGet = .ok (r, p')) : Same p p' := by
  by_cases hf : p.Fits
  · classical
    let c : Nat → Nat := fun j => ((p.args[j]?).getD ⟨0, 0⟩).1
    let v : (j : Nat) → Fin (c j) → K := fun j => ((p.args[j]?).getD ⟨0, 0⟩).2
    have key : ∀ j, ∃ A : Matrix (Fin n) (Fin (c j)) K, j < p.numArgs →
        p.ratio[j]? = some ⟨n, c j, A⟩ := by
      intro j
      by_cases hj : j < p.numArgs
      · have hja : j < p.args.length := by rw [hw.1]; exact hj
        have hjr : j < p.ratio.length := by rw [hw.2]; exact hj
        have h2 := hf j p.ratio[j] p.args[j] (List.getElem?_eq_getElem hjr)
          (List.getElem?_eq_getElem hja)
        have hc : c j = p.args[j].1 := by
          simp only [c, List.getElem?_eq_getElem hja, Option.getD_some]
        rw [List.getElem?_eq_getElem hjr]
        generalize p.ratio[j] = M at h2 ⊢
        obtain ⟨r, cc, B⟩ := M
        simp only at h2
        obtain ⟨rfl, h2⟩ := h2
        have h3 : cc = c j := h2.trans hc.symm
        subst h3
        exact ⟨B, fun _ => rfl⟩
      · exact ⟨0, fun h => absurd h hj⟩
    choose A hA using key
    obtain ⟨q, hq, hs⟩ := expectedValueGet_ok c A v p (fun j hj => hA j hj) (fun j hj => by
      have hja : j < p.args.length := by rw [hw.1]; exact hj
      simp only [c, v]
      rw [List.getElem?_eq_getElem hja, Option.getD_some])
    rw [h] at hq
    cases hq
    exact hs
  · rw [expectedValueGet_ub p hw hf] at h
    cases h

theorem argSet_ok {p : LinCond K n} {i : Nat} {v : DVec K} (hw : p.WF) (hi : i < p.numArgs) :
    p.argSet i v = .ok { p with args := p.args.set i v } := by
  simp only [argSet, cassert_true hi, Outcome.ok_bind]
  rw [vset_of_lt (by rw [hw.1]; exact hi)]
  rfl

theorem matrixSet_ok {p : LinCond K n} {i : Nat} {M : DMat K} (hw : p.WF) (hi : i < p.numArgs) :
    p.matrixSet i M = .ok { p with ratio := p.ratio.set i M } := by
  simp only [matrixSet, cassert_true hi, Outcome.ok_bind]
  rw [vset_of_lt (by rw [hw.2]; exact hi)]
  rfl

theorem initLoop_ok (todo : List (DMat K)) :
    ∀ (i : Nat) (p : LinCond K n), p.WF → i + todo.length = p.numArgs →
      initLoop p i todo = .ok { p with args := p.args.take i ++ todo.map zeroFor } := by
  induction todo with
  | nil =>
    intro i p hw hi
    have : p.args.take i = p.args := List.take_of_length_le (by rw [hw.1]; simp at hi; omega)
    simp [initLoop, this]
  | cons M todo ih =>
    intro i p hw hi
    have hi' : i < p.numArgs := by simp at hi; omega
    have hil : i < p.args.length := by rw [hw.1]; exact hi'
    simp only [initLoop, argSet_ok hw hi', Outcome.ok_bind]
    have hw' : WF { p with args := p.args.set i (zeroFor M) } := ⟨by simpa using hw.1, hw.2⟩
    rw [ih (i + 1) _ hw' (by simp at hi ⊢; omega)]
    congr 2
    rw [List.take_succ_eq_append_getElem (by simpa using hil), List.getElem_set_self,
      List.take_set_of_le le_rfl]
    simp

theorem make_eq (ratio : List (DMat K)) (mu : Fin n → K) (sigma : Matrix (Fin n) (Fin n) K) :
    make ratio mu sigma = .ok ⟨ratio.length, ratio.map zeroFor, ratio, mu, sigma, none, none⟩ := by
  unfold make
  rw [initLoop_ok ratio 0 _ ⟨by simp, rfl⟩ (Nat.zero_add _)]
  simp

end LinCond

theorem latest_nil {C V : Type} (sets : C → Option V) (v : V) : latest sets [] v = v := rfl

theorem latest_cons {C V : Type} (sets : C → Option V) (a : C) (l : List C) (v : V) :
    latest sets (a :: l) v = latest sets l ((sets a).getD v) := by
  simp only [latest, List.reverse_cons, List.findSome?_append]
  cases List.findSome? sets l.reverse with
  | some b => rfl
  | none =>
    simp only [Option.none_or, List.findSome?_cons, List.findSome?_nil]
    cases sets a <;> rfl

/-- The value a call gives to conditional argument `i`. -/
def argOf (i : Nat) : LinCond.Op K n → Option (DVec K)
  | .setArg j v => if j = i then some v else none
  | .setArgs l => l[i]?
  | _ => none

/-- The value a call gives to matrix `i`. -/
def matrixOf (i : Nat) : LinCond.Op K n → Option (DMat K)
  | .setMatrix j M => if j = i then some M else none
  | _ => none

/-- The value a call gives to the mean of the noise. -/
def muOf : LinCond.Op K n → Option (Fin n → K)
  | .setMu m => some m
  | _ => none

/-- The value a call gives to the covariance of the noise. -/
def sigmaOf : LinCond.Op K n → Option (Matrix (Fin n) (Fin n) K)
  | .setSigma s => some s
  | _ => none

namespace LinCond

theorem set_getD {α : Type} {l : List α} {j i : Nat} {v v0 : α} (hi : l[i]? = some v0) :
    (l.set j v)[i]? = some ((if j = i then some v else none).getD v0) := by
  rw [List.getElem?_set]
  by_cases h : j = i
  · have := (List.getElem?_eq_some_iff.mp hi).1
    simp [h, this]
  · simp [h, hi]

theorem step_state {p q : LinCond K n} {op : Op K n} (hw : p.WF) (h : p.step op = .ok q) :
    q.WF ∧ q.numArgs = p.numArgs ∧
    (∀ (i : Nat) v0, p.args[i]? = some v0 → q.args[i]? = some ((argOf i op).getD v0)) ∧
    (∀ (i : Nat) M0, p.ratio[i]? = some M0 → q.ratio[i]? = some ((matrixOf i op).getD M0)) ∧
    q.mu = (muOf op).getD p.mu ∧ q.sigma = (sigmaOf op).getD p.sigma := by
  cases op with
  | setArg i v =>
    simp only [step] at h
    have hi : i < p.numArgs := by
      by_contra hc
      simp [argSet, cassert_false hc] at h
    rw [argSet_ok hw hi] at h
    cases h
    exact ⟨⟨by simpa using hw.1, hw.2⟩, rfl, fun j v0 hj => set_getD hj, fun j M0 hj => hj, rfl, rfl⟩
  | setArgs l =>
    simp only [step, argsSet, Outcome.bind_eq_ok, cassert_eq_ok, Outcome.pure_eq,
      Outcome.ok.injEq] at h
    obtain ⟨_, hl, rfl⟩ := h
    refine ⟨⟨hl, hw.2⟩, rfl, fun j v0 hj => ?_, fun j M0 hj => hj, rfl, rfl⟩
    have := (List.getElem?_eq_some_iff.mp hj).1
    have hj' : j < l.length := by rw [hl, ← hw.1]; exact this
    simp [argOf, List.getElem?_eq_getElem hj']
  | setMatrix i M =>
    simp only [step] at h
    have hi : i < p.numArgs := by
      by_contra hc
      simp [matrixSet, cassert_false hc] at h
    rw [matrixSet_ok hw hi] at h
    cases h
    exact ⟨⟨hw.1, by simpa using hw.2⟩, rfl, fun j v0 hj => hj, fun j M0 hj => set_getD hj, rfl, rfl⟩
  | setMu m =>
    cases h
    exact ⟨hw, rfl, fun j v0 hj => hj, fun j M0 hj => hj, rfl, rfl⟩
  | setSigma s =>
    cases h
    exact ⟨hw, rfl, fun j v0 hj => hj, fun j M0 hj => hj, rfl, rfl⟩
  | mean =>
    simp only [step, Outcome.bind_eq_ok, Outcome.pure_eq, Outcome.ok.injEq, Prod.exists] at h
    obtain ⟨r, p', hp, rfl⟩ := h
    obtain ⟨a, b, c, d, e⟩ := expectedValueGet_same hw hp
    refine ⟨⟨by rw [← b, ← a]; exact hw.1, by rw [← c, ← a]; exact hw.2⟩, a.symm, ?_, ?_, d.symm,
      e.symm⟩
    · intro j v0 hj; rw [← b]; exact hj
    · intro j v0 hj; rw [← c]; exact hj
  | getArg i =>
    simp only [step, Outcome.bind_eq_ok, Outcome.pure_eq, Outcome.ok.injEq] at h
    obtain ⟨_, _, rfl⟩ := h
    exact ⟨hw, rfl, fun j v0 hj => hj, fun j M0 hj => hj, rfl, rfl⟩
  | getMatrix i =>
    simp only [step, Outcome.bind_eq_ok, Outcome.pure_eq, Outcome.ok.injEq] at h
    obtain ⟨_, _, rfl⟩ := h
    exact ⟨hw, rfl, fun j v0 hj => hj, fun j M0 hj => hj, rfl, rfl⟩

theorem run_state (ops : List (Op K n)) : ∀ {p q : LinCond K n}, p.WF → run ops p = .ok q →
    q.WF ∧ q.numArgs = p.numArgs ∧
    (∀ (i : Nat) v0, p.args[i]? = some v0 → q.args[i]? = some (latest (argOf i) ops v0)) ∧
    (∀ (i : Nat) M0, p.ratio[i]? = some M0 → q.ratio[i]? = some (latest (matrixOf i) ops M0)) ∧
    q.mu = latest muOf ops p.mu ∧ q.sigma = latest sigmaOf ops p.sigma := by
  induction ops with
  | nil =>
    intro p q hw h
    cases h
    exact ⟨hw, rfl, fun j v0 hj => hj, fun j M0 hj => hj, rfl, rfl⟩
  | cons op ops ih =>
    intro p q hw h
    simp only [run, Outcome.bind_eq_ok] at h
    obtain ⟨p1, h1, h2⟩ := h
    obtain ⟨a, b, c, d, e, f⟩ := step_state hw h1
    obtain ⟨a', b', c', d', e', f'⟩ := ih a h2
    refine ⟨a', b'.trans b, fun j v0 hj => ?_, fun j M0 hj => ?_, ?_, ?_⟩
    · rw [latest_cons]; exact c' j _ (c j v0 hj)
    · rw [latest_cons]; exact d' j _ (d j M0 hj)
    · rw [latest_cons, e', e]
    · rw [latest_cons, f', f]

theorem make_wf {ratio : List (DMat K)} {mu : Fin n → K} {sigma : Matrix (Fin n) (Fin n) K}
    {p : LinCond K n} (h : make ratio mu sigma = .ok p) :
    p.WF ∧ p.numArgs = ratio.length ∧ p.args = ratio.map zeroFor ∧ p.ratio = ratio ∧ p.mu = mu ∧
      p.sigma = sigma := by
  rw [make_eq] at h
  cases h
  exact ⟨⟨by simp, rfl⟩, rfl, rfl, rfl, rfl, rfl⟩

end LinCond

/-- The value a call on a linear model gives to matrix `i` of its pdf: matrix 0 is `A` (or `H`),
matrix 1 is `B` (or `J`). -/
def modelMatrixOf (i : Nat) : LinModel.Op K n → Option (DMat K)
  | .setA a => if i = 0 then some a else none
  | .setB b => if i = 1 then some b else none
  | .pdf op => matrixOf i op
  | _ => none

/-- The value a call on a linear model gives to the mean of the noise. -/
def modelMuOf : LinModel.Op K n → Option (Fin n → K)
  | .pdf op => muOf op
  | _ => none

/-- The value a call on a linear model gives to the covariance of the noise. -/
def modelSigmaOf : LinModel.Op K n → Option (Matrix (Fin n) (Fin n) K)
  | .pdf op => sigmaOf op
  | _ => none

namespace LinModel

open LinCond

/-- Nothing but the conditional arguments and work vectors of the pdf differs. -/
def SamePar (p q : LinCond K n) : Prop :=
  q.WF ∧ q.numArgs = p.numArgs ∧ q.ratio = p.ratio ∧ q.mu = p.mu ∧ q.sigma = p.sigma

theorem condition_state {m : LinModel K n} {u x : DVec K} {p : LinCond K n} (hw : m.pdf.WF)
    (h : m.condition u x = .ok p) : SamePar m.pdf p := by
  simp only [condition, Outcome.bind_eq_ok] at h
  obtain ⟨p1, h1, h2⟩ := h
  have hi : 0 < m.pdf.numArgs := by
    by_contra hc
    simp [argSet, cassert_false hc] at h1
  rw [argSet_ok hw hi] at h1
  cases h1
  have hw1 : WF { m.pdf with args := m.pdf.args.set 0 x } := ⟨by simpa using hw.1, hw.2⟩
  split at h2
  · rename_i h3
    rw [argSet_ok hw1 (by rw [h3]; decide)] at h2
    cases h2
    exact ⟨⟨by simpa using hw1.1, hw.2⟩, rfl, rfl, rfl, rfl⟩
  · cases h2
    exact ⟨hw1, rfl, rfl, rfl, rfl⟩

theorem step_state {m m' : LinModel K n} {op : Op K n} (hw : m.pdf.WF) (h : m.step op = .ok m') :
    m'.pdf.WF ∧ m'.pdf.numArgs = m.pdf.numArgs ∧ m'.without = m.without ∧
    (∀ (i : Nat) M0, m.pdf.ratio[i]? = some M0 →
      m'.pdf.ratio[i]? = some ((modelMatrixOf i op).getD M0)) ∧
    m'.pdf.mu = (modelMuOf op).getD m.pdf.mu ∧ m'.pdf.sigma = (modelSigmaOf op).getD m.pdf.sigma := by
  have quiet : ∀ {q : LinCond K n}, SamePar m.pdf q → q.WF ∧ q.numArgs = m.pdf.numArgs ∧
      (∀ (i : Nat) M0, m.pdf.ratio[i]? = some M0 → q.ratio[i]? = some M0) ∧ q.mu = m.pdf.mu ∧
      q.sigma = m.pdf.sigma := by
    rintro q ⟨a, b, c, d, e⟩
    exact ⟨a, b, fun i M0 hi => by rw [c]; exact hi, d, e⟩
  have mset : ∀ {j : Nat} {a : DMat K} {q : LinCond K n}, m.pdf.matrixSet j a = .ok q →
      q.WF ∧ q.numArgs = m.pdf.numArgs ∧
      (∀ (i : Nat) M0, m.pdf.ratio[i]? = some M0 →
        q.ratio[i]? = some ((if j = i then some a else none).getD M0)) ∧
      q.mu = m.pdf.mu ∧ q.sigma = m.pdf.sigma := by
    intro j a q hq
    obtain ⟨b, c, _, d, e, f⟩ := LinCond.step_state (op := .setMatrix j a) hw hq
    exact ⟨b, c, d, e, f⟩
  cases op with
  | setA a =>
    simp only [step, aSet, Outcome.bind_eq_ok, Outcome.pure_eq, Outcome.ok.injEq] at h
    obtain ⟨q, hq, rfl⟩ := h
    obtain ⟨b, c, d, e, f⟩ := mset hq
    refine ⟨b, c, rfl, fun i M0 hi => ?_, e, f⟩
    rw [d i M0 hi, modelMatrixOf]
    simp only [eq_comm (a := 0)]
  | setB a =>
    simp only [step, bSet, Outcome.bind_eq_ok, Outcome.pure_eq, Outcome.ok.injEq] at h
    obtain ⟨q, hq, rfl⟩ := h
    obtain ⟨b, c, d, e, f⟩ := mset hq
    refine ⟨b, c, rfl, fun i M0 hi => ?_, e, f⟩
    rw [d i M0 hi, modelMatrixOf]
    simp only [eq_comm (a := 1)]
  | predict u x =>
    simp only [step, predictionGet, Outcome.bind_eq_ok, Outcome.pure_eq, Outcome.ok.injEq,
      Prod.mk.injEq, Prod.exists] at h
    obtain ⟨r, m1, ⟨p, hp, r', p', hp', rfl, rfl⟩, rfl⟩ := h
    have h1 := condition_state hw hp
    obtain ⟨a, b, c, d, e⟩ := h1
    obtain ⟨a', b', c', d', e'⟩ := expectedValueGet_same a hp'
    have h2 : SamePar m.pdf p' := ⟨⟨by rw [← b', ← a']; exact a.1, by rw [← c', ← a']; exact a.2⟩,
      a'.symm.trans b, c'.symm.trans c, d'.symm.trans d, e'.symm.trans e⟩
    obtain ⟨a, b, c, d, e⟩ := quiet h2
    exact ⟨a, b, rfl, c, d, e⟩
  | df u x =>
    simp only [step, dfGet, Outcome.bind_eq_ok, Outcome.pure_eq, Outcome.ok.injEq,
      Prod.mk.injEq, Prod.exists] at h
    obtain ⟨r, m1, ⟨p, hp, r', _, rfl, rfl⟩, rfl⟩ := h
    obtain ⟨a, b, c, d, e⟩ := quiet (condition_state hw hp)
    exact ⟨a, b, rfl, c, d, e⟩
  | cov u x =>
    simp only [step, covGet, Outcome.bind_eq_ok, Outcome.pure_eq, Outcome.ok.injEq,
      Prod.mk.injEq, Prod.exists] at h
    obtain ⟨r, m1, ⟨p, hp, rfl, rfl⟩, rfl⟩ := h
    obtain ⟨a, b, c, d, e⟩ := quiet (condition_state hw hp)
    exact ⟨a, b, rfl, c, d, e⟩
  | pdf op =>
    simp only [step, Outcome.bind_eq_ok, Outcome.pure_eq, Outcome.ok.injEq] at h
    obtain ⟨q, hq, rfl⟩ := h
    obtain ⟨b, c, _, d, e, f⟩ := LinCond.step_state hw hq
    exact ⟨b, c, rfl, d, e, f⟩

theorem run_state (ops : List (Op K n)) : ∀ {m m' : LinModel K n}, m.pdf.WF → run ops m = .ok m' →
    m'.pdf.WF ∧ m'.pdf.numArgs = m.pdf.numArgs ∧ m'.without = m.without ∧
    (∀ (i : Nat) M0, m.pdf.ratio[i]? = some M0 →
      m'.pdf.ratio[i]? = some (latest (modelMatrixOf i) ops M0)) ∧
    m'.pdf.mu = latest modelMuOf ops m.pdf.mu ∧ m'.pdf.sigma = latest modelSigmaOf ops m.pdf.sigma := by
  induction ops with
  | nil =>
    intro m m' hw h
    cases h
    exact ⟨hw, rfl, rfl, fun j M0 hj => hj, rfl, rfl⟩
  | cons op ops ih =>
    intro m m' hw h
    simp only [run, Outcome.bind_eq_ok] at h
    obtain ⟨p1, h1, h2⟩ := h
    obtain ⟨a, b, c, d, e, f⟩ := step_state hw h1
    obtain ⟨a', b', c', d', e', f'⟩ := ih a h2
    refine ⟨a', b'.trans b, c'.trans c, fun j M0 hj => ?_, ?_, ?_⟩
    · rw [latest_cons]; exact d' j _ (d j M0 hj)
    · rw [latest_cons, e', e]
    · rw [latest_cons, f', f]

end LinModel

end BFL
