import Verif.Model.FormulaModels
import Verif.Model.Ginac
import Verif.Spec.FormulaModels

set_option linter.unusedSectionVars false

/-! # Lemmas about model objects and the pdfs they point to -/

namespace BFL.FormulaModels

variable {P B : Type} {c : PdfClass P}

theorem pdfAt_eq_ok {s : Store P} {a : Nat} {x : P} :
    s.pdfAt a = .ok x ↔ s[a]? = some (some (.pdf x)) := by
  unfold Store.pdfAt
  split
  · rename_i y h
    rw [h]
    simp
  · rename_i h
    constructor
    · intro h'; exact absurd h' (by simp)
    · intro h'; exact absurd h' (h x)

theorem modelAt_eq_ok {s : Store P} {m : Nat} {k : Kind} {a : Nat} :
    s.modelAt m = .ok (k, a) ↔ s[m]? = some (some (.model k a)) := by
  unfold Store.modelAt
  split
  · rename_i k' a' h
    rw [h]
    simp
  · rename_i h
    constructor
    · intro h'; exact absurd h' (by simp)
    · intro h'; exact absurd h' (h k a)

theorem pdfAt_cases (s : Store P) (a : Nat) : (∃ x, s.pdfAt a = .ok x) ∨ s.pdfAt a = .ub := by
  unfold Store.pdfAt
  split
  · exact Or.inl ⟨_, rfl⟩
  · exact Or.inr rfl

theorem lt_of_get {s : Store P} {i : Nat} {o : Option (Obj P)} (h : s[i]? = some o) : i < s.length :=
  (List.getElem?_eq_some_iff.1 h).1

theorem argsOk_eq_ok {x : P} {v : Unit} (h : Store.argsOk c x = .ok v) :
    c.numArgs x = 1 ∨ c.numArgs x = 2 := by
  unfold Store.argsOk at h
  split at h
  · assumption
  · exact absurd h (by simp)

/-- What a successful constructor did. -/
theorem newModel_ok {s s1 : Store P} {k : Kind} {a m : Nat} (h : s.newModel c k a = .ok (m, s1)) :
    ∃ x, s.pdfAt a = .ok x ∧
      ((k = .analytic ∧ m = s.length ∧ s1 = s ++ [some (.model k a)]) ∨
        (k ≠ .analytic ∧ ∃ y, c.copy x = .ok y ∧ m = s.length + 1 ∧
          s1 = s ++ [some (.pdf y), some (.model k s.length)])) := by
  simp only [Store.newModel, Outcome.bind_eq_ok] at h
  obtain ⟨x, hx, h⟩ := h
  refine ⟨x, hx, ?_⟩
  cases k with
  | analytic =>
    simp only [Outcome.bind_eq_ok, Outcome.pure_eq, Outcome.ok.injEq, Prod.mk.injEq] at h
    obtain ⟨_, _, rfl, rfl⟩ := h
    exact Or.inl ⟨rfl, rfl, rfl⟩
  | formulaSystem =>
    simp only [Outcome.bind_eq_ok, Outcome.pure_eq, Outcome.ok.injEq, Prod.mk.injEq] at h
    obtain ⟨y, hy, _, _, rfl, rfl⟩ := h
    exact Or.inr ⟨by simp, y, hy, rfl, rfl⟩
  | formulaMeasurement =>
    simp only [Outcome.bind_eq_ok, Outcome.pure_eq, Outcome.ok.injEq, Prod.mk.injEq] at h
    obtain ⟨y, hy, _, _, rfl, rfl⟩ := h
    exact Or.inr ⟨by simp, y, hy, rfl, rfl⟩

/-- What a successful step did: some objects are added at the end, or one object that the step names is
replaced. -/
theorem step_ok {s s' : Store P} {op : Op P} (h : s.step c op = .ok s') :
    (∃ t, s' = s ++ t) ∨ ∃ i o, op.Names i ∧ s' = s.set i o := by
  cases op with
  | newPdf x =>
    simp only [Store.step, Store.newPdf, Outcome.ok.injEq] at h
    exact Or.inl ⟨_, h.symm⟩
  | change a g =>
    simp only [Store.step, Store.change, Outcome.bind_eq_ok, Outcome.pure_eq, Outcome.ok.injEq] at h
    obtain ⟨x, _, y, _, rfl⟩ := h
    exact Or.inr ⟨a, _, rfl, rfl⟩
  | delete a =>
    simp only [Store.step, Store.delete] at h
    split at h
    · rw [Outcome.ok.injEq] at h
      exact Or.inr ⟨a, _, rfl, h.symm⟩
    · exact absurd h (by simp)
  | newModel k a =>
    simp only [Store.step, Outcome.bind_eq_ok, Outcome.pure_eq, Outcome.ok.injEq] at h
    obtain ⟨⟨m, s1⟩, h1, rfl⟩ := h
    obtain ⟨x, _, ⟨_, _, h2⟩ | ⟨_, y, _, _, h2⟩⟩ := newModel_ok h1
    · exact Or.inl ⟨_, h2⟩
    · exact Or.inl ⟨_, h2⟩
  | pdfSet m a =>
    simp only [Store.step, Store.pdfSet, Outcome.bind_eq_ok, Outcome.pure_eq, Outcome.ok.injEq] at h
    obtain ⟨⟨k, b⟩, _, x, _, _, _, rfl⟩ := h
    exact Or.inr ⟨m, _, rfl, rfl⟩

/-- An object that is not named keeps its contents. -/
theorem step_frame {s s' : Store P} {op : Op P} (h : s.step c op = .ok s') {i : Nat}
    (hi : i < s.length) (ho : ¬ op.Names i) : s'[i]? = s[i]? ∧ i < s'.length := by
  rcases step_ok h with ⟨t, rfl⟩ | ⟨j, o, hj, rfl⟩
  · exact ⟨List.getElem?_append_left hi, by rw [List.length_append]; omega⟩
  · have hne : j ≠ i := fun e => ho (e ▸ hj)
    exact ⟨List.getElem?_set_ne hne, by rwa [List.length_set]⟩

theorem run_frame {ops : List (Op P)} : ∀ {s s' : Store P}, Store.run c ops s = .ok s' →
    ∀ {i : Nat}, i < s.length → (∀ op ∈ ops, ¬ op.Names i) → s'[i]? = s[i]? := by
  induction ops with
  | nil =>
    intro s s' h i _ _
    simp only [Store.run, Outcome.ok.injEq] at h
    rw [h]
  | cons op ops ih =>
    intro s s' h i hi ho
    simp only [Store.run, Outcome.bind_eq_ok] at h
    obtain ⟨s1, h1, h2⟩ := h
    obtain ⟨e, hl⟩ := step_frame h1 hi (ho op (by simp))
    rw [ih h2 hl fun op' h' => ho op' (by simp [h']), e]

/-- No model points to a model. -/
def Sound (s : Store P) : Prop :=
  ∀ (m : Nat) (k : Kind) (a : Nat), s[m]? = some (some (.model k a)) →
    a < s.length ∧ ∀ (k' : Kind) (b : Nat), s[a]? ≠ some (some (.model k' b))

theorem sound_append {s t : Store P} (hs : Sound s)
    (ht : ∀ (i : Nat) k a, t[i]? = some (some (.model k a)) → a < s.length + t.length ∧
      ∀ k' b, (s ++ t)[a]? ≠ some (some (.model k' b))) : Sound (s ++ t) := by
  intro m k a h
  by_cases hm : m < s.length
  · rw [List.getElem?_append_left hm] at h
    obtain ⟨h1, h2⟩ := hs m k a h
    refine ⟨by rw [List.length_append]; omega, fun k' b => ?_⟩
    rw [List.getElem?_append_left h1]
    exact h2 k' b
  · rw [List.getElem?_append_right (by omega)] at h
    rw [List.length_append]
    exact ht _ k a h

/-- Replacing an object by a pdf or by nothing. -/
theorem sound_set {s : Store P} (hs : Sound s) (i : Nat) {o : Option (Obj P)}
    (ho : ∀ k a, o ≠ some (.model k a)) : Sound (s.set i o) := by
  intro m k a h
  have hm : i ≠ m := by
    rintro rfl
    have hl := lt_of_get h
    rw [List.length_set] at hl
    rw [List.getElem?_set_self hl] at h
    exact ho k a (Option.some.inj h)
  rw [List.getElem?_set_ne hm] at h
  obtain ⟨h1, h2⟩ := hs m k a h
  refine ⟨by rwa [List.length_set], fun k' b h' => ?_⟩
  by_cases hia : i = a
  · subst hia
    rw [List.getElem?_set_self h1] at h'
    exact ho k' b (Option.some.inj h')
  · rw [List.getElem?_set_ne hia] at h'
    exact h2 k' b h'

theorem sound_step {s s' : Store P} {op : Op P} (hs : Sound s) (h : s.step c op = .ok s') : Sound s' := by
  cases op with
  | newPdf x =>
    simp only [Store.step, Store.newPdf, Outcome.ok.injEq] at h
    subst h
    refine sound_append hs fun i k a hi => ?_
    rcases i with _ | i <;> simp at hi
  | change a g =>
    simp only [Store.step, Store.change, Outcome.bind_eq_ok, Outcome.pure_eq, Outcome.ok.injEq] at h
    obtain ⟨x, _, y, _, rfl⟩ := h
    exact sound_set hs a (by simp)
  | delete a =>
    simp only [Store.step, Store.delete] at h
    split at h
    · rw [Outcome.ok.injEq] at h
      subst h
      exact sound_set hs a (by simp)
    · exact absurd h (by simp)
  | newModel k a =>
    simp only [Store.step, Outcome.bind_eq_ok, Outcome.pure_eq, Outcome.ok.injEq] at h
    obtain ⟨⟨m, s1⟩, h1, rfl⟩ := h
    obtain ⟨x, hx, ⟨_, _, h2⟩ | ⟨_, y, _, _, h2⟩⟩ := newModel_ok h1
    · subst h2
      rw [pdfAt_eq_ok] at hx
      have hl := lt_of_get hx
      refine sound_append hs fun i k' a' hi => ?_
      rcases i with _ | i
      · simp only [List.getElem?_cons_zero, Option.some.injEq, Obj.model.injEq] at hi
        obtain ⟨rfl, rfl⟩ := hi
        refine ⟨by omega, fun k'' b => ?_⟩
        rw [List.getElem?_append_left hl, hx]
        simp
      · simp at hi
    · subst h2
      refine sound_append hs fun i k' a' hi => ?_
      rcases i with _ | _ | i
      · simp at hi
      · simp only [zero_add, List.getElem?_cons_succ, List.getElem?_cons_zero, Option.some.injEq,
          Obj.model.injEq] at hi
        obtain ⟨rfl, rfl⟩ := hi
        refine ⟨by simp, fun k'' b => ?_⟩
        rw [List.getElem?_append_right le_rfl]
        simp
      · simp at hi
  | pdfSet m a =>
    simp only [Store.step, Store.pdfSet, Outcome.bind_eq_ok, Outcome.pure_eq, Outcome.ok.injEq] at h
    obtain ⟨⟨k, b⟩, hm, x, hx, _, _, rfl⟩ := h
    rw [modelAt_eq_ok] at hm
    rw [pdfAt_eq_ok] at hx
    have hma : m ≠ a := by
      rintro rfl
      rw [hm] at hx
      simp at hx
    intro m' k' a' h
    by_cases hmm : m = m'
    · subst hmm
      rw [List.getElem?_set_self (lt_of_get hm)] at h
      simp only [Option.some.injEq, Obj.model.injEq] at h
      obtain ⟨rfl, rfl⟩ := h
      refine ⟨by rw [List.length_set]; exact lt_of_get hx, fun k'' b' h' => ?_⟩
      rw [List.getElem?_set_ne hma, hx] at h'
      simp at h'
    · rw [List.getElem?_set_ne hmm] at h
      obtain ⟨h1, h2⟩ := hs m' k' a' h
      refine ⟨by rwa [List.length_set], fun k'' b' h' => ?_⟩
      by_cases hma' : m = a'
      · subst hma'
        exact h2 k b hm
      · rw [List.getElem?_set_ne hma'] at h'
        exact h2 k'' b' h'

theorem sound_run {ops : List (Op P)} : ∀ {s s' : Store P}, Sound s → Store.run c ops s = .ok s' →
    Sound s' := by
  induction ops with
  | nil =>
    intro s s' hs h
    simp only [Store.run, Outcome.ok.injEq] at h
    rwa [← h]
  | cons op ops ih =>
    intro s s' hs h
    simp only [Store.run, Outcome.bind_eq_ok] at h
    obtain ⟨s1, h1, h2⟩ := h
    exact ih (sound_step hs h1) h2

theorem liveObjects_append (s t : Store P) :
    liveObjects (s ++ t) = liveObjects s + liveObjects t := by
  simp [liveObjects]

end BFL.FormulaModels
