import Verif.Lemmas.Uniform
import Mathlib.Data.Rat.Defs
import Mathlib.Algebra.Order.Field.Rat
import Mathlib.Tactic.NormNum

set_option linter.unusedSectionVars false

/-!
# Properties of the uniform density: C43
-/

namespace BFL.Props

open Spec

variable {K : Type} [Field K] [LinearOrder K] [IsStrictOrderedRing K]

/-- `f` was constructed from a centre and a width of positive dimension, or from a positive dimension, and then given any number
of new centres and widths; `c` and `w` are the ones given last. -/
def BuiltUniform (f : Uniform K) (c w : List K) : Prop :=
  (∃ c0 w0 f0 history, c0 ≠ [] ∧ Uniform.make c0 w0 = .ok f0 ∧ f0.setAll history = .ok f ∧
    ((c0, w0) :: history).getLast? = some (c, w)) ∨
  (∃ n history, 0 < n ∧ (Uniform.makeDim n : Uniform K).setAll history = .ok f ∧
    history.getLast? = some (c, w))

theorem setAll_state {history : List (List K × List K)} : ∀ {f0 f : Uniform K} {c w : List K},
    f0.setAll history = .ok f → 0 < f0.dim → history.getLast? = some (c, w) →
    c.length = w.length ∧ c.length = f0.dim ∧ f = ⟨c.length, (Uniform.lowerOf c w).map some,
      (Uniform.higherOf c w).map some, Uniform.heightOf w, f0.scratch⟩ := by
  induction history with
  | nil => intro f0 f c w _ _ h; simp at h
  | cons e rest ih =>
    intro f0 f c w h hd hl
    simp only [Uniform.setAll, Outcome.bind_eq_ok] at h
    obtain ⟨f1, h1, h2⟩ := h
    obtain ⟨h3, h4, h5⟩ := Uniform.uniformSet_eq_ok h1
    have h6 : f0.dim = e.1.length := by omega
    cases rest with
    | nil =>
      simp only [List.getLast?_singleton, Option.some.injEq] at hl
      simp only [Uniform.setAll, Outcome.ok.injEq] at h2
      subst hl
      subst h2
      exact ⟨h3, h6.symm, h5⟩
    | cons e' rest =>
      rw [List.getLast?_cons_cons] at hl
      obtain ⟨h7, h8, h9⟩ := ih h2 (by rw [h5]; simp only; omega) hl
      rw [h5] at h8 h9
      exact ⟨h7, by simp only at h8; omega, h9⟩

/-- All that matters about a uniform density is what it was given last. -/
theorem built_state {f : Uniform K} {c w : List K} (h : BuiltUniform f c w) :
    c.length = w.length ∧ f = ⟨c.length, (Uniform.lowerOf c w).map some,
      (Uniform.higherOf c w).map some, Uniform.heightOf w, c.length⟩ := by
  rcases h with ⟨c0, w0, f0, history, h0, h1, h2, h3⟩ | ⟨n, history, h1, h2, h3⟩
  · simp only [Uniform.make, Outcome.bind_eq_ok, cassert_eq_ok, Outcome.pure_eq,
      Outcome.ok.injEq] at h1
    obtain ⟨_, h4, h5⟩ := h1
    cases history with
    | nil =>
      simp only [List.getLast?_singleton, Option.some.injEq, Prod.mk.injEq] at h3
      simp only [Uniform.setAll, Outcome.ok.injEq] at h2
      obtain ⟨rfl, rfl⟩ := h3
      exact ⟨h4, by rw [← h2, ← h5]⟩
    | cons e rest =>
      rw [List.getLast?_cons_cons] at h3
      obtain ⟨h6, h7, h8⟩ := setAll_state h2 (by rw [← h5]; exact List.length_pos_iff.2 h0) h3
      refine ⟨h6, ?_⟩
      rw [h8, h7, ← h5]
  · obtain ⟨h4, h5, h6⟩ := setAll_state h2 h1 h3
    refine ⟨h4, ?_⟩
    rw [h6, h5]
    rfl

/-- **C43, density.** Whatever was set before, the density is one over the volume at every point of the
closed box given last, and zero outside of it. -/
theorem C43_density (f : Uniform K) (c w : List K) (hf : BuiltUniform f c w) (hw : ∀ a ∈ w, 0 < a)
    (x : List K) (hx : x.length = c.length) :
    (InBox c w x → f.probabilityGet x = .ok (1 / boxVolume w)) ∧
    (¬ InBox c w x → f.probabilityGet x = .ok 0) := by
  obtain ⟨h1, h2⟩ := built_state hf
  obtain ⟨b, hb, hb'⟩ := Uniform.insideLoop_ok x c w hx.le h1
  rw [h2]
  simp only [Uniform.probabilityGet]
  rw [hb, Uniform.heightOf_pos hw]
  constructor
  · intro h
    rw [hb'.2 h]
    simp only [Outcome.ok_bind, if_true, mkProb]
    rw [if_pos (div_nonneg zero_le_one (Uniform.boxVolume_pos hw).le)]
  · intro h
    cases b with
    | true => exact absurd (hb'.1 rfl) h
    | false => simp [mkProb]

/-- **C43, samples.** Every sample drawn has the right dimension and lies in the box given last. -/
theorem C43_samples (f : Uniform K) (c w : List K) (hf : BuiltUniform f c w) (hw : ∀ a ∈ w, 0 ≤ a)
    (us : List K) (hl : us.length = c.length) (hu : ∀ u ∈ us, 0 ≤ u ∧ u ≤ 1) :
    ∃ x, f.sampleOne .default us = .ok (some x) ∧ x.length = c.length ∧ InBox c w x := by
  obtain ⟨h1, h2⟩ := built_state hf
  refine ⟨Uniform.drawn c w us, ?_, Uniform.drawn_length c w us h1 hl, Uniform.drawn_inBox c w us hw hu⟩
  rw [h2]
  simp only [Uniform.sampleOne]
  rw [Uniform.drawLoop_ok c w us h1 hl]
  simp

/-- **C43, list of samples.** A list draw makes every sample as a single draw would. -/
theorem C43_list (f : Uniform K) (c w : List K) (hf : BuiltUniform f c w) (uss : List (List K))
    (hl : ∀ us ∈ uss, us.length = c.length) :
    ∃ xs, f.sampleList .default uss = .ok (some xs) ∧ xs.length = uss.length ∧
      ∀ (i : Nat) us, uss[i]? = some us → ∃ x, xs[i]? = some x ∧ f.sampleOne .default us = .ok (some x) := by
  obtain ⟨h1, h2⟩ := built_state hf
  have key : ∀ us ∈ uss, f.sampleOne .default us = .ok (some (Uniform.drawn c w us)) := by
    intro us hus
    rw [h2]
    simp only [Uniform.sampleOne]
    rw [Uniform.drawLoop_ok c w us h1 (hl us hus)]
    simp
  refine ⟨uss.map (Uniform.drawn c w), ?_, by simp, ?_⟩
  · simp only [Uniform.sampleList]
    rw [mapOutcome_eq_ok (g := Uniform.drawn c w)]
    · rfl
    · intro us hus
      rw [h2]
      simp only
      rw [Uniform.drawLoop_ok c w us h1 (hl us hus)]
      simp
  · intro i us hi
    exact ⟨_, by simp [hi], key us (List.mem_of_getElem? hi)⟩

/-- **C43, getters.** The centre and the width given last are returned. -/
theorem C43_getters (f : Uniform K) (c w : List K) (hf : BuiltUniform f c w) :
    f.centerGet = .ok c ∧ f.widthGet = .ok w := by
  obtain ⟨h1, h2⟩ := built_state hf
  rw [h2]
  constructor
  · simp only [Uniform.centerGet]
    rw [Uniform.readAll, Uniform.readAll]
    simp only [Outcome.ok_bind, Outcome.pure_eq]
    rw [Uniform.center_zip c w h1]
  · simp only [Uniform.widthGet]
    rw [Uniform.readAll, Uniform.readAll]
    simp only [Outcome.ok_bind, Outcome.pure_eq]
    rw [Uniform.width_zip c w h1]

/-- Other sampling methods are refused without touching the sample. -/
theorem C43_methods (f : Uniform K) (me : SampleMthd) (hme : me ≠ .default) (us : List K) :
    f.sampleOne me us = .ok none := by
  cases me <;> simp_all [Uniform.sampleOne]

/-- A rectangle of 4 by 1/2 around (1, 2), after another rectangle had been set. -/
def rectangle : Uniform ℚ :=
  ⟨2, [some (-1), some (7 / 4)], [some 3, some (9 / 4)], .ok (1 / 2), 2⟩

theorem rectangle_built : BuiltUniform rectangle [1, 2] [4, 1 / 2] :=
  .inl ⟨[0, 0], [1, 1], ⟨2, [some (-1 / 2), some (-1 / 2)], [some (1 / 2), some (1 / 2)], .ok 1, 2⟩,
    [([5, 5], [0, 1]), ([1, 2], [4, 1 / 2])], by decide, by decide +kernel, by decide +kernel, rfl⟩

theorem rectangle_built' : BuiltUniform rectangle [1, 2] [4, 1 / 2] :=
  .inr ⟨2, [([1, 2], [4, 1 / 2])], by decide, by decide +kernel, rfl⟩

example : rectangle.probabilityGet [3, 2] = .ok (1 / 2) ∧ rectangle.probabilityGet [3, 3] = .ok 0 := by
  have h := C43_density rectangle _ _ rectangle_built (by simp)
  have e : (1 / boxVolume [4, 1 / 2] : ℚ) = 1 / 2 := by decide +kernel
  constructor
  · rw [← e]
    refine (h [3, 2] rfl).1 ?_
    simp only [inBox_cons]
    exact ⟨by norm_num, by norm_num, inBox_nil _ _⟩
  · refine (h [3, 3] rfl).2 ?_
    simp only [inBox_cons]
    norm_num

example : ∃ x, rectangle.sampleOne .default [0, 1] = .ok (some x) ∧ x.length = 2 ∧
    InBox [1, 2] [4, 1 / 2] x :=
  C43_samples rectangle _ _ rectangle_built' (by simp) [0, 1] rfl (by simp)

example : ∃ xs, rectangle.sampleList .default [[0, 1], [1 / 2, 1 / 3]] = .ok (some xs) ∧ xs.length = 2 := by
  obtain ⟨xs, h, h', _⟩ := C43_list rectangle _ _ rectangle_built [[0, 1], [1 / 2, 1 / 3]] (by simp)
  exact ⟨xs, h, h'⟩

example : rectangle.centerGet = .ok [1, 2] ∧ rectangle.widthGet = .ok [4, 1 / 2] :=
  C43_getters rectangle _ _ rectangle_built

/-- **C43 fails: default construction.** A uniform density made without arguments and then given a
centre and a width reports its density, but every draw writes behind the end of the scratch
vector. -/
theorem C43_default_false (c w : List K) (hc : c ≠ []) (hl : c.length = w.length) (us : List K)
    (hu : us.length = c.length) :
    ∃ f, (Uniform.makeDim 0).uniformSet c w = .ok f ∧ f.centerGet = .ok c ∧
      f.sampleOne .default us = .ub := by
  have h0 : (Uniform.makeDim 0).uniformSet c w = .ok ⟨c.length, (Uniform.lowerOf c w).map some,
      (Uniform.higherOf c w).map some, Uniform.heightOf w, 0⟩ := by
    simp [Uniform.uniformSet, Uniform.makeDim, hl, cassert]
  refine ⟨_, h0, ?_, ?_⟩
  · simp only [Uniform.centerGet]
    rw [Uniform.readAll, Uniform.readAll]
    simp only [Outcome.ok_bind, Outcome.pure_eq]
    rw [Uniform.center_zip c w hl]
  · simp only [Uniform.sampleOne]
    rw [Uniform.drawLoop_ok c w us hl hu, Outcome.ok_bind, if_pos (List.length_pos_iff.2 hc)]

example : ∃ f, (Uniform.makeDim 0).uniformSet [(1 : ℚ)] [2] = .ok f ∧ f.centerGet = .ok [1] ∧
    f.sampleOne .default [1 / 2] = .ub :=
  C43_default_false [1] [2] (by simp) rfl [1 / 2] rfl

/-- **C43 fails: dimension of the argument.** A point with fewer coordinates than the box is given the
full density if its coordinates fit; a point with more coordinates is compared with memory
behind the vectors. -/
theorem C43_argument_false (f : Uniform K) (c w : List K) (hf : BuiltUniform f c w)
    (hw : ∀ a ∈ w, 0 < a) (x : List K) :
    (x.length < c.length → InBox c w x → f.probabilityGet x = .ok (1 / boxVolume w)) ∧
    (c.length < x.length → InBox c w (x.take c.length) → f.probabilityGet x = .ub) := by
  obtain ⟨h1, h2⟩ := built_state hf
  constructor
  · intro hx hin
    obtain ⟨b, hb, hb'⟩ := Uniform.insideLoop_ok x c w hx.le h1
    rw [h2]
    simp only [Uniform.probabilityGet]
    rw [hb, Uniform.heightOf_pos hw, hb'.2 hin]
    simp only [Outcome.ok_bind, if_true, mkProb]
    rw [if_pos (div_nonneg zero_le_one (Uniform.boxVolume_pos hw).le)]
  · intro hx hin
    rw [h2]
    simp only [Uniform.probabilityGet]
    rw [Uniform.insideLoop_long x c w h1 hx hin]
    rfl

example : rectangle.probabilityGet [] = .ok (1 / 2) ∧ rectangle.probabilityGet [1, 2, 7] = .ub := by
  have h := C43_argument_false rectangle _ _ rectangle_built (by simp)
  have e : (1 / boxVolume [4, 1 / 2] : ℚ) = 1 / 2 := by decide +kernel
  constructor
  · rw [← e]
    exact (h []).1 (by simp) (inBox_nil _ _)
  · refine (h [1, 2, 7]).2 (by simp) ?_
    simp only [List.length_cons, List.length_nil, List.take_succ_cons, inBox_cons]
    exact ⟨by norm_num, by norm_num, inBox_nil _ _⟩

/-- **C43, before any box is set.** The density and the getters of a uniform density made from a
positive dimension only have undefined behaviour. -/
theorem C43_blank (n : Nat) (x : List K) (hx : x ≠ []) (us : List K) (hu : n + 1 ≤ us.length) :
    (Uniform.makeDim (n + 1) : Uniform K).probabilityGet x = .ub ∧
    (Uniform.makeDim (n + 1) : Uniform K).sampleOne .default us = .ub ∧
    (Uniform.makeDim (n + 1) : Uniform K).centerGet = .ub := by
  refine ⟨?_, ?_, ?_⟩
  · cases x with
    | nil => exact absurd rfl hx
    | cons a x => simp [Uniform.probabilityGet, Uniform.makeDim, List.replicate_succ,
        Uniform.insideLoop, readMember]
  · cases us with
    | nil => simp at hu
    | cons u us => simp [Uniform.sampleOne, Uniform.makeDim, List.replicate_succ, Uniform.drawLoop,
        readMember]
  · simp [Uniform.centerGet, Uniform.makeDim, List.replicate_succ, mapOutcome, readMember]

example : (Uniform.makeDim 1 : Uniform ℚ).probabilityGet [1] = .ub :=
  (C43_blank 0 [1] (by simp) [0] (by simp)).1

/-- **C43, degenerate widths.** With a width of zero every point that passes the comparisons aborts the
program, because the density would be infinite. -/
theorem C43_zero_width (f : Uniform K) (c w : List K) (hf : BuiltUniform f c w) (h0 : (0 : K) ∈ w)
    (x : List K) (hx : x.length = c.length) (hin : InBox c w x) : f.probabilityGet x = .abort := by
  obtain ⟨h1, h2⟩ := built_state hf
  obtain ⟨b, hb, hb'⟩ := Uniform.insideLoop_ok x c w hx.le h1
  rw [h2]
  simp only [Uniform.probabilityGet]
  rw [hb, hb'.2 hin, Uniform.heightOf, if_pos h0]
  rfl

example : (⟨1, [some 1], [some 1], .abort, 1⟩ : Uniform ℚ).probabilityGet [1] = .abort :=
  C43_zero_width _ [1] [0] (.inl ⟨[1], [0], _, [], by simp, by decide +kernel, rfl, rfl⟩) (by simp) [1] rfl
    (by simp only [inBox_cons]; exact ⟨by norm_num, inBox_nil _ _⟩)

end BFL.Props
