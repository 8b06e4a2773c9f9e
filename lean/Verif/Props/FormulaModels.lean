import Verif.Lemmas.FormulaModels
import Verif.Props.Ginac

set_option linter.unusedSectionVars false

/-!
# Property C111: models and the pdfs they were made from
-/

namespace BFL.Props

open FormulaModels Ginac

section Objects

variable {P B : Type} {c : PdfClass P}

/-- **C111, general models.** Whatever a program does after it made a general analytic model with the pdf
at `a`, as long as it neither deletes the model nor gives it another pdf: every answer of the model is the
answer of the pdf at `a` as it is now; changes of the pdf are seen by the model. If the pdf was deleted,
using the model is undefined. -/
theorem C111_follows {s s1 s2 : Store P} {a m : Nat} (hm : s.newModel c .analytic a = .ok (m, s1))
    {ops : List (Op P)} (hrun : Store.run c ops s1 = .ok s2) (hops : ∀ op ∈ ops, ¬ op.Names m) :
    (∀ x, s2.pdfAt a = .ok x → ∀ q : P → Outcome B, s2.ask c m q = q x) ∧
      ((∀ x, s2.pdfAt a ≠ .ok x) → ∀ q : P → Outcome B, s2.ask c m q = .ub) := by
  obtain ⟨x, hx, ⟨_, rfl, rfl⟩ | ⟨h, _⟩⟩ := newModel_ok hm
  · have hget : s2[s.length]? = some (some (.model .analytic a)) := by
      rw [run_frame hrun (by simp) hops]
      simp
    have hat : s2.modelAt s.length = .ok (.analytic, a) := modelAt_eq_ok.2 hget
    refine ⟨fun y hy q => ?_, fun hno q => ?_⟩
    · simp [Store.ask, hat, hy, cassert]
    · have : s2.pdfAt a = .ub := (pdfAt_cases s2 a).resolve_left fun ⟨y, hy⟩ => hno y hy
      simp [Store.ask, hat, this]
  · exact absurd rfl h

/-- **C111, models for formulas.** A model for a pdf given by formulas has a pdf of its own, whose address
`own` is the answer of `SystemPdfGet` or `MeasurementPdfGet`: a copy of the given pdf as it was when the
model was made. Whatever the program does afterwards, also if it changes or deletes the pdf at `a`, as long
as it names neither the model nor `own`: the answers are those of the copy. -/
theorem C111_keeps {s s1 s2 : Store P} {k : Kind} (hk : k ≠ .analytic) {a m : Nat} {x : P}
    (hx : s.pdfAt a = .ok x) (hm : s.newModel c k a = .ok (m, s1)) :
    ∃ own y, s1.pdfGet m = .ok own ∧ c.copy x = .ok y ∧ own ≠ a ∧ s1.pdfAt own = .ok y ∧
      ∀ (ops : List (Op P)), Store.run c ops s1 = .ok s2 → (∀ op ∈ ops, ¬ op.Names m) →
        (∀ op ∈ ops, ¬ op.Names own) → (k = .formulaMeasurement → 1 < c.numArgs y) →
        ∀ q : P → Outcome B, s2.ask c m q = q y := by
  obtain ⟨x', hx', ⟨h, _⟩ | ⟨_, y, hy, rfl, rfl⟩⟩ := newModel_ok hm
  · exact absurd h hk
  · rw [hx, Outcome.ok.injEq] at hx'
    subst hx'
    have hal := lt_of_get (pdfAt_eq_ok.1 hx)
    have h1 : (s ++ [some (Obj.pdf y), some (Obj.model k s.length)] : Store P)[s.length]? =
        some (some (.pdf y)) := by simp
    have h2 : (s ++ [some (Obj.pdf y), some (Obj.model k s.length)] : Store P)[s.length + 1]? =
        some (some (.model k s.length)) := by
      rw [List.getElem?_append_right (by omega)]
      simp
    refine ⟨s.length, y, ?_, hy, by omega, pdfAt_eq_ok.2 h1, fun ops hrun hn ho hargs q => ?_⟩
    · simp [Store.pdfGet, modelAt_eq_ok.2 h2]
    · have hget := run_frame hrun (i := s.length + 1) (by simp) hn
      have hown := run_frame hrun (i := s.length) (by simp) ho
      rw [h2] at hget
      rw [h1] at hown
      simp only [Store.ask, modelAt_eq_ok.2 hget, Outcome.ok_bind, pdfAt_eq_ok.2 hown]
      rw [cassert_true hargs]
      rfl

/-- **C111.** The pdf of such a model can be changed at the address `SystemPdfGet` or `MeasurementPdfGet`
answers, and this is seen by the model. -/
theorem C111_own {s s1 s2 : Store P} {k : Kind} (hk : k ≠ .analytic) {a m : Nat}
    (hm : s.newModel c k a = .ok (m, s1)) {own : Nat} (hown : s1.pdfGet m = .ok own)
    {g : P → Outcome P} (hg : s1.change own g = .ok s2) :
    ∃ y z, s1.pdfAt own = .ok y ∧ g y = .ok z ∧ ((k = .formulaMeasurement → 1 < c.numArgs z) →
      ∀ q : P → Outcome B, s2.ask c m q = q z) := by
  obtain ⟨x', hx', ⟨h, _⟩ | ⟨_, y, hy, rfl, rfl⟩⟩ := newModel_ok hm
  · exact absurd h hk
  · have h1 : (s ++ [some (Obj.pdf y), some (Obj.model k s.length)] : Store P)[s.length]? =
        some (some (.pdf y)) := by simp
    have h2 : (s ++ [some (Obj.pdf y), some (Obj.model k s.length)] : Store P)[s.length + 1]? =
        some (some (.model k s.length)) := by
      rw [List.getElem?_append_right (by omega)]
      simp
    simp only [Store.pdfGet, modelAt_eq_ok.2 h2, Outcome.ok_bind, Outcome.pure_eq,
      Outcome.ok.injEq] at hown
    subst hown
    simp only [Store.change, pdfAt_eq_ok.2 h1, Outcome.ok_bind, Outcome.bind_eq_ok, Outcome.pure_eq,
      Outcome.ok.injEq] at hg
    obtain ⟨z, hz, rfl⟩ := hg
    refine ⟨y, z, pdfAt_eq_ok.2 h1, hz, fun hargs q => ?_⟩
    have e1 : (s ++ [some (Obj.pdf y), some (Obj.model k s.length)] : Store P).set s.length
        (some (.pdf z)) = s ++ [some (.pdf z), some (.model k s.length)] := by
      rw [List.set_append_right _ _ le_rfl]
      simp
    rw [e1]
    have h3 : (s ++ [some (Obj.pdf z), some (Obj.model k s.length)] : Store P)[s.length]? =
        some (some (.pdf z)) := by simp
    have h4 : (s ++ [some (Obj.pdf z), some (Obj.model k s.length)] : Store P)[s.length + 1]? =
        some (some (.model k s.length)) := by
      rw [List.getElem?_append_right (by omega)]
      simp
    simp only [Store.ask, modelAt_eq_ok.2 h4, Outcome.ok_bind, pdfAt_eq_ok.2 h3]
    rw [cassert_true hargs]
    rfl

/-- **C111 is false for the formulas.** Asking a model for its formula, state symbols, input symbols or
noisy inputs is undefined behaviour, in every program and for every model: the pdf is taken for a model.
(With room for one call only the stack overflows before that.) -/
theorem C111_formulas_undefined {s : Store P} {ops : List (Op P)} (hrun : Store.run c ops [] = .ok s)
    {m : Nat} {k : Kind} {a : Nat} (hm : s.modelAt m = .ok (k, a)) {depth : Nat} (hd : 2 ≤ depth) :
    s.formulaGet B depth m = .ub := by
  have hs : Sound s := sound_run (fun m k a h => by simp at h) hrun
  obtain ⟨_, h2⟩ := hs m k a (modelAt_eq_ok.1 hm)
  obtain ⟨d, rfl⟩ : ∃ d, depth = d + 2 := ⟨depth - 2, by omega⟩
  have hub : s.modelAt a = .ub := by
    unfold Store.modelAt
    split
    · rename_i k' b h
      exact absurd h (h2 k' b)
    · rfl
  simp [Store.formulaGet, hm, hub]

/-- **C111, memory.** Making and deleting a general model leaves as many objects as before. Making and
deleting a model for formulas leaves one more: its pdf is never deleted. -/
theorem C111_leak {s s1 s2 : Store P} {k : Kind} {a m : Nat} (hm : s.newModel c k a = .ok (m, s1))
    (hd : s1.delete m = .ok s2) :
    liveObjects s2 = liveObjects s + if k = .analytic then 0 else 1 := by
  obtain ⟨x', hx', ⟨rfl, rfl, rfl⟩ | ⟨hk, y, hy, rfl, rfl⟩⟩ := newModel_ok hm
  · rw [Store.delete] at hd
    split at hd
    · rw [Outcome.ok.injEq] at hd
      subst hd
      rw [List.set_append_right _ _ le_rfl, liveObjects_append]
      simp [liveObjects]
    · exact absurd hd (by simp)
  · rw [Store.delete] at hd
    split at hd
    · rw [Outcome.ok.injEq] at hd
      subst hd
      rw [List.set_append_right _ _ (by omega), liveObjects_append]
      simp [liveObjects, hk]
    · exact absurd hd (by simp)

end Objects

/-! ## Pdfs given by formulas -/

variable {f p n d : Nat}

/-- The pdfs given by formulas as a class of pdfs. -/
noncomputable def formulaPdfs (f p n d : Nat) : PdfClass (Pdf f p n d) where
  numArgs g := g.numArgs
  copy g := g.copy

/-- **C111 for pdfs given by formulas.** The pdf may have been changed before. A model for formulas made
from it predicts, and linearises, as the pdf did at that time, whatever happens to the pdf afterwards. -/
theorem C111_formula_model (be : Backend) {func : Fin f → Expr} {us : Fin p → Nat} {xs : Fin n → Nat}
    {mu : Fin d → ℝ} {sigma : Matrix (Fin d) (Fin d) ℝ} {cond : List Nat} {g0 g : Pdf f p n d}
    {hist : List (Pdf.Op d)}
    (h0 : Pdf.makeInputNoise func us xs mu sigma cond = .ok g0 ∨
      g0 = Pdf.makeOutputNoise func us xs mu sigma)
    (hg : Pdf.run hist g0 = .ok g)
    {s : Store (Pdf f p n d)} {a : Nat} (ha : s.pdfAt a = .ok g) {k : Kind} (hk : k ≠ .analytic) :
    ∃ m s1 own, s.newModel (formulaPdfs f p n d) k a = .ok (m, s1) ∧ s1.pdfGet m = .ok own ∧ own ≠ a ∧
      ∀ (ops : List (Op (Pdf f p n d))) s2, Store.run (formulaPdfs f p n d) ops s1 = .ok s2 →
        (∀ op ∈ ops, ¬ op.Names m) → (∀ op ∈ ops, ¬ op.Names own) → ∀ u x,
          s2.ask (formulaPdfs f p n d) m (fun h => h.expectedValue u x) = g.expectedValue u x ∧
          s2.ask (formulaPdfs f p n d) m (fun h => h.dfGet 0 u x) = g.dfGet 0 u x ∧
          s2.ask (formulaPdfs f p n d) m (fun h => h.covariance be u x) = g.covariance be u x := by
  have hsame : (g.cond.length ≠ 0 → d = g.cond.length) ∧ g.dcond = g.cond.map (Pdf.derive g.func) ∧
      g.dx = fun i => Pdf.derive g.func (g.x i) := by
    rcases h0 with h0 | rfl
    · obtain ⟨h1, h2, h3, h4, h5, h6, h7⟩ := Pdf.same_input h0 hg
      exact ⟨fun _ => by rw [h2]; exact h7, by rw [h5, h1, h2], by rw [h6, h1, h4]⟩
    · obtain ⟨h1, h2, h3, h4, h5, h6⟩ := Pdf.same_output hg
      exact ⟨fun h => absurd (by rw [h2]; rfl) h, by rw [h5, h2]; rfl, by rw [h6, h1, h4]⟩
  obtain ⟨e1, e2, e3⟩ := hsame
  have hcopy : g.copy = .ok { g with numArgs := 2 } := by
    rw [Pdf.copy, cassert_true e1]
    show Outcome.ok _ = Outcome.ok _
    rw [← e2, ← e3]
  obtain ⟨m, s1, hm⟩ : ∃ m s1, s.newModel (formulaPdfs f p n d) k a = .ok (m, s1) := by
    cases k with
    | analytic => exact absurd rfl hk
    | formulaSystem =>
      refine ⟨s.length + 1,
        s ++ [some (.pdf { g with numArgs := 2 }), some (.model .formulaSystem s.length)], ?_⟩
      simp only [Store.newModel, ha, Outcome.ok_bind, formulaPdfs, hcopy, Store.argsOk, or_true, if_true]
      rfl
    | formulaMeasurement =>
      refine ⟨s.length + 1,
        s ++ [some (.pdf { g with numArgs := 2 }), some (.model .formulaMeasurement s.length)], ?_⟩
      simp only [Store.newModel, ha, Outcome.ok_bind, formulaPdfs, hcopy, Store.argsOk, or_true, if_true]
      rfl
  have key := fun (B : Type) (s2 : Store (Pdf f p n d)) => C111_keeps (B := B) (s2 := s2) hk ha hm
  obtain ⟨own, y, hown, -, hne, -, -⟩ := key Unit []
  refine ⟨m, s1, own, hm, hown, hne, fun ops s2 hrun hn ho u x => ?_⟩
  have fin : ∀ (B : Type) (q : Pdf f p n d → Outcome B),
      s2.ask (formulaPdfs f p n d) m q = q { g with numArgs := 2 } := by
    intro B q
    obtain ⟨own', y', h1, h2, -, -, h5⟩ := key B s2
    rw [hown, Outcome.ok.injEq] at h1
    subst h1
    have h2' : g.copy = .ok y' := h2
    rw [hcopy, Outcome.ok.injEq] at h2'
    subst h2'
    exact h5 ops hrun hn ho (fun _ => by show 1 < 2; omega) q
  exact ⟨fin _ _, fin _ _, fin _ _⟩

/-! ## Concrete cases -/

namespace FormulaModelFixture

/-- Pdfs with two conditional arguments that hold one number. -/
def numbers : PdfClass Nat where
  numArgs _ := 2
  copy x := .ok x

/-- A program makes a pdf, a general model (address 1) and a model for formulas (addresses 2 and 3), and
changes the pdf from 5 to 7. -/
def program : List (Op Nat) :=
  [.newPdf 5, .newModel .analytic 0, .newModel .formulaSystem 0, .change 0 fun _ => .ok 7]

def memory : Store Nat :=
  [some (.pdf 7), some (.model .analytic 0), some (.pdf 5), some (.model .formulaSystem 2)]

theorem program_run : Store.run numbers program [] = .ok memory := rfl

end FormulaModelFixture

open FormulaModelFixture in
/-- The general model answers 7, the model for formulas 5 (`C111_follows`, `C111_keeps`). Its formula cannot
be asked for (`C111_formulas_undefined`). -/
example : memory.ask numbers 1 (fun x => .ok x) = .ok 7 ∧ memory.ask numbers 3 (fun x => .ok x) = .ok 5 ∧
    memory.formulaGet Nat 1000 3 = .ub :=
  ⟨rfl, rfl, C111_formulas_undefined program_run (k := .formulaSystem) (a := 2) rfl (by norm_num)⟩

open FormulaModelFixture in
/-- `C111_own`: the pdf of the second model is at address 2. -/
example : memory.pdfGet 3 = .ok 2 ∧
    ∃ s, memory.change 2 (fun x => .ok (x + 1)) = .ok s ∧ s.ask numbers 3 (fun x => .ok x) = .ok 6 :=
  ⟨rfl, _, rfl, rfl⟩

open FormulaModelFixture in
/-- `C111_leak`: after deleting both models and the pdf of the program, one object is left. -/
example : ∃ s, Store.run numbers (program ++ [.delete 1, .delete 3, .delete 0]) [] = .ok s ∧
    liveObjects s = 1 := ⟨_, rfl, rfl⟩

open FormulaModelFixture in
/-- `C111_follows`, second part: the pdf was deleted. -/
example : ∃ s, memory.delete 0 = .ok s ∧ s.ask numbers 1 (fun x => .ok x) = .ub ∧
    s.ask numbers 3 (fun x => .ok x) = .ok 5 := ⟨_, rfl, rfl, rfl⟩

/-- A memory with one pdf. -/
def FormulaModelFixture.single (g : Pdf f p n d) : Store (Pdf f p n d) := [some (.pdf g)]

open FormulaModelFixture in
/-- `C111_formula_model` for a pdf with noise on its inputs. -/
example : ∃ g : Pdf 1 2 1 2, Pdf.makeInputNoise sumFunc ![0, 1] ![2] ![0, 0] 1 [0, 1] = .ok g ∧
    ∃ m s1 own, (single g).newModel (formulaPdfs 1 2 1 2) .formulaMeasurement 0 =
        .ok (m, s1) ∧ s1.pdfGet m = .ok own ∧
      ∀ s2, s1.change 0 (fun g => .ok (g.muSet ![3, 4])) = .ok s2 → ∀ u x,
        s2.ask (formulaPdfs 1 2 1 2) m (fun h => h.expectedValue u x) = g.expectedValue u x := by
  obtain ⟨g, hg⟩ : ∃ g : Pdf 1 2 1 2, Pdf.makeInputNoise sumFunc ![0, 1] ![2] ![0, 0] 1 [0, 1] = .ok g :=
    ⟨_, rfl⟩
  refine ⟨g, hg, ?_⟩
  obtain ⟨m, s1, own, h1, h2, h3, h4⟩ := C111_formula_model (f := 1) (p := 2) (n := 1) (d := 2) .boost
    (hist := []) (Or.inl hg) rfl
    (s := single g) (a := 0) rfl (k := .formulaMeasurement) (by decide)
  refine ⟨m, s1, own, h1, h2, fun s2 hs u x => (h4 [.change 0 fun g => .ok (g.muSet ![3, 4])]
    s2 ?_ ?_ ?_ u x).1⟩
  · simp only [Store.run, Store.step, hs, Outcome.ok_bind]
  · intro op hop
    simp only [List.mem_singleton] at hop
    subst hop
    intro h
    obtain ⟨_, _, ⟨hk, _⟩ | ⟨_, _, _, rfl, _⟩⟩ := newModel_ok h1
    · exact absurd hk (by decide)
    · exact absurd h (by simp [Op.Names])
  · intro op hop
    simp only [List.mem_singleton] at hop
    subst hop
    exact fun h => h3 h.symm

end BFL.Props
