import Verif.Lemmas.ScriptOperators
import Mathlib.Algebra.Order.Field.Rat

/-!
# C89: expressions of scripts

What a script computes with vectors, matrices, symmetric matrices and numbers is what the expression
says on paper, whatever back end the library was built for. Three operators of the C++ classes cannot be
reached from scripts.
-/

set_option linter.unusedSectionVars false

namespace BFL.Props

open BFL BFL.Spec

variable {K : Type} [Field K] [LinearOrder K] [IsStrictOrderedRing K]

/-- C89: a value that an expression gives is the one it has on paper, and has the type that was found
when the script was loaded. Missing from the claim: some expressions that C++ programs can write are
refused, `C89_missing`. -/
theorem C89_contract_partial (be : Backend) (prec : K) (junk : Nat → Nat → K) (env : List (SVal K)) (e : SExpr K)
    (v : SVal K) (h : e.eval be prec junk typekitOps env = .ok v) :
    Means be env e v ∧ e.typeOf typekitOps (env.map SVal.ty) = some v.ty := by
  induction e generalizing v with
  | lit x =>
    obtain rfl : SVal.num x = v := by simpa [SExpr.eval] using h
    exact ⟨.lit x, rfl⟩
  | var i =>
    simp only [SExpr.eval] at h
    cases hi : env[i]? with
    | none => rw [hi] at h; simp at h
    | some w =>
      rw [hi] at h
      obtain rfl : w = v := by simpa using h
      exact ⟨.var i _ hi, by simp [SExpr.typeOf, hi]⟩
  | bin s l r ihl ihr =>
    simp only [SExpr.eval] at h
    obtain ⟨a, ha, h⟩ := Outcome.bind_eq_ok.1 h
    obtain ⟨b, hb, h⟩ := Outcome.bind_eq_ok.1 h
    obtain ⟨ma, ta⟩ := ihl a ha
    obtain ⟨mb, tb⟩ := ihr b hb
    cases hf : resolve typekitOps s a.ty b.ty with
    | none => rw [hf] at h; simp at h
    | some f =>
      rw [hf] at h
      obtain ⟨g1, g2⟩ := good_of_resolve be prec junk hf
      by_cases hal : Allowed be s a b
      · obtain ⟨c, e1, e2, e3⟩ := g1 hal
        obtain rfl : c = v := by
          have := e1.symm.trans h
          simpa using this
        obtain ⟨n1, n2⟩ := resolve_not_truth hf
        exact ⟨.bin s l r a b c ma mb n1 n2 hal e2, by simp [SExpr.typeOf, ta, tb, hf, e3]⟩
      · exact absurd h (g2 hal v)

/-- C89: an expression that was accepted when the script was loaded gives a value of the type found then,
unless some part of it combines objects whose sizes do not fit or divides by zero. -/
theorem C89_defined (be : Backend) (prec : K) (junk : Nat → Nat → K) (env : List (SVal K)) (e : SExpr K)
    (t : STy) (h : e.typeOf typekitOps (env.map SVal.ty) = some t) :
    (∃ v, e.eval be prec junk typekitOps env = .ok v ∧ v.ty = t) ∨
    ∃ s l r a b, Within (.bin s l r) e ∧ l.eval be prec junk typekitOps env = .ok a ∧
      r.eval be prec junk typekitOps env = .ok b ∧ ¬ Allowed be s a b := by
  induction e generalizing t with
  | lit x =>
    obtain rfl : STy.num = t := by simpa [SExpr.typeOf] using h
    exact .inl ⟨.num x, rfl, rfl⟩
  | var i =>
    simp only [SExpr.typeOf, List.getElem?_map, Option.map_eq_some_iff] at h
    obtain ⟨v, hv, rfl⟩ := h
    exact .inl ⟨v, by simp [SExpr.eval, hv], rfl⟩
  | bin s l r ihl ihr =>
    simp only [SExpr.typeOf] at h
    cases hl : l.typeOf typekitOps (env.map SVal.ty) with
    | none => rw [hl] at h; simp at h
    | some tl =>
      cases hr : r.typeOf typekitOps (env.map SVal.ty) with
      | none => rw [hl, hr] at h; simp at h
      | some tr =>
        rw [hl, hr] at h
        obtain ⟨f, hf, rfl⟩ := Option.map_eq_some_iff.1 h
        rcases ihl tl hl with ⟨a, ha, rfl⟩ | ⟨s', l', r', a, b, hw, x1, x2, x3⟩
        · rcases ihr tr hr with ⟨b, hb, rfl⟩ | ⟨s', l', r', a, b, hw, x1, x2, x3⟩
          · obtain ⟨g1, -⟩ := good_of_resolve be prec junk hf
            by_cases hal : Allowed be s a b
            · obtain ⟨c, e1, -, e3⟩ := g1 hal
              exact .inl ⟨c, by simp [SExpr.eval, ha, hb, hf, e1], e3⟩
            · exact .inr ⟨s, l, r, a, b, .self _, ha, hb, hal⟩
          · exact .inr ⟨s', l', r', a, b, .right _ _ _ _ hw, x1, x2, x3⟩
        · exact .inr ⟨s', l', r', a, b, .left _ _ _ _ hw, x1, x2, x3⟩

/-- C89: an operation whose sizes do not fit, or a division by zero, gives no value. -/
theorem C89_misfit (be : Backend) (prec : K) (junk : Nat → Nat → K) (env : List (SVal K)) (s : OpSym)
    (l r : SExpr K) (a b : SVal K) (ha : l.eval be prec junk typekitOps env = .ok a)
    (hb : r.eval be prec junk typekitOps env = .ok b) (h : ¬ Allowed be s a b) (v : SVal K) :
    (SExpr.bin s l r).eval be prec junk typekitOps env ≠ .ok v := by
  simp only [SExpr.eval, ha, hb, Outcome.ok_bind]
  cases hf : resolve typekitOps s a.ty b.ty with
  | none => simp
  | some f => exact (good_of_resolve be prec junk hf).2 h v

/-- C89: the operators of the C++ classes that a script cannot reach are exactly the sum and the difference
of a symmetric matrix and a matrix, and the product of two symmetric matrices; and scripts have no
operators that the classes do not have. -/
theorem C89_missing (s : OpSym) (l r : STy) :
    ((declared s l r = true ∧ resolve typekitOps s l r = none) ↔
      (s = .plus ∧ l = .sym ∧ r = .mat) ∨ (s = .minus ∧ l = .sym ∧ r = .mat) ∨
      (s = .times ∧ l = .sym ∧ r = .sym)) ∧
    (resolve typekitOps s l r ≠ none → declared s l r = true) := by
  cases s <;> cases l <;> cases r <;> decide

/-- C89: the functors for the sum and the difference of a symmetric matrix and a matrix are registered as
`*`. That `*` still multiplies is owed to the order: there is an order of the same registrations in which
`S * M` is the sum for all matrices of one size, and one in which it is the difference. -/
theorem C89_order (subtract : Bool) : ∃ ops : List (OpSym × OpFn), ops.Perm typekitOps ∧
    ∀ (be : Backend) (prec : K) (junk : Nat → Nat → K) (S : SMat K) (M : WMat K), S.n = M.rows → S.n = M.cols →
      ∃ m, (SExpr.bin .times (.var 0) (.var 1)).eval be prec junk ops [.sym S, .mat M] = .ok (.mat m) ∧
        ∀ i < S.n, ∀ j < S.n, m.entry i j =
          if subtract then S.view be i j - M.entry i j else S.view be i j + M.entry i j := by
  cases subtract
  · refine ⟨(.times, .addSmM) :: typekitOps.erase (.times, .addSmM), by decide, ?_⟩
    intro be prec junk S M h1 h2
    refine ⟨⟨S.n, S.n, fun i j => S.view be i j + M.entry i j⟩, ?_, fun _ _ _ _ => rfl⟩
    have hr : resolve ((.times, .addSmM) :: typekitOps.erase (.times, .addSmM)) .times .sym .mat = some .addSmM := by
      decide
    have e : ((SMat.toMat be S).arith .add M) = .ok ⟨S.n, S.n, fun i j => S.view be i j + M.entry i j⟩ :=
      if_pos ⟨h1, h2⟩
    simp [SExpr.eval, SVal.ty, hr, OpFn.apply, e]
  · refine ⟨(.times, .subtractSmM) :: typekitOps.erase (.times, .subtractSmM), by decide, ?_⟩
    intro be prec junk S M h1 h2
    refine ⟨⟨S.n, S.n, fun i j => S.view be i j - M.entry i j⟩, ?_, fun _ _ _ _ => rfl⟩
    have hr : resolve ((.times, .subtractSmM) :: typekitOps.erase (.times, .subtractSmM)) .times .sym .mat =
        some .subtractSmM := by
      decide
    have e : ((SMat.toMat be S).arith .sub M) = .ok ⟨S.n, S.n, fun i j => S.view be i j - M.entry i j⟩ :=
      if_pos ⟨h1, h2⟩
    simp [SExpr.eval, SVal.ty, hr, OpFn.apply, e]

/-- C89: an expression has at most one value on paper. -/
theorem C89_unique (be : Backend) (env : List (SVal K)) (e : SExpr K) (v w : SVal K) (hv : Means be env e v)
    (hw : Means be env e w) : SameObject be v w := by
  induction hv generalizing w with
  | lit x =>
    cases hw
    exact .self _
  | var i v h =>
    cases hw with
    | var _ _ h' =>
      obtain rfl : v = w := Option.some.inj (h.symm.trans h')
      exact .self _
  | bin s l r a b c _ _ na nb hal hans ihl ihr =>
    cases hw with
    | bin _ _ _ a' b' _ ma' mb' _ _ _ hans' => exact answers_unique (ihl _ ma') (ihr _ mb') hal hans hans' na nb

/-! ## A concrete case -/

section example_case

/-- `S (x + y) 2 == z` with a symmetric 2×2 matrix and columns. -/
def scriptExpr : SExpr ℚ :=
  .bin .equals (.bin .times (.bin .times (.var 0) (.bin .plus (.var 1) (.var 2))) (.lit 2)) (.var 3)

/-- S = ((1, 2), (2, 5)), x = (1, 0), y = (0, 1), z = (6, 14). -/
def scriptEnv : List (SVal ℚ) :=
  [.sym ⟨2, fun i j => if i = 0 ∧ j = 0 then 1 else if i = 1 ∧ j = 1 then 5 else 2⟩,
   .cv ⟨2, fun i => if i = 0 then 1 else 0⟩, .cv ⟨2, fun i => if i = 0 then 0 else 1⟩,
   .cv ⟨2, fun i => if i = 0 then 6 else 14⟩]

/-- The answer to the comparison, if there is one. -/
def truthOf : Outcome (SVal ℚ) → Option Bool
  | .ok (.truth b) => some b
  | _ => none

example : scriptExpr.typeOf typekitOps (scriptEnv.map SVal.ty) = some .truth := by decide +kernel

example : truthOf (scriptExpr.eval .boost 0 (fun _ _ => 7) typekitOps scriptEnv) = some true ∧
    truthOf (scriptExpr.eval .eigen 0 (fun _ _ => 7) typekitOps scriptEnv) = some true := by decide +kernel

/-- The row of a column and the number of a row and a column. -/
example : truthOf ((SExpr.bin .equals (.bin .times (.bin .times (.var 0) (.var 1)) (.var 0))
      (.bin .times (.var 0) (.bin .times (.var 1) (.var 0)))).eval .boost 0 (fun _ _ => 7) typekitOps
    [.cv ⟨2, fun i => (i : ℚ) + 1⟩, .rv ⟨2, fun i => 3 - (i : ℚ)⟩]) = some true := by decide +kernel

/-- Columns of different lengths do not fit. -/
example : ¬ Allowed (K := ℚ) .boost .plus (.cv ⟨2, fun _ => 1⟩) (.cv ⟨3, fun _ => 1⟩) := by
  simp [Allowed, tableOf]

/-- A symmetric matrix plus a matrix is refused. -/
example : (SExpr.bin .plus (.var 0) (.var 1) : SExpr ℚ).typeOf typekitOps [.sym, .mat] = none := by decide +kernel

end example_case

end BFL.Props
