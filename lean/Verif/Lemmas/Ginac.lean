import Verif.Spec.Ginac
import Verif.Lemmas.Linear
import Mathlib.Analysis.Calculus.FDeriv.Mul
import Mathlib.Analysis.Calculus.FDeriv.Add
import Mathlib.Analysis.Calculus.FDeriv.Pi
import Mathlib.Analysis.Calculus.Deriv.Inv
import Mathlib.Analysis.SpecialFunctions.Trigonometric.Deriv
import Mathlib.Analysis.SpecialFunctions.ExpDeriv

/-! # Lemmas about pdfs given by formulas -/

set_option linter.unusedSectionVars false

namespace BFL

open Matrix Filter Topology

namespace Ginac

open Spec

theorem collect_eq_ok {k : Nat} {α : Type} {g : Fin k → Outcome α} {v : Fin k → α} :
    collect g = .ok v ↔ ∀ i, g i = .ok (v i) := by
  induction k with
  | zero => simp only [collect, Outcome.ok.injEq]; exact ⟨fun _ i => i.elim0, fun _ => funext fun i => i.elim0⟩
  | succ k ih =>
    simp only [collect, Outcome.bind_eq_ok, Outcome.pure_eq, Outcome.ok.injEq]
    constructor
    · rintro ⟨a, ha, as, has, rfl⟩ i
      refine Fin.cases ?_ (fun j => ?_) i
      · simpa using ha
      · simpa using ih.1 has j
    · intro h
      exact ⟨v 0, h 0, fun i => v i.succ, ih.2 fun i => h i.succ, Fin.cons_self_tail v⟩

/-- The outcome of an evaluation as a value. -/
theorem evalf_subs_foldl (l : List (Nat × ℝ)) (e : Expr) (y : ℝ) (base : Nat → Option ℝ) :
    value base (l.foldl (fun e q => e.subs q.1 q.2) e) = some y ↔
      value (fun t => (l.lookup t).or (base t)) e = some y := by
  have key : ∀ (e : Expr) (s : Nat) (v : ℝ) (base : Nat → Option ℝ),
      value base (e.subs s v) = value (fun t => if t = s then some v else base t) e := by
    intro e s v base
    induction e with
    | num c => rfl
    | sym t => by_cases h : t = s <;> simp [Expr.subs, value, h]
    | add a b ha hb => simp only [Expr.subs, value, ha, hb]
    | mul a b ha hb => simp only [Expr.subs, value, ha, hb]
    | inv a ha => simp only [Expr.subs, value, ha]
    | sin a ha => simp only [Expr.subs, value, ha]
    | cos a ha => simp only [Expr.subs, value, ha]
    | exp a ha => simp only [Expr.subs, value, ha]
  induction l generalizing e with
  | nil => simp
  | cons q l ih =>
    rw [List.foldl_cons]
    refine (ih _).trans ?_
    rw [key]
    have : (fun t => if t = q.1 then some q.2 else (l.lookup t).or (base t)) =
        fun t => (List.lookup t (q :: l)).or (base t) := by
      funext t
      by_cases h : t = q.1
      · subst h; simp [List.lookup]
      · have h' : (t == q.1) = false := by simpa using h
        simp [List.lookup, h, h']
    rw [this]

theorem evalf_eq_ok (e : Expr) (y : ℝ) : e.evalf = .ok y ↔ value (fun _ => none) e = some y := by
  induction e generalizing y with
  | num c => simp [Expr.evalf, value]
  | sym t => simp [Expr.evalf, value]
  | add a b ha hb =>
    simp only [Expr.evalf, value, Outcome.bind_eq_ok, ha, hb, Option.bind_eq_some_iff,
      Option.map_eq_some_iff, Outcome.pure_eq, Outcome.ok.injEq]
  | mul a b ha hb =>
    simp only [Expr.evalf, value, Outcome.bind_eq_ok, ha, hb, Option.bind_eq_some_iff,
      Option.map_eq_some_iff, Outcome.pure_eq, Outcome.ok.injEq]
  | inv a ha =>
    simp only [Expr.evalf, value, Outcome.bind_eq_ok, ha, Option.bind_eq_some_iff]
    refine exists_congr fun v => and_congr_right fun _ => ?_
    unfold Expr.recip
    by_cases h : v = 0 <;> simp [h]
  | sin a ha =>
    simp only [Expr.evalf, value, Outcome.bind_eq_ok, ha,
      Option.map_eq_some_iff, Outcome.pure_eq, Outcome.ok.injEq]
  | cos a ha =>
    simp only [Expr.evalf, value, Outcome.bind_eq_ok, ha,
      Option.map_eq_some_iff, Outcome.pure_eq, Outcome.ok.injEq]
  | exp a ha =>
    simp only [Expr.evalf, value, Outcome.bind_eq_ok, ha,
      Option.map_eq_some_iff, Outcome.pure_eq, Outcome.ok.injEq]

/-- The value of the first symbol of the list that is `t`. -/
def look {k : Nat} (s : Fin k → Nat) (v : Fin k → ℝ) (t : Nat) : Option ℝ :=
  ((List.finRange k).map fun j => (s j, v j)).lookup t

/-- The values of the symbols after both substitutions. -/
def envOf {p n : Nat} (us : Fin p → Nat) (xs : Fin n → Nat) (u : Fin p → ℝ) (x : Fin n → ℝ) :
    Nat → Option ℝ :=
  fun t => (look us u t).or (look xs x t)

theorem subsAll_eq {k : Nat} (s : Fin k → Nat) (v : Fin k → ℝ) (e : Expr) :
    e.subsAll s v = ((List.finRange k).map fun j => (s j, v j)).foldl
      (fun e q => e.subs q.1 q.2) e := by
  rw [List.foldl_map]; rfl

theorem evalAt_eq_ok {f p n d : Nat} (g : Pdf f p n d) (u : Fin p → ℝ) (x : Fin n → ℝ) (e : Expr)
    (y : ℝ) : g.evalAt u x e = .ok y ↔ value (envOf g.u g.x u x) e = some y := by
  unfold Pdf.evalAt
  rw [evalf_eq_ok, subsAll_eq, evalf_subs_foldl, subsAll_eq, evalf_subs_foldl]
  simp only [Option.or_none]
  exact Iff.rfl

theorem lookup_none {l : List (Nat × ℝ)} {t : Nat} (h : ∀ q ∈ l, q.1 ≠ t) : l.lookup t = none := by
  induction l with
  | nil => rfl
  | cons q l ih =>
    have h1 : (t == q.1) = false := by simpa using (h q (by simp)).symm
    simp [List.lookup, h1, ih fun r hr => h r (by simp [hr])]

/-- Whether and where a symbol is found does not depend on the values. -/
theorem look_cases {k : Nat} (s : Fin k → Nat) (t : Nat) :
    ((∀ j, s j ≠ t) ∧ ∀ v, look s v t = none) ∨ ∃ j, s j = t ∧ ∀ v, look s v t = some (v j) := by
  have aux : ∀ l : List (Fin k), ((∀ j ∈ l, s j ≠ t) ∧ ∀ v : Fin k → ℝ,
      (l.map fun j => (s j, v j)).lookup t = none) ∨
      ∃ j, s j = t ∧ ∀ v : Fin k → ℝ, (l.map fun j => (s j, v j)).lookup t = some (v j) := by
    intro l
    induction l with
    | nil => left; simp
    | cons j l ih =>
      by_cases h : s j = t
      · right
        refine ⟨j, h, fun v => ?_⟩
        have : (t == s j) = true := by simpa using h.symm
        simp [List.lookup, this]
      · have h' : (t == s j) = false := by simpa using fun e => h e.symm
        rcases ih with ⟨h1, h2⟩ | ⟨i, hi, h2⟩
        · left
          refine ⟨fun i hi => ?_, fun v => by simp [List.lookup, h', h2]⟩
          rcases List.mem_cons.1 hi with rfl | hi
          · exact h
          · exact h1 i hi
        · right
          exact ⟨i, hi, fun v => by simp [List.lookup, h', h2]⟩
  rcases aux (List.finRange k) with ⟨h1, h2⟩ | h
  · exact .inl ⟨fun j => h1 j (List.mem_finRange j), h2⟩
  · exact .inr h

theorem envOf_assigns {p n : Nat} {us : Fin p → Nat} {xs : Fin n → Nat} (h : Distinct us xs)
    (u : Fin p → ℝ) (x : Fin n → ℝ) : Assigns us xs u x (envOf us xs u x) := by
  obtain ⟨hu, hx, hux⟩ := h
  refine ⟨fun i => ?_, fun j => ?_, fun s h1 h2 => ?_⟩
  · rcases look_cases us (us i) with ⟨hn, _⟩ | ⟨j, hj, hv⟩
    · exact absurd rfl (hn i)
    · simp [envOf, hv, hu hj]
  · rcases look_cases us (xs j) with ⟨_, hv⟩ | ⟨i, hi, _⟩
    · rcases look_cases xs (xs j) with ⟨hn, _⟩ | ⟨i, hi, hv'⟩
      · exact absurd rfl (hn j)
      · simp [envOf, hv, hv', hx hi]
    · exact absurd hi (hux i j)
  · rcases look_cases us s with ⟨_, hv⟩ | ⟨i, hi, _⟩
    · rcases look_cases xs s with ⟨_, hv'⟩ | ⟨j, hj, _⟩
      · simp [envOf, hv, hv']
      · exact absurd hj (h2 j)
    · exact absurd hi (h1 i)

theorem assigns_unique {p n : Nat} {us : Fin p → Nat} {xs : Fin n → Nat} {u : Fin p → ℝ}
    {x : Fin n → ℝ} {e e' : Nat → Option ℝ} (h : Assigns us xs u x e) (h' : Assigns us xs u x e') :
    e = e' := by
  funext s
  by_cases h1 : ∃ i, us i = s
  · obtain ⟨i, rfl⟩ := h1; rw [h.1, h'.1]
  · by_cases h2 : ∃ j, xs j = s
    · obtain ⟨j, rfl⟩ := h2; rw [h.2.1, h'.2.1]
    · rw [h.2.2 s (fun i e => h1 ⟨i, e⟩) fun j e => h2 ⟨j, e⟩,
        h'.2.2 s (fun i e => h1 ⟨i, e⟩) fun j e => h2 ⟨j, e⟩]

theorem funcIs_iff {f p n : Nat} {func : Fin f → Expr} {us : Fin p → Nat} {xs : Fin n → Nat}
    (h : Distinct us xs) (u : Fin p → ℝ) (x : Fin n → ℝ) (y : Fin f → ℝ) :
    FuncIs func us xs u x y ↔ ∀ i, value (envOf us xs u x) (func i) = some (y i) := by
  constructor
  · rintro ⟨env, he, hv⟩
    rw [assigns_unique (envOf_assigns h u x) he]; exact hv
  · exact fun hv => ⟨_, envOf_assigns h u x, hv⟩

/-- The textbook rules compute directional derivatives. -/
theorem value_hasFDerivAt {E : Type} [NormedAddCommGroup E] [NormedSpace ℝ E]
    {env : E → Nat → Option ℝ} {slope : Nat → E →L[ℝ] ℝ} {x0 : E}
    (henv : ∀ s, (∀ x, env x s = none) ∨
      ∃ g : E → ℝ, (∀ x, env x s = some (g x)) ∧ HasFDerivAt g (slope s) x0)
    (e : Expr) : ∀ {y : ℝ}, value (env x0) e = some y →
    ∃ (h : E → ℝ) (h' : E →L[ℝ] ℝ), h x0 = y ∧ (∀ᶠ x in 𝓝 x0, value (env x) e = some (h x)) ∧
      HasFDerivAt h h' x0 ∧ ∀ (t : Nat) (v : E), (∀ s, slope s v = if s = t then 1 else 0) →
        value (env x0) (e.diff t) = some (h' v) := by
  induction e with
  | num c =>
    intro y hy
    simp only [value, Option.some.injEq] at hy
    exact ⟨fun _ => c, 0, hy, .of_forall fun _ => rfl, hasFDerivAt_const c x0,
      fun t v _ => by simp [Expr.diff, value]⟩
  | sym s =>
    intro y hy
    rcases henv s with h | ⟨g, hg, hd⟩
    · simp [value, h] at hy
    · refine ⟨g, slope s, ?_, .of_forall fun x => hg x, hd, fun t v hv => ?_⟩
      · simpa [value, hg] using hy
      · simp [Expr.diff, value, hv]
  | add a b iha ihb =>
    intro y hy
    simp only [value, Option.bind_eq_some_iff, Option.map_eq_some_iff] at hy
    obtain ⟨va, ha, vb, hb, rfl⟩ := hy
    obtain ⟨h1, d1, e1, ev1, D1, T1⟩ := iha ha
    obtain ⟨h2, d2, e2, ev2, D2, T2⟩ := ihb hb
    refine ⟨h1 + h2, d1 + d2, by simp [e1, e2], ?_, D1.add D2, fun t v hv => ?_⟩
    · filter_upwards [ev1, ev2] with x q1 q2
      simp [value, q1, q2]
    · simp [Expr.diff, value, T1 t v hv, T2 t v hv]
  | mul a b iha ihb =>
    intro y hy
    simp only [value, Option.bind_eq_some_iff, Option.map_eq_some_iff] at hy
    obtain ⟨va, ha, vb, hb, rfl⟩ := hy
    obtain ⟨h1, d1, e1, ev1, D1, T1⟩ := iha ha
    obtain ⟨h2, d2, e2, ev2, D2, T2⟩ := ihb hb
    refine ⟨fun x => h1 x * h2 x, _, by simp [e1, e2], ?_, D1.mul D2, fun t v hv => ?_⟩
    · filter_upwards [ev1, ev2] with x q1 q2
      simp [value, q1, q2]
    · simp only [Expr.diff, value, T1 t v hv, T2 t v hv, ha, hb, Option.bind_some, Option.map_some,
        Option.some.injEq, _root_.add_apply, _root_.smul_apply, smul_eq_mul, e1, e2]
      ring
  | inv a iha =>
    intro y hy
    simp only [value, Option.bind_eq_some_iff] at hy
    obtain ⟨va, ha, hy⟩ := hy
    have h0 : va ≠ 0 := by rintro rfl; simp at hy
    rw [if_neg h0, Option.some.injEq] at hy
    obtain ⟨h1, d1, e1, ev1, D1, T1⟩ := iha ha
    have hn : h1 x0 ≠ 0 := by rwa [e1]
    refine ⟨fun x => (h1 x)⁻¹, (-(h1 x0 ^ 2)⁻¹) • d1, by simp [e1, ← hy], ?_,
      (hasDerivAt_inv hn).comp_hasFDerivAt x0 D1, fun t v hv => ?_⟩
    · filter_upwards [ev1, D1.continuousAt.eventually_ne hn] with x q1 q2
      simp [value, q1, q2]
    · simp only [Expr.diff, value, T1 t v hv, ha, Option.bind_some, Option.map_some,
        Option.some.injEq, _root_.smul_apply, smul_eq_mul, e1, mul_eq_zero, h0, or_self, if_false]
      field_simp
  | sin a iha =>
    intro y hy
    simp only [value, Option.map_eq_some_iff] at hy
    obtain ⟨va, ha, rfl⟩ := hy
    obtain ⟨h1, d1, e1, ev1, D1, T1⟩ := iha ha
    refine ⟨fun x => Real.sin (h1 x), Real.cos (h1 x0) • d1, by simp [e1], ?_,
      (Real.hasDerivAt_sin (h1 x0)).comp_hasFDerivAt x0 D1, fun t v hv => ?_⟩
    · filter_upwards [ev1] with x q1
      simp [value, q1]
    · simp [Expr.diff, value, T1 t v hv, ha, e1]
  | cos a iha =>
    intro y hy
    simp only [value, Option.map_eq_some_iff] at hy
    obtain ⟨va, ha, rfl⟩ := hy
    obtain ⟨h1, d1, e1, ev1, D1, T1⟩ := iha ha
    refine ⟨fun x => Real.cos (h1 x), (-Real.sin (h1 x0)) • d1, by simp [e1], ?_,
      (Real.hasDerivAt_cos (h1 x0)).comp_hasFDerivAt x0 D1, fun t v hv => ?_⟩
    · filter_upwards [ev1] with x q1
      simp [value, q1]
    · simp [Expr.diff, value, T1 t v hv, ha, e1]
  | exp a iha =>
    intro y hy
    simp only [value, Option.map_eq_some_iff] at hy
    obtain ⟨va, ha, rfl⟩ := hy
    obtain ⟨h1, d1, e1, ev1, D1, T1⟩ := iha ha
    refine ⟨fun x => Real.exp (h1 x), Real.exp (h1 x0) • d1, by simp [e1], ?_,
      (Real.hasDerivAt_exp (h1 x0)).comp_hasFDerivAt x0 D1, fun t v hv => ?_⟩
    · filter_upwards [ev1] with x q1
      simp [value, q1]
    · simp [Expr.diff, value, T1 t v hv, ha, e1]

/-- A column of formulas, evaluated in an environment that depends on a vector: the matrix of the
values of the derivative formulas is its Jacobian. -/
theorem column_jacobian {f k : Nat} {env : (Fin k → ℝ) → Nat → Option ℝ}
    {slope : Nat → (Fin k → ℝ) →L[ℝ] ℝ} {x0 : Fin k → ℝ} {s : Fin k → Nat}
    (henv : ∀ t, (∀ x, env x t = none) ∨
      ∃ g : (Fin k → ℝ) → ℝ, (∀ x, env x t = some (g x)) ∧ HasFDerivAt g (slope t) x0)
    (hs : ∀ j t, slope t (Pi.single j 1) = if t = s j then 1 else 0)
    {func : Fin f → Expr} {y : Fin f → ℝ} (hy : ∀ i, value (env x0) (func i) = some (y i)) :
    ∃ (h : (Fin k → ℝ) → Fin f → ℝ) (J : Matrix (Fin f) (Fin k) ℝ),
      (∀ᶠ x in 𝓝 x0, ∀ i, value (env x) (func i) = some (h x i)) ∧
      (∀ i j, value (env x0) ((func i).diff (s j)) = some (J i j)) ∧
      HasFDerivAt h (LinearMap.toContinuousLinearMap (Matrix.mulVecLin J)) x0 := by
  choose h h' h0 hev hd hv using fun i => value_hasFDerivAt henv (func i) (hy i)
  refine ⟨fun x i => h i x, Matrix.of fun i j => h' i (Pi.single j 1), eventually_all.2 hev,
    fun i j => hv i _ _ (hs j), ?_⟩
  rw [hasFDerivAt_pi']
  intro i
  refine (hd i).congr_fderiv ?_
  refine ContinuousLinearMap.ext fun w => ?_
  have hw : w = ∑ j, w j • Pi.single (M := fun _ => ℝ) j 1 := by
    ext l
    simp [Finset.sum_apply, Pi.single_apply]
  conv_lhs => rw [hw]
  simp [map_sum, Matrix.mulVec, dotProduct, mul_comm]

namespace Pdf

variable {f p n d : Nat}

/-- What no call changes. -/
structure Same (g0 g : Pdf f p n d) : Prop where
  func : g.func = g0.func
  cond : g.cond = g0.cond
  u : g.u = g0.u
  x : g.x = g0.x
  dcond : g.dcond = g0.cond.map (derive g0.func)
  dx : g.dx = fun i => derive g0.func (g0.x i)

theorem Same.step {g0 g g' : Pdf f p n d} (h : Same g0 g) {op : Op d} (hs : g.step op = .ok g') :
    Same g0 g' := by
  cases op with
  | copy =>
    simp only [Pdf.step, Pdf.copy, Outcome.bind_eq_ok, Outcome.pure_eq, Outcome.ok.injEq] at hs
    obtain ⟨_, _, rfl⟩ := hs
    exact ⟨h.func, h.cond, h.u, h.x, by simp [h.cond, h.func], by simp [h.func, h.x]⟩
  | muSet mu =>
    simp only [Pdf.step, Outcome.ok.injEq] at hs
    subst hs
    exact ⟨h.func, h.cond, h.u, h.x, h.dcond, h.dx⟩
  | sigmaSet s =>
    simp only [Pdf.step, Outcome.ok.injEq] at hs
    subst hs
    exact ⟨h.func, h.cond, h.u, h.x, h.dcond, h.dx⟩

theorem Same.run {g0 g' : Pdf f p n d} (ops : List (Op d)) : ∀ {g : Pdf f p n d}, Same g0 g →
    run ops g = .ok g' → Same g0 g' := by
  induction ops with
  | nil => intro g h hr; simp only [Pdf.run, Outcome.ok.injEq] at hr; exact hr ▸ h
  | cons op ops ih =>
    intro g h hr
    simp only [Pdf.run, Outcome.bind_eq_ok] at hr
    obtain ⟨g1, h1, h2⟩ := hr
    exact ih (h.step h1) h2

theorem same_input {func : Fin f → Expr} {us : Fin p → Nat} {xs : Fin n → Nat} {mu : Fin d → ℝ}
    {sigma : Matrix (Fin d) (Fin d) ℝ} {cond : List Nat} {g0 g : Pdf f p n d} {ops : List (Op d)}
    (h0 : makeInputNoise func us xs mu sigma cond = .ok g0) (h : run ops g0 = .ok g) :
    g.func = func ∧ g.cond = cond ∧ g.u = us ∧ g.x = xs ∧ g.dcond = cond.map (derive func) ∧
      (g.dx = fun i => derive func (xs i)) ∧ d = cond.length := by
  simp only [makeInputNoise, Outcome.bind_eq_ok, Outcome.pure_eq, Outcome.ok.injEq,
    cassert_eq_ok] at h0
  obtain ⟨_, hd, rfl⟩ := h0
  have := Same.run ops ⟨rfl, rfl, rfl, rfl, rfl, rfl⟩ h
  exact ⟨this.func, this.cond, this.u, this.x, this.dcond, this.dx, hd⟩

theorem same_output {func : Fin f → Expr} {us : Fin p → Nat} {xs : Fin n → Nat} {mu : Fin d → ℝ}
    {sigma : Matrix (Fin d) (Fin d) ℝ} {g : Pdf f p n d} {ops : List (Op d)}
    (h : run ops (makeOutputNoise func us xs mu sigma) = .ok g) :
    g.func = func ∧ g.cond = [] ∧ g.u = us ∧ g.x = xs ∧ g.dcond = [] ∧
      g.dx = fun i => derive func (xs i) := by
  have := Same.run (g0 := makeOutputNoise func us xs mu sigma) ops ⟨rfl, rfl, rfl, rfl, rfl, rfl⟩ h
  exact ⟨this.func, this.cond, this.u, this.x, this.dcond, this.dx⟩

theorem shiftOne_eq (mu : Fin d → ℝ) (s : Nat) (cs : List Nat) : ∀ (j : Nat) (v : ℝ)
    (h : j + cs.length ≤ d), shiftOne mu s cs j v =
      .ok (v + ∑ k : Fin cs.length, if cs[k] = s then mu ⟨j + k, by omega⟩ else 0) := by
  induction cs with
  | nil => intro j v h; simp [shiftOne]
  | cons c cs ih =>
    intro j v h
    simp only [List.length_cons] at h
    have hj : j < d := by omega
    have e : ∀ k : Fin cs.length, (⟨j + 1 + k, by omega⟩ : Fin d) = ⟨j + (k + 1), by omega⟩ :=
      fun k => Fin.ext (by simp; omega)
    simp only [shiftOne]
    by_cases hc : s = c
    · rw [if_pos hc, dif_pos hj, ih _ _ (by omega)]
      congr 1
      rw [add_assoc]
      congr 1
      refine Eq.trans ?_ (Fin.sum_univ_succ (n := cs.length) _).symm
      simp [hc, e]
    · rw [if_neg hc, ih _ _ (by omega)]
      congr 2
      refine Eq.trans ?_ (Fin.sum_univ_succ (n := cs.length) _).symm
      simp [Ne.symm hc, e]

theorem shifted_eq {g : Pdf f p n d} {cond : List Nat} (hc : g.cond = cond) (hd : d = cond.length)
    (u : Fin p → ℝ) :
    g.shifted u = .ok (disturb g.u cond u fun k => g.mu (Fin.cast hd.symm k)) := by
  subst hc
  unfold shifted
  by_cases h : g.cond.length ≠ 0
  · rw [if_pos h, collect_eq_ok]
    intro i
    rw [shiftOne_eq g.mu (g.u i) g.cond 0 (u i) (by omega)]
    congr 1
    simp only [disturb]
    congr 1
    refine Finset.sum_congr rfl fun k _ => ?_
    congr 1
    congr 1
    exact Fin.ext (by simp)
  · rw [if_neg h]
    congr 1
    funext i
    have : IsEmpty (Fin g.cond.length) := by
      rw [not_not.1 h]; infer_instance
    simp [disturb]

theorem shifted_output {g : Pdf f p n d} (hc : g.cond = []) (u : Fin p → ℝ) : g.shifted u = .ok u := by
  simp [shifted, hc]

theorem expectedValue_input {g : Pdf f p n d} {cond : List Nat} (hc : g.cond = cond)
    (hd : d = cond.length) (hne : cond ≠ []) (u : Fin p → ℝ) (x : Fin n → ℝ) (y : Fin f → ℝ) :
    g.expectedValue u x = .ok y ↔
      ∀ i, value (envOf g.u g.x (disturb g.u cond u fun k => g.mu (Fin.cast hd.symm k)) x) (g.func i) =
        some (y i) := by
  have hl : g.cond.length ≠ 0 := by rw [hc]; exact fun h => hne (List.length_eq_zero_iff.1 h)
  simp only [expectedValue, shifted_eq hc hd, Outcome.ok_bind, Outcome.bind_eq_ok, collect_eq_ok,
    evalAt_eq_ok, addMu, if_neg hl, Outcome.ok.injEq]
  exact ⟨fun ⟨a, h, e⟩ => e ▸ h, fun h => ⟨y, h, rfl⟩⟩

theorem expectedValue_output {g : Pdf f p n d} (hc : g.cond = []) (hd : f = d) (u : Fin p → ℝ)
    (x : Fin n → ℝ) (y : Fin f → ℝ) :
    g.expectedValue u x = .ok y ↔ ∃ v : Fin f → ℝ,
      (∀ i, value (envOf g.u g.x u x) (g.func i) = some (v i)) ∧
        y = fun i => v i + g.mu (Fin.cast hd i) := by
  simp only [expectedValue, shifted_output hc, Outcome.ok_bind, Outcome.bind_eq_ok, collect_eq_ok,
    evalAt_eq_ok, addMu, hc, List.length_nil, if_true, dif_pos hd, Outcome.ok.injEq]
  exact exists_congr fun v => and_congr_right fun _ => eq_comm

/-- The values of the symbols as the state varies. -/
theorem env_state {us : Fin p → Nat} {xs : Fin n → Nat} (h : Distinct us xs) (u : Fin p → ℝ)
    (x0 : Fin n → ℝ) : ∃ slope : Nat → (Fin n → ℝ) →L[ℝ] ℝ,
      (∀ t, (∀ x, envOf us xs u x t = none) ∨ ∃ g : (Fin n → ℝ) → ℝ,
        (∀ x, envOf us xs u x t = some (g x)) ∧ HasFDerivAt g (slope t) x0) ∧
      ∀ j t, slope t (Pi.single j 1) = if t = xs j then 1 else 0 := by
  have key : ∀ t, ∃ s : (Fin n → ℝ) →L[ℝ] ℝ, ((∀ x, envOf us xs u x t = none) ∨
      ∃ g : (Fin n → ℝ) → ℝ, (∀ x, envOf us xs u x t = some (g x)) ∧ HasFDerivAt g s x0) ∧
      ∀ j, s (Pi.single j 1) = if t = xs j then 1 else 0 := by
    intro t
    rcases look_cases us t with ⟨_, hv⟩ | ⟨i, hi, hv⟩
    · rcases look_cases xs t with ⟨hn, hv'⟩ | ⟨j, hj, hv'⟩
      · refine ⟨0, .inl fun x => by simp [envOf, hv, hv'], fun j => ?_⟩
        rw [if_neg fun e => hn j e.symm]; rfl
      · refine ⟨ContinuousLinearMap.proj j, .inr ⟨fun x => x j, fun x => by simp [envOf, hv, hv'],
          hasFDerivAt_apply j x0⟩, fun k => ?_⟩
        subst hj
        by_cases hjk : j = k
        · subst hjk; simp
        · rw [if_neg fun e => hjk (h.2.1 e)]
          simp [hjk]
    · refine ⟨0, .inr ⟨fun _ => u i, fun x => by simp [envOf, hv], hasFDerivAt_const _ _⟩,
        fun j => ?_⟩
      rw [if_neg fun e => h.2.2 i j (hi.trans e)]; rfl
  choose slope h1 h2 using key
  exact ⟨slope, h1, fun j t => h2 t j⟩

/-- The values of the symbols as the disturbance varies. -/
theorem env_disturb {us : Fin p → Nat} {xs : Fin n → Nat} {cond : List Nat}
    (hc : ∀ c ∈ cond, ∃ i, us i = c) (u : Fin p → ℝ) (x : Fin n → ℝ) (e0 : Fin cond.length → ℝ) :
    ∃ slope : Nat → (Fin cond.length → ℝ) →L[ℝ] ℝ,
      (∀ t, (∀ e, envOf us xs (disturb us cond u e) x t = none) ∨
        ∃ g : (Fin cond.length → ℝ) → ℝ, (∀ e, envOf us xs (disturb us cond u e) x t = some (g e)) ∧
          HasFDerivAt g (slope t) e0) ∧
      ∀ (k : Fin cond.length) t, slope t (Pi.single k 1) = if t = cond[k] then 1 else 0 := by
  have key : ∀ t, ∃ s : (Fin cond.length → ℝ) →L[ℝ] ℝ,
      ((∀ e, envOf us xs (disturb us cond u e) x t = none) ∨
        ∃ g : (Fin cond.length → ℝ) → ℝ, (∀ e, envOf us xs (disturb us cond u e) x t = some (g e)) ∧
          HasFDerivAt g s e0) ∧
      ∀ k : Fin cond.length, s (Pi.single k 1) = if t = cond[k] then 1 else 0 := by
    intro t
    rcases look_cases us t with ⟨hn, hv⟩ | ⟨i, hi, hv⟩
    · have h0 : ∀ k : Fin cond.length, t ≠ cond[k] := by
        intro k e
        obtain ⟨i, hi⟩ := hc cond[k] (List.getElem_mem _)
        exact hn i (hi.trans e.symm)
      rcases look_cases xs t with ⟨_, hv'⟩ | ⟨j, hj, hv'⟩
      · exact ⟨0, .inl fun e => by simp [envOf, hv, hv'], fun k => by rw [if_neg (h0 k)]; rfl⟩
      · exact ⟨0, .inr ⟨fun _ => x j, fun e => by simp [envOf, hv, hv'], hasFDerivAt_const _ _⟩,
          fun k => by rw [if_neg (h0 k)]; rfl⟩
    · subst hi
      refine ⟨∑ k : Fin cond.length, if cond[k] = us i then ContinuousLinearMap.proj k else 0,
        .inr ⟨fun e => disturb us cond u e i, fun e => by simp [envOf, hv], ?_⟩, fun k => ?_⟩
      · unfold disturb
        refine HasFDerivAt.const_add (u i) ?_
        refine HasFDerivAt.fun_sum fun k _ => ?_
        by_cases hk : cond[k] = us i
        · simp only [if_pos hk]; exact hasFDerivAt_apply k e0
        · simp only [if_neg hk]; exact hasFDerivAt_const _ _
      · rw [_root_.sum_apply, Finset.sum_eq_single k]
        · by_cases hk : cond[k] = us i
          · rw [if_pos hk, if_pos hk.symm]; simp
          · rw [if_neg hk, if_neg (Ne.symm hk)]; rfl
        · intro l _ hl
          by_cases hk : cond[l] = us i
          · rw [if_pos hk]; simp [hl]
          · rw [if_neg hk]; rfl
        · simp
  choose slope h1 h2 using key
  exact ⟨slope, h1, fun k t => h2 t k⟩

theorem dfGet_eq_ok {g : Pdf f p n d} {func : Fin f → Expr}
    (hdx : g.dx = fun i => derive func (g.x i)) (u : Fin p → ℝ) (x : Fin n → ℝ)
    {J : Matrix (Fin f) (Fin n) ℝ}
    (h : ∀ i j, value (envOf g.u g.x u x) ((func i).diff (g.x j)) = some (J i j)) :
    g.dfGet 0 u x = .ok J := by
  have : (collect fun k => g.column u x (g.dx k)) = .ok fun k i => J i k := by
    rw [collect_eq_ok]
    intro k
    rw [column, collect_eq_ok]
    intro i
    rw [evalAt_eq_ok, hdx]
    exact h i k
  simp only [dfGet, Outcome.ok_bind, this]
  rfl

theorem noiseJacobian_eq_ok {g : Pdf f p n d} {func : Fin f → Expr} {cond : List Nat}
    (hdc : g.dcond = cond.map (derive func)) (u : Fin p → ℝ) (x : Fin n → ℝ)
    {D : Matrix (Fin f) (Fin cond.length) ℝ}
    (h : ∀ i (k : Fin cond.length),
      value (envOf g.u g.x u x) ((func i).diff cond[k]) = some (D i k)) :
    g.noiseJacobian u x = .ok (List.ofFn fun k i => D i k) := by
  unfold noiseJacobian
  rw [hdc]
  have aux : ∀ (cs : List Nat) (E : Fin cs.length → Fin f → ℝ),
      (∀ k i, value (envOf g.u g.x u x) ((func i).diff cs[k]) = some (E k i)) →
      mapOutcome (g.column u x) (cs.map (derive func)) = .ok (List.ofFn E) := by
    intro cs
    induction cs with
    | nil => intro E _; simp [mapOutcome]
    | cons c cs ih =>
      intro E hE
      have h1 : g.column u x (derive func c) = .ok (E 0) := by
        rw [column, collect_eq_ok]
        intro i
        rw [evalAt_eq_ok]
        exact hE 0 i
      have h2 := ih (fun k => E k.succ) fun k i => hE k.succ i
      simp only [List.map_cons, mapOutcome, h1, h2, Outcome.ok_bind, Outcome.pure_eq]
      exact congrArg _ (List.ofFn_succ (f := E)).symm
  exact aux cond _ fun k i => h i k

theorem covariance_input (be : Backend) {g : Pdf f p n d} {func : Fin f → Expr} {cond : List Nat}
    (hc : g.cond = cond) (hd : d = cond.length) (hne : cond ≠ [])
    (hdc : g.dcond = cond.map (derive func)) (hs : g.sigmaᵀ = g.sigma) (u : Fin p → ℝ)
    (x : Fin n → ℝ) {D : Matrix (Fin f) (Fin cond.length) ℝ}
    (h : ∀ i (k : Fin cond.length),
      value (envOf g.u g.x u x) ((func i).diff cond[k]) = some (D i k)) :
    g.covariance be u x = .ok ⟨f, D.submatrix id (Fin.cast hd) * g.sigma *
      (D.submatrix id (Fin.cast hd))ᵀ⟩ := by
  have hl : g.cond.length ≠ 0 := by rw [hc]; exact fun h => hne (List.length_eq_zero_iff.1 h)
  have h1 : d = (List.ofFn fun k i => D i k).length := by simpa using hd
  simp only [covariance, if_pos hl, noiseJacobian_eq_ok hdc u x h, Outcome.ok_bind, sandwich,
    dif_pos h1, Outcome.pure_eq]
  have e : (Matrix.of fun i k => (List.ofFn fun k i => D i k)[Fin.cast h1 k] i) =
      D.submatrix id (Fin.cast hd) := by
    ext i k
    simp
    rfl
  rw [e, be.toSym_of_symm]
  rw [transpose_mul, transpose_mul, transpose_transpose, hs, Matrix.mul_assoc]

end Pdf

end Ginac

end BFL
