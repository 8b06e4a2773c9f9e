import Verif.Spec.ScriptOperators
import Verif.Lemmas.MatrixProgram

/-!
# Helper lemmas for script expressions
-/

set_option linter.unusedSectionVars false

namespace BFL

open BFL.Spec

variable {K : Type} [Field K] [LinearOrder K] [IsStrictOrderedRing K]

theorem Spec.Table.Same.refl (a : Table K) : a.Same a := ⟨rfl, rfl, fun _ _ _ _ => rfl⟩

theorem WVec.outerRow_eq {v w : WVec K} {i : Nat} (hi : i < v.len) :
    ∀ (k j : Nat) (res : WMat K), j + k ≤ w.len → res.rows = v.len → res.cols = w.len →
      WVec.outerRow v w i k j res = .ok ⟨v.len, w.len, fun p q =>
        if p = i ∧ j ≤ q ∧ q < j + k then v.entry p * w.entry q else res.entry p q⟩
  | 0, j, res, _, hr, hc => by
    cases res
    simp only [WVec.outerRow] at *
    subst hr hc
    congr 2
    funext p q
    rw [if_neg (by omega)]
  | k + 1, j, res, hk, hr, hc => by
    have h1 : v.get (i + 1) = .ok (v.entry i) := by
      rw [WVec.get, if_pos (by omega)]; rfl
    have h2 : w.get (j + 1) = .ok (w.entry j) := by
      rw [WVec.get, if_pos (by omega)]; rfl
    rw [WVec.outerRow, h1, Outcome.ok_bind, h2, Outcome.ok_bind, WMat.put, if_pos (by omega), Outcome.ok_bind,
      WVec.outerRow_eq hi k (j + 1) _ (by omega) (by exact hr) (by exact hc)]
    congr 2
    funext p q
    simp only [Nat.add_sub_cancel]
    by_cases hp : p = i
    · subst hp
      by_cases hq : q = j
      · subst hq; simp
      · by_cases h3 : j ≤ q ∧ q < j + (k + 1)
        · rw [if_pos ⟨rfl, by omega⟩, if_pos ⟨rfl, h3⟩]
        · rw [if_neg (by omega), if_neg (by omega), if_neg (by omega)]
    · rw [if_neg (by omega), if_neg (by omega), if_neg (by omega)]

theorem WVec.outerRows_eq {v w : WVec K} :
    ∀ (k i : Nat) (res : WMat K), i + k ≤ v.len → res.rows = v.len → res.cols = w.len →
      ∃ f, WVec.outerRows v w k i res = .ok ⟨v.len, w.len, f⟩ ∧
        (∀ p q, i ≤ p → p < i + k → q < w.len → f p q = v.entry p * w.entry q) ∧
        ∀ p q, p < i → f p q = res.entry p q
  | 0, i, res, _, hr, hc => by
    refine ⟨res.entry, ?_, fun p q h1 h2 => by omega, fun _ _ _ => rfl⟩
    cases res
    simp only at *
    subst hr hc
    rfl
  | k + 1, i, res, hk, hr, hc => by
    rw [WVec.outerRows, WVec.outerRow_eq (by omega) _ _ _ (by omega) hr hc, Outcome.ok_bind]
    obtain ⟨f, e, h1, h2⟩ := WVec.outerRows_eq k (i + 1) (⟨v.len, w.len, fun p q =>
      if p = i ∧ 0 ≤ q ∧ q < 0 + w.len then v.entry p * w.entry q else res.entry p q⟩ : WMat K)
      (by omega) rfl rfl
    refine ⟨f, e, fun p q hp hp' hq => ?_, fun p q hp => ?_⟩
    · by_cases h : p = i
      · rw [h2 p q (by omega)]
        exact if_pos ⟨h, by omega, by omega⟩
      · exact h1 p q (by omega) (by omega) hq
    · rw [h2 p q (by omega)]
      exact if_neg (by omega)

/-- A column times a row, on both back ends. -/
theorem WVec.outer_eq (be : Backend) (junk : Nat → Nat → K) (v w : WVec K) :
    ∃ f, v.outer be junk w = .ok ⟨v.len, w.len, f⟩ ∧ ∀ p < v.len, ∀ q < w.len, f p q = v.entry p * w.entry q := by
  cases be
  · obtain ⟨f, e, h, -⟩ := WVec.outerRows_eq (v := v) (w := w) v.len 0 ⟨v.len, w.len, junk⟩ (by omega) rfl rfl
    exact ⟨f, e, fun p hp q hq => h p q (by omega) (by omega) hq⟩
  · exact ⟨_, rfl, fun _ _ _ _ => rfl⟩

theorem WVec.innerLoop_eq {v w : WVec K} :
    ∀ (k i : Nat) (res : K), i + k ≤ v.len → i + k ≤ w.len →
      WVec.innerLoop v w k i res = .ok (res + ∑ p ∈ Finset.range k, v.entry (i + p) * w.entry (i + p))
  | 0, i, res, _, _ => by simp [WVec.innerLoop]
  | k + 1, i, res, hv, hw => by
    have h1 : v.get (i + 1) = .ok (v.entry i) := by
      rw [WVec.get, if_pos (by omega)]; rfl
    have h2 : w.get (i + 1) = .ok (w.entry i) := by
      rw [WVec.get, if_pos (by omega)]; rfl
    rw [WVec.innerLoop, h1, Outcome.ok_bind, h2, Outcome.ok_bind, WVec.innerLoop_eq k (i + 1) _ (by omega) (by omega),
      Finset.sum_range_succ', add_zero, add_assoc, add_comm (v.entry i * w.entry i)]
    congr 3
    exact Finset.sum_congr rfl fun p _ => by rw [Nat.add_right_comm, Nat.add_assoc]

/-- A row times a column of the same length, on both back ends. -/
theorem WVec.inner_eq (be : Backend) {v w : WVec K} (h : v.len = w.len) :
    v.inner be w = .ok (∑ p ∈ Finset.range v.len, v.entry p * w.entry p) := by
  cases be
  · rw [WVec.inner, cassert, if_pos h, Outcome.ok_bind, WVec.innerLoop_eq _ _ _ (by omega) (by omega), ← h]
    simp
  · exact if_pos h

theorem WVec.inner_misfit (be : Backend) {v w : WVec K} (h : v.len ≠ w.len) (x : K) : v.inner be w ≠ .ok x := by
  cases be
  · rw [WVec.inner, cassert, if_neg h]
    simp
  · rw [WVec.inner, if_neg h]
    simp

theorem WVec.normInf_zero (v : WVec K) : v.normInf = 0 ↔ ∀ i < v.len, v.entry i = 0 := by
  rw [WVec.normInf, foldl_max_zero (fun i => |v.entry i|) (fun i => abs_nonneg _) _ _ le_rfl]
  simp

theorem WVec.equal_iff (be : Backend) (prec : K) (v w : WVec K) :
    v.equal be prec w = true ↔ v.len = w.len ∧ ∀ i < v.len, v.entry i = w.entry i := by
  unfold WVec.equal
  by_cases h : v.len = w.len
  · rw [if_neg (by simpa using h)]
    cases be
    · simp only [decide_eq_true_eq]
      rw [WVec.normInf_zero]
      simp [h, sub_eq_zero]
    · simp only [WVec.approxZero, decide_eq_true_eq, abs_zero, sub_zero]
      refine ⟨fun hh => ⟨h, fun i hi => ?_⟩, fun hh i hi => ?_⟩
      · have := hh i hi
        rw [min_eq_right (abs_nonneg _), zero_mul] at this
        exact sub_eq_zero.1 (abs_nonpos_iff.1 this)
      · rw [hh.2 i hi]
        simp
  · rw [if_pos (by simpa using h)]
    simp [h]

theorem SMat.view_symm_boost (s : SMat K) (i j : Nat) : s.view .boost i j = s.view .boost j i := by
  simp only [SMat.view]
  by_cases h : j ≤ i
  · by_cases h' : i ≤ j
    · rw [le_antisymm h h']
    · rw [if_pos h, if_neg h']
  · rw [if_neg h, if_pos (by omega)]

theorem SMat.ofExpr_view (be : Backend) (n : Nat) {e : Nat → Nat → K}
    (h : be = .boost → ∀ i j, e i j = e j i) :
    ∃ s : SMat K, SMat.ofExpr be n e = .ok s ∧ s.n = n ∧ ∀ i < n, ∀ j < n, s.view be i j = e i j := by
  cases be
  · refine ⟨⟨n, e⟩, if_pos fun i _ j _ => h rfl i j, rfl, fun i _ j _ => ?_⟩
    simp only [SMat.view]
    split
    · rfl
    · exact h rfl j i
  · exact ⟨⟨n, e⟩, rfl, rfl, fun _ _ _ _ => rfl⟩

/-! ## The operators -/

/-- The conclusion about one operator. -/
def Good (be : Backend) (prec : K) (junk : Nat → Nat → K) (s : OpSym) (f : OpFn) (a b : SVal K) : Prop :=
  (Allowed be s a b → ∃ c, f.apply be prec junk a b = .ok c ∧ Answers be s a b c ∧ c.ty = f.result) ∧
  (¬ Allowed be s a b → ∀ c, f.apply be prec junk a b ≠ .ok c)

section
variable (be : Backend) (prec : K) (junk : Nat → Nat → K)

theorem good_cv_plus (v w : WVec K) : Good be prec junk .plus (.stdPlus .cv) (.cv v) (.cv w) := by
  constructor
  · intro h
    have h' : v.len = w.len := h.1
    refine ⟨_, by simp only [OpFn.apply, WVec.combine, if_pos h', Outcome.ok_bind]; rfl, ?_, rfl⟩
    exact ⟨rfl, rfl, rfl, fun _ _ _ _ => rfl⟩
  · intro h c
    have h' : v.len ≠ w.len := fun e => h ⟨e, rfl⟩
    simp [OpFn.apply, WVec.combine, if_neg h']

theorem good_cv_minus (v w : WVec K) : Good be prec junk .minus (.stdMinus .cv) (.cv v) (.cv w) := by
  constructor
  · intro h
    have h' : v.len = w.len := h.1
    refine ⟨_, by simp only [OpFn.apply, WVec.combine, if_pos h', Outcome.ok_bind]; rfl, ?_, rfl⟩
    exact ⟨rfl, rfl, rfl, fun _ _ _ _ => rfl⟩
  · intro h c
    have h' : v.len ≠ w.len := fun e => h ⟨e, rfl⟩
    simp [OpFn.apply, WVec.combine, if_neg h']

theorem good_rv_plus (v w : WVec K) : Good be prec junk .plus (.stdPlus .rv) (.rv v) (.rv w) := by
  constructor
  · intro h
    have h' : v.len = w.len := h.2
    refine ⟨_, by simp only [OpFn.apply, WVec.combine, if_pos h', Outcome.ok_bind]; rfl, ?_, rfl⟩
    exact ⟨rfl, rfl, rfl, fun _ _ _ _ => rfl⟩
  · intro h c
    have h' : v.len ≠ w.len := fun e => h ⟨rfl, e⟩
    simp [OpFn.apply, WVec.combine, if_neg h']

theorem good_rv_minus (v w : WVec K) : Good be prec junk .minus (.stdMinus .rv) (.rv v) (.rv w) := by
  constructor
  · intro h
    have h' : v.len = w.len := h.2
    refine ⟨_, by simp only [OpFn.apply, WVec.combine, if_pos h', Outcome.ok_bind]; rfl, ?_, rfl⟩
    exact ⟨rfl, rfl, rfl, fun _ _ _ _ => rfl⟩
  · intro h c
    have h' : v.len ≠ w.len := fun e => h ⟨rfl, e⟩
    simp [OpFn.apply, WVec.combine, if_neg h']

theorem good_mat_plus (m p : WMat K) : Good be prec junk .plus (.stdPlus .mat) (.mat m) (.mat p) := by
  constructor
  · intro h
    have h' : m.rows = p.rows ∧ m.cols = p.cols := h
    refine ⟨_, by simp only [OpFn.apply, WMat.arith, if_pos h', Outcome.ok_bind]; rfl, ?_, rfl⟩
    exact ⟨rfl, rfl, rfl, fun _ _ _ _ => rfl⟩
  · intro h c
    have h' : ¬ (m.rows = p.rows ∧ m.cols = p.cols) := h
    simp [OpFn.apply, WMat.arith, if_neg h']

theorem good_mat_minus (m p : WMat K) : Good be prec junk .minus (.stdMinus .mat) (.mat m) (.mat p) := by
  constructor
  · intro h
    have h' : m.rows = p.rows ∧ m.cols = p.cols := h
    refine ⟨_, by simp only [OpFn.apply, WMat.arith, if_pos h', Outcome.ok_bind]; rfl, ?_, rfl⟩
    exact ⟨rfl, rfl, rfl, fun _ _ _ _ => rfl⟩
  · intro h c
    have h' : ¬ (m.rows = p.rows ∧ m.cols = p.cols) := h
    simp [OpFn.apply, WMat.arith, if_neg h']

theorem good_mat_times (m p : WMat K) : Good be prec junk .times .stdMultiplies (.mat m) (.mat p) := by
  constructor
  · intro h
    have h' : m.cols = p.rows := h
    refine ⟨_, by simp only [OpFn.apply, WMat.arith, if_pos h', Outcome.ok_bind]; rfl, ?_, rfl⟩
    exact ⟨rfl, rfl, rfl, fun _ _ _ _ => rfl⟩
  · intro h c
    have h' : m.cols ≠ p.rows := h
    simp [OpFn.apply, WMat.arith, if_neg h']

theorem good_sym_times (t : SMat K) (p : WMat K) : Good be prec junk .times .multiplySmM (.sym t) (.mat p) := by
  constructor
  · intro h
    have h' : (t.toMat be).cols = p.rows := h
    refine ⟨_, by simp only [OpFn.apply, WMat.arith, if_pos h', Outcome.ok_bind]; rfl, ?_, rfl⟩
    exact ⟨rfl, rfl, rfl, fun _ _ _ _ => rfl⟩
  · intro h c
    have h' : (t.toMat be).cols ≠ p.rows := h
    simp [OpFn.apply, WMat.arith, if_neg h']

theorem good_sym_cv (t : SMat K) (v : WVec K) : Good be prec junk .times .multiplySmCv (.sym t) (.cv v) := by
  constructor
  · intro h
    have h' : (t.toMat be).cols = v.len := h
    refine ⟨_, by simp only [OpFn.apply, WMat.mulVec, if_pos h', Outcome.ok_bind]; rfl, ?_, rfl⟩
    exact ⟨rfl, rfl, rfl, fun _ _ _ _ => rfl⟩
  · intro h c
    have h' : (t.toMat be).cols ≠ v.len := h
    simp [OpFn.apply, WMat.mulVec, if_neg h']

theorem good_mat_cv (m : WMat K) (v : WVec K) : Good be prec junk .times .multiplyMCv (.mat m) (.cv v) := by
  constructor
  · intro h
    have h' : m.cols = v.len := h
    refine ⟨_, by simp only [OpFn.apply, WMat.mulVec, if_pos h', Outcome.ok_bind]; rfl, ?_, rfl⟩
    exact ⟨rfl, rfl, rfl, fun _ _ _ _ => rfl⟩
  · intro h c
    have h' : m.cols ≠ v.len := h
    simp [OpFn.apply, WMat.mulVec, if_neg h']

theorem good_cv_rv (v w : WVec K) : Good be prec junk .times .multiplyCvRv (.cv v) (.rv w) := by
  constructor
  · intro _
    obtain ⟨f, e, hf⟩ := WVec.outer_eq be junk v w
    refine ⟨.mat ⟨v.len, w.len, f⟩, by simp only [OpFn.apply, e, Outcome.ok_bind], ⟨rfl, rfl, rfl, fun i hi j hj => ?_⟩, rfl⟩
    have e1 := hf i hi j hj
    simpa [tableOf, Table.mul] using e1
  · intro h
    exact absurd rfl h

theorem good_rv_cv (v w : WVec K) : Good be prec junk .times .multiplyRvCv (.rv v) (.cv w) := by
  constructor
  · intro h
    have h' : v.len = w.len := h
    refine ⟨.num (∑ p ∈ Finset.range v.len, v.entry p * w.entry p), ?_, ⟨rfl, rfl, rfl, fun _ _ _ _ => rfl⟩, rfl⟩
    simp only [OpFn.apply, WVec.inner_eq be h', Outcome.ok_bind]
  · intro h c e
    have h' : v.len ≠ w.len := h
    simp only [OpFn.apply] at e
    obtain ⟨x, e1, -⟩ := Outcome.bind_eq_ok.1 e
    exact WVec.inner_misfit be h' x e1

theorem good_sym_plus (t u : SMat K) : Good be prec junk .plus (.stdPlus .sym) (.sym t) (.sym u) := by
  constructor
  · intro h
    have h' : t.n = u.n := h.1
    obtain ⟨r, e, e1, e2⟩ := SMat.ofExpr_view be t.n (e := fun i j => t.view be i j + u.view be i j) (by
      rintro rfl i j
      show t.view _ i j + u.view _ i j = t.view _ j i + u.view _ j i
      rw [t.view_symm_boost i, u.view_symm_boost i])
    refine ⟨.sym r, ?_, ⟨rfl, e1, e1, fun i hi j hj => e2 i (e1 ▸ hi) j (e1 ▸ hj)⟩, rfl⟩
    simp only [OpFn.apply, SMat.combine, if_pos h', Bool.false_eq_true, if_false, e, Outcome.ok_bind]
  · intro h c
    have h' : t.n ≠ u.n := fun e => h ⟨e, e⟩
    simp [OpFn.apply, SMat.combine, if_neg h']

theorem good_sym_minus (t u : SMat K) : Good be prec junk .minus (.stdMinus .sym) (.sym t) (.sym u) := by
  constructor
  · intro h
    have h' : t.n = u.n := h.1
    obtain ⟨r, e, e1, e2⟩ := SMat.ofExpr_view be t.n (e := fun i j => t.view be i j - u.view be i j) (by
      rintro rfl i j
      show t.view _ i j - u.view _ i j = t.view _ j i - u.view _ j i
      rw [t.view_symm_boost i, u.view_symm_boost i])
    refine ⟨.sym r, ?_, ⟨rfl, e1, e1, fun i hi j hj => e2 i (e1 ▸ hi) j (e1 ▸ hj)⟩, rfl⟩
    simp only [OpFn.apply, SMat.combine, if_pos h', if_true, e, Outcome.ok_bind]
  · intro h c
    have h' : t.n ≠ u.n := fun e => h ⟨e, e⟩
    simp [OpFn.apply, SMat.combine, if_neg h']

theorem good_cv_equals (v w : WVec K) : Good be prec junk .equals (.stdEqual .cv) (.cv v) (.cv w) := by
  refine ⟨fun _ => ⟨_, rfl, ⟨_, rfl, ?_⟩, rfl⟩, fun h => absurd trivial h⟩
  rw [WVec.equal_iff]
  exact ⟨fun h => ⟨h.1, rfl, fun i hi _ _ => h.2 i hi⟩, fun h => ⟨h.1, fun i hi => h.2.2 i hi 0 Nat.one_pos⟩⟩

theorem good_rv_equals (v w : WVec K) : Good be prec junk .equals (.stdEqual .rv) (.rv v) (.rv w) := by
  refine ⟨fun _ => ⟨_, rfl, ⟨_, rfl, ?_⟩, rfl⟩, fun h => absurd trivial h⟩
  rw [WVec.equal_iff]
  exact ⟨fun h => ⟨rfl, h.1, fun _ _ j hj => h.2 j hj⟩, fun h => ⟨h.2.1, fun i hi => h.2.2 0 Nat.one_pos i hi⟩⟩

theorem good_mat_equals (m p : WMat K) : Good be prec junk .equals (.stdEqual .mat) (.mat m) (.mat p) := by
  refine ⟨fun _ => ⟨_, rfl, ⟨_, rfl, ?_⟩, rfl⟩, fun h => absurd trivial h⟩
  exact WMat.equal_iff be prec ⟨rfl, rfl, fun _ _ _ _ => rfl⟩ ⟨rfl, rfl, fun _ _ _ _ => rfl⟩

theorem good_sym_equals (t u : SMat K) : Good be prec junk .equals (.stdEqual .sym) (.sym t) (.sym u) := by
  refine ⟨fun _ => ⟨_, rfl, ⟨_, rfl, ?_⟩, rfl⟩, fun h => absurd trivial h⟩
  exact WMat.equal_iff be prec ⟨rfl, rfl, fun _ _ _ _ => rfl⟩ ⟨rfl, rfl, fun _ _ _ _ => rfl⟩

theorem good_assign_cv (v : WVec K) (x : K) : Good be prec junk .assign (.setTD .cv) (.cv v) (.num x) :=
  ⟨fun _ => ⟨_, rfl, ⟨rfl, rfl, rfl, fun _ _ _ _ => rfl⟩, rfl⟩, fun h => absurd trivial h⟩

theorem good_assign_rv (v : WVec K) (x : K) : Good be prec junk .assign (.setTD .rv) (.rv v) (.num x) :=
  ⟨fun _ => ⟨_, rfl, ⟨rfl, rfl, rfl, fun _ _ _ _ => rfl⟩, rfl⟩, fun h => absurd trivial h⟩

theorem good_assign_mat (m : WMat K) (x : K) : Good be prec junk .assign (.setTD .mat) (.mat m) (.num x) :=
  ⟨fun _ => ⟨_, rfl, ⟨rfl, rfl, rfl, fun _ _ _ _ => rfl⟩, rfl⟩, fun h => absurd trivial h⟩

theorem good_assign_sym (t : SMat K) (x : K) : Good be prec junk .assign (.setTD .sym) (.sym t) (.num x) := by
  refine ⟨fun _ => ⟨_, rfl, ⟨rfl, rfl, rfl, fun i _ j _ => ?_⟩, rfl⟩, fun h => absurd trivial h⟩
  cases be <;> simp [tableOf, SMat.fill, SMat.view, Table.map]

/-- The symbol of an operator with a number. -/
def symOf : ScalarOp → OpSym
  | .add => .plus
  | .sub => .minus
  | .mul => .times
  | .div => .over

theorem allowed_num (op : ScalarOp) (a : SVal K) (x : K) :
    Allowed be (symOf op) a (.num x) ↔ ¬ (op = .div ∧ x = 0) := by
  cases op <;> simp [symOf, Allowed]

theorem good_double_cv (op : ScalarOp) (v : WVec K) (x : K) :
    Good be prec junk (symOf op) (.withDouble op .cv) (.cv v) (.num x) := by
  constructor
  · intro h
    have h' := (allowed_num be op _ x).1 h
    refine ⟨_, by simp only [OpFn.apply, WVec.scalar, if_neg h', Outcome.ok_bind]; rfl, ?_, rfl⟩
    cases op <;> exact ⟨rfl, rfl, rfl, fun _ _ _ _ => rfl⟩
  · intro h c
    have h' := not_not.1 (mt (allowed_num be op _ x).2 h)
    simp [OpFn.apply, WVec.scalar, if_pos h']

theorem good_double_rv (op : ScalarOp) (v : WVec K) (x : K) :
    Good be prec junk (symOf op) (.withDouble op .rv) (.rv v) (.num x) := by
  constructor
  · intro h
    have h' := (allowed_num be op _ x).1 h
    refine ⟨_, by simp only [OpFn.apply, WVec.scalar, if_neg h', Outcome.ok_bind]; rfl, ?_, rfl⟩
    cases op <;> exact ⟨rfl, rfl, rfl, fun _ _ _ _ => rfl⟩
  · intro h c
    have h' := not_not.1 (mt (allowed_num be op _ x).2 h)
    simp [OpFn.apply, WVec.scalar, if_pos h']

theorem good_double_mat (op : ScalarOp) (m : WMat K) (x : K) :
    Good be prec junk (symOf op) (.withDouble op .mat) (.mat m) (.num x) := by
  constructor
  · intro h
    have h' := (allowed_num be op _ x).1 h
    refine ⟨_, by simp only [OpFn.apply, WMat.scalar, if_neg h', Outcome.ok_bind]; rfl, ?_, rfl⟩
    cases op <;> exact ⟨rfl, rfl, rfl, fun _ _ _ _ => rfl⟩
  · intro h c
    have h' := not_not.1 (mt (allowed_num be op _ x).2 h)
    simp [OpFn.apply, WMat.scalar, if_pos h']

theorem good_double_sym (op : ScalarOp) (t : SMat K) (x : K) :
    Good be prec junk (symOf op) (.withDouble op .sym) (.sym t) (.num x) := by
  constructor
  · intro h
    have h' := (allowed_num be op _ x).1 h
    obtain ⟨r, e, e1, e2⟩ := SMat.ofExpr_view be t.n (e := fun i j => op.apply (t.view be i j) x) (by
      rintro rfl i j
      show op.apply (t.view _ i j) x = op.apply (t.view _ j i) x
      rw [t.view_symm_boost i])
    refine ⟨.sym r, by simp only [OpFn.apply, SMat.scalar, if_neg h', e, Outcome.ok_bind], ?_, rfl⟩
    cases op <;> exact ⟨rfl, e1, e1, fun i hi j hj => e2 i (e1 ▸ hi) j (e1 ▸ hj)⟩
  · intro h c
    have h' := not_not.1 (mt (allowed_num be op _ x).2 h)
    simp [OpFn.apply, SMat.scalar, if_pos h']

/-- Every operator that a script can reach does what its symbol says. -/
theorem good_of_resolve {s : OpSym} {a b : SVal K} {f : OpFn} (h : resolve typekitOps s a.ty b.ty = some f) :
    Good be prec junk s f a b := by
  cases s <;> cases a <;> cases b <;>
    first
    | exact absurd (show (none : Option OpFn) = some f from h) (by simp)
    | (obtain rfl := Option.some.inj (show some _ = some f from h)
       first
       | exact good_cv_plus be prec junk _ _
       | exact good_cv_minus be prec junk _ _
       | exact good_rv_plus be prec junk _ _
       | exact good_rv_minus be prec junk _ _
       | exact good_mat_plus be prec junk _ _
       | exact good_mat_minus be prec junk _ _
       | exact good_mat_times be prec junk _ _
       | exact good_sym_times be prec junk _ _
       | exact good_sym_cv be prec junk _ _
       | exact good_mat_cv be prec junk _ _
       | exact good_cv_rv be prec junk _ _
       | exact good_rv_cv be prec junk _ _
       | exact good_sym_plus be prec junk _ _
       | exact good_sym_minus be prec junk _ _
       | exact good_cv_equals be prec junk _ _
       | exact good_rv_equals be prec junk _ _
       | exact good_mat_equals be prec junk _ _
       | exact good_sym_equals be prec junk _ _
       | exact good_assign_cv be prec junk _ _
       | exact good_assign_rv be prec junk _ _
       | exact good_assign_mat be prec junk _ _
       | exact good_assign_sym be prec junk _ _
       | exact good_double_cv be prec junk .add _ _
       | exact good_double_cv be prec junk .sub _ _
       | exact good_double_cv be prec junk .mul _ _
       | exact good_double_cv be prec junk .div _ _
       | exact good_double_rv be prec junk .add _ _
       | exact good_double_rv be prec junk .sub _ _
       | exact good_double_rv be prec junk .mul _ _
       | exact good_double_rv be prec junk .div _ _
       | exact good_double_mat be prec junk .add _ _
       | exact good_double_mat be prec junk .sub _ _
       | exact good_double_mat be prec junk .mul _ _
       | exact good_double_mat be prec junk .div _ _
       | exact good_double_sym be prec junk .add _ _
       | exact good_double_sym be prec junk .sub _ _
       | exact good_double_sym be prec junk .mul _ _
       | exact good_double_sym be prec junk .div _ _)

end

/-- Answers of comparisons are not operands. -/
theorem resolve_not_truth {s : OpSym} {a b : STy} {f : OpFn} (h : resolve typekitOps s a b = some f) :
    a ≠ .truth ∧ b ≠ .truth := by
  have key : ∀ s a b, resolve typekitOps s a b ≠ none → a ≠ .truth ∧ b ≠ .truth := by
    intro s a b
    cases s <;> cases a <;> cases b <;> decide
  exact key s a b (by rw [h]; simp)

/-! ## The meaning is unique -/

theorem same_symm {a b : Table K} (h : a.Same b) : b.Same a :=
  ⟨h.1.symm, h.2.1.symm, fun i hi j hj => (h.2.2 i (h.1 ▸ hi) j (h.2.1 ▸ hj)).symm⟩

theorem same_trans {a b c : Table K} (h : a.Same b) (h' : b.Same c) : a.Same c :=
  ⟨h.1.trans h'.1, h.2.1.trans h'.2.1, fun i hi j hj =>
    (h.2.2 i hi j hj).trans (h'.2.2 i (h.1 ▸ hi) j (h.2.1 ▸ hj))⟩

theorem same_map {a b : Table K} (h : a.Same b) (f : K → K) : (a.map f).Same (b.map f) :=
  ⟨h.1, h.2.1, fun i hi j hj => congrArg f (h.2.2 i hi j hj)⟩

theorem same_zip {a b a' b' : Table K} (h : a.Same b) (h' : a'.Same b') (hr : a.rows = a'.rows)
    (hc : a.cols = a'.cols) (f : K → K → K) : (a.zip f a').Same (b.zip f b') :=
  ⟨h.1, h.2.1, fun i hi j hj => congrArg₂ f (h.2.2 i hi j hj) (h'.2.2 i (hr ▸ hi) j (hc ▸ hj))⟩

theorem same_mul {a b a' b' : Table K} (h : a.Same b) (h' : a'.Same b') (hc : a.cols = a'.rows) :
    (a.mul a').Same (b.mul b') := by
  refine ⟨h.1, h'.2.1, fun i hi j hj => ?_⟩
  show ∑ k ∈ Finset.range a.cols, a.entry i k * a'.entry k j = ∑ k ∈ Finset.range b.cols, b.entry i k * b'.entry k j
  rw [← h.2.1]
  refine Finset.sum_congr rfl fun k hk => ?_
  have hk := Finset.mem_range.1 hk
  rw [h.2.2 i hi k hk, h'.2.2 k (hc ▸ hk) j hj]

theorem Spec.SameObject.ty {be : Backend} {a b : SVal K} (h : SameObject be a b) : a.ty = b.ty := by
  cases a <;> cases b <;> first | exact h.1 | rfl

theorem Spec.SameObject.table {be : Backend} {a b : SVal K} (h : SameObject be a b) :
    (tableOf be a).Same (tableOf be b) := by
  cases a <;> cases b <;> first | exact h.2 | exact ⟨rfl, rfl, fun _ _ _ _ => rfl⟩

theorem Spec.SameObject.of {be : Backend} {a b : SVal K} (h : a.ty = b.ty) (hn : a.ty ≠ .truth)
    (ht : (tableOf be a).Same (tableOf be b)) : SameObject be a b := by
  cases a <;> cases b <;> first | exact absurd rfl hn | exact ⟨h, ht⟩

/-- The meaning of an operation does not depend on how the operands are stored. -/
theorem answers_unique {be : Backend} {s : OpSym} {a b c a' b' c' : SVal K} (ha : SameObject be a a')
    (hb : SameObject be b b') (hal : Allowed be s a b) (h : Answers be s a b c) (h' : Answers be s a' b' c')
    (hn : a.ty ≠ .truth) (hnb : b.ty ≠ .truth) : SameObject be c c' := by
  have ta := ha.ty
  have tb := hb.ty
  have sa := ha.table
  have sb := hb.table
  have key : ∀ {u u' : Table K} {k : STy}, k ≠ .truth → c.ty = k → c'.ty = k → (tableOf be c).Same u →
      (tableOf be c').Same u' → u.Same u' → SameObject be c c' := by
    intro u u' k hk h1 h2 h3 h4 h5
    exact Spec.SameObject.of (h1.trans h2.symm) (h1 ▸ hk) (same_trans h3 (same_trans h5 (same_symm h4)))
  cases b with
  | num x =>
    cases b' with
    | num y =>
      have hxy : x = y := sb.2.2 0 Nat.one_pos 0 Nat.one_pos
      subst hxy
      cases s with
      | equals =>
        obtain ⟨t, rfl, e⟩ := h
        obtain ⟨t', rfl, e'⟩ := h'
        show t = t'
        rw [Bool.eq_iff_iff, e, e']
        exact ⟨fun q => same_trans (same_symm sa) q, fun q => same_trans sa q⟩
      | _ => exact key hn h.1 (h'.1.trans ta.symm) h.2 h'.2 (same_map sa _)
    | _ => simp [SVal.ty] at tb
  | truth q => exact absurd rfl hnb
  | _ =>
    cases b' <;> first
      | (simp [SVal.ty] at tb; done)
      | (cases s with
        | plus => exact key hn h.1 (h'.1.trans ta.symm) h.2 h'.2 (same_zip sa sb hal.1 hal.2 _)
        | minus => exact key hn h.1 (h'.1.trans ta.symm) h.2 h'.2 (same_zip sa sb hal.1 hal.2 _)
        | times =>
          refine key ?_ h.1 (h'.1.trans (by rw [← ta]; rfl)) h.2 h'.2 (same_mul sa sb hal)
          cases a <;> simp [SVal.ty, productKind]
        | over => exact h.elim
        | assign => exact h.elim
        | equals =>
          obtain ⟨t, rfl, e⟩ := h
          obtain ⟨t', rfl, e'⟩ := h'
          show t = t'
          rw [Bool.eq_iff_iff, e, e']
          exact ⟨fun q => same_trans (same_symm sa) (same_trans q sb),
            fun q => same_trans sa (same_trans q (same_symm sb))⟩)

theorem Spec.SameObject.self {be : Backend} (a : SVal K) : SameObject be a a := by
  cases a <;> first | rfl | exact ⟨rfl, rfl, rfl, fun _ _ _ _ => rfl⟩

end BFL
