import Verif.Lemmas.MatrixProgram
import Mathlib.Algebra.Order.Field.Rat

/-!
# C82: programs with the matrix classes

A program that makes, changes, combines and compares matrices computes ordinary matrix algebra on
either back end, as long as it stays within the contract written in `Spec.Tables.Step`. Outside of it
the back ends differ.
-/

set_option linter.unusedSectionVars false

namespace BFL.Props

open BFL BFL.Spec

variable {K : Type} [Field K] [LinearOrder K] [IsStrictOrderedRing K]

/-- C82: a program within the contract runs to its end on both back ends, every variable then reads as
matrix algebra says, and every comparison gave the right answer. Missing from the claim for all programs:
the operations below, where the back ends differ. -/
theorem C82_contract_partial (prog : List (MatCmd K)) (t : Tables K) (h : Tables.Steps .start prog t)
    (be : Backend) (prec : K) : ∃ s, MatState.run be prec .start prog = .ok s ∧ Shows be s t := by
  obtain ⟨s, e, i⟩ := MatState.run_inv (be := be) (prec := prec) (s := .start)
    ⟨List.Forall₂.nil, List.Forall₂.nil, rfl⟩ h
  exact ⟨s, e, i.shows⟩

/-- C82: a command whose indices or sizes do not fit, after such a program, is undefined behaviour on
both back ends: neither reports it, neither gives a well-defined wrong result. -/
theorem C82_misfit (prog : List (MatCmd K)) (t : Tables K) (h : Tables.Steps .start prog t) (c : MatCmd K)
    (hc : Tables.Misfit t c) (be : Backend) (prec : K) :
    MatState.run be prec .start (prog ++ [c]) = .ub := by
  obtain ⟨s, e, i⟩ := MatState.run_inv (be := be) (prec := prec) (s := .start)
    ⟨List.Forall₂.nil, List.Forall₂.nil, rfl⟩ h
  rw [MatState.run_append, e, Outcome.ok_bind]
  exact MatState.exec_misfit i hc

/-- C82: `convertToSymmetricMatrix` of a square matrix takes the lower half on Boost and the upper half
on Eigen, so above the diagonal the results read `m(j,i)` and `m(i,j)`. -/
theorem C82_toSym_halves (m : WMat K) (hsq : m.rows = m.cols) (junk : Nat → Nat → K) :
    ∃ sb se, m.toSym .boost junk = .ok sb ∧ m.toSym .eigen junk = .ok se ∧
      ∀ i j, i ≤ j → j < m.rows →
        sb.get .boost (i + 1) (j + 1) = m.get (j + 1) (i + 1) ∧
        se.get .eigen (i + 1) (j + 1) = m.get (i + 1) (j + 1) := by
  obtain ⟨sb, b1, b2, b3⟩ := WMat.toSym_eq .boost junk hsq
  obtain ⟨se, c1, c2, c3⟩ := WMat.toSym_eq .eigen junk hsq
  refine ⟨sb, se, b1, c1, fun i j hij hj => ?_⟩
  rw [SMat.get, if_pos (by omega), SMat.get, if_pos (by omega), WMat.get, if_pos (by omega), WMat.get,
    if_pos (by omega)]
  simp only [Nat.add_sub_cancel]
  rw [b3 i (by omega) j hj, c3 i (by omega) j hj]
  simp only [if_pos hij, and_true]
  by_cases h : j ≤ i
  · have : i = j := by omega
    subst this
    rw [if_pos le_rfl]
  · rw [if_neg h]

/-- C82, negation: if two mirrored entries of the matrix differ, the two back ends disagree about the
entry of the result. -/
theorem C82_toSym_differ (m : WMat K) (hsq : m.rows = m.cols) (junk : Nat → Nat → K) (i j : Nat) (hij : i < j)
    (hj : j < m.rows) (hne : m.entry i j ≠ m.entry j i) :
    ∃ sb se, m.toSym .boost junk = .ok sb ∧ m.toSym .eigen junk = .ok se ∧
      sb.get .boost (i + 1) (j + 1) ≠ se.get .eigen (i + 1) (j + 1) := by
  obtain ⟨sb, se, h1, h2, h3⟩ := C82_toSym_halves m hsq junk
  refine ⟨sb, se, h1, h2, ?_⟩
  rw [(h3 i j hij.le hj).1, (h3 i j hij.le hj).2, WMat.get, if_pos (by omega), WMat.get, if_pos (by omega)]
  simp only [Nat.add_sub_cancel, ne_eq, Outcome.ok.injEq]
  exact fun h => hne h.symm

/-- C82, negation: after one assignment `s(i,j) = x` off the diagonal the mirrored entry is `x` on Boost
and the old one on Eigen, where the transpose of the "symmetric" matrix reads the same as the matrix. -/
theorem C82_symPut_differ (s : SMat K) (i j : Nat) (x : K) (hi : 1 ≤ i ∧ i ≤ s.n) (hj : 1 ≤ j ∧ j ≤ s.n)
    (hij : i ≠ j) :
    ∃ sb se, s.put .boost i j x = .ok sb ∧ s.put .eigen i j x = .ok se ∧
      sb.get .boost i j = .ok x ∧ sb.get .boost j i = .ok x ∧
      se.get .eigen i j = .ok x ∧ se.get .eigen j i = s.get .eigen j i ∧
      se.trans.get .eigen i j = .ok x := by
  have e1 : s.put .boost i j x = .ok { s with
      store := fun a b => if a = max (i - 1) (j - 1) ∧ b = min (i - 1) (j - 1) then x else s.store a b } := by
    rw [SMat.put, if_pos ⟨hi, hj⟩]
  have e2 : s.put .eigen i j x = .ok { s with
      store := fun a b => if a = i - 1 ∧ b = j - 1 then x else s.store a b } := by
    rw [SMat.put, if_pos ⟨hi, hj⟩]
  refine ⟨_, _, e1, e2, ?_, ?_, ?_, ?_, ?_⟩
  · rw [SMat.get, if_pos ⟨hi, hj⟩]
    simp only [SMat.view, Outcome.ok.injEq]
    split
    · rw [if_pos (by omega)]
    · rw [if_pos (by omega)]
  · rw [SMat.get, if_pos ⟨hj, hi⟩]
    simp only [SMat.view, Outcome.ok.injEq]
    split
    · rw [if_pos (by omega)]
    · rw [if_pos (by omega)]
  · rw [SMat.get, if_pos ⟨hi, hj⟩]
    simp [SMat.view]
  · rw [SMat.get, if_pos ⟨hj, hi⟩, SMat.get, if_pos ⟨hj, hi⟩]
    simp only [SMat.view, Outcome.ok.injEq]
    rw [if_neg (by omega)]
  · rw [SMat.trans, SMat.get, if_pos ⟨hi, hj⟩]
    simp [SMat.view]

/-- C82, negation: `resize` to another size keeps what fits and fills up with zeros on Boost; on Eigen any
entries at all can be found afterwards. -/
theorem C82_resize_differ (m : WMat K) (r c : Nat) (hne : ¬ (m.rows = r ∧ m.cols = c)) (w : Nat → Nat → K) :
    (∀ junk, ∀ i < r, ∀ j < c, (m.resize .boost junk r c).get (i + 1) (j + 1) =
      if i < m.rows ∧ j < m.cols then m.get (i + 1) (j + 1) else .ok 0) ∧
    ∃ junk, ∀ i < r, ∀ j < c, (m.resize .eigen junk r c).get (i + 1) (j + 1) = .ok (w i j) := by
  constructor
  · intro junk i hi j hj
    show WMat.get ⟨r, c, fun i j => if i < m.rows ∧ j < m.cols then m.entry i j else 0⟩ (i + 1) (j + 1) = _
    rw [WMat.get, if_pos (by show (1 ≤ i + 1 ∧ i + 1 ≤ r) ∧ 1 ≤ j + 1 ∧ j + 1 ≤ c; omega)]
    simp only [Nat.add_sub_cancel]
    by_cases h : i < m.rows ∧ j < m.cols
    · rw [if_pos h, if_pos h, WMat.get, if_pos (by omega)]
      rfl
    · rw [if_neg h, if_neg h]
  · refine ⟨w, fun i hi j hj => ?_⟩
    rw [WMat.resize, if_neg hne, WMat.get, if_pos (by show (1 ≤ i + 1 ∧ i + 1 ≤ r) ∧ 1 ≤ j + 1 ∧ j + 1 ≤ c; omega)]
    rfl

/-- C82, negation: a symmetric matrix `+=` or `-=` a matrix that is not symmetric ends the program on Boost
(with the checks of a debug build); on Eigen it gives a "symmetric" matrix that is not symmetric. -/
theorem C82_combineMat_differ (minus : Bool) (sb se : SMat K) (m : WMat K) (a : Table K) (ha : a.Symmetric)
    (hb : sb.n = a.rows ∧ ∀ i < a.rows, ∀ j < a.rows, sb.get .boost (i + 1) (j + 1) = .ok (a.entry i j))
    (he : se.n = a.rows ∧ ∀ i < a.rows, ∀ j < a.rows, se.get .eigen (i + 1) (j + 1) = .ok (a.entry i j))
    (hr : m.rows = a.rows) (hc : m.cols = a.rows) (i j : Nat) (hi : i < a.rows) (hj : j < a.rows)
    (hne : m.entry i j ≠ m.entry j i) :
    sb.combineMat .boost minus m = .abort ∧
    ∃ s, se.combineMat .eigen minus m = .ok s ∧
      s.get .eigen (i + 1) (j + 1) ≠ s.get .eigen (j + 1) (i + 1) := by
  have hac := ha.1
  have vb : ∀ p < a.rows, ∀ q < a.rows, sb.view .boost p q = a.entry p q := by
    intro p hp q hq
    have := hb.2 p hp q hq
    rw [SMat.get, if_pos (by omega)] at this
    exact Outcome.ok.inj this
  have ve : ∀ p < a.rows, ∀ q < a.rows, se.view .eigen p q = a.entry p q := by
    intro p hp q hq
    have := he.2 p hp q hq
    rw [SMat.get, if_pos (by omega)] at this
    exact Outcome.ok.inj this
  have hs := ha.2 i hi j (by omega)
  constructor
  · rw [SMat.combineMat, if_pos (by omega), SMat.ofExpr, if_neg]
    intro hall
    have := hall i (by omega) j (by omega)
    simp only [vb i hi j hj, vb j hj i hi, hs] at this
    cases minus with
    | true => exact hne (by simpa using this)
    | false => exact hne (by simpa using this)
  · refine ⟨_, by rw [SMat.combineMat, if_pos (by omega), SMat.ofExpr], ?_⟩
    rw [SMat.get, if_pos (by show (1 ≤ i + 1 ∧ i + 1 ≤ se.n) ∧ 1 ≤ j + 1 ∧ j + 1 ≤ se.n; omega), SMat.get,
      if_pos (by show (1 ≤ j + 1 ∧ j + 1 ≤ se.n) ∧ 1 ≤ i + 1 ∧ i + 1 ≤ se.n; omega)]
    simp only [Nat.add_sub_cancel, ne_eq, Outcome.ok.injEq]
    show ¬ (if minus then se.view .eigen i j - m.entry i j else se.view .eigen i j + m.entry i j) =
      (if minus then se.view .eigen j i - m.entry j i else se.view .eigen j i + m.entry j i)
    rw [ve i hi j hj, ve j hj i hi, hs]
    cases minus with
    | true => exact fun h => hne (by simpa using h)
    | false => exact fun h => hne (by simpa using h)

/-- C82, negation: a symmetric matrix made of a row repeated reads `v(min(i,j))` on Boost and `v(j)` on
Eigen. -/
theorem C82_symRows_differ (v : List K) :
    ∃ sb se, SMat.ofRows .boost v.length v = .ok sb ∧ SMat.ofRows .eigen v.length v = .ok se ∧
      ∀ i < v.length, ∀ j < v.length,
        sb.get .boost (i + 1) (j + 1) = vget v (min i j) ∧ se.get .eigen (i + 1) (j + 1) = vget v j := by
  refine ⟨_, _, by rw [SMat.ofRows, if_pos rfl], by rw [SMat.ofRows, if_pos rfl], fun i hi j hj => ?_⟩
  rw [SMat.get, if_pos (by show (1 ≤ i + 1 ∧ i + 1 ≤ v.length) ∧ 1 ≤ j + 1 ∧ j + 1 ≤ v.length; omega), SMat.get,
    if_pos (by show (1 ≤ i + 1 ∧ i + 1 ≤ v.length) ∧ 1 ≤ j + 1 ∧ j + 1 ≤ v.length; omega),
    vget_of_lt (by omega : min i j < v.length), vget_of_lt hj]
  simp only [Nat.add_sub_cancel, SMat.view, Outcome.ok.injEq]
  constructor
  · by_cases h : j ≤ i
    · rw [if_pos h, if_pos h, List.getD_eq_getElem?_getD, List.getElem?_eq_getElem hj, Option.getD_some]
      simp only [min_eq_right h]
    · rw [if_neg h, if_pos (by omega), List.getD_eq_getElem?_getD, List.getElem?_eq_getElem hi, Option.getD_some]
      simp only [min_eq_left (by omega : i ≤ j)]
  · rw [List.getD_eq_getElem?_getD, List.getElem?_eq_getElem hj, Option.getD_some]

/-! ## A concrete program -/

namespace MatrixProgramExample

/-- `Matrix m(2,2); m = 1; m(1,2) = 3; Matrix t = m.transpose(); Matrix p = m * t;` then `p` converted to a
symmetric matrix `s`, `s(1,2) = s(2,1) = 5`, and `p == m`. -/
def prog : List (MatCmd ℚ) :=
  [.matNew 2 2 1, .matPut 0 1 2 3, .matTrans 0, .matArith .mul 0 1, .toSym 2 (fun _ _ => 77), .symSet 0 1 2 5,
    .matEqual 2 0]

/-- The matrix. -/
def m0 : Table ℚ := (⟨2, 2, fun _ _ => 1⟩ : Table ℚ).set 1 2 3

/-- The variables after the program. -/
def final : Tables ℚ :=
  { mats := [m0, m0.flip, m0.mul m0.flip], syms := [((m0.mul m0.flip).set 1 2 5).set 2 1 5], tests := [false] }

theorem steps : Tables.Steps .start prog final := by
  refine .cons (.matNew _ 2 2 1) (.cons (.matPut _ 0 1 2 3 _ rfl (by unfold Table.Has; decide)) (.cons (.matTrans _ 0 m0 rfl)
    (.cons (.matArith _ .mul 0 1 m0 m0.flip rfl rfl rfl) (.cons (.toSym _ 2 _ (m0.mul m0.flip) rfl ?_)
      (.cons (.symSet _ 0 1 2 5 (m0.mul m0.flip) rfl (by unfold Table.Has; decide))
        (.cons (.matEqual _ 2 0 (m0.mul m0.flip) m0 rfl rfl false ?_) (.nil _)))))))
  · show _ ∧ _
    decide +kernel
  · have : ¬ (m0.mul m0.flip).Same m0 := fun h => by
      have := h.2.2 0 (by decide) 0 (by decide)
      exact absurd this (by decide +kernel)
    simp [this]

end MatrixProgramExample

open MatrixProgramExample in
/-- The program on both back ends; `p` is `[[10,4],[4,2]]`, the symmetric matrix `[[10,5],[5,2]]`. -/
example (be : Backend) (prec : ℚ) : ∃ s, MatState.run be prec .start prog = .ok s ∧ Shows be s final :=
  C82_contract_partial prog final steps be prec

open MatrixProgramExample in
example : final.mats.map (fun a => (a.entry 0 0, a.entry 0 1, a.entry 1 0, a.entry 1 1)) =
      [(1, 3, 1, 1), (1, 1, 3, 1), (10, 4, 4, 2)] ∧
    final.syms.map (fun a => (a.entry 0 0, a.entry 0 1, a.entry 1 0, a.entry 1 1)) = [(10, 5, 5, 2)] := by
  decide +kernel

open MatrixProgramExample in
/-- Writing entry (3,1) of a 2 by 2 matrix. -/
example (be : Backend) : MatState.run be 0 .start (prog ++ [.matPut 0 3 1 7]) = .ub :=
  C82_misfit prog final steps _ (.matPut final 0 3 1 7 m0 rfl (by unfold Table.Has; decide)) be 0

/-- `[[1,3],[1,1]]` converted: entry (1,2) is 1 on Boost and 3 on Eigen. -/
example : ∃ sb se, (⟨2, 2, fun i j => if i = 0 ∧ j = 1 then 3 else 1⟩ : WMat ℚ).toSym .boost (fun _ _ => 0) = .ok sb ∧
    (⟨2, 2, fun i j => if i = 0 ∧ j = 1 then 3 else 1⟩ : WMat ℚ).toSym .eigen (fun _ _ => 0) = .ok se ∧
    sb.get .boost 1 2 ≠ se.get .eigen 1 2 :=
  C82_toSym_differ _ rfl _ 0 1 (by decide) (by decide) (by decide +kernel)

/-- Identity matrix, entry (1,2) set to 4. -/
example : ∃ sb se, (⟨2, fun i j => if i = j then 1 else 0⟩ : SMat ℚ).put .boost 1 2 4 = .ok sb ∧
    (⟨2, fun i j => if i = j then 1 else 0⟩ : SMat ℚ).put .eigen 1 2 4 = .ok se ∧
    sb.get .boost 2 1 = .ok 4 ∧ se.get .eigen 2 1 = .ok 0 := by
  obtain ⟨sb, se, h1, h2, _, h4, _, h6, _⟩ := C82_symPut_differ
    (⟨2, fun i j => if i = j then 1 else 0⟩ : SMat ℚ) 1 2 4 (by decide) (by decide) (by decide)
  exact ⟨sb, se, h1, h2, h4, h6.trans (by decide +kernel)⟩

/-- A 1 by 1 matrix resized to 2 by 2. -/
example : ∃ junk, ((⟨1, 1, fun _ _ => 5⟩ : WMat ℚ).resize .eigen junk 2 2).get 1 1 = .ok 42 :=
  (C82_resize_differ (⟨1, 1, fun _ _ => 5⟩ : WMat ℚ) 2 2 (by decide) (fun _ _ => 42)).2.imp
    fun _ h => h 0 (by decide) 0 (by decide)

/-- The identity matrix `+=` `[[0,1],[0,0]]`. -/
example : SMat.combineMat .boost false (⟨2, fun i j => if i = j then 1 else 0⟩ : SMat ℚ)
    ⟨2, 2, fun i j => if i = 0 ∧ j = 1 then 1 else 0⟩ = .abort :=
  (C82_combineMat_differ false (⟨2, fun i j => if i = j then 1 else 0⟩ : SMat ℚ)
    ⟨2, fun i j => if i = j then 1 else 0⟩ ⟨2, 2, fun i j => if i = 0 ∧ j = 1 then 1 else 0⟩
    ⟨2, 2, fun i j => if i = j then 1 else 0⟩ (by show _ ∧ _; decide +kernel) (by decide +kernel)
    (by decide +kernel) rfl rfl 0 1 (by decide) (by decide) (by decide +kernel)).1

/-- The row (1, 2): entry (2,2) of the result is 2, entry (1,2) is 1 on Boost and 2 on Eigen. -/
example : ∃ sb se, SMat.ofRows .boost 2 [(1 : ℚ), 2] = .ok sb ∧ SMat.ofRows .eigen 2 [(1 : ℚ), 2] = .ok se ∧
    sb.get .boost 1 2 = .ok 1 ∧ se.get .eigen 1 2 = .ok 2 := by
  obtain ⟨sb, se, h1, h2, h3⟩ := C82_symRows_differ [(1 : ℚ), 2]
  exact ⟨sb, se, h1, h2, (h3 0 (by decide) 1 (by decide)).1, (h3 0 (by decide) 1 (by decide)).2⟩

end BFL.Props
