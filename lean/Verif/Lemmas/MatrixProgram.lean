import Verif.Spec.MatrixProgram
import Verif.Lemmas.DiscretePdf
import Mathlib.Algebra.Order.BigOperators.Group.Finset
import Mathlib.Data.List.Forall2
import Mathlib.Tactic.Linarith

/-! # Programs with matrices -/

set_option linter.unusedSectionVars false

namespace BFL

open Spec

variable {K : Type} [Field K] [LinearOrder K]

/-! ## Lists of variables -/

section Lists

variable {α β : Type} {R : α → β → Prop}

theorem forall2_get {l : List α} {l' : List β} (h : List.Forall₂ R l l') {v : Nat} {b : β}
    (hb : l'[v]? = some b) : ∃ a, l[v]? = some a ∧ R a b := by
  induction h generalizing v with
  | nil => simp at hb
  | cons hab _ ih =>
    cases v with
    | zero => simp at hb; subst hb; exact ⟨_, rfl, hab⟩
    | succ v => simp at hb; simpa using ih hb

theorem forall2_set {l : List α} {l' : List β} (h : List.Forall₂ R l l') (v : Nat) {a : α} {b : β}
    (hab : R a b) : List.Forall₂ R (l.set v a) (l'.set v b) := by
  induction h generalizing v with
  | nil => exact List.Forall₂.nil
  | cons hab' ht ih =>
    cases v with
    | zero => exact List.Forall₂.cons hab ht
    | succ v => exact List.Forall₂.cons hab' (ih v)

theorem forall2_concat {l : List α} {l' : List β} (h : List.Forall₂ R l l') {a : α} {b : β}
    (hab : R a b) : List.Forall₂ R (l ++ [a]) (l' ++ [b]) :=
  List.rel_append h (List.Forall₂.cons hab List.Forall₂.nil)

theorem vget_some {l : List α} {v : Nat} {a : α} (h : l[v]? = some a) : vget l v = .ok a := by
  rw [vget_eq_ok]; exact h

end Lists

/-! ## What represents a table -/

/-- A matrix with the entries of the table. -/
def WMat.Rep (m : WMat K) (a : Table K) : Prop :=
  m.rows = a.rows ∧ m.cols = a.cols ∧ ∀ i < a.rows, ∀ j < a.cols, m.entry i j = a.entry i j

/-- A symmetric matrix with the entries of the table, which is symmetric. -/
def SMat.Rep (be : Backend) (s : SMat K) (a : Table K) : Prop :=
  s.n = a.rows ∧ a.Symmetric ∧ ∀ i < a.rows, ∀ j < a.rows, s.view be i j = a.entry i j

theorem WMat.Rep.get {m : WMat K} {a : Table K} (h : m.Rep a) {i j : Nat} (hi : i < a.rows)
    (hj : j < a.cols) : m.get (i + 1) (j + 1) = .ok (a.entry i j) := by
  obtain ⟨h1, h2, h3⟩ := h
  rw [WMat.get, if_pos (by omega), Nat.add_sub_cancel, Nat.add_sub_cancel, h3 i hi j hj]

theorem SMat.Rep.get {be : Backend} {s : SMat K} {a : Table K} (h : s.Rep be a) {i j : Nat} (hi : i < a.rows)
    (hj : j < a.cols) : s.get be (i + 1) (j + 1) = .ok (a.entry i j) := by
  obtain ⟨h1, h2, h3⟩ := h
  have := h2.1
  rw [SMat.get, if_pos (by omega), Nat.add_sub_cancel, Nat.add_sub_cancel, h3 i hi j (by omega)]

theorem SMat.Rep.toMat {be : Backend} {s : SMat K} {a : Table K} (h : s.Rep be a) : (s.toMat be).Rep a := by
  obtain ⟨h1, h2, h3⟩ := h
  refine ⟨h1, h1.trans h2.1, fun i hi j hj => h3 i hi j (by have := h2.1; omega)⟩

theorem SMat.rep_ofExpr (be : Backend) {n : Nat} {e : Nat → Nat → K} {a : Table K} (hn : n = a.rows)
    (ha : a.Symmetric) (he : ∀ i < a.rows, ∀ j < a.rows, e i j = a.entry i j) :
    ∃ s, SMat.ofExpr be n e = .ok s ∧ s.Rep be a := by
  subst hn
  have hsym : ∀ i < a.rows, ∀ j < a.rows, e i j = e j i := by
    intro i hi j hj
    rw [he i hi j hj, he j hj i hi]
    exact ha.2 i hi j (by have := ha.1; omega)
  refine ⟨⟨a.rows, e⟩, ?_, rfl, ha, ?_⟩
  · cases be with
    | boost => rw [SMat.ofExpr, if_pos hsym]
    | eigen => rfl
  · intro i hi j hj
    cases be with
    | boost =>
      simp only [SMat.view]
      split
      · exact he i hi j hj
      · rw [hsym j hj i hi]; exact he i hi j hj
    | eigen => exact he i hi j hj

/-! ## Submatrices -/

theorem subRow_eq {read : Nat → Nat → Outcome K} {e : Nat → Nat → K} {i0 j0 i : Nat} (hi : i0 ≤ i) :
    ∀ (k j : Nat) (res : WMat K), j0 ≤ j → i - i0 < res.rows → j - j0 + k ≤ res.cols →
      (∀ q, j ≤ q → q < j + k → read i q = .ok (e i q)) →
      subRow read i0 j0 i k j res = .ok { res with
        entry := fun p q =>
        if p = i - i0 ∧ j - j0 ≤ q ∧ q < j - j0 + k then e i (q + j0) else res.entry p q } := by
  intro k
  induction k with
  | zero =>
    intro j res _ _ _ _
    simp only [subRow, Outcome.ok.injEq]
    obtain ⟨r, c, en⟩ := res
    congr 1
    funext p q
    rw [if_neg (by omega)]
  | succ k ih =>
    intro j res hj hr hc hread
    have e1 := hread j le_rfl (by omega)
    have e2 : res.put (i - i0 + 1) (j - j0 + 1) (e i j) = .ok { res with
        entry := fun a b =>
        if a = i - i0 ∧ b = j - j0 then e i j else res.entry a b } := by
      rw [WMat.put, if_pos (by omega)]
      rfl
    simp only [subRow, e1, Outcome.ok_bind, e2]
    rw [ih (j + 1) { res with
        entry := fun a b => if a = i - i0 ∧ b = j - j0 then e i j else res.entry a b }
      (by omega) hr (by show j + 1 - j0 + k ≤ res.cols; omega)
      (fun q h1 h2 => hread q (by omega) (by omega))]
    simp only [Outcome.ok.injEq]
    congr 1
    funext p q
    by_cases h1 : p = i - i0 ∧ q = j - j0
    · obtain ⟨rfl, rfl⟩ := h1
      rw [if_neg (by omega), if_pos ⟨rfl, rfl⟩, if_pos (by omega)]
      congr 1
      omega
    · rw [if_neg h1]
      by_cases h2 : p = i - i0 ∧ j - j0 ≤ q ∧ q < j - j0 + (k + 1)
      · rw [if_pos h2, if_pos (by omega)]
      · rw [if_neg h2, if_neg (by omega)]

theorem subRows_eq {read : Nat → Nat → Outcome K} {e : Nat → Nat → K} {i0 j0 width : Nat} :
    ∀ (k i : Nat) (res : WMat K), i0 ≤ i → i - i0 + k ≤ res.rows → width ≤ res.cols →
      (∀ p q, i ≤ p → p < i + k → j0 ≤ q → q < j0 + width → read p q = .ok (e p q)) →
      subRows read i0 j0 width k i res = .ok { res with
        entry := fun p q =>
        if (i - i0 ≤ p ∧ p < i - i0 + k) ∧ q < width then e (p + i0) (q + j0) else res.entry p q } := by
  intro k
  induction k with
  | zero =>
    intro i res _ _ _ _
    simp only [subRows, Outcome.ok.injEq]
    obtain ⟨r, c, en⟩ := res
    congr 1
    funext p q
    rw [if_neg (by omega)]
  | succ k ih =>
    intro i res hi hr hc hread
    simp only [subRows]
    rw [subRow_eq (e := e) hi width j0 res le_rfl (by omega) (by omega)
      (fun q h1 h2 => hread i q le_rfl (by omega) h1 h2), Outcome.ok_bind]
    rw [ih (i + 1) { res with
        entry := fun p q =>
          if p = i - i0 ∧ j0 - j0 ≤ q ∧ q < j0 - j0 + width then e i (q + j0) else res.entry p q }
      (by omega) (by show i + 1 - i0 + k ≤ res.rows; omega) hc
      (fun p q h1 h2 h3 h4 => hread p q (by omega) (by omega) h3 h4)]
    simp only [Outcome.ok.injEq]
    congr 1
    funext p q
    by_cases h1 : (i + 1 - i0 ≤ p ∧ p < i + 1 - i0 + k) ∧ q < width
    · rw [if_pos h1, if_pos (by omega)]
    · rw [if_neg h1]
      by_cases h2 : p = i - i0 ∧ q < width
      · rw [if_pos (by omega), if_pos (by omega)]
        congr 1
        omega
      · rw [if_neg (by omega), if_neg (by omega)]

theorem subLoops_rep {read : Nat → Nat → Outcome K} (junk : Nat → Nat → K) {a : Table K} {i1 i2 j1 j2 : Nat}
    (hread : ∀ i < a.rows, ∀ j < a.cols, read (i + 1) (j + 1) = .ok (a.entry i j))
    (h : a.HasBlock i1 i2 j1 j2) :
    ∃ m, subLoops read junk i1 i2 j1 j2 = .ok m ∧ m.Rep (a.cut i1 i2 j1 j2) := by
  obtain ⟨⟨h1, h2, h3⟩, h4, h5, h6⟩ := h
  have e := subRows_eq (read := read) (e := fun p q => a.entry (p - 1) (q - 1)) (i0 := i1) (j0 := j1)
    (width := j2 + 1 - j1) (i2 + 1 - i1) i1 ⟨i2 + 1 - i1, j2 + 1 - j1, junk⟩ le_rfl
    (by show i1 - i1 + (i2 + 1 - i1) ≤ i2 + 1 - i1; omega) le_rfl (by
      intro p q hp1 hp2 hq1 hq2
      have := hread (p - 1) (by omega) (q - 1) (by omega)
      rwa [Nat.sub_add_cancel (by omega), Nat.sub_add_cancel (by omega)] at this)
  refine ⟨_, by rw [subLoops, if_neg (by omega)]; exact e, rfl, rfl, fun i hi j hj => ?_⟩
  have hi' : i < i2 + 1 - i1 := hi
  have hj' : j < j2 + 1 - j1 := hj
  show (if _ then _ else _) = a.entry (i1 - 1 + i) (j1 - 1 + j)
  rw [if_pos (by omega)]
  congr 1 <;> omega

theorem WMat.sub_rep (be : Backend) (junk : Nat → Nat → K) {m : WMat K} {a : Table K} (hm : m.Rep a)
    {i1 i2 j1 j2 : Nat} (h : a.HasBlock i1 i2 j1 j2) :
    ∃ p, m.sub be junk i1 i2 j1 j2 = .ok p ∧ p.Rep (a.cut i1 i2 j1 j2) := by
  cases be with
  | boost => exact subLoops_rep junk (fun i hi j hj => hm.get hi hj) h
  | eigen =>
    obtain ⟨⟨h1, h2, h3⟩, h4, h5, h6⟩ := h
    obtain ⟨e1, e2, e3⟩ := hm
    refine ⟨_, by rw [WMat.sub, if_pos (by omega)], rfl, rfl, fun i hi j hj => ?_⟩
    have hi' : i < i2 + 1 - i1 := hi
    have hj' : j < j2 + 1 - j1 := hj
    exact e3 _ (by omega) _ (by omega)

theorem WMat.Rep.get_ub {m : WMat K} {a : Table K} (h : m.Rep a) {i j : Nat} (hij : ¬ a.Has i j) :
    m.get i j = .ub := by
  rw [WMat.get, if_neg]
  rw [h.1, h.2.1]
  exact hij

theorem SMat.Rep.get_ub {be : Backend} {s : SMat K} {a : Table K} (h : s.Rep be a) {i j : Nat}
    (hij : ¬ a.Has i j) : s.get be i j = .ub := by
  have := h.2.1.1
  unfold Table.Has at hij
  rw [SMat.get, if_neg]
  rw [h.1]
  omega

theorem WMat.Rep.get_ne_abort {m : WMat K} {a : Table K} (_ : m.Rep a) {i j : Nat} : m.get i j ≠ .abort := by
  unfold WMat.get
  split <;> simp

theorem SMat.Rep.get_ne_abort {be : Backend} {s : SMat K} {a : Table K} (_ : s.Rep be a) {i j : Nat} :
    s.get be i j ≠ .abort := by
  unfold SMat.get
  split <;> simp

theorem subRow_shape {read : Nat → Nat → Outcome K} {i0 j0 i : Nat} :
    ∀ (k j : Nat) (res : WMat K), (∀ i j, read i j ≠ .abort) →
      (subRow read i0 j0 i k j res = .ub ∨
        (∃ r, subRow read i0 j0 i k j res = .ok r) ∧ ∀ q, j ≤ q → q < j + k → read i q ≠ .ub) := by
  intro k
  induction k with
  | zero => exact fun j res _ => Or.inr ⟨⟨res, rfl⟩, fun q _ _ => by omega⟩
  | succ k ih =>
    intro j res hna
    simp only [subRow]
    cases hr : read i j with
    | abort => exact absurd hr (hna i j)
    | ub => exact Or.inl rfl
    | ok x =>
      rw [Outcome.ok_bind]
      cases hp : res.put (i - i0 + 1) (j - j0 + 1) x with
      | abort =>
        unfold WMat.put at hp
        split at hp <;> simp at hp
      | ub => exact Or.inl rfl
      | ok res' =>
        rw [Outcome.ok_bind]
        rcases ih (j + 1) res' hna with h | ⟨⟨r, h⟩, h'⟩
        · exact Or.inl h
        · refine Or.inr ⟨⟨r, h⟩, fun q h1 h2 => ?_⟩
          by_cases hq : q = j
          · subst hq; rw [hr]; simp
          · exact h' q (by omega) (by omega)

theorem subRows_shape {read : Nat → Nat → Outcome K} {i0 j0 width : Nat} :
    ∀ (k i : Nat) (res : WMat K), (∀ i j, read i j ≠ .abort) →
      (subRows read i0 j0 width k i res = .ub ∨
        ∀ p q, i ≤ p → p < i + k → j0 ≤ q → q < j0 + width → read p q ≠ .ub) := by
  intro k
  induction k with
  | zero => exact fun i res _ => Or.inr fun p q _ _ => by omega
  | succ k ih =>
    intro i res hna
    simp only [subRows]
    rcases subRow_shape (i0 := i0) (j0 := j0) (i := i) width j0 res hna with h | ⟨⟨r, h⟩, h'⟩
    · exact Or.inl (by rw [h]; rfl)
    · rw [h, Outcome.ok_bind]
      rcases ih (i + 1) r hna with g | g
      · exact Or.inl g
      · refine Or.inr fun p q h1 h2 h3 h4 => ?_
        by_cases hp : p = i
        · subst hp; exact h' q h3 h4
        · exact g p q (by omega) (by omega) h3 h4

theorem subLoops_ub {read : Nat → Nat → Outcome K} (junk : Nat → Nat → K) {a : Table K} {i1 i2 j1 j2 : Nat}
    (hread : ∀ i j, ¬ a.Has i j → read i j = .ub) (hna : ∀ i j, read i j ≠ .abort) (hi : i1 ≤ i2)
    (hj : j1 ≤ j2) (h : ¬ a.HasBlock i1 i2 j1 j2) : subLoops read junk i1 i2 j1 j2 = .ub := by
  rw [subLoops, if_neg (by omega)]
  rcases subRows_shape (read := read) (i0 := i1) (j0 := j1) (width := j2 + 1 - j1) (i2 + 1 - i1) i1
    ⟨i2 + 1 - i1, j2 + 1 - j1, junk⟩ hna with g | g
  · exact g
  · exfalso
    have e1 : a.Has i1 j1 := by
      by_contra hc
      exact g i1 j1 le_rfl (by omega) le_rfl (by omega) (hread _ _ hc)
    have e2 : a.Has i2 j2 := by
      by_contra hc
      exact g i2 j2 (by omega) (by omega) (by omega) (by omega) (hread _ _ hc)
    unfold Table.Has at e1 e2
    unfold Table.HasBlock at h
    omega

/-! ## Conversion to a symmetric matrix -/

theorem convRow_eq {m : WMat K} {i : Nat} :
    ∀ (k j : Nat) (s : SMat K), i < m.rows → j + k ≤ i + 1 → m.rows = m.cols → s.n = m.rows →
      convRow m i k j s = .ok { s with
        store := fun a b =>
        if a = i ∧ j ≤ b ∧ b < j + k then m.entry a b else s.store a b } := by
  intro k
  induction k with
  | zero =>
    intro j s _ _ _ _
    simp only [convRow, Outcome.ok.injEq]
    obtain ⟨n, st⟩ := s
    congr 1
    funext a b
    rw [if_neg (by omega)]
  | succ k ih =>
    intro j s hi hj hsq hn
    have e1 : m.get (i + 1) (j + 1) = .ok (m.entry i j) := by
      rw [WMat.get, if_pos (by omega)]; rfl
    have e2 : s.put .boost (i + 1) (j + 1) (m.entry i j) = .ok { s with
        store := fun a b =>
        if a = i ∧ b = j then m.entry i j else s.store a b } := by
      rw [SMat.put, if_pos (by omega)]
      have h1 : max (i + 1 - 1) (j + 1 - 1) = i := by omega
      have h2 : min (i + 1 - 1) (j + 1 - 1) = j := by omega
      simp only [h1, h2]
    simp only [convRow, e1, Outcome.ok_bind, e2]
    rw [ih (j + 1) { s with
        store := fun a b => if a = i ∧ b = j then m.entry i j else s.store a b } hi (by omega) hsq hn]
    simp only [Outcome.ok.injEq]
    congr 1
    funext a b
    by_cases h1 : a = i ∧ b = j
    · obtain ⟨rfl, rfl⟩ := h1
      rw [if_neg (by omega), if_pos ⟨rfl, rfl⟩, if_pos (by omega)]
    · rw [if_neg h1]
      by_cases h2 : a = i ∧ j ≤ b ∧ b < j + (k + 1)
      · rw [if_pos h2, if_pos (by omega)]
      · rw [if_neg h2, if_neg (by omega)]

theorem convRows_eq {m : WMat K} :
    ∀ (k i : Nat) (s : SMat K), i + k ≤ m.rows → m.rows = m.cols → s.n = m.rows →
      convRows m k i s = .ok { s with
        store := fun a b =>
        if (i ≤ a ∧ a < i + k) ∧ b ≤ a then m.entry a b else s.store a b } := by
  intro k
  induction k with
  | zero =>
    intro i s _ _ _
    simp only [convRows, Outcome.ok.injEq]
    obtain ⟨n, st⟩ := s
    congr 1
    funext a b
    rw [if_neg (by omega)]
  | succ k ih =>
    intro i s hi hsq hn
    simp only [convRows]
    rw [convRow_eq (i + 1) 0 s (by omega) (by omega) hsq hn, Outcome.ok_bind,
      ih (i + 1) { s with
        store := fun a b => if a = i ∧ 0 ≤ b ∧ b < 0 + (i + 1) then m.entry a b else s.store a b }
      (by omega) hsq hn]
    simp only [Outcome.ok.injEq]
    congr 1
    funext a b
    by_cases h1 : (i + 1 ≤ a ∧ a < i + 1 + k) ∧ b ≤ a
    · rw [if_pos h1, if_pos (by omega)]
    · rw [if_neg h1]
      by_cases h2 : a = i ∧ b ≤ a
      · rw [if_pos (by omega), if_pos (by omega)]
      · rw [if_neg (by omega), if_neg (by omega)]

theorem WMat.toSym_eq (be : Backend) (junk : Nat → Nat → K) {m : WMat K} (h : m.rows = m.cols) :
    ∃ s, m.toSym be junk = .ok s ∧ s.n = m.rows ∧ ∀ i < m.rows, ∀ j < m.rows,
      s.view be i j = match be with
        | .boost => if j ≤ i then m.entry i j else m.entry j i
        | .eigen => if i ≤ j then m.entry i j else m.entry j i := by
  cases be with
  | boost =>
    have e := convRows_eq (m := m) m.rows 0 ⟨m.rows, junk⟩ (by omega) h rfl
    refine ⟨_, by rw [WMat.toSym, cassert_true h, Outcome.ok_bind]; exact e, rfl, fun i hi j hj => ?_⟩
    simp only [SMat.view]
    by_cases hji : j ≤ i
    · rw [if_pos hji, if_pos (by omega), if_pos hji]
    · rw [if_neg hji, if_pos (by omega), if_neg hji]
  | eigen =>
    refine ⟨_, by rw [WMat.toSym, cassert_true h, Outcome.ok_bind], rfl, fun i _ j _ => rfl⟩

theorem WMat.toSym_rep (be : Backend) (junk : Nat → Nat → K) {m : WMat K} {a : Table K} (hm : m.Rep a)
    (ha : a.Symmetric) : ∃ s, m.toSym be junk = .ok s ∧ s.Rep be a := by
  obtain ⟨h1, h2, h3⟩ := hm
  obtain ⟨s, e1, e2, e3⟩ := WMat.toSym_eq be junk (m := m) (by rw [h1, h2, ha.1])
  have hc := ha.1
  refine ⟨s, e1, e2.trans h1, ha, fun i hi j hj => ?_⟩
  rw [e3 i (by omega) j (by omega)]
  have k1 := h3 i hi j (by omega)
  have k2 : m.entry j i = a.entry i j := by
    rw [h3 j hj i (by omega), ha.2 i hi j (by omega)]
  cases be with
  | boost => simp only; split <;> assumption
  | eigen => simp only; split <;> assumption

/-! ## Comparison -/

variable [IsStrictOrderedRing K]

theorem foldl_max_zero (f : Nat → K) (hf : ∀ i, 0 ≤ f i) (l : List Nat) (t : K) (ht : 0 ≤ t) :
    l.foldl (fun t i => max t (f i)) t = 0 ↔ t = 0 ∧ ∀ i ∈ l, f i = 0 := by
  induction l generalizing t with
  | nil => simp
  | cons x l ih =>
    simp only [List.foldl_cons, List.mem_cons, forall_eq_or_imp]
    rw [ih _ (le_trans ht (le_max_left _ _))]
    constructor
    · rintro ⟨h1, h2⟩
      have a1 := le_max_left t (f x)
      have a2 := le_max_right t (f x)
      rw [h1] at a1 a2
      exact ⟨le_antisymm a1 ht, le_antisymm a2 (hf x), h2⟩
    · rintro ⟨h1, h2, h3⟩
      exact ⟨by rw [h1, h2, max_self], h3⟩

theorem WMat.normInf_zero (m : WMat K) :
    m.normInf = 0 ↔ ∀ i < m.rows, ∀ j < m.cols, m.entry i j = 0 := by
  unfold WMat.normInf
  rw [foldl_max_zero (fun i => ∑ j ∈ Finset.range m.cols, |m.entry i j|)
    (fun i => Finset.sum_nonneg fun _ _ => abs_nonneg _) _ _ le_rfl]
  simp only [true_and, List.mem_range]
  refine forall₂_congr fun i _ => ?_
  rw [Finset.sum_eq_zero_iff_of_nonneg (fun _ _ => abs_nonneg _)]
  simp only [Finset.mem_range, abs_eq_zero]

theorem WMat.approxZero_iff (prec : K) (m : WMat K) :
    m.approxZero prec = true ↔ ∀ i < m.rows, ∀ j < m.cols, m.entry i j = 0 := by
  unfold WMat.approxZero
  rw [decide_eq_true_iff]
  refine forall₂_congr fun i _ => forall₂_congr fun j _ => ?_
  rw [abs_zero, min_eq_right (abs_nonneg _), zero_mul, sub_zero, abs_nonpos_iff]

theorem WMat.equal_iff (be : Backend) (prec : K) {m p : WMat K} {a b : Table K} (hm : m.Rep a) (hp : p.Rep b) :
    m.equal be prec p = true ↔ a.Same b := by
  obtain ⟨m1, m2, m3⟩ := hm
  obtain ⟨p1, p2, p3⟩ := hp
  unfold WMat.equal Table.Same
  rw [m1, m2, p1, p2]
  by_cases h1 : a.rows = b.rows
  · by_cases h2 : a.cols = b.cols
    · rw [if_neg (not_not.2 h1), if_neg (not_not.2 h2)]
      have key : (∀ i < a.rows, ∀ j < a.cols, m.entry i j - p.entry i j = 0) ↔
          ∀ i < a.rows, ∀ j < a.cols, a.entry i j = b.entry i j := by
        refine forall₂_congr fun i hi => forall₂_congr fun j hj => ?_
        rw [sub_eq_zero, m3 i hi j hj, p3 i (by omega) j (by omega)]
      cases be with
      | boost =>
        simp only [decide_eq_true_iff]
        rw [WMat.normInf_zero]
        exact key.trans ⟨fun h => ⟨h1, h2, h⟩, fun h => h.2.2⟩
      | eigen =>
        simp only
        rw [WMat.approxZero_iff]
        exact key.trans ⟨fun h => ⟨h1, h2, h⟩, fun h => h.2.2⟩
    · rw [if_neg (not_not.2 h1), if_pos h2]
      exact ⟨fun h => (Bool.noConfusion h), fun h => absurd h.2.1 h2⟩
  · rw [if_pos h1]
    exact ⟨fun h => (Bool.noConfusion h), fun h => absurd h.1 h1⟩

/-! ## Commands -/

/-- The variables represent the tables. -/
structure MatState.Inv (be : Backend) (s : MatState K) (t : Tables K) : Prop where
  mats : List.Forall₂ WMat.Rep s.mats t.mats
  syms : List.Forall₂ (SMat.Rep be) s.syms t.syms
  tests : s.tests = t.tests

theorem WMat.arith_rep {op : MatOp} {m p : WMat K} {a b : Table K} (hm : m.Rep a) (hp : p.Rep b)
    (h : a.Fits op b) : ∃ q, m.arith op p = .ok q ∧ q.Rep (a.arith op b) := by
  obtain ⟨m1, m2, m3⟩ := hm
  obtain ⟨p1, p2, p3⟩ := hp
  cases op with
  | add =>
    obtain ⟨h1, h2⟩ := h
    refine ⟨{ m with entry := fun i j => m.entry i j + p.entry i j },
      by rw [WMat.arith, if_pos (by omega)], m1, m2, fun i hi j hj => ?_⟩
    have hi' : i < a.rows := hi
    have hj' : j < a.cols := hj
    show m.entry i j + p.entry i j = a.entry i j + b.entry i j
    rw [m3 i hi' j hj', p3 i (by omega) j (by omega)]
  | sub =>
    obtain ⟨h1, h2⟩ := h
    refine ⟨{ m with entry := fun i j => m.entry i j - p.entry i j },
      by rw [WMat.arith, if_pos (by omega)], m1, m2, fun i hi j hj => ?_⟩
    have hi' : i < a.rows := hi
    have hj' : j < a.cols := hj
    show m.entry i j - p.entry i j = a.entry i j - b.entry i j
    rw [m3 i hi' j hj', p3 i (by omega) j (by omega)]
  | mul =>
    have h' : a.cols = b.rows := h
    refine ⟨⟨m.rows, p.cols, fun i j => ∑ k ∈ Finset.range m.cols, m.entry i k * p.entry k j⟩,
      by rw [WMat.arith, if_pos (by omega)], m1, p2, fun i hi j hj => ?_⟩
    have hi' : i < a.rows := hi
    have hj' : j < b.cols := hj
    show ∑ k ∈ Finset.range m.cols, m.entry i k * p.entry k j =
      ∑ k ∈ Finset.range a.cols, a.entry i k * b.entry k j
    rw [m2]
    refine Finset.sum_congr rfl fun k hk => ?_
    rw [Finset.mem_range] at hk
    rw [m3 i hi' k hk, p3 k (by omega) j hj']

theorem WMat.put_rep {m : WMat K} {a : Table K} (hm : m.Rep a) {i j : Nat} (h : a.Has i j) (x : K) :
    ∃ p, m.put i j x = .ok p ∧ p.Rep (a.set i j x) := by
  obtain ⟨m1, m2, m3⟩ := hm
  obtain ⟨⟨h1, h2⟩, h3, h4⟩ := h
  refine ⟨{ m with entry := fun a b => if a = i - 1 ∧ b = j - 1 then x else m.entry a b },
    by rw [WMat.put, if_pos (by omega)], m1, m2, fun p hp q hq => ?_⟩
  show (if p = i - 1 ∧ q = j - 1 then x else m.entry p q) = if p + 1 = i ∧ q + 1 = j then x else a.entry p q
  rw [m3 p hp q hq]
  by_cases hc : p + 1 = i ∧ q + 1 = j
  · rw [if_pos hc, if_pos (by omega)]
  · rw [if_neg hc, if_neg (by omega)]

theorem WMat.arith_misfit {op : MatOp} {m p : WMat K} {a b : Table K} (hm : m.Rep a) (hp : p.Rep b)
    (h : ¬ a.Fits op b) : m.arith op p = .ub := by
  cases op with
  | add => rw [WMat.arith, if_neg]; rw [hm.1, hm.2.1, hp.1, hp.2.1]; exact h
  | sub => rw [WMat.arith, if_neg]; rw [hm.1, hm.2.1, hp.1, hp.2.1]; exact h
  | mul => rw [WMat.arith, if_neg]; rw [hm.2.1, hp.1]; exact h

theorem set_symm {a : Table K} (ha : a.Symmetric) (i j : Nat) (x : K) : ((a.set i j x).set j i x).Symmetric := by
  refine ⟨ha.1, fun p hp q hq => ?_⟩
  show (if p + 1 = j ∧ q + 1 = i then x else if p + 1 = i ∧ q + 1 = j then x else a.entry p q) =
    if q + 1 = j ∧ p + 1 = i then x else if q + 1 = i ∧ p + 1 = j then x else a.entry q p
  by_cases h1 : p + 1 = j ∧ q + 1 = i
  · rw [if_pos h1]
    by_cases h2 : q + 1 = j ∧ p + 1 = i
    · rw [if_pos h2]
    · rw [if_neg h2, if_pos (by omega)]
  · rw [if_neg h1]
    by_cases h2 : p + 1 = i ∧ q + 1 = j
    · rw [if_pos h2, if_pos (by omega)]
    · rw [if_neg h2, if_neg (by omega), if_neg (by omega)]
      exact ha.2 p hp q hq

theorem SMat.set_rep {be : Backend} {s : SMat K} {a : Table K} (hs : s.Rep be a) {i j : Nat} (h : a.Has i j)
    (x : K) : ∃ p q, s.put be i j x = .ok p ∧ p.put be j i x = .ok q ∧
      q.Rep be ((a.set i j x).set j i x) := by
  obtain ⟨s1, s2, s3⟩ := hs
  obtain ⟨⟨h1, h2⟩, h3, h4⟩ := h
  have hc := s2.1
  have entry : ∀ p q, ((a.set i j x).set j i x).entry p q =
      if (p + 1 = i ∧ q + 1 = j) ∨ (p + 1 = j ∧ q + 1 = i) then x else a.entry p q := by
    intro p q
    show (if p + 1 = j ∧ q + 1 = i then x else if p + 1 = i ∧ q + 1 = j then x else a.entry p q) = _
    by_cases k1 : p + 1 = j ∧ q + 1 = i
    · rw [if_pos k1, if_pos (Or.inr k1)]
    · rw [if_neg k1]
      by_cases k2 : p + 1 = i ∧ q + 1 = j
      · rw [if_pos k2, if_pos (Or.inl k2)]
      · rw [if_neg k2, if_neg (by tauto)]
  cases be with
  | boost =>
    have e1 : s.put .boost i j x = .ok { s with
        store := fun a b => if a = max (i - 1) (j - 1) ∧ b = min (i - 1) (j - 1) then x else s.store a b } := by
      rw [SMat.put, if_pos (by omega)]
    have e2 : ({ s with
        store := fun a b => if a = max (i - 1) (j - 1) ∧ b = min (i - 1) (j - 1) then x else s.store a b } : SMat K).put .boost j i x =
        .ok { s with
          store := fun a b => if a = max (j - 1) (i - 1) ∧ b = min (j - 1) (i - 1) then x
            else if a = max (i - 1) (j - 1) ∧ b = min (i - 1) (j - 1) then x else s.store a b } := by
      rw [SMat.put, if_pos (by show (1 ≤ j ∧ j ≤ s.n) ∧ 1 ≤ i ∧ i ≤ s.n; omega)]
    refine ⟨_, _, e1, e2, s1, set_symm s2 i j x, ?_⟩
    · intro p hp q hq
      have hp' : p < a.rows := hp
      have hq' : q < a.rows := hq
      rw [entry]
      have hv := s3 p hp' q hq'
      simp only [SMat.view] at hv ⊢
      by_cases hpq : q ≤ p
      · rw [if_pos hpq] at hv ⊢
        by_cases k : (p + 1 = i ∧ q + 1 = j) ∨ (p + 1 = j ∧ q + 1 = i)
        · rw [if_pos k, if_pos (by omega)]
        · rw [if_neg k, if_neg (by omega), if_neg (by omega)]
          exact hv
      · rw [if_neg hpq] at hv ⊢
        by_cases k : (p + 1 = i ∧ q + 1 = j) ∨ (p + 1 = j ∧ q + 1 = i)
        · rw [if_pos k, if_pos (by omega)]
        · rw [if_neg k, if_neg (by omega), if_neg (by omega)]
          exact hv
  | eigen =>
    have e1 : s.put .eigen i j x = .ok { s with
        store := fun a b => if a = i - 1 ∧ b = j - 1 then x else s.store a b } := by
      rw [SMat.put, if_pos (by omega)]
    have e2 : ({ s with
        store := fun a b => if a = i - 1 ∧ b = j - 1 then x else s.store a b } : SMat K).put .eigen j i x =
        .ok { s with
          store := fun a b => if a = j - 1 ∧ b = i - 1 then x
            else if a = i - 1 ∧ b = j - 1 then x else s.store a b } := by
      rw [SMat.put, if_pos (by show (1 ≤ j ∧ j ≤ s.n) ∧ 1 ≤ i ∧ i ≤ s.n; omega)]
    refine ⟨_, _, e1, e2, s1, set_symm s2 i j x, ?_⟩
    · intro p hp q hq
      have hp' : p < a.rows := hp
      have hq' : q < a.rows := hq
      rw [entry]
      have hv := s3 p hp' q hq'
      simp only [SMat.view] at hv ⊢
      by_cases k : (p + 1 = i ∧ q + 1 = j) ∨ (p + 1 = j ∧ q + 1 = i)
      · rw [if_pos k]
        by_cases k2 : p = j - 1 ∧ q = i - 1
        · rw [if_pos k2]
        · rw [if_neg k2, if_pos (by omega)]
      · rw [if_neg k, if_neg (by omega), if_neg (by omega)]
        exact hv

theorem table_set_idem (a : Table K) (i : Nat) (x : K) : (a.set i i x).set i i x = a.set i i x := by
  unfold Table.set
  simp only
  congr 1
  funext p q
  by_cases h : p + 1 = i ∧ q + 1 = i
  · simp only [if_pos h]
  · simp only [if_neg h]

theorem SMat.put_diag {be : Backend} {s : SMat K} {a : Table K} (hs : s.Rep be a) {i : Nat} (h : a.Has i i)
    (x : K) : ∃ p, s.put be i i x = .ok p ∧ p.Rep be (a.set i i x) := by
  obtain ⟨p, q, h1, h2, h3⟩ := SMat.set_rep hs h x
  rw [table_set_idem] at h3
  refine ⟨p, h1, ?_⟩
  have hpq : q = p := by
    obtain ⟨⟨k1, k2⟩, _, _⟩ := h
    have hn := hs.1
    cases be with
    | boost =>
      rw [SMat.put, if_pos (by omega)] at h1
      cases h1
      rw [SMat.put, if_pos (by show (1 ≤ i ∧ i ≤ s.n) ∧ 1 ≤ i ∧ i ≤ s.n; omega)] at h2
      cases h2
      congr 1
      funext u v
      exact ite_eq_right_iff.2 fun hc => (if_pos hc).symm
    | eigen =>
      rw [SMat.put, if_pos (by omega)] at h1
      cases h1
      rw [SMat.put, if_pos (by show (1 ≤ i ∧ i ≤ s.n) ∧ 1 ≤ i ∧ i ≤ s.n; omega)] at h2
      cases h2
      congr 1
      funext u v
      exact ite_eq_right_iff.2 fun hc => (if_pos hc).symm
  rw [← hpq]
  exact h3

theorem symm_map {a : Table K} (ha : a.Symmetric) (f : K → K) : (a.map f).Symmetric :=
  ⟨ha.1, fun i hi j hj => by show f _ = f _; rw [ha.2 i hi j hj]⟩

theorem symm_zip {a b : Table K} (ha : a.Symmetric) (hb : b.Symmetric) (h : a.rows = b.rows)
    (f : K → K → K) : (a.zip f b).Symmetric :=
  ⟨ha.1, fun i hi j hj => by
    have hi' : i < a.rows := hi
    have hj' : j < a.cols := hj
    have := ha.1
    have := hb.1
    show f _ _ = f _ _
    rw [ha.2 i hi j hj, hb.2 i (by omega) j (by omega)]⟩

namespace MatState

variable {be : Backend} {prec : K} {s : MatState K} {t u : Tables K}

theorem Inv.mat (h : Inv be s t) {v : Nat} {a : Table K} (ha : t.mats[v]? = some a) :
    ∃ m, s.mat v = .ok m ∧ s.mats[v]? = some m ∧ m.Rep a := by
  obtain ⟨m, h1, h2⟩ := forall2_get h.mats ha
  exact ⟨m, vget_some h1, h1, h2⟩

theorem Inv.sym (h : Inv be s t) {v : Nat} {a : Table K} (ha : t.syms[v]? = some a) :
    ∃ m, s.sym v = .ok m ∧ m.Rep be a := by
  obtain ⟨m, h1, h2⟩ := forall2_get h.syms ha
  exact ⟨m, vget_some h1, h2⟩

theorem Inv.addMat (h : Inv be s t) {m : WMat K} {a : Table K} (hm : m.Rep a) :
    Inv be (s.addMat m) (t.addMat a) := ⟨forall2_concat h.mats hm, h.syms, h.tests⟩

theorem Inv.addSym (h : Inv be s t) {m : SMat K} {a : Table K} (hm : m.Rep be a) :
    Inv be (s.addSym m) (t.addSym a) := ⟨h.mats, forall2_concat h.syms hm, h.tests⟩

theorem Inv.setMat (h : Inv be s t) (v : Nat) {m : WMat K} {a : Table K} (hm : m.Rep a) :
    Inv be { s with mats := s.mats.set v m } { t with mats := t.mats.set v a } :=
  ⟨forall2_set h.mats v hm, h.syms, h.tests⟩

theorem Inv.setSym (h : Inv be s t) (v : Nat) {m : SMat K} {a : Table K} (hm : m.Rep be a) :
    Inv be { s with syms := s.syms.set v m } { t with syms := t.syms.set v a } :=
  ⟨h.mats, forall2_set h.syms v hm, h.tests⟩

theorem Inv.test (h : Inv be s t) {b r : Bool} (hb : b = r) :
    Inv be { s with tests := s.tests ++ [b] } { t with tests := t.tests ++ [r] } :=
  ⟨h.mats, h.syms, by rw [h.tests, hb]⟩

theorem exec_inv (h : Inv be s t) {c : MatCmd K} (hc : Tables.Step t c u) :
    ∃ s', s.exec be prec c = .ok s' ∧ Inv be s' u := by
  cases hc with
  | matNew r c x => exact ⟨_, rfl, h.addMat ⟨rfl, rfl, fun _ _ _ _ => rfl⟩⟩
  | matPut v i j x a ha hb =>
    obtain ⟨m, e1, _, hm⟩ := h.mat ha
    obtain ⟨p, e2, hp⟩ := WMat.put_rep hm hb x
    exact ⟨_, by simp only [exec, e1, e2, Outcome.ok_bind, Outcome.pure_eq], h.setMat v hp⟩
  | matScalar op v x a ha hx =>
    obtain ⟨m, e1, _, hm⟩ := h.mat ha
    have e2 : m.scalar op x = .ok { m with
        entry := fun i j => op.apply (m.entry i j) x } := by
      rw [WMat.scalar, if_neg (fun hk => hx hk.1 hk.2)]
    refine ⟨s.addMat { m with entry := fun i j => op.apply (m.entry i j) x },
      by simp only [exec, e1, e2, Outcome.ok_bind, Outcome.pure_eq], h.addMat ?_⟩
    exact ⟨hm.1, hm.2.1, fun i hi j hj => by
      show op.apply _ x = op.apply _ x
      rw [hm.2.2 i hi j hj]⟩
  | matArith op v w a b ha hb hf =>
    obtain ⟨m, e1, _, hm⟩ := h.mat ha
    obtain ⟨p, e2, _, hp⟩ := h.mat hb
    obtain ⟨q, e3, hq⟩ := WMat.arith_rep hm hp hf
    exact ⟨_, by simp only [exec, e1, e2, e3, Outcome.ok_bind, Outcome.pure_eq], h.addMat hq⟩
  | matTrans v a ha =>
    obtain ⟨m, e1, _, hm⟩ := h.mat ha
    refine ⟨s.addMat m.trans, by simp only [exec, e1, Outcome.ok_bind, Outcome.pure_eq], h.addMat ?_⟩
    exact ⟨hm.2.1, hm.1, fun i hi j hj => hm.2.2 j hj i hi⟩
  | matSub v i1 i2 j1 j2 junk a ha hb =>
    obtain ⟨m, e1, _, hm⟩ := h.mat ha
    obtain ⟨p, e2, hp⟩ := WMat.sub_rep be junk hm hb
    exact ⟨_, by simp only [exec, e1, e2, Outcome.ok_bind, Outcome.pure_eq], h.addMat hp⟩
  | matResize v junk a ha =>
    obtain ⟨m, e1, e0, hm⟩ := h.mat ha
    refine ⟨{ s with mats := s.mats.set v (m.resize be junk a.rows a.cols) },
      by simp only [exec, e1, Outcome.ok_bind, Outcome.pure_eq], ?_⟩
    have hr : (m.resize be junk a.rows a.cols).Rep a := by
      cases be with
      | boost =>
        refine ⟨rfl, rfl, fun i hi j hj => ?_⟩
        have h1 := hm.1
        have h2 := hm.2.1
        show (if i < m.rows ∧ j < m.cols then m.entry i j else 0) = _
        rw [if_pos (by omega)]
        exact hm.2.2 i hi j hj
      | eigen =>
        show (if _ then m else _ : WMat K).Rep a
        rw [if_pos ⟨hm.1, hm.2.1⟩]
        exact hm
    have hset : t.mats.set v a = t.mats := by
      obtain ⟨hv, rfl⟩ := List.getElem?_eq_some_iff.1 ha
      exact List.set_getElem_self hv
    have := h.setMat v hr
    rwa [hset] at this
  | matRows num row => exact ⟨_, rfl, h.addMat ⟨rfl, rfl, fun _ _ _ _ => rfl⟩⟩
  | matEqual v w a b ha hb r hr =>
    obtain ⟨m, e1, _, hm⟩ := h.mat ha
    obtain ⟨p, e2, _, hp⟩ := h.mat hb
    refine ⟨{ s with tests := s.tests ++ [m.equal be prec p] },
      by simp only [exec, e1, e2, Outcome.ok_bind, Outcome.pure_eq], h.test ?_⟩
    rw [Bool.eq_iff_iff]
    exact (WMat.equal_iff be prec hm hp).trans hr.symm
  | symNew n x =>
    refine ⟨_, rfl, h.addSym ⟨rfl, ⟨rfl, fun _ _ _ _ => rfl⟩, fun i _ j _ => ?_⟩⟩
    cases be with
    | boost => simp only [SMat.view, ite_self]
    | eigen => rfl
  | symPut v i x a ha hb =>
    obtain ⟨m, e1, hm⟩ := h.sym ha
    obtain ⟨p, e2, hp⟩ := SMat.put_diag hm hb x
    exact ⟨_, by simp only [exec, e1, e2, Outcome.ok_bind, Outcome.pure_eq], h.setSym v hp⟩
  | symSet v i j x a ha hb =>
    obtain ⟨m, e1, hm⟩ := h.sym ha
    obtain ⟨p, q, e2, e3, hq⟩ := SMat.set_rep hm hb x
    exact ⟨_, by simp only [exec, e1, e2, e3, Outcome.ok_bind, Outcome.pure_eq], h.setSym v hq⟩
  | symScalar op v x a ha hx =>
    obtain ⟨m, e1, hm⟩ := h.sym ha
    obtain ⟨q, e2, hq⟩ := SMat.rep_ofExpr be (n := m.n) (e := fun i j => op.apply (m.view be i j) x)
      (a := a.map (op.apply · x)) hm.1 (symm_map hm.2.1 _)
      (fun i hi j hj => by show op.apply _ x = op.apply _ x; rw [hm.2.2 i hi j hj])
    have e3 : m.scalar be op x = .ok q := by
      rw [SMat.scalar, if_neg (fun hk => hx hk.1 hk.2), e2]
    exact ⟨_, by simp only [exec, e1, e3, Outcome.ok_bind, Outcome.pure_eq], h.addSym hq⟩
  | symCombine minus v w a b ha hb hn =>
    obtain ⟨m, e1, hm⟩ := h.sym ha
    obtain ⟨p, e2, hp⟩ := h.sym hb
    obtain ⟨q, e3, hq⟩ := SMat.rep_ofExpr be (n := m.n)
      (e := fun i j => if minus then m.view be i j - p.view be i j else m.view be i j + p.view be i j)
      (a := a.zip (fun x y => if minus then x - y else x + y) b) hm.1 (symm_zip hm.2.1 hp.2.1 hn _)
      (fun i hi j hj => by
        have hi' : i < a.rows := hi
        have hj' : j < a.rows := hj
        show (if minus then _ else _) = if minus then a.entry i j - b.entry i j else a.entry i j + b.entry i j
        rw [hm.2.2 i hi j hj, hp.2.2 i (by omega) j (by omega)])
    have e4 : m.combine be minus p = .ok q := by
      rw [SMat.combine, if_pos (by rw [hm.1, hp.1, hn]), e3]
    exact ⟨_, by simp only [exec, e1, e2, e4, Outcome.ok_bind, Outcome.pure_eq], h.addSym hq⟩
  | symCombineMat minus v w a b ha hb hn hs =>
    obtain ⟨m, e1, hm⟩ := h.sym ha
    obtain ⟨p, e2, _, hp⟩ := h.mat hb
    have hsq := hs.1
    obtain ⟨q, e3, hq⟩ := SMat.rep_ofExpr be (n := m.n)
      (e := fun i j => if minus then m.view be i j - p.entry i j else m.view be i j + p.entry i j)
      (a := a.zip (fun x y => if minus then x - y else x + y) b) hm.1 (symm_zip hm.2.1 hs hn _)
      (fun i hi j hj => by
        have hi' : i < a.rows := hi
        have hj' : j < a.rows := hj
        show (if minus then _ else _) = if minus then a.entry i j - b.entry i j else a.entry i j + b.entry i j
        rw [hm.2.2 i hi j hj, hp.2.2 i (by omega) j (by omega)])
    have e4 : m.combineMat be minus p = .ok q := by
      rw [SMat.combineMat, if_pos (by rw [hm.1, hp.1, hp.2.1, ← hsq, hn]; exact ⟨rfl, rfl⟩), e3]
    exact ⟨_, by simp only [exec, e1, e2, e4, Outcome.ok_bind, Outcome.pure_eq], h.setSym v hq⟩
  | symMat op v w a b ha hb hf =>
    obtain ⟨m, e1, hm⟩ := h.sym ha
    obtain ⟨p, e2, _, hp⟩ := h.mat hb
    obtain ⟨q, e3, hq⟩ := WMat.arith_rep (SMat.Rep.toMat hm) hp hf
    exact ⟨_, by simp only [exec, e1, e2, e3, Outcome.ok_bind, Outcome.pure_eq], h.addMat hq⟩
  | symMul v w a b ha hb hf =>
    obtain ⟨m, e1, hm⟩ := h.sym ha
    obtain ⟨p, e2, hp⟩ := h.sym hb
    obtain ⟨q, e3, hq⟩ := WMat.arith_rep (SMat.Rep.toMat hm) (SMat.Rep.toMat hp) hf
    exact ⟨_, by simp only [exec, e1, e2, e3, Outcome.ok_bind, Outcome.pure_eq], h.addMat hq⟩
  | symTrans v a ha =>
    obtain ⟨m, e1, hm⟩ := h.sym ha
    refine ⟨s.addSym m.trans, by simp only [exec, e1, Outcome.ok_bind, Outcome.pure_eq], h.addSym ?_⟩
    obtain ⟨k1, k2, k3⟩ := hm
    have hc := k2.1
    refine ⟨by show m.n = a.cols; omega, ⟨hc.symm, fun i hi j hj => ?_⟩, fun i hi j hj => ?_⟩
    · exact (k2.2 i (by have : i < a.cols := hi; omega) j (by have : j < a.rows := hj; omega)).symm
    · have hi' : i < a.cols := hi
      have hj' : j < a.cols := hj
      show m.view be i j = a.entry j i
      rw [k3 i (by omega) j (by omega)]
      exact k2.2 i (by omega) j hj'
  | symToMat v a ha =>
    obtain ⟨m, e1, hm⟩ := h.sym ha
    exact ⟨_, by simp only [exec, e1, Outcome.ok_bind, Outcome.pure_eq], h.addMat (SMat.Rep.toMat hm)⟩
  | symSub v i1 i2 j1 j2 junk a ha hb =>
    obtain ⟨m, e1, hm⟩ := h.sym ha
    obtain ⟨p, e2, hp⟩ := subLoops_rep junk (read := m.get be) (fun i hi j hj => hm.get hi hj) hb
    exact ⟨_, by simp only [exec, e1, e2, Outcome.ok_bind, Outcome.pure_eq], h.addMat hp⟩
  | symEqual v w a b ha hb r hr =>
    obtain ⟨m, e1, hm⟩ := h.sym ha
    obtain ⟨p, e2, hp⟩ := h.sym hb
    refine ⟨{ s with tests := s.tests ++ [m.equal be prec p] },
      by simp only [exec, e1, e2, Outcome.ok_bind, Outcome.pure_eq], h.test ?_⟩
    rw [Bool.eq_iff_iff]
    exact (WMat.equal_iff be prec (SMat.Rep.toMat hm) (SMat.Rep.toMat hp)).trans hr.symm
  | toSym v junk a ha hs =>
    obtain ⟨m, e1, _, hm⟩ := h.mat ha
    obtain ⟨p, e2, hp⟩ := WMat.toSym_rep be junk hm hs
    exact ⟨_, by simp only [exec, e1, e2, Outcome.ok_bind, Outcome.pure_eq], h.addSym hp⟩

theorem run_inv {prog : List (MatCmd K)} (h : Inv be s t) (hp : Tables.Steps t prog u) :
    ∃ s', s.run be prec prog = .ok s' ∧ Inv be s' u := by
  induction hp generalizing s with
  | nil t => exact ⟨s, rfl, h⟩
  | cons h1 _ ih =>
    obtain ⟨s1, e1, i1⟩ := exec_inv (prec := prec) h h1
    obtain ⟨s2, e2, i2⟩ := ih i1
    exact ⟨s2, by simp only [run, e1, Outcome.ok_bind, e2], i2⟩

theorem exec_misfit (h : Inv be s t) {c : MatCmd K} (hc : Tables.Misfit t c) :
    s.exec be prec c = .ub := by
  cases hc with
  | matPut v i j x a ha hb =>
    obtain ⟨m, e1, _, hm⟩ := h.mat ha
    have e2 : m.put i j x = .ub := by
      rw [WMat.put, if_neg]
      rw [hm.1, hm.2.1]
      exact hb
    simp only [exec, e1, e2, Outcome.ok_bind, Outcome.ub_bind]
  | matArith op v w a b ha hb hf =>
    obtain ⟨m, e1, _, hm⟩ := h.mat ha
    obtain ⟨p, e2, _, hp⟩ := h.mat hb
    simp only [exec, e1, e2, WMat.arith_misfit hm hp hf, Outcome.ok_bind, Outcome.ub_bind]
  | symPut v i j x a ha hb =>
    obtain ⟨m, e1, hm⟩ := h.sym ha
    have e2 : m.put be i j x = .ub := by
      have := hm.2.1.1
      unfold Table.Has at hb
      unfold SMat.put
      exact if_neg (by rw [hm.1]; omega)
    simp only [exec, e1, e2, Outcome.ok_bind, Outcome.ub_bind]
  | symCombine minus v w a b ha hb hn =>
    obtain ⟨m, e1, hm⟩ := h.sym ha
    obtain ⟨p, e2, hp⟩ := h.sym hb
    have e3 : m.combine be minus p = .ub := by
      rw [SMat.combine, if_neg (by rw [hm.1, hp.1]; exact hn)]
    simp only [exec, e1, e2, e3, Outcome.ok_bind, Outcome.ub_bind]
  | symCombineMat minus v w a b ha hb hn =>
    obtain ⟨m, e1, hm⟩ := h.sym ha
    obtain ⟨p, e2, _, hp⟩ := h.mat hb
    have e3 : m.combineMat be minus p = .ub := by
      rw [SMat.combineMat, if_neg]
      have := hm.2.1.1
      rw [hm.1, hp.1, hp.2.1]
      omega
    simp only [exec, e1, e2, e3, Outcome.ok_bind, Outcome.ub_bind]
  | symMat op v w a b ha hb hf =>
    obtain ⟨m, e1, hm⟩ := h.sym ha
    obtain ⟨p, e2, _, hp⟩ := h.mat hb
    simp only [exec, e1, e2, WMat.arith_misfit (SMat.Rep.toMat hm) hp hf, Outcome.ok_bind, Outcome.ub_bind]
  | symMul v w a b ha hb hf =>
    obtain ⟨m, e1, hm⟩ := h.sym ha
    obtain ⟨p, e2, hp⟩ := h.sym hb
    simp only [exec, e1, e2, WMat.arith_misfit (SMat.Rep.toMat hm) (SMat.Rep.toMat hp) hf, Outcome.ok_bind,
      Outcome.ub_bind]
  | matSub v i1 i2 j1 j2 junk a ha hi hj hb =>
    obtain ⟨m, e1, _, hm⟩ := h.mat ha
    have e2 : m.sub be junk i1 i2 j1 j2 = .ub := by
      cases be with
      | boost => exact subLoops_ub junk (fun i j hij => hm.get_ub hij) (fun i j => hm.get_ne_abort) hi hj hb
      | eigen =>
        rw [WMat.sub, if_neg]
        rw [hm.1, hm.2.1]
        exact hb
    simp only [exec, e1, e2, Outcome.ok_bind, Outcome.ub_bind]
  | symSub v i1 i2 j1 j2 junk a ha hi hj hb =>
    obtain ⟨m, e1, hm⟩ := h.sym ha
    have e2 : subLoops (m.get be) junk i1 i2 j1 j2 = .ub :=
      subLoops_ub junk (fun i j hij => hm.get_ub hij) (fun i j => hm.get_ne_abort) hi hj hb
    simp only [exec, e1, e2, Outcome.ok_bind, Outcome.ub_bind]

theorem run_append (prog : List (MatCmd K)) (c : MatCmd K) :
    s.run be prec (prog ++ [c]) = (s.run be prec prog >>= fun s' => s'.exec be prec c) := by
  induction prog generalizing s with
  | nil =>
    simp only [List.nil_append, run, Outcome.ok_bind]
    cases s.exec be prec c <;> rfl
  | cons d prog ih =>
    simp only [List.cons_append, run]
    cases s.exec be prec d with
    | ok s' => simpa only [Outcome.ok_bind] using ih
    | abort => rfl
    | ub => rfl

theorem Inv.shows (h : Inv be s t) : Shows be s t where
  numMats := h.mats.length_eq
  numSyms := h.syms.length_eq
  tests := h.tests
  mats v m a hm ha := by
    obtain ⟨m', e, hr⟩ := forall2_get h.mats ha
    rw [hm] at e
    cases e
    exact ⟨hr.1, hr.2.1, fun i hi j hj => hr.get hi hj⟩
  syms v m a hm ha := by
    obtain ⟨m', e, hr⟩ := forall2_get h.syms ha
    rw [hm] at e
    cases e
    exact ⟨hr.1, hr.1.trans hr.2.1.1, fun i hi j hj => hr.get hi hj⟩

end MatState

end BFL
