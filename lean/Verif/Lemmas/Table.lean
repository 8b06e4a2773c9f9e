import Verif.Model.Prob
import Verif.Spec.Discrete
import Mathlib.Algebra.Order.BigOperators.Group.List
import Mathlib.Tactic.Linarith
import Mathlib.Tactic.FieldSimp
import Mathlib.Tactic.Ring
import Mathlib.Tactic.Positivity
import Mathlib.Data.List.TakeDrop

/-! Helper lemmas about cumulative tables and the search loop. -/

set_option linter.unusedSectionVars false

namespace BFL

open Spec

variable {K : Type} [Field K] [LinearOrder K]

section basics

@[simp] theorem runningSums_length (s : K) (l : List K) :
    (runningSums s l).length = l.length + 1 := by
  induction l generalizing s with
  | nil => simp [runningSums]
  | cons x xs ih => simp [runningSums, ih]

theorem runningSums_getElem? (s : K) (l : List K) (i : Nat) (h : i ≤ l.length) :
    (runningSums s l)[i]? = some (s + (l.take i).sum) := by
  induction l generalizing s i with
  | nil => obtain rfl : i = 0 := by simpa using h
           simp [runningSums]
  | cons x xs ih =>
    cases i with
    | zero => simp [runningSums]
    | succ i =>
      simp only [runningSums, List.getElem?_cons_succ]
      rw [ih _ _ (by simpa using h)]
      simp [add_assoc]

theorem runningSums_getElem (s : K) (l : List K) (i : Nat) (h : i < (runningSums s l).length) :
    (runningSums s l)[i] = s + (l.take i).sum := by
  have h' : i ≤ l.length := by simpa [Nat.lt_succ_iff] using h
  have := runningSums_getElem? s l i h'
  rw [List.getElem?_eq_getElem h] at this
  simpa using this

theorem setLast_length {α : Type} (v : List α) (a : α) (h : v ≠ []) :
    (setLast v a).length = v.length := by
  cases v with
  | nil => exact absurd rfl h
  | cons x xs => simp [setLast]

theorem setLast_self {α : Type} (v : List α) (h : v ≠ []) : setLast v (v.getLast h) = v := by
  simp [setLast, List.dropLast_append_getLast]

theorem runningSums_ne_nil (s : K) (l : List K) : runningSums s l ≠ [] := by
  cases l <;> simp [runningSums]

theorem runningSums_getLast (s : K) (l : List K) :
    (runningSums s l).getLast (runningSums_ne_nil s l) = s + l.sum := by
  rw [List.getLast_eq_getElem, runningSums_getElem]
  simp

theorem setLast_runningSums {l : List K} (h : l.sum = 1) :
    setLast (runningSums 0 l) 1 = runningSums 0 l := by
  have h2 := runningSums_getLast 0 l
  rw [zero_add, h] at h2
  conv_rhs => rw [← setLast_self _ (runningSums_ne_nil 0 l), h2]

theorem mkProb_eq_ok {p q : K} : mkProb p = .ok q ↔ 0 ≤ p ∧ q = p := by
  unfold mkProb; split <;> simp_all [eq_comm]

theorem mkProb_of_nonneg {p : K} (h : 0 ≤ p) : mkProb p = .ok p := by simp [mkProb, h]

theorem mkProb_of_neg {p : K} (h : p < 0) : mkProb p = .abort := by simp [mkProb, h]

theorem divProb_of {x y : K} (hy : y ≠ 0) (h : 0 ≤ x / y) : divProb x y = .ok (x / y) := by
  simp [divProb, hy, mkProb, h]

theorem divProb_zero (x : K) : divProb x 0 = .abort := by simp [divProb]

theorem mapOutcome_mkProb_eq_ok {v w : List K} :
    mapOutcome mkProb v = .ok w ↔ (∀ x ∈ v, 0 ≤ x) ∧ w = v := by
  induction v generalizing w with
  | nil => simp [mapOutcome, eq_comm]
  | cons x xs ih =>
    simp only [mapOutcome, Outcome.bind_eq_ok, mkProb_eq_ok, ih, Outcome.pure_eq,
      Outcome.ok.injEq, List.forall_mem_cons]
    constructor
    · rintro ⟨_, ⟨h1, rfl⟩, _, ⟨h2, rfl⟩, rfl⟩; exact ⟨⟨h1, h2⟩, rfl⟩
    · rintro ⟨⟨h1, h2⟩, rfl⟩; exact ⟨_, ⟨h1, rfl⟩, _, ⟨h2, rfl⟩, rfl⟩

theorem mapOutcome_congr {α β : Type} {f g : α → Outcome β} {l : List α}
    (h : ∀ a ∈ l, f a = g a) : mapOutcome f l = mapOutcome g l := by
  induction l with
  | nil => rfl
  | cons a l ih =>
    simp only [mapOutcome]
    rw [h a (by simp), ih (fun b hb => h b (by simp [hb]))]

theorem mapOutcome_map {α β γ : Type} {f : α → Outcome β} {g : β → γ} {l : List α} :
    (mapOutcome f l >>= fun r => Outcome.ok (r.map g)) =
      mapOutcome (fun a => f a >>= fun b => Outcome.ok (g b)) l := by
  induction l with
  | nil => rfl
  | cons a l ih =>
    simp only [mapOutcome, bind_assoc]
    cases f a with
    | abort => rfl
    | ub => rfl
    | ok b =>
      simp only [Outcome.ok_bind, Outcome.pure_eq]
      rw [← ih]
      cases mapOutcome f l <;> simp

theorem mapOutcome_getElem {α β : Type} {f : α → Outcome β} {l : List α} {r : List β}
    (h : mapOutcome f l = .ok r) (i : Nat) (hi : i < l.length) (hr : i < r.length) :
    f l[i] = .ok r[i] := by
  induction l generalizing r i with
  | nil => simp at hi
  | cons a l ih =>
    simp only [mapOutcome, Outcome.bind_eq_ok, Outcome.pure_eq, Outcome.ok.injEq] at h
    obtain ⟨b, h1, bs, h2, rfl⟩ := h
    cases i with
    | zero => simpa using h1
    | succ i => simpa using ih h2 i (by simpa using hi) (by simpa using hr)

end basics

section sweep

theorem sweep_ok {n : Nat} {u : K} {k m : Nat} {rest : List K} (hm : m < rest.length)
    (hu : u ≤ rest[m]) (hlt : ∀ j (hj : j < m), rest[j] < u) (hn : k + m ≤ n + 1) :
    sweep n u k rest = .ok (k + m, rest.drop m) := by
  induction rest generalizing k m with
  | nil => simp at hm
  | cons c rest ih =>
    cases m with
    | zero =>
      have : ¬ u > c := by simpa using hu
      simp [sweep, this]
    | succ m =>
      have h0 : c < u := by simpa using hlt 0 (by omega)
      have hk : k ≤ n := by omega
      simp only [sweep, gt_iff_lt, h0, if_true, hk]
      rw [ih (m := m) (k := k + 1) (by simpa using hm) (by simpa using hu)
        (fun j hj => by simpa using hlt (j + 1) (by omega)) (by omega)]
      simp [Nat.add_assoc, Nat.add_comm 1 m]

theorem sweep_ok_inv {n : Nat} {u : K} {k i : Nat} {rest r : List K}
    (h : sweep n u k rest = .ok (i, r)) :
    ∃ m, ∃ hm : m < rest.length, i = k + m ∧ r = rest.drop m ∧ u ≤ rest[m] ∧
      ∀ j (hj : j < m), rest[j] < u := by
  induction rest generalizing k with
  | nil => simp [sweep] at h
  | cons c rest ih =>
    unfold sweep at h
    split at h
    · next hc =>
      split at h
      · obtain ⟨m, hm, h1, h2, h3, h4⟩ := ih h
        refine ⟨m + 1, by simpa using hm, by omega, by simpa using h2, by simpa using h3, ?_⟩
        intro j hj
        cases j with
        | zero => simpa using hc
        | succ j => simpa using h4 j (by omega)
      · simp at h
    · next hc =>
      simp only [Outcome.ok.injEq, Prod.mk.injEq] at h
      exact ⟨0, by simp, by omega, by simp [h.2], by simpa using hc, by simp⟩

theorem sweep_ub {n : Nat} {u : K} {k : Nat} {rest : List K} (h : ∀ c ∈ rest, c < u)
    (hn : k + rest.length ≤ n + 1) : sweep n u k rest = .ub := by
  induction rest generalizing k with
  | nil => rfl
  | cons c rest ih =>
    have h0 : c < u := h c (by simp)
    have hk : k ≤ n := by simp at hn; omega
    simp only [sweep, gt_iff_lt, h0, if_true, hk]
    exact ih (fun c' hc => h c' (by simp [hc])) (by simp at hn; omega)

theorem sweep_resume {n : Nat} {u u' : K} (huu : u ≤ u') {k i : Nat} {rest r : List K}
    (h : sweep n u k rest = .ok (i, r)) : sweep n u' i r = sweep n u' k rest := by
  induction rest generalizing k with
  | nil => simp [sweep] at h
  | cons c rest ih =>
    unfold sweep at h
    split at h
    · next hc =>
      split at h
      · next hk =>
        rw [ih h]
        have : u' > c := lt_of_lt_of_le hc huu
        conv_rhs => rw [sweep]
        simp [this, hk]
      · simp at h
    · simp only [Outcome.ok.injEq, Prod.mk.injEq] at h
      rw [← h.1, ← h.2]

/-- One continued sweep over an ordered list gives the same indices as separate searches. -/
theorem sweepAll_eq {n : Nat} {us : List K} (hs : us.Pairwise (· ≤ ·)) {k : Nat} {rest : List K} :
    sweepAll n us k rest =
      mapOutcome (fun u => sweep n u k rest >>= fun p => Outcome.ok p.1) us := by
  induction us generalizing k rest with
  | nil => rfl
  | cons u us ih =>
    rw [List.pairwise_cons] at hs
    simp only [sweepAll, mapOutcome]
    cases h : sweep n u k rest with
    | abort => rfl
    | ub => rfl
    | ok p =>
      obtain ⟨i, r⟩ := p
      simp only [Outcome.ok_bind]
      rw [ih hs.2]
      rw [mapOutcome_congr (g := fun u => sweep n u k rest >>= fun p => Outcome.ok p.1)]
      intro u' hu'
      rw [sweep_resume (hs.1 u' hu') h]

end sweep

section ordered
variable [IsStrictOrderedRing K]

@[simp] theorem orderedUniforms_length (root : Nat → K → K) (i : Nat) (us : List K) :
    (orderedUniforms root i us).length = us.length := by
  induction us generalizing i with
  | nil => rfl
  | cons u us ih =>
    cases us with
    | nil => rfl
    | cons v us =>
      have h := ih (i + 1)
      unfold orderedUniforms
      split
      · next h0 => rw [h0] at h; simp at h
      · next w ws h0 => rw [h0] at h; simpa using h

theorem orderedUniforms_cons (root : Nat → K → K) (i : Nat) (u v : K) (us : List K) :
    ∃ w ws, orderedUniforms root (i + 1) (v :: us) = w :: ws ∧
      orderedUniforms root i (u :: v :: us) = (root (i + 1) u * w) :: w :: ws := by
  have h := orderedUniforms_length root (i + 1) (v :: us)
  cases h0 : orderedUniforms root (i + 1) (v :: us) with
  | nil => rw [h0] at h; simp at h
  | cons w ws => exact ⟨w, ws, rfl, by rw [orderedUniforms, h0]⟩

/-- Each ordered uniform is the product of the roots of its own and all later draws. -/
theorem orderedUniforms_getElem (root : Nat → K → K) (i : Nat) (us : List K) (j : Nat)
    (hj : j < us.length) (hj' : j < (orderedUniforms root i us).length) :
    (orderedUniforms root i us)[j] =
      ((us.drop j).mapIdx fun m u => root (i + j + m + 1) u).prod := by
  induction us generalizing i j with
  | nil => simp at hj
  | cons u us ih =>
    cases us with
    | nil =>
      obtain rfl : j = 0 := by simpa using hj
      simp [orderedUniforms]
    | cons v us =>
      obtain ⟨w, ws, h1, h2⟩ := orderedUniforms_cons root i u v us
      have ih' := ih (i + 1)
      simp only [h1] at ih'
      simp only [h2]
      cases j with
      | zero =>
        have := ih' 0 (by simp) (by simp)
        simp only [List.getElem_cons_zero, List.drop_zero, Nat.add_zero] at this ⊢
        rw [List.mapIdx_cons, List.prod_cons, this]
        simp only [Nat.add_zero]
        congr 3
        funext m x
        congr 1; omega
      | succ j =>
        have := ih' j (by simpa using hj) (by
          have := orderedUniforms_length root (i + 1) (v :: us)
          rw [h1] at this; simp only [List.length_cons] at this hj ⊢; omega)
        simp only [List.getElem_cons_succ, List.drop_succ_cons]
        rw [this]
        congr 2
        funext m x
        congr 1; omega

theorem orderedUniforms_bounds {root : Nat → K → K}
    (hroot : ∀ k x, 0 ≤ x → x ≤ 1 → 0 ≤ root k x ∧ root k x ≤ 1) (i : Nat) (us : List K)
    (hus : ∀ u ∈ us, 0 ≤ u ∧ u ≤ 1) :
    (∀ w ∈ orderedUniforms root i us, 0 ≤ w ∧ w ≤ 1) ∧
      (orderedUniforms root i us).Pairwise (· ≤ ·) := by
  induction us generalizing i with
  | nil => simp [orderedUniforms]
  | cons u us ih =>
    have hu := hroot (i + 1) u (hus u (by simp)).1 (hus u (by simp)).2
    cases us with
    | nil => simp [orderedUniforms, hu]
    | cons v us =>
      obtain ⟨w, ws, h1, h2⟩ := orderedUniforms_cons root i u v us
      obtain ⟨hb, hs⟩ := ih (i + 1) (fun x hx => hus x (by simp [hx]))
      rw [h1] at hb hs
      rw [h2]
      have hw := hb w (by simp)
      have hle : root (i + 1) u * w ≤ w := by nlinarith [hu.1, hu.2, hw.1]
      have h0 : 0 ≤ root (i + 1) u * w := mul_nonneg hu.1 hw.1
      refine ⟨?_, ?_⟩
      · intro x hx
        rcases List.mem_cons.1 hx with rfl | hx
        · exact ⟨h0, hle.trans hw.2⟩
        · exact hb x hx
      · rw [List.pairwise_cons]
        refine ⟨?_, hs⟩
        intro x hx
        rcases List.mem_cons.1 hx with rfl | hx'
        · exact hle
        · exact hle.trans ((List.pairwise_cons.1 hs).1 x hx')

theorem orderedUniforms_pos {root : Nat → K → K} (hroot : ∀ k x, 0 < x → 0 < root k x)
    (i : Nat) (us : List K) (hus : ∀ u ∈ us, 0 < u) :
    ∀ w ∈ orderedUniforms root i us, 0 < w := by
  induction us generalizing i with
  | nil => simp [orderedUniforms]
  | cons u us ih =>
    have hu := hroot (i + 1) u (hus u (by simp))
    cases us with
    | nil => simp [orderedUniforms, hu]
    | cons v us =>
      obtain ⟨w, ws, h1, h2⟩ := orderedUniforms_cons root i u v us
      have hb := ih (i + 1) (fun x hx => hus x (by simp [hx]))
      rw [h1] at hb
      rw [h2]
      intro x hx
      rcases List.mem_cons.1 hx with rfl | hx
      · exact mul_pos hu (hb w (by simp))
      · exact hb x hx

end ordered

section inversion
variable [IsStrictOrderedRing K]

theorem massBelow_succ {p : List K} {i : Nat} (hi : i < p.length) :
    massBelow p (i + 1) = massBelow p i + p[i] := by
  exact List.sum_take_succ p i hi

theorem massBelow_mono {p : List K} (hp : ∀ x ∈ p, 0 ≤ x) {i j : Nat} (hij : i ≤ j) :
    massBelow p i ≤ massBelow p j := by
  induction j, hij using Nat.le_induction with
  | base => exact le_rfl
  | succ j _ ih =>
    by_cases hj : j < p.length
    · rw [massBelow_succ hj]
      have := hp p[j] (List.getElem_mem hj)
      linarith
    · have : massBelow p (j + 1) = massBelow p j := by
        simp [massBelow, List.take_of_length_le (Nat.le_of_not_lt hj),
          List.take_of_length_le (Nat.le_succ_of_le (Nat.le_of_not_lt hj))]
      rw [this]; exact ih

/-- Inversion is unique for non-negative tables. -/
theorem Inverts.unique {p : List K} (hp : ∀ x ∈ p, 0 ≤ x) {u : K} {i j : Nat}
    (hi : Inverts p u i) (hj : Inverts p u j) : i = j := by
  obtain ⟨_, h1, h2⟩ := hi
  obtain ⟨_, h3, h4⟩ := hj
  by_contra hne
  rcases Nat.lt_or_gt_of_ne hne with h | h
  · have := massBelow_mono hp (show i + 1 ≤ j from h)
    exact absurd (lt_of_lt_of_le h3 (h2.trans this)) (lt_irrefl _)
  · have := massBelow_mono hp (show j + 1 ≤ i from h)
    exact absurd (lt_of_lt_of_le h1 (h4.trans this)) (lt_irrefl _)

theorem Inverts.exists {p : List K} {u : K} (h0 : 0 < u) (h1 : u ≤ p.sum) :
    ∃ i, Inverts p u i := by
  have hex : ∃ i, u ≤ massBelow p i := ⟨p.length, by simpa [massBelow] using h1⟩
  classical
  have hspec := Nat.find_spec hex
  have hmin := fun j => Nat.find_min hex (m := j)
  set m := Nat.find hex with hm
  have hm0 : m ≠ 0 := by
    intro h
    rw [h] at hspec
    simp [massBelow] at hspec
    exact absurd h0 (not_lt.2 hspec)
  have hml : m ≤ p.length := by
    by_contra hlt
    exact hmin p.length (not_le.1 hlt) (by simpa [massBelow] using h1)
  obtain ⟨i, hi⟩ := Nat.exists_eq_succ_of_ne_zero hm0
  refine ⟨i, by omega, ?_, ?_⟩
  · exact not_le.1 (hmin i (by omega))
  · rw [hi] at hspec; exact hspec

/-- The search loop on a table of running sums performs inversion. -/
theorem sweep_runningSums {p : List K} (hp : ∀ x ∈ p, 0 ≤ x) {u : K} {i : Nat}
    (h : Inverts p u i) {n : Nat} (hn : p.length ≤ n) :
    sweep n u 0 (runningSums 0 p) = .ok (i + 1, (runningSums 0 p).drop (i + 1)) := by
  obtain ⟨hi, h1, h2⟩ := h
  have := sweep_ok (n := n) (u := u) (k := 0) (m := i + 1) (rest := runningSums 0 p)
    (by simpa using hi)
    (by rw [runningSums_getElem]; simpa [massBelow] using h2)
    (by
      intro j hj
      rw [runningSums_getElem]
      have := massBelow_mono hp (show j ≤ i by omega)
      simp only [zero_add]
      exact lt_of_le_of_lt this h1)
    (by omega)
  simpa using this

theorem sweep_runningSums_zero (p : List K) {u : K} (hu : u ≤ 0) (n : Nat) :
    sweep n u 0 (runningSums 0 p) = .ok (0, runningSums 0 p) := by
  have h : ∃ l, runningSums (0 : K) p = 0 :: l := by cases p <;> simp [runningSums]
  obtain ⟨l, hl⟩ := h
  rw [hl, sweep]
  simp [hu]

end inversion

end BFL
