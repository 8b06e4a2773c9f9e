import Verif.Model.HistogramFilter
import Verif.Lemmas.DiscretePdf
import Verif.Lemmas.Bayes

/-!
# Lemmas about `HistogramFilter`
-/

set_option linter.unusedSectionVars false

namespace BFL

open Finset Spec

section tab
variable {V : Type}

@[simp] theorem tab_length (n : Nat) (p : Nat → V) : (tab n p).length = n := by simp [tab]

theorem tab_getElem {n : Nat} (p : Nat → V) {i : Nat} (h : i < (tab n p).length) :
    (tab n p)[i] = p i := by simp [tab]

theorem tab_congr {n : Nat} {p q : Nat → V} (h : ∀ x < n, p x = q x) : tab n p = tab n q :=
  List.map_congr_left fun x hx => h x (List.mem_range.1 hx)

theorem tab_map {W : Type} (n : Nat) (p : Nat → V) (g : V → W) :
    (tab n p).map g = tab n fun x => g (p x) := by simp [tab, Function.comp_def]

theorem forall_mem_tab {n : Nat} {p : Nat → V} {P : V → Prop} :
    (∀ v ∈ tab n p, P v) ↔ ∀ x < n, P (p x) := by simp [tab]

theorem eq_tab (l : List V) (d : V) : l = tab l.length fun i => l.getD i d := by
  apply List.ext_getElem
  · simp
  · intro i h1 h2
    rw [tab_getElem]
    simp [h1]

end tab

variable {K : Type} [Field K] [LinearOrder K] [IsStrictOrderedRing K]

theorem tab_sum (n : Nat) (p : Nat → K) : (tab n p).sum = ∑ x ∈ range n, p x := by
  induction n with
  | zero => simp [tab]
  | succ n ih =>
    rw [tab, List.range_succ, List.map_append, List.sum_append, Finset.sum_range_succ, ← ih, tab]
    simp

namespace HistogramFilter

variable {Z : Type}

theorem predictLoop_eq {cell : Nat → Outcome K} {g : Nat → K} {n : Nat}
    (hc : ∀ i < n, cell i = .ok (g i)) (hg : ∀ i < n, 0 ≤ g i) :
    ∀ (k i : Nat) (v : List K), i + k = n → v.length = n →
      predictLoop cell k i v = .ok (v.take i ++ (tab n g).drop i) := by
  intro k
  induction k with
  | zero =>
    intro i v hi hv
    have h1 : v.take i = v := List.take_of_length_le (by omega)
    have h2 : (tab n g).drop i = [] := List.drop_eq_nil_of_le (by simp; omega)
    rw [predictLoop, h1, h2, List.append_nil]
  | succ k ih =>
    intro i v hi hv
    have hlt : i < n := by omega
    rw [predictLoop, hc i hlt, Outcome.ok_bind, mkProb_of_nonneg (hg i hlt), Outcome.ok_bind,
      vset_of_lt (by omega), Outcome.ok_bind, ih (i + 1) _ (by omega) (by simp [hv])]
    congr 1
    have h1 : (v.set i (g i)).take (i + 1) = v.take i ++ [g i] := by
      rw [List.take_succ_eq_append_getElem (by simp; omega), List.take_set,
        List.set_eq_of_length_le (by simp)]
      simp
    have h2 : (tab n g).drop i = g i :: (tab n g).drop (i + 1) := by
      rw [List.drop_eq_getElem_cons (by simp; omega), tab_getElem]
    rw [h1, h2, List.append_assoc]
    rfl

theorem predictLoop_length {cell : Nat → Outcome K} :
    ∀ (k i : Nat) (v w : List K), predictLoop cell k i v = .ok w → w.length = v.length := by
  intro k
  induction k with
  | zero => intro i v w h; simp only [predictLoop, Outcome.ok.injEq] at h; rw [h]
  | succ k ih =>
    intro i v w h
    simp only [predictLoop, Outcome.bind_eq_ok] at h
    obtain ⟨t, _, p, _, v', h3, h4⟩ := h
    rw [ih _ _ _ h4]
    unfold vset at h3
    split at h3
    · simp only [Outcome.ok.injEq] at h3
      rw [← h3, List.length_set]
    · simp at h3

theorem probabilitiesSet_length {d d' : DiscretePdf K} {v : List K} {b : Bool}
    (h : d.probabilitiesSet v = .ok (b, d')) : d'.values.length = d.values.length := by
  obtain ⟨hv, hl, h1, h2⟩ := DiscretePdf.probabilitiesSet_inv h
  cases b with
  | true =>
    rw [DiscretePdf.probabilitiesSet_pos hv hl (h1 rfl)] at h
    simp only [Outcome.ok.injEq, Prod.mk.injEq] at h
    rw [← h.2]
    simp [hl]
  | false =>
    rw [DiscretePdf.probabilitiesSet_zero hv hl (h2 rfl)] at h
    simp only [Outcome.ok.injEq, Prod.mk.injEq] at h
    rw [← h.2]
    simp [hl]

/-- The sizes that every update relies on. -/
def Sized (n : Nat) (f : HistogramFilter K) : Prop :=
  f.post.values.length = n ∧ f.newProb.length = n ∧ f.timestep = 0

theorem make_sized {prior : DiscretePdf K} {f : HistogramFilter K} (h : make prior = .ok f) :
    Sized prior.values.length f ∧ f.post.values = prior.values := by
  simp only [make, Outcome.bind_eq_ok, Outcome.pure_eq, Outcome.ok.injEq] at h
  obtain ⟨c, hc, rfl⟩ := h
  simp only [DiscretePdf.copy, Outcome.bind_eq_ok, Outcome.pure_eq, Outcome.ok.injEq] at hc
  obtain ⟨⟨b, r⟩, hr, rfl⟩ := hc
  obtain ⟨_, h2, _⟩ := DiscretePdf.cumUpdate_ok hr
  refine ⟨⟨?_, rfl, rfl⟩, h2⟩
  simp [h2]

theorem sysUpdate_sized {n : Nat} {f f' : HistogramFilter K} {sys : Model Int Int K}
    {u : Option Int} (hf : Sized n f) (h : f.sysUpdate sys u = .ok f') : Sized n f' := by
  simp only [sysUpdate, Outcome.bind_eq_ok, Outcome.pure_eq, Outcome.ok.injEq] at h
  obtain ⟨_, _, new, hn, ⟨b, post⟩, hp, rfl⟩ := h
  refine ⟨?_, ?_, hf.2.2⟩
  · rw [probabilitiesSet_length hp]; exact hf.1
  · rw [predictLoop_length _ _ _ _ hn]; exact hf.2.1

theorem measUpdate_sized {n : Nat} {f f' : HistogramFilter K} {meas : Model Int Z K} {z : Z}
    {s : Option Int} (hf : Sized n f) (h : f.measUpdate meas z s = .ok f') : Sized n f' := by
  simp only [measUpdate, Outcome.bind_eq_ok, Outcome.pure_eq, Outcome.ok.injEq] at h
  obtain ⟨_, _, ⟨b, post⟩, hp, rfl⟩ := h
  refine ⟨?_, hf.2.1, hf.2.2⟩
  rw [probabilitiesSet_length hp]; exact hf.1

theorem update_sized {n : Nat} {f f' : HistogramFilter K} {c : Call Z K} {b : Bool}
    (hf : Sized n f) (h : f.update c = .ok (b, f')) : b = true ∧ Sized n f' := by
  obtain ⟨sys, meas⟩ := c
  simp only [update, Outcome.bind_eq_ok, Outcome.pure_eq, Outcome.ok.injEq, Prod.mk.injEq] at h
  obtain ⟨f1, h1, f2, h2, rfl, rfl⟩ := h
  refine ⟨rfl, ?_⟩
  have hf1 : Sized n f1 := by
    rcases sys with _ | ⟨m, u⟩
    · simp only [sysPart, Outcome.ok.injEq] at h1; exact h1 ▸ hf
    · exact sysUpdate_sized hf h1
  rcases meas with _ | ⟨m, z, s⟩
  · simp only [measPart, Outcome.ok.injEq] at h2; exact h2 ▸ hf1
  · exact measUpdate_sized hf1 h2

/-- Storing the unnormalised result `q` in the posterior. -/
theorem store_pos {n : Nat} {d : DiscretePdf K} (hd : d.values.length = n) {q : Nat → K}
    (hq : ∀ x < n, 0 ≤ q x) (h : 0 < ∑ x ∈ range n, q x) :
    d.probabilitiesSet (tab n q) = .ok (true,
      { values := tab n fun x => q x / ∑ y ∈ range n, q y,
        cum := runningSums 0 (tab n fun x => q x / ∑ y ∈ range n, q y) }) := by
  rw [DiscretePdf.probabilitiesSet_pos (forall_mem_tab.2 hq) (by simp [hd])
    (by rw [tab_sum]; exact h), tab_sum, tab_map]

theorem store_zero {n : Nat} {d : DiscretePdf K} (hd : d.values.length = n) {q : Nat → K}
    (hq : ∀ x < n, q x = 0) :
    d.probabilitiesSet (tab n q) = .ok (false, { d with values := tab n fun _ => 0 }) := by
  have h : tab n q = tab n fun _ => (0 : K) := tab_congr hq
  rw [h]
  exact DiscretePdf.probabilitiesSet_zero (forall_mem_tab.2 fun _ _ => le_rfl) (by simp [hd])
    (by rw [tab_sum]; simp)

theorem sysUpdate_eq {n : Nat} {f : HistogramFilter K} (hf : Sized n f) {p : Nat → K}
    (hp : f.post.values = tab n p) (hp0 : ∀ x < n, 0 ≤ p x) {sys : Model Int Int K}
    {u : Option Int} {w : Bool} (hw : sys.withoutInputs = .ok w) {T : Nat → Nat → K}
    (hT : ∀ y < n, ∀ x < n, sysProb sys u (y : Int) (x : Int) = .ok (T y x))
    (hT0 : ∀ y < n, ∀ x < n, 0 ≤ T y x) :
    f.sysUpdate sys u = (do
      let r ← f.post.probabilitiesSet (tab n (totalProbability n T p))
      return { f with post := r.2, newProb := tab n (totalProbability n T p) }) := by
  have hcell : ∀ y < n, predictCell sys u f.post.values n y = .ok (totalProbability n T p y) := by
    intro y hy
    unfold predictCell
    rw [mapOutcome_eq_ok (g := fun x => T y x * p x)]
    · simp only [Outcome.ok_bind, Outcome.pure_eq]
      rw [totalProbability, ← tab_sum]
      rfl
    · intro x hx
      have hx' := List.mem_range.1 hx
      have : vget f.post.values x = .ok (p x) := by
        rw [hp, vget_of_lt (by simpa using hx'), tab_getElem]
      rw [hT y hy x hx', Outcome.ok_bind, this, Outcome.ok_bind]
      rfl
  have hnn : ∀ y < n, 0 ≤ totalProbability n T p y := fun y hy =>
    Step.apply_nonneg hp0 (s := .move T) hT0 y hy
  unfold sysUpdate
  simp only [hw, Outcome.ok_bind]
  have hns : f.post.numStates = n := hf.1
  rw [hns, predictLoop_eq (g := totalProbability n T p) hcell hnn n 0 f.newProb (by omega) hf.2.1]
  simp

theorem measUpdate_eq {n : Nat} {f : HistogramFilter K} (hf : Sized n f) {p : Nat → K}
    (hp : f.post.values = tab n p) (hp0 : ∀ x < n, 0 ≤ p x) {meas : Model Int Z K} {z : Z}
    {s : Option Int} {L : Nat → K}
    (hL : ∀ x < n, measProb meas z s (x : Int) = .ok (L x)) (hL0 : ∀ x < n, 0 ≤ L x) :
    f.measUpdate meas z s = (do
      let r ← f.post.probabilitiesSet (tab n fun x => p x * L x)
      return { f with post := r.2 }) := by
  unfold measUpdate
  have hns : f.post.numStates = n := hf.1
  rw [hns, mapOutcome_eq_ok (g := fun x => p x * L x)]
  · rfl
  · intro x hx
    have hx' := List.mem_range.1 hx
    have : vget f.post.probabilitiesGet x = .ok (p x) := by
      rw [DiscretePdf.probabilitiesGet, hp, vget_of_lt (by simpa using hx'), tab_getElem]
    rw [this, Outcome.ok_bind, hL x hx', Outcome.ok_bind,
      mkProb_of_nonneg (mul_nonneg (hp0 x hx') (hL0 x hx'))]

end HistogramFilter

end BFL
