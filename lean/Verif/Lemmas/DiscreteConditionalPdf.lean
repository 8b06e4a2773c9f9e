import Verif.Model.DiscreteConditionalPdf
import Verif.Spec.Table
import Verif.Lemmas.DiscretePdf

/-!
# Lemmas about `DiscreteConditionalPdf`
-/

set_option linter.unusedSectionVars false

namespace BFL.DiscreteConditionalPdf

open Spec

variable {K : Type} [Field K] [LinearOrder K]

/-- Mixed radix number with digits `cs` in bases `dims`, least significant first. -/
def radix : List Nat → List Nat → Nat
  | d :: ds, c :: cs => c + d * radix ds cs
  | _, _ => 0

theorem radix_lt {dims cs : List Nat} (h : List.Forall₂ (· < ·) cs dims) :
    radix dims cs < dims.prod := by
  induction h with
  | nil => simp [radix]
  | @cons c d cs ds hc _ ih =>
    rw [radix, List.prod_cons]
    calc c + d * radix ds cs < d + d * radix ds cs := by omega
      _ = d * (radix ds cs + 1) := by ring
      _ ≤ d * ds.prod := Nat.mul_le_mul_left _ ih

theorem radix_inj {dims cs cs' : List Nat} (h : List.Forall₂ (· < ·) cs dims)
    (h' : List.Forall₂ (· < ·) cs' dims) (he : radix dims cs = radix dims cs') : cs = cs' := by
  induction h generalizing cs' with
  | nil => cases h'; rfl
  | @cons c d cs ds hc _ ih =>
    cases h' with
    | @cons c' _ cs' _ hc' ht' =>
      simp only [radix] at he
      have h1 : c = c' := by
        have := congrArg (· % d) he
        simpa [Nat.add_mul_mod_self_left, Nat.mod_eq_of_lt hc, Nat.mod_eq_of_lt hc'] using this
      subst h1
      have hd : 0 < d := by omega
      have h2 : radix ds cs = radix ds cs' := Nat.eq_of_mul_eq_mul_left hd (by omega)
      rw [ih ht' h2]

theorem radix_surj {dims : List Nat} {r : Nat} (h : r < dims.prod) :
    ∃ cs, List.Forall₂ (· < ·) cs dims ∧ radix dims cs = r := by
  induction dims generalizing r with
  | nil => exact ⟨[], .nil, by simp at h; simp [radix, h]⟩
  | cons d ds ih =>
    rw [List.prod_cons] at h
    have hd : 0 < d := Nat.pos_of_ne_zero (by rintro rfl; simp at h)
    obtain ⟨cs, h1, h2⟩ := ih (r := r / d) (by rw [Nat.div_lt_iff_lt_mul hd, mul_comm]; exact h)
    exact ⟨r % d :: cs, .cons (Nat.mod_lt _ hd) h1, by rw [radix, h2, Nat.mod_add_div]⟩

/-- Position of `(s, cs)` in the table. -/
def cell (n : Nat) (dims : List Nat) (s : Nat) (cs : List Nat) : Nat := s + n * radix dims cs

theorem cell_eq_radix (n : Nat) (dims : List Nat) (s : Nat) (cs : List Nat) :
    cell n dims s cs = radix (n :: dims) (s :: cs) := rfl

theorem inRange_iff {n : Nat} {dims : List Nat} {s : Nat} {cs : List Nat} :
    InRange n dims s cs ↔ List.Forall₂ (· < ·) (s :: cs) (n :: dims) := by
  simp [InRange]

theorem cell_lt {n : Nat} {dims : List Nat} {s : Nat} {cs : List Nat} (h : InRange n dims s cs) :
    cell n dims s cs < dims.prod * n := by
  have := radix_lt (inRange_iff.1 h)
  rwa [List.prod_cons, mul_comm] at this

theorem cell_inj {n : Nat} {dims : List Nat} {s s' : Nat} {cs cs' : List Nat}
    (h : InRange n dims s cs) (h' : InRange n dims s' cs')
    (he : cell n dims s cs = cell n dims s' cs') : s = s' ∧ cs = cs' := by
  have := radix_inj (inRange_iff.1 h) (inRange_iff.1 h') he
  simpa using this

theorem cell_surj {n : Nat} {dims : List Nat} {i : Nat} (h : i < dims.prod * n) :
    ∃ s cs, InRange n dims s cs ∧ cell n dims s cs = i := by
  obtain ⟨cs, h1, h2⟩ := radix_surj (dims := n :: dims) (r := i)
    (by rw [List.prod_cons, mul_comm]; exact h)
  cases h1 with
  | @cons s _ cs _ hs ht => exact ⟨s, cs, ⟨hs, ht⟩, h2⟩

/-- Arguments as passed to the code. -/
abbrev ints (cs : List Nat) : List Int := List.map (fun c : Nat => Int.ofNat c) cs

theorem indexLoop_eq {dims cs : List Nat} (hl : cs.length = dims.length) (i b : Int) :
    indexLoop dims.length (ints cs) dims i b = .ok (i + b * radix dims cs) := by
  induction dims generalizing cs i b with
  | nil => simp [indexLoop, radix]
  | cons d ds ih =>
    cases cs with
    | nil => simp at hl
    | cons c cs =>
      simp only [List.length_cons, List.map_cons, indexLoop]
      rw [ih (by simpa using hl)]
      simp only [radix, Int.ofNat_eq_natCast]
      push_cast
      congr 1
      ring

/-- The shape of an object with `n` states and argument dimensions `dims`. -/
def Shape (n : Nat) (dims : List Nat) (d : DiscreteConditionalPdf K) : Prop :=
  d.numStates = n ∧ d.dims = dims ∧ d.table.length = dims.prod * n ∧ d.args.length = dims.length

theorem make_shape (n : Nat) (dims : List Nat) :
    Shape n dims (make n dims : DiscreteConditionalPdf K) := by
  simp [Shape, make]

theorem indexGet_eq {n : Nat} {dims : List Nat} {d : DiscreteConditionalPdf K}
    (hd : Shape n dims d) (s : Nat) {cs : List Nat} (hl : cs.length = dims.length) :
    d.indexGet s (ints cs) = .ok ((cell n dims s cs : Nat) : Int) := by
  obtain ⟨h1, h2, _, h4⟩ := hd
  unfold indexGet
  rw [numArgs, h4, h2, indexLoop_eq hl, h1, cell]
  push_cast
  congr 1
  ring

theorem cellGet_eq {n : Nat} {dims : List Nat} {d : DiscreteConditionalPdf K}
    (_hd : Shape n dims d) (i : Nat) :
    d.cellGet (i : Int) = match d.table[i]? with
      | some (some v) => .ok v
      | _ => .ub := by
  simp only [cellGet, Int.natCast_nonneg, if_true, Int.toNat_natCast]
  rcases d.table[i]? with _ | _ | v <;> rfl

theorem cellSet_shape {n : Nat} {dims : List Nat} {d d' : DiscreteConditionalPdf K}
    (hd : Shape n dims d) {i : Int} {p : K} (h : d.cellSet i p = .ok d') : Shape n dims d' := by
  unfold cellSet at h
  split at h
  · simp only [Outcome.ok.injEq] at h
    subst h
    simpa [Shape] using hd
  · simp at h

theorem probabilitySet_shape {n : Nat} {dims : List Nat} {d d' : DiscreteConditionalPdf K}
    (hd : Shape n dims d) {p : K} {s : Int} {cs : List Int}
    (h : d.probabilitySet p s cs = .ok d') : Shape n dims d' := by
  simp only [probabilitySet, Outcome.bind_eq_ok] at h
  obtain ⟨i, _, h⟩ := h
  exact cellSet_shape hd h

theorem argsSet_shape {n : Nat} {dims : List Nat} {d d' : DiscreteConditionalPdf K}
    (hd : Shape n dims d) {cs : List Int} (h : d.argsSet cs = .ok d') : Shape n dims d' := by
  simp only [argsSet, Outcome.bind_eq_ok, Outcome.pure_eq, Outcome.ok.injEq, cassert_eq_ok] at h
  obtain ⟨_, h1, rfl⟩ := h
  obtain ⟨a, b, c, e⟩ := hd
  exact ⟨a, b, c, h1.trans e⟩

theorem argSet_shape {n : Nat} {dims : List Nat} {d d' : DiscreteConditionalPdf K}
    (hd : Shape n dims d) {i : Nat} {c : Int} (h : d.argSet i c = .ok d') : Shape n dims d' := by
  simp only [argSet, Outcome.bind_eq_ok, Outcome.pure_eq, Outcome.ok.injEq, cassert_eq_ok] at h
  obtain ⟨_, h1, cs, h2, rfl⟩ := h
  rw [vset_of_lt h1] at h2
  simp only [Outcome.ok.injEq] at h2
  subst h2
  simpa [Shape] using hd

theorem copy_eq {n : Nat} {dims : List Nat} {d : DiscreteConditionalPdf K}
    (hd : Shape n dims d) : d.copy = .ok d := by
  have key : ∀ {α : Type} (l : List α), mapOutcome (fun a => vget l a) (List.range l.length) = .ok l := by
    intro α l
    cases hl : l with
    | nil => rfl
    | cons x xs =>
      rw [← hl, mapOutcome_eq_ok (g := fun a => l.getD a x)]
      · congr 1
        apply List.ext_getElem
        · simp
        · intro i h1 h2; simp [h2]
      · intro a ha
        have ha' : a < l.length := List.mem_range.1 ha
        rw [vget_of_lt ha']
        simp [ha']
  obtain ⟨h1, h2, h3, h4⟩ := hd
  unfold copy
  have e1 : d.numArgs = d.dims.length := by rw [numArgs, h4, h2]
  rw [e1, key, Outcome.ok_bind]
  have e2 : d.dims.prod * d.numStates = d.table.length := by rw [h1, h2, h3]
  rw [e2, key]
  rfl

theorem probabilitySet_eq {n : Nat} {dims : List Nat} {d : DiscreteConditionalPdf K}
    (hd : Shape n dims d) {s : Nat} {cs : List Nat} (hr : InRange n dims s cs) (p : K) :
    d.probabilitySet p s (ints cs) =
      .ok { d with table := d.table.set (cell n dims s cs) (some p) } := by
  have hlt : cell n dims s cs < d.table.length := by rw [hd.2.2.1]; exact cell_lt hr
  unfold probabilitySet
  rw [indexGet_eq hd s hr.2.length_eq, Outcome.ok_bind]
  simp [cellSet, hlt]

/-- Read `P(s | cs)` through the public interface. -/
def read (d : DiscreteConditionalPdf K) (s : Nat) (cs : List Nat) : Outcome K := do
  let d' ← d.argsSet (ints cs)
  d'.probabilityGet s

theorem read_eq {n : Nat} {dims : List Nat} {d : DiscreteConditionalPdf K}
    (hd : Shape n dims d) {s : Nat} {cs : List Nat} (hl : cs.length = dims.length) :
    d.read s cs = match d.table[cell n dims s cs]? with
      | some (some v) => mkProb v
      | _ => .ub := by
  have hlen : (ints cs).length = d.numArgs := by
    rw [numArgs, hd.2.2.2, List.length_map]; exact hl
  unfold read argsSet
  rw [cassert_true hlen]
  simp only [Outcome.ok_bind, Outcome.pure_eq]
  have hs : Shape n dims { d with args := ints cs } := ⟨hd.1, hd.2.1, hd.2.2.1, by simp [hl]⟩
  unfold probabilityGet
  simp only
  rw [indexGet_eq hs s hl, Outcome.ok_bind, cellGet_eq hs]
  simp only
  rcases d.table[cell n dims s cs]? with _ | _ | v <;> rfl

theorem row_eq {n : Nat} {dims : List Nat} {d : DiscreteConditionalPdf K} (hd : Shape n dims d)
    {cs : List Nat} (hargs : d.args = ints cs) (hcs : List.Forall₂ (· < ·) cs dims) {p : List K}
    (hp : p.length = n) (hget : ∀ s (hs : s < p.length), d.probabilityGet s = .ok p[s]) :
    d.row = .ok p ∧ ∀ x ∈ p, 0 ≤ x := by
  have hcell : ∀ s (hs : s < p.length), d.cellGet ((cell n dims s cs : Nat) : Int) = .ok p[s] ∧
      0 ≤ p[s] := by
    intro s hs
    have := hget s hs
    unfold probabilityGet at this
    rw [hargs, indexGet_eq hd s hcs.length_eq, Outcome.ok_bind, Outcome.bind_eq_ok] at this
    obtain ⟨v, h1, h2⟩ := this
    rw [mkProb_eq_ok] at h2
    obtain ⟨h2, rfl⟩ := h2
    exact ⟨h1, h2⟩
  refine ⟨?_, ?_⟩
  · unfold row
    rw [hargs, show (0 : Int) = ((0 : Nat) : Int) from rfl, indexGet_eq hd 0 hcs.length_eq,
      Outcome.ok_bind, hd.1]
    rw [mapOutcome_eq_ok (g := fun i => p.getD i 0)]
    · congr 1
      apply List.ext_getElem
      · simp [hp]
      · intro i h1 h2; simp [h2]
    · intro i hi
      have hi' : i < p.length := by rw [hp]; exact List.mem_range.1 hi
      have e : ((cell n dims 0 cs : Nat) : Int) + (i : Int) = ((cell n dims i cs : Nat) : Int) := by
        simp only [cell]; push_cast; ring
      rw [e, (hcell i hi').1]
      simp [hi']
  · intro x hx
    obtain ⟨i, hi, rfl⟩ := List.getElem_of_mem hx
    exact (hcell i hi).2

variable [IsStrictOrderedRing K]

theorem valueList_eq {p : List K} (_hp : ∀ x ∈ p, 0 ≤ x) (hs : p.sum ≠ 0) :
    valueList p.length p = .ok (runningSums 0 (p.map (· / p.sum))) := by
  have hsum : (p.map (· / p.sum)).sum = 1 := by rw [sum_map_div, div_self hs]
  unfold valueList
  rw [if_neg hs]
  simp only
  have h1 : vget (runningSums 0 (p.map (· / p.sum))) p.length = .ok 1 := by
    rw [vget_eq_ok, runningSums_getElem? _ _ _ (by simp)]
    rw [List.take_of_length_le (by simp), hsum, zero_add]
  have h2 : (0 : K) < numericPrecision := numericPrecision_pos
  rw [h1, Outcome.ok_bind, cassert_true (by constructor <;> linarith), Outcome.ok_bind,
    setLast_runningSums hsum]
  rfl

/-- Inverting the normalised row at `u` is inverting the row itself at `u * total`. -/
theorem inverts_scaled {p : List K} (hs : 0 < p.sum) {u : K} {i : Nat} :
    Inverts (p.map (· / p.sum)) u i ↔ Inverts p (u * p.sum) i := by
  have hm : ∀ k, massBelow (p.map (· / p.sum)) k = massBelow p k / p.sum := by
    intro k
    simp only [massBelow, ← List.map_take]
    rw [sum_map_div]
  unfold Inverts
  rw [hm, hm, div_lt_iff₀ hs, le_div_iff₀ hs, List.length_map]

end BFL.DiscreteConditionalPdf
