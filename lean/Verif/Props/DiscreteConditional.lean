import Verif.Lemmas.DiscreteConditionalPdf
import Mathlib.MeasureTheory.Measure.Lebesgue.Basic

/-!
# Properties C20 and C21 of `DiscreteConditionalPdf`
-/

set_option linter.unusedSectionVars false

namespace BFL.Props

open Spec DiscreteConditionalPdf

variable {K : Type} [Field K] [LinearOrder K]

/-- An object with `n` states and argument dimensions `dims` after any public calls that returned
normally, except `NumConditionalArgumentsSet`. -/
inductive TableHistory (n : Nat) (dims : List Nat) : DiscreteConditionalPdf K → Prop
  | make : TableHistory n dims (make n dims)
  | write {d d' p s cs} : TableHistory n dims d → d.probabilitySet p s cs = .ok d' →
      TableHistory n dims d'
  | args {d d' cs} : TableHistory n dims d → d.argsSet cs = .ok d' → TableHistory n dims d'
  | arg {d d' i c} : TableHistory n dims d → d.argSet i c = .ok d' → TableHistory n dims d'
  | copy {d d'} : TableHistory n dims d → d.copy = .ok d' → TableHistory n dims d'

theorem TableHistory.shape {n : Nat} {dims : List Nat} {d : DiscreteConditionalPdf K}
    (h : TableHistory n dims d) : Shape n dims d := by
  induction h with
  | make => exact make_shape n dims
  | write _ h ih => exact probabilitySet_shape ih h
  | args _ h ih => exact argsSet_shape ih h
  | arg _ h ih => exact argSet_shape ih h
  | copy _ h ih =>
    rw [copy_eq ih] at h
    simp only [Outcome.ok.injEq] at h
    exact h ▸ ih

/-! ## C20 -/

/-- In-range tuples address cells inside the allocated table, distinct tuples address distinct
cells, and every cell is addressed. -/
theorem C20_addressing {n : Nat} {dims : List Nat} {d : DiscreteConditionalPdf K}
    (h : TableHistory n dims d) :
    (∀ s cs, InRange n dims s cs →
      ∃ i : Nat, i < d.table.length ∧ d.indexGet s (ints cs) = .ok (i : Int)) ∧
    (∀ s cs s' cs', InRange n dims s cs → InRange n dims s' cs' →
      d.indexGet s (ints cs) = d.indexGet s' (ints cs') → s = s' ∧ cs = cs') ∧
    (∀ i : Nat, i < d.table.length →
      ∃ s cs, InRange n dims s cs ∧ d.indexGet s (ints cs) = .ok (i : Int)) := by
  have hs := h.shape
  refine ⟨?_, ?_, ?_⟩
  · intro s cs hr
    exact ⟨_, by rw [hs.2.2.1]; exact cell_lt hr, indexGet_eq hs s hr.2.length_eq⟩
  · intro s cs s' cs' hr hr' he
    rw [indexGet_eq hs s hr.2.length_eq, indexGet_eq hs s' hr'.2.length_eq] at he
    simp only [Outcome.ok.injEq, Nat.cast_inj] at he
    exact cell_inj hr hr' he
  · intro i hi
    rw [hs.2.2.1] at hi
    obtain ⟨s, cs, hr, rfl⟩ := cell_surj hi
    exact ⟨s, cs, hr, indexGet_eq hs s hr.2.length_eq⟩

/-- `ProbabilitySet(p, s, cs)` changes what `ProbabilityGet` returns for exactly the tuple
`(s, cs)`, to exactly `p` (a negative `p` is stored and makes the later read abort). -/
theorem C20_write_read {n : Nat} {dims : List Nat} {d : DiscreteConditionalPdf K}
    (h : TableHistory n dims d) {s : Nat} {cs : List Nat} (hr : InRange n dims s cs) (p : K) :
    ∃ d', d.probabilitySet p s (ints cs) = .ok d' ∧
      d'.read s cs = (if 0 ≤ p then .ok p else .abort) ∧
      ∀ s' cs', InRange n dims s' cs' → (s', cs') ≠ (s, cs) → d'.read s' cs' = d.read s' cs' := by
  have hs := h.shape
  have hlt : cell n dims s cs < d.table.length := by rw [hs.2.2.1]; exact cell_lt hr
  have he := probabilitySet_eq hs hr p
  have hs' := probabilitySet_shape hs he
  refine ⟨_, he, ?_, ?_⟩
  · rw [read_eq hs' hr.2.length_eq]
    simp [hlt, mkProb]
  · intro s' cs' hr' hne
    rw [read_eq hs' hr'.2.length_eq, read_eq hs hr'.2.length_eq]
    have hne' : cell n dims s cs ≠ cell n dims s' cs' := by
      intro heq
      obtain ⟨h1, h2⟩ := cell_inj hr hr' heq
      exact hne (by rw [h1, h2])
    simp only [List.getElem?_set_ne hne']

/-- Whole histories: after any sequence of in-range writes to a new object, reading a tuple gives
the last value written to it, and reading a tuple that was never written is undefined. -/
theorem C20_table_semantics (n : Nat) (dims : List Nat) (ws : List (K × Nat × List Nat))
    (hws : ∀ w ∈ ws, InRange n dims w.2.1 w.2.2) :
    ∃ d, (make n dims : DiscreteConditionalPdf K).writes
        (ws.map fun w => (w.1, (w.2.1 : Int), ints w.2.2)) = .ok d ∧
      ∀ s cs, InRange n dims s cs → d.read s cs = match lastWrite ws s cs with
        | some p => if 0 ≤ p then .ok p else .abort
        | none => .ub := by
  have key : ∀ (ws done : List (K × Nat × List Nat)) (d : DiscreteConditionalPdf K),
      (∀ w ∈ ws, InRange n dims w.2.1 w.2.2) → Shape n dims d →
      (∀ s cs, InRange n dims s cs →
        d.table[cell n dims s cs]? = some (lastWrite done s cs)) →
      ∃ d', d.writes (ws.map fun w => (w.1, (w.2.1 : Int), ints w.2.2)) = .ok d' ∧
        Shape n dims d' ∧ ∀ s cs, InRange n dims s cs →
          d'.table[cell n dims s cs]? = some (lastWrite (done ++ ws) s cs) := by
    intro ws
    induction ws with
    | nil => intro done d _ hs ht; exact ⟨d, rfl, hs, by simpa using ht⟩
    | cons w ws ih =>
      intro done d hr hs ht
      obtain ⟨p, s, cs⟩ := w
      have hr0 : InRange n dims s cs := hr (p, s, cs) (by simp)
      have hlt : cell n dims s cs < d.table.length := by rw [hs.2.2.1]; exact cell_lt hr0
      have he := probabilitySet_eq hs hr0 p
      obtain ⟨d', h1, h2, h3⟩ := ih (done ++ [(p, s, cs)]) _ (fun w hw => hr w (by simp [hw]))
        (probabilitySet_shape hs he) (by
          intro s' cs' hr'
          by_cases hsame : (s', cs') = (s, cs)
          · simp only [Prod.mk.injEq] at hsame
            obtain ⟨rfl, rfl⟩ := hsame
            simp [hlt, lastWrite]
          · have hne' : cell n dims s cs ≠ cell n dims s' cs' := by
              intro heq
              obtain ⟨a, b⟩ := cell_inj hr0 hr' heq
              exact hsame (by rw [a, b])
            have hne2 : ¬ ((s, cs) = (s', cs')) := fun h => hsame h.symm
            simp only [List.getElem?_set_ne hne', ht s' cs' hr', lastWrite, List.reverse_append,
              List.reverse_cons, List.reverse_nil, List.nil_append, List.singleton_append]
            rw [List.find?_cons_of_neg (by simpa using hne2)])
      refine ⟨d', ?_, h2, ?_⟩
      · simp only [List.map_cons, writes]
        rw [he, Outcome.ok_bind, h1]
      · intro s' cs' hr'
        rw [h3 s' cs' hr']
        simp
  obtain ⟨d, h1, h2, h3⟩ := key ws [] (make n dims) hws (make_shape n dims) (by
    intro s cs hr
    have := cell_lt hr
    simp [make, lastWrite, this])
  refine ⟨d, h1, ?_⟩
  intro s cs hr
  rw [read_eq h2 hr.2.length_eq, h3 s cs hr]
  simp only [List.nil_append]
  rcases lastWrite ws s cs with _ | v <;> rfl

/-- There is no range check: writing state `n` (one past the last) for argument `c` writes state 0
for argument `c + 1`. -/
theorem C20_no_range_check {n : Nat} {dims : List Nat} {d : DiscreteConditionalPdf K} {d0 : Nat}
    (h : TableHistory n (d0 :: dims) d) (p : K) (c : Nat) {cs : List Nat}
    (hl : cs.length = dims.length) :
    d.probabilitySet p n (ints (c :: cs)) = d.probabilitySet p 0 (ints ((c + 1) :: cs)) := by
  have hs := h.shape
  unfold DiscreteConditionalPdf.probabilitySet
  rw [indexGet_eq hs n (by simpa using hl), show (0 : Int) = ((0 : Nat) : Int) from rfl,
    indexGet_eq hs 0 (by simpa using hl)]
  have : cell n (d0 :: dims) n (c :: cs) = cell n (d0 :: dims) 0 ((c + 1) :: cs) := by
    simp only [cell, radix]; ring
  rw [this]

/-- Raising the number of conditional arguments does not extend the table: every later read is
undefined. -/
theorem C20_more_arguments {n : Nat} {dims : List Nat} {d : DiscreteConditionalPdf K}
    (h : TableHistory n dims d) {k : Nat} (hk : dims.length < k) (s : Int) :
    (d.numArgsSet k).probabilityGet s = .ub := by
  have hs := h.shape
  have key : ∀ (k : Nat) (cs : List Int) (ds : List Nat) (i b : Int), ds.length < k →
      indexLoop k cs ds i b = .ub := by
    intro k
    induction k with
    | zero => intro cs ds i b h; simp at h
    | succ k ih =>
      intro cs ds i b h
      cases cs with
      | nil => cases ds <;> rfl
      | cons c cs =>
        cases ds with
        | nil => rfl
        | cons e es => exact ih _ _ _ _ (by simpa using h)
  have hlen : (d.numArgsSet k).numArgs = k := by
    simp only [numArgsSet, numArgs, List.length_append, List.length_take, List.length_replicate]
    omega
  unfold probabilityGet indexGet
  rw [hlen, key _ _ _ _ _ (by simpa [numArgsSet, hs.2.1] using hk)]
  rfl

example : ∃ d d' : DiscreteConditionalPdf ℚ, TableHistory 2 [2, 3] d ∧ InRange 2 [2, 3] 1 [1, 2] ∧
    d.probabilitySet (1/3) 1 [1, 2] = .ok d' ∧ d'.table.length = 12 ∧ d'.table[11]? = some (some (1/3)) :=
  ⟨_, _, .make, ⟨by decide, by simp⟩, rfl, rfl, by decide +kernel⟩

/-! ## C21 -/

variable [IsStrictOrderedRing K]

/-- The sampled state inverts the row `P(.|c)` of the current arguments at `u * total`; it is in
range and has positive probability. Full statement: for every draw; missing: the draw 0, where
`C21_zero_draw` shows that the sample is -1. -/
theorem C21_row_inversion_partial {n : Nat} {dims : List Nat} {d : DiscreteConditionalPdf K}
    (h : TableHistory n dims d) {cs : List Nat} (hargs : d.args = ints cs)
    (hcs : List.Forall₂ (· < ·) cs dims) {p : List K} (hp : p.length = n)
    (hget : ∀ s (hs : s < p.length), d.probabilityGet s = .ok p[s]) (hpos : 0 < p.sum) {u : K}
    (h0 : 0 < u) (h1 : u ≤ 1) (i : Int) :
    d.sampleOne u = .ok i ↔ ∃ s : Nat, i = s ∧ Inverts p (u * p.sum) s ∧
      ∃ hs : s < p.length, 0 < p[s] := by
  obtain ⟨hrow, hnn⟩ := row_eq h.shape hargs hcs hp hget
  have hq := DiscretePdf.normalized_dist hnn hpos
  obtain ⟨s, hs⟩ := Inverts.exists (p := p.map (· / p.sum)) h0 (by rw [hq.2]; exact h1)
  have hs' := (inverts_scaled hpos).1 hs
  have hv : d.sampleOne u = .ok (s : Int) := by
    unfold sampleOne
    rw [hrow, Outcome.ok_bind, h.shape.1, ← hp, valueList_eq hnn (ne_of_gt hpos), Outcome.ok_bind,
      sweep_runningSums hq.1 hs (by simp)]
    simp
  have hpos' : ∀ t, Inverts p (u * p.sum) t → ∃ ht : t < p.length, 0 < p[t] := by
    intro t ht
    refine ⟨ht.1, ?_⟩
    have a := massBelow_succ ht.1
    have b := ht.2.1
    have c := ht.2.2
    linarith
  rw [hv]
  simp only [Outcome.ok.injEq]
  constructor
  · rintro rfl; exact ⟨s, rfl, hs', hpos' s hs'⟩
  · rintro ⟨t, rfl, ht, _⟩
    rw [Inverts.unique hnn hs' ht]

/-- Such a sample always exists. -/
theorem C21_draws {n : Nat} {dims : List Nat} {d : DiscreteConditionalPdf K}
    (h : TableHistory n dims d) {cs : List Nat} (hargs : d.args = ints cs)
    (hcs : List.Forall₂ (· < ·) cs dims) {p : List K} (hp : p.length = n)
    (hget : ∀ s (hs : s < p.length), d.probabilityGet s = .ok p[s]) (hpos : 0 < p.sum) {u : K}
    (h0 : 0 < u) (h1 : u ≤ 1) :
    ∃ s : Nat, d.sampleOne u = .ok (s : Int) ∧ ∃ hs : s < p.length, 0 < p[s] := by
  obtain ⟨s, hs⟩ := Inverts.exists (p := p) (u := u * p.sum) (mul_pos h0 hpos)
    (by nlinarith)
  have hlt : 0 < p[s]'hs.1 := by
    have a := massBelow_succ hs.1
    have b := hs.2.1
    have c := hs.2.2
    linarith
  exact ⟨s, (C21_row_inversion_partial h hargs hcs hp hget hpos h0 h1 s).2 ⟨s, rfl, hs, hs.1, hlt⟩,
    hs.1, hlt⟩

/-- The draw 0 yields the invalid state -1. -/
theorem C21_zero_draw {n : Nat} {dims : List Nat} {d : DiscreteConditionalPdf K}
    (h : TableHistory n dims d) {cs : List Nat} (hargs : d.args = ints cs)
    (hcs : List.Forall₂ (· < ·) cs dims) {p : List K} (hp : p.length = n)
    (hget : ∀ s (hs : s < p.length), d.probabilityGet s = .ok p[s]) (hpos : 0 < p.sum) :
    d.sampleOne 0 = .ok (-1) := by
  obtain ⟨hrow, hnn⟩ := row_eq h.shape hargs hcs hp hget
  unfold sampleOne
  rw [hrow, Outcome.ok_bind, h.shape.1, ← hp, valueList_eq hnn (ne_of_gt hpos), Outcome.ok_bind,
    sweep_runningSums_zero _ le_rfl]
  rfl

/-- A row of zeros is refused. -/
theorem C21_zero_row {n : Nat} {dims : List Nat} {d : DiscreteConditionalPdf K}
    (h : TableHistory n dims d) {cs : List Nat} (hargs : d.args = ints cs)
    (hcs : List.Forall₂ (· < ·) cs dims)
    (hget : ∀ s : Nat, s < n → d.probabilityGet s = .ok 0) (u : K) :
    d.sampleOne u = .abort := by
  obtain ⟨hrow, _⟩ := row_eq h.shape hargs hcs (p := List.replicate n 0) (by simp)
    (by intro s hs; rw [hget s (by simpa using hs)]; simp)
  unfold sampleOne
  rw [hrow, Outcome.ok_bind, valueList, if_pos (by simp)]
  rfl

/-- For a uniform draw, state `s` is sampled with probability `P(s|c) / total`. -/
theorem C21_law {n : Nat} {dims : List Nat} {d : DiscreteConditionalPdf ℝ}
    (h : TableHistory n dims d) {cs : List Nat} (hargs : d.args = ints cs)
    (hcs : List.Forall₂ (· < ·) cs dims) {p : List ℝ} (hp : p.length = n)
    (hget : ∀ s (hs : s < p.length), d.probabilityGet s = .ok p[s]) (hpos : 0 < p.sum) {s : Nat}
    (hs : s < p.length) :
    MeasureTheory.volume {u : ℝ | u ∈ Set.Ioc 0 1 ∧ d.sampleOne u = .ok (s : Int)}
      = ENNReal.ofReal (p[s] / p.sum) := by
  obtain ⟨_, hnn⟩ := row_eq h.shape hargs hcs hp hget
  have hset : {u : ℝ | u ∈ Set.Ioc 0 1 ∧ d.sampleOne u = .ok (s : Int)} =
      Set.Ioc (massBelow p s / p.sum) (massBelow p (s + 1) / p.sum) := by
    ext u
    simp only [Set.mem_ofPred_eq, Set.mem_Ioc]
    have hlo : 0 ≤ massBelow p s := by
      simpa [massBelow] using massBelow_mono hnn (Nat.zero_le s)
    have hhi : massBelow p (s + 1) ≤ p.sum := by
      have := massBelow_mono hnn (show s + 1 ≤ p.length from hs)
      simpa [massBelow] using this
    rw [div_lt_iff₀ hpos, le_div_iff₀ hpos]
    constructor
    · rintro ⟨⟨a, b⟩, c⟩
      obtain ⟨t, ht, hi, _⟩ := (C21_row_inversion_partial h hargs hcs hp hget hpos a b s).1 c
      obtain rfl : s = t := by exact_mod_cast ht
      exact hi.2
    · rintro ⟨a, b⟩
      have hu0 : 0 < u := by
        by_contra hc
        have : u * p.sum ≤ 0 := mul_nonpos_of_nonpos_of_nonneg (not_lt.1 hc) hpos.le
        linarith
      have hu1 : u ≤ 1 := by
        by_contra hc
        have : p.sum < u * p.sum := by nlinarith [not_le.1 hc]
        linarith
      refine ⟨⟨hu0, hu1⟩, ?_⟩
      refine (C21_row_inversion_partial h hargs hcs hp hget hpos hu0 hu1 s).2
        ⟨s, rfl, ⟨hs, a, b⟩, hs, ?_⟩
      have := massBelow_succ hs
      linarith
  rw [hset, Real.volume_Ioc, massBelow_succ hs]
  congr 1
  ring

example : ∃ d : DiscreteConditionalPdf ℚ, TableHistory 2 [2] d ∧ d.args = ints [1] ∧
    d.probabilityGet 0 = .ok (1/4) ∧ d.probabilityGet 1 = .ok (1/2) ∧
    d.sampleOne (1/3) = .ok 0 ∧ d.sampleOne (1/2) = .ok 1 ∧ d.sampleOne 0 = .ok (-1) :=
  ⟨⟨2, [2], [none, none, some (1/4), some (1/2)], [1]⟩,
    .args (cs := [1]) (.write (p := 1/2) (s := 1) (cs := [1])
      (.write (p := 1/4) (s := 0) (cs := [1]) .make rfl) rfl) rfl, rfl,
    by decide +kernel, by decide +kernel, by decide +kernel, by decide +kernel, by decide +kernel⟩

end BFL.Props
