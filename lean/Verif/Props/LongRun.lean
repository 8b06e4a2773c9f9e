import Verif.Props.DiscreteProgram
import Verif.Lemmas.LongRun

set_option linter.unusedSectionVars false

/-!
# C119: several moves may be made at once, and long predictions settle
-/

namespace BFL.Props

open Finset Spec HistogramFilter

section Field

variable {Z K : Type} [Field K] [LinearOrder K] [IsStrictOrderedRing K]

/-- An `Update` call with a system model and its input only. -/
def moveCall (m : Model Int Int K × Option Int) : Call Z K := ⟨some m, none⟩

/-- The filter that holds the distribution `q` after a prediction. -/
def holding (n : Nat) (q : Nat → K) : HistogramFilter K :=
  ⟨⟨tab n q, runningSums 0 (tab n q)⟩, tab n q, 0⟩

theorem move_holding {n : Nat} {f : HistogramFilter K} (hf : Sized n f) {p : Nat → K}
    (hp : f.post.probabilitiesGet = tab n p) (hp0 : ∀ x < n, 0 ≤ p x) (hp1 : ∑ x ∈ range n, p x = 1)
    {m : Model Int Int K × Option Int} {T : Nat → Nat → K} (hm : Transition n m.1 m.2 T) (hT : Stochastic n T) :
    f.update (Z := Z) (moveCall m) = .ok (true, holding n (totalProbability n T p)) := by
  obtain ⟨⟨w, hw⟩, hs⟩ := hm.sysProb
  have hsum : ∑ y ∈ range n, totalProbability n T p y = 1 := by rw [hT.sum_move, hp1]
  have h1 := HistogramFilter.sysUpdate_eq hf hp hp0 hw hs hT.1
  rw [store_pos hf.1 (hT.move_nonneg hp0) (by rw [hsum]; exact one_pos)] at h1
  simp only [hsum, div_one, Outcome.ok_bind, Outcome.pure_eq] at h1
  obtain ⟨m, u⟩ := m
  simp only [update, moveCall, sysPart, measPart, h1, Outcome.ok_bind, Outcome.pure_eq, hf.2.2, holding]

theorem holding_sized (n : Nat) (q : Nat → K) : Sized n (holding n q) := by simp [Sized, holding]

theorem run_moves {n : Nat} {f : HistogramFilter K} (hf : Sized n f) {p : Nat → K}
    (hp : f.post.probabilitiesGet = tab n p) (hp0 : ∀ x < n, 0 ≤ p x) (hp1 : ∑ x ∈ range n, p x = 1)
    {ms : List (Model Int Int K × Option Int)} {Ts : List (Nat → Nat → K)}
    (hms : List.Forall₂ (fun m T => Transition n m.1 m.2 T) ms Ts) (hTs : ∀ T ∈ Ts, Stochastic n T) (hne : ms ≠ []) :
    f.run (Z := Z) (ms.map moveCall) = .ok (true, holding n (moveAll n Ts p)) := by
  induction hms generalizing f p with
  | nil => exact absurd rfl hne
  | @cons m T ms Ts hm hms ih =>
    have hT := hTs T (by simp)
    have h1 := move_holding (Z := Z) hf hp hp0 hp1 hm hT
    simp only [List.map_cons, run, h1, Outcome.ok_bind]
    by_cases hms0 : ms = []
    · subst hms0
      cases hms
      rfl
    · rw [ih (holding_sized n _) (p := totalProbability n T p) rfl (hT.move_nonneg hp0)
        (by rw [hT.sum_move, hp1]) (fun T' h => hTs T' (by simp [h])) hms0]
      rfl

/-- **C119, several moves at once.** A filter is told of several moves, one after the other; another
one, in the same state, is told of a single move with the probabilities of getting from every state to every other by
all of them. Both calls succeed, and afterwards the two filters are the same object for every later use. The report is
the distribution of the process after the moves. -/
theorem C119_at_once {n : Nat} {f : HistogramFilter K} (hf : HistogramHistory n f) {p : Nat → K}
    (hp : f.post.probabilitiesGet = tab n p) (hd : IsDistribution f.post.probabilitiesGet)
    {ms : List (Model Int Int K × Option Int)} {Ts : List (Nat → Nat → K)}
    (hms : List.Forall₂ (fun m T => Transition n m.1 m.2 T) ms Ts) (hTs : ∀ T ∈ Ts, Stochastic n T) (hne : ms ≠ [])
    {M : Model Int Int K} {u : Option Int} (hM : Transition n M u (reach n Ts)) :
    ∃ f', f.run (Z := Z) (ms.map fun m => ⟨some m, none⟩) = .ok (true, f') ∧
      f.update (Z := Z) ⟨some (M, u), none⟩ = .ok (true, f') ∧ IsDistribution f'.post.probabilitiesGet ∧
      f'.post.probabilitiesGet = tab n fun y => ∑ x ∈ range n, reach n Ts y x * p x := by
  have hd2 := hd
  rw [hp] at hd2
  have hp0 : ∀ x < n, 0 ≤ p x := forall_mem_tab.1 hd2.1
  have hp1 : ∑ x ∈ range n, p x = 1 := by rw [← tab_sum]; exact hd2.2
  have h1 := run_moves (Z := Z) hf.sized hp hp0 hp1 hms hTs hne
  have h2 := move_holding (Z := Z) (m := (M, u)) hf.sized hp hp0 hp1 hM (reach_stochastic hTs)
  have e : holding n (moveAll n Ts p) = holding n (totalProbability n (reach n Ts) p) := by
    unfold holding
    rw [tab_congr (moveAll_reach Ts p)]
  refine ⟨_, h1, by rw [e]; exact h2, ⟨?_, ?_⟩, ?_⟩
  · exact forall_mem_tab.2 (moveAll_nonneg hTs hp0)
  · show (tab n _).sum = 1
    rw [tab_sum, moveAll_sum hTs, hp1]
  · show tab n _ = _
    rw [tab_congr (moveAll_reach Ts p)]
    rfl

/-- Probabilities entered in a new table. -/
def entries (n : Nat) (T : Nat → Nat → K) : List (K × Int × List Int) :=
  (List.range n).flatMap fun (old : Nat) => (List.range n).map fun (new : Nat) => (T new old, (new : Int), [(old : Int)])

/-- **C119, the table of several moves.** The probabilities of several moves together can be entered in a
`DiscreteConditionalPdf` with `ProbabilitySet`, and a model made from it describes that move. -/
theorem C119_table (n : Nat) {Ts : List (Nat → Nat → K)} (hTs : ∀ T ∈ Ts, Stochastic n T) :
    ∃ d M, (DiscreteConditionalPdf.make n [n]).writes (entries n (reach n Ts)) = .ok d ∧
      Model.make (some (d.toCondPdf 0)) = .ok M ∧ ∀ u, Transition n M u (reach n Ts) := by
  set T := reach n Ts
  have hT : Stochastic n T := reach_stochastic hTs
  let ws : List (K × Nat × List Nat) := (List.range n).flatMap fun old => (List.range n).map fun new =>
    (T new old, new, [old])
  have hmem : ∀ w, w ∈ ws ↔ ∃ x y, x < n ∧ y < n ∧ w = (T y x, y, [x]) := by
    intro w
    simp only [ws, List.mem_flatMap, List.mem_map, List.mem_range]
    constructor
    · rintro ⟨x, hx, y, hy, rfl⟩
      exact ⟨x, y, hx, hy, rfl⟩
    · rintro ⟨x, y, hx, hy, rfl⟩
      exact ⟨x, hx, y, hy, rfl⟩
  have hr : ∀ w ∈ ws, InRange n [n] w.2.1 w.2.2 := by
    intro w hw
    obtain ⟨x, y, hx, hy, rfl⟩ := (hmem w).1 hw
    exact ⟨hy, .cons hx .nil⟩
  have he : entries n T = ws.map fun w => (w.1, (w.2.1 : Int), DiscreteConditionalPdf.ints w.2.2) := by
    simp only [ws, entries, List.map_flatMap, List.map_map]
    rfl
  obtain ⟨d, e1, e2⟩ := C20_table_semantics n [n] ws hr
  rw [← he] at e1
  have hread : ∀ y < n, ∀ x < n, d.read y [x] = .ok (T y x) := by
    intro y hy x hx
    rw [e2 y [x] ⟨hy, .cons hx .nil⟩, lastWrite_of_forall (v := T y x) ((hmem _).2 ⟨x, y, hx, hy, rfl⟩) ?_]
    · simp [hT.1 y hy x hx]
    · intro w hw h
      obtain ⟨x', y', -, -, rfl⟩ := (hmem w).1 hw
      simp only [Prod.mk.injEq, List.cons.injEq, and_true] at h
      rw [h.1, h.2]
  obtain ⟨M, s1, s2⟩ := C25_table_model (writes_history _ .make e1) hread 0
  exact ⟨d, M, e1, s1, s2⟩

/-- **C119, no other table will do.** If a single move gives the same report as the moves `Ts` for every prior, it has
the probabilities of all of them together. -/
theorem C119_only {n : Nat} {ms : List (Model Int Int K × Option Int)} {Ts : List (Nat → Nat → K)}
    (hms : List.Forall₂ (fun m T => Transition n m.1 m.2 T) ms Ts) (hTs : ∀ T ∈ Ts, Stochastic n T) (hne : ms ≠ [])
    {M : Model Int Int K} {u : Option Int} {S : Nat → Nat → K} (hM : Transition n M u S) (hS : Stochastic n S)
    (same : ∀ (prior : DiscretePdf K) (f f' f'' : HistogramFilter K), prior.numStates = n →
      IsDistribution prior.probabilitiesGet → HistogramFilter.make prior = .ok f →
      f.run (Z := Z) (ms.map fun m => ⟨some m, none⟩) = .ok (true, f') →
      f.update (Z := Z) ⟨some (M, u), none⟩ = .ok (true, f'') →
      f'.post.probabilitiesGet = f''.post.probabilitiesGet) :
    ∀ y < n, ∀ x < n, S y x = reach n Ts y x := by
  intro y hy x hx
  let p : Nat → K := fun j => if j = x then 1 else 0
  have hp0 : ∀ j < n, 0 ≤ p j := fun j _ => by simp only [p]; split <;> simp
  have hp1 : ∑ j ∈ range n, p j = 1 := by
    simp only [p]
    rw [Finset.sum_ite_eq' (range n) x, if_pos (mem_range.2 hx)]
  have hd : IsDistribution (tab n p) := ⟨forall_mem_tab.2 hp0, by rw [tab_sum]; exact hp1⟩
  obtain ⟨f, -, hf, -⟩ := C25_exact (Z := Z) (n := n) (prior := ⟨tab n p, []⟩) (p := p) (tab_length _ _) rfl hd
    (cs := []) (ss := []) .nil (by simp) (by rw [historyEvidence_nil, hp1]; exact one_pos)
  have hs := make_sized hf
  have hsz : Sized n f := by have := hs.1; simpa using this
  have h1 := run_moves (Z := Z) hsz (p := p) hs.2 hp0 hp1 hms hTs hne
  have h2 := move_holding (Z := Z) (m := (M, u)) hsz (p := p) hs.2 hp0 hp1 hM hS
  have e := same ⟨tab n p, []⟩ f _ _ (tab_length _ _) hd hf h1 h2
  have e2 : moveAll n Ts p y = totalProbability n S p y := by
    have := congrArg (fun l => l[y]?) e
    simpa [tab, hy, holding, DiscretePdf.probabilitiesGet] using this
  rw [moveAll_reach Ts p y hy] at e2
  have one : ∀ R : Nat → Nat → K, totalProbability n R p y = R y x := by
    intro R
    simp only [totalProbability, p, mul_ite, mul_one, mul_zero]
    rw [Finset.sum_ite_eq' (range n) x, if_pos (mem_range.2 hx)]
  rw [one, one] at e2
  exact e2.symm

/-- **C119, the settled state.** A filter that holds a distribution that the move does not change reports it for ever. -/
theorem C119_stationary {n : Nat} {f : HistogramFilter K} (hf : HistogramHistory n f) {π : Nat → K}
    (hp : f.post.probabilitiesGet = tab n π) {m : Model Int Int K} {u : Option Int} {T : Nat → Nat → K}
    (hm : Transition n m u T) (hT : Stochastic n T) (hπ : Stationary n T π) (k : Nat) :
    ∃ f', f.run (Z := Z) (List.replicate k ⟨some (m, u), none⟩) = .ok (true, f') ∧
      f'.post.probabilitiesGet = f.post.probabilitiesGet := by
  rcases Nat.eq_zero_or_pos k with h | h
  · subst h
    exact ⟨f, rfl, rfl⟩
  have h1 := run_moves (Z := Z) hf.sized hp hπ.1 hπ.2.1 (ms := List.replicate k (m, u)) (Ts := List.replicate k T)
    (List.forall₂_iff_get.2 ⟨by simp, fun i _ _ => by simpa using hm⟩) (replicate_stochastic hT k)
    (by simpa using h.ne')
  rw [List.map_replicate] at h1
  refine ⟨_, h1, ?_⟩
  rw [hp]
  exact tab_congr (hπ.moveAll k)

end Field

/-- **C119, long predictions settle.** Suppose some number `k` of moves takes the process from every state to `y` with
at least `σ` times a fixed probability. Then exactly one distribution is not changed by the moves, and the reports of
every filter that predicts for a long time tend to it, whatever it held before: after `j` predictions the distance
is at most `(1 - σ)` to the power `j / k` (rounded down). -/
theorem C119_settles {Z : Type} {n : Nat} {m : Model Int Int ℝ} {u : Option Int} {T : Nat → Nat → ℝ}
    (hm : Transition n m u T) (hT : Stochastic n T) {k : Nat} {σ : ℝ} (h0 : 0 < σ) {w : Nat → ℝ}
    (hw : Minorised n T k σ w) :
    ∃ π, Stationary n T π ∧ (∀ π', Stationary n T π' → ∀ x < n, π' x = π x) ∧
      ∀ f : HistogramFilter ℝ, HistogramHistory n f → IsDistribution f.post.probabilitiesGet → ∀ j : Nat,
        ∃ f' q, f.run (Z := Z) (List.replicate j ⟨some (m, u), none⟩) = .ok (true, f') ∧
          f'.post.probabilitiesGet = tab n q ∧ IsDistribution (tab n q) ∧
          totalVariation n q π ≤ (1 - σ) ^ (j / k) := by
  obtain ⟨π, hπ⟩ := stationary_exists hT hw h0
  have hσ := hw.le_one hT
  refine ⟨π, hπ, fun π' h' => stationary_unique hT hw h0 h' hπ, fun f hf hd j => ?_⟩
  have hlen : f.post.probabilitiesGet.length = n := hf.sized.1
  obtain ⟨p, hp⟩ : ∃ p : Nat → ℝ, f.post.probabilitiesGet = tab n p := ⟨_, hlen ▸ eq_tab _ 0⟩
  rw [hp] at hd
  have hp0 : ∀ x < n, 0 ≤ p x := forall_mem_tab.1 hd.1
  have hp1 : ∑ x ∈ range n, p x = 1 := by rw [← tab_sum]; exact hd.2
  have hrun : ∃ f', f.run (Z := Z) (List.replicate j ⟨some (m, u), none⟩) = .ok (true, f') ∧
      f'.post.probabilitiesGet = tab n (moveAll n (List.replicate j T) p) := by
    rcases Nat.eq_zero_or_pos j with h | h
    · subst h
      exact ⟨f, rfl, hp⟩
    have h1 := run_moves (Z := Z) hf.sized hp hp0 hp1 (ms := List.replicate j (m, u)) (Ts := List.replicate j T)
      (List.forall₂_iff_get.2 ⟨by simp, fun i _ _ => by simpa using hm⟩) (replicate_stochastic hT j)
      (by simpa using h.ne')
    rw [List.map_replicate] at h1
    exact ⟨_, h1, rfl⟩
  obtain ⟨f', h1, h2⟩ := hrun
  refine ⟨f', _, h1, h2, ⟨forall_mem_tab.2 (moveAll_nonneg (replicate_stochastic hT j) hp0), ?_⟩, ?_⟩
  · rw [tab_sum, moveAll_sum (replicate_stochastic hT j), hp1]
  · have h3 := moves_contract hT hw hσ (p1 := p) (p2 := π) (by rw [hp1, hπ.2.1]) (j / k) (j % k)
    rw [show j / k * k + j % k = j from Nat.div_add_mod' j k,
      totalVariation_congr (fun _ _ => rfl) (hπ.moveAll j)] at h3
    refine h3.trans ?_
    exact mul_le_of_le_one_right (pow_nonneg (by linarith) _) (totalVariation_le_one hp0 hπ.1 hp1 hπ.2.1)

/-! ## Concrete cases -/

namespace LongRunFixture

/-- A pdf with one conditional argument and the given probabilities. -/
def pdfOf {K : Type} (T : Nat → Nat → K) : CondPdf Int Int K where
  numArgs := 1
  prob args y := match args with
    | [x] => .ok (T y.toNat x.toNat)
    | _ => .ub
  draw _ := .ub

/-- The model made from it. -/
def modelOf {K : Type} (T : Nat → Nat → K) : Model Int Int K := ⟨some (pdfOf T), some true⟩

theorem transition {K : Type} [Field K] [LinearOrder K] (n : Nat) (T : Nat → Nat → K) :
    Transition n (modelOf T) none T := Or.inl ⟨pdfOf T, rfl, rfl, fun _ _ _ _ => rfl⟩

/-- From room 0 always to room 1, from room 1 to either room. -/
def rooms {K : Type} [Field K] (y x : Nat) : K := if x = 0 then (if y = 1 then 1 else 0) else 1 / 2

theorem rooms_stochastic {K : Type} [Field K] [LinearOrder K] [IsStrictOrderedRing K] :
    Stochastic 2 (rooms : Nat → Nat → K) := by
  refine ⟨fun y _ x _ => ?_, fun x hx => ?_⟩
  · unfold rooms
    split
    · split <;> simp
    · exact one_half_pos.le
  · rw [Finset.sum_range_succ, Finset.sum_range_one]
    interval_cases x <;> norm_num [rooms]

theorem rooms_twice {K : Type} [Field K] [LinearOrder K] [IsStrictOrderedRing K] :
    ∀ T ∈ [(rooms : Nat → Nat → K), rooms], Stochastic 2 T := by
  intro T hT
  simp only [List.mem_cons, List.not_mem_nil, or_false, or_self] at hT
  exact hT ▸ rooms_stochastic

/-- The two rooms exchanged. -/
def swap (y x : Nat) : ℚ := if y = x then 0 else 1

theorem stays_sum {n : Nat} (hn : 2 ≤ n) (diag : ℝ) {x : Nat} (hx : x < n) :
    ∑ y ∈ range n, stays n diag y x = 1 := by
  have h1 : (2 : ℝ) ≤ n := by exact_mod_cast hn
  have h2 : (n : ℝ) - 1 ≠ 0 := by linarith
  have e : ∀ y, stays n diag y x = (1 - diag) / ((n : ℝ) - 1) +
      if y = x then diag - (1 - diag) / ((n : ℝ) - 1) else 0 := by
    intro y
    unfold stays
    split <;> ring
  simp only [e]
  rw [Finset.sum_add_distrib, Finset.sum_ite_eq' (range n) x, if_pos (mem_range.2 hx), Finset.sum_const, card_range,
    nsmul_eq_mul]
  field_simp
  ring

/-- The filter holds room 0 for certain. -/
def certain : HistogramFilter ℚ := ⟨⟨[1, 0], [0, 1, 1]⟩, [1, 0], 0⟩

end LongRunFixture

open LongRunFixture

/-- `C119_at_once`: two moves between the rooms at once, from room 0 to each with probability 1/2. -/
example : ∃ f', certain.run (Z := Int) [⟨some (modelOf rooms, none), none⟩, ⟨some (modelOf rooms, none), none⟩] =
      .ok (true, f') ∧
    certain.update (Z := Int) ⟨some (modelOf (reach 2 [rooms, rooms]), none), none⟩ = .ok (true, f') ∧
    f'.post.probabilitiesGet = [1 / 2, 1 / 2] := by
  obtain ⟨f', h1, h2, -, h3⟩ := C119_at_once (Z := Int) (n := 2) (f := certain)
    (.make (prior := ⟨[1, 0], [0, 1, 1]⟩) rfl (by decide +kernel)) (p := fun x => if x = 0 then 1 else 0) rfl
    ⟨by decide +kernel, by decide +kernel⟩ (ms := [(modelOf rooms, none), (modelOf rooms, none)])
    (Ts := [rooms, rooms]) (.cons (transition 2 _) (.cons (transition 2 _) .nil))
    rooms_twice (by simp) (transition 2 (reach 2 [rooms, rooms]))
  exact ⟨f', h1, h2, h3.trans (by decide +kernel)⟩

/-- `C119_table`: two moves between the rooms as one table. -/
example : ∃ d M, (DiscreteConditionalPdf.make 2 [2]).writes
      [(1 / 2, 0, [0]), (1 / 2, 1, [0]), (1 / 4, 0, [1]), (3 / 4, 1, [1])] = .ok d ∧
    Model.make (some (d.toCondPdf (0 : ℚ))) = .ok M ∧ Transition 2 M none (reach 2 [rooms, rooms]) := by
  obtain ⟨d, M, h1, h2, h3⟩ := C119_table 2 (rooms_twice (K := ℚ))
  exact ⟨d, M, h1 ▸ congrArg _ (by decide +kernel), h2, h3 none⟩

/-- `C119_only`: one move between the rooms does not do for two. -/
example : ¬ ∀ (prior : DiscretePdf ℚ) (f f' f'' : HistogramFilter ℚ), prior.numStates = 2 →
      IsDistribution prior.probabilitiesGet → HistogramFilter.make prior = .ok f →
      f.run (Z := Int) ([(modelOf rooms, none), (modelOf rooms, none)].map fun m => ⟨some m, none⟩) = .ok (true, f') →
      f.update (Z := Int) ⟨some (modelOf rooms, none), none⟩ = .ok (true, f'') →
      f'.post.probabilitiesGet = f''.post.probabilitiesGet := by
  intro h
  have := C119_only (Ts := [rooms, rooms]) (.cons (transition 2 _) (.cons (transition 2 _) .nil)) rooms_twice (by simp)
    (transition 2 rooms) rooms_stochastic h 0 (by norm_num) 0 (by norm_num)
  exact absurd this (by decide +kernel)

/-- `C119_stationary`: one third and two thirds stay. -/
example (k : Nat) : ∃ f', (⟨⟨[1 / 3, 2 / 3], [0, 1 / 3, 1]⟩, [1 / 3, 2 / 3], 0⟩ : HistogramFilter ℚ).run (Z := Int)
      (List.replicate k ⟨some (modelOf rooms, none), none⟩) = .ok (true, f') ∧
    f'.post.probabilitiesGet = [1 / 3, 2 / 3] :=
  C119_stationary (n := 2) (.make (prior := ⟨[1 / 3, 2 / 3], [0, 1 / 3, 1]⟩) rfl (by decide +kernel))
    (π := fun x => if x = 0 then 1 / 3 else 2 / 3) rfl (transition 2 rooms) rooms_stochastic
    ⟨fun x _ => by show (0 : ℚ) ≤ if x = 0 then 1 / 3 else 2 / 3; split <;> norm_num, by decide +kernel, fun y hy => by
      interval_cases y <;> decide +kernel⟩ k

/-- `C119_settles`: in the long run the robot is in room 1 twice as often as in room 0. No single move tells
this (from room 0 the room is certain), two moves do. -/
example (f : HistogramFilter ℝ) (hf : HistogramHistory 2 f) (hd : IsDistribution f.post.probabilitiesGet) (j : Nat) :
    ∃ f' q, f.run (Z := Int) (List.replicate j ⟨some (modelOf rooms, none), none⟩) = .ok (true, f') ∧
      f'.post.probabilitiesGet = tab 2 q ∧
      totalVariation 2 q (fun x => if x = 0 then 1 / 3 else 2 / 3) ≤ (1 / 2) ^ (j / 2) := by
  obtain ⟨π, -, h2, h3⟩ := C119_settles (Z := Int) (transition 2 (rooms : Nat → Nat → ℝ)) rooms_stochastic (k := 2)
    (σ := 1 / 2) (by norm_num) (w := fun y => if y = 1 then 1 else 0) ⟨by simp, fun y hy x hx => by
      simp only [List.replicate, reach, Finset.sum_range_succ, Finset.sum_range_zero]
      interval_cases y <;> interval_cases x <;> norm_num [rooms]⟩
  obtain ⟨f', q, a, b, -, c⟩ := h3 f hf hd j
  refine ⟨f', q, a, b, ?_⟩
  rw [totalVariation_congr (fun _ _ => rfl) (h2 (fun x => if x = 0 then 1 / 3 else 2 / 3) ⟨fun x _ => by
    show (0 : ℝ) ≤ if x = 0 then 1 / 3 else 2 / 3
    split <;> norm_num, by norm_num [Finset.sum_range_succ], fun y hy => by
      rw [Finset.sum_range_succ, Finset.sum_range_one]
      interval_cases y <;> norm_num [rooms]⟩)]
  convert c using 2
  norm_num

/-- `C119_settles` for the table of the histogram filter example, with 20 places that are kept with probability 9/10:
predictions alone tend to the distribution that says nothing. -/
example (f : HistogramFilter ℝ) (hf : HistogramHistory 20 f) (hd : IsDistribution f.post.probabilitiesGet) (j : Nat) :
    ∃ f' q, f.run (Z := Int) (List.replicate j ⟨some (modelOf (stays 20 (9 / 10)), none), none⟩) = .ok (true, f') ∧
      f'.post.probabilitiesGet = tab 20 q ∧ totalVariation 20 q (fun _ => 1 / 20) ≤ (17 / 19) ^ j := by
  have hst : Stochastic 20 (stays 20 (9 / 10)) := by
    refine ⟨stays_nonneg (by norm_num) (by norm_num), fun x hx => ?_⟩
    exact stays_sum (by norm_num) _ hx
  obtain ⟨π, -, h2, h3⟩ := C119_settles (Z := Int) (transition 20 (stays 20 (9 / 10))) hst (k := 1) (σ := 2 / 19)
    (by norm_num) (w := fun _ => 1 / 20) ⟨by simp, fun y hy x hx => by
      simp only [List.replicate, reach, ite_mul, one_mul, zero_mul]
      rw [Finset.sum_ite_eq (range 20) y, if_pos (mem_range.2 hy)]
      unfold stays
      split <;> norm_num⟩
  obtain ⟨f', q, a, b, -, c⟩ := h3 f hf hd j
  refine ⟨f', q, a, b, ?_⟩
  rw [totalVariation_congr (fun _ _ => rfl) (h2 (fun _ => 1 / 20) ⟨fun x _ => by norm_num, by simp, fun y hy => by
    have := stays_sum (n := 20) (by norm_num) (9 / 10) hy
    rw [← Finset.sum_mul, show ∑ x ∈ range 20, stays 20 (9 / 10) y x = ∑ x ∈ range 20, stays 20 (9 / 10) x y from
      Finset.sum_congr rfl fun x _ => by simp only [stays, eq_comm], this, one_mul]⟩)]
  rw [Nat.div_one] at c
  convert c using 2
  norm_num

/-- **C119, moves that do not settle.** If the rooms are exchanged in every move, the reports swing for ever, although
there is a distribution that does not change. -/
theorem C119_swings (k : Nat) : Transition 2 (modelOf swap) none swap ∧ Stochastic 2 swap ∧
    Stationary 2 swap (fun _ => 1 / 2) ∧
    ∃ f', certain.run (Z := Int) (List.replicate k ⟨some (modelOf swap, none), none⟩) = .ok (true, f') ∧
      f'.post.probabilitiesGet = if k % 2 = 0 then [1, 0] else [0, 1] := by
  have hst : Stochastic 2 swap := by
    refine ⟨fun y _ x _ => by unfold swap; split <;> norm_num, fun x hx => ?_⟩
    interval_cases x <;> decide +kernel
  refine ⟨transition 2 _, hst, ⟨fun _ _ => by norm_num, by norm_num, fun y hy => by
    interval_cases y <;> decide +kernel⟩, ?_⟩
  rcases Nat.eq_zero_or_pos k with h | h
  · subst h
    exact ⟨certain, rfl, rfl⟩
  have h1 := run_moves (Z := Int) (n := 2) (f := certain) ⟨rfl, rfl, rfl⟩ (p := fun x => if x = 0 then 1 else 0) rfl
    (fun x _ => by show (0 : ℚ) ≤ if x = 0 then 1 else 0; split <;> norm_num) (by decide +kernel) (ms := List.replicate k (modelOf swap, none))
    (Ts := List.replicate k swap) (List.forall₂_iff_get.2 ⟨by simp, fun i _ _ => by simpa using transition 2 swap⟩)
    (replicate_stochastic hst k) (by simpa using h.ne')
  rw [List.map_replicate] at h1
  refine ⟨_, h1, ?_⟩
  have key : ∀ (k : Nat), ∀ x < 2, moveAll 2 (List.replicate k swap) (fun x => if x = 0 then 1 else 0) x =
      if k % 2 = 0 then (if x = 0 then 1 else 0) else (if x = 0 then 0 else 1) := by
    intro k
    induction k with
    | zero => exact fun x _ => rfl
    | succ k ih =>
      intro x hx
      rw [List.replicate_succ', moveAll_append]
      show totalProbability 2 swap _ x = _
      rw [totalProbability_congr (T' := swap) (fun _ _ => rfl) ih]
      rcases Nat.mod_two_eq_zero_or_one k with h | h
      · rw [show (k + 1) % 2 = 1 by omega]
        simp only [h]
        interval_cases x <;> decide +kernel
      · rw [show (k + 1) % 2 = 0 by omega]
        simp only [h]
        interval_cases x <;> decide +kernel
  show tab 2 _ = _
  rw [tab_congr (key k)]
  split <;> rfl

end BFL.Props
