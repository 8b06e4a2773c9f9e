import Verif.Model.DiscreteProgram
import Verif.Spec.DiscreteProgram
import Verif.Props.ExamplePdfs
import Verif.Props.Histogram
import Verif.Props.Discrete
import Verif.Props.KalmanSetup
import Verif.Lemmas.EKParticleFilter

set_option linter.unusedSectionVars false

/-!
# C115: the example program for the histogram filter
-/

namespace BFL.Props

open Matrix Spec ExamplePdfs DiscreteProgram Finset

theorem lastWrite_of_forall {V : Type} {ws : List (V × Nat × List Nat)} {s : Nat} {cs : List Nat} {v : V}
    (h1 : (v, s, cs) ∈ ws) (h2 : ∀ w ∈ ws, w.2 = (s, cs) → w.1 = v) : lastWrite ws s cs = some v := by
  unfold lastWrite
  cases h : ws.reverse.find? fun w => w.2 = (s, cs) with
  | none =>
    have := List.find?_eq_none.1 h (v, s, cs) (by simpa using h1)
    simp at this
  | some w =>
    have hm : w ∈ ws := by simpa using List.mem_of_find?_eq_some h
    have he := List.find?_some h
    simp only [decide_eq_true_eq] at he
    simp [h2 w hm he]

theorem writes_history {K : Type} [Field K] [LinearOrder K] {n : Nat} {dims : List Nat}
    (ws : List (K × Int × List Int)) {d d' : DiscreteConditionalPdf K} (h : TableHistory n dims d)
    (hw : d.writes ws = .ok d') : TableHistory n dims d' := by
  induction ws generalizing d with
  | nil =>
    simp only [DiscreteConditionalPdf.writes, Outcome.ok.injEq] at hw
    exact hw ▸ h
  | cons w ws ih =>
    obtain ⟨p, s, cs⟩ := w
    simp only [DiscreteConditionalPdf.writes, Outcome.bind_eq_ok] at hw
    obtain ⟨d1, h1, h2⟩ := hw
    exact ih (.write h h1) h2

/-- The table that the program fills in. -/
theorem sysPdf_table (n : Nat) {diag : ℝ} (h0 : 0 ≤ diag) (h1 : diag ≤ 1) :
    ∃ d, sysPdf n diag = .ok d ∧ TableHistory n [n] d ∧
      ∀ y < n, ∀ x < n, d.read y [x] = .ok (stays n diag y x) := by
  let ws : List (ℝ × Nat × List Nat) := (List.range n).flatMap fun old => (List.range n).map fun new =>
    (stays n diag new old, new, [old])
  have hmem : ∀ w, w ∈ ws ↔ ∃ x y, x < n ∧ y < n ∧ w = (stays n diag y x, y, [x]) := by
    intro w
    simp only [ws, List.mem_flatMap, List.mem_map, List.mem_range]
    constructor
    · rintro ⟨x, hx, y, hy, rfl⟩
      exact ⟨x, y, hx, hy, rfl⟩
    · rintro ⟨x, y, hx, hy, rfl⟩
      exact ⟨x, hx, y, hy, rfl⟩
  have hr : ∀ w ∈ ws, InRange n [n] w.2.1 w.2.2 := by
    intro w hw
    obtain ⟨x, y, hx, hy, rfl⟩ := (hmem w).1 hw
    exact ⟨hy, .cons hx .nil⟩
  have he : tableCalls n diag = ws.map fun w => (w.1, (w.2.1 : Int), DiscreteConditionalPdf.ints w.2.2) := by
    simp only [ws, tableCalls, List.map_flatMap, List.map_map]
    refine List.flatMap_congr fun x _ => List.map_congr_left fun y _ => ?_
    simp only [Function.comp, stays, eq_comm (a := y)]
    rfl
  obtain ⟨d, e1, e2⟩ := C20_table_semantics n [n] ws hr
  rw [← he] at e1
  refine ⟨d, e1, writes_history _ .make e1, fun y hy x hx => ?_⟩
  rw [e2 y [x] ⟨hy, .cons hx .nil⟩, lastWrite_of_forall (v := stays n diag y x)
    ((hmem _).2 ⟨x, y, hx, hy, rfl⟩) ?_]
  · have : 0 ≤ stays n diag y x := by
      unfold stays
      split
      · exact h0
      · rename_i hne
        have : (2 : ℝ) ≤ n := by exact_mod_cast (by omega : 2 ≤ n)
        exact div_nonneg (by linarith) (by linarith)
    simp [this]
  · intro w hw h
    obtain ⟨x', y', -, -, rfl⟩ := (hmem w).1 hw
    simp only [Prod.mk.injEq, List.cons.injEq, and_true] at h
    rw [h.1, h.2]

theorem place_sensor_pos {mu var : ℝ} (hv : 0 < var) (z : ℝ) (x : Nat) : 0 < sensor mu var z x :=
  normalDensity_pos (one_pd hv) _ _

/-- The measurement model has the likelihood of the sensor. -/
theorem meas_likelihood (be : Backend) {mu var : ℝ} (hv : 0 < var) (n : Nat) :
    ∃ m, Model.make (some (measPdf be mu var)) = .ok m ∧
      ∀ z : ℝ, Likelihood n m ![z] none (sensor mu var z) := by
  refine ⟨{ pdf := some (measPdf be mu var), without := some true }, rfl, fun z => Or.inl ⟨measPdf be mu var, rfl, rfl, ?_⟩⟩
  intro x _
  obtain ⟨noise, h1, -, h2⟩ := C84_likelihood be ![mu] !![var] (one_pd hv) [] (by simp)
  cases h1
  obtain ⟨noise', h⟩ := h2 x ![z]
  show ((discreteMeasurementProb be (Gaussian.make ![mu] !![var]) x ⟨1, ![z]⟩).bind fun r => .ok r.1) = _
  rw [h]
  simp only [lastMean, lastCov]
  have e : (![2 * ((x : Int) : ℝ)] - ![mu] : Fin 1 → ℝ) = ![2 * (x : ℝ) - mu] := by
    ext i; fin_cases i; simp
  rw [e]
  rfl

/-- The loop of the program is a sequence of updates with the readings of the robot. -/
theorem estimate_eq (sys : Model Int Int ℝ) (meas : Model Int (Fin 1 → ℝ) ℝ) (u : Fin 2 → ℝ)
    (ds : List ((Fin 3 → ℝ) × (Fin 1 → ℝ))) (r : Robot) :
    ∃ zs, Records r u ds zs ∧ ∀ f, estimate sys meas u ds r f =
      (f.run (zs.map fun z => ⟨some (sys, none), some (meas, ![z], none)⟩)).bind fun x => .ok x.2 := by
  induction ds generalizing r with
  | nil => exact ⟨[], ⟨rfl, by simp⟩, fun f => rfl⟩
  | cons d ds ih =>
    obtain ⟨zs, h1, h2⟩ := ih (r.move u d.1)
    obtain ⟨v, hv⟩ : ∃ v, (r.move u d.1).measure d.2 = .ok v := ⟨_, measure_eq _ _⟩
    refine ⟨-(v 0) :: zs, ⟨by simp [h1.1], ?_⟩, fun f => ?_⟩
    · intro k z e hz he
      cases k with
      | zero =>
        simp only [List.getElem?_cons_zero, Option.some.injEq] at hz he
        subst hz he
        simp only [zero_add, List.take_succ_cons, List.take_zero, robotAfter, List.foldl_cons, List.foldl_nil, hv,
          neg_neg]
        congr 1
        ext i
        fin_cases i
        rfl
      | succ k =>
        simp only [List.getElem?_cons_succ] at hz he
        exact h1.2 k z e hz he
    · have e : -v = ![-(v 0)] := by ext i; fin_cases i; rfl
      simp only [estimate, List.map_cons, HistogramFilter.run]
      rw [hv]
      simp only [Outcome.ok_bind]
      rw [e]
      cases h : f.update ⟨some (sys, none), some (meas, ![-(v 0)], none)⟩ with
      | abort => rfl
      | ub => rfl
      | ok x =>
        simp only [Outcome.ok_bind]
        rw [h2]
        cases x.2.run (zs.map fun z => ⟨some (sys, none), some (meas, ![z], none)⟩) <;> rfl

theorem stays_nonneg {n : Nat} {diag : ℝ} (h0 : 0 ≤ diag) (h1 : diag ≤ 1) : (Step.move (stays n diag)).Nonneg n := by
  intro y hy x hx
  unfold stays
  split
  · exact h0
  · have : (2 : ℝ) ≤ n := by exact_mod_cast (by omega : 2 ≤ n)
    exact div_nonneg (by linarith) (by linarith)

/-- A move in closed form. -/
theorem stays_apply (n : Nat) (diag : ℝ) (q : Nat → ℝ) {y : Nat} (hy : y < n) :
    (Step.move (stays n diag)).apply n q y =
      (1 - diag) / ((n : ℝ) - 1) * (∑ x ∈ range n, q x) + (diag - (1 - diag) / ((n : ℝ) - 1)) * q y := by
  simp only [Step.apply, totalProbability]
  have : ∀ x ∈ range n, stays n diag y x * q x =
      (1 - diag) / ((n : ℝ) - 1) * q x + (if y = x then (diag - (1 - diag) / ((n : ℝ) - 1)) * q x else 0) := by
    intro x _
    unfold stays
    split <;> ring
  rw [sum_congr rfl this, sum_add_distrib, ← mul_sum, sum_ite_eq]
  simp [hy]

theorem wander_cons (n : Nat) (diag mu var z : ℝ) (zs : List ℝ) :
    wander n diag mu var (z :: zs) =
      .move (stays n diag) :: .observe (sensor mu var z) :: wander n diag mu var zs := rfl

theorem stays_apply_pos {n : Nat} {diag mu var : ℝ} (h0 : 0 < diag) (h1 : diag ≤ 1) (hv : 0 < var) (z : ℝ) {q : Nat → ℝ}
    (hq : ∀ x < n, 0 < q x) : (∀ x < n, 0 < (Step.move (stays n diag)).apply n q x) ∧
      ∀ x < n, 0 < (Step.observe (sensor mu var z)).apply n ((Step.move (stays n diag)).apply n q) x := by
  have hm : ∀ x < n, 0 < (Step.move (stays n diag)).apply n q x := by
    intro y hy
    simp only [Step.apply, totalProbability]
    refine sum_pos' (fun x hx => ?_) ⟨y, mem_range.2 hy, ?_⟩
    · exact mul_nonneg (stays_nonneg h0.le h1 y hy x (mem_range.1 hx)) (hq x (mem_range.1 hx)).le
    · have : stays n diag y y = diag := by simp [stays]
      rw [this]
      exact mul_pos h0 (hq y hy)
  exact ⟨hm, fun x hx => mul_pos (hm x hx) (place_sensor_pos hv z x)⟩

theorem wander_pos {n : Nat} {diag mu var : ℝ} (h0 : 0 < diag) (h1 : diag ≤ 1) (hv : 0 < var) (zs : List ℝ)
    (q : Nat → ℝ) (hq : ∀ x < n, 0 < q x) (x : Nat) (hx : x < n) :
    0 < jointLast n q (wander n diag mu var zs) x := by
  induction zs generalizing q with
  | nil => rw [show wander n diag mu var [] = [] from rfl, jointLast_nil n q hx]; exact hq x hx
  | cons z zs ih =>
    rw [wander_cons, jointLast_cons, jointLast_cons]
    exact ih _ (stays_apply_pos h0 h1 hv z hq).2

theorem place_sensor_eq {mu var : ℝ} (hv : 0 < var) (z : ℝ) (x : Nat) :
    sensor mu var z x = Real.exp (-((z + mu - 2 * x) ^ 2 / var) / 2) /
      Real.sqrt ((2 * Real.pi) ^ 1 * (!![var] : Matrix (Fin 1) (Fin 1) ℝ).det) := by
  unfold sensor normalDensity
  have e : quad (!![var] : Matrix (Fin 1) (Fin 1) ℝ)⁻¹ (![z] - ![2 * (x : ℝ) - mu]) = (z + mu - 2 * x) ^ 2 / var := by
    rw [one_inv hv.ne']
    simp [quad, mulVec, dotProduct]
    field_simp
    ring
  rw [e]

theorem sensor_le_nearest {mu var : ℝ} (hv : 0 < var) {z : ℝ} {x k : Nat} (h : |z + mu - 2 * k| ≤ |z + mu - 2 * x|) :
    sensor mu var z x ≤ sensor mu var z k := by
  rw [place_sensor_eq hv, place_sensor_eq hv]
  have h2 := sq_le_sq.2 h
  gcongr

theorem sensor_lt_nearest {mu var : ℝ} (hv : 0 < var) {z : ℝ} {x k : Nat} (h : |z + mu - 2 * k| < |z + mu - 2 * x|) :
    sensor mu var z x < sensor mu var z k := by
  have hd := pd_det_pos (one_pd hv)
  rw [place_sensor_eq hv, place_sensor_eq hv]
  have h2 := sq_lt_sq.2 h
  gcongr

/-- A move keeps the order of two places. -/
theorem stays_apply_le {n : Nat} {diag : ℝ} (hn : 1 ≤ diag * n) {q : Nat → ℝ} {x k : Nat} (hx : x < n) (hk : k < n) (hxk : q x ≤ q k) :
    (Step.move (stays n diag)).apply n q x ≤ (Step.move (stays n diag)).apply n q k := by
  rcases Nat.lt_or_ge n 2 with h | h
  · have : x = k := by omega
    rw [this]
  · have h2 : (2 : ℝ) ≤ n := by exact_mod_cast h
    have hr : 0 ≤ diag - (1 - diag) / ((n : ℝ) - 1) := by
      rw [sub_nonneg, div_le_iff₀ (by linarith)]
      linarith
    rw [stays_apply n diag q hx, stays_apply n diag q hk]
    have := mul_le_mul_of_nonneg_left hxk hr
    linarith

theorem wander_nearest {n : Nat} {diag mu var : ℝ} (h0 : 0 < diag) (h1 : diag ≤ 1) (hn : 1 ≤ diag * n)
    (hv : 0 < var) {k : Nat} (hk : k < n) {x : Nat} (hx : x < n) (zs : List ℝ) (q : Nat → ℝ)
    (hq : ∀ x < n, 0 < q x) (hxk : q x ≤ q k) :
    ((∀ z ∈ zs, |z + mu - 2 * k| ≤ |z + mu - 2 * x|) →
      jointLast n q (wander n diag mu var zs) x ≤ jointLast n q (wander n diag mu var zs) k) ∧
    (zs ≠ [] → (∀ z ∈ zs, |z + mu - 2 * k| < |z + mu - 2 * x|) →
      jointLast n q (wander n diag mu var zs) x < jointLast n q (wander n diag mu var zs) k) := by
  induction zs generalizing q with
  | nil =>
    rw [show wander n diag mu var [] = [] from rfl, jointLast_nil n q hx, jointLast_nil n q hk]
    exact ⟨fun _ => hxk, fun h => absurd rfl h⟩
  | cons z zs ih =>
    have hp := stays_apply_pos (mu := mu) h0 h1 hv z hq
    have hm := stays_apply_le hn hx hk hxk
    rw [wander_cons, jointLast_cons, jointLast_cons, jointLast_cons, jointLast_cons]
    constructor
    · intro h
      refine (ih _ hp.2 ?_).1 fun z' hz' => h z' (by simp [hz'])
      exact mul_le_mul hm (sensor_le_nearest hv (h z (by simp))) (place_sensor_pos hv _ _).le (hp.1 k hk).le
    · intro _ h
      have hs : (Step.observe (sensor mu var z)).apply n ((Step.move (stays n diag)).apply n q) x <
          (Step.observe (sensor mu var z)).apply n ((Step.move (stays n diag)).apply n q) k :=
        mul_lt_mul' hm (sensor_lt_nearest hv (h z (by simp))) (place_sensor_pos hv _ _).le (hp.1 k hk)
      cases zs with
      | nil =>
        rw [show wander n diag mu var [] = [] from rfl, jointLast_nil n _ hx, jointLast_nil n _ hk]
        exact hs
      | cons z' zs =>
        exact (ih _ hp.2 hs.le).2 (by simp) fun z'' hz'' => h z'' (by simp only [List.mem_cons] at hz'' ⊢; tauto)

/-- **C115.** Whatever noise the simulated robot meets, the program ends with the posterior of the described
process for the readings of the robot, by the definition over all trajectories; no place is excluded. -/
theorem C115_posterior (be : Backend) {n : Nat} (hn : 0 < n) {diag mu var : ℝ} (h0 : 0 < diag) (h1 : diag ≤ 1)
    (hv : 0 < var) (r : Robot) (u : Fin 2 → ℝ) (ds : List ((Fin 3 → ℝ) × (Fin 1 → ℝ))) :
    ∃ zs post k, Records r u ds zs ∧ program be n diag mu var r u ds = .ok (post, k) ∧
      IsDistribution post.probabilitiesGet ∧ (∀ p ∈ post.probabilitiesGet, 0 < p) ∧
      post.probabilitiesGet = tab n fun x => jointLast n (fun _ => 1 / (n : ℝ)) (wander n diag mu var zs) x /
        historyEvidence n (fun _ => 1 / (n : ℝ)) (wander n diag mu var zs) := by
  have hn' : (0 : ℝ) < n := by exact_mod_cast hn
  obtain ⟨table, t1, t2, t3⟩ := sysPdf_table n h0.le h1
  obtain ⟨sys, s1, s2⟩ := C25_table_model t2 t3 0
  obtain ⟨meas, m1, m2⟩ := meas_likelihood be (mu := mu) hv n
  obtain ⟨zs, hz, he⟩ := estimate_eq sys meas u ds r
  have hprior : ∃ prior : DiscretePdf ℝ, DiscretePdf.make n = .ok prior ∧
      prior.values = List.replicate n (1 / (n : ℝ)) := ⟨_, DiscretePdf.make_eq hn, rfl⟩
  obtain ⟨prior, p1, p2⟩ := hprior
  have hd : ∀ zs : List ℝ, Describes n
      (zs.map fun z => (⟨some (sys, none), some (meas, ![z], none)⟩ : HistogramFilter.Call (Fin 1 → ℝ) ℝ))
      (wander n diag mu var zs) := by
    intro zs
    induction zs with
    | nil => exact .nil
    | cons z zs ih =>
      exact .cons (s1 := [.move (stays n diag)]) (s2 := [.observe (sensor mu var z)]) (.some (s2 none))
        (.some (m2 z)) ih
  have hnn : ∀ zs : List ℝ, ∀ s ∈ wander n diag mu var zs, s.Nonneg n := by
    intro zs s hs
    simp only [wander, List.mem_flatMap, List.mem_cons, List.not_mem_nil, or_false] at hs
    obtain ⟨z, -, rfl | rfl⟩ := hs
    · exact stays_nonneg h0.le h1
    · exact fun x _ => (place_sensor_pos hv z x).le
  have hj := fun x hx => wander_pos (n := n) (mu := mu) h0 h1 hv zs (fun _ => 1 / (n : ℝ)) (fun x _ => by positivity) x hx
  have hev : 0 < historyEvidence n (fun _ => 1 / (n : ℝ)) (wander n diag mu var zs) :=
    sum_pos (fun x hx => hj x (mem_range.1 hx)) ⟨0, mem_range.2 hn⟩
  obtain ⟨f, f', f1, f2, f3, f4, -⟩ := C25_exact (prior := prior) (n := n) (p := fun _ => 1 / (n : ℝ))
    (by show prior.values.length = n; rw [p2]; simp)
    (by show prior.values = _; rw [p2, tab]; simp)
    (by
      show IsDistribution prior.values
      rw [p2]
      refine ⟨fun x hx => ?_, ?_⟩
      · rw [List.eq_of_mem_replicate hx]; positivity
      · simp [hn'.ne']) (hd zs) (hnn zs) hev
  refine ⟨zs, f'.post, ds.length + 1, hz, ?_, f4, ?_, f3⟩
  · simp only [program]
    rw [t1]
    simp only [Outcome.ok_bind]
    rw [s1]
    simp only [Outcome.ok_bind]
    rw [m1]
    simp only [Outcome.ok_bind]
    rw [p1]
    simp only [Outcome.ok_bind]
    rw [f1]
    simp only [Outcome.ok_bind]
    rw [he, f2]
    rfl
  · intro p hp
    rw [f3] at hp
    simp only [tab, List.mem_map, List.mem_range] at hp
    obtain ⟨x, hx, rfl⟩ := hp
    exact div_pos (hj x hx) hev

/-- The program as it is, for any robot and noise. -/
example (r : Robot) (ds : List ((Fin 3 → ℝ) × (Fin 1 → ℝ))) :
    ∃ post k, program .boost 20 (9 / 10) 0 ((1 / 20) ^ 2) r ![1 / 10, 0] ds = .ok (post, k) ∧
      IsDistribution post.probabilitiesGet := by
  obtain ⟨-, post, k, -, h1, h2, -⟩ := C115_posterior .boost (n := 20) (by norm_num) (diag := 9 / 10) (mu := 0)
    (var := (1 / 20) ^ 2) (by norm_num) (by norm_num) (by norm_num) r ![1 / 10, 0] ds
  exact ⟨post, k, h1, h2⟩

/-- **C115.** If every reading is nearest to the same place, the report holds that place for most probable
(provided staying is not less probable than going to a given other place). -/
theorem C115_nearest (be : Backend) {n : Nat} {diag mu var : ℝ} (h0 : 0 < diag) (h1 : diag ≤ 1)
    (hd : 1 ≤ diag * n) (hv : 0 < var) (r : Robot) (u : Fin 2 → ℝ) (ds : List ((Fin 3 → ℝ) × (Fin 1 → ℝ)))
    (hds : ds ≠ []) {k : Nat} (hk : k < n)
    (hz : ∀ zs, Records r u ds zs → ∀ z ∈ zs, ∀ x < n, x ≠ k → |z + mu - 2 * k| < |z + mu - 2 * x|) :
    ∃ post c, program be n diag mu var r u ds = .ok (post, c) ∧ post.mostProbableStateGet = k ∧
      ∀ x < n, x ≠ k → ∃ a b, post.probabilityGet x = .ok a ∧ post.probabilityGet k = .ok b ∧ a < b := by
  have hn : 0 < n := by omega
  have hn' : (0 : ℝ) < n := by exact_mod_cast hn
  obtain ⟨zs, post, c, hr, hp, hdist, hpos, hpr⟩ := C115_posterior be hn (mu := mu) h0 h1 hv r u ds
  have hzs : zs ≠ [] := by
    intro h
    apply hds
    have := hr.1
    rw [h] at this
    exact List.length_eq_zero_iff.1 this.symm
  have hev : 0 < historyEvidence n (fun _ => 1 / (n : ℝ)) (wander n diag mu var zs) :=
    sum_pos (fun x hx => wander_pos h0 h1 hv zs _ (fun x _ => by positivity) x (mem_range.1 hx)) ⟨0, mem_range.2 hn⟩
  have hlt : ∀ x < n, x ≠ k → jointLast n (fun _ => 1 / (n : ℝ)) (wander n diag mu var zs) x /
        historyEvidence n (fun _ => 1 / (n : ℝ)) (wander n diag mu var zs) <
      jointLast n (fun _ => 1 / (n : ℝ)) (wander n diag mu var zs) k /
        historyEvidence n (fun _ => 1 / (n : ℝ)) (wander n diag mu var zs) := by
    intro x hx hxk
    exact div_lt_div_of_pos_right ((wander_nearest h0 h1 hd hv hk hx zs _ (fun x _ => by positivity) le_rfl).2 hzs
      fun z hz' => hz zs hr z hz' x hx hxk) hev
  have hvals : post.values = tab n fun x => jointLast n (fun _ => 1 / (n : ℝ)) (wander n diag mu var zs) x /
        historyEvidence n (fun _ => 1 / (n : ℝ)) (wander n diag mu var zs) := hpr
  have hlen : post.values.length = n := by rw [hvals]; simp [tab]
  have hget : ∀ x < n, post.values[x]? = some (jointLast n (fun _ => 1 / (n : ℝ)) (wander n diag mu var zs) x /
        historyEvidence n (fun _ => 1 / (n : ℝ)) (wander n diag mu var zs)) := by
    intro x hx
    rw [hvals]
    simp [tab, hx]
  refine ⟨post, c, hp, ?_, fun x hx hxk => ?_⟩
  · rcases DiscretePdf.mostProbableLoop_spec post.values 0 (-1) 0 with ⟨_, h⟩ | ⟨m, hm, e1, -, e3, -⟩
    · have hmem : post.values[0]'(by omega) ∈ post.values := List.getElem_mem _
      exact absurd (hpos _ hmem) (not_lt.2 (h _ hmem).le)
    · have : m = k := by
        by_contra hne
        have hkm := e3 (post.values[k]'(by omega)) (List.getElem_mem _)
        have a := hget m (by omega)
        have b := hget k hk
        rw [List.getElem?_eq_getElem hm, Option.some.injEq] at a
        rw [List.getElem?_eq_getElem (by omega), Option.some.injEq] at b
        rw [a, b] at hkm
        exact absurd (hlt m (by omega) hne) (not_lt.2 hkm)
      rw [Nat.zero_add, this] at e1
      exact e1
  · have get : ∀ y < n, post.probabilityGet y = .ok (jointLast n (fun _ => 1 / (n : ℝ)) (wander n diag mu var zs) y /
        historyEvidence n (fun _ => 1 / (n : ℝ)) (wander n diag mu var zs)) := by
      intro y hy
      have hc : (0 : Int) ≤ y ∧ (y : Int) < post.numStates := ⟨by omega, by
        show (y : Int) < post.values.length
        omega⟩
      simp only [DiscretePdf.probabilityGet, hc, and_self, cassert_true, Outcome.ok_bind, Int.toNat_natCast]
      rw [vget_of_lt (by omega)]
      have b := hget y hy
      rw [List.getElem?_eq_getElem (by omega), Option.some.injEq] at b
      rw [b]
    exact ⟨_, _, get x hx, get k hk, hlt x hx hxk⟩

namespace DiscreteProgramFixture

/-- A robot that drives parallel to the wall at the third place. -/
noncomputable def robot : Robot := ⟨0, ⟨0, 0⟩, 0, 0, ![0, 3, 0]⟩

/-- Without noise it reads twice the place. -/
theorem records (zs : List ℝ) (h : Records robot ![1 / 10, 0] [(0, 0)] zs) : zs = [6] := by
  obtain ⟨h1, h2⟩ := h
  match zs, h1 with
  | [z], _ =>
    have := h2 0 z (0, 0) rfl rfl
    have hs : (robot.move ![1 / 10, 0] 0).state = ![1 / 10, 3, 0] := by
      show (ConditionalGaussian.sampleOne _ _ .default 0 0).2 = _
      rw [conditional_sample _ _ (Or.inl rfl), mulVec_zero, zero_add]
      ext i
      fin_cases i <;> simp [robot, Mobile.expectedValue, Function.update]
    simp only [zero_add, List.take_succ_cons, List.take_zero, robotAfter, List.foldl_cons, List.foldl_nil,
      measure_eq, Outcome.ok.injEq] at this
    rw [conditional_sample _ _ (Or.inl rfl), mulVec_zero, zero_add, hs] at this
    have := congrFun this 0
    simp [robot, Robot.move, wallMatrix] at this
    simp
    linarith

end DiscreteProgramFixture

open DiscreteProgramFixture in
example : ∃ post c, program .eigen 20 (9 / 10) 0 ((1 / 20) ^ 2) robot ![1 / 10, 0] [(0, 0)] = .ok (post, c) ∧
    post.mostProbableStateGet = 3 := by
  obtain ⟨post, c, h1, h2, -⟩ := C115_nearest .eigen (n := 20) (diag := 9 / 10) (mu := 0) (var := (1 / 20) ^ 2)
    (by norm_num) (by norm_num) (by norm_num) (by norm_num) robot ![1 / 10, 0] [(0, 0)] (by simp) (k := 3)
    (by norm_num) (by
      intro zs hzs z hz x _ hx
      rw [records zs hzs] at hz
      simp only [List.mem_singleton] at hz
      subst hz
      have : (x : ℝ) ≠ 3 := by exact_mod_cast hx
      rw [show (6 : ℝ) + 0 - 2 * ((3 : Nat) : ℝ) = 0 by norm_num, abs_zero]
      exact abs_pos.2 (by intro h; apply this; linarith))
  exact ⟨post, c, h1, by simpa using h2⟩

/-- **C115 fails for the printed number of steps:** it is one more than the number of steps made. -/
theorem C115_printed {be : Backend} {n : Nat} {diag mu var : ℝ} {r : Robot} {u : Fin 2 → ℝ}
    {ds : List ((Fin 3 → ℝ) × (Fin 1 → ℝ))} {post : DiscretePdf ℝ} {k : Nat}
    (h : program be n diag mu var r u ds = .ok (post, k)) : k = ds.length + 1 := by
  simp only [program, Outcome.bind_eq_ok, Outcome.pure_eq, Outcome.ok.injEq, Prod.mk.injEq] at h
  obtain ⟨_, _, _, _, _, _, _, _, _, _, _, _, _, rfl⟩ := h
  rfl

end BFL.Props
