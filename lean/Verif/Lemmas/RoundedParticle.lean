import Verif.Model.RoundedParticle
import Verif.Lemmas.RoundedMCPdf

/-!
# The rounded particle filter follows the exact one
-/

set_option linter.unusedSectionVars false

namespace BFL

open Spec

variable {R SV MV K : Type} [Field K] [LinearOrder K] [IsStrictOrderedRing K]

/-- A particle with its exact and its rounded weight. -/
abbrev Twin (K SV : Type) := SV × K × K

namespace Twin

/-- The particle of the exact filter. -/
def left (t : Twin K SV) : WSample K SV := ⟨t.1, some t.2.1⟩

/-- The particle of the rounded filter. -/
def right (t : Twin K SV) : WSample K SV := ⟨t.1, some t.2.2⟩

end Twin

/-- Rounded weights are exact weights times a common factor, up to `k` roundings. -/
def Twins (u : K) (k : Nat) (c : K) (ts : List (Twin K SV)) : Prop :=
  ∀ t ∈ ts, 0 ≤ t.2.1 ∧ 0 ≤ t.2.2 ∧ Near u k (c * t.2.1) t.2.2

/-- The exact weights sum up to one, the rounded ones almost. -/
def Balanced (u : K) (ts : List (Twin K SV)) : Prop :=
  (ts.map (·.2.1)).sum = 1 ∧ Near u (ts.length + 1) 1 (ts.map (·.2.2)).sum

variable {u : K} {fl : K → K}

theorem weights_left (ts : List (Twin K SV)) :
    mapOutcome WSample.weightGet (ts.map Twin.left) = .ok (ts.map (·.2.1)) :=
  Rounded.MC.weights_eq (by simp [Twin.left, Function.comp_def])

theorem weights_right (ts : List (Twin K SV)) :
    mapOutcome WSample.weightGet (ts.map Twin.right) = .ok (ts.map (·.2.2)) :=
  Rounded.MC.weights_eq (by simp [Twin.right, Function.comp_def])

theorem Twins.sum {k : Nat} {c : K} {ts : List (Twin K SV)} (h : Twins u k c ts) :
    Near u k (c * (ts.map (·.2.1)).sum) (ts.map (·.2.2)).sum := by
  induction ts with
  | nil => simp [Near]
  | cons t ts ih =>
    simp only [List.map_cons, List.sum_cons, mul_add]
    exact (h t (by simp)).2.2.add (ih fun t ht => h t (by simp [ht]))

theorem runningSums_length' (s : K) (l : List K) : (runningSums s l).length = l.length + 1 := by
  rw [← Rounded.runningSums_id, Rounded.runningSums_length]

theorem cumUpdate_left {q : MCPdf K SV} {ts : List (Twin K SV)} (hs : q.samples = ts.map Twin.left)
    (hc : q.cum.length = ts.length + 1) (h1 : q.sumWeights = 1) :
    ∃ q', q.cumUpdate = .ok q' ∧ q'.samples = q.samples ∧ q'.sumWeights = 1 ∧
      q'.cum = runningSums 0 (ts.map (·.2.1)) := by
  have hl : q.samples.length = ts.length := by rw [hs, List.length_map]
  refine ⟨{ q with
    cum := runningSums 0 ((ts.map (·.2.1)).map (· / q.sumWeights)) ++ q.cum.drop (q.samples.length + 1) },
    ?_, rfl, h1, ?_⟩
  · rw [MCPdf.cumUpdate, hs, weights_left, Outcome.ok_bind, if_neg (by rw [← hs]; omega)]
    rfl
  · have : q.cum.drop (q.samples.length + 1) = [] := List.drop_eq_nil_of_le (by omega)
    simp [this, h1, Function.comp_def]

theorem cumUpdate_right {q : MCPdf K SV} {ts : List (Twin K SV)} (hs : q.samples = ts.map Twin.right)
    (hc : q.cum.length = ts.length + 1) (h1 : q.sumWeights = 1) :
    ∃ q', Rounded.MC.cumUpdate fl q = .ok q' ∧ q'.samples = q.samples ∧
      q'.sumWeights = 1 ∧ q'.cum = Rounded.runningSums fl 0 (ts.map fun t => fl t.2.2) := by
  have hl : q.samples.length = ts.length := by rw [hs, List.length_map]
  refine ⟨{ q with
    cum := Rounded.runningSums fl 0 ((ts.map (·.2.2)).map fun w => fl (w / q.sumWeights)) ++
      q.cum.drop (q.samples.length + 1) }, ?_, rfl, h1, ?_⟩
  · rw [Rounded.MC.cumUpdate, hs, weights_right, Outcome.ok_bind, if_neg (by rw [← hs]; omega)]
    rfl
  · have : q.cum.drop (q.samples.length + 1) = [] := List.drop_eq_nil_of_le (by omega)
    simp [this, h1, Function.comp_def]

/-- Normalisation costs one rounding: the rounding errors of the sum are common to all weights. -/
theorem normalise_twins (h : IsRounding u fl) (h1 : u < 1) {k : Nat} {c : K} (hc0 : 0 < c)
    {ts : List (Twin K SV)} (ht : Twins u k c ts) {p q p1 : MCPdf K SV}
    (hp : p.samples = ts.map Twin.left) (hq : q.samples = ts.map Twin.right)
    (hpc : p.cum.length = ts.length + 1) (hqc : q.cum.length = ts.length + 1)
    (e : p.normalizeWeights = .ok (true, p1)) :
    ∃ q1 ts1 c1, Rounded.MC.normalizeWeights fl q = .ok (true, q1) ∧ 0 < c1 ∧
      Twins u (k + 1) c1 ts1 ∧ Balanced u ts1 ∧ ts1.map (·.1) = ts.map (·.1) ∧
      p1.samples = ts1.map Twin.left ∧ q1.samples = ts1.map Twin.right ∧
      p1.sumWeights = 1 ∧ q1.sumWeights = 1 ∧ p1.cum = runningSums 0 (ts1.map (·.2.1)) ∧
      q1.cum = Rounded.runningSums fl 0 (ts1.map fun t => fl t.2.2) := by
  have hS : 0 < (ts.map (·.2.1)).sum := by
    rw [MCPdf.normalizeWeights, MCPdf.sumWeightsUpdate, hp, weights_left, Outcome.ok_bind] at e
    by_contra hn
    rw [if_neg hn] at e
    simp at e
  have hsum := ht.sum
  have hT0 : 0 < (ts.map (·.2.2)).sum := hsum.pos h1 (mul_pos hc0 hS)
  obtain ⟨hS0', hS'⟩ := sum_near h h1.le (ts.map (·.2.2)) (by
    intro x hx
    obtain ⟨t, ht', rfl⟩ := List.mem_map.1 hx
    exact (ht t ht').2.1)
  have hSpos' := hS'.pos h1 hT0
  set S := (ts.map (·.2.1)).sum with hSd
  set S' := Rounded.sum fl (ts.map (·.2.2)) with hSd'
  let ts1 : List (Twin K SV) := ts.map fun t => (t.1, t.2.1 / S, fl (t.2.2 / S'))
  have hts1 : ts1.length = ts.length := List.length_map _
  have hleft : mapOutcome (fun (s : WSample K SV) => do
      let w ← s.weightGet
      s.weightSet (w / S)) (ts.map Twin.left) = .ok (ts1.map Twin.left) := by
    have : ∀ l : List (Twin K SV), (∀ t ∈ l, 0 ≤ t.2.1) → mapOutcome (fun (s : WSample K SV) => do
        let w ← s.weightGet
        s.weightSet (w / S)) (l.map Twin.left) =
          .ok ((l.map fun t => ((t.1, t.2.1 / S, fl (t.2.2 / S')) : Twin K SV)).map Twin.left) := by
      intro l hl
      induction l with
      | nil => rfl
      | cons t l ih =>
        have a : 0 ≤ t.2.1 / S := div_nonneg (hl t (by simp)) hS.le
        simp only [List.map_cons, mapOutcome, ih fun t ht => hl t (by simp [ht])]
        simp [Twin.left, WSample.weightGet, WSample.weightSet, cassert, a]
    exact this ts fun t ht' => (ht t ht').1
  have hright : mapOutcome (fun (s : WSample K SV) => do
      let w ← s.weightGet
      s.weightSet (fl (w / S'))) (ts.map Twin.right) = .ok (ts1.map Twin.right) := by
    have : ∀ l : List (Twin K SV), (∀ t ∈ l, 0 ≤ t.2.2) → mapOutcome (fun (s : WSample K SV) => do
        let w ← s.weightGet
        s.weightSet (fl (w / S'))) (l.map Twin.right) =
          .ok ((l.map fun t => ((t.1, t.2.1 / S, fl (t.2.2 / S')) : Twin K SV)).map Twin.right) := by
      intro l hl
      induction l with
      | nil => rfl
      | cons t l ih =>
        have a : 0 ≤ fl (t.2.2 / S') := h.nonneg h1.le (div_nonneg (hl t (by simp)) hS0')
        simp only [List.map_cons, mapOutcome, ih fun t ht => hl t (by simp [ht])]
        simp [Twin.right, WSample.weightGet, WSample.weightSet, cassert, a]
    exact this ts fun t ht' => (ht t ht').2.1
  obtain ⟨p2, ep, ep1, ep2, ep3⟩ := cumUpdate_left
    (q := { p with samples := ts1.map Twin.left, sumWeights := 1 }) (ts := ts1) rfl
    (by rw [hts1]; exact hpc) rfl
  obtain ⟨q2, eq, eq1, eq2, eq3⟩ := cumUpdate_right (fl := fl)
    (q := { q with samples := ts1.map Twin.right, sumWeights := 1 }) (ts := ts1) rfl
    (by rw [hts1]; exact hqc) rfl
  rw [MCPdf.normalizeWeights, MCPdf.sumWeightsUpdate, hp, weights_left, Outcome.ok_bind,
    ← hSd, if_pos hS] at e
  simp only [Outcome.pure_eq, Outcome.ok_bind, if_true] at e
  rw [hleft, Outcome.ok_bind, ep, Outcome.ok_bind] at e
  simp only [Outcome.ok.injEq, Prod.mk.injEq, true_and] at e
  subst e
  have htw : Twins u (k + 1) (c * S / S') ts1 := by
    intro t ht'
    obtain ⟨s, hs, rfl⟩ := List.mem_map.1 ht'
    obtain ⟨a1, a2, a3⟩ := ht s hs
    refine ⟨div_nonneg a1 hS.le, h.nonneg h1.le (div_nonneg a2 hS0'), ?_⟩
    have a4 := (a3.const_mul (inv_nonneg.2 hS0')).trans h1.le
      (h.near h1.le (x := S'⁻¹ * s.2.2) (mul_nonneg (inv_nonneg.2 hS0') a2))
    have e1 : c * S / S' * (s.2.1 / S) = S'⁻¹ * (c * s.2.1) := by
      field_simp
    have e2 : s.2.2 / S' = S'⁻¹ * s.2.2 := by field_simp
    simp only [e1, e2]
    exact a4
  refine ⟨q2, ts1, c * S / S', ?_, by positivity, htw, ⟨?_, ?_⟩, ?_, ep1, eq1, ep2, eq2, ep3, eq3⟩
  · rw [Rounded.MC.normalizeWeights, Rounded.MC.sumWeightsUpdate, hq, weights_right, Outcome.ok_bind,
      ← hSd', if_pos hSpos']
    simp only [Outcome.pure_eq, Outcome.ok_bind, if_true]
    rw [hright, Outcome.ok_bind, eq]
    rfl
  · have : ∀ l : List (Twin K SV), ((l.map fun t => ((t.1, t.2.1 / S, fl (t.2.2 / S')) : Twin K SV)).map
        (·.2.1)).sum = (l.map (·.2.1)).sum / S := by
      intro l
      induction l with
      | nil => simp
      | cons t l ih => simp only [List.map_cons, List.sum_cons, ih]; ring
    show ((ts.map _).map _).sum = 1
    rw [this, ← hSd, div_self hS.ne']
  · have : ∀ l : List (Twin K SV), (∀ t ∈ l, 0 ≤ t.2.2) →
        Near u 1 ((l.map (·.2.2)).sum / S')
          ((l.map fun t => ((t.1, t.2.1 / S, fl (t.2.2 / S')) : Twin K SV)).map (·.2.2)).sum := by
      intro l hl
      induction l with
      | nil => simp [Near]
      | cons t l ih =>
        simp only [List.map_cons, List.sum_cons, add_div]
        exact (h.near h1.le (div_nonneg (hl t (by simp)) hS0')).add
          (ih fun t ht => hl t (by simp [ht]))
    have a := this ts fun t ht' => (ht t ht').2.1
    have b := hS'.symm.const_mul (inv_nonneg.2 hS0')
    rw [inv_mul_cancel₀ hSpos'.ne', mul_comm, ← div_eq_mul_inv] at b
    have := b.trans h1.le a
    rw [List.length_map] at this
    rw [hts1]
    exact this
  · simp [ts1, Function.comp_def]

theorem fl_zero (h : IsRounding u fl) : fl 0 = 0 := by
  have := h.2 0
  rw [abs_zero, mul_zero, sub_zero] at this
  exact abs_eq_zero.1 (le_antisymm this (abs_nonneg _))

/-- What the loop of `UpdateWeightsInternal` asks of the two weight factors. -/
def FactorNear (u : K) (j : Nat) (f f' : SV → SV → Outcome K) : Prop :=
  ∀ x y g, f x y = .ok g → ∃ g', f' x y = .ok g' ∧ (0 ≤ g → 0 ≤ g' ∧ Near u j g g')

theorem weightLoop_twins (h : IsRounding u fl) (h1 : u < 1) {k j : Nat} {c : K} (hc0 : 0 < c)
    {f f' : SV → SV → Outcome K} (hf : FactorNear u j f f') {ts : List (Twin K SV)}
    (ht : Twins u k c ts) {os os' : List (WSample K SV)}
    (ho : os.map (·.value) = os'.map (·.value)) {r : List (WSample K SV) × K}
    (e : Cloud.weightLoop f os (ts.map Twin.left) = .ok r) :
    ∃ ts1, Rounded.PF.weightLoop fl f' os' (ts.map Twin.right) = .ok (ts1.map Twin.right) ∧
      r.1 = ts1.map Twin.left ∧ ts1.map (·.1) = ts.map (·.1) ∧ Twins u (k + j + 1) c ts1 := by
  induction ts generalizing os os' r with
  | nil =>
    simp only [List.map_nil, Cloud.weightLoop, Outcome.ok.injEq] at e
    subst e
    exact ⟨[], by simp [Rounded.PF.weightLoop], rfl, rfl, fun t ht => by simp at ht⟩
  | cons t ts ih =>
    cases os with
    | nil => simp [Cloud.weightLoop] at e
    | cons o os =>
      cases os' with
      | nil => simp at ho
      | cons o' os' =>
        simp only [List.map_cons, List.cons.injEq] at ho
        simp only [List.map_cons, Cloud.weightLoop, Outcome.bind_eq_ok, Outcome.pure_eq,
          Outcome.ok.injEq] at e
        obtain ⟨g, eg, w, ew, n', en, ⟨r1, r2⟩, er, e⟩ := e
        subst e
        simp only [Twin.left, WSample.weightGet, Outcome.ok.injEq] at ew
        subst ew
        simp only [WSample.weightSet, Outcome.bind_eq_ok, Outcome.pure_eq, Outcome.ok.injEq] at en
        obtain ⟨⟨⟩, ea, en⟩ := en
        have hw : 0 ≤ t.2.1 * g := by
          by_contra hn
          simp [cassert, hn] at ea
        obtain ⟨ts1, i1, i2, i3, i4⟩ := ih (fun t ht' => ht t (by simp [ht'])) ho.2 er
        obtain ⟨g', eg', hg⟩ := hf _ _ _ eg
        obtain ⟨a1, a2, a3⟩ := ht t (by simp)
        have key : 0 ≤ fl (t.2.2 * g') ∧ Near u (k + j + 1) (c * (t.2.1 * g)) (fl (t.2.2 * g')) := by
          by_cases hg0 : 0 ≤ g
          · obtain ⟨b1, b2⟩ := hg hg0
            have b3 := mul_nonneg a2 b1
            refine ⟨h.nonneg h1.le b3, ?_⟩
            rw [← mul_assoc]
            exact (a3.mul h1.le (mul_nonneg hc0.le a1) a2 hg0 b1 b2).trans h1.le (h.near h1.le b3)
          · have hz : t.2.1 = 0 := by
              by_contra hne
              have : 0 < t.2.1 := lt_of_le_of_ne a1 (Ne.symm hne)
              have := mul_neg_of_pos_of_neg this (not_le.1 hg0)
              linarith
            have hz' : t.2.2 = 0 := by
              have b := a3.2
              rw [hz, mul_zero] at b
              have hp : 0 < (1 - u) ^ k := pow_pos (by linarith) _
              nlinarith
            rw [hz, hz', zero_mul, zero_mul, fl_zero h, mul_zero]
            exact ⟨le_rfl, by simp [Near]⟩
        refine ⟨(t.1, t.2.1 * g, fl (t.2.2 * g')) :: ts1, ?_, ?_, ?_, ?_⟩
        · have e1 : f' o'.value (Twin.right t).value = .ok g' := by rw [← ho.1]; exact eg'
          simp only [List.map_cons, Rounded.PF.weightLoop, e1, Outcome.ok_bind]
          simp only [Twin.right, WSample.weightGet, Outcome.ok_bind, WSample.weightSet,
            cassert_true key.1, Outcome.pure_eq]
          rw [i1]
          rfl
        · simp only [List.map_cons, List.cons.injEq]
          exact ⟨en.symm, i2⟩
        · simp [i3]
        · intro t' ht'
          rcases List.mem_cons.1 ht' with rfl | ht'
          · exact ⟨hw, key.1, key.2⟩
          · exact i4 t' ht'

theorem factorNear (h : IsRounding u fl) (h1 : u < 1) (q : Option (Proposal R SV K))
    (sys : Option (SysModel R SV K)) (v : SV) (mm : Model SV MV K) (z : MV) (s : SV) :
    FactorNear u 2 (Cloud.factor q sys v mm z s) (Rounded.PF.factor fl q sys v mm z s) := by
  intro x y g e
  cases sys with
  | none =>
    exact ⟨g, e, fun hg => ⟨hg, near_refl h.1 h1.le 2 hg⟩⟩
  | some m =>
    simp only [Cloud.factor, Cloud.factorSys, Outcome.bind_eq_ok] at e
    obtain ⟨q', e1, ⟨⟩, e2, b, e3, e⟩ := e
    simp only [Rounded.PF.factor, Rounded.PF.factorSys, e1, Outcome.ok_bind, e2, e3]
    cases b with
    | false =>
      simp only [Bool.false_eq_true, if_false] at e ⊢
      exact ⟨g, e, fun hg => ⟨hg, near_refl h.1 h1.le 2 hg⟩⟩
    | true =>
      simp only [if_true, Outcome.bind_eq_ok] at e
      simp only [if_true]
      obtain ⟨l, e4, b', e5, args, e6, e⟩ := e
      simp only [e4, e5, e6, Outcome.ok_bind]
      simp only [Cloud.correction, Outcome.bind_eq_ok] at e
      obtain ⟨d, e7, e⟩ := e
      simp only [Rounded.PF.correction, e7, Outcome.ok_bind]
      by_cases hd : d = 0
      · simp only [hd, ne_eq, not_true_eq_false, if_false, Outcome.pure_eq, Outcome.ok.injEq] at e ⊢
        subst e
        exact ⟨0, rfl, fun _ => ⟨le_rfl, by simp [Near]⟩⟩
      · simp only [ne_eq, hd, not_false_eq_true, if_true, Outcome.bind_eq_ok] at e
        simp only [ne_eq, hd, not_false_eq_true, if_true]
        obtain ⟨t, e8, r, e9, e⟩ := e
        simp only [e8, Outcome.ok_bind]
        simp only [divProb, hd, if_false, mkProb] at e9
        by_cases ht : 0 ≤ t / d
        · simp only [ht, if_true, Outcome.ok.injEq] at e9
          subst e9
          have hn := h.near h1.le ht
          have h0 := h.nonneg h1.le ht
          simp only [Rounded.divProb, hd, if_false, mkProb, h0, if_true, Outcome.ok_bind]
          by_cases hg : 0 ≤ l * (t / d)
          · simp only [mkProb, hg, if_true, Outcome.ok.injEq] at e
            subst e
            have key : 0 ≤ l * fl (t / d) ∧ Near u 1 (l * (t / d)) (l * fl (t / d)) := by
              by_cases hl : 0 ≤ l
              · exact ⟨mul_nonneg hl h0, hn.const_mul hl⟩
              · have hz : t / d = 0 := by
                  by_contra hne
                  have : 0 < t / d := lt_of_le_of_ne ht (Ne.symm hne)
                  have := mul_neg_of_neg_of_pos (not_le.1 hl) this
                  linarith
                rw [hz, fl_zero h, mul_zero]
                exact ⟨le_rfl, by simp [Near]⟩
            have h2 := h.nonneg h1.le key.1
            refine ⟨fl (l * fl (t / d)), by rw [if_pos h2], fun _ => ⟨h2, ?_⟩⟩
            exact key.2.trans h1.le (h.near h1.le key.1)
          · simp [mkProb, hg] at e
        · simp [ht] at e9

theorem proposeLoop_twins {k : Nat} {c : K} {q : Option (Proposal R SV K)} {m : SysModel R SV K}
    {v : SV} {rs : Nat → R} {i : Nat} {ts : List (Twin K SV)} (ht : Twins u k c ts)
    {ns ns' : List (WSample K SV)} (hn : ns.length = ts.length) (hn' : ns'.length = ts.length)
    {prev : SV} {r : List (WSample K SV) × SV}
    (e : Cloud.proposeLoop q m v rs i (ts.map Twin.left) ns prev = .ok r) :
    ∃ ts1, Cloud.proposeLoop q m v rs i (ts.map Twin.right) ns' prev =
        .ok (ts1.map Twin.right, r.2) ∧ r.1 = ts1.map Twin.left ∧ Twins u k c ts1 ∧
      ts1.length = ts.length := by
  induction ts generalizing i ns ns' prev r with
  | nil =>
    simp only [List.length_nil, List.length_eq_zero_iff] at hn hn'
    subst hn hn'
    simp only [List.map_nil, Cloud.proposeLoop, Outcome.ok.injEq] at e
    subst e
    exact ⟨[], rfl, rfl, ht, rfl⟩
  | cons t ts ih =>
    cases ns with
    | nil => simp at hn
    | cons n ns =>
      cases ns' with
      | nil => simp at hn'
      | cons n' ns' =>
        simp only [List.length_cons, Nat.add_right_cancel_iff] at hn hn'
        simp only [List.map_cons, Cloud.proposeLoop, Outcome.bind_eq_ok, Outcome.pure_eq,
          Outcome.ok.injEq] at e
        obtain ⟨x, ex, w, ew, n1, en, ⟨r1, r2⟩, er, e⟩ := e
        subst e
        simp only [Twin.left, WSample.weightGet, Outcome.ok.injEq] at ew
        subst ew
        obtain ⟨a1, a2, a3⟩ := ht t (by simp)
        simp only [WSample.weightSet, cassert_true a1, Outcome.ok_bind, Outcome.pure_eq,
          Outcome.ok.injEq] at en
        obtain ⟨ts1, i1, i2, i3, i4⟩ := ih (fun t ht' => ht t (by simp [ht'])) hn hn' er
        refine ⟨(x, t.2.1, t.2.2) :: ts1, ?_, ?_, ?_, by simp [i4]⟩
        · have ex' : Cloud.drawOne q m v (rs i) (Twin.right t).value prev = .ok x := ex
          simp only [List.map_cons, Cloud.proposeLoop, ex', Outcome.ok_bind]
          rw [i1]
          simp [Twin.right, WSample.weightGet, WSample.weightSet, cassert, a2]
        · simp only [List.map_cons, List.cons.injEq]
          exact ⟨en.symm, i2⟩
        · intro t' ht'
          rcases List.mem_cons.1 ht' with rfl | ht'
          · exact ⟨a1, a2, a3⟩
          · exact i3 t' ht'

/-- The rounded filter `g` follows the exact filter `f`, at a distance of `k` roundings. -/
structure Follows (fl : K → K) (u : K) (N k : Nat) (f g : ParticleFilter R SV K) (ts : List (Twin K SV)) : Prop where
  twins : ∃ c, 0 < c ∧ Twins u k c ts
  balanced : Balanced u ts
  length : ts.length = N
  pos : 0 < N
  left : f.cloud.post.samples = ts.map Twin.left
  right : g.cloud.post.samples = ts.map Twin.right
  sumLeft : f.cloud.post.sumWeights = 1
  sumRight : g.cloud.post.sumWeights = 1
  tableLeft : f.cloud.post.cum = runningSums 0 (ts.map (·.2.1))
  tableRight : g.cloud.post.cum = Rounded.runningSums fl 0 (ts.map fun t => fl t.2.2)
  newLeft : f.cloud.new.length = N
  newRight : g.cloud.new.length = N
  old : f.cloud.old.map (·.value) = g.cloud.old.map (·.value)
  unweighted : g.cloud.unweighted = f.cloud.unweighted
  rest : g = { f with cloud := g.cloud }

theorem Follows.cumLeft {k N : Nat} {f g : ParticleFilter R SV K} {ts : List (Twin K SV)}
    (hs : Follows fl u N k f g ts) : f.cloud.post.cum.length = N + 1 := by
  rw [hs.tableLeft, runningSums_length', List.length_map, hs.length]

theorem Follows.cumRight {k N : Nat} {f g : ParticleFilter R SV K} {ts : List (Twin K SV)}
    (hs : Follows fl u N k f g ts) : g.cloud.post.cum.length = N + 1 := by
  rw [hs.tableRight, Rounded.runningSums_length, List.length_map, hs.length]

theorem listUpdateW_twins (h : IsRounding u fl) (h1 : u < 1) {k N : Nat} {c : K} (hc0 : 0 < c)
    (hN : 0 < N) {ts : List (Twin K SV)} (ht : Twins u k c ts) (htl : ts.length = N)
    {p q p1 : MCPdf K SV} (hp : p.samples.length = N) (hq : q.samples.length = N)
    (hpc : p.cum.length = N + 1) (hqc : q.cum.length = N + 1)
    (e : p.listUpdateW (ts.map Twin.left) = .ok (true, p1)) :
    ∃ q1 ts1 c1, Rounded.MC.listUpdateW fl q (ts.map Twin.right) = .ok (true, q1) ∧ 0 < c1 ∧
      Twins u (k + 1) c1 ts1 ∧ Balanced u ts1 ∧ ts1.map (·.1) = ts.map (·.1) ∧
      p1.samples = ts1.map Twin.left ∧ q1.samples = ts1.map Twin.right ∧
      p1.sumWeights = 1 ∧ q1.sumWeights = 1 ∧ p1.cum = runningSums 0 (ts1.map (·.2.1)) ∧
      q1.cum = Rounded.runningSums fl 0 (ts1.map fun t => fl t.2.2) := by
  subst htl
  have l1 : (ts.map Twin.left).length = p.samples.length := by rw [List.length_map, hp]
  have l2 : (ts.map Twin.right).length = q.samples.length := by rw [List.length_map, hq]
  rw [MCPdf.listUpdateW, cassert_true l1, Outcome.ok_bind, if_pos (by rw [List.length_map]; omega)] at e
  rw [Rounded.MC.listUpdateW, cassert_true l2, Outcome.ok_bind,
    if_pos (by rw [List.length_map]; omega)]
  exact normalise_twins h h1 hc0 ht (p := { p with samples := ts.map Twin.left })
    (q := { q with samples := ts.map Twin.right }) rfl rfl hpc hqc e

theorem weightStep_follows (h : IsRounding u fl) (h1 : u < 1) {k N : Nat}
    {f g f1 : ParticleFilter R SV K} {ts : List (Twin K SV)} (hs : Follows fl u N k f g ts)
    {c : UpdateCall R SV MV K} {mm : Model SV MV K} (e : f.weightStep c mm = .ok (true, f1)) :
    ∃ g1 ts1, Rounded.PF.weightStep fl c mm g = .ok (true, g1) ∧ Follows fl u N (k + 4) f1 g1 ts1 ∧
      f1 = { f with cloud := f1.cloud } := by
  obtain ⟨co, hc0, ht⟩ := hs.twins
  have hgp : g.proposal = f.proposal := by rw [hs.rest]
  simp only [ParticleFilter.weightStep, Cloud.reweight, Outcome.bind_eq_ok, Outcome.pure_eq,
    Outcome.ok.injEq] at e
  obtain ⟨⟨⟨b, cl⟩, su⟩, ⟨⟨l, sw⟩, el, ⟨b', p1⟩, ep, e1⟩, e2⟩ := e
  simp only [Prod.mk.injEq] at e1 e2
  obtain ⟨⟨rfl, rfl⟩, rfl⟩ := e1
  obtain ⟨rfl, rfl⟩ := e2
  have hls : f.cloud.post.listGet = ts.map Twin.left := hs.left
  rw [hls] at el
  obtain ⟨ts1, w1, w2, w3, w4⟩ := weightLoop_twins h h1 hc0
    (factorNear (fl := fl) h h1 f.proposal c.sys c.u mm c.z c.s) ht hs.old el
  simp only at w2
  subst w2
  have hl1 : ts1.length = N := by
    have := congrArg List.length w3
    simpa [hs.length] using this
  obtain ⟨q1, ts2, c1, x1, x2, x3, x4, x5, x6, x7, x8, x9, x10, x11⟩ := listUpdateW_twins h h1 hc0 hs.pos
    w4 hl1 (by rw [hs.left, List.length_map, hs.length]) (q := g.cloud.post)
    (by rw [hs.right, List.length_map, hs.length]) hs.cumLeft hs.cumRight ep
  have hl2 : ts2.length = N := by
    have := congrArg List.length x5
    simpa [hl1] using this
  refine ⟨{ g with cloud := { g.cloud with post := q1, new := ts1.map Twin.right } }, ts2, ?_,
    ⟨⟨c1, x2, ?_⟩, x4, hl2, hs.pos, x6, x7, x8, x9, x10, x11, ?_, ?_, hs.old, hs.unweighted, ?_⟩, rfl⟩
  · have hrs : g.cloud.post.listGet = ts.map Twin.right := hs.right
    simp only [Rounded.PF.weightStep, Rounded.PF.reweight, hrs, hgp, w1, Outcome.ok_bind, x1,
      Outcome.pure_eq]
  · exact x3
  · simp [hl1]
  · simp [hl1]
  · rw [hs.rest]

theorem proposalStep_follows (h : IsRounding u fl) (h1 : u < 1) {k N : Nat}
    {f g f1 : ParticleFilter R SV K} {ts : List (Twin K SV)} (hs : Follows fl u N k f g ts)
    {m : SysModel R SV K} {v : SV} {rs : Nat → R} (e : f.proposalStep m v rs = .ok (true, f1)) :
    ∃ g1 ts1, Rounded.PF.proposalStep fl m v rs g = .ok (true, g1) ∧ Follows fl u N (k + 1) f1 g1 ts1 ∧
      f1 = { f with cloud := f1.cloud, sample := f1.sample, timestep := f.timestep + 1 } := by
  obtain ⟨co, hc0, ht⟩ := hs.twins
  have hgp : g.proposal = f.proposal := by rw [hs.rest]
  have hgs : g.sample = f.sample := by rw [hs.rest]
  simp only [ParticleFilter.proposalStep, Cloud.propose, Outcome.bind_eq_ok, Outcome.pure_eq,
    Outcome.ok.injEq] at e
  obtain ⟨⟨⟨b, cl⟩, su⟩, ⟨⟨l, sw⟩, el, ⟨b', p1⟩, ep, e1⟩, e2⟩ := e
  simp only [Prod.mk.injEq] at e1 e2
  obtain ⟨⟨rfl, rfl⟩, rfl⟩ := e1
  obtain ⟨rfl, rfl⟩ := e2
  have hls : f.cloud.post.listGet = ts.map Twin.left := hs.left
  have hrs : g.cloud.post.listGet = ts.map Twin.right := hs.right
  rw [hls] at el
  obtain ⟨ts1, w1, w2, w3, w4⟩ := proposeLoop_twins ht (ns' := g.cloud.new)
    (by rw [hs.newLeft, hs.length]) (by rw [hs.newRight, hs.length]) el
  simp only at w1 w2
  subst w2
  have hl1 : ts1.length = N := by rw [w4, hs.length]
  obtain ⟨q1, ts2, c1, x1, x2, x3, x4, x5, x6, x7, x8, x9, x10, x11⟩ := listUpdateW_twins h h1 hc0 hs.pos
    w3 hl1 (by rw [hs.left, List.length_map, hs.length]) (q := g.cloud.post)
    (by rw [hs.right, List.length_map, hs.length]) hs.cumLeft hs.cumRight ep
  have hl2 : ts2.length = N := by
    have := congrArg List.length x5
    simpa [hl1] using this
  refine ⟨{ g with cloud := { g.cloud with post := q1, old := g.cloud.post.listGet,
                                           new := ts1.map Twin.right },
                   sample := sw, timestep := g.timestep + 1 }, ts2, ?_,
    ⟨⟨c1, x2, x3⟩, x4, hl2, hs.pos, x6, x7, x8, x9, x10, x11, ?_, ?_, ?_, hs.unweighted, ?_⟩, rfl⟩
  · simp only [Rounded.PF.proposalStep, Rounded.PF.propose, hrs, hgp, hgs, w1, Outcome.ok_bind, x1,
      Outcome.pure_eq]
  · simp [hl1]
  · simp [hl1]
  · show (f.cloud.post.listGet).map _ = (g.cloud.post.listGet).map _
    rw [hls, hrs]
    simp [Twin.left, Twin.right, Function.comp_def]
  · rw [hs.rest]

theorem Follows.weaken (h0 : 0 ≤ u) (h1 : u ≤ 1) {k l N : Nat} {f g : ParticleFilter R SV K}
    {ts : List (Twin K SV)} (hs : Follows fl u N k f g ts) (hkl : k ≤ l) : Follows fl u N l f g ts := by
  obtain ⟨c, hc, ht⟩ := hs.twins
  refine { hs with twins := ⟨c, hc, fun t htm => ?_⟩ }
  obtain ⟨a1, a2, a3⟩ := ht t htm
  exact ⟨a1, a2, a3.mono h0 h1 (mul_nonneg hc.le a1) a2 hkl⟩

end BFL
