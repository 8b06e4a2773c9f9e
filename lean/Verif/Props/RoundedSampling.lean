import Verif.Lemmas.RoundedMCPdf
import Verif.Props.Rounding
import Mathlib.Data.Rat.Floor

/-!
# C85: sampling from weighted samples with rounded arithmetic
-/

set_option linter.unusedSectionVars false

namespace BFL.Props

open Spec

variable {K T : Type} [Field K] [LinearOrder K] [IsStrictOrderedRing K]

/-- The call `o` on `q` assigns the samples `vals` with weights `ws`; samples without weights get equal ones.
The `Update` functions need as many samples as there were. -/
def Sets (q : MCPdf K T) : MCPdf.Op K T → List T → List K → Prop
  | .setW los, vals, ws => los.map (·.value) = vals ∧ los.map (·.weight) = ws.map some
  | .updateW los, vals, ws =>
    los.map (·.value) = vals ∧ los.map (·.weight) = ws.map some ∧ los.length = q.listGet.length
  | .setU los, vals, ws => vals = los ∧ ws = List.replicate los.length 1
  | .updateU los, vals, ws => vals = los ∧ ws = List.replicate los.length 1 ∧ los.length = q.listGet.length
  | _, _, _ => False

theorem sets_represents {u : K} {fl : K → K} (h : IsRounding u fl) (h1 : u < 1) {n : Nat} {dflt : T}
    {ops : List (MCPdf.Op K T)} {q : MCPdf K T} (hq : Rounded.MC.run fl dflt (MCPdf.make n dflt) ops = .ok q)
    {o : MCPdf.Op K T} {vals : List T} {ws : List K} (ho : Sets q o vals ws) (hw : ∀ w ∈ ws, 0 ≤ w)
    (hpos : 0 < ws.sum) :
    ∃ p, Rounded.MC.step fl dflt q o = .ok (true, p) ∧
      Represents u (2 * ws.length + 2) p vals (probabilities ws) := by
  have hsz : q.cum.length = q.samples.length + 1 := Rounded.MC.run_sized (by simp [MCPdf.make]) hq
  have hset : ∀ k, (q.numSamplesSet dflt k).cum.length = k + 1 := by
    intro k
    unfold MCPdf.numSamplesSet
    simp only
    split
    · simp; omega
    · split
      · simp; omega
      · omega
  have hne : ∀ {l : List T}, ws = List.replicate l.length 1 → l ≠ [] := by
    rintro l rfl rfl
    simp at hpos
  cases o with
  | setW los =>
    obtain ⟨rfl, h3⟩ := ho
    exact Rounded.MC.normalizeWeights_represents h h1
      (q := { q.numSamplesSet dflt los.length with samples := los }) h3 hw hpos (hset _)
  | updateW los =>
    obtain ⟨rfl, h3, h4⟩ := ho
    have hl : los.length ≠ 0 := by
      intro hl
      have : ws.length = 0 := by
        have := congrArg List.length h3
        simp only [List.length_map] at this
        omega
      rw [List.length_eq_zero_iff.1 this] at hpos
      simp at hpos
    obtain ⟨p, e, r⟩ := Rounded.MC.normalizeWeights_represents h h1 (q := { q with samples := los }) h3 hw hpos
      (by simp only; rw [hsz, h4])
    refine ⟨p, ?_, r⟩
    rw [Rounded.MC.step, Rounded.MC.listUpdateW, cassert_true h4, Outcome.ok_bind, if_pos hl, e]
  | setU los =>
    obtain ⟨rfl, h3⟩ := ho
    obtain ⟨ss, p, e1, e2, r⟩ := Rounded.MC.uniform_represents h h1 (q := q.numSamplesSet dflt vals.length) (hne h3)
      (hset _)
    refine ⟨p, ?_, ?_⟩
    · rw [Rounded.MC.step, Rounded.MC.listSetU, e1, Outcome.ok_bind, e2]
      rfl
    · rw [h3, List.length_replicate]
      exact r
  | updateU los =>
    obtain ⟨rfl, h3, h4⟩ := ho
    obtain ⟨ss, p, e1, e2, r⟩ := Rounded.MC.uniform_represents h h1 (q := q.numSamplesSet dflt vals.length) (hne h3)
      (hset _)
    have hl : vals.length ≠ 0 := by
      intro hl
      exact hne h3 (List.length_eq_zero_iff.1 hl)
    refine ⟨p, ?_, ?_⟩
    · rw [Rounded.MC.step, Rounded.MC.listUpdateU, if_pos h4, cassert_true hl, Outcome.ok_bind, e1, Outcome.ok_bind, e2]
      rfl
    · rw [h3, List.length_replicate]
      exact r
  | numSamplesSet k => exact ho.elim
  | copy => exact ho.elim

theorem probabilities_sum {ws : List K} (hpos : 0 < ws.sum) : (probabilities ws).sum = 1 := by
  have : (probabilities ws).sum = ws.sum / ws.sum := by
    simp only [probabilities, div_eq_mul_inv, List.sum_map_mul_right, List.map_id']
  rw [this, div_self hpos.ne']

theorem probabilities_length (ws : List K) : (probabilities ws).length = ws.length := by simp [probabilities]

/-- The search ends inside the table. -/
theorem search {u : K} {k : Nat} {q : MCPdf K T} {vals : List T} {p : List K} (r : Represents u k q vals p)
    {x : K} (hx : 0 < x) (hlast : ∀ h : p.length < q.cum.length, x ≤ q.cum[p.length]) :
    ∃ i, ∃ hi : i < vals.length, (∀ j, (hj : j < i + 1) → (hj' : j < q.cum.length) → q.cum[j] < x) ∧
      (∀ h : i + 1 < q.cum.length, x ≤ q.cum[i + 1]) ∧
      sweep q.numSamples x 0 q.cum = .ok (i + 1, q.cum.drop (i + 1)) ∧
      q.previous (i + 1) = .ok vals[i] := by
  have ht := r.table
  have hex : ∃ m, ∃ hm : m < q.cum.length, x ≤ q.cum[m] := ⟨p.length, by omega, hlast _⟩
  classical
  obtain ⟨hm, hle⟩ := Nat.find_spec hex
  have hmin := fun j (hj : j < Nat.find hex) => Nat.find_min hex hj
  generalize Nat.find hex = m at hm hle hmin
  cases m with
  | zero =>
    exfalso
    rw [r.zero hm] at hle
    exact absurd hle (not_le.2 hx)
  | succ i =>
    have hi : i < vals.length := by have := r.length; omega
    have hs : q.samples.length = vals.length := by rw [← r.values, List.length_map]
    have hlt : ∀ j, (hj : j < i + 1) → (hj' : j < q.cum.length) → q.cum[j] < x := by
      intro j hj hj'
      by_contra hc
      exact hmin j hj ⟨hj', not_lt.1 hc⟩
    refine ⟨i, hi, hlt, fun _ => hle, ?_, ?_⟩
    · have := sweep_ok (n := q.numSamples) (u := x) (k := 0) hm hle (fun j hj => hlt j hj (by omega))
        (by show 0 + (i + 1) ≤ q.samples.length + 1; omega)
      rw [zero_add] at this
      exact this
    · rw [MCPdf.previous, vget_of_lt (by omega)]
      have : vals[i] = q.samples[i].value := by simp [← r.values]
      rw [this]
      rfl

theorem table_end {u : K} (h1 : u ≤ 1) {k : Nat} {q : MCPdf K T} {vals : List T} {p : List K}
    (r : Represents u k q vals p) (hp : p.sum = 1) {x : K} (hx : x ≤ 1 - k * u)
    (h : p.length < q.cum.length) : x ≤ q.cum[p.length] := by
  have a := (r.near p.length h).1
  have b : massBelow p p.length = 1 := by simp [massBelow, hp]
  rw [b, one_mul] at a
  have c := one_add_mul_le_pow (a := -u) (by linarith) k
  have e : (1 : K) + -u = 1 - u := by ring
  rw [e] at c
  linarith

/-- **C85.** After any history, when samples with weights are assigned, a draw of at most `1 - (2 n + 2) u`
returns one of the samples. -/
theorem C85_defined {u : K} {fl : K → K} (h : IsRounding u fl) (h1 : u < 1) {n : Nat} {dflt : T}
    {ops : List (MCPdf.Op K T)} {q : MCPdf K T} (hq : Rounded.MC.run fl dflt (MCPdf.make n dflt) ops = .ok q)
    {o : MCPdf.Op K T} {vals : List T} {ws : List K} (ho : Sets q o vals ws) (hw : ∀ w ∈ ws, 0 ≤ w)
    (hpos : 0 < ws.sum) :
    ∃ p, Rounded.MC.step fl dflt q o = .ok (true, p) ∧
      ∀ x, 0 < x → x ≤ 1 - (2 * ws.length + 2 : Nat) * u → ∃ v ∈ vals, p.sampleOne .default x = .ok (some v) := by
  obtain ⟨p, e, r⟩ := sets_represents h h1 hq ho hw hpos
  refine ⟨p, e, fun x hx hx1 => ?_⟩
  obtain ⟨i, hi, -, -, h2, h3⟩ := search r hx (table_end h1.le r (probabilities_sum hpos) hx1)
  refine ⟨vals[i], List.getElem_mem hi, ?_⟩
  rw [MCPdf.sampleOne, h2, Outcome.ok_bind]
  simp only [h3, Outcome.ok_bind, Outcome.pure_eq]

theorem Near.close {u : K} {k : Nat} {x y : K} (h0 : 0 ≤ u) (hk : (k : K) * u ≤ 1 / 2) (hu : u ≤ 1)
    (hx : 0 ≤ x) (hx1 : x ≤ 1) (h : Near u k x y) : |y - x| ≤ 2 * (k * u) := by
  have hy : 0 ≤ y := (mul_nonneg hx (pow_nonneg (by linarith) _)).trans h.1
  have := Near.error h0 hk hu hx hy h
  refine this.trans ?_
  have : 0 ≤ 2 * ((k : K) * u) := by positivity
  exact mul_le_of_le_one_right this hx1

/-- **C85.** Every draw that is farther than `2 (2 n + 2) u` from the jumps of the exact distribution returns
the sample that exact arithmetic would return. -/
theorem C85_exact {u : K} {fl : K → K} (h : IsRounding u fl) {n : Nat} {dflt : T}
    {ops : List (MCPdf.Op K T)} {q : MCPdf K T} (hq : Rounded.MC.run fl dflt (MCPdf.make n dflt) ops = .ok q)
    {o : MCPdf.Op K T} {vals : List T} {ws : List K} (ho : Sets q o vals ws) (hw : ∀ w ∈ ws, 0 ≤ w)
    (hpos : 0 < ws.sum) (hsmall : ((2 * ws.length + 2 : Nat) : K) * u ≤ 1 / 2) :
    ∃ p, Rounded.MC.step fl dflt q o = .ok (true, p) ∧
      ∀ x i, AwayFromJumps (probabilities ws) (2 * ((2 * ws.length + 2 : Nat) * u)) x →
        0 < x → Inverts (probabilities ws) x i → ∃ hi : i < vals.length, p.sampleOne .default x = .ok (some vals[i]) := by
  have h0 := h.1
  have h1 : u < 1 := by
    have : (2 : K) * u ≤ ((2 * ws.length + 2 : Nat) : K) * u := by
      apply mul_le_mul_of_nonneg_right _ h0
      push_cast
      have : (0 : K) ≤ ws.length := Nat.cast_nonneg _
      linarith
    linarith
  obtain ⟨p, e, r⟩ := sets_represents h h1 hq ho hw hpos
  refine ⟨p, e, fun x i ha hx hinv => ?_⟩
  set P := probabilities ws with hP
  set k := 2 * ws.length + 2 with hk
  have hP0 : ∀ y ∈ P, 0 ≤ y := by
    intro y hy
    obtain ⟨w, hwm, rfl⟩ := List.mem_map.1 hy
    exact div_nonneg (hw w hwm) hpos.le
  have hsum : P.sum = 1 := probabilities_sum hpos
  have hm0 : ∀ j, 0 ≤ massBelow P j := fun j => List.sum_nonneg fun y hy => hP0 y (List.mem_of_mem_take hy)
  have hm1 : ∀ j, massBelow P j ≤ 1 := by
    intro j
    have : massBelow P j + (P.drop j).sum = 1 := by
      rw [← hsum, ← List.sum_take_add_sum_drop P j]; rfl
    have h3 : 0 ≤ (P.drop j).sum := List.sum_nonneg fun y hy => hP0 y (List.mem_of_mem_drop hy)
    linarith
  -- the comparisons come out as in exact arithmetic
  have hcmp : ∀ j, (hj : j < p.cum.length) → (x ≤ p.cum[j] ↔ x ≤ massBelow P j) := by
    intro j hj
    rcases Nat.eq_zero_or_pos j with rfl | hj0
    · rw [r.zero hj]
      simp [massBelow]
    · have a := abs_le.1 (Near.close h0 hsmall h1.le (hm0 j) (hm1 j) (r.near j hj))
      have b := ha j hj0 (by have := r.table; omega)
      rcases lt_abs.1 b with b | b
      · constructor <;> intro <;> linarith
      · constructor <;> intro <;> linarith
  have hlen : vals.length = P.length := r.length
  have ht := r.table
  obtain ⟨hi, h2, h3⟩ := hinv
  obtain ⟨i', hi', hlt, hle, h4, h5⟩ := search r hx (fun hl => by
    rw [hcmp]
    have : massBelow P P.length = 1 := by simp [massBelow, hsum]
    rw [this]
    exact h3.trans (hm1 _))
  have heq : i' = i := by
    have hI' : Inverts P x i' := by
      refine ⟨by omega, ?_, ?_⟩
      · have := hlt i' (by omega) (by omega)
        by_contra hc
        exact absurd ((hcmp i' (by omega)).2 (not_lt.1 hc)) (not_le.2 this)
      · exact (hcmp _ (by omega)).1 (hle (by omega))
    exact Inverts.unique hP0 hI' ⟨hi, h2, h3⟩
  subst heq
  refine ⟨hi', ?_⟩
  rw [MCPdf.sampleOne, h4, Outcome.ok_bind]
  simp only [h5, Outcome.ok_bind, Outcome.pure_eq]

/-! ## RIPLEY -/

/-- The search loop of RIPLEY stays inside the table, whatever the order of the values is. -/
theorem ripley_in_range {u : K} {k : Nat} {q : MCPdf K T} {vals : List T} {p : List K} (r : Represents u k q vals p)
    (xs : List K) (hxs : ∀ x ∈ xs, 0 < x ∧ ∀ h : p.length < q.cum.length, x ≤ q.cum[p.length]) (m : Nat)
    (hm : m ≤ p.length) :
    ∃ l, q.ripleyLoop xs m (q.cum.drop m) = .ok l ∧ l.length = xs.length ∧ ∀ v ∈ l, v ∈ vals := by
  have ht := r.table
  have hs : q.samples.length = vals.length := by rw [← r.values, List.length_map]
  have hl := r.length
  induction xs generalizing m with
  | nil => exact ⟨[], rfl, rfl, by simp⟩
  | cons x xs ih =>
    obtain ⟨hx, hxl⟩ := hxs x (by simp)
    have hex : ∃ j, ∃ hj : m + j < q.cum.length, x ≤ q.cum[m + j] :=
      ⟨p.length - m, by omega, by
        have e : m + (p.length - m) = p.length := by omega
        have := hxl (by omega)
        simp only [e]
        exact this⟩
    classical
    obtain ⟨hj, hle⟩ := Nat.find_spec hex
    have hmin := fun i (hi : i < Nat.find hex) => Nat.find_min hex hi
    generalize Nat.find hex = j at hj hle hmin
    have hsw := sweep_ok (n := q.numSamples) (u := x) (k := m) (m := j) (rest := q.cum.drop m)
      (by rw [List.length_drop]; omega) (by rw [List.getElem_drop]; exact hle)
      (fun i hi => by
        rw [List.getElem_drop]
        by_contra hc
        exact hmin i hi ⟨by omega, not_lt.1 hc⟩)
      (by show m + j ≤ q.samples.length + 1; omega)
    rw [List.drop_drop] at hsw
    have hpos : m + j ≠ 0 := by
      intro h0
      have e : ∀ i, (hi : i < q.cum.length) → i = 0 → q.cum[i] = 0 := by
        rintro i hi rfl
        exact r.zero hi
      rw [e _ hj h0] at hle
      exact absurd hle (not_le.2 hx)
    obtain ⟨l, e1, e2, e3⟩ := ih (fun y hy => hxs y (by simp [hy])) (m + j) (by omega)
    obtain ⟨i, hi⟩ : ∃ i, m + j = i + 1 := ⟨m + j - 1, by omega⟩
    have hil : i < q.samples.length := by omega
    refine ⟨q.samples[i].value :: l, ?_, by simp [e2], ?_⟩
    · rw [MCPdf.ripleyLoop, hsw, Outcome.ok_bind]
      simp only [hi, MCPdf.previous, vget_of_lt hil, Outcome.ok_bind, Outcome.pure_eq]
      rw [hi] at e1
      rw [e1]
      rfl
    · intro v hv
      rcases List.mem_cons.1 hv with rfl | hv
      · rw [← r.values]
        exact List.mem_map_of_mem (List.getElem_mem hil)
      · exact e3 v hv

/-- The ordered draws stay below a bound that is not too close to one. -/
theorem ordered_range {u : K} {fl : K → K} (h : IsRounding u fl) (h1 : u < 1) {root : Nat → K → K} {B : K}
    (hB : B * (1 + u) ≤ 1) {us : List K} (i : Nat)
    (hroot : ∀ k x, x ∈ us → i < k → k ≤ i + us.length → 0 < root k x ∧ root k x ≤ B) :
    (Rounded.MC.orderedUniforms fl root i us).length = us.length ∧
      ∀ y ∈ Rounded.MC.orderedUniforms fl root i us, 0 < y ∧ y ≤ B := by
  induction us generalizing i with
  | nil => simp [Rounded.MC.orderedUniforms]
  | cons x us ih =>
    cases us with
    | nil =>
      simpa [Rounded.MC.orderedUniforms] using hroot (i + 1) x (by simp) (by omega) (by simp)
    | cons y us =>
      obtain ⟨i1, i2⟩ := ih (i + 1) fun k z hz hk hk' => hroot k z (by simp at hz ⊢; tauto) (by omega)
        (by simp at hk' ⊢; omega)
      rw [Rounded.MC.orderedUniforms]
      cases hw : Rounded.MC.orderedUniforms fl root (i + 1) (y :: us) with
      | nil => rw [hw] at i1; simp at i1
      | cons w ws =>
        rw [hw] at i1 i2
        obtain ⟨w0, wB⟩ := i2 w (by simp)
        obtain ⟨r0, rB⟩ := hroot (i + 1) x (by simp) (by omega) (by simp)
        refine ⟨by simpa using i1, fun z hz => ?_⟩
        rcases List.mem_cons.1 hz with rfl | hz
        · have hrw : 0 < root (i + 1) x * w := mul_pos r0 w0
          have a := abs_le.1 (h.2 (root (i + 1) x * w))
          rw [abs_of_pos hrw] at a
          have b : u * (root (i + 1) x * w) < root (i + 1) x * w := by
            have := mul_lt_mul_of_pos_right h1 hrw
            linarith
          refine ⟨by linarith, ?_⟩
          have c : fl (root (i + 1) x * w) ≤ (root (i + 1) x * (1 + u)) * w := by
            have : root (i + 1) x * (1 + u) * w = root (i + 1) x * w + u * (root (i + 1) x * w) := by ring
            linarith
          have d : root (i + 1) x * (1 + u) ≤ 1 :=
            (mul_le_mul_of_nonneg_right rB (by linarith [h.1])).trans hB
          have e : root (i + 1) x * (1 + u) * w ≤ w := mul_le_of_le_one_left w0.le d
          linarith
        · exact i2 z hz

/-- **C85.** Drawing a list with RIPLEY returns as many samples as asked for if the roots of the draws are at most
`1 - (2 n + 2) u`. -/
theorem C85_ripley {u : K} {fl : K → K} (h : IsRounding u fl) (h1 : u < 1) {n : Nat} {dflt : T}
    {ops : List (MCPdf.Op K T)} {q : MCPdf K T} (hq : Rounded.MC.run fl dflt (MCPdf.make n dflt) ops = .ok q)
    {o : MCPdf.Op K T} {vals : List T} {ws : List K} (ho : Sets q o vals ws) (hw : ∀ w ∈ ws, 0 ≤ w)
    (hpos : 0 < ws.sum) :
    ∃ p, Rounded.MC.step fl dflt q o = .ok (true, p) ∧
      ∀ (root : Nat → K → K) (us : List K), us ≠ [] →
        (∀ k x, x ∈ us → 0 < k → k ≤ us.length →
          0 < root k x ∧ root k x ≤ 1 - (2 * ws.length + 2 : Nat) * u) →
        ∃ l, Rounded.MC.sampleRipley fl root p us = .ok l ∧ l.length = us.length ∧ ∀ v ∈ l, v ∈ vals := by
  obtain ⟨p, e, r⟩ := sets_represents h h1 hq ho hw hpos
  refine ⟨p, e, fun root us hne hroot => ?_⟩
  have h0 := h.1
  have hB : (1 - ((2 * ws.length + 2 : Nat) : K) * u) * (1 + u) ≤ 1 := by
    push_cast
    have a : (0 : K) ≤ ws.length := Nat.cast_nonneg _
    have b : 0 ≤ (ws.length : K) * u := mul_nonneg a h0
    have c : 0 ≤ (ws.length : K) * u * u := mul_nonneg b h0
    have d : 0 ≤ u * u := mul_nonneg h0 h0
    nlinarith
  obtain ⟨l1, l2⟩ := ordered_range h h1 hB (us := us) 0 fun k x hx hk hk' => hroot k x hx hk (by omega)
  obtain ⟨l, a1, a2, a3⟩ := ripley_in_range r (Rounded.MC.orderedUniforms fl root 0 us)
    (fun y hy => ⟨(l2 y hy).1, table_end h1.le r (probabilities_sum hpos) (l2 y hy).2⟩) 0 (by omega)
  refine ⟨l, ?_, by rw [a2, l1], a3⟩
  rw [Rounded.MC.sampleRipley, if_neg hne]
  exact a1

/-! ## Doubles -/

theorem roundEven_error [FloorRing K] (x : K) : |x - (roundEven x : K)| ≤ 1 / 2 := by
  have h0 := Int.fract_nonneg x
  have h1 := Int.fract_lt_one x
  have e : x = (⌊x⌋ : K) + Int.fract x := (Int.floor_add_fract x).symm
  have lo : Int.fract x ≤ 1 / 2 → |x - (⌊x⌋ : K)| ≤ 1 / 2 := by
    intro h
    rw [abs_le]
    constructor <;> linarith
  have hi : 1 / 2 ≤ Int.fract x → |x - ((⌊x⌋ + 1 : Int) : K)| ≤ 1 / 2 := by
    intro h
    push_cast
    rw [abs_le]
    constructor <;> linarith
  unfold roundEven
  split
  · next h => exact lo h.le
  · next h =>
    split
    · next h' => exact hi h'.le
    · next h' =>
      split
      · exact lo (not_lt.1 h')
      · exact hi (not_lt.1 h)

/-- Rounding to double has the relative error `2⁻⁵³`. -/
theorem double_isRounding [FloorRing K] : IsRounding (1 / 2 ^ 53 : K) double := by
  refine ⟨by positivity, fun x => ?_⟩
  rcases eq_or_ne x 0 with rfl | hx
  · have h0 : roundEven (0 : K) = 0 := by simp [roundEven]
    simp [double, h0]
  have hx' : 0 < |x| := abs_pos.2 hx
  unfold double
  have hlog := Int.zpow_log_le_self (b := 2) (r := |x|) one_lt_two hx'
  set e := Int.log 2 |x| with he
  have hs : (0 : K) < 2 ^ (e - 52) := by positivity
  have h2 : (2 : K) ^ (e - 52) = 2 ^ e / 2 ^ 52 := by
    rw [zpow_sub₀ two_ne_zero]
    norm_cast
  have h3 := roundEven_error (x / (2 : K) ^ (e - 52))
  have e1 : (roundEven (x / (2 : K) ^ (e - 52)) : K) * 2 ^ (e - 52) - x =
      -((x / (2 : K) ^ (e - 52) - roundEven (x / (2 : K) ^ (e - 52))) * 2 ^ (e - 52)) := by
    rw [sub_mul, div_mul_cancel₀ _ hs.ne']
    ring
  rw [e1, abs_neg, abs_mul, abs_of_pos hs]
  have h4 := mul_le_mul_of_nonneg_right h3 hs.le
  refine h4.trans ?_
  rw [h2]
  have h5 : ((2 : Nat) : K) ^ e = (2 : K) ^ e := by norm_cast
  rw [h5] at hlog
  have e2 : (1 / 2 : K) * (2 ^ e / 2 ^ 52) = 1 / 2 ^ 53 * 2 ^ e := by
    field_simp
  rw [e2]
  exact mul_le_mul_of_nonneg_left hlog (by positivity)

/-- **C85.** With doubles and random numbers of 32 bits, single draws are defined for fewer than `2^20` samples. -/
theorem C85_32bit [FloorRing K] {n : Nat} {dflt : T} {ops : List (MCPdf.Op K T)} {q : MCPdf K T}
    (hq : Rounded.MC.run double dflt (MCPdf.make n dflt) ops = .ok q)
    {o : MCPdf.Op K T} {vals : List T} {ws : List K} (ho : Sets q o vals ws) (hw : ∀ w ∈ ws, 0 ≤ w)
    (hpos : 0 < ws.sum) (hn : ws.length < 2 ^ 20) :
    ∃ p, Rounded.MC.step double dflt q o = .ok (true, p) ∧
      ∀ j : Nat, 0 < j → j < 2 ^ 32 → ∃ v ∈ vals, p.sampleOne .default ((j : K) / 2 ^ 32) = .ok (some v) := by
  obtain ⟨p, e, hd⟩ := C85_defined double_isRounding (by norm_num) hq ho hw hpos
  refine ⟨p, e, fun j hj hj' => hd _ (by positivity) ?_⟩
  have h1 : ((2 * ws.length + 2 : Nat) : K) ≤ 2 ^ 21 := by
    have : 2 * ws.length + 2 ≤ 2 ^ 21 := by omega
    exact_mod_cast this
  have h2 : (j : K) ≤ 2 ^ 32 - 1 := by
    have : j + 1 ≤ 2 ^ 32 := hj'
    have : ((j + 1 : Nat) : K) ≤ ((2 ^ 32 : Nat) : K) := by exact_mod_cast this
    push_cast at this
    linarith
  have h3 : ((2 * ws.length + 2 : Nat) : K) * (1 / 2 ^ 53) ≤ 2 ^ 21 * (1 / 2 ^ 53) :=
    mul_le_mul_of_nonneg_right h1 (by positivity)
  have h4 : (j : K) / 2 ^ 32 ≤ (2 ^ 32 - 1) / 2 ^ 32 := div_le_div_of_nonneg_right h2 (by positivity)
  have h5 : (2 : K) ^ 21 * (1 / 2 ^ 53) = 1 / 2 ^ 32 := by norm_num
  have h6 : ((2 : K) ^ 32 - 1) / 2 ^ 32 = 1 - 1 / 2 ^ 32 := by norm_num
  linarith

/-- **C85.** The same for RIPLEY, up to 1023 samples and draws: the roots are closer to one than the draws. -/
theorem C85_ripley_32bit [FloorRing K] {n : Nat} {dflt : T} {ops : List (MCPdf.Op K T)} {q : MCPdf K T}
    (hq : Rounded.MC.run double dflt (MCPdf.make n dflt) ops = .ok q)
    {o : MCPdf.Op K T} {vals : List T} {ws : List K} (ho : Sets q o vals ws) (hw : ∀ w ∈ ws, 0 ≤ w)
    (hpos : 0 < ws.sum) (hn : ws.length < 1024) :
    ∃ p, Rounded.MC.step double dflt q o = .ok (true, p) ∧
      ∀ (pow root : Nat → K → K), (∀ k x, 0 ≤ x → 0 ≤ pow k x ∧ (0 < k → pow k x ^ k = x)) →
        (∀ k x, root k x = double (pow k x)) → ∀ us : List K, us ≠ [] → us.length < 1024 →
        (∀ x ∈ us, ∃ j : Nat, 0 < j ∧ j < 2 ^ 32 ∧ x = (j : K) / 2 ^ 32) →
        ∃ l, Rounded.MC.sampleRipley double root p us = .ok l ∧ l.length = us.length ∧ ∀ v ∈ l, v ∈ vals := by
  obtain ⟨p, e, hd⟩ := C85_ripley double_isRounding (by norm_num) hq ho hw hpos
  refine ⟨p, e, fun pow root hpow hroot us hne hl hus => hd root us hne fun k x hx hk hk' => ?_⟩
  obtain ⟨j, hj, hj', rfl⟩ := hus x hx
  have hx0 : (0 : K) < (j : K) / 2 ^ 32 := by positivity
  obtain ⟨p0, pk⟩ := hpow k ((j : K) / 2 ^ 32) hx0.le
  have pk := pk hk
  rw [hroot]
  generalize pow k ((j : K) / 2 ^ 32) = r at p0 pk ⊢
  have rpos : 0 < r := by
    rcases p0.lt_or_eq with h | h
    · exact h
    · rw [← h, zero_pow (by omega)] at pk
      exact absurd pk hx0.ne
  have h2 : (j : K) ≤ 2 ^ 32 - 1 := by
    have : j + 1 ≤ 2 ^ 32 := hj'
    have : ((j + 1 : Nat) : K) ≤ ((2 ^ 32 : Nat) : K) := by exact_mod_cast this
    push_cast at this
    linarith
  have h4 : (j : K) / 2 ^ 32 ≤ 1 - 1 / 2 ^ 32 := by
    have := div_le_div_of_nonneg_right h2 (show (0 : K) ≤ 2 ^ 32 by positivity)
    have h6 : ((2 : K) ^ 32 - 1) / 2 ^ 32 = 1 - 1 / 2 ^ 32 := by norm_num
    linarith
  -- the root is at most 1 - 2⁻³² / k
  have hkK : (0 : K) < k := by exact_mod_cast hk
  obtain ⟨a, ha⟩ : ∃ a : K, a = 1 / 2 ^ 32 / 1023 := ⟨_, rfl⟩
  have ha0 : 0 < a := by rw [ha]; positivity
  have hra : r ≤ 1 - a := by
    by_contra hc
    have hlt := not_le.1 hc
    have hb := one_add_mul_le_pow (a := -a) (by rw [ha]; norm_num) k
    have e1 : (1 : K) + -a = 1 - a := by ring
    rw [e1] at hb
    have hle : (1 - a) ^ k < r ^ k := pow_lt_pow_left₀ hlt (by rw [ha]; norm_num) (by omega)
    rw [pk] at hle
    have hkb : (k : K) * a ≤ 1 / 2 ^ 32 := by
      have : (k : K) ≤ 1023 := by
        have : k ≤ 1023 := by omega
        exact_mod_cast this
      have := mul_le_mul_of_nonneg_right this ha0.le
      have e3 : (1023 : K) * a = 1 / 2 ^ 32 := by rw [ha]; norm_num
      linarith
    linarith
  have hd2 := abs_le.1 ((double_isRounding (K := K)).2 r)
  rw [abs_of_pos rpos] at hd2
  have h7 : (1 / 2 ^ 53 : K) * r < r := by
    have : (1 / 2 ^ 53 : K) < 1 := by norm_num
    have := mul_lt_mul_of_pos_right this rpos
    linarith
  refine ⟨by linarith, ?_⟩
  have h8 : ((2 * ws.length + 2 : Nat) : K) ≤ 2048 := by
    have : 2 * ws.length + 2 ≤ 2048 := by omega
    exact_mod_cast this
  have h9 := mul_le_mul_of_nonneg_right h8 (show (0 : K) ≤ 1 / 2 ^ 53 by positivity)
  have h10 : double r ≤ (1 - a) * (1 + 1 / 2 ^ 53) := by
    have := mul_le_mul_of_nonneg_right hra (show (0 : K) ≤ 1 + 1 / 2 ^ 53 by positivity)
    linarith
  have h11 : (1 - a) * (1 + 1 / 2 ^ 53) ≤ 1 - 2048 * (1 / 2 ^ 53) := by rw [ha]; norm_num
  linarith

/-- **C85.** In general draws below one are not safe: seven samples with equal weights, set with doubles, have a
table that ends at `1 - 2⁻⁵²`, and the draw `1 - 2⁻⁵³` reads behind the table. -/
theorem C85_overrun : ∃ p : MCPdf ℚ Nat,
    Rounded.MC.step double 0 (MCPdf.make 7 0) (.setU [1, 2, 3, 4, 5, 6, 7]) = .ok (true, p) ∧
      p.sampleOne .default (1 - 1 / 2 ^ 53) = .ub := by
  have h : (Rounded.MC.step double 0 (MCPdf.make 7 0) (.setU [1, 2, 3, 4, 5, 6, 7]) >>= fun r =>
      if r.1 then r.2.sampleOne .default (1 - 1 / 2 ^ 53 : ℚ) else .abort) = .ub := by decide +kernel
  obtain ⟨p, hp, -⟩ := C85_defined (K := ℚ) (T := Nat) double_isRounding (by norm_num) (n := 7) (dflt := 0) (ops := [])
    (q := MCPdf.make 7 0) rfl (o := .setU [1, 2, 3, 4, 5, 6, 7]) (vals := [1, 2, 3, 4, 5, 6, 7])
    (ws := List.replicate 7 1) ⟨rfl, rfl⟩ (by simp) (by decide +kernel)
  refine ⟨p, hp, ?_⟩
  rw [hp] at h
  exact h

/-- **C85.** The discrete density stores a one at the end of its table: no draw from 0 to 1 can leave it, whatever
the rounding is. -/
theorem C85_discrete {fl : K → K} {d d' : DiscretePdf K} {b : Bool} (hn : 0 < d.numStates)
    (h : Rounded.cumUpdate fl d = .ok (b, d')) {x : K} (hx : 0 < x) (hx1 : x ≤ 1) :
    ∃ i : Nat, i < d'.numStates ∧ d'.sampleOne .default x = .ok (some (i : Int)) := by
  obtain ⟨t, h2, h3⟩ := Outcome.bind_eq_ok.1 h
  obtain ⟨_, h4, h5⟩ := Outcome.bind_eq_ok.1 h3
  cases h5
  have hr : ∃ r, Rounded.runningSums fl 0 d.values = 0 :: r := Rounded.MC.runningSums_cons fl 0 d.values
  have hlen := Rounded.runningSums_length fl 0 d.values
  set tab := Rounded.runningSums fl 0 d.values with htab
  have hpos : 0 < d.values.length := hn
  have hsl : (setLast tab (1 : K)).length = d.values.length + 1 := by
    rw [setLast_length _ _ (by rw [← List.length_pos_iff]; omega), hlen]
  have hlast : ∀ hl : d.values.length < (setLast tab (1 : K)).length, (setLast tab (1 : K))[d.values.length] = 1 := by
    intro hl
    simp only [setLast]
    rw [List.getElem_append_right (by simp; omega)]
    simp
  have hex : ∃ m, ∃ hm : m < (setLast tab (1 : K)).length, x ≤ (setLast tab (1 : K))[m] :=
    ⟨d.values.length, by omega, by rw [hlast]; exact hx1⟩
  classical
  obtain ⟨hm, hle⟩ := Nat.find_spec hex
  have hmin := fun j (hj : j < Nat.find hex) => Nat.find_min hex hj
  generalize Nat.find hex = m at hm hle hmin
  have hsw := sweep_ok (n := d.values.length) (u := x) (k := 0) hm hle
    (fun j hj => by
      by_contra hc
      exact hmin j hj ⟨by omega, not_lt.1 hc⟩) (by omega)
  cases m with
  | zero =>
    exfalso
    obtain ⟨r, hr⟩ := hr
    cases r with
    | nil =>
      have h1 : tab.length = 1 := by rw [hr]; rfl
      omega
    | cons y r =>
      simp [setLast, hr] at hle
      exact absurd hle (not_le.2 hx)
  | succ i =>
    refine ⟨i, by show i < d.values.length; omega, ?_⟩
    show (sweep d.values.length x 0 (setLast tab 1) >>= fun r => Outcome.ok (some ((r.1 : Int) - 1))) = _
    rw [hsw]
    simp

/-! ## Concrete cases -/

/-- Three samples with weights 1, 2 and 3 and the draw 1/2 - 1/10: the second sample is drawn. -/
example : ∃ p, Rounded.MC.step double 0 (MCPdf.make 3 0) (.setW [⟨10, some (1 : ℚ)⟩, ⟨20, some 2⟩, ⟨30, some 3⟩]) =
    .ok (true, p) ∧ p.sampleOne .default (2 / 5) = .ok (some 20) := by
  obtain ⟨p, hp, hd⟩ := C85_exact (K := ℚ) (T := Nat) double_isRounding (n := 3) (dflt := 0) (ops := [])
    (q := MCPdf.make 3 0) rfl (o := .setW [⟨10, some 1⟩, ⟨20, some 2⟩, ⟨30, some 3⟩]) (vals := [10, 20, 30])
    (ws := [1, 2, 3]) ⟨rfl, rfl⟩ (by decide +kernel) (by decide +kernel) (by norm_num)
  obtain ⟨hi, h⟩ := hd (2 / 5) 1 (by
    intro i hi hi'
    have : i = 1 ∨ i = 2 ∨ i = 3 := by simp [probabilities] at hi'; omega
    rcases this with rfl | rfl | rfl <;> decide +kernel) (by norm_num) ⟨by decide +kernel, by decide +kernel, by decide +kernel⟩
  exact ⟨p, hp, h⟩

/-- A thousand equal samples and random numbers of 32 bits. -/
example (q : MCPdf ℚ Nat) (ops : List (MCPdf.Op ℚ Nat))
    (hq : Rounded.MC.run double 0 (MCPdf.make 5 0) ops = .ok q) :
    ∃ p, Rounded.MC.step double 0 q (.setU (List.range 1000)) = .ok (true, p) ∧
      ∀ j : Nat, 0 < j → j < 2 ^ 32 → ∃ v ∈ List.range 1000, p.sampleOne .default ((j : ℚ) / 2 ^ 32) = .ok (some v) :=
  C85_32bit hq (o := .setU (List.range 1000)) (vals := List.range 1000)
    (ws := List.replicate (List.range 1000).length 1) ⟨rfl, rfl⟩
    (fun w hw => by rw [List.eq_of_mem_replicate hw]; exact zero_le_one)
    (by rw [List.sum_replicate, List.length_range]; norm_num)
    (by rw [List.length_replicate, List.length_range]; norm_num)

end BFL.Props
