import Verif.Model.RoundedMCPdf
import Verif.Spec.RoundedSampling
import Verif.Lemmas.Rounded
import Verif.Lemmas.MCPdf

/-!
# Lemmas about `MCPdf` with rounded arithmetic
-/

set_option linter.unusedSectionVars false

namespace BFL

open Spec

variable {K T : Type} [Field K] [LinearOrder K] [IsStrictOrderedRing K]

section lists

variable {u : K} {fl : K → K}

theorem near_list_sum {k : Nat} {l l' : List K} (h : List.Forall₂ (Near u k) l l') :
    Near u k l.sum l'.sum := by
  induction h with
  | nil => simp [Near]
  | cons a _ ih =>
    rw [List.sum_cons, List.sum_cons]
    exact a.add ih

/-- A loop that adds up a list. -/
theorem foldl_near (h : IsRounding u fl) (h1 : u ≤ 1) (l : List K) (hl : ∀ x ∈ l, 0 ≤ x) (k : Nat) (s s' : K)
    (hs : 0 ≤ s) (hs' : 0 ≤ s') (hn : Near u k s' s) :
    0 ≤ l.foldl (fun s x => fl (s + x)) s ∧
      Near u (k + l.length) (s' + l.sum) (l.foldl (fun s x => fl (s + x)) s) := by
  induction l generalizing k s s' with
  | nil => simpa using ⟨hs, hn⟩
  | cons x l ih =>
    have hx := hl x (by simp)
    obtain ⟨i1, i2⟩ := ih (fun y hy => hl y (by simp [hy])) (k + 1) (fl (s + x)) (s' + x)
      (h.nonneg h1 (add_nonneg hs hx)) (add_nonneg hs' hx)
      ((hn.add (near_refl h.1 h1 k hx)).trans h1 (h.near h1 (add_nonneg hs hx)))
    refine ⟨i1, ?_⟩
    rw [List.sum_cons, ← add_assoc, List.length_cons, show k + (l.length + 1) = k + 1 + l.length by omega]
    exact i2

theorem sum_near (h : IsRounding u fl) (h1 : u ≤ 1) (l : List K) (hl : ∀ x ∈ l, 0 ≤ x) :
    0 ≤ Rounded.sum fl l ∧ Near u l.length l.sum (Rounded.sum fl l) := by
  have := foldl_near h h1 l hl 0 0 0 le_rfl le_rfl (near_refl h.1 h1 0 le_rfl)
  simpa [Rounded.sum] using this

theorem Rounded.runningSums_length (fl : K → K) (s : K) (l : List K) :
    (Rounded.runningSums fl s l).length = l.length + 1 := by
  induction l generalizing s with
  | nil => rfl
  | cons x l ih => simp [Rounded.runningSums, ih]

theorem Rounded.runningSums_getElem (fl : K → K) (s : K) (l : List K) (i : Nat)
    (hi : i < (Rounded.runningSums fl s l).length) :
    (Rounded.runningSums fl s l)[i] = (l.take i).foldl (fun s x => fl (s + x)) s := by
  induction l generalizing s i with
  | nil =>
    have : i = 0 := by simp [Rounded.runningSums] at hi; omega
    subst this
    rfl
  | cons x l ih =>
    cases i with
    | zero => rfl
    | succ i =>
      simp only [Rounded.runningSums, List.getElem_cons_succ, List.take_succ_cons, List.foldl_cons]
      exact ih _ _ _

/-- The table of running sums of terms that are up to `k` roundings those of `p`. -/
theorem table_near (h : IsRounding u fl) (h1 : u ≤ 1) {k : Nat} {p t : List K} (ht : ∀ x ∈ t, 0 ≤ x)
    (hp : ∀ x ∈ p, 0 ≤ x) (hn : List.Forall₂ (Near u k) p t) (i : Nat) (hi : i ≤ t.length)
    (hi' : i < (Rounded.runningSums fl 0 t).length) :
    Near u (k + t.length) (massBelow p i) (Rounded.runningSums fl 0 t)[i] := by
  rw [Rounded.runningSums_getElem]
  have ht' : ∀ x ∈ t.take i, 0 ≤ x := fun x hx => ht x (List.mem_of_mem_take hx)
  have hp' : ∀ x ∈ p.take i, 0 ≤ x := fun x hx => hp x (List.mem_of_mem_take hx)
  obtain ⟨a0, a⟩ := sum_near h h1 (t.take i) ht'
  have b := near_list_sum (List.forall₂_take i hn)
  have c := b.trans h1 a
  refine c.mono h.1 h1 (List.sum_nonneg hp') a0 ?_
  rw [List.length_take]
  omega

end lists

/-- What the sampling functions need to know of an object whose probabilities should be `p`. -/
structure Represents (u : K) (k : Nat) (q : MCPdf K T) (vals : List T) (p : List K) : Prop where
  values : q.samples.map (·.value) = vals
  length : vals.length = p.length
  table : q.cum.length = p.length + 1
  zero : ∀ h : 0 < q.cum.length, q.cum[0] = 0
  near : ∀ i, (h : i < q.cum.length) → Near u k (massBelow p i) q.cum[i]

namespace Rounded.MC

variable {u : K} {fl : K → K}

theorem weights_eq {l : List (WSample K T)} {ws : List K} (h : l.map (·.weight) = ws.map some) :
    mapOutcome WSample.weightGet l = .ok ws := by
  induction l generalizing ws with
  | nil =>
    cases ws with
    | nil => rfl
    | cons => simp at h
  | cons s l ih =>
    cases ws with
    | nil => simp at h
    | cons w ws =>
      simp only [List.map_cons, List.cons.injEq] at h
      rw [mapOutcome, ih h.2]
      simp [WSample.weightGet, h.1]

theorem runningSums_cons (fl : K → K) (s : K) (l : List K) : ∃ r, Rounded.runningSums fl s l = s :: r := by
  cases l <;> exact ⟨_, rfl⟩

/-- Common end of all assignments: the table of an object with weights `v`. -/
theorem cumUpdate_represents (h : IsRounding u fl) (h1 : u ≤ 1) {k : Nat} {q : MCPdf K T} {v p : List K}
    (hv : q.samples.map (·.weight) = v.map some) (hv0 : ∀ x ∈ v, 0 ≤ x) (hp0 : ∀ x ∈ p, 0 ≤ x)
    (hs : q.sumWeights = 1) (hc : q.cum.length = q.samples.length + 1)
    (hn : List.Forall₂ (Near u k) p v) :
    ∃ q', cumUpdate fl q = .ok q' ∧ q'.samples = q.samples ∧
      Represents u (k + 1 + v.length) q' (q.samples.map (·.value)) p := by
  have hl : q.samples.length = v.length := by simpa using congrArg List.length hv
  have hpl : p.length = v.length := hn.length_eq
  refine ⟨{ q with
    cum := Rounded.runningSums fl 0 (v.map fun w => fl (w / q.sumWeights)) ++ q.cum.drop (q.samples.length + 1) },
    ?_, rfl, ?_⟩
  · rw [cumUpdate, weights_eq hv, Outcome.ok_bind, if_neg (by omega)]
    rfl
  · have hd : q.cum.drop (q.samples.length + 1) = [] := List.drop_eq_nil_of_le (by omega)
    have ht0 : ∀ x ∈ v.map fun w => fl (w / q.sumWeights), 0 ≤ x := by
      intro x hx
      obtain ⟨w, hw, rfl⟩ := List.mem_map.1 hx
      rw [hs, div_one]
      exact h.nonneg h1 (hv0 w hw)
    have htn : List.Forall₂ (Near u (k + 1)) p (v.map fun w => fl (w / q.sumWeights)) := by
      rw [hs]
      clear hv hl hpl hd ht0
      induction hn with
      | nil => exact .nil
      | @cons a b l1 l2 hab _ ih =>
        rw [List.map_cons]
        refine .cons ?_ (ih (fun x hx => hv0 x (by simp [hx])) fun x hx => hp0 x (by simp [hx]))
        rw [div_one]
        exact hab.trans h1 (h.near h1 (hv0 b (by simp)))
    refine ⟨rfl, by simp [hl, hpl], ?_, ?_, ?_⟩
    · simp [hd, Rounded.runningSums_length, hpl]
    · intro _
      obtain ⟨r, hr⟩ := runningSums_cons fl 0 (v.map fun w => fl (w / q.sumWeights))
      simp [hr]
    · intro i hi
      have hi2 : i < (Rounded.runningSums fl 0 (v.map fun w => fl (w / q.sumWeights))).length := by
        simpa [hd] using hi
      have := table_near h h1 ht0 hp0 htn i (by rw [Rounded.runningSums_length] at hi2; omega) hi2
      simp only [hd, List.append_nil, List.length_map] at this ⊢
      exact this

/-- Weighted samples. -/
theorem normalizeWeights_represents (h : IsRounding u fl) (h1 : u < 1) {q : MCPdf K T} {ws : List K}
    (hw : q.samples.map (·.weight) = ws.map some) (hw0 : ∀ x ∈ ws, 0 ≤ x) (hpos : 0 < ws.sum)
    (hc : q.cum.length = q.samples.length + 1) :
    ∃ q', normalizeWeights fl q = .ok (true, q') ∧
      Represents u (2 * ws.length + 2) q' (q.samples.map (·.value)) (probabilities ws) := by
  obtain ⟨hS0, hS⟩ := sum_near h h1.le ws hw0
  have hSpos := hS.pos h1 hpos
  have hl : q.samples.length = ws.length := by simpa using congrArg List.length hw
  set S := Rounded.sum fl ws with hSdef
  have hv0 : ∀ x ∈ ws.map fun w => fl (w / S), 0 ≤ x := by
    intro x hx
    obtain ⟨w, hwm, rfl⟩ := List.mem_map.1 hx
    exact h.nonneg h1.le (div_nonneg (hw0 w hwm) hS0)
  have hp0 : ∀ x ∈ probabilities ws, 0 ≤ x := by
    intro x hx
    obtain ⟨w, hwm, rfl⟩ := List.mem_map.1 hx
    exact div_nonneg (hw0 w hwm) hpos.le
  have hn : ∀ l : List K, (∀ x ∈ l, 0 ≤ x) →
      List.Forall₂ (Near u (ws.length + 1)) (l.map (· / ws.sum)) (l.map fun w => fl (w / S)) := by
    intro l hl0
    induction l with
    | nil => exact .nil
    | cons w l ih =>
      refine .cons ?_ (ih fun x hx => hl0 x (by simp [hx]))
      have hw := hl0 w (by simp)
      have a := (hS.inv h1 hpos).const_mul hw
      rw [← div_eq_mul_inv, ← div_eq_mul_inv] at a
      exact a.trans h1.le (h.near h1.le (div_nonneg hw hS0))
  have hset : ∀ (l : List (WSample K T)) (v : List K), l.map (·.weight) = v.map some → (∀ x ∈ v, 0 ≤ x) →
      mapOutcome (fun (s : WSample K T) => do
        let w ← s.weightGet
        s.weightSet (fl (w / S))) l =
        .ok (List.zipWith (fun (s : WSample K T) w => { s with weight := some (fl (w / S)) }) l v) := by
    intro l v hlv hv0
    induction l generalizing v with
    | nil => rfl
    | cons s l ih =>
      cases v with
      | nil => simp at hlv
      | cons w v =>
        simp only [List.map_cons, List.cons.injEq] at hlv
        have h3 : 0 ≤ fl (w / S) := h.nonneg h1.le (div_nonneg (hv0 w (by simp)) hS0)
        rw [mapOutcome, ih v hlv.2 fun x hx => hv0 x (by simp [hx])]
        simp [WSample.weightGet, WSample.weightSet, hlv.1, cassert, h3]
  set ss := List.zipWith (fun (s : WSample K T) w => { s with weight := some (fl (w / S)) }) q.samples ws with hss
  have hssl : ss.length = ws.length := by simp [hss, hl]
  have hssw : ss.map (·.weight) = (ws.map fun w => fl (w / S)).map some := by
    refine List.ext_getElem (by simp [hssl]) fun i _ _ => ?_
    simp [hss]
  have hssv : ss.map (·.value) = q.samples.map (·.value) := by
    refine List.ext_getElem (by simp [hssl, hl]) fun i _ _ => ?_
    simp [hss]
  obtain ⟨q', e1, -, r⟩ := cumUpdate_represents h h1.le (q := { q with samples := ss, sumWeights := 1 }) hssw hv0
    hp0 rfl (by show q.cum.length = ss.length + 1; omega) (hn ws hw0)
  refine ⟨q', ?_, ?_⟩
  · rw [normalizeWeights, sumWeightsUpdate, weights_eq hw, Outcome.ok_bind, if_pos hSpos]
    simp only [Outcome.pure_eq, Outcome.ok_bind, if_true]
    rw [hset q.samples ws hw hw0, Outcome.ok_bind, e1]
    rfl
  · have e : ws.length + 1 + 1 + (ws.map fun w => fl (w / S)).length = 2 * ws.length + 2 := by
      rw [List.length_map]; omega
    rw [e] at r
    rw [← hssv]
    exact r

/-- Samples without weights. -/
theorem uniform_represents (h : IsRounding u fl) (h1 : u < 1) {q : MCPdf K T} {los : List T} (hne : los ≠ [])
    (hc : q.cum.length = los.length + 1) :
    ∃ ss q', uniformWeights fl los = .ok ss ∧ cumUpdate fl { q with samples := ss, sumWeights := 1 } = .ok q' ∧
      Represents u (2 * los.length + 2) q' los (probabilities (List.replicate los.length 1)) := by
  have hn0 : (0 : K) < los.length := by
    have : 0 < los.length := List.length_pos_iff.2 hne
    exact_mod_cast this
  have hq0 : (0 : K) ≤ 1 / los.length := by positivity
  have hf0 := h.nonneg h1.le hq0
  have hss : ∀ l : List T, mapOutcome (fun t => (WSample.ofSample (K := K) t).weightSet (fl (1 / (los.length : K)))) l =
      .ok (l.map fun t => ⟨t, some (fl (1 / (los.length : K)))⟩) := by
    intro l
    refine mapOutcome_eq_ok fun t _ => ?_
    rw [WSample.weightSet, cassert_true hf0]
    rfl
  have hp : probabilities (List.replicate los.length (1 : K)) = List.replicate los.length (1 / (los.length : K)) := by
    simp [probabilities]
  obtain ⟨q', e, -, r⟩ := cumUpdate_represents h h1.le (k := 1)
    (q := { q with samples := los.map fun t => ⟨t, some (fl (1 / (los.length : K)))⟩, sumWeights := 1 })
    (v := List.replicate los.length (fl (1 / (los.length : K)))) (p := List.replicate los.length (1 / (los.length : K)))
    (by
      simp only [List.map_map, List.map_replicate]
      exact List.map_const')
    (by intro x hx; rw [List.eq_of_mem_replicate hx]; exact hf0)
    (by intro x hx; rw [List.eq_of_mem_replicate hx]; exact hq0) rfl (by simpa using hc)
    (by
      have : ∀ m : Nat, List.Forall₂ (Near u 1) (List.replicate m (1 / (los.length : K)))
          (List.replicate m (fl (1 / (los.length : K)))) := by
        intro m
        induction m with
        | zero => exact .nil
        | succ m ih => exact .cons (h.near h1.le hq0) ih
      exact this _)
  refine ⟨_, q', hss los, e, ?_⟩
  rw [hp]
  have hv : (los.map fun t => (⟨t, some (fl (1 / (los.length : K)))⟩ : WSample K T)).map (·.value) = los := by
    simp [Function.comp_def]
  rw [hv] at r
  refine ⟨r.values, r.length, r.table, r.zero, fun i hi => ?_⟩
  have hnn : 0 ≤ massBelow (List.replicate los.length (1 / (los.length : K))) i :=
    List.sum_nonneg fun x hx => by rw [List.eq_of_mem_replicate (List.mem_of_mem_take hx)]; exact hq0
  have a := r.near i hi
  refine a.mono h.1 h1.le hnn ?_ (by rw [List.length_replicate]; omega)
  exact (mul_nonneg hnn (pow_nonneg (by linarith [h1]) _)).trans a.1

/-- The table has one entry more than there are samples, after every history. -/
theorem step_sized {dflt : T} {p p' : MCPdf K T} {o : MCPdf.Op K T} {b : Bool}
    (hp : p.cum.length = p.samples.length + 1) (h : step fl dflt p o = .ok (b, p')) :
    p'.cum.length = p'.samples.length + 1 := by
  have hcum : ∀ {q q' : MCPdf K T}, q.cum.length = q.samples.length + 1 → cumUpdate fl q = .ok q' →
      q'.cum.length = q'.samples.length + 1 := by
    intro q q' hq hqq
    rw [cumUpdate, Outcome.bind_eq_ok] at hqq
    obtain ⟨ws, hws, hqq⟩ := hqq
    rw [if_neg (by omega)] at hqq
    cases hqq
    have := mapOutcome_ok_length hws
    simp [Rounded.runningSums_length]
    omega
  have hset : ∀ k, (p.numSamplesSet dflt k).cum.length = k + 1 := by
    intro k
    unfold MCPdf.numSamplesSet
    simp only
    split
    · simp; omega
    · split
      · simp; omega
      · omega
  have hnorm : ∀ {q q' : MCPdf K T} {b : Bool}, q.cum.length = q.samples.length + 1 →
      normalizeWeights fl q = .ok (b, q') → q'.cum.length = q'.samples.length + 1 := by
    intro q q' b hq hqq
    rw [normalizeWeights, sumWeightsUpdate] at hqq
    simp only [Outcome.bind_eq_ok] at hqq
    obtain ⟨⟨b1, q1⟩, ⟨ws, hws, h1⟩, h2⟩ := hqq
    have hq1 : q1.cum.length = q.cum.length ∧ q1.samples = q.samples := by
      split at h1 <;> (cases h1; exact ⟨rfl, rfl⟩)
    simp only at h2
    split at h2
    · obtain ⟨ss, hss, h2⟩ := Outcome.bind_eq_ok.1 h2
      obtain ⟨q2, h3, h2⟩ := Outcome.bind_eq_ok.1 h2
      cases h2
      refine hcum ?_ h3
      have := mapOutcome_ok_length hss
      simp only
      rw [this, hq1.1, hq1.2, hq]
    · cases h2
      rw [hq1.1, hq1.2, hq]
  cases o with
  | setW los =>
    refine hnorm ?_ h
    exact hset _
  | setU los =>
    obtain ⟨ss, h1, h2⟩ := Outcome.bind_eq_ok.1 h
    obtain ⟨q, h2, h3⟩ := Outcome.bind_eq_ok.1 h2
    cases h3
    refine hcum ?_ h2
    have := mapOutcome_ok_length h1
    simp only
    rw [hset, this]
  | updateW los =>
    obtain ⟨_, h1, h2⟩ := Outcome.bind_eq_ok.1 h
    have hl : los.length = p.samples.length := by
      by_contra hc
      rw [cassert_false hc] at h1
      cases h1
    split at h2
    · refine hnorm ?_ h2
      simp only
      omega
    · cases h2
      exact hp
  | updateU los =>
    rw [step, listUpdateU] at h
    split at h
    · obtain ⟨_, h1, h⟩ := Outcome.bind_eq_ok.1 h
      obtain ⟨ss, h1, h2⟩ := Outcome.bind_eq_ok.1 h
      obtain ⟨q, h2, h3⟩ := Outcome.bind_eq_ok.1 h2
      cases h3
      refine hcum ?_ h2
      have := mapOutcome_ok_length h1
      simp only
      rw [hset, this]
    · cases h
      exact hp
  | numSamplesSet k =>
    cases h
    rw [hset]
    unfold MCPdf.numSamplesSet
    simp only
    split
    · simp; omega
    · split
      · simp; omega
      · omega
  | copy =>
    cases h
    exact hp

theorem run_sized {dflt : T} {ops : List (MCPdf.Op K T)} {p p' : MCPdf K T}
    (hp : p.cum.length = p.samples.length + 1) (h : run fl dflt p ops = .ok p') :
    p'.cum.length = p'.samples.length + 1 := by
  induction ops generalizing p with
  | nil => cases h; exact hp
  | cons o ops ih =>
    obtain ⟨⟨b, q⟩, h1, h2⟩ := Outcome.bind_eq_ok.1 h
    exact ih (step_sized hp h1) h2

end Rounded.MC

end BFL
