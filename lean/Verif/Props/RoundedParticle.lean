import Verif.Lemmas.RoundedResample
import Verif.Props.Rounding
import Verif.Props.RoundedSampling
import Verif.Props.ParticleFilterFixture

/-!
# C93: the particle filters with rounded arithmetic
-/

set_option linter.unusedSectionVars false

namespace BFL.Props

open Spec

variable {R SV MV K : Type} [Field K] [LinearOrder K] [IsStrictOrderedRing K] {u : K} {fl : K → K}

theorem follows_closeTo (h : IsRounding u fl) (h1 : u < 1) {k N M : Nat} {f g : ParticleFilter R SV K}
    {ts : List (Twin K SV)} (hs : Follows fl u N k f g ts) (hM : 2 * k + N + 1 ≤ M)
    (hMu : (M : K) * u ≤ 1 / 2) :
    Holds f.postGet (ts.map fun t => (t.1, t.2.1)) ∧ Holds g.postGet (ts.map fun t => (t.1, t.2.2)) ∧
      CloseTo (2 * (M * u)) (ts.map fun t => (t.1, t.2.1)) (ts.map fun t => (t.1, t.2.2)) := by
  refine ⟨?_, ?_, ?_⟩
  · show f.cloud.post.samples = _
    rw [hs.left, List.map_map]; rfl
  · show g.cloud.post.samples = _
    rw [hs.right, List.map_map]; rfl
  · unfold CloseTo
    rw [List.forall₂_map_left_iff, List.forall₂_map_right_iff, List.forall₂_same]
    intro t ht
    obtain ⟨a1, a2, a3⟩ := hs.weight h1 ht
    exact ⟨rfl, near_close h.1 hMu h1.le a1 (a3.mono h.1 h1.le a1 a2 hM)⟩

theorem lt_one_of_roundings {M : Nat} (hM : 2 ≤ M) (h0 : 0 ≤ u) (hMu : (M : K) * u ≤ 1 / 2) : u < 1 := by
  have h2 : ((2 : Nat) : K) ≤ M := by exact_mod_cast hM
  push_cast at h2
  nlinarith [mul_le_mul_of_nonneg_right h2 h0]

theorem uniforms_closed {us : Nat → K} (h : Uniforms us) : ∀ i, 0 ≤ us i ∧ us i ≤ 1 :=
  fun i => ⟨(h i).1.le, (h i).2⟩

section history

variable {dflt : SV} {root : Nat → K → K} {prior : MCPdf K SV} {q : Option (Proposal R SV K)}
  {period : Nat} {threshold : K} {scheme : Scheme} {f f' : ParticleFilter R SV K}
  {calls : List (Noise R K × UpdateCall R SV MV K)} {M : Nat}

theorem update_history (h : IsRounding u fl) (hroot : IsRoot root)
    (hf : ParticleFilter.make dflt prior q period threshold scheme = .ok f)
    (hn : ∀ nc ∈ calls, Uniforms nc.1.static ∧ Uniforms nc.1.dynamic)
    (e : ParticleFilter.run (ParticleFilter.update dflt root) calls f = .ok (true, f'))
    (hM : M = historyRoundings prior.numSamples calls) (hMu : (M : K) * u ≤ 1 / 2)
    (hc : ClearRun (ParticleFilter.update dflt root) (ClearUpdate dflt root (2 * (M * u))) calls f) :
    ∃ g g' ts, Rounded.PF.make fl dflt prior q period threshold scheme = .ok g ∧
      ParticleFilter.run (Rounded.PF.update fl dflt root) calls g = .ok (true, g') ∧
      Follows fl u prior.numSamples (1 + (calls.map (·.2.cost)).sum) f' g' ts := by
  unfold historyRoundings at hM
  have h1 := lt_one_of_roundings (by omega) h.1 hMu
  obtain ⟨g, ts, m1, m2, -⟩ := make_follows h h1 hf
  obtain ⟨g', ts', r1, r2⟩ := run_follows (step' := Rounded.PF.update fl dflt root) (M := M)
    (ok := fun nz => Uniforms nz.static ∧ Uniforms nz.dynamic)
    (fun noise c hok hs hk hM hq e => update_follows h h1 hroot.1 (uniforms_closed hok.1)
      (uniforms_closed hok.2) hs hk hM hMu hq e) m2 le_rfl hn hM.ge hc e
  exact ⟨g, g', ts', m1, r1, r2⟩

theorem boot_history (h : IsRounding u fl) (hroot : IsRoot root)
    (hf : ParticleFilter.make dflt prior q period threshold scheme = .ok f)
    (hn : ∀ nc ∈ calls, Uniforms nc.1.static ∧ Uniforms nc.1.dynamic)
    (e : ParticleFilter.run (ParticleFilter.bootUpdate dflt root) calls f = .ok (true, f'))
    (hM : M = historyRoundings prior.numSamples calls) (hMu : (M : K) * u ≤ 1 / 2)
    (hc : ClearRun (ParticleFilter.bootUpdate dflt root) (ClearBoot dflt root (2 * (M * u))) calls f) :
    ∃ g g' ts, Rounded.PF.make fl dflt prior q period threshold scheme = .ok g ∧
      ParticleFilter.run (Rounded.PF.bootUpdate fl dflt root) calls g = .ok (true, g') ∧
      Follows fl u prior.numSamples (1 + (calls.map (·.2.cost)).sum) f' g' ts := by
  unfold historyRoundings at hM
  have h1 := lt_one_of_roundings (by omega) h.1 hMu
  obtain ⟨g, ts, m1, m2, -⟩ := make_follows h h1 hf
  obtain ⟨g', ts', r1, r2⟩ := run_follows (step' := Rounded.PF.bootUpdate fl dflt root) (M := M)
    (ok := fun nz => Uniforms nz.static ∧ Uniforms nz.dynamic)
    (fun noise c hok hs hk hM hq e => bootUpdate_follows h h1 hroot.1 (uniforms_closed hok.1)
      (uniforms_closed hok.2) hs hk hM hMu hq e) m2 le_rfl hn hM.ge hc e
  exact ⟨g, g', ts', m1, r1, r2⟩

/-- **C93, particle filter.** The filter is constructed and goes through any history of successful
updates. The same calls with the same random numbers, every addition, multiplication and division
rounded with relative error `u`, succeed as well. They leave the same particles, and every weight has
relative error at most `2 M u`, where `M` grows with the number of particles, motions and readings. It
is required that with exact arithmetic the resampling decisions have a margin of `2 M u`
(`C93_flip` shows what happens without), and that no number underflows (`C93_underflow`). -/
theorem C93_history_partial (h : IsRounding u fl) (hroot : IsRoot root)
    (hf : ParticleFilter.make dflt prior q period threshold scheme = .ok f)
    (hn : ∀ nc ∈ calls, Uniforms nc.1.static ∧ Uniforms nc.1.dynamic)
    (e : ParticleFilter.run (ParticleFilter.update dflt root) calls f = .ok (true, f'))
    (hM : M = historyRoundings prior.numSamples calls) (hMu : (M : K) * u ≤ 1 / 2)
    (hc : ClearRun (ParticleFilter.update dflt root) (ClearUpdate dflt root (2 * (M * u))) calls f) :
    ∃ g g' ps qs, Rounded.PF.make fl dflt prior q period threshold scheme = .ok g ∧
      ParticleFilter.run (Rounded.PF.update fl dflt root) calls g = .ok (true, g') ∧
      Holds f'.postGet ps ∧ Holds g'.postGet qs ∧ CloseTo (2 * (M * u)) ps qs := by
  obtain ⟨g, g', ts, m1, r1, r2⟩ := update_history h hroot hf hn e hM hMu hc
  unfold historyRoundings at hM
  obtain ⟨a, b, c⟩ := follows_closeTo h (lt_one_of_roundings (by omega) h.1 hMu) r2
    (M := M) (by omega) hMu
  exact ⟨g, g', _, _, m1, r1, a, b, c⟩

/-- **C93, bootstrap filter.** The same for the bootstrap filter. -/
theorem C93_bootstrap_partial (h : IsRounding u fl) (hroot : IsRoot root)
    (hf : ParticleFilter.make dflt prior q period threshold scheme = .ok f)
    (hn : ∀ nc ∈ calls, Uniforms nc.1.static ∧ Uniforms nc.1.dynamic)
    (e : ParticleFilter.run (ParticleFilter.bootUpdate dflt root) calls f = .ok (true, f'))
    (hM : M = historyRoundings prior.numSamples calls) (hMu : (M : K) * u ≤ 1 / 2)
    (hc : ClearRun (ParticleFilter.bootUpdate dflt root) (ClearBoot dflt root (2 * (M * u))) calls f) :
    ∃ g g' ps qs, Rounded.PF.make fl dflt prior q period threshold scheme = .ok g ∧
      ParticleFilter.run (Rounded.PF.bootUpdate fl dflt root) calls g = .ok (true, g') ∧
      Holds f'.postGet ps ∧ Holds g'.postGet qs ∧ CloseTo (2 * (M * u)) ps qs := by
  obtain ⟨g, g', ts, m1, r1, r2⟩ := boot_history h hroot hf hn e hM hMu hc
  unfold historyRoundings at hM
  obtain ⟨a, b, c⟩ := follows_closeTo h (lt_one_of_roundings (by omega) h.1 hMu) r2
    (M := M) (by omega) hMu
  exact ⟨g, g', _, _, m1, r1, a, b, c⟩

/-! ## Before the first resampling -/

/-- Number of calls with a system model. -/
def motions (calls : List (Noise R K × UpdateCall R SV MV K)) : Nat :=
  (calls.filter (·.2.sys.isSome)).length

theorem static_policy (hr : Params period threshold scheme f) (hp : period ≠ 0) {δ : K}
    {noise : Noise R K} {c : UpdateCall R SV MV K} {mm : Model SV MV K} {f2 f3 : ParticleFilter R SV K}
    (e2 : ParticleFilter.sysPart dflt root noise c (true, f) = .ok (true, f2))
    (e3 : f2.weightStep c mm = .ok (true, f3)) : SafeDynamic root noise.dynamic δ f3 := by
  intro hd3
  have e2' : f.update dflt root noise { c with meas := none } = .ok (true, f2) := by
    have : ParticleFilter.sysPart dflt root noise { c with meas := none } (true, f) =
      ParticleFilter.sysPart dflt root noise c (true, f) := rfl
    simp only [ParticleFilter.update, this, e2, Outcome.ok_bind, ParticleFilter.measPart]
  have p2 := (update_params hr e2').1
  have p3 := (weightStep_params p2 e3).1
  rw [p3.dynamic] at hd3
  simp [hp] at hd3

theorem clearUpdate_few {δ : K} {n : Nat} (hr : Params period threshold scheme f)
    (ht : f.timestep = n) (hp : period ≠ 0) {noise : Noise R K} {c : UpdateCall R SV MV K}
    (hk : n + (if c.sys.isSome then 1 else 0) ≤ period) :
    ClearUpdate dflt root δ noise c f := by
  refine ⟨fun hs _ h0 hne => ?_, fun mm f2 f3 _ e2 e3 => static_policy hr hp e2 e3⟩
  rw [if_pos hs] at hk
  rw [hr.hperiod, ht, Nat.mod_eq_of_lt (by omega)] at h0
  omega

theorem clearRun_few {δ : K} (hp : period ≠ 0) :
    ∀ {calls : List (Noise R K × UpdateCall R SV MV K)} {f : ParticleFilter R SV K},
      Params period threshold scheme f → f.timestep + motions calls ≤ period →
      ClearRun (ParticleFilter.update dflt root) (ClearUpdate dflt root δ) calls f
  | [], _, _, _ => trivial
  | (noise, c) :: calls, f, hr, hk => by
    have hm : motions ((noise, c) :: calls) = (if c.sys.isSome then 1 else 0) + motions calls := by
      unfold motions
      by_cases hs : c.sys.isSome
      · rw [List.filter_cons_of_pos (by simpa using hs), if_pos hs, List.length_cons, add_comm]
      · rw [List.filter_cons_of_neg (by simpa using hs), if_neg hs, zero_add]
    rw [hm] at hk
    refine ⟨clearUpdate_few hr rfl hp (by omega), fun f1 e1 => ?_⟩
    obtain ⟨p1, t1⟩ := update_params hr e1
    refine clearRun_few hp p1 ?_
    rw [t1]
    split_ifs at hk ⊢ <;> omega

/-- **C93, before the first resampling.** When the filter resamples after `period` motions and has not
made more, no condition on the random numbers is needed. -/
theorem C93_early (h : IsRounding u fl) (hroot : IsRoot root) (hp : period ≠ 0)
    (hadm : ∀ s ∈ prior.listGet, ∀ w, s.weight = some w → 0 ≤ w)
    (hf : ParticleFilter.make dflt prior q period threshold scheme = .ok f)
    (hn : ∀ nc ∈ calls, Uniforms nc.1.static ∧ Uniforms nc.1.dynamic) (hfew : motions calls ≤ period)
    (e : ParticleFilter.run (ParticleFilter.update dflt root) calls f = .ok (true, f'))
    (hM : M = historyRoundings prior.numSamples calls) (hMu : (M : K) * u ≤ 1 / 2) :
    ∃ g g' ps qs, Rounded.PF.make fl dflt prior q period threshold scheme = .ok g ∧
      ParticleFilter.run (Rounded.PF.update fl dflt root) calls g = .ok (true, g') ∧
      Holds f'.postGet ps ∧ Holds g'.postGet qs ∧ CloseTo (2 * (M * u)) ps qs := by
  obtain ⟨hr, ht⟩ := (Reached.make (MV := MV) (root := root) hadm hf).params
  exact C93_history_partial h hroot hf hn e hM hMu
    (clearRun_few hp hr (by rw [ht]; omega))

end history

/-! ## The estimate -/

theorem Rel.error (h0 : 0 ≤ u) (h1 : u ≤ 1) {M : Nat} (hMu : (M : K) * u ≤ 1 / 2) {x y : K}
    (h : Rel u M x y) : |y - x| ≤ 2 * (M * u) * |x| := by
  obtain ⟨t, rfl, a, b⟩ := h
  have := near_close h0 hMu h1 zero_le_one (x := 1) (y := t) ⟨by simpa using a, b⟩
  have e : x * t - x = x * (t - 1) := by ring
  rw [e, abs_mul, mul_comm]
  exact mul_le_mul_of_nonneg_right (by simpa using this) (abs_nonneg x)

theorem weightGet_left {SV : Type} (ts : List (Twin K SV)) :
    mapOutcome WSample.weightGet (ts.map Twin.left) = .ok (ts.map (·.2.1)) := by
  induction ts with
  | nil => rfl
  | cons t ts ih => simp only [List.map_cons, mapOutcome, ih, Twin.left, WSample.weightGet]; rfl

theorem weightGet_right {SV : Type} (ts : List (Twin K SV)) :
    mapOutcome WSample.weightGet (ts.map Twin.right) = .ok (ts.map (·.2.2)) := by
  induction ts with
  | nil => rfl
  | cons t ts ih => simp only [List.map_cons, mapOutcome, ih, Twin.right, WSample.weightGet]; rfl

theorem sum_component {n : Nat} (l : List (Fin n → K)) (j : Fin n) :
    l.sum j = (l.map (· j)).sum := by
  induction l with
  | nil => rfl
  | cons a l ih => simp only [List.sum_cons, List.map_cons, Pi.add_apply, ih]

theorem follows_mean {n : Nat} (h : IsRounding u fl) (h1 : u < 1) {k N M : Nat}
    {f g : ParticleFilter R (Fin n → K) K} {ts : List (Twin K (Fin n → K))}
    (hs : Follows fl u N k f g ts) (hM : 2 * k + 2 * N + 3 ≤ M) (hMu : (M : K) * u ≤ 1 / 2) :
    ∃ m m', f.postGet.meanGet = .ok m ∧ Rounded.MC.meanGet fl g.postGet = .ok m' ∧
      ∀ j, |m' j - m j| ≤ 2 * (M * u) * (ts.map fun t => t.2.1 * |t.1 j|).sum := by
  have h0 := h.1
  have e1 : f.postGet.meanGet = .ok fun j => (ts.map fun t => t.1 j * t.2.1).sum := by
    show (mapOutcome WSample.weightGet f.cloud.post.samples >>= fun ws => Outcome.ok
      (f.cloud.post.sumWeights⁻¹ • (List.zipWith (fun (s : WSample K (Fin n → K)) w => w • s.value)
        f.cloud.post.samples ws).sum)) = _
    rw [hs.left, weightGet_left, Outcome.ok_bind, hs.sumLeft, inv_one, one_smul, List.zipWith_map,
      List.zipWith_self]
    congr 1
    funext j
    rw [sum_component, List.map_map]
    congr 1
    exact List.map_congr_left fun t _ => by simp [Twin.left, mul_comm]
  have e2 : Rounded.MC.meanGet fl g.postGet =
      .ok fun j => fl (Rounded.sum fl (ts.map fun t => fl (t.1 j * t.2.2))) := by
    show (mapOutcome WSample.weightGet g.cloud.post.samples >>= fun ws => Outcome.ok fun j =>
      fl (Rounded.sum fl (List.zipWith (fun (s : WSample K (Fin n → K)) w => fl (s.value j * w))
        g.cloud.post.samples ws) / g.cloud.post.sumWeights)) = _
    rw [hs.right, weightGet_right, Outcome.ok_bind, hs.sumRight]
    simp only [div_one, List.zipWith_map, List.zipWith_self, Twin.right]
  refine ⟨_, _, e1, e2, fun j => ?_⟩
  set M' := M - 1 with hM'
  have hMM : (M : K) = M' + 1 := by
    have : M = M' + 1 := by omega
    exact_mod_cast this
  have hMu' : (M' : K) * u ≤ 1 / 2 := by rw [hMM] at hMu; linarith [add_mul (M' : K) 1 u]
  have hrel : List.Forall₂ (Rel u (2 * k + N + 1 + 1)) (ts.map fun t => t.1 j * t.2.1)
      (ts.map fun t => fl (t.1 j * t.2.2)) := by
    rw [List.forall₂_map_left_iff, List.forall₂_map_right_iff, List.forall₂_same]
    intro t ht
    obtain ⟨a1, a2, a3⟩ := hs.weight h1 ht
    have hr : Rel u (2 * k + N + 1) t.2.1 t.2.2 := by
      rcases a1.eq_or_lt with hz | hp
      · have : t.2.2 = 0 := by
          have hb := a3.2
          rw [← hz] at hb
          have hpow : 0 < (1 - u) ^ (2 * k + N + 1) := pow_pos (by linarith) _
          exact le_antisymm (nonpos_of_mul_nonpos_left hb hpow) a2
        rw [this, ← hz]
        exact ⟨1, by simp, pow_le_one₀ (by linarith) (by linarith), by
          rw [one_mul]; exact pow_le_one₀ (by linarith) (by linarith)⟩
      · exact a3.rel hp
    have := (Rel.refl (u := u) (t.1 j)).mul h1.le hr
    rw [zero_add] at this
    exact this.trans h1.le (h.rel h1.le _)
  have hsum := foldl_rel h h1.le (M := M') (δ := 2 * (M' * u))
    (fun hxy => Rel.error h0 h1.le hMu' hxy) _ _ hrel
    (by rw [List.length_map, hs.length]; omega)
  have habs : ((ts.map fun t => t.1 j * t.2.1).map (|·|)).sum = (ts.map fun t => t.2.1 * |t.1 j|).sum := by
    rw [List.map_map]
    congr 1
    refine List.map_congr_left fun t ht => ?_
    simp only [Function.comp_apply, abs_mul, abs_of_nonneg (hs.weight h1 ht).1, mul_comm]
  rw [habs] at hsum
  have hle : |(ts.map fun t => t.1 j * t.2.1).sum| ≤ (ts.map fun t => t.2.1 * |t.1 j|).sum := by
    rw [← habs]
    generalize (ts.map fun t => t.1 j * t.2.1) = l
    induction l with
    | nil => simp
    | cons a l ih =>
      simp only [List.sum_cons, List.map_cons]
      exact (abs_add_le _ _).trans (by linarith)
  generalize (ts.map fun t => t.2.1 * |t.1 j|).sum = S at *
  generalize (ts.map fun t => t.1 j * t.2.1).sum = m at *
  generalize Rounded.sum fl (ts.map fun t => fl (t.1 j * t.2.2)) = m' at *
  have hS : 0 ≤ S := (abs_nonneg m).trans hle
  have r := h.2 m'
  have t1 : |fl m' - m| ≤ |fl m' - m'| + |m' - m| := by
    have := abs_add_le (fl m' - m') (m' - m)
    simpa using this
  have t2 : |m'| ≤ |m' - m| + |m| := by
    have := abs_add_le (m' - m) m
    simpa using this
  have t3 : |m'| ≤ 2 * S := by
    have : 2 * ((M' : K) * u) * S ≤ 1 * S := mul_le_mul_of_nonneg_right (by linarith) hS
    linarith
  have t4 : u * |m'| ≤ u * (2 * S) := mul_le_mul_of_nonneg_left t3 h0
  rw [hMM]
  linarith [show 2 * ((M' + 1 : K) * u) * S = 2 * (M' * u) * S + u * (2 * S) by ring]

section estimate

variable {n : Nat} {dflt : Fin n → K} {root : Nat → K → K} {prior : MCPdf K (Fin n → K)}
  {q : Option (Proposal R (Fin n → K) K)} {period : Nat} {threshold : K} {scheme : Scheme}
  {f f' : ParticleFilter R (Fin n → K) K} {calls : List (Noise R K × UpdateCall R (Fin n → K) MV K)}
  {M : Nat}

/-- **C93, the estimate.** After such a history the estimate computed with rounding from the weights
computed with rounding differs from the exact one, in each component, by at most `2 M u` times the mean
absolute value of the component. -/
theorem C93_mean_partial (h : IsRounding u fl) (hroot : IsRoot root)
    (hf : ParticleFilter.make dflt prior q period threshold scheme = .ok f)
    (hn : ∀ nc ∈ calls, Uniforms nc.1.static ∧ Uniforms nc.1.dynamic)
    (e : ParticleFilter.run (ParticleFilter.update dflt root) calls f = .ok (true, f'))
    (hM : M = historyRoundings prior.numSamples calls) (hMu : (M : K) * u ≤ 1 / 2)
    (hc : ClearRun (ParticleFilter.update dflt root) (ClearUpdate dflt root (2 * (M * u))) calls f) :
    ∃ g g' ps m m', Rounded.PF.make fl dflt prior q period threshold scheme = .ok g ∧
      ParticleFilter.run (Rounded.PF.update fl dflt root) calls g = .ok (true, g') ∧
      Holds f'.postGet ps ∧ f'.postGet.meanGet = .ok m ∧ Rounded.MC.meanGet fl g'.postGet = .ok m' ∧
      ∀ j, |m' j - m j| ≤ 2 * (M * u) * (ps.map fun p => p.2 * |p.1 j|).sum := by
  obtain ⟨g, g', ts, m1, r1, r2⟩ := update_history h hroot hf hn e hM hMu hc
  unfold historyRoundings at hM
  have h1 := lt_one_of_roundings (by omega) h.1 hMu
  obtain ⟨a, -⟩ := follows_closeTo h h1 r2 (M := M) (by omega) hMu
  obtain ⟨m, m', x1, x2, x3⟩ := follows_mean h h1 r2 (M := M) (by omega) hMu
  refine ⟨g, g', _, m, m', m1, r1, a, x1, x2, fun j => ?_⟩
  rw [List.map_map]
  exact x3 j

end estimate

/-! ## Without the conditions -/

namespace RoundedParticleExample

/-- Particles 0 and 1 with weights 4 and 1. -/
def prior : MCPdf ℚ Nat := ⟨[⟨0, some 4⟩, ⟨1, some 1⟩], [0, 4, 5], 5⟩

/-- No particle steps; the first random number is `a`, the others are 1. -/
def noise (a : ℚ) : Noise Nat ℚ := ⟨fun _ => 0, fun i => if i = 0 then a else 1, fun _ => 1⟩

/-- A motion. -/
def move : UpdateCall Nat Nat Nat ℚ := ⟨some Fixture.sys, 0, none, 0, 0⟩

/-- Two motions; resampling takes place before the second, with the random number `a`. -/
def calls (a : ℚ) : List (Noise Nat ℚ × UpdateCall Nat Nat Nat ℚ) := [(noise 1, move), (noise a, move)]

/-- A sensor whose likelihoods are the smallest positive double, and 0. -/
def faint : Model Nat Nat ℚ :=
  ⟨some ⟨1, fun args z => match args with | [x] => .ok (if z = x then 1 / 2 ^ 1074 else 0) | _ => .abort,
    fun _ => .abort⟩, some true⟩

/-- Rounding to nearest that turns into 0 what is at most half the smallest positive double, and
changes nothing else. -/
def flush (x : ℚ) : ℚ := if |x| ≤ 1 / 2 ^ 1075 then 0 else x

/-- Constructing and running. -/
def exactly (prior : MCPdf ℚ Nat) (period : Nat) (threshold : ℚ)
    (calls : List (Noise Nat ℚ × UpdateCall Nat Nat Nat ℚ)) : Outcome (Bool × ParticleFilter Nat Nat ℚ) := do
  let f ← ParticleFilter.make 0 prior (some Fixture.prop) period threshold .multinomial
  ParticleFilter.run (ParticleFilter.update 0 Fixture.root) calls f

/-- Constructing and running, with rounding. -/
def rounded (fl : ℚ → ℚ) (prior : MCPdf ℚ Nat) (period : Nat) (threshold : ℚ)
    (calls : List (Noise Nat ℚ × UpdateCall Nat Nat Nat ℚ)) : Outcome (Bool × ParticleFilter Nat Nat ℚ) := do
  let f ← Rounded.PF.make fl 0 prior (some Fixture.prop) period threshold .multinomial
  ParticleFilter.run (Rounded.PF.update fl 0 Fixture.root) calls f

end RoundedParticleExample

open RoundedParticleExample

/-- **C93, why a margin is needed.** Two particles with weights 4/5 and 1/5 and a random number that is
4/5 rounded to double, a little more than 4/5: exact arithmetic draws the second particle, rounded
arithmetic the first. -/
theorem C93_flip :
    IsRounding (1 / 2 ^ 53 : ℚ) double ∧
    Fixture.observe (exactly prior 1 0 (calls (double (4 / 5)))) =
      .ok (true, [⟨1, some (1 / 2)⟩, ⟨1, some (1 / 2)⟩]) ∧
    Fixture.observe (rounded double prior 1 0 (calls (double (4 / 5)))) =
      .ok (true, [⟨0, some (1 / 2)⟩, ⟨1, some (1 / 2)⟩]) :=
  ⟨double_isRounding, by decide +kernel, by decide +kernel⟩

/-- **C93, why underflow is excluded.** A reading whose likelihoods are tiny: with exact arithmetic the
update succeeds and leaves all weight on the particle that agrees; when the products underflow, the
update reports failure. -/
theorem C93_underflow :
    Fixture.observe (exactly Fixture.prior 1 0 [(Fixture.noise, ⟨none, 0, some faint, 1, 0⟩)]) =
      .ok (true, [⟨0, some 0⟩, ⟨1, some 1⟩]) ∧
    ∃ f, rounded flush Fixture.prior 1 0 [(Fixture.noise, ⟨none, 0, some faint, 1, 0⟩)] = .ok (false, f) := by
  refine ⟨by decide +kernel, ?_⟩
  obtain ⟨f, hf, -⟩ := Fixture.observe_eq (l := [⟨0, some 0⟩, ⟨1, some 0⟩]) (b := false)
    (x := rounded flush Fixture.prior 1 0 [(Fixture.noise, ⟨none, 0, some faint, 1, 0⟩)]) (by decide +kernel)
  exact ⟨f, hf⟩

/-! ## Examples -/

theorem Holds.inj {p : MCPdf K SV} {ps qs : List (SV × K)} (h : Holds p ps) (h' : Holds p qs) : ps = qs := by
  have hi : Function.Injective fun a : SV × K => ({ value := a.1, weight := some a.2 } : WSample K SV) := by
    rintro ⟨a, b⟩ ⟨c, d⟩ e
    simp only [WSample.mk.injEq, Option.some.injEq] at e
    rw [e.1, e.2]
  exact (List.map_injective_iff.2 hi) (h.symm.trans h')

namespace RoundedParticleExample

/-- Motion and reading. -/
def step : UpdateCall Nat Nat Nat ℚ := ⟨some Fixture.sys, 0, some Fixture.meas, 1, 0⟩

theorem make_eq {period : Nat} {threshold : ℚ} {scheme : Scheme}
    (h : ParticleFilter.policy period threshold = .ok (decide (period = 0))) :
    ParticleFilter.make 0 Fixture.prior (some Fixture.prop) period threshold scheme =
      .ok (Fixture.start period threshold scheme) := by
  have : (MCPdf.make Fixture.prior.numSamples 0).listSetW 0 Fixture.prior.listGet =
      .ok (true, Fixture.prior) := by decide +kernel
  simp only [ParticleFilter.make, this, Outcome.ok_bind, h]
  rfl

theorem away {ws : List ℚ} {δ : ℚ} {y : ℚ} (h : ∀ i ∈ List.range ws.length, δ < |y - massBelow ws (i + 1)|) :
    AwayFromJumps ws δ y := by
  intro i h0 h1
  have := h (i - 1) (by rw [List.mem_range]; omega)
  rwa [Nat.sub_add_cancel h0] at this

/-- Two motions and readings with resampling in between are clear of the jumps. -/
theorem clear : ClearRun (ParticleFilter.update 0 Fixture.root)
    (ClearUpdate 0 Fixture.root (2 * ((54 : Nat) * (1 / 2 ^ 53))))
    [(Fixture.noise, step), (Fixture.noise, step)] (Fixture.start 1 0 .multinomial) := by
  have hr := (Fixture.start_reached .multinomial Fixture.policy_static).params.1
  refine ⟨⟨fun _ _ _ h => absurd rfl h, fun mm f2 f3 _ e2 e3 => static_policy hr one_ne_zero e2 e3⟩,
    fun f1 e1 => ⟨⟨fun _ _ _ _ _ => ?_, fun mm f2 f3 _ e2 e3 =>
      static_policy (update_params hr e1).1 one_ne_zero e2 e3⟩, fun _ _ => trivial⟩⟩
  obtain ⟨f, e, hl⟩ := Fixture.observe_eq (l := [⟨0, some (1 / 4)⟩, ⟨2, some (3 / 4)⟩]) (b := true)
    (x := (Fixture.start 1 0 .multinomial).update 0 Fixture.root Fixture.noise step) (by decide +kernel)
  rw [e1, Outcome.ok.injEq, Prod.mk.injEq] at e
  have hw : f1.weights = [1 / 4, 3 / 4] := by
    rw [ParticleFilter.weights, e.2, hl]; rfl
  rw [hw]
  intro i hi
  have : i = 0 ∨ i = 1 := by simp at hi; omega
  rcases this with rfl | rfl <;> exact away (by decide +kernel)

end RoundedParticleExample

/-- Two motions and readings, with resampling in between, rounded to double. -/
example : ∃ g g' qs, Rounded.PF.make double 0 Fixture.prior (some Fixture.prop) 1 (0 : ℚ) .multinomial = .ok g ∧
    ParticleFilter.run (Rounded.PF.update double 0 Fixture.root) [(Fixture.noise, step), (Fixture.noise, step)] g =
      .ok (true, g') ∧ Holds g'.postGet qs ∧
    CloseTo (2 * ((54 : Nat) * (1 / 2 ^ 53 : ℚ))) [(2, 1 / 4), (3, 3 / 4)] qs := by
  obtain ⟨f', e, el⟩ := Fixture.observe_eq (l := [⟨2, some (1 / 4)⟩, ⟨3, some (3 / 4)⟩]) (b := true)
    (x := ParticleFilter.run (ParticleFilter.update 0 Fixture.root)
      [(Fixture.noise, step), (Fixture.noise, step)] (Fixture.start 1 0 .multinomial)) (by decide +kernel)
  obtain ⟨g, g', ps, qs, m1, r1, hp, hq, hc⟩ := C93_history_partial double_isRounding Fixture.root_isRoot
    (make_eq (scheme := .multinomial) Fixture.policy_static)
    (fun nc h => by
      simp only [List.mem_cons, List.not_mem_nil, or_false, or_self] at h
      rw [h]; exact Fixture.noise_uniform) e (by rfl) (by norm_num) clear
  have : ps = [(2, 1 / 4), (3, 3 / 4)] := hp.inj el
  rw [this] at hc
  exact ⟨g, g', qs, m1, r1, hq, hc⟩

/-- A motion and a reading before any resampling. -/
example : ∃ g g' qs, Rounded.PF.make double 0 Fixture.prior (some Fixture.prop) 1 (0 : ℚ) .systematic = .ok g ∧
    ParticleFilter.run (Rounded.PF.update double 0 Fixture.root) [(Fixture.noise, step)] g =
      .ok (true, g') ∧ Holds g'.postGet qs ∧
    CloseTo (2 * ((34 : Nat) * (1 / 2 ^ 53 : ℚ))) [(0, 1 / 4), (2, 3 / 4)] qs := by
  obtain ⟨f', e, el⟩ := Fixture.observe_eq (l := [⟨0, some (1 / 4)⟩, ⟨2, some (3 / 4)⟩]) (b := true)
    (x := ParticleFilter.run (ParticleFilter.update 0 Fixture.root)
      [(Fixture.noise, step)] (Fixture.start 1 0 .systematic)) (by decide +kernel)
  obtain ⟨g, g', ps, qs, m1, r1, hp, hq, hc⟩ := C93_early (M := 34) double_isRounding Fixture.root_isRoot one_ne_zero
    (by decide +kernel) (make_eq (scheme := .systematic) Fixture.policy_static)
    (fun nc h => by rw [List.mem_singleton.1 h]; exact Fixture.noise_uniform) le_rfl e (by rfl) (by norm_num)
  have : ps = [(0, 1 / 4), (2, 3 / 4)] := hp.inj el
  rw [this] at hc
  exact ⟨g, g', qs, m1, r1, hq, hc⟩

/-- A reading that leaves too few effective samples, in the bootstrap filter. -/
example : ∃ g g' qs, Rounded.PF.make double 0 Fixture.prior (some Fixture.prop) 0 (2 : ℚ) .multinomial = .ok g ∧
    ParticleFilter.run (Rounded.PF.bootUpdate double 0 Fixture.root)
      [(Fixture.noise, ⟨none, 0, some Fixture.meas, 1, 0⟩)] g = .ok (true, g') ∧ Holds g'.postGet qs ∧
    CloseTo (2 * ((30 : Nat) * (1 / 2 ^ 53 : ℚ))) [(1, 1 / 2), (1, 1 / 2)] qs := by
  obtain ⟨f', e, el⟩ := Fixture.observe_eq (l := [⟨1, some (1 / 2)⟩, ⟨1, some (1 / 2)⟩]) (b := true)
    (x := ParticleFilter.run (ParticleFilter.bootUpdate 0 Fixture.root)
      [(Fixture.noise, ⟨none, 0, some Fixture.meas, 1, 0⟩)] (Fixture.start 0 2 .multinomial)) (by decide +kernel)
  obtain ⟨g, g', ps, qs, m1, r1, hp, hq, hc⟩ := C93_bootstrap_partial (M := 30) double_isRounding Fixture.root_isRoot
    (make_eq (scheme := .multinomial) Fixture.policy_dynamic)
    (fun nc h => by rw [List.mem_singleton.1 h]; exact Fixture.noise_uniform) e (by rfl) (by norm_num) (by
      refine ⟨⟨fun m h => by simp at h, fun f2 e2 => ⟨fun h => by simp at h, fun mm f3 f4 hm e3 e4 _ => ?_⟩⟩,
        fun _ _ => trivial⟩
      simp only [ParticleFilter.bootSys, ParticleFilter.sysPart, Outcome.ok.injEq, Prod.mk.injEq, true_and] at e2 e3
      subst e2 e3
      cases hm
      obtain ⟨f5, e5, hl⟩ := Fixture.observe_eq (l := [⟨0, some (1 / 4)⟩, ⟨1, some (3 / 4)⟩]) (b := true)
        (x := (Fixture.start 0 2 .multinomial).weightStep
          (⟨none, 0, some Fixture.meas, 1, 0⟩ : UpdateCall Nat Nat Nat ℚ) Fixture.meas) (by decide +kernel)
      have e6 := e4.symm.trans e5
      rw [Outcome.ok.injEq, Prod.mk.injEq] at e6
      have hw : f4.weights = [1 / 4, 3 / 4] := by
        rw [ParticleFilter.weights, e6.2, hl]; rfl
      have ht : f4.threshold = 2 :=
        (weightStep_params (Fixture.start_reached .multinomial Fixture.policy_dynamic).params.1 e4).1.hthreshold
      rw [hw, ht]
      refine ⟨by decide +kernel, fun _ _ i hi => ?_⟩
      have : i = 0 ∨ i = 1 := by simp at hi; omega
      rcases this with rfl | rfl <;> exact away (by decide +kernel))
  have : ps = [(1, 1 / 2), (1, 1 / 2)] := hp.inj el
  rw [this] at hc
  exact ⟨g, g', qs, m1, r1, hq, hc⟩

namespace RoundedParticleExample

/-- Positions 0 and 3 on a line. -/
def line : MCPdf ℚ (Fin 1 → ℚ) := ⟨[⟨![0], some (1 / 2)⟩, ⟨![3], some (1 / 2)⟩], [0, 1 / 2, 1], 1⟩

/-- A sensor that reports whether the position is positive, and is right with probability 3/4. -/
def side : Model (Fin 1 → ℚ) Bool ℚ :=
  ⟨some ⟨1, fun args z => match args with
    | [x] => .ok (if z = decide (0 < x 0) then 3 / 4 else 1 / 4) | _ => .abort, fun _ => .abort⟩, some true⟩

end RoundedParticleExample

/-- The estimate after a reading. -/
example : ∃ g g' m', Rounded.PF.make double 0 line (none : Option (Proposal Nat (Fin 1 → ℚ) ℚ)) 1 0 .multinomial = .ok g ∧
    ParticleFilter.run (Rounded.PF.update double 0 Fixture.root) [(Fixture.noise, ⟨none, 0, some side, true, 0⟩)] g =
      .ok (true, g') ∧ Rounded.MC.meanGet double g'.postGet = .ok m' ∧
    |m' 0 - 9 / 4| ≤ 2 * ((30 : Nat) * (1 / 2 ^ 53 : ℚ)) * (9 / 4) := by
  have hmk : ParticleFilter.make 0 line (none : Option (Proposal Nat (Fin 1 → ℚ) ℚ)) 1 0 .multinomial =
      .ok ⟨⟨line, line.samples, line.samples, []⟩, 0, 0, false, 1, 0, .multinomial, none⟩ := by
    have h1 : (MCPdf.make line.numSamples 0).listSetW 0 line.listGet = .ok (true, line) := by decide +kernel
    have h2 : ParticleFilter.policy 1 (0 : ℚ) = .ok false := by decide +kernel
    simp only [ParticleFilter.make, h1, Outcome.ok_bind, h2]
    rfl
  have hx : (do
      let (b, f) ← ParticleFilter.run (ParticleFilter.update 0 Fixture.root)
        [(Fixture.noise, (⟨none, 0, some side, true, 0⟩ : UpdateCall Nat (Fin 1 → ℚ) Bool ℚ))]
        ⟨⟨line, line.samples, line.samples, []⟩, 0, 0, false, 1, 0, .multinomial, none⟩
      let m ← f.postGet.meanGet
      return (b, f.postGet.listGet, m 0)) =
      .ok (true, [⟨![0], some (1 / 4)⟩, ⟨![3], some (3 / 4)⟩], 9 / 4) := by decide +kernel
  simp only [Outcome.bind_eq_ok, Outcome.pure_eq, Outcome.ok.injEq, Prod.mk.injEq, Prod.exists] at hx
  obtain ⟨b, f', e, m, em, rfl, el, e0⟩ := hx
  have hr := (Reached.make (MV := Bool) (root := Fixture.root) (prior := line) (by
    intro s hs w hw
    simp only [line, MCPdf.listGet, List.mem_cons, List.not_mem_nil, or_false] at hs
    rcases hs with rfl | rfl <;> simp at hw <;> rw [← hw] <;> norm_num) hmk).params.1
  obtain ⟨g, g', ps, m2, m', m1, r1, hp, hm, hm', hj⟩ := C93_mean_partial (M := 30) double_isRounding Fixture.root_isRoot hmk
    (fun nc h => by rw [List.mem_singleton.1 h]; exact Fixture.noise_uniform) e (by rfl) (by norm_num)
    (clearRun_few one_ne_zero hr (by decide))
  rw [em, Outcome.ok.injEq] at hm
  have hps : ps = [(![0], 1 / 4), (![3], 3 / 4)] := hp.inj el
  refine ⟨g, g', m', m1, r1, hm', ?_⟩
  have := hj 0
  rw [← hm, hps, e0] at this
  norm_num at this ⊢
  exact this

end BFL.Props
