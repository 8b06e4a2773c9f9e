import Verif.Lemmas.SampleOrderLaw
import Verif.Lemmas.ParticleRun
import Verif.Props.Moments
import Verif.Props.ParticleFilterFixture
import Verif.Props.ParticleToss
import Verif.Props.Ripley

set_option linter.unusedSectionVars false
set_option linter.unusedSimpArgs false

/-!
# C120: only the weight of the values matters, not the order or number of the samples
-/

namespace BFL.Props

open MeasureTheory Spec MCPdf ParticleFilter
open scoped ENNReal

section reports

variable {K : Type} [Field K] [LinearOrder K] [IsStrictOrderedRing K]

theorem holds_good {T : Type} {dflt : T} {p : MCPdf K T} (h : Assigned dflt p) {ps : List (T × K)} (hh : Holds p ps) :
    Good p (ps.map Prod.snd) := by
  obtain ⟨ws, hg⟩ := h.good
  have e : p.samples.map (·.weight) = (ps.map Prod.snd).map some := by
    show p.listGet.map (·.weight) = _
    rw [hh, List.map_map, List.map_map]
    rfl
  have : ws = ps.map Prod.snd := by
    have h2 := hg.1.symm.trans e
    exact List.map_injective_iff.2 (Option.some_injective K) h2
  rwa [this] at hg

theorem holds_values {T : Type} {p : MCPdf K T} {ps : List (T × K)} (hh : Holds p ps) :
    p.samples.map (·.value) = ps.map Prod.fst := by
  show p.listGet.map (·.value) = _
  rw [hh, List.map_map]
  rfl

/-- **C120, mean and covariance** of vectors depend only on the weight of each value. -/
theorem C120_moments {n : Nat} {d d' : Fin n → K} {p q : MCPdf K (Fin n → K)} (hp : Assigned d p) (hq : Assigned d' q)
    {ps qs : List ((Fin n → K) × K)} (hps : Holds p ps) (hqs : Holds q qs) (h : SameWeights ps qs) :
    p.meanGet = q.meanGet ∧ p.covGet = q.covGet := by
  have m : meanVector (ps.map Prod.fst) (ps.map Prod.snd) = meanVector (qs.map Prod.fst) (qs.map Prod.snd) := by
    funext k
    exact h.average _
  constructor
  · rw [meanGet_eq (holds_good hp hps), meanGet_eq (holds_good hq hqs), holds_values hps, holds_values hqs, m]
  · rw [covGet_eq (holds_good hp hps), covGet_eq (holds_good hq hqs), holds_values hps, holds_values hqs]
    unfold covMatrix
    rw [m]
    congr 1
    ext i j
    exact h.average _

/-- **C120, mean and variance** of whole numbers: the same, also where the code wraps (see C12). -/
theorem C120_moments_unsigned [FloorRing K] {d d' : BitVec 32} {p q : MCPdf K (BitVec 32)} (hp : Assigned d p)
    (hq : Assigned d' q) {ps qs : List (BitVec 32 × K)} (hps : Holds p ps) (hqs : Holds q qs) (h : SameWeights ps qs) :
    p.meanGetU = q.meanGetU ∧ p.covGetU = q.covGetU := by
  have hgp := holds_good hp hps
  have hgq := holds_good hq hqs
  have key : ∀ {r : MCPdf K (BitVec 32)} {rs : List (BitVec 32 × K)}, Holds r rs → ∀ g : BitVec 32 → K,
      (List.zipWith (fun (s : WSample K (BitVec 32)) w => g s.value * w) r.samples (rs.map Prod.snd)).sum =
        (rs.map fun a => a.2 * g a.1).sum := by
    intro r rs hr g
    rw [show r.samples = rs.map fun a => (⟨a.1, some a.2⟩ : WSample K (BitVec 32)) from hr, List.zipWith_map,
      List.zipWith_self]
    congr 2
    funext a
    exact mul_comm _ _
  have e : p.meanGetU = q.meanGetU := by
    unfold meanGetU
    rw [weightGets_eq_ok.2 hgp.1, weightGets_eq_ok.2 hgq.1]
    simp only [Outcome.ok_bind, key hps fun x => (x.toNat : K), key hqs fun x => (x.toNat : K),
      h.sum fun x => (x.toNat : K), hgp.2.2.2,
      hgq.2.2.2]
  refine ⟨e, ?_⟩
  unfold covGetU
  rw [e]
  congr 1
  funext m
  rw [weightGets_eq_ok.2 hgp.1, weightGets_eq_ok.2 hgq.1]
  simp only [Outcome.ok_bind, key hps fun x => (((x - m) * (x - m)).toNat : K),
    key hqs fun x => (((x - m) * (x - m)).toNat : K), h.sum fun x => (((x - m) * (x - m)).toNat : K), hgp.2.2.2, hgq.2.2.2]

end reports

section draws

variable {T : Type} [DecidableEq T] {d d' : T} {p q : MCPdf ℝ T} {ps qs : List (T × ℝ)}

theorem holds_valueAt (hh : Holds p ps) (j : Nat) (hj : j < ps.length) : valueAt d p j = ps[j].1 := by
  have : p.samples = ps.map fun a => (⟨a.1, some a.2⟩ : WSample ℝ T) := hh
  unfold valueAt
  rw [this]
  simp [hj]

/-- **C120, draws.** Every property of a list of draws is equally likely for both. -/
theorem C120_draws (hp : Assigned d p) (hq : Assigned d' q) (hps : Holds p ps) (hqs : Holds q qs)
    (h : SameWeights ps qs) (N : Nat) (A : List T → Prop) :
    uniforms N {u | ∃ ts, p.sampleList kthRoot .default (List.ofFn u) = .ok (some ts) ∧ A ts} =
      uniforms N {u | ∃ ts, q.sampleList kthRoot .default (List.ofFn u) = .ok (some ts) ∧ A ts} := by
  have hgp := holds_good hp hps
  have hgq := holds_good hq hqs
  rw [uniforms_eq]
  have key : ∀ {r : MCPdf ℝ T} {rs : List (T × ℝ)} (e : T), Good r (rs.map Prod.snd) →
      {u : Fin N → ℝ | ∃ ts, r.sampleList kthRoot .default (List.ofFn u) = .ok (some ts) ∧ A ts} =ᵐ[unifs N]
        {u | A (List.ofFn fun i => valueAt e r (sel (rs.map Prod.snd) (u i)))} := by
    intro r rs e hr
    filter_upwards [ae_unit N] with u hu
    apply propext
    show (∃ ss, _ ∧ _) ↔ A _
    rw [mc_default e hr hu]
    simp
  rw [measure_congr (key d hgp), measure_congr (key d' hgq)]
  exact selected_list_law hgp.2.1 hgq.2.1 h (holds_valueAt hps) (holds_valueAt hqs) fun t => A (List.ofFn t)

/-- **C120, efficient draws** (as in resampling): every property of the drawn values, apart from their order, is equally
likely for both. -/
theorem C120_draws_ripley (hp : Assigned d p) (hq : Assigned d' q) (hps : Holds p ps) (hqs : Holds q qs)
    (h : SameWeights ps qs) {N : Nat} (hN : 0 < N) (A : Multiset T → Prop) :
    uniforms N {u | ∃ ts, p.sampleList kthRoot .ripley (List.ofFn u) = .ok (some ts) ∧ A ts} =
      uniforms N {u | ∃ ts, q.sampleList kthRoot .ripley (List.ofFn u) = .ok (some ts) ∧ A ts} := by
  rw [C73_mcPdf hp hN A, C73_mcPdf hq hN A]
  exact C120_draws hp hq hps hqs h N fun ts => A ts

/-- **C120, one draw** gives `x` with probability the weight of all samples with value `x`. -/
theorem C120_draw (hp : Assigned d p) (hps : Holds p ps) (x : T) :
    volume {u : ℝ | u ∈ Set.Ioc 0 1 ∧ p.sampleOne .default u = .ok (some x)} = ENNReal.ofReal (weightAt ps x) := by
  have hgp := holds_good hp hps
  have hlen : (ps.map Prod.snd).length = ps.length := List.length_map ..
  have hs : p.samples.length = ps.length := by rw [hgp.length, hlen]
  have e := selected_law hgp.2.1 (holds_valueAt (d := d) hps) fun y => y = x
  have hm : MeasurableSet {u | valueAt d p (sel (ps.map Prod.snd) u) = x} :=
    measurable_sel (ps.map Prod.snd) (MeasurableSet.of_discrete (s := {j | valueAt d p j = x}))
  rw [Measure.restrict_apply hm] at e
  have hset : {u : ℝ | u ∈ Set.Ioc 0 1 ∧ p.sampleOne .default u = .ok (some x)} =
      {u | valueAt d p (sel (ps.map Prod.snd) u) = x} ∩ Set.Ioc 0 1 := by
    ext u
    simp only [Set.mem_ofPred_eq, Set.mem_inter_iff]
    rw [and_comm]
    refine and_congr_left fun hu => ?_
    have hi := sel_inverts hgp.2.1 hu.1 hu.2
    have hi' : sel (ps.map Prod.snd) u < p.samples.length := by rw [hgp.length]; exact hi.1
    rw [sampleOne_eq hgp hi hi']
    simp only [Outcome.ok.injEq, Option.some.injEq, valueAt, List.getElem?_eq_getElem hi', Option.map_some,
      Option.getD_some]
  rw [hset, e]
  congr 1
  have : ∀ rs : List (T × ℝ), (rs.map fun a => a.2 * if a.1 = x then 1 else 0).sum = weightAt rs x := by
    intro rs
    induction rs with
    | nil => rfl
    | cons a rs ih =>
      rw [List.map_cons, List.sum_cons, ih, weightAt_cons]
      congr 1
      split <;> simp
  exact this ps

end draws

section readings

variable {R SV MV K : Type} [Field K] [LinearOrder K] [IsStrictOrderedRing K] [DecidableEq SV]
  {dflt : SV} {root : Nat → K → K}

/-- An update with a reading and without a move. -/
def IsReading (c : UpdateCall R SV MV K) : Prop := c.sys = none ∧ ∃ mm L, c.meas = some mm ∧ IsLikelihood mm L

/-- One reading of a filter that does not resample: accepted exactly if some sample with weight allows the reading, and
then the weights are multiplied by the likelihood. -/
theorem sample_reading_step (hroot : IsRoot root) {period : Nat} {threshold : K} (ht : threshold ≤ 1)
    {f : ParticleFilter R SV K} {n : Nat} (hr : Reached MV dflt root period threshold .multinomial f n)
    {ps : List (SV × K)} (hh : Holds f.postGet ps) (hn : Normalised ps) {noise : Noise R K} (hus : Uniforms noise.dynamic)
    {mm : Model SV MV K} {L : MV → SV → SV → K} (hl : IsLikelihood mm L) (u s : SV) (z : MV) :
    (0 < (ps.map fun b => b.2 * L z b.1 s).sum → ∃ f', f.update dflt root noise ⟨none, u, some mm, z, s⟩ = .ok (true, f') ∧
      Holds f'.postGet (reweightedBy (fun x => L z x s) ps) ∧ Normalised (reweightedBy (fun x => L z x s) ps)) ∧
    ((ps.map fun b => b.2 * L z b.1 s).sum = 0 → ∃ f' ps',
      f.update dflt root noise ⟨none, u, some mm, z, s⟩ = .ok (false, f') ∧ Holds f'.postGet ps' ∧ ∀ a ∈ ps', a.2 = 0) := by
  obtain ⟨h1, h2⟩ := C26_measurement hroot hr hh hn hl hus u s z
  have hg : ∀ i (hi : i < ps.length), (fun i => if h : i < ps.length then L z ps[i].1 s else 0) i = L z ps[i].1 s :=
    fun i hi => by simp [hi]
  have et := totalWeight_eq_sum (G := fun x => L z x s) hg
  simp only [et] at h1 h2
  constructor
  · intro hpos
    obtain ⟨f', ps1, ps2, k1, k2, k3, -, k4, k5, k6⟩ := h1 hpos
    have e1 := reweighted_eq (G := fun x => L z x s) hg k2
    have e2 : ps2 = ps1 := k4 (not_lt.2 (ht.trans (C28_effective_size k3).1))
    rw [e2, e1] at k5 k6
    exact ⟨f', k1, k5, k6⟩
  · intro h0
    obtain ⟨f', k1, ps', k2, -, k3⟩ := h2 h0
    exact ⟨f', ps', k1, k2, k3⟩

theorem sum_nonneg_of {ps : List (SV × K)} (hn : Normalised ps) {G : SV → K} (hG : ∀ x, 0 ≤ G x) :
    0 ≤ (ps.map fun b => b.2 * G b.1).sum := by
  refine List.sum_nonneg fun y hy => ?_
  obtain ⟨a, ha, rfl⟩ := List.mem_map.1 hy
  exact mul_nonneg (hn.1 _ (List.mem_map_of_mem ha)) (hG _)

/-- **C120, a reading.** Two filters whose samples say the same, however many and in whatever order, accept a reading both
or neither, and their samples say the same afterwards. The filters do not resample here: `C120_resampling_false`. -/
theorem C120_reading (hroot : IsRoot root) {period period' : Nat} {threshold threshold' : K} (ht : threshold ≤ 1)
    (ht' : threshold' ≤ 1) {f g : ParticleFilter R SV K} {n n' : Nat}
    (hf : Reached MV dflt root period threshold .multinomial f n) (hg : Reached MV dflt root period' threshold' .multinomial g n')
    {ps qs : List (SV × K)} (hps : Holds f.postGet ps) (hqs : Holds g.postGet qs) (hnp : Normalised ps)
    (hnq : Normalised qs) (h : SameWeights ps qs) {c : UpdateCall R SV MV K} (hc : IsReading c) {noise noise' : Noise R K}
    (hu : Uniforms noise.dynamic) (hu' : Uniforms noise'.dynamic) :
    ∃ b f' g' ps' qs', f.update dflt root noise c = .ok (b, f') ∧ g.update dflt root noise' c = .ok (b, g') ∧
      Holds f'.postGet ps' ∧ Holds g'.postGet qs' ∧ SameWeights ps' qs' ∧ (b = true → Normalised ps' ∧ Normalised qs') := by
  obtain ⟨sys, u, meas, z, s⟩ := c
  obtain ⟨rfl, mm, L, rfl, hl⟩ := hc
  obtain ⟨p1, p2⟩ := sample_reading_step hroot ht hf hps hnp hu hl u s z
  obtain ⟨q1, q2⟩ := sample_reading_step hroot ht' hg hqs hnq hu' hl u s z
  have e := h.sum fun x => L z x s
  rcases (sum_nonneg_of hnp fun x => hl.nonneg z x s).lt_or_eq with hpos | h0
  · obtain ⟨f', k1, k2, k3⟩ := p1 hpos
    obtain ⟨g', l1, l2, l3⟩ := q1 (e ▸ hpos)
    exact ⟨true, f', g', _, _, k1, l1, k2, l2, h.reweighted _, fun _ => ⟨k3, l3⟩⟩
  · obtain ⟨f', ps', k1, k2, k3⟩ := p2 h0.symm
    obtain ⟨g', qs', l1, l2, l3⟩ := q2 (e ▸ h0.symm)
    exact ⟨false, f', g', _, _, k1, l1, k2, l2, fun x => by rw [weightAt_of_zero k3, weightAt_of_zero l3],
      fun hb => by simp at hb⟩

/-- **C120, all readings.** Two filters whose samples say the same get the same readings, with any random numbers. If one
accepts them all, so does the other, and their samples say the same in the end. -/
theorem C120_readings (hroot : IsRoot root) {period period' : Nat} {threshold threshold' : K} (ht : threshold ≤ 1)
    (ht' : threshold' ≤ 1) {as bs : List (Noise R K × UpdateCall R SV MV K)}
    (hab : List.Forall₂ (fun a b => b.2 = a.2 ∧ IsReading a.2 ∧ Uniforms a.1.dynamic ∧ Uniforms b.1.dynamic) as bs) :
    ∀ {f g f' : ParticleFilter R SV K} {n n' : Nat}, Reached MV dflt root period threshold .multinomial f n →
      Reached MV dflt root period' threshold' .multinomial g n' →
      ∀ {ps qs : List (SV × K)}, Holds f.postGet ps → Holds g.postGet qs → Normalised ps → Normalised qs →
      SameWeights ps qs → f.run (ParticleFilter.update dflt root) as = .ok (true, f') →
      ∃ g' ps' qs', g.run (ParticleFilter.update dflt root) bs = .ok (true, g') ∧ Holds f'.postGet ps' ∧
        Holds g'.postGet qs' ∧ Normalised ps' ∧ Normalised qs' ∧ SameWeights ps' qs' := by
  induction hab with
  | nil =>
    intro f g f' n n' _ _ ps qs hps hqs hnp hnq h hr
    simp only [ParticleFilter.run, Outcome.ok.injEq, Prod.mk.injEq, true_and] at hr
    subst hr
    exact ⟨g, ps, qs, rfl, hps, hqs, hnp, hnq, h⟩
  | @cons a b as bs hh _ ih =>
    intro f g f' n n' hf hg ps qs hps hqs hnp hnq h hr
    obtain ⟨e, hc, hu, hu'⟩ := hh
    obtain ⟨b1, f1, g1, ps1, qs1, k1, k2, k3, k4, k5, k6⟩ :=
      C120_reading hroot ht ht' hf hg hps hqs hnp hnq h hc hu hu'
    simp only [ParticleFilter.run, Outcome.bind_eq_ok, Outcome.pure_eq, Outcome.ok.injEq, Prod.mk.injEq, Prod.exists,
      Bool.and_eq_true] at hr
    obtain ⟨b2, f2, r1, b3, f3, r2, ⟨rfl, rfl⟩, rfl⟩ := hr
    rw [k1] at r1
    simp only [Outcome.ok.injEq, Prod.mk.injEq] at r1
    obtain ⟨rfl, rfl⟩ := r1
    obtain ⟨k7, k8⟩ := k6 rfl
    obtain ⟨g', ps', qs', l1, l2⟩ := ih (Reached.update hf k1) (Reached.update hg k2) k3 k4 k7 k8 k5 r2
    refine ⟨g', ps', qs', ?_, l2⟩
    simp only [ParticleFilter.run, e, k2, Outcome.ok_bind, l1, Outcome.pure_eq, Bool.and_self]

/-- Effective sizes do not depend on the order of the samples. -/
theorem C120_effective_size {X : Type} {ps qs : List (X × K)} (h : ps.Perm qs) : effectiveSize ps = effectiveSize qs := by
  unfold effectiveSize
  rw [(h.map _).sum_eq]

end readings

section examples

open Fixture

/-- Three samples, two of them equal. -/
theorem C120_three : SameWeights ([(0, 1/4), (1, 1/2), (0, 1/4)] : List (Nat × ℚ)) [(0, 1/2), (1, 1/2)] := by
  have h1 : SameWeights ([(0, 1/4), (1, 1/2), (0, 1/4)] : List (Nat × ℚ)) [(0, 1/4), (0, 1/4), (1, 1/2)] :=
    sameWeights_perm (List.Perm.cons _ (List.Perm.swap _ _ _))
  intro x
  rw [h1 x]
  have := sameWeights_merge (0 : Nat) (1/4 : ℚ) (1/4) [(1, 1/2)] x
  norm_num at this ⊢
  exact this

theorem C120_three_normalised : Normalised ([(0, 1/4), (1, 1/2), (0, 1/4)] : List (Nat × ℚ)) := by
  refine ⟨?_, by decide +kernel⟩
  intro w hw
  simp at hw
  rcases hw with rfl | rfl | rfl <;> norm_num

/-- Vectors: one distribution with three samples and one with two have the same mean and covariance. -/
example : ∃ p q : MCPdf ℚ (Fin 2 → ℚ), Holds p [(![1, 2], 1/4), (![3, 5], 1/2), (![1, 2], 1/4)] ∧
    Holds q [(![1, 2], 1/2), (![3, 5], 1/2)] ∧ p.meanGet = q.meanGet ∧ p.covGet = q.covGet := by
  obtain ⟨p, -, h1, h2, -⟩ := start_exists (R := Nat) (0 : Fin 2 → ℚ)
    (ps := [(![1, 2], (1/4 : ℚ)), (![3, 5], 1/2), (![1, 2], 1/4)]) (by
      refine ⟨?_, by decide +kernel⟩
      intro w hw
      simp at hw
      rcases hw with rfl | rfl | rfl <;> norm_num) none .multinomial (period := 0) (threshold := 1) (by norm_num)
  obtain ⟨q, -, k1, k2, -⟩ := start_exists (R := Nat) (0 : Fin 2 → ℚ)
    (ps := [(![1, 2], (1/2 : ℚ)), (![3, 5], 1/2)]) (by
      refine ⟨?_, by decide +kernel⟩
      intro w hw
      simp at hw
      rw [hw]; norm_num) none .multinomial (period := 0) (threshold := 1) (by norm_num)
  refine ⟨p, q, h2, k2, C120_moments h1 k1 h2 k2 ?_⟩
  have e : SameWeights [((![1, 2] : Fin 2 → ℚ), (1/4 : ℚ)), (![3, 5], 1/2), (![1, 2], 1/4)]
      [(![1, 2], 1/4), (![1, 2], 1/4), (![3, 5], 1/2)] := sameWeights_perm (List.Perm.cons _ (List.Perm.swap _ _ _))
  intro x
  rw [e x]
  have := sameWeights_merge (![1, 2] : Fin 2 → ℚ) (1/4 : ℚ) (1/4) [(![3, 5], 1/2)] x
  rw [this]
  norm_num

/-- Whole numbers: 2 and 8, with a sample of no weight in one of them. -/
example : ∃ p q : MCPdf ℚ (BitVec 32), Holds p [(7#32, 0), (2#32, 1/2), (8#32, 1/2)] ∧
    Holds q [(8#32, 1/2), (2#32, 1/2)] ∧ p.meanGetU = q.meanGetU ∧ p.covGetU = q.covGetU := by
  obtain ⟨p, -, h1, h2, -⟩ := start_exists (R := Nat) (0 : BitVec 32)
    (ps := [(7#32, (0 : ℚ)), (2#32, 1/2), (8#32, 1/2)]) (by
      refine ⟨?_, by decide +kernel⟩
      intro w hw
      simp at hw
      rcases hw with rfl | rfl <;> norm_num) none .multinomial (period := 0) (threshold := 1) (by norm_num)
  obtain ⟨q, -, k1, k2, -⟩ := start_exists (R := Nat) (0 : BitVec 32)
    (ps := [(8#32, (1/2 : ℚ)), (2#32, 1/2)]) (by
      refine ⟨?_, by decide +kernel⟩
      intro w hw
      simp at hw
      rw [hw]; norm_num) none .multinomial (period := 0) (threshold := 1) (by norm_num)
  exact ⟨p, q, h2, k2, C120_moments_unsigned h1 k1 h2 k2 fun x =>
    (sameWeights_zero _ _ x).trans (sameWeights_perm (List.Perm.swap _ _ _) x)⟩

/-- Draws: `true` in two samples of weight 1/2 and 1/4, or in one of weight 3/4. -/
example : ∃ p q : MCPdf ℝ Bool, Holds p [(true, 1/2), (true, 1/4), (false, 1/4)] ∧ Holds q [(true, 3/4), (false, 1/4)] ∧
    (∀ N (A : List Bool → Prop), uniforms N {u | ∃ ts, p.sampleList kthRoot .default (List.ofFn u) = .ok (some ts) ∧ A ts} =
      uniforms N {u | ∃ ts, q.sampleList kthRoot .default (List.ofFn u) = .ok (some ts) ∧ A ts}) ∧
    (∀ N, 0 < N → ∀ A : Multiset Bool → Prop,
      uniforms N {u | ∃ ts, p.sampleList kthRoot .ripley (List.ofFn u) = .ok (some ts) ∧ A ts} =
      uniforms N {u | ∃ ts, q.sampleList kthRoot .ripley (List.ofFn u) = .ok (some ts) ∧ A ts}) ∧
    volume {u : ℝ | u ∈ Set.Ioc 0 1 ∧ p.sampleOne .default u = .ok (some true)} = ENNReal.ofReal (3/4) := by
  obtain ⟨p, -, h1, h2, -⟩ := start_exists (R := Nat) false
    (ps := [(true, (1/2 : ℝ)), (true, 1/4), (false, 1/4)]) (by
      refine ⟨?_, by norm_num⟩
      intro w hw
      simp at hw
      rcases hw with rfl | rfl <;> norm_num) none .multinomial (period := 0) (threshold := 1) (by norm_num)
  obtain ⟨q, -, k1, k2, -⟩ := start_exists (R := Nat) false
    (ps := [(true, (3/4 : ℝ)), (false, 1/4)]) (by
      refine ⟨?_, by norm_num⟩
      intro w hw
      simp at hw
      rcases hw with rfl | rfl <;> norm_num) none .multinomial (period := 0) (threshold := 1) (by norm_num)
  have e : SameWeights [(true, (1/2 : ℝ)), (true, 1/4), (false, 1/4)] [(true, 3/4), (false, 1/4)] := by
    intro x
    have := sameWeights_merge true (1/2 : ℝ) (1/4) [(false, 1/4)] x
    rw [this]
    norm_num
  refine ⟨p, q, h2, k2, C120_draws h1 k1 h2 k2 e, fun N hN => C120_draws_ripley h1 k1 h2 k2 e hN, ?_⟩
  rw [C120_draw h1 h2]
  congr 1
  norm_num [weightAt]

/-- A freshly constructed filter with the given samples. -/
def filterOf (threshold : ℚ) (cum : List ℚ) (ps : List (Nat × ℚ)) : ParticleFilter Nat Nat ℚ :=
  let p : MCPdf ℚ Nat := ⟨ps.map fun a => ⟨a.1, some a.2⟩, cum, 1⟩
  ⟨⟨p, p.samples, p.samples, []⟩, 0, 0, true, 0, threshold, .multinomial, none⟩

theorem filterOf_reached {threshold : ℚ} {cum : List ℚ} {ps : List (Nat × ℚ)} (hn : Normalised ps)
    (hp : ParticleFilter.policy 0 threshold = .ok true)
    (h : (MCPdf.make ps.length 0).listSetW 0 (ps.map fun a => ⟨a.1, some a.2⟩) =
      .ok (true, ⟨ps.map fun a => ⟨a.1, some a.2⟩, cum, 1⟩)) :
    Reached Nat 0 root 0 threshold .multinomial (filterOf threshold cum ps) 0 := by
  refine .make (prior := ⟨ps.map fun a => ⟨a.1, some a.2⟩, cum, 1⟩) (q := none) ?_ ?_
  · intro s hs w hw
    obtain ⟨a, ha, rfl⟩ := List.mem_map.1 hs
    simp only [Option.some.injEq] at hw
    rw [← hw]
    exact hn.1 _ (List.mem_map_of_mem ha)
  · have e : (MCPdf.mk (ps.map fun a => (⟨a.1, some a.2⟩ : WSample ℚ Nat)) cum 1).numSamples = ps.length :=
      List.length_map ..
    simp only [ParticleFilter.make, e, listGet, h, hp, Outcome.ok_bind]
    rfl

/-- A filter with three samples and one with two, after the readings 0, 1 and 0. -/
example : ∃ f' g' : ParticleFilter Nat Nat ℚ, ∃ ps' qs',
    (filterOf 1 [0, 1/4, 3/4, 1] [(0, 1/4), (1, 1/2), (0, 1/4)]).run (ParticleFilter.update 0 root)
      [(noise, ⟨none, 0, some meas, 0, 0⟩), (noise, ⟨none, 0, some meas, 1, 0⟩), (noise, ⟨none, 0, some meas, 0, 0⟩)] =
        .ok (true, f') ∧
    (filterOf 1 [0, 1/2, 1] [(0, 1/2), (1, 1/2)]).run (ParticleFilter.update 0 root)
      [(noise, ⟨none, 0, some meas, 0, 0⟩), (noise, ⟨none, 0, some meas, 1, 0⟩), (noise, ⟨none, 0, some meas, 0, 0⟩)] =
        .ok (true, g') ∧
    Holds f'.postGet ps' ∧ Holds g'.postGet qs' ∧ SameWeights ps' qs' := by
  have hr : observe ((filterOf 1 [0, 1/4, 3/4, 1] [(0, 1/4), (1, 1/2), (0, 1/4)]).run (ParticleFilter.update 0 root)
      [(noise, ⟨none, 0, some meas, 0, 0⟩), (noise, ⟨none, 0, some meas, 1, 0⟩), (noise, ⟨none, 0, some meas, 0, 0⟩)]) =
        .ok (true, [⟨0, some (3/8)⟩, ⟨1, some (1/4)⟩, ⟨0, some (3/8)⟩]) := by decide +kernel
  obtain ⟨f', hr, -⟩ := observe_eq hr
  have hm : ∀ z, IsReading (⟨none, 0, some meas, z, 0⟩ : UpdateCall Nat Nat Nat ℚ) := fun z =>
    ⟨rfl, meas, L, rfl, meas_isLikelihood⟩
  obtain ⟨g', ps', qs', h1, h2, h3, -, -, h4⟩ := C120_readings root_isRoot le_rfl le_rfl
    (bs := [(noise, ⟨none, 0, some meas, 0, 0⟩), (noise, ⟨none, 0, some meas, 1, 0⟩), (noise, ⟨none, 0, some meas, 0, 0⟩)])
    (.cons ⟨rfl, hm 0, noise_uniform.2, noise_uniform.2⟩ (.cons ⟨rfl, hm 1, noise_uniform.2, noise_uniform.2⟩
      (.cons ⟨rfl, hm 0, noise_uniform.2, noise_uniform.2⟩ .nil)))
    (filterOf_reached C120_three_normalised (by decide +kernel) (by decide +kernel))
    (filterOf_reached (cum := [0, 1/2, 1]) start_normalised (by decide +kernel) (by decide +kernel)) rfl rfl C120_three_normalised
    start_normalised C120_three hr
  exact ⟨f', g', ps', qs', hr, h1, h2, h3, h4⟩

/-- **C120 fails for the resampling decision.** Two filters with resampling size 2 say the same; one holds a value in two
samples. The same reading, which all samples fit equally well, makes the filter with fewer samples resample and not
the other, and then they say different things. -/
theorem C120_resampling_false : ∃ (f g f' g' : ParticleFilter Nat Nat ℚ) (ps qs ps' qs' : List (Nat × ℚ)),
    Reached Nat 0 root 0 2 .multinomial f 0 ∧ Reached Nat 0 root 0 2 .multinomial g 0 ∧
    Holds f.postGet ps ∧ Holds g.postGet qs ∧ Normalised ps ∧ Normalised qs ∧ SameWeights ps qs ∧
    IsReading (⟨none, 0, some meas, 5, 0⟩ : UpdateCall Nat Nat Nat ℚ) ∧
    f.update 0 root noise ⟨none, 0, some meas, 5, 0⟩ = .ok (true, f') ∧
    g.update 0 root noise ⟨none, 0, some meas, 5, 0⟩ = .ok (true, g') ∧
    Holds f'.postGet ps' ∧ Holds g'.postGet qs' ∧ ¬ SameWeights ps' qs' := by
  have h1 : observe ((filterOf 2 [0, 1/2, 3/4, 1] [(0, 1/2), (0, 1/4), (1, 1/4)]).update 0 root noise
      ⟨none, 0, some meas, 5, 0⟩) = .ok (true, [⟨0, some (1/2)⟩, ⟨0, some (1/4)⟩, ⟨1, some (1/4)⟩]) := by decide +kernel
  have h2 : observe ((filterOf 2 [0, 3/4, 1] [(0, 3/4), (1, 1/4)]).update 0 root noise
      ⟨none, 0, some meas, 5, 0⟩) = .ok (true, [⟨0, some (1/2)⟩, ⟨0, some (1/2)⟩]) := by decide +kernel
  obtain ⟨f', h1, k1⟩ := observe_eq h1
  obtain ⟨g', h2, k2⟩ := observe_eq h2
  have n1 : Normalised ([(0, 1/2), (0, 1/4), (1, 1/4)] : List (Nat × ℚ)) := by
    refine ⟨?_, by decide +kernel⟩
    intro w hw
    simp at hw
    rcases hw with rfl | rfl | rfl <;> norm_num
  have n2 : Normalised ([(0, 3/4), (1, 1/4)] : List (Nat × ℚ)) := by
    refine ⟨?_, by decide +kernel⟩
    intro w hw
    simp at hw
    rcases hw with rfl | rfl <;> norm_num
  refine ⟨_, _, f', g', _, _, [(0, 1/2), (0, 1/4), (1, 1/4)], [(0, 1/2), (0, 1/2)],
    filterOf_reached n1 (by decide +kernel) (by decide +kernel), filterOf_reached n2 (by decide +kernel) (by decide +kernel),
    rfl, rfl, n1, n2, ?_, ⟨rfl, meas, L, rfl, meas_isLikelihood⟩, h1, h2, k1, k2, ?_⟩
  · intro x
    have := sameWeights_merge (0 : Nat) (1/2 : ℚ) (1/4) [(1, 1/4)] x
    norm_num at this ⊢
    exact this
  · intro h
    have := h 1
    revert this
    decide +kernel

/-- The resampling size also depends on the number of samples: 8/3 and 8/5. -/
example : effectiveSize ([(0, 1/2), (0, 1/4), (1, 1/4)] : List (Nat × ℚ)) = 8/3 ∧
    effectiveSize ([(0, 3/4), (1, 1/4)] : List (Nat × ℚ)) = 8/5 := by decide +kernel

example : effectiveSize ([(0, 1/2), (0, 1/4), (1, 1/4)] : List (Nat × ℚ)) =
    effectiveSize ([(0, 1/4), (0, 1/2), (1, 1/4)] : List (Nat × ℚ)) := C120_effective_size (List.Perm.swap _ _ _)

end examples

end BFL.Props
