import Verif.Lemmas.Ripley
import Verif.Props.ParticleFilter
import Verif.Props.ParticleStart

/-!
# C73, C74: what the RIPLEY list draw and resampling do on average

`uniforms N` (`Verif/Spec/Sampling.lean`) is the law of `N` independent numbers `runif()`;
`kthRoot k` is `pow(·, 1.0/k)`.
-/

set_option linter.unusedSectionVars false

namespace BFL.Props

open MeasureTheory Spec MCPdf ParticleFilter

variable {R SV MV T : Type}

/-! ## C73 -/

/-- `DiscretePdf`: the `N` states of a RIPLEY call, taken without their order, are distributed
exactly like `N` independent single draws. -/
theorem C73_discretePdf {d : DiscretePdf ℝ} (hd : Reachable d) {N : Nat} (hN : 0 < N)
    (A : Multiset Int → Prop) :
    uniforms N {u | ∃ ss, d.sampleList kthRoot .ripley (List.ofFn u) = .ok (some ss) ∧ A ss} =
      uniforms N {u | ∃ ss, d.sampleList kthRoot .default (List.ofFn u) = .ok (some ss) ∧ A ss} := by
  rw [uniforms_eq]
  have h1 : {u : Fin N → ℝ | ∃ ss, d.sampleList kthRoot .ripley (List.ofFn u) = .ok (some ss) ∧
      A ss} =ᵐ[unifs N] {u | A (List.ofFn fun i => ((sel d.values (orderedVec u i) : Nat) : Int))} := by
    filter_upwards [ae_unit N] with u hu
    apply propext
    show (∃ ss, _ ∧ _) ↔ A _
    rw [discrete_ripley hd hN hu]
    simp
  have h2 : {u : Fin N → ℝ | ∃ ss, d.sampleList kthRoot .default (List.ofFn u) = .ok (some ss) ∧
      A ss} =ᵐ[unifs N] {u | A (List.ofFn fun i => ((sel d.values (u i) : Nat) : Int))} := by
    filter_upwards [ae_unit N] with u hu
    apply propext
    show (∃ ss, _ ∧ _) ↔ A _
    rw [discrete_default hd hu]
    simp
  rw [measure_congr h1, measure_congr h2]
  exact selected_event d.values (fun j => (j : Int)) A

/-- `DiscretePdf`: the `N` states of a DEFAULT call are independent; every list of states has the
product of their probabilities. -/
theorem C73_discretePdf_default {d : DiscretePdf ℝ} (hd : Reachable d) {N : Nat}
    (s : Fin N → Fin d.probabilitiesGet.length) :
    uniforms N {u | d.sampleList kthRoot .default (List.ofFn u) =
        .ok (some (List.ofFn fun i => ((s i : Nat) : Int)))} =
      ∏ i, ENNReal.ofReal d.probabilitiesGet[s i] := by
  obtain ⟨⟨hdist, hcum⟩, _⟩ := hd.good
  rw [uniforms_eq]
  have h2 : {u : Fin N → ℝ | d.sampleList kthRoot .default (List.ofFn u) =
        .ok (some (List.ofFn fun i => ((s i : Nat) : Int)))} =ᵐ[unifs N]
      Set.pi Set.univ fun i => {x | sel d.values x = (s i : Nat)} := by
    filter_upwards [ae_unit N] with u hu
    apply propext
    show (_ = _) ↔ u ∈ Set.pi Set.univ fun i => {x | sel d.values x = (s i : Nat)}
    rw [discrete_default hd hu]
    simp only [Outcome.ok.injEq, Option.some.injEq, List.ofFn_inj, funext_iff, Nat.cast_inj,
      Set.mem_pi, Set.mem_univ, forall_const]
    rfl
  rw [measure_congr h2]
  unfold unifs
  rw [Measure.pi_pi]
  exact Finset.prod_congr rfl fun i _ => volume_sel hdist (s i).2

/-- `MCPdf`: the `N` values of a RIPLEY call, taken without their order, are distributed exactly
like `N` independent single draws. -/
theorem C73_mcPdf {dflt : T} {p : MCPdf ℝ T} (h : Assigned dflt p) {N : Nat} (hN : 0 < N)
    (A : Multiset T → Prop) :
    uniforms N {u | ∃ ts, p.sampleList kthRoot .ripley (List.ofFn u) = .ok (some ts) ∧ A ts} =
      uniforms N {u | ∃ ts, p.sampleList kthRoot .default (List.ofFn u) = .ok (some ts) ∧ A ts} := by
  obtain ⟨ws, hg⟩ := h.good
  rw [uniforms_eq]
  have h1 : {u : Fin N → ℝ | ∃ ts, p.sampleList kthRoot .ripley (List.ofFn u) = .ok (some ts) ∧
      A ts} =ᵐ[unifs N] {u | A (List.ofFn fun i => valueAt dflt p (sel ws (orderedVec u i)))} := by
    filter_upwards [ae_unit N] with u hu
    apply propext
    show (∃ ss, _ ∧ _) ↔ A _
    rw [mc_ripley dflt hg hN hu]
    simp
  have h2 : {u : Fin N → ℝ | ∃ ts, p.sampleList kthRoot .default (List.ofFn u) = .ok (some ts) ∧
      A ts} =ᵐ[unifs N] {u | A (List.ofFn fun i => valueAt dflt p (sel ws (u i)))} := by
    filter_upwards [ae_unit N] with u hu
    apply propext
    show (∃ ss, _ ∧ _) ↔ A _
    rw [mc_default dflt hg hu]
    simp
  rw [measure_congr h1, measure_congr h2]
  exact selected_event ws (valueAt dflt p) A

/-- Two states with probabilities 1/4 and 3/4, two RIPLEY draws: both 0 with probability 1/16. -/
example : ∃ d : DiscretePdf ℝ, Reachable d ∧ d.probabilitiesGet = [1/4, 3/4] ∧
    uniforms 2 {u | ∃ ss, d.sampleList kthRoot .ripley (List.ofFn u) = .ok (some ss) ∧
      (ss : Multiset Int) = {0, 0}} = ENNReal.ofReal (1/16) := by
  obtain ⟨d, hd, hp⟩ := C01_all_distributions_reachable (p := [1/4, (3/4 : ℝ)])
    ⟨by simp; norm_num, by norm_num⟩
  refine ⟨d, hd, hp, ?_⟩
  have h0 : 0 < d.probabilitiesGet.length := by rw [hp]; simp
  have h := C73_discretePdf_default hd (N := 2) fun _ => ⟨0, h0⟩
  rw [C73_discretePdf hd (by norm_num) (fun m => m = {0, 0})]
  have he : {u : Fin 2 → ℝ | ∃ ss, d.sampleList kthRoot .default (List.ofFn u) = .ok (some ss) ∧
      (ss : Multiset Int) = {0, 0}} = {u | d.sampleList kthRoot .default (List.ofFn u) =
        .ok (some (List.ofFn fun _ : Fin 2 => ((0 : Nat) : Int)))} := by
    ext u
    have hl : (List.ofFn fun _ : Fin 2 => ((0 : Nat) : Int)) = List.replicate 2 0 := by decide
    have hm : ({0, 0} : Multiset Int) = ((List.replicate 2 0 : List Int) : Multiset Int) := rfl
    show (∃ ss, _ ∧ _) ↔ _ = _
    rw [hl, hm]
    constructor
    · rintro ⟨ss, h1, h2⟩
      rw [Multiset.coe_eq_coe, List.perm_replicate] at h2
      rw [h1, h2]
    · intro h1
      exact ⟨_, h1, rfl⟩
  rw [he]
  refine h.trans ?_
  have hq : d.probabilitiesGet[(⟨0, h0⟩ : Fin d.probabilitiesGet.length)] = 1/4 := by simp [hp]
  rw [Fin.prod_univ_two]
  erw [hq]
  rw [← ENNReal.ofReal_mul (by norm_num)]
  norm_num

/-! ## C74 -/

/-- Random numbers of a resampling step of `N` particles. -/
def extend {N : Nat} (u : Fin N → ℝ) (i : Nat) : ℝ := if h : i < N then u ⟨i, h⟩ else 1

/-- Resampling by inversion with ordered uniform numbers leaves the average of every function of
the state unchanged in the mean; its variance is the variance over the particles divided by their
number. -/
theorem C74_resampled {ps : List (SV × ℝ)} (hn : Normalised ps)
    {post : (Fin ps.length → ℝ) → List (SV × ℝ)}
    (h : ∀ᵐ u ∂(uniforms ps.length),
      Resampled (selectors kthRoot (extend u) ps.length) ps (post u)) (φ : SV → ℝ) :
    ∫ u, averageOver φ (post u) ∂(uniforms ps.length) = averageOver φ ps ∧
    ∫ u, (averageOver φ (post u) - averageOver φ ps) ^ 2 ∂(uniforms ps.length) =
      spread φ ps / ps.length := by
  have hpos : 0 < ps.length := by
    rcases Nat.eq_zero_or_pos ps.length with h0 | h0
    · have := hn.2
      rw [List.length_eq_zero_iff.1 h0] at this
      simp at this
    · exact h0
  rw [uniforms_eq] at h ⊢
  have hNr : (ps.length : ℝ) ≠ 0 := by exact_mod_cast hpos.ne'
  let g : Nat → ℝ := fun j => (ps[j]?.map fun a => φ a.1).getD 0
  have hav : ∀ ψ : ℝ → ℝ, averageOver (fun x => ψ (φ x)) ps =
      ∑ j : Fin (ps.map Prod.snd).length, (ps.map Prod.snd)[j] * ψ (g j) := by
    intro ψ
    have hg : ∀ j : Fin ps.length, g j = φ ps[j].1 := by
      intro j
      simp [g]
    have hcast : ∑ j : Fin (ps.map Prod.snd).length, (ps.map Prod.snd)[j] * ψ (g j) =
        ∑ j : Fin ps.length, ps[j].2 * ψ (g j) := by
      apply Fintype.sum_equiv (finCongr (List.length_map ..))
      intro j
      simp
    have hl : (ps.map fun a => a.2 * ψ (φ a.1)) =
        List.ofFn fun j : Fin ps.length => ps[j].2 * ψ (φ ps[j].1) := by
      apply List.ext_getElem <;> simp
    unfold averageOver
    rw [hcast, hl, List.sum_ofFn]
    simp only [hg]
  have hpost : ∀ᵐ u ∂(unifs ps.length), averageOver φ (post u) =
      (∑ i : Fin ps.length, g (sel (ps.map Prod.snd) (orderedVec u i))) / ps.length := by
    filter_upwards [h, ae_unit ps.length] with u hu hunit
    obtain ⟨hlen, hsel⟩ := hu
    have hlist : (List.range ps.length).map (extend u) = List.ofFn u := by
      apply List.ext_getElem
      · simp
      · intro k h1 h2
        have hk : k < ps.length := by simpa using h2
        simp [extend, hk]
    have hl : ((post u).map fun a => a.2 * φ a.1) = List.ofFn fun i : Fin ps.length =>
        1 / (ps.length : ℝ) * g (sel (ps.map Prod.snd) (orderedVec u i)) := by
      apply List.ext_getElem
      · simp [hlen]
      · intro k h1 h2
        have hk : k < (post u).length := by simpa using h1
        obtain ⟨j, hj, hinv, he⟩ := hsel k hk
        have hv : selectors kthRoot (extend u) ps.length k = orderedVec u ⟨k, hlen ▸ hk⟩ := by
          unfold selectors
          rw [hlist]
          exact orderedVec_apply u ⟨k, hlen ▸ hk⟩
        rw [hv] at hinv
        simp only [List.getElem_map, List.getElem_ofFn, he, sel_eq hn.1 hinv]
        simp [g, hj]
    unfold averageOver
    rw [hl, List.sum_ofFn, ← Finset.mul_sum]
    ring
  obtain ⟨h1, h2⟩ := ordered_average hpos hn g
  have e1 := hav id
  have e2 := hav (· ^ 2)
  simp only [id] at e1
  constructor
  · rw [integral_congr_ae hpost, h1, e1]
  · have hpost2 : ∀ᵐ u ∂(unifs ps.length), (averageOver φ (post u) - averageOver φ ps) ^ 2 =
        ((∑ i : Fin ps.length, g (sel (ps.map Prod.snd) (orderedVec u i))) / ps.length -
          ∑ j : Fin (ps.map Prod.snd).length, (ps.map Prod.snd)[j] * g j) ^ 2 := by
      filter_upwards [hpost] with u hu
      rw [hu, e1]
    rw [integral_congr_ae hpost2, h2]
    unfold spread
    rw [e1, e2]

/-- A measurement update that resamples: over the random numbers of the resampling, the posterior
average of every function of the state has as its mean the average with the new weights, and as its
variance the weighted variance divided by the number of particles. -/
theorem C74_update {dflt : SV} {period : Nat} {threshold : ℝ} {f : ParticleFilter R SV ℝ} {n : Nat}
    (hr : Reached MV dflt kthRoot period threshold .multinomial f n) {ps : List (SV × ℝ)}
    (hh : Holds f.postGet ps) (hn : Normalised ps)
    {mm : Model SV MV ℝ} {L : MV → SV → SV → ℝ} (hl : IsLikelihood mm L) (noise : Noise R ℝ)
    (u s : SV) (z : MV) (hev : 0 < averageOver (fun x => L z x s) ps)
    (hsize : effectiveSize (reweightedBy (fun x => L z x s) ps) < threshold) (φ : SV → ℝ) :
    ∃ post : (Fin ps.length → ℝ) → List (SV × ℝ),
      (∀ᵐ v ∂(uniforms ps.length), ∃ f',
        f.update dflt kthRoot { noise with dynamic := extend v } ⟨none, u, some mm, z, s⟩ =
          .ok (true, f') ∧ Holds f'.postGet (post v)) ∧
      ∫ v, averageOver φ (post v) ∂(uniforms ps.length) =
        averageOver φ (reweightedBy (fun x => L z x s) ps) ∧
      ∫ v, (averageOver φ (post v) - averageOver φ (reweightedBy (fun x => L z x s) ps)) ^ 2
          ∂(uniforms ps.length) =
        spread φ (reweightedBy (fun x => L z x s) ps) / ps.length := by
  classical
  have htot : totalWeight (fun i => if h : i < ps.length then L z ps[i].1 s else 0) ps =
      averageOver (fun x => L z x s) ps := by
    have hl : (ps.map fun a => a.2 * L z a.1 s) =
        List.ofFn fun j : Fin ps.length => ps[j].2 * L z ps[j].1 s := by
      apply List.ext_getElem <;> simp
    unfold totalWeight averageOver
    rw [hl, List.sum_ofFn]
    simp
  have hre : ∀ {ps1 : List (SV × ℝ)},
      Reweighted (fun i => if h : i < ps.length then L z ps[i].1 s else 0) ps ps1 →
      ps1 = reweightedBy (fun x => L z x s) ps := by
    rintro ps1 ⟨hlen, hw⟩
    apply List.ext_getElem
    · simp [reweightedBy, hlen]
    · intro k h1 h2
      have hk : k < ps.length := hlen ▸ h1
      rw [hw k hk, htot]
      simp [reweightedBy, averageOver, hk]
  have hu : ∀ v : Fin ps.length → ℝ, (∀ i, 0 < v i ∧ v i ≤ 1) → Uniforms (extend v) := by
    intro v hv i
    unfold extend
    split
    · exact hv _
    · norm_num
  have key : ∀ v : Fin ps.length → ℝ, (∀ i, 0 < v i ∧ v i ≤ 1) → ∃ ps2 f',
      f.update dflt kthRoot { noise with dynamic := extend v } ⟨none, u, some mm, z, s⟩ =
        .ok (true, f') ∧ Holds f'.postGet ps2 ∧
      Resampled (selectors kthRoot (extend v) ps.length) (reweightedBy (fun x => L z x s) ps) ps2 ∧
      Normalised (reweightedBy (fun x => L z x s) ps) := by
    intro v hv
    obtain ⟨f', ps1, ps2, h1, h2, h3, h4, _, h6, _⟩ := (C26_measurement (R := R)
      ⟨kthRoot_bounds, kthRoot_pos⟩ hr hh hn hl (noise := { noise with dynamic := extend v })
      (hu v hv) u s z).1 (by rw [htot]; exact hev)
    have := hre h2
    subst this
    exact ⟨ps2, f', h1, h6, h4 hsize, h3⟩
  obtain ⟨_, _, _, _, _, hn1⟩ := key (fun _ => 1) (fun _ => by norm_num)
  have hlen : (reweightedBy (fun x => L z x s) ps).length = ps.length := by simp [reweightedBy]
  let post : (Fin ps.length → ℝ) → List (SV × ℝ) := fun v =>
    if h : ∀ i, 0 < v i ∧ v i ≤ 1 then (key v h).choose else []
  have hpost : ∀ v (hv : ∀ i, 0 < v i ∧ v i ≤ 1), ∃ f',
      f.update dflt kthRoot { noise with dynamic := extend v } ⟨none, u, some mm, z, s⟩ =
        .ok (true, f') ∧ Holds f'.postGet (post v) ∧
      Resampled (selectors kthRoot (extend v) ps.length) (reweightedBy (fun x => L z x s) ps)
        (post v) := by
    intro v hv
    have he : post v = (key v hv).choose := dif_pos hv
    rw [he]
    obtain ⟨f', h1, h2, h3, _⟩ := (key v hv).choose_spec
    exact ⟨f', h1, h2, h3⟩
  refine ⟨post, ?_, ?_⟩
  · rw [uniforms_eq]
    filter_upwards [ae_unit ps.length] with v hv
    obtain ⟨f', h1, h2, _⟩ := hpost v hv
    exact ⟨f', h1, h2⟩
  · have gen : ∀ (qs : List (SV × ℝ)) (N : Nat) (post : (Fin N → ℝ) → List (SV × ℝ)),
        Normalised qs → qs.length = N →
        (∀ v : Fin N → ℝ, (∀ i, 0 < v i ∧ v i ≤ 1) →
          Resampled (selectors kthRoot (extend v) N) qs (post v)) →
        ∫ v, averageOver φ (post v) ∂(uniforms N) = averageOver φ qs ∧
        ∫ v, (averageOver φ (post v) - averageOver φ qs) ^ 2 ∂(uniforms N) =
          spread φ qs / N := by
      intro qs N post hn1 hN h
      subst hN
      apply C74_resampled hn1
      rw [uniforms_eq]
      filter_upwards [ae_unit qs.length] with v hv
      exact h v hv
    exact gen _ ps.length post hn1 hlen fun v hv => (hpost v hv).choose_spec.2.2

/-- Two particles 0 and 1 of weight 1/2, a sensor that reports the state with probability 3/4 and
the measurement 0: the weights become 3/4 and 1/4, the effective size is 8/5, and resampling below
2 gives a posterior mean of average 1/4 and variance 3/32. -/
example : ∃ (f : ParticleFilter Nat Nat ℝ) (mm : Model Nat Nat ℝ),
    Reached Nat 0 kthRoot 0 2 .multinomial f 0 ∧ Holds f.postGet [(0, 1/2), (1, 1/2)] ∧
    ∃ post : (Fin 2 → ℝ) → List (Nat × ℝ),
      (∀ᵐ v ∂(uniforms 2), ∃ f',
        f.update 0 kthRoot ⟨fun i => i, fun _ => 1, extend v⟩ ⟨none, 0, some mm, 0, 0⟩ =
          .ok (true, f') ∧ Holds f'.postGet (post v)) ∧
      ∫ v, averageOver (fun x : Nat => (x : ℝ)) (post v) ∂(uniforms 2) = 1/4 ∧
      ∫ v, (averageOver (fun x : Nat => (x : ℝ)) (post v) - 1/4) ^ 2 ∂(uniforms 2) = 3/32 := by
  have hn : Normalised ([(0, 1/2), (1, 1/2)] : List (Nat × ℝ)) := by
    refine ⟨?_, by norm_num⟩
    intro w hw
    simp at hw
    rw [hw]; norm_num
  obtain ⟨prior, f, _, _, ha, hm, hh⟩ := start_exists (R := Nat) 0 hn none (period := 0)
    (threshold := 2) .multinomial (by norm_num)
  let L : Nat → Nat → Nat → ℝ := fun z x _ => if z = x then 3/4 else 1/4
  let mp : CondPdf Nat Nat ℝ :=
    ⟨1, fun args z => match args with | [x] => .ok (L z x 0) | _ => .abort, fun _ => .abort⟩
  have hl : IsLikelihood ⟨some mp, some true⟩ L := by
    refine ⟨mp, rfl, fun z x s => ⟨?_, rfl⟩⟩
    simp only [L]; split_ifs <;> norm_num
  have hre : reweightedBy (fun x => L 0 x 0) [(0, 1/2), (1, 1/2)] = [(0, 3/4), (1, 1/4)] := by
    norm_num [reweightedBy, L]
  have hr := Reached.make (MV := Nat) (root := kthRoot) ha hm
  obtain ⟨post, h1, h2, h3⟩ := C74_update hr hh hn hl ⟨fun i => i, fun _ => 1, fun _ => 1⟩ 0 0 0
    (by norm_num [averageOver, L]) (by rw [hre]; norm_num [effectiveSize]) (fun x => (x : ℝ))
  have hav : averageOver (fun x : Nat => (x : ℝ)) [(0, 3/4), (1, 1/4)] = 1/4 := by
    norm_num [averageOver]
  have hsp : spread (fun x : Nat => (x : ℝ)) [(0, 3/4), (1, 1/4)] = 3/16 := by
    norm_num [spread, averageOver]
  rw [hre, hav] at h2
  rw [hre, hav, hsp] at h3
  refine ⟨f, _, hr, hh, post, h1, h2, h3.trans ?_⟩
  norm_num

end BFL.Props
