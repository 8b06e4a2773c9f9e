import Verif.Props.SampleOrder

set_option linter.unusedSectionVars false
set_option linter.unusedSimpArgs false

/-!
# C120, moves: samples in another order, with their random numbers carried along
-/

namespace BFL.Props

open Spec MCPdf ParticleFilter

section order

variable {R X MV : Type} {dflt : X} {root : Nat → ℝ → ℝ} {period : Nat} {threshold : ℝ}

/-- One update of a bootstrap filter: a move, a reading, or both. `mv r x` is where the system model draws a new
state from `x` with the random number `r`; `G x y` is the likelihood of the reading after a move from `x` to `y`. -/
inductive BootStep : UpdateCall R X MV ℝ → (R → X → X) → (X → X → ℝ) → Prop
  | full {m : SysModel R X ℝ} {mm : Model X MV ℝ} {u s : X} {z : MV} {Tr : X → X → X → ℝ} {L : MV → X → X → ℝ}
      {mv : R → X → X} (hm : IsTransition m Tr) (hl : IsLikelihood mm L)
      (total : ∀ r x u prev, ∃ y, m.draw r (argsFor m x u) prev = .ok y)
      (hd : ∀ r x prev, m.draw r (argsFor m x u) prev = .ok (mv r x)) :
      BootStep ⟨some m, u, some mm, z, s⟩ mv fun _ y => L z y s
  | reading {mm : Model X MV ℝ} {u s : X} {z : MV} {L : MV → X → X → ℝ} (hl : IsLikelihood mm L) :
      BootStep ⟨none, u, some mm, z, s⟩ (fun _ x => x) fun _ y => L z y s
  | move {m : SysModel R X ℝ} {u s : X} {z : MV} {Tr : X → X → X → ℝ} {mv : R → X → X} (hm : IsTransition m Tr)
      (total : ∀ r x u prev, ∃ y, m.draw r (argsFor m x u) prev = .ok y)
      (hd : ∀ r x prev, m.draw r (argsFor m x u) prev = .ok (mv r x)) :
      BootStep ⟨some m, u, none, z, s⟩ mv fun _ _ => 1

theorem BootStep.nonneg {c : UpdateCall R X MV ℝ} {mv : R → X → X} {G : X → X → ℝ} (h : BootStep c mv G) (x y : X) :
    0 ≤ G x y := by
  cases h with
  | full hm hl total hd => exact hl.nonneg _ _ _
  | reading hl => exact hl.nonneg _ _ _
  | move => exact zero_le_one

theorem BootStep.ok (hroot : IsRoot root) (ht : threshold ≤ 1) {c : UpdateCall R X MV ℝ} {mv : R → X → X} {G : X → X → ℝ}
    (h : BootStep c mv G) : StepOK (fun noise c f => ParticleFilter.bootUpdate dflt root noise c f) period threshold
      (fun _ => True) c mv G := by
  cases h with
  | full hm hl total hd => exact boot_full hroot ht hm total hd hl _ _
  | reading hl => exact boot_measurement hroot ht hl _ _ _
  | move hm total hd => exact boot_system hroot hm total hd _ _

theorem traj_place (mv : Nat → R → X → X) (G : Nat → X → X → ℝ) (x : X) (ρ : Nat → R) : ∀ t,
    (traj mv G x ρ t).1 = placeAfter mv ρ x t
  | 0 => rfl
  | t + 1 => by
    show mv t (ρ t) (traj mv G x ρ t).1 = _
    rw [traj_place mv G x ρ t]
    rfl

theorem traj_pos {mv : Nat → R → X → X} {G : Nat → X → X → ℝ} {x : X} {ρ : Nat → R} : ∀ {t : Nat},
    (∀ s < t, 0 < G s (placeAfter mv ρ x s) (placeAfter mv ρ x (s + 1))) → 0 < (traj mv G x ρ t).2
  | 0, _ => zero_lt_one
  | t + 1, h => by
    show 0 < (traj mv G x ρ t).2 * G t (traj mv G x ρ t).1 (mv t (ρ t) (traj mv G x ρ t).1)
    refine mul_pos (traj_pos fun s hs => h s (by omega)) ?_
    have := h t (by omega)
    rw [traj_place]
    exact this

/-- Samples with their own starting weights, followed for `t` steps. -/
noncomputable def followed {N : Nat} (mv : Nat → R → X → X) (G : Nat → X → X → ℝ) (a : Fin N → X × ℝ) (ρ : Nat → Fin N → R)
    (t : Nat) (i : Fin N) : X × ℝ :=
  ((traj mv G (a i).1 (fun s => ρ s i) t).1, (a i).2 * (traj mv G (a i).1 (fun s => ρ s i) t).2 /
    ∑ j, (a j).2 * (traj mv G (a j).1 (fun s => ρ s j) t).2)

theorem advance_followed {N : Nat} {mv : Nat → R → X → X} {G : Nat → X → X → ℝ} {a : Fin N → X × ℝ}
    {ρ : Nat → Nat → R} {t : Nat}
    (h0 : 0 < ∑ j, (a j).2 * (traj mv G (a j).1 (fun s => ρ s j) t).2)
    (h1 : 0 < ∑ j, (a j).2 * (traj mv G (a j).1 (fun s => ρ s j) (t + 1)).2) :
    0 < advanceTotal (mv t) (G t) (ρ t) (List.ofFn (followed mv G a (fun s i => ρ s i) t)) ∧
    advance (mv t) (G t) (ρ t) (List.ofFn (followed mv G a (fun s i => ρ s i) t)) =
      List.ofFn (followed mv G a (fun s i => ρ s i) (t + 1)) := by
  set Z := ∑ j, (a j).2 * (traj mv G (a j).1 (fun s => ρ s j) t).2 with hZ
  set Z' := ∑ j, (a j).2 * (traj mv G (a j).1 (fun s => ρ s j) (t + 1)).2 with hZ'
  have e : advanceTotal (mv t) (G t) (ρ t) (List.ofFn (followed mv G a (fun s i => ρ s i) t)) = Z' / Z := by
    unfold advanceTotal
    rw [hZ', Finset.sum_div, ← List.sum_ofFn]
    congr 1
    apply List.ext_getElem
    · simp
    · intro i i1 i2
      simp only [List.getElem_mapIdx, List.getElem_ofFn, followed, ← hZ, traj]
      ring
  refine ⟨e ▸ div_pos h1 h0, ?_⟩
  unfold advance
  rw [e]
  apply List.ext_getElem
  · simp
  · intro i i1 i2
    have hw : ∀ g w : ℝ, w / Z * g / (Z' / Z) = w * g / Z' := by
      intro g w
      field_simp
    simp only [List.getElem_mapIdx, List.getElem_ofFn]
    show (mv t (ρ t i) (traj mv G _ _ t).1, _ / Z * G t _ _ / (Z' / Z)) = (_, _ / Z')
    rw [hw]
    simp only [traj, mul_assoc]
    rfl

theorem order_run {step : Noise R ℝ → UpdateCall R X MV ℝ → ParticleFilter R X ℝ →
      Outcome (Bool × ParticleFilter R X ℝ)} {good : ParticleFilter R X ℝ → Prop}
    {c : Nat → UpdateCall R X MV ℝ} {noise : Nat → Noise R ℝ} {mv : Nat → R → X → X}
    {G : Nat → X → X → ℝ} {T : Nat}
    (hok : ∀ t < T, StepOK step period threshold good (c t) (mv t) (G t))
    (hus : ∀ t, Uniforms (noise t).static ∧ Uniforms (noise t).dynamic)
    (hper : period = 0 ∨ T ≤ period) {N : Nat} {a : Fin N → X × ℝ} (ha : Normalised (List.ofFn a)) {f : ParticleFilter R X ℝ}
    (hf : Ready period threshold 0 f (List.ofFn a)) (hgood : good f)
    (hpos : ∀ t ≤ T, 0 < ∑ j, (a j).2 * (traj mv G (a j).1 (fun s => (noise s).prop j) t).2) :
    ∀ t ≤ T, ∃ f' n', ParticleFilter.run step ((List.range t).map fun t => (noise t, c t)) f = .ok (true, f') ∧
      n' ≤ t ∧ good f' ∧ Ready period threshold n' f'
        (List.ofFn (followed mv G a (fun s i => (noise s).prop i) t))
  | 0, _ => by
    refine ⟨f, 0, rfl, le_rfl, hgood, ?_⟩
    have e : followed mv G a (fun s i => (noise s).prop i) 0 = a := by
      funext i
      have hs : ∑ j, (a j).2 = 1 := by
        have := ha.2
        rwa [List.map_ofFn, List.sum_ofFn] at this
      simp only [followed, traj, mul_one, hs, div_one]
    rwa [e]
  | t + 1, ht => by
    obtain ⟨f1, n1, h1, h2, h3, h4⟩ := order_run hok hus hper ha hf hgood hpos t (by omega)
    obtain ⟨e1, e2⟩ := advance_followed (mv := mv) (G := G) (a := a) (ρ := fun s => (noise s).prop)
      (hpos t (by omega)) (hpos (t + 1) ht)
    have hno : ¬ (0 < n1 ∧ period ∣ n1) := by
      rintro ⟨a, b⟩
      rcases hper with rfl | hper
      · rw [Nat.zero_dvd] at b; omega
      · exact absurd (Nat.le_of_dvd a b) (by omega)
    obtain ⟨f2, n2, k1, k2, k3, k4⟩ := hok t (by omega) h4 h3 (hus t).1 (hus t).2 hno e1
    rw [e2] at k4
    refine ⟨f2, n2, ?_, by omega, k3, k4⟩
    rw [List.range_succ, List.map_append]
    exact run_snoc step (noise t, c t) k1 _ h1

theorem samples_holds {n : Nat} {f : ParticleFilter R X ℝ} {ps : List (X × ℝ)} (h : Ready period threshold n f ps) :
    Holds f.postGet ps := h.live.samples

theorem order_of_steps {step : Noise R ℝ → UpdateCall R X MV ℝ → ParticleFilter R X ℝ →
      Outcome (Bool × ParticleFilter R X ℝ)} {good : ParticleFilter R X ℝ → Prop}
    {c : Nat → UpdateCall R X MV ℝ} {noise noise' : Nat → Noise R ℝ} {mv : Nat → R → X → X}
    {G : Nat → X → X → ℝ} {T : Nat}
    (hok : ∀ t < T, StepOK step period threshold good (c t) (mv t) (G t)) (hG0 : ∀ t < T, ∀ x y, 0 ≤ G t x y)
    (hus : ∀ t, Uniforms (noise t).static ∧ Uniforms (noise t).dynamic)
    (hus' : ∀ t, Uniforms (noise' t).static ∧ Uniforms (noise' t).dynamic)
    (hper : period = 0 ∨ T ≤ period) {N : Nat} {a : Fin N → X × ℝ} (ha : Normalised (List.ofFn a)) (σ : Equiv.Perm (Fin N))
    (hn : ∀ t i, (noise' t).prop (i : Fin N) = (noise t).prop (σ i))
    (hpos : ∃ i, 0 < (a i).2 ∧ ∀ t < T, 0 < G t (placeAfter mv (fun s => (noise s).prop i) (a i).1 t)
      (placeAfter mv (fun s => (noise s).prop i) (a i).1 (t + 1)))
    {prior prior' : MCPdf ℝ X} {q : Option (Proposal R X ℝ)} {f f' : ParticleFilter R X ℝ}
    (hp : Holds prior (List.ofFn a)) (hp' : Holds prior' (List.ofFn (a ∘ σ)))
    (hf : ParticleFilter.make dflt prior q period threshold .multinomial = .ok f)
    (hf' : ParticleFilter.make dflt prior' q period threshold .multinomial = .ok f')
    (hgood : ∀ g : ParticleFilter R X ℝ, g.proposal = q → good g) :
    ∃ g g' b, f.run step ((List.range T).map fun t => (noise t, c t)) = .ok (true, g) ∧
      f'.run step ((List.range T).map fun t => (noise' t, c t)) = .ok (true, g') ∧
      Holds g.postGet (List.ofFn b) ∧ Holds g'.postGet (List.ofFn (b ∘ σ)) ∧
      ∀ i, (b i).1 = placeAfter mv (fun s => (noise s).prop i) (a i).1 T := by
  have w0 : ∀ i, 0 ≤ (a i).2 := fun i => ha.1 _ (by
    rw [List.map_ofFn, List.mem_ofFn]
    exact ⟨i, rfl⟩)
  have hG1 : ∀ t ≤ T, ∀ x (ρ : Nat → R), 0 ≤ (traj mv G x ρ t).2 := by
    intro t
    induction t with
    | zero => intro _ x ρ; exact zero_le_one
    | succ t ih => intro ht x ρ; exact mul_nonneg (ih (by omega) x ρ) (hG0 t (by omega) _ _)
  have h1 : ∀ t ≤ T, 0 < ∑ j, (a j).2 * (traj mv G (a j).1 (fun s => (noise s).prop j) t).2 := by
    intro t ht
    obtain ⟨i, hi, hG⟩ := hpos
    refine Finset.sum_pos' (fun j _ => mul_nonneg (w0 j) (hG1 t ht _ _)) ⟨i, Finset.mem_univ i, mul_pos hi ?_⟩
    exact traj_pos fun s hs => hG s (by omega)
  have h2 : ∀ t, ∑ j, ((a ∘ σ) j).2 * (traj mv G ((a ∘ σ) j).1 (fun s => (noise' s).prop j) t).2 =
      ∑ j, (a j).2 * (traj mv G (a j).1 (fun s => (noise s).prop j) t).2 := by
    intro t
    simp only [hn, Function.comp]
    exact Equiv.sum_comp σ fun j => (a j).2 * (traj mv G (a j).1 (fun s => (noise s).prop j) t).2
  have ha' : Normalised (List.ofFn (a ∘ σ)) := by
    refine ⟨fun w hw => ?_, ?_⟩
    · rw [List.map_ofFn, List.mem_ofFn] at hw
      obtain ⟨i, rfl⟩ := hw
      exact w0 (σ i)
    · have := ha.2
      rw [List.map_ofFn, List.sum_ofFn] at this ⊢
      rw [← this]
      exact Equiv.sum_comp σ fun j => (a j).2
  obtain ⟨r1, r2, -⟩ := pfMake_ready hp ha hf
  obtain ⟨r1', r2', -⟩ := pfMake_ready hp' ha' hf'
  obtain ⟨g, m, k1, -, -, k2⟩ := order_run hok hus hper ha r1 (hgood f r2) h1 T le_rfl
  obtain ⟨g', m', l1, -, -, l2⟩ := order_run hok hus' hper ha' r1' (hgood f' r2') (fun t ht => by rw [h2]; exact h1 t ht) T le_rfl
  refine ⟨g, g', _, k1, l1, samples_holds k2, ?_, fun i => traj_place _ _ _ _ _⟩
  have e : followed mv G a (fun s i => (noise s).prop i) T ∘ σ = followed mv G (a ∘ σ) (fun s i => (noise' s).prop i) T := by
    funext i
    have h3 := h2 T
    simp only [hn, Function.comp] at h3
    simp only [followed, Function.comp, hn, h3]
  rw [e]
  exact samples_holds l2

/-- **C120, order.** Two bootstrap filters start from the same samples in another order (`σ`), make the same updates, and
every sample has its random numbers with it. If some sample with weight allows all readings, both accept
everything, and in the end the samples and weights of one are those of the other in the other order. -/
theorem C120_order_bootstrap (hroot : IsRoot root) (ht : threshold ≤ 1) {c : Nat → UpdateCall R X MV ℝ}
    {noise noise' : Nat → Noise R ℝ} {mv : Nat → R → X → X} {G : Nat → X → X → ℝ} {T : Nat}
    (hc : ∀ t < T, BootStep (c t) (mv t) (G t))
    (hus : ∀ t, Uniforms (noise t).static ∧ Uniforms (noise t).dynamic)
    (hus' : ∀ t, Uniforms (noise' t).static ∧ Uniforms (noise' t).dynamic)
    (hper : period = 0 ∨ T ≤ period) {N : Nat} {a : Fin N → X × ℝ} (ha : Normalised (List.ofFn a)) (σ : Equiv.Perm (Fin N))
    (hn : ∀ t i, (noise' t).prop (i : Fin N) = (noise t).prop (σ i))
    (hpos : ∃ i, 0 < (a i).2 ∧ ∀ t < T, 0 < G t (placeAfter mv (fun s => (noise s).prop i) (a i).1 t)
      (placeAfter mv (fun s => (noise s).prop i) (a i).1 (t + 1)))
    {prior prior' : MCPdf ℝ X} {f f' : ParticleFilter R X ℝ}
    (hp : Holds prior (List.ofFn a)) (hp' : Holds prior' (List.ofFn (a ∘ σ)))
    (hf : ParticleFilter.make dflt prior none period threshold .multinomial = .ok f)
    (hf' : ParticleFilter.make dflt prior' none period threshold .multinomial = .ok f') :
    ∃ g g' b, f.run (ParticleFilter.bootUpdate dflt root) ((List.range T).map fun t => (noise t, c t)) = .ok (true, g) ∧
      f'.run (ParticleFilter.bootUpdate dflt root) ((List.range T).map fun t => (noise' t, c t)) = .ok (true, g') ∧
      Holds g.postGet (List.ofFn b) ∧ Holds g'.postGet (List.ofFn (b ∘ σ)) ∧
      ∀ i, (b i).1 = placeAfter mv (fun s => (noise s).prop i) (a i).1 T :=
  order_of_steps (good := fun _ => True) (fun t h => (hc t h).ok hroot ht) (fun t h => (hc t h).nonneg) hus hus' hper ha σ hn hpos
    hp hp' hf hf' fun _ _ => trivial

/-- One update of a particle filter with its own proposal `q`: `mv r x` is where the proposal draws a new state, and
`G x y` is the factor by which the weight changes. -/
inductive ParticleStep (q : Proposal R X ℝ) : UpdateCall R X MV ℝ → (R → X → X) → (X → X → ℝ) → Prop
  | full {m : SysModel R X ℝ} {mm : Model X MV ℝ} {u s : X} {z : MV} {Tr Q : X → X → X → ℝ} {L : MV → X → X → ℝ}
      {mv : R → X → X} (hm : IsTransition m Tr) (hq : IsProposal q m Q) (hl : IsLikelihood mm L) (hs : ¬ WithSensor mm)
      (hd : ∀ r x prev, q.draw r (argsFor m x u) prev = .ok (mv r x)) :
      ParticleStep q ⟨some m, u, some mm, z, s⟩ mv fun x y => importance (L z y s) (Tr x u y) (Q x u y)
  | reading {mm : Model X MV ℝ} {u s : X} {z : MV} {L : MV → X → X → ℝ} (hl : IsLikelihood mm L) :
      ParticleStep q ⟨none, u, some mm, z, s⟩ (fun _ x => x) fun _ y => L z y s
  | move {m : SysModel R X ℝ} {u s : X} {z : MV} {Tr Q : X → X → X → ℝ} {mv : R → X → X} (hm : IsTransition m Tr)
      (hq : IsProposal q m Q) (hd : ∀ r x prev, q.draw r (argsFor m x u) prev = .ok (mv r x)) :
      ParticleStep q ⟨some m, u, none, z, s⟩ mv fun _ _ => 1

theorem ParticleStep.nonneg {q : Proposal R X ℝ} {c : UpdateCall R X MV ℝ} {mv : R → X → X} {G : X → X → ℝ}
    (h : ParticleStep q c mv G) (x y : X) : 0 ≤ G x y := by
  cases h with
  | full hm hq hl hs hd =>
    show 0 ≤ importance _ _ _
    unfold importance
    obtain ⟨p, -, hm⟩ := hm
    split
    · exact le_rfl
    · exact mul_nonneg (hl.nonneg _ _ _) (div_nonneg (hm _ _ _).1 (hq.density _ _ _).1)
  | reading hl => exact hl.nonneg _ _ _
  | move => exact zero_le_one

theorem ParticleStep.ok (hroot : IsRoot root) (ht : threshold ≤ 1) {q : Proposal R X ℝ} {c : UpdateCall R X MV ℝ}
    {mv : R → X → X} {G : X → X → ℝ} (h : ParticleStep q c mv G) :
    StepOK (fun noise c f => ParticleFilter.update dflt root noise c f) period threshold
      (fun f => f.proposal = some q) c mv G := by
  cases h with
  | full hm hq hl hs hd => exact pf_full hroot ht hm hq hl hs hd _ _
  | reading hl => exact pf_measurement hroot ht hl _ _ _ _
  | move hm hq hd => exact pf_system hroot hm hq hd _ _

/-- **C120, order, with a proposal.** The same for a particle filter that draws from its own proposal. -/
theorem C120_order_particle (hroot : IsRoot root) (ht : threshold ≤ 1) {q : Proposal R X ℝ} {c : Nat → UpdateCall R X MV ℝ}
    {noise noise' : Nat → Noise R ℝ} {mv : Nat → R → X → X} {G : Nat → X → X → ℝ} {T : Nat}
    (hc : ∀ t < T, ParticleStep q (c t) (mv t) (G t))
    (hus : ∀ t, Uniforms (noise t).static ∧ Uniforms (noise t).dynamic)
    (hus' : ∀ t, Uniforms (noise' t).static ∧ Uniforms (noise' t).dynamic)
    (hper : period = 0 ∨ T ≤ period) {N : Nat} {a : Fin N → X × ℝ} (ha : Normalised (List.ofFn a)) (σ : Equiv.Perm (Fin N))
    (hn : ∀ t i, (noise' t).prop (i : Fin N) = (noise t).prop (σ i))
    (hpos : ∃ i, 0 < (a i).2 ∧ ∀ t < T, 0 < G t (placeAfter mv (fun s => (noise s).prop i) (a i).1 t)
      (placeAfter mv (fun s => (noise s).prop i) (a i).1 (t + 1)))
    {prior prior' : MCPdf ℝ X} {f f' : ParticleFilter R X ℝ}
    (hp : Holds prior (List.ofFn a)) (hp' : Holds prior' (List.ofFn (a ∘ σ)))
    (hf : ParticleFilter.make dflt prior (some q) period threshold .multinomial = .ok f)
    (hf' : ParticleFilter.make dflt prior' (some q) period threshold .multinomial = .ok f') :
    ∃ g g' b, f.run (ParticleFilter.update dflt root) ((List.range T).map fun t => (noise t, c t)) = .ok (true, g) ∧
      f'.run (ParticleFilter.update dflt root) ((List.range T).map fun t => (noise' t, c t)) = .ok (true, g') ∧
      Holds g.postGet (List.ofFn b) ∧ Holds g'.postGet (List.ofFn (b ∘ σ)) ∧
      ∀ i, (b i).1 = placeAfter mv (fun s => (noise s).prop i) (a i).1 T :=
  order_of_steps (good := fun f => f.proposal = some q) (fun t h => (hc t h).ok hroot ht) (fun t h => (hc t h).nonneg) hus hus'
    hper ha σ hn hpos hp hp' hf hf' fun _ h => h

/-- The coin of C75: samples `true` and `false`, in the other order, each with its own throws. After two throws and two
readings both filters hold the same, in the other order. -/
example (r : Nat → Nat → Bool) : ∃ (f f' g g' : ParticleFilter Bool Bool ℝ) (b : Fin 2 → Bool × ℝ),
    Holds f.postGet [(true, 1/3), (false, 2/3)] ∧ Holds f'.postGet [(false, 2/3), (true, 1/3)] ∧
    f.run (ParticleFilter.bootUpdate false fun _ y => y) ((List.range 2).map fun t =>
      (⟨r t, fun _ => 1, fun _ => 1⟩, ⟨some Toss.sys, true, some Toss.meas, true, true⟩)) = .ok (true, g) ∧
    f'.run (ParticleFilter.bootUpdate false fun _ y => y) ((List.range 2).map fun t =>
      (⟨fun i => r t (1 - i), fun _ => 1, fun _ => 1⟩, ⟨some Toss.sys, true, some Toss.meas, true, true⟩)) = .ok (true, g') ∧
    Holds g.postGet [b 0, b 1] ∧ Holds g'.postGet [b 1, b 0] ∧ (b 0).1 = r 1 0 ∧ (b 1).1 = r 1 1 := by
  have hn : Normalised (List.ofFn (![(true, 1/3), (false, 2/3)] : Fin 2 → Bool × ℝ)) := by
    refine ⟨?_, by norm_num [List.ofFn_succ]⟩
    intro w hw
    simp [List.ofFn_succ] at hw
    rcases hw with rfl | rfl <;> norm_num
  have hn' : Normalised (List.ofFn ((![(true, 1/3), (false, 2/3)] : Fin 2 → Bool × ℝ) ∘ Equiv.swap 0 1)) := by
    refine ⟨?_, by norm_num [List.ofFn_succ]⟩
    intro w hw
    simp [List.ofFn_succ] at hw
    rcases hw with rfl | rfl <;> norm_num
  obtain ⟨p, f, -, h1, -, h2, h3⟩ := start_exists (R := Bool) false hn none .multinomial (period := 0) (threshold := 1) (by norm_num)
  obtain ⟨p', f', -, k1, -, k2, k3⟩ := start_exists (R := Bool) false hn' none .multinomial (period := 0) (threshold := 1) (by norm_num)
  obtain ⟨g, g', b, l1, l2, l3, l4, l5⟩ := C120_order_bootstrap (MV := Bool) isRoot_id le_rfl (T := 2)
    (c := fun _ => ⟨some Toss.sys, true, some Toss.meas, true, true⟩)
    (noise := fun t => ⟨r t, fun _ => 1, fun _ => 1⟩) (noise' := fun t => ⟨fun i => r t (1 - i), fun _ => 1, fun _ => 1⟩)
    (mv := fun _ r _ => r) (G := fun _ _ y => Toss.lik true y)
    (fun t _ => BootStep.full Toss.sys_isTransition Toss.meas_isLikelihood (fun r _ _ _ => ⟨r, rfl⟩) fun _ _ _ => rfl)
    (fun t => ⟨Toss.uniforms_one t, Toss.uniforms_one t⟩) (fun t => ⟨Toss.uniforms_one t, Toss.uniforms_one t⟩) (.inl rfl) hn
    (Equiv.swap 0 1) (by intro t i; fin_cases i <;> rfl)
    ⟨0, by norm_num, fun t _ => by
      show 0 < Toss.lik true _
      unfold Toss.lik
      split <;> norm_num⟩ h1 k1 h2 k2
  refine ⟨f, f', g, g', b, ?_, ?_, l1, l2, ?_, ?_, l5 0, l5 1⟩
  · simpa [List.ofFn_succ] using h3
  · simpa [List.ofFn_succ] using k3
  · simpa [List.ofFn_succ] using l3
  · simpa [List.ofFn_succ] using l4

/-- The same with a proposal that throws a fair coin. -/
example (r : Nat → Nat → Bool) : ∃ (f f' g g' : ParticleFilter Bool Bool ℝ) (b : Fin 2 → Bool × ℝ),
    Holds f.postGet [(true, 1/3), (false, 2/3)] ∧ Holds f'.postGet [(false, 2/3), (true, 1/3)] ∧
    f.run (ParticleFilter.update false fun _ y => y) ((List.range 2).map fun t =>
      (⟨r t, fun _ => 1, fun _ => 1⟩, ⟨some Toss.sys, true, some Toss.meas, true, true⟩)) = .ok (true, g) ∧
    f'.run (ParticleFilter.update false fun _ y => y) ((List.range 2).map fun t =>
      (⟨fun i => r t (1 - i), fun _ => 1, fun _ => 1⟩, ⟨some Toss.sys, true, some Toss.meas, true, true⟩)) = .ok (true, g') ∧
    Holds g.postGet [b 0, b 1] ∧ Holds g'.postGet [b 1, b 0] ∧ (b 0).1 = r 1 0 ∧ (b 1).1 = r 1 1 := by
  have hn : Normalised (List.ofFn (![(true, 1/3), (false, 2/3)] : Fin 2 → Bool × ℝ)) := by
    refine ⟨?_, by norm_num [List.ofFn_succ]⟩
    intro w hw
    simp [List.ofFn_succ] at hw
    rcases hw with rfl | rfl <;> norm_num
  have hn' : Normalised (List.ofFn ((![(true, 1/3), (false, 2/3)] : Fin 2 → Bool × ℝ) ∘ Equiv.swap 0 1)) := by
    refine ⟨?_, by norm_num [List.ofFn_succ]⟩
    intro w hw
    simp [List.ofFn_succ] at hw
    rcases hw with rfl | rfl <;> norm_num
  obtain ⟨p, f, -, h1, -, h2, h3⟩ := start_exists (R := Bool) false hn (some Toss.prop) .multinomial (period := 0) (threshold := 1) (by norm_num)
  obtain ⟨p', f', -, k1, -, k2, k3⟩ := start_exists (R := Bool) false hn' (some Toss.prop) .multinomial (period := 0) (threshold := 1) (by norm_num)
  obtain ⟨g, g', b, l1, l2, l3, l4, l5⟩ := C120_order_particle (MV := Bool) isRoot_id le_rfl (T := 2) (q := Toss.prop)
    (c := fun _ => ⟨some Toss.sys, true, some Toss.meas, true, true⟩)
    (noise := fun t => ⟨r t, fun _ => 1, fun _ => 1⟩) (noise' := fun t => ⟨fun i => r t (1 - i), fun _ => 1, fun _ => 1⟩)
    (mv := fun _ r _ => r) (G := fun _ _ y => importance (Toss.lik true y) (Toss.tr y) (1 / 2))
    (fun t _ => ParticleStep.full Toss.sys_isTransition Toss.prop_isProposal Toss.meas_isLikelihood
      (by simp [WithSensor, Toss.meas]) fun _ _ _ => rfl)
    (fun t => ⟨Toss.uniforms_one t, Toss.uniforms_one t⟩) (fun t => ⟨Toss.uniforms_one t, Toss.uniforms_one t⟩) (.inl rfl) hn
    (Equiv.swap 0 1) (by intro t i; fin_cases i <;> rfl)
    ⟨0, by norm_num, fun t _ => by
      show 0 < importance (Toss.lik true _) (Toss.tr _) (1 / 2)
      unfold importance Toss.lik Toss.tr
      split_ifs <;> norm_num at *⟩ h1 k1 h2 k2
  refine ⟨f, f', g, g', b, ?_, ?_, l1, l2, ?_, ?_, l5 0, l5 1⟩
  · simpa [List.ofFn_succ] using h3
  · simpa [List.ofFn_succ] using k3
  · simpa [List.ofFn_succ] using l3
  · simpa [List.ofFn_succ] using l4

end order

end BFL.Props
