import Verif.Props.SmoothWorldSetup
import Verif.Props.Smoothing
import Verif.Lemmas.BestEstimate

/-! # Smoothing in a linear world -/

set_option linter.unusedSectionVars false

namespace BFL

open Matrix MeasureTheory Spec Moment

variable {Ω : Type} [MeasurableSpace Ω] {μ : Measure Ω} {n m k : Nat} {U : Type}

/-- What is uncorrelated with everything so far, with the state and with all later noises, is uncorrelated with all
later readings. -/
theorem readings_orth [IsProbabilityMeasure μ] {η : Ω → Fin k → ℝ} (hη : Square μ η) (h1 : Centred μ η)
    (es : List (Event Ω n U)) : ∀ {X : Ω → Fin n → ℝ}, Square μ X → moment μ η X = 0 →
    (∀ e ∈ es, Square μ e.noise ∧ moment μ η e.noise = 0) →
    ∀ Y ∈ readings es X, MemLp Y 2 μ ∧ moment μ η (col Y) = 0 := by
  have hconst : ∀ {m : Nat} (c : Fin m → ℝ), moment μ η (fun _ => c) = 0 := by
    intro m c
    ext i j
    simp only [moment, Matrix.of_apply, Matrix.zero_apply]
    rw [integral_mul_const, h1 i, zero_mul]
  have haff : ∀ {m p : Nat} (A : Matrix (Fin m) (Fin p) ℝ) (b : Fin m → ℝ) {X : Ω → Fin p → ℝ} {w : Ω → Fin m → ℝ},
      Square μ X → moment μ η X = 0 → Square μ w → moment μ η w = 0 →
      Square μ (fun ω => A *ᵥ X ω + b + w ω) ∧ moment μ η (fun ω => A *ᵥ X ω + b + w ω) = 0 := by
    intro m p A b X w hX hX0 hw hw0
    have hA := square_mulVec A hX
    have hb := square_const (μ := μ) b
    have hAb := square_add hA hb
    refine ⟨square_add hAb hw, ?_⟩
    rw [add_right hAb hw hη, add_right hA hb hη, mulVec_right A hX hη, hX0, hw0, hconst b]
    simp
  induction es with
  | nil => intro X _ _ _ Y hY; exact absurd hY (Set.notMem_empty Y)
  | cons e es ih =>
    intro X hX hX0 hn Y hY
    obtain ⟨hw, hw0⟩ := hn e (by simp)
    cases e with
    | move model u A b Q w =>
      obtain ⟨a1, a2⟩ := haff A b hX hX0 hw hw0
      have hY' : Y ∈ readings es (fun ω => A *ᵥ X ω + b + w ω) := by
        rcases hY with hY | hY
        · exact absurd hY (Set.notMem_empty Y)
        · exact hY
      exact ih a1 a2 (fun e he => hn e (by simp [he])) Y hY'
    | read m model s H c R v =>
      obtain ⟨a1, a2⟩ := haff H c hX hX0 hw hw0
      rcases hY with ⟨i, rfl⟩ | hY
      · exact ⟨a1 i, eq_zero_iff.1 a2 i⟩
      · exact ih hX hX0 (fun e he => hn e (by simp [he])) Y hY

/-- The smoother as seen by `Tracks`. -/
def asFilter (g : RTS ℝ n) : KF ℝ n := ⟨g.mu, g.sigma, 0⟩

/-- One smoothing step. -/
theorem tracks_back [IsProbabilityMeasure μ] {S : Set (Ω → ℝ)} {X : Ω → Fin n → ℝ} {f : Ω → KF ℝ n}
    {P A Q Ps : Matrix (Fin n) (Fin n) ℝ} {b : Fin n → ℝ} {w : Ω → Fin n → ℝ} {es : List (Event Ω n U)}
    {g g' : Ω → KF ℝ n} (h : Tracks μ S X f P) (hw : Fresh μ S X f w) (hQ : moment μ w w = Q) (hQp : PD Q)
    (hes : ∀ e ∈ es, Fresh μ S X f e.noise ∧ moment μ w e.noise = 0)
    (hg : Tracks μ (S ∪ readings es (fun ω => A *ᵥ X ω + b + w ω)) (fun ω => A *ᵥ X ω + b + w ω) g Ps)
    (hm : ∀ ω, (g' ω).mu = smoothedMean (f ω).mu P A Q (A *ᵥ (f ω).mu + b) (g ω).mu)
    (hs : ∀ ω, (g' ω).sigma = smoothedCov P A Q Ps) :
    Tracks μ (S ∪ readings es (fun ω => A *ᵥ X ω + b + w ω)) X g' (smoothedCov P A Q Ps) := by
  have hP : PSD P := by rw [← h.moment]; exact psd h.square
  have hdet := (innovCov_pd (H := A) hP hQp).det_ne
  obtain ⟨G, hG⟩ : ∃ G, G = kgain P A Q := ⟨_, rfl⟩
  -- the filter that would observe the successor
  obtain ⟨t1, t2⟩ := tracks_read (H := A) (c := b) (v := w)
    (f' := fun ω => ⟨kgain P A Q *ᵥ (A *ᵥ X ω + b + w ω - (A *ᵥ (f ω).mu + b)) + (f ω).mu, kcov P A Q, 0⟩)
    h hw hQ hdet (fun ω => rfl) (fun ω => rfl)
  obtain ⟨η, hη⟩ : ∃ η : Ω → Fin n → ℝ, η = fun ω => X ω -
    (kgain P A Q *ᵥ (A *ᵥ X ω + b + w ω - (A *ᵥ (f ω).mu + b)) + (f ω).mu) := ⟨_, rfl⟩
  have sη : Square μ η := by rw [hη]; exact t1.square
  have mη : moment μ η η = kcov P A Q := by rw [hη]; exact t1.moment
  have oη : ∀ Y ∈ S, moment μ η (col Y) = 0 := fun Y hY => by rw [hη]; exact t1.orth Y (Or.inl hY)
  have cη : Centred μ η := centred_iff.2 (oη _ h.one)
  have sX1 : Square μ (fun ω => A *ᵥ X ω + b + w ω) := fun i => t1.mem _ (Or.inr ⟨i, rfl⟩)
  have xη : moment μ η (fun ω => A *ᵥ X ω + b + w ω) = 0 :=
    eq_zero_iff.2 fun i => by rw [hη]; exact t1.orth _ (Or.inr ⟨i, rfl⟩)
  have rη := readings_orth sη cη es sX1 xη fun e he => ⟨(hes e he).1.square, by
    rw [hη]; exact (t2 (hes e he).1 (hes e he).2).error⟩
  have aη : ∀ Y ∈ S ∪ readings es (fun ω => A *ᵥ X ω + b + w ω), MemLp Y 2 μ ∧ moment μ η (col Y) = 0 := by
    rintro Y (hY | hY)
    · exact ⟨h.mem Y hY, oη Y hY⟩
    · exact rη Y hY
  have gη := hg.inside.orth sη aη
  have eη : moment μ η (fun ω => A *ᵥ X ω + b + w ω - (g ω).mu) = 0 := by
    have e : (fun ω => A *ᵥ X ω + b + w ω - (g ω).mu)
        = fun ω => (A *ᵥ X ω + b + w ω) + (-1 : Matrix (Fin n) (Fin n) ℝ) *ᵥ (g ω).mu := by
      funext ω; rw [Matrix.neg_mulVec, Matrix.one_mulVec, sub_eq_add_neg]
    rw [e, add_right sX1 (square_mulVec _ gη.1) sη, xη, mulVec_right _ gη.1 sη, gη.2]
    simp
  have e : (fun ω => X ω - (g' ω).mu) = fun ω => η ω + G *ᵥ (A *ᵥ X ω + b + w ω - (g ω).mu) := by
    funext ω
    rw [hm, hη, hG]
    show X ω - ((f ω).mu + kgain P A Q *ᵥ ((g ω).mu - (A *ᵥ (f ω).mu + b))) = _
    simp only [mulVec_sub, mulVec_add]
    abel
  have sG := square_mulVec G hg.square
  have sE := square_add sη sG
  refine ⟨hs, by rw [e]; exact sE, ?_, Or.inl h.one, hg.mem, fun Y hY => ?_, ?_⟩
  · rw [e, add_left sη sG sE, add_right sη sG sη, add_right sη sG sG, mulVec_left G hg.square sη,
      mulVec_left G hg.square sG, mulVec_right G hg.square sη, mulVec_right G hg.square hg.square, hg.moment, eη,
      swap _ (fun ω => A *ᵥ X ω + b + w ω - (g ω).mu), eη, mη,
      smoothedCov_split hP.1 hQp.1 hdet, hG]
    simp [smootherGain, kgain, innovCov, Matrix.mul_assoc]
  · rw [e, add_left sη sG (square_col (hg.mem Y hY)), (aη Y hY).2,
      mulVec_left G hg.square (square_col (hg.mem Y hY)), hg.orth Y hY]
    simp
  · have e2 : (fun ω => (g' ω).mu) = fun ω => (f ω).mu + G *ᵥ ((g ω).mu - (A *ᵥ (f ω).mu + b)) := by
      funext ω; rw [hm, hG]; rfl
    have hle := Submodule.span_mono (R := ℝ) (Set.subset_union_left (s := S)
      (t := readings es (fun ω => A *ᵥ X ω + b + w ω)))
    have hf : In (Submodule.span ℝ (S ∪ readings es (fun ω => A *ᵥ X ω + b + w ω))) (fun ω => (f ω).mu) :=
      fun i => hle (h.inside i)
    rw [e2]
    exact hf.add ((hg.inside.sub ((hf.mulVec A).add (In.const (hle (Submodule.subset_span h.one)) b))).mulVec G)

/-- Smoothing over any history. -/
theorem smooth_tracks [IsProbabilityMeasure μ] (be : Backend) {kind : KF.Kind ℝ n} (hk : kind.Runs)
    (es : List (Event Ω n U)) : ∀ {S : Set (Ω → ℝ)} {X : Ω → Fin n → ℝ} {f : Ω → KF ℝ n}
    {P : Matrix (Fin n) (Fin n) ℝ}, Tracks μ S X f P → (∀ e ∈ es, e.Told μ ∧ e.Stirred) →
    (∀ e ∈ es, Fresh μ S X f e.noise) → Apart μ es →
    ∃ (g : Ω → RTS ℝ n) (l : Ω → List (RTS ℝ n)),
      (∀ ω, Props.smoothCalls be kind (calls es X ω) (f ω) = .ok (g ω, l ω)) ∧
      ∀ k ≤ es.length, ∃ (gk : Ω → RTS ℝ n) (Pk : Matrix (Fin n) (Fin n) ℝ), (∀ ω, (g ω :: l ω)[k]? = some (gk ω)) ∧
        Tracks μ (S ∪ readings es X) (lastState (es.take k) X) (fun ω => asFilter (gk ω)) Pk := by
  induction es with
  | nil =>
    intro S X f P h _ _ _
    refine ⟨fun ω => RTS.make (f ω).mu (f ω).sigma, fun _ => [], fun ω => rfl, fun k hk => ?_⟩
    obtain rfl : k = 0 := by simpa using hk
    refine ⟨fun ω => RTS.make (f ω).mu (f ω).sigma, P, fun ω => rfl, ?_⟩
    simp only [readings, Set.union_empty, List.take_nil, lastState]
    exact ⟨h.sigma, h.square, h.moment, h.one, h.mem, h.orth, h.inside⟩
  | cons e es ih =>
    intro S X f P h ht hf ha
    have hP : PSD P := by rw [← h.moment]; exact psd h.square
    have hfe := hf e (by simp)
    have hte := ht e (by simp)
    obtain ⟨ha1, ha2⟩ := List.pairwise_cons.1 ha
    cases e with
    | move model u A b Q w =>
      obtain ⟨⟨hl, hw, hc, hQ⟩, hQp⟩ := hte
      have hp := (hP.congr A).add hQp.psd
      obtain ⟨t1, t2⟩ := tracks_move (A := A) (b := b) (w := w)
        (f' := fun ω => ⟨A *ᵥ (f ω).mu + b, A * P * Aᵀ + Q, (f ω).timestep⟩) h hfe hQ
        (fun ω => rfl) (fun ω => rfl)
      obtain ⟨g, l, e1, e2⟩ := ih t1 (fun a h => ht a (by simp [h])) (fun a h => t2 (hf a (by simp [h])) (ha1 a h)) ha2
      obtain ⟨g0, P0, hg0, ht0⟩ := e2 0 (Nat.zero_le _)
      have hgg : g0 = g := by
        funext ω
        have := hg0 ω
        simp only [List.getElem?_cons_zero, Option.some.injEq] at this
        exact this.symm
      subst hgg
      have hP0 : PSD P0 := by rw [← ht0.moment]; exact psd ht0.square
      have hread : readings (Event.move model u A b Q w :: es) X = readings es (fun ω => A *ᵥ X ω + b + w ω) := by
        show ∅ ∪ readings es _ = _
        rw [Set.empty_union]; rfl
      have hback : ∀ ω, Props.backward be (some (model, u)) (f ω) (g0 ω) = .ok
          ⟨smoothedMean (f ω).mu P A Q (A *ᵥ (f ω).mu + b) (g0 ω).mu, smoothedCov P A Q P0, (g0 ω).timestep⟩ := by
        intro ω
        have hsig : (g0 ω).sigma = P0 := ht0.sigma ω
        simp only [Props.backward, RTS.update]
        rw [h.sigma ω, Props.C39_formula_partial be model u (f ω).mu b P A Q (g0 ω) hl hP hQp.psd
          (by rw [hsig]; exact hP0) (innovCov_pd hP hQp).det_ne, hsig]
        rfl
      refine ⟨fun ω => ⟨smoothedMean (f ω).mu P A Q (A *ᵥ (f ω).mu + b) (g0 ω).mu, smoothedCov P A Q P0,
        (g0 ω).timestep⟩, fun ω => g0 ω :: l ω, fun ω => ?_, ?_⟩
      · have hup : (f ω).update (m := 0) be kind (some (model, u)) none = .ok
            (true, ⟨A *ᵥ (f ω).mu + b, A * P * Aᵀ + Q, (f ω).timestep⟩) := by
          simp only [KF.update, KF.sysPart]
          rw [sysUpdate_eq (hl _), h.sigma ω, be.toSym_of_symm hp.1]
          rfl
        simp only [calls, Event.call, Props.smoothCalls]
        rw [hup]
        simp only [Outcome.ok_bind]
        have e1' := e1 ω
        rw [show calls es (Event.next (Event.move model u A b Q w) X) ω
          = calls es (fun ω => A *ᵥ X ω + b + w ω) ω from rfl, e1']
        simp only [Outcome.ok_bind]
        rw [hback ω]
        rfl
      · rw [hread]
        intro k hk
        cases k with
        | zero =>
          refine ⟨fun ω => ⟨smoothedMean (f ω).mu P A Q (A *ᵥ (f ω).mu + b) (g0 ω).mu, smoothedCov P A Q P0,
            (g0 ω).timestep⟩, smoothedCov P A Q P0, fun ω => rfl, ?_⟩
          exact tracks_back (g' := fun ω => asFilter ⟨smoothedMean (f ω).mu P A Q (A *ᵥ (f ω).mu + b) (g0 ω).mu,
              smoothedCov P A Q P0, (g0 ω).timestep⟩) h hfe hQ hQp
            (fun e he => ⟨hf e (by simp [he]), ha1 e he⟩) ht0 (fun ω => rfl) (fun ω => rfl)
        | succ k => exact e2 k (by simpa using hk)
    | read m model s H c R v =>
      obtain ⟨⟨hl, hv, hc, hR, hpd⟩, _⟩ := hte
      obtain ⟨t1, t2⟩ := tracks_read (H := H) (c := c) (v := v)
        (f' := fun ω => ⟨kgain P H R *ᵥ (H *ᵥ X ω + c + v ω - (H *ᵥ (f ω).mu + c)) + (f ω).mu,
          kcov P H R, (f ω).timestep⟩) h hfe hR (innovCov_pd hP hpd).det_ne
        (fun ω => rfl) (fun ω => rfl)
      obtain ⟨g, l, e1, e2⟩ := ih t1 (fun a h => ht a (by simp [h])) (fun a h => t2 (hf a (by simp [h])) (ha1 a h)) ha2
      have hread : S ∪ readings (Event.read m model s H c R v :: es) X
          = S ∪ {Y | ∃ i : Fin m, Y = fun ω => (H *ᵥ X ω + c + v ω) i} ∪ readings es X := by
        rw [Set.union_assoc]; rfl
      refine ⟨g, fun ω => g ω :: l ω, fun ω => ?_, ?_⟩
      · have hup : (f ω).update be kind none (some (model, H *ᵥ X ω + c + v ω, s)) = .ok
            (true, ⟨kgain P H R *ᵥ (H *ᵥ X ω + c + v ω - (H *ᵥ (f ω).mu + c)) + (f ω).mu,
          kcov P H R, (f ω).timestep⟩) := by
          simp only [KF.update, KF.sysPart, KF.measPart, Outcome.ok_bind]
          rw [measUpdate_linear hk hl, calc_valid (by rw [h.sigma ω]; exact hP) hpd, h.sigma ω]
          rfl
        simp only [calls, Event.call, Props.smoothCalls]
        rw [hup]
        simp only [Outcome.ok_bind]
        rw [show calls es (Event.next (Event.read m model s H c R v) X) ω = calls es X ω from rfl, e1 ω]
        rfl
      · rw [hread]
        intro k hk
        cases k with
        | zero =>
          obtain ⟨g0, P0, hg0, ht0⟩ := e2 0 (Nat.zero_le _)
          refine ⟨g0, P0, fun ω => ?_, ht0⟩
          have := hg0 ω
          simpa using this
        | succ k => exact e2 k (by simpa using hk)

/-- The first readings are among all readings. -/
theorem readings_take (es : List (Event Ω n U)) : ∀ (k : Nat) (X : Ω → Fin n → ℝ),
    readings (es.take k) X ⊆ readings es X := by
  induction es with
  | nil => intro k X; simp
  | cons e es ih =>
    intro k X
    cases k with
    | zero => exact Set.empty_subset _
    | succ k => exact Set.union_subset_union_right _ (ih k _)

/-- Everything about the error of an estimate from all readings, with normal noise. -/
theorem smooth_law [IsProbabilityMeasure μ] {es : List (Event Ω n U)} {X X' : Ω → Fin n → ℝ} {f : Ω → KF ℝ n}
    {P : Matrix (Fin n) (Fin n) ℝ} (hN : JointlyNormal μ (sources es X))
    (h : Tracks μ ({fun _ => 1} ∪ readings es X) X' f P)
    (hX' : In (Submodule.span ℝ (insert (fun _ => (1 : ℝ)) (sources es X))) X') :
    In (Submodule.span ℝ (insert (fun _ => (1 : ℝ)) (sources es X))) (fun ω => X' ω - (f ω).mu) ∧
      ProbabilityTheory.IndepFun (fun ω => X' ω - (f ω).mu) (heard es X) μ := by
  have one : (fun _ => (1 : ℝ)) ∈ Submodule.span ℝ (insert (fun _ => (1 : ℝ)) (sources es X)) :=
    Submodule.subset_span (Set.mem_insert _ _)
  have hX : In (Submodule.span ℝ (insert (fun _ => (1 : ℝ)) (sources es X))) X :=
    fun i => Submodule.subset_span (Or.inr (Or.inl ⟨i, rfl⟩))
  have hw : ∀ e ∈ es, In (Submodule.span ℝ (insert (fun _ => (1 : ℝ)) (sources es X))) e.noise :=
    fun e he i => Submodule.subset_span (Or.inr (Or.inr ⟨e, he, i, rfl⟩))
  have hr := readings_in one es hX hw
  have hE : In (Submodule.span ℝ (insert (fun _ => (1 : ℝ)) (sources es X))) (fun ω => X' ω - (f ω).mu) :=
    hX'.sub fun i =>
      Submodule.span_le.2 (by rintro Y (rfl | hY); exacts [one, hr Y hY]) (h.inside i)
  exact ⟨hE, indep_of_orth hN hE hr (centred_iff.2 (h.orth _ h.one)) fun Y hY => h.orth Y (Or.inr hY)⟩

/-- The states on the way are combinations of the sources. -/
theorem take_in (es : List (Event Ω n U)) (k : Nat) (X : Ω → Fin n → ℝ) :
    In (Submodule.span ℝ (insert (fun _ => (1 : ℝ)) (sources es X))) (lastState (es.take k) X) :=
  lastState_in (Submodule.subset_span (Set.mem_insert _ _)) _
    (fun i => Submodule.subset_span (Or.inr (Or.inl ⟨i, rfl⟩)))
    fun e he i => Submodule.subset_span (Or.inr (Or.inr ⟨e, List.mem_of_mem_take he, i, rfl⟩))

/-- The law of a combination of a centred normal vector. -/
theorem normal_combination [IsProbabilityMeasure μ] {S : Set (Ω → ℝ)} (hN : JointlyNormal μ S)
    {E : Ω → Fin n → ℝ} {P : Matrix (Fin n) (Fin n) ℝ}
    (h7 : In (Submodule.span ℝ (insert (fun _ => (1 : ℝ)) S)) E) (h3 : Square μ E) (h4 : moment μ E E = P)
    (h5 : Centred μ E) (a : Fin n → ℝ) :
    μ.map (fun ω => a ⬝ᵥ E ω) = ProbabilityTheory.gaussianReal 0 (quad P a).toNNReal := by
  have hA : In (Submodule.span ℝ (insert (fun _ => (1 : ℝ)) S))
      (fun ω => Matrix.of (fun _ : Fin 1 => a) *ᵥ E ω) := h7.mulVec _
  have e : (fun ω => a ⬝ᵥ E ω) = fun ω => (Matrix.of (fun _ : Fin 1 => a) *ᵥ E ω) 0 := rfl
  have hg := (gaussian_vector hN (Y := fun _ : Unit => fun ω =>
    (Matrix.of (fun _ : Fin 1 => a) *ᵥ E ω) 0) fun _ => hA 0).eval ()
  have m0 : ∫ ω, (Matrix.of (fun _ : Fin 1 => a) *ᵥ E ω) 0 ∂μ = 0 := by
    have : Centred μ (fun ω => Matrix.of (fun _ : Fin 1 => a) *ᵥ E ω) := by
      rw [centred_iff, mulVec_left _ h3 (square_col (memLp_const 1)), centred_iff.1 h5, Matrix.mul_zero]
    exact this 0
  have mm : ∫ ω, (Matrix.of (fun _ : Fin 1 => a) *ᵥ E ω) 0 *
      (Matrix.of (fun _ : Fin 1 => a) *ᵥ E ω) 0 ∂μ = quad P a := by
    have := mulVec_left (Matrix.of (fun _ : Fin 1 => a)) h3 (square_mulVec (Matrix.of (fun _ : Fin 1 => a)) h3)
    rw [mulVec_right _ h3 h3, h4] at this
    have h00 := congrFun (congrFun this 0) 0
    refine Eq.trans h00 ?_
    simp [quad, Matrix.mul_apply, dotProduct, mulVec]
  rw [e, hg.map_eq_gaussianReal, m0]
  congr 2
  rw [ProbabilityTheory.variance_of_integral_eq_zero hg.aemeasurable m0, ← mm]
  simp only [sq]

end BFL
