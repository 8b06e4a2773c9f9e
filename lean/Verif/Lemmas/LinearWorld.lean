import Verif.Spec.LinearWorld

/-! # Second moments, and one step of the filter in a linear world -/

set_option linter.unusedSectionVars false

namespace BFL

open Matrix MeasureTheory Spec

variable {Ω : Type} [MeasurableSpace Ω] {μ : Measure Ω} {n m k : Nat} {U : Type}

namespace Moment

theorem int (X : Ω → Fin n → ℝ) (Y : Ω → Fin m → ℝ) (hX : Square μ X) (hY : Square μ Y) (i j) :
    Integrable (fun ω => X ω i * Y ω j) μ := (hX i).integrable_mul (hY j)

theorem square_add {X Y : Ω → Fin n → ℝ} (hX : Square μ X) (hY : Square μ Y) :
    Square μ (fun ω => X ω + Y ω) := fun i => (hX i).add (hY i)

theorem square_mulVec (A : Matrix (Fin m) (Fin n) ℝ) {X : Ω → Fin n → ℝ} (hX : Square μ X) :
    Square μ (fun ω => A *ᵥ X ω) := by
  intro i
  simp only [Matrix.mulVec, dotProduct]
  exact memLp_finsetSum _ fun j _ => (hX j).const_mul _

theorem square_const [IsProbabilityMeasure μ] (c : Fin n → ℝ) : Square μ (fun _ => c) :=
  fun _ => memLp_const _

theorem swap (X : Ω → Fin n → ℝ) (Y : Ω → Fin m → ℝ) : moment μ Y X = (moment μ X Y)ᵀ := by
  ext i j
  simp only [moment, Matrix.of_apply, Matrix.transpose_apply]
  congr 1; funext ω; ring

theorem add_left {X Y : Ω → Fin n → ℝ} {Z : Ω → Fin m → ℝ} (hX : Square μ X) (hY : Square μ Y)
    (hZ : Square μ Z) : moment μ (fun ω => X ω + Y ω) Z = moment μ X Z + moment μ Y Z := by
  ext i j
  simp only [moment, Matrix.of_apply, Matrix.add_apply, Pi.add_apply, add_mul]
  exact integral_add (int X Z hX hZ i j) (int Y Z hY hZ i j)

theorem mulVec_left (A : Matrix (Fin k) (Fin n) ℝ) {X : Ω → Fin n → ℝ} {Z : Ω → Fin m → ℝ}
    (hX : Square μ X) (hZ : Square μ Z) : moment μ (fun ω => A *ᵥ X ω) Z = A * moment μ X Z := by
  ext i j
  simp only [moment, Matrix.of_apply, Matrix.mul_apply, Matrix.mulVec, dotProduct, Finset.sum_mul]
  rw [integral_finsetSum]
  · congr 1; funext l
    rw [← integral_const_mul]
    congr 1; funext ω; ring
  · intro l _
    have := (int X Z hX hZ l j).const_mul (A i l)
    simpa only [mul_assoc] using this

theorem add_right {X Y : Ω → Fin n → ℝ} {Z : Ω → Fin m → ℝ} (hX : Square μ X) (hY : Square μ Y)
    (hZ : Square μ Z) : moment μ Z (fun ω => X ω + Y ω) = moment μ Z X + moment μ Z Y := by
  rw [swap, add_left hX hY hZ, transpose_add, ← swap, ← swap]

theorem mulVec_right (A : Matrix (Fin k) (Fin n) ℝ) {X : Ω → Fin n → ℝ} {Z : Ω → Fin m → ℝ}
    (hX : Square μ X) (hZ : Square μ Z) : moment μ Z (fun ω => A *ᵥ X ω) = moment μ Z X * Aᵀ := by
  rw [swap, mulVec_left A hX hZ, transpose_mul, ← swap]

/-- A scalar as a column. -/
def col (Y : Ω → ℝ) : Ω → Fin 1 → ℝ := fun ω _ => Y ω

theorem square_col {Y : Ω → ℝ} (h : MemLp Y 2 μ) : Square μ (col Y) := fun _ => h

theorem eq_zero_iff {X : Ω → Fin n → ℝ} {Y : Ω → Fin m → ℝ} :
    moment μ X Y = 0 ↔ ∀ j, moment μ X (col fun ω => Y ω j) = 0 := by
  constructor
  · intro h j
    ext i l
    exact congrFun (congrFun h i) j
  · intro h
    ext i j
    exact congrFun (congrFun (h j) i) 0

theorem psd {X : Ω → Fin n → ℝ} (hX : Square μ X) : PSD (moment μ X X) := by
  refine ⟨(swap X X).symm, fun x => ?_⟩
  have e : x ⬝ᵥ (moment μ X X *ᵥ x) = ∫ ω, (x ⬝ᵥ X ω) * (x ⬝ᵥ X ω) ∂μ := by
    have h1 := mulVec_left (Matrix.of fun (_ : Fin 1) j => x j) hX hX
    have h2 := mulVec_right (Matrix.of fun (_ : Fin 1) j => x j) hX
      (square_mulVec (Matrix.of fun (_ : Fin 1) j => x j) hX)
    rw [h1] at h2
    have h3 := congrFun (congrFun h2 0) 0
    simp only [moment, Matrix.of_apply, Matrix.mulVec, Matrix.mul_apply, Matrix.transpose_apply] at h3
    simp only [dotProduct, Matrix.mulVec, moment, Matrix.of_apply]
    simp only [dotProduct] at h3
    rw [h3]
    simp only [Finset.mul_sum, Finset.sum_mul]
    rw [Finset.sum_comm]
    refine Finset.sum_congr rfl fun i _ => Finset.sum_congr rfl fun j _ => by ring
  rw [e]
  exact integral_nonneg fun ω => mul_self_nonneg _

theorem centred_iff {X : Ω → Fin n → ℝ} : Centred μ X ↔ moment μ X (col fun _ => 1) = 0 := by
  constructor
  · intro h; ext i j
    simpa [moment, col] using h i
  · intro h i
    simpa [moment, col] using congrFun (congrFun h i) 0

/-- Coordinates in a submodule. -/
def In (W : Submodule ℝ (Ω → ℝ)) (Y : Ω → Fin n → ℝ) : Prop := ∀ i, (fun ω => Y ω i) ∈ W

theorem In.add {W : Submodule ℝ (Ω → ℝ)} {X Y : Ω → Fin n → ℝ} (hX : In W X) (hY : In W Y) :
    In W (fun ω => X ω + Y ω) := fun i => W.add_mem (hX i) (hY i)

theorem In.sub {W : Submodule ℝ (Ω → ℝ)} {X Y : Ω → Fin n → ℝ} (hX : In W X) (hY : In W Y) :
    In W (fun ω => X ω - Y ω) := fun i => W.sub_mem (hX i) (hY i)

theorem In.mulVec {W : Submodule ℝ (Ω → ℝ)} (A : Matrix (Fin m) (Fin n) ℝ) {X : Ω → Fin n → ℝ}
    (hX : In W X) : In W (fun ω => A *ᵥ X ω) := by
  intro i
  have : (fun ω => (A *ᵥ X ω) i) = ∑ j, A i j • (fun ω => X ω j) := by
    funext ω
    simp [Matrix.mulVec, dotProduct]
  rw [this]
  exact W.sum_mem fun j _ => W.smul_mem _ (hX j)

theorem In.const {W : Submodule ℝ (Ω → ℝ)} (h1 : (fun _ => (1 : ℝ)) ∈ W) (c : Fin n → ℝ) :
    In W (fun _ => c) := by
  intro i
  have : (fun _ : Ω => c i) = c i • (fun _ => (1 : ℝ)) := by funext ω; simp
  rw [this]
  exact W.smul_mem _ h1

/-- A random vector orthogonal to each generator is orthogonal to the span. -/
theorem span_orth {S : Set (Ω → ℝ)} {X : Ω → Fin n → ℝ} (hX : Square μ X)
    (hS : ∀ Y ∈ S, MemLp Y 2 μ ∧ moment μ X (col Y) = 0) :
    ∀ Y ∈ Submodule.span ℝ S, MemLp Y 2 μ ∧ moment μ X (col Y) = 0 := by
  intro Y hY
  induction hY using Submodule.span_induction with
  | mem Y h => exact hS Y h
  | zero => exact ⟨MemLp.zero, by ext i j; simp [moment, col]⟩
  | add Y Z _ _ h1 h2 =>
    refine ⟨h1.1.add h2.1, ?_⟩
    have := add_right (square_col h1.1) (square_col h2.1) hX
    rw [h1.2, h2.2, add_zero] at this
    exact this
  | smul a Y _ h =>
    refine ⟨h.1.const_smul a, ?_⟩
    have := mulVec_right (!![a] : Matrix (Fin 1) (Fin 1) ℝ) (square_col h.1) hX
    rw [h.2, Matrix.zero_mul] at this
    rw [← this]
    congr 1
    funext ω i
    fin_cases i
    simp [col, Matrix.mulVec, dotProduct]

theorem In.orth {S : Set (Ω → ℝ)} {X : Ω → Fin n → ℝ} (hX : Square μ X)
    (hS : ∀ Y ∈ S, MemLp Y 2 μ ∧ moment μ X (col Y) = 0) {Y : Ω → Fin m → ℝ}
    (hY : In (Submodule.span ℝ S) Y) : Square μ Y ∧ moment μ X Y = 0 :=
  ⟨fun i => (span_orth hX hS _ (hY i)).1, eq_zero_iff.2 fun j => (span_orth hX hS _ (hY j)).2⟩

end Moment

open Moment

/-- The filter between two events: `f ω` the filter, `X ω` the state, `S` the readings so far. -/
structure Tracks (μ : Measure Ω) (S : Set (Ω → ℝ)) (X : Ω → Fin n → ℝ) (f : Ω → KF ℝ n)
    (P : Matrix (Fin n) (Fin n) ℝ) : Prop where
  sigma : ∀ ω, (f ω).sigma = P
  square : Square μ (fun ω => X ω - (f ω).mu)
  moment : moment μ (fun ω => X ω - (f ω).mu) (fun ω => X ω - (f ω).mu) = P
  one : (fun _ => (1 : ℝ)) ∈ S
  mem : ∀ Y ∈ S, MemLp Y 2 μ
  orth : ∀ Y ∈ S, Spec.moment μ (fun ω => X ω - (f ω).mu) (col Y) = 0
  inside : In (Submodule.span ℝ S) (fun ω => (f ω).mu)

/-- A future noise. -/
structure Fresh (μ : Measure Ω) (S : Set (Ω → ℝ)) (X : Ω → Fin n → ℝ) (f : Ω → KF ℝ n)
    (w : Ω → Fin m → ℝ) : Prop where
  square : Square μ w
  error : moment μ (fun ω => X ω - (f ω).mu) w = 0
  orth : ∀ Y ∈ S, moment μ w (col Y) = 0

theorem tracks_move {S : Set (Ω → ℝ)} {X : Ω → Fin n → ℝ} {f f' : Ω → KF ℝ n}
    {P A Q : Matrix (Fin n) (Fin n) ℝ} {b : Fin n → ℝ} {w : Ω → Fin n → ℝ}
    (h : Tracks μ S X f P) (hw : Fresh μ S X f w) (hQ : moment μ w w = Q)
    (hm : ∀ ω, (f' ω).mu = A *ᵥ (f ω).mu + b) (hs : ∀ ω, (f' ω).sigma = A * P * Aᵀ + Q) :
    Tracks μ S (fun ω => A *ᵥ X ω + b + w ω) f' (A * P * Aᵀ + Q) ∧
    ∀ {k : Nat} {v : Ω → Fin k → ℝ}, Fresh μ S X f v → moment μ w v = 0 →
      Fresh μ S (fun ω => A *ᵥ X ω + b + w ω) f' v := by
  have e : (fun ω => A *ᵥ X ω + b + w ω - (f' ω).mu) = fun ω => A *ᵥ (X ω - (f ω).mu) + w ω := by
    funext ω
    rw [hm, Matrix.mulVec_sub]; abel
  have hAE := square_mulVec A h.square
  have hE := square_add hAE hw.square
  refine ⟨⟨hs, by rw [e]; exact hE, ?_, h.one, h.mem, fun Y hY => ?_, ?_⟩, fun hv hwv =>
    ⟨hv.square, ?_, hv.orth⟩⟩
  · rw [e, add_left hAE hw.square hE, add_right hAE hw.square hAE, add_right hAE hw.square hw.square,
      mulVec_left A h.square hAE, mulVec_left A h.square hw.square, mulVec_right A h.square h.square,
      mulVec_right A h.square hw.square, h.moment, hw.error, hQ, swap _ w, hw.error]
    simp [Matrix.mul_assoc]
  · have hY2 := square_col (h.mem Y hY)
    rw [e, add_left hAE hw.square hY2, mulVec_left A h.square hY2, h.orth Y hY, hw.orth Y hY,
      Matrix.mul_zero, add_zero]
  · have : (fun ω => (f' ω).mu) = fun ω => A *ᵥ (f ω).mu + b := funext hm
    rw [this]
    exact (h.inside.mulVec A).add (In.const (Submodule.subset_span h.one) b)
  · rw [e, add_left hAE hw.square hv.square, mulVec_left A h.square hv.square, hv.error, hwv,
      Matrix.mul_zero, add_zero]

theorem tracks_read {S : Set (Ω → ℝ)} {X : Ω → Fin n → ℝ} {f f' : Ω → KF ℝ n}
    {P : Matrix (Fin n) (Fin n) ℝ} {H : Matrix (Fin m) (Fin n) ℝ} {R : Matrix (Fin m) (Fin m) ℝ}
    {c : Fin m → ℝ} {v : Ω → Fin m → ℝ}
    (h : Tracks μ S X f P) (hv : Fresh μ S X f v) (hR : moment μ v v = R)
    (hS : (innovCov P H R).det ≠ 0)
    (hm : ∀ ω, (f' ω).mu = kgain P H R *ᵥ (H *ᵥ X ω + c + v ω - (H *ᵥ (f ω).mu + c)) + (f ω).mu)
    (hs : ∀ ω, (f' ω).sigma = kcov P H R) :
    Tracks μ (S ∪ {Y | ∃ i : Fin m, Y = fun ω => (H *ᵥ X ω + c + v ω) i}) X f' (kcov P H R) ∧
    ∀ {k : Nat} {w : Ω → Fin k → ℝ}, Fresh μ S X f w → moment μ v w = 0 →
      Fresh μ (S ∪ {Y | ∃ i : Fin m, Y = fun ω => (H *ᵥ X ω + c + v ω) i}) X f' w := by
  have hone := Submodule.subset_span (R := ℝ) h.one
  have hsub : S ⊆ (S ∪ {Y | ∃ i : Fin m, Y = fun ω => (H *ᵥ X ω + c + v ω) i}) :=
    Set.subset_union_left
  have hle := Submodule.span_mono (R := ℝ) hsub
  obtain ⟨G, hG⟩ : ∃ G, G = kgain P H R := ⟨_, rfl⟩
  rw [← hG] at hm
  have e : (fun ω => X ω - (f' ω).mu) =
      fun ω => (1 - G * H) *ᵥ (X ω - (f ω).mu) + (-G) *ᵥ v ω := by
    funext ω
    have : H *ᵥ X ω + c + v ω - (H *ᵥ (f ω).mu + c) = H *ᵥ (X ω - (f ω).mu) + v ω := by
      rw [Matrix.mulVec_sub]; abel
    rw [hm, this, Matrix.sub_mulVec, Matrix.one_mulVec, Matrix.neg_mulVec, Matrix.mulVec_add,
      Matrix.mulVec_mulVec]
    abel
  have hE := h.square
  have hGE := square_mulVec (1 - G * H) hE
  have hGv := square_mulVec (-G) hv.square
  have hE' := square_add hGE hGv
  -- moments of the new error
  have mE : ∀ {k : Nat} {Z : Ω → Fin k → ℝ}, Square μ Z →
      Spec.moment μ (fun ω => X ω - (f' ω).mu) Z =
        (1 - G * H) * Spec.moment μ (fun ω => X ω - (f ω).mu) Z - G * Spec.moment μ v Z := by
    intro k Z hZ
    rw [e, add_left hGE hGv hZ, mulVec_left _ hE hZ, mulVec_left _ hv.square hZ, Matrix.neg_mul,
      ← sub_eq_add_neg]
  have ez : (fun ω => H *ᵥ X ω + c + v ω) = fun ω =>
      (H *ᵥ (X ω - (f ω).mu) + v ω) + (H *ᵥ (f ω).mu + c) := by
    funext ω
    rw [Matrix.mulVec_sub]; abel
  have hHE := square_mulVec H hE
  have hinn := square_add hHE hv.square
  have hpred : In (Submodule.span ℝ S) (fun ω => H *ᵥ (f ω).mu + c) :=
    (h.inside.mulVec H).add (In.const hone c)
  have hpE := hpred.orth hE fun Y hY => ⟨h.mem Y hY, h.orth Y hY⟩
  have hpv := hpred.orth hv.square fun Y hY => ⟨h.mem Y hY, hv.orth Y hY⟩
  have hz : Square μ (fun ω => H *ᵥ X ω + c + v ω) := by rw [ez]; exact square_add hinn hpE.1
  have hvE : Spec.moment μ v (fun ω => X ω - (f ω).mu) = 0 := by
    rw [swap, hv.error, transpose_zero]
  have zE : Spec.moment μ (fun ω => X ω - (f ω).mu) (fun ω => H *ᵥ X ω + c + v ω) = P * Hᵀ := by
    rw [ez, add_right hinn hpE.1 hE, hpE.2, add_right hHE hv.square hE, mulVec_right H hE hE,
      h.moment, hv.error, add_zero, add_zero]
  have zv : Spec.moment μ v (fun ω => H *ᵥ X ω + c + v ω) = R := by
    rw [ez, add_right hinn hpE.1 hv.square, hpv.2, add_right hHE hv.square hv.square,
      mulVec_right H hE hv.square, hvE, hR, Matrix.zero_mul, add_zero, zero_add]
  have hzero : Spec.moment μ (fun ω => X ω - (f' ω).mu) (fun ω => H *ᵥ X ω + c + v ω) = 0 := by
    rw [mE hz, zE, zv, Matrix.sub_mul, Matrix.one_mul]
    have := kgain_mul (P := P) (H := H) (R := R) hS
    rw [← hG, innovCov, Matrix.mul_add] at this
    simp only [Matrix.mul_assoc] at this ⊢
    rw [sub_sub, this, sub_self]
  have hzc := eq_zero_iff.1 hzero
  refine ⟨⟨hs, by rw [e]; exact hE', ?_, hsub h.one, ?_, ?_, ?_⟩, fun {k w} hw hvw =>
    ⟨hw.square, ?_, ?_⟩⟩
  · have hPt : Pᵀ = P := by rw [← h.moment, ← swap]
    have hRt : Rᵀ = R := by rw [← hR, ← swap]
    have h1 : Spec.moment μ (fun ω => X ω - (f ω).mu) (fun ω => X ω - (f' ω).mu) =
        P * (1 - G * H)ᵀ := by
      rw [swap, mE hE, h.moment, hvE, Matrix.mul_zero, sub_zero, transpose_mul, hPt]
    have h2 : Spec.moment μ v (fun ω => X ω - (f' ω).mu) = -(R * Gᵀ) := by
      rw [swap, mE hv.square, hv.error, hR, Matrix.mul_zero, zero_sub, transpose_neg, transpose_mul,
        hRt]
    rw [mE (by rw [e]; exact hE'), h1, h2, kcov_joseph hS, ← hG, Matrix.mul_neg, sub_neg_eq_add]
    simp only [Matrix.mul_assoc]
  · rintro Y (hY | ⟨i, rfl⟩)
    · exact h.mem Y hY
    · exact hz i
  · rintro Y (hY | ⟨i, rfl⟩)
    · rw [mE (square_col (h.mem Y hY)), h.orth Y hY, hv.orth Y hY, Matrix.mul_zero, Matrix.mul_zero,
        sub_zero]
    · exact hzc i
  · have : (fun ω => (f' ω).mu) = fun ω => G *ᵥ (H *ᵥ X ω + c + v ω - (H *ᵥ (f ω).mu + c)) + (f ω).mu :=
      funext hm
    rw [this]
    have hzi : In (Submodule.span ℝ (S ∪ {Y | ∃ i : Fin m, Y = fun ω => (H *ᵥ X ω + c + v ω) i}))
        (fun ω => H *ᵥ X ω + c + v ω) := fun i => Submodule.subset_span (Or.inr ⟨i, rfl⟩)
    exact ((hzi.sub fun i => hle (hpred i)).mulVec G).add fun i => hle (h.inside i)
  · rw [mE hw.square, hw.error, hvw, Matrix.mul_zero, Matrix.mul_zero, sub_zero]
  · rintro Y (hY | ⟨i, rfl⟩)
    · exact hw.orth Y hY
    · have hpw := hpred.orth hw.square fun Y hY => ⟨h.mem Y hY, hw.orth Y hY⟩
      have : Spec.moment μ w (fun ω => H *ᵥ X ω + c + v ω) = 0 := by
        rw [ez, add_right hinn hpE.1 hw.square, hpw.2, add_right hHE hv.square hw.square,
          mulVec_right H hE hw.square, swap, hw.error, swap, hvw]
        simp
      exact eq_zero_iff.1 this i

/-- Every event after the first is uncorrelated with it, and so on. -/
abbrev Apart (μ : Measure Ω) (es : List (Event Ω n U)) : Prop :=
  es.Pairwise fun a b => moment μ a.noise b.noise = 0

theorem run_tracks [IsProbabilityMeasure μ] (be : Backend) {kind : KF.Kind ℝ n} (hk : kind.Runs)
    (es : List (Event Ω n U)) : ∀ {S : Set (Ω → ℝ)} {X : Ω → Fin n → ℝ} {f : Ω → KF ℝ n}
    {P : Matrix (Fin n) (Fin n) ℝ}, Tracks μ S X f P → (∀ e ∈ es, e.Told μ) →
    (∀ e ∈ es, Fresh μ S X f e.noise) → Apart μ es →
    ∃ f' P', (∀ ω, Props.runAll be kind (calls es X ω) (f ω) = .ok (f' ω)) ∧
      Tracks μ (S ∪ readings es X) (lastState es X) f' P' ∧
      ∀ {k : Nat} {w : Ω → Fin k → ℝ}, Fresh μ S X f w → (∀ e ∈ es, moment μ e.noise w = 0) →
        Fresh μ (S ∪ readings es X) (lastState es X) f' w := by
  induction es with
  | nil =>
    intro S X f P h _ _ _
    refine ⟨f, P, fun ω => rfl, ?_, fun hw _ => ?_⟩
    · simpa [readings, lastState] using h
    · simpa [readings, lastState] using hw
  | cons e es ih =>
    intro S X f P h ht hf ha
    have hP : PSD P := by rw [← h.moment]; exact psd h.square
    have hfe := hf e (by simp)
    have hte := ht e (by simp)
    obtain ⟨ha1, ha2⟩ := List.pairwise_cons.1 ha
    have step : ∃ f1 P1, (∀ ω, (f ω).update be kind (e.call X ω).sys (e.call X ω).meas
          = .ok (true, f1 ω)) ∧ Tracks μ (S ∪ e.numbers X) (e.next X) f1 P1 ∧
        ∀ {k : Nat} {w : Ω → Fin k → ℝ}, Fresh μ S X f w → moment μ e.noise w = 0 →
          Fresh μ (S ∪ e.numbers X) (e.next X) f1 w := by
      cases e with
      | move model u A b Q w =>
        obtain ⟨hl, hw, hc, hQ⟩ := hte
        have hQ' : PSD Q := by rw [← hQ]; exact psd hw
        have hp := (hP.congr A).add hQ'
        have := tracks_move (A := A) (b := b) (w := w)
          (f' := fun ω => ⟨A *ᵥ (f ω).mu + b, A * P * Aᵀ + Q, (f ω).timestep⟩) h hfe hQ
          (fun ω => rfl) (fun ω => rfl)
        rw [show S ∪ (Event.move model u A b Q w).numbers X = S by simp [Event.numbers]]
        refine ⟨_, _, fun ω => ?_, this.1, fun hv hwv => this.2 hv hwv⟩
        · simp only [KF.update, Event.call, KF.sysPart]
          rw [sysUpdate_eq (hl _), h.sigma ω, be.toSym_of_symm hp.1]
          rfl
      | read m model s H c R v =>
        obtain ⟨hl, hv, hc, hR, hpd⟩ := hte
        have := tracks_read (H := H) (c := c) (v := v)
          (f' := fun ω => ⟨kgain P H R *ᵥ (H *ᵥ X ω + c + v ω - (H *ᵥ (f ω).mu + c)) + (f ω).mu,
            kcov P H R, (f ω).timestep⟩) h hfe hR (innovCov_pd hP hpd).det_ne
          (fun ω => rfl) (fun ω => rfl)
        refine ⟨_, _, fun ω => ?_, this.1, fun hw hvw => this.2 hw hvw⟩
        simp only [KF.update, Event.call, KF.sysPart, KF.measPart, Outcome.ok_bind]
        rw [measUpdate_linear hk hl, calc_valid (by rw [h.sigma ω]; exact hP) hpd, h.sigma ω]
        rfl
    obtain ⟨f1, P1, e1, t1, fr1⟩ := step
    obtain ⟨f2, P2, e2, t2, fr2⟩ := ih t1 (fun a h => ht a (by simp [h]))
      (fun a h => fr1 (hf a (by simp [h])) (ha1 a h)) ha2
    refine ⟨f2, P2, fun ω => ?_, ?_, fun hw h0 => ?_⟩
    · simp only [calls, Props.runAll]
      rw [e1 ω]
      exact e2 ω
    · rw [readings, ← Set.union_assoc]; exact t2
    · rw [readings, ← Set.union_assoc]
      exact fr2 (fr1 hw (h0 e (by simp))) fun a h => h0 a (by simp [h])

/-- The start of a run. -/
theorem tracks_start [IsProbabilityMeasure μ] {X : Ω → Fin n → ℝ} {f : KF ℝ n}
    (hX : Square μ (fun ω => X ω - f.mu)) (hc : Centred μ (fun ω => X ω - f.mu))
    (hP : moment μ (fun ω => X ω - f.mu) (fun ω => X ω - f.mu) = f.sigma) :
    Tracks μ {fun _ => 1} X (fun _ => f) f.sigma := by
  refine ⟨fun _ => rfl, hX, hP, rfl, ?_, ?_, ?_⟩
  · rintro Y rfl; exact memLp_const (1 : ℝ)
  · rintro Y rfl; exact centred_iff.1 hc
  · exact In.const (Ω := Ω) (Submodule.subset_span (R := ℝ) (Set.mem_singleton _)) f.mu

theorem fresh_start [IsProbabilityMeasure μ] {X : Ω → Fin n → ℝ} {f : KF ℝ n} {w : Ω → Fin m → ℝ}
    (hw : Square μ w) (hc : Centred μ w) (h0 : moment μ (fun ω => X ω - f.mu) w = 0) :
    Fresh μ {fun _ => 1} X (fun _ => f) w :=
  ⟨hw, h0, by rintro Y rfl; exact centred_iff.1 hc⟩

theorem Told.square {e : Event Ω n U} (h : e.Told μ) : Square μ e.noise := by
  cases e with
  | move => exact h.2.1
  | read => exact h.2.1

theorem Told.centred {e : Event Ω n U} (h : e.Told μ) : Centred μ e.noise := by
  cases e with
  | move => exact h.2.2.1
  | read => exact h.2.2.1

/-- Pythagoras for an estimate from the readings. -/
theorem pythagoras {S : Set (Ω → ℝ)} {X : Ω → Fin n → ℝ} {f : Ω → KF ℝ n}
    {P : Matrix (Fin n) (Fin n) ℝ} (h : Tracks μ S X f P) {Y : Ω → Fin n → ℝ}
    (hY : In (Submodule.span ℝ S) Y) :
    Square μ (fun ω => (f ω).mu - Y ω) ∧
    moment μ (fun ω => X ω - Y ω) (fun ω => X ω - Y ω) =
      P + moment μ (fun ω => (f ω).mu - Y ω) (fun ω => (f ω).mu - Y ω) := by
  have hd := (h.inside.sub hY).orth h.square fun Y hY => ⟨h.mem Y hY, h.orth Y hY⟩
  have e : (fun ω => X ω - Y ω) = fun ω => (X ω - (f ω).mu) + ((f ω).mu - Y ω) := by
    funext ω; abel
  refine ⟨hd.1, ?_⟩
  rw [e, add_left h.square hd.1 (square_add h.square hd.1), add_right h.square hd.1 h.square,
    add_right h.square hd.1 hd.1, h.moment, hd.2, swap, hd.2]
  simp

/-- The expected squared length in the metric `M` is `tr (M E[XXᵀ])`. -/
theorem expected_quad (M : Matrix (Fin n) (Fin n) ℝ) {X : Ω → Fin n → ℝ} (hX : Square μ X) :
    ∫ ω, quad M (X ω) ∂μ = (M * moment μ X X).trace := by
  have h := mulVec_left M hX hX
  rw [← h]
  simp only [quad, dotProduct, Matrix.trace, Matrix.diag_apply, moment, Matrix.of_apply]
  rw [integral_finsetSum]
  · refine Finset.sum_congr rfl fun i _ => ?_
    congr 1; funext ω; ring
  · intro i _
    exact int X (fun ω => M *ᵥ X ω) hX (square_mulVec M hX) i i

end BFL
