import Verif.Spec.Reduced
import Verif.Lemmas.Bayes

set_option linter.unusedSectionVars false

/-! Lemmas on filters for a part of the state. -/

namespace BFL

open Matrix Spec

variable {K : Type} [Field K] [LinearOrder K] {n n' m : Nat} {U : Type}

section equations

variable {A : Matrix (Fin n') (Fin n) K} {P : Matrix (Fin n) (Fin n) K}
  {H : Matrix (Fin m) (Fin n') K} {R : Matrix (Fin m) (Fin m) K}

theorem innovCov_part : innovCov P (H * A) R = innovCov (A * P * Aᵀ) H R := by
  simp only [innovCov, transpose_mul, Matrix.mul_assoc]

theorem kgain_part : kgain (A * P * Aᵀ) H R = A * kgain P (H * A) R := by
  rw [kgain, kgain, innovCov_part]
  simp only [transpose_mul, Matrix.mul_assoc]

theorem kcov_part : kcov (A * P * Aᵀ) H R = A * kcov P (H * A) R * Aᵀ := by
  rw [kcov, kgain_part, kcov]
  simp only [Matrix.mul_sub, Matrix.sub_mul, Matrix.mul_assoc]

theorem mean_part (x xi : Fin n → K) (z h : Fin m → K) :
    kgain (A * P * Aᵀ) H R *ᵥ (z - (h + H *ᵥ (A *ᵥ x - A *ᵥ xi))) + A *ᵥ x =
      A *ᵥ (kgain P (H * A) R *ᵥ (z - (h + (H * A) *ᵥ (x - xi))) + x) := by
  rw [kgain_part, ← mulVec_sub, mulVec_mulVec, mulVec_add, mulVec_mulVec]

end equations

variable [IsStrictOrderedRing K] {A : Matrix (Fin n') (Fin n) K}

theorem sysUpdate_part (be : Backend) {full : AnalyticModel K n n U}
    {small : AnalyticModel K n' n' U} {u : Option U} (hv : PartMoves A u full small) {f : KF K n}
    {J : Fin n → K} {F Q : Matrix (Fin n) (Fin n) K} (he : full.Evaluates u f.mu J F Q)
    (hP : PSD f.sigma) (hQ : PSD Q) :
    ∃ g, f.sysUpdate be full u = .ok g ∧ PSD g.sigma ∧
      (partOf A f).sysUpdate be small u = .ok (partOf A g) := by
  have hp := (hP.congr F).add hQ
  obtain ⟨F', he', hF⟩ := hv _ _ _ _ he
  refine ⟨_, sysUpdate_eq he, ?_, ?_⟩
  · simp only
    rw [be.toSym_of_symm hp.1]
    exact hp
  · rw [sysUpdate_eq (f := partOf A f) he']
    simp only [partOf]
    have e : F' * (A * f.sigma * Aᵀ) * F'ᵀ + A * Q * Aᵀ = A * (F * f.sigma * Fᵀ + Q) * Aᵀ := by
      calc F' * (A * f.sigma * Aᵀ) * F'ᵀ + A * Q * Aᵀ
          = (F' * A) * f.sigma * (F' * A)ᵀ + A * Q * Aᵀ := by
            simp only [transpose_mul, Matrix.mul_assoc]
        _ = _ := by
            rw [hF]
            simp only [transpose_mul, Matrix.mul_assoc, Matrix.mul_add, Matrix.add_mul]
    rw [e, be.toSym_of_symm hp.1, be.toSym_of_symm (hp.congr A).1]

theorem passes_part (chk : Option ((Fin n' → K) → Bool)) (a b : Fin n → K) :
    KF.passes (chk.map fun c d => c (A *ᵥ d)) (a - b) = KF.passes chk (A *ᵥ a - A *ᵥ b) := by
  cases chk with
  | none => rfl
  | some c => simp only [Option.map_some, KF.passes, mulVec_sub]

theorem iekfLoop_part (be : Backend) {full : AnalyticModel K n m U} {small : AnalyticModel K n' m U}
    {s : Option U} (hv : PartSeen A s full small) {z : Fin m → K}
    {chk : Option ((Fin n' → K) → Bool)} {x : Fin n → K} {P : Matrix (Fin n) (Fin n) K} (hP : PSD P)
    (hm : ∀ x, ∃ Z H R, full.Evaluates s x Z H R ∧ PD R) (k : Nat) :
    ∀ (xi : Fin n → K) buf buf', ∃ (xj : Fin n → K) (h : Fin m → K) (H : Matrix (Fin m) (Fin n') K)
      (R : Matrix (Fin m) (Fin m) K), PD R ∧
      KF.iekfLoop be full z s (chk.map fun c d => c (A *ᵥ d)) x P (k + 1) xi buf =
        .ok (some (h + (H * A) *ᵥ (x - xj), H * A, R)) ∧
      KF.iekfLoop be small z s chk (A *ᵥ x) (A * P * Aᵀ) (k + 1) (A *ᵥ xi) buf' =
        .ok (some (h + H *ᵥ (A *ᵥ x - A *ᵥ xj), H, R)) := by
  induction k with
  | zero =>
    intro xi buf buf'
    obtain ⟨h, HA, R, he, hR⟩ := hm xi
    obtain ⟨H, he', rfl⟩ := hv _ _ _ _ he
    refine ⟨xi, h, H, R, hR, ?_, ?_⟩
    · rw [iekfLoop_step he (innovCov_pd hP hR).det_ne, iekfLoop_stop, ite_self]
    · rw [iekfLoop_step he' (innovCov_pd (hP.congr A) hR).det_ne, iekfLoop_stop, ite_self]
  | succ k ih =>
    intro xi buf buf'
    obtain ⟨h, HA, R, he, hR⟩ := hm xi
    obtain ⟨H, he', rfl⟩ := hv _ _ _ _ he
    rw [iekfLoop_step he (innovCov_pd (H := H * A) hP hR).det_ne,
      iekfLoop_step he' (innovCov_pd (H := H) (hP.congr A) hR).det_ne]
    rw [add_comm (A *ᵥ x), mean_part, passes_part, add_comm _ x]
    split
    · exact ih _ _ _
    · exact ⟨xi, h, H, R, hR, rfl, rfl⟩

theorem measUpdate_part (be : Backend) {kind : KF.Kind K n'} (hk : kind.Runs)
    {full : AnalyticModel K n m U} {small : AnalyticModel K n' m U} {s : Option U}
    (hv : PartSeen A s full small) {f : KF K n} {z : Fin m → K} (hP : PSD f.sigma)
    (hm : ∀ x, ∃ Z H R, full.Evaluates s x Z H R ∧ PD R) :
    ∃ g, f.measUpdate be (fullKind A kind) full z s = .ok g ∧ PSD g.sigma ∧
      (partOf A f).measUpdate be kind small z s = .ok (partOf A g) := by
  have fin : ∀ {xj : Fin n → K} {h : Fin m → K} {H : Matrix (Fin m) (Fin n') K}
      {R : Matrix (Fin m) (Fin m) K}, PD R →
      (partOf A f).calculateMeasUpdate be z (h + H *ᵥ (A *ᵥ f.mu - A *ᵥ xj)) H R =
      .ok (partOf A ⟨kgain f.sigma (H * A) R *ᵥ (z - (h + (H * A) *ᵥ (f.mu - xj))) + f.mu,
        kcov f.sigma (H * A) R, f.timestep⟩) := by
    intro xj h H R hR
    rw [calc_valid (f := partOf A f) (hP.congr A) hR]
    simp only [partOf]
    rw [mean_part, kcov_part]
  cases kind with
  | extended =>
    obtain ⟨Z, HA, R, he, hR⟩ := hm f.mu
    obtain ⟨H, he', rfl⟩ := hv _ _ _ _ he
    refine ⟨_, (ekf_eq he).trans (calc_valid hP hR), kcov_psd (H := H * A) hP hR,
      (ekf_eq (f := partOf A f) he').trans ?_⟩
    have := fin (xj := f.mu) (h := Z) (H := H) hR
    simp only [sub_self, Matrix.mulVec_zero, add_zero] at this
    exact this
  | iterated nr chk =>
    obtain ⟨k, rfl⟩ : ∃ k, nr = k + 1 := ⟨nr - 1, by simp only [KF.Kind.Runs] at hk; omega⟩
    obtain ⟨xj, h, H, R, hR, e1, e2⟩ := iekfLoop_part be hv (z := z) (chk := chk) (x := f.mu)
      hP hm k f.mu none none
    have e0 := calc_valid (be := be) (z := z) (Z := h + (H * A) *ᵥ (f.mu - xj)) (H := H * A) hP hR
    refine ⟨_, Eq.trans ?_ e0, kcov_psd (H := H * A) hP hR, ?_⟩
    · simp only [KF.measUpdate, KF.iekfMeasUpdate, fullKind]
      rw [e1]
      rfl
    · simp only [KF.measUpdate, KF.iekfMeasUpdate]
      erw [e2]
      exact fin hR

end BFL

namespace BFL.Spec

open Finset

variable {K : Type} [Field K]

theorem grouped_congr {n : Nat} {c : Nat → Nat} {p q : Nat → K} (h : ∀ x < n, p x = q x) (y : Nat) :
    grouped n c p y = grouped n c q y :=
  Finset.sum_congr rfl fun x hx => by rw [h x (Finset.mem_range.1 hx)]

theorem grouped_sum {n n' : Nat} {c : Nat → Nat} (hc : ∀ x < n, c x < n') (p : Nat → K) :
    ∑ y ∈ range n', grouped n c p y = ∑ x ∈ range n, p x := by
  unfold grouped
  rw [Finset.sum_comm]
  refine Finset.sum_congr rfl fun x hx => ?_
  rw [Finset.sum_ite_eq, if_pos (Finset.mem_range.2 (hc x (Finset.mem_range.1 hx)))]

/-- A sum over groups of something that depends on the group. -/
theorem sum_groups {n n' : Nat} {c : Nat → Nat} (hc : ∀ x < n, c x < n') (p g : Nat → K) :
    ∑ y ∈ range n', g y * grouped n c p y = ∑ x ∈ range n, g (c x) * p x := by
  unfold grouped
  simp only [Finset.mul_sum]
  rw [Finset.sum_comm]
  refine Finset.sum_congr rfl fun x hx => ?_
  simp only [mul_ite, mul_zero]
  rw [Finset.sum_ite_eq, if_pos (Finset.mem_range.2 (hc x (Finset.mem_range.1 hx)))]

theorem grouped_totalProbability {n n' : Nat} {c : Nat → Nat} (hc : ∀ x < n, c x < n')
    {T T' : Nat → Nat → K}
    (h : ∀ x < n, ∀ y < n', grouped n c (fun x' => T x' x) y = T' y (c x)) (p : Nat → K) {y : Nat}
    (hy : y < n') :
    grouped n c (totalProbability n T p) y = totalProbability n' T' (grouped n c p) y := by
  rw [totalProbability, sum_groups hc p fun x => T' y x]
  unfold grouped totalProbability
  have e : ∀ x', (if c x' = y then ∑ x ∈ range n, T x' x * p x else 0) =
      ∑ x ∈ range n, (if c x' = y then T x' x else 0) * p x := by
    intro x'
    split
    · rfl
    · simp
  simp only [e]
  rw [Finset.sum_comm]
  refine Finset.sum_congr rfl fun x hx => ?_
  rw [← Finset.sum_mul]
  congr 1
  exact h x (Finset.mem_range.1 hx) y hy

theorem grouped_mul {n : Nat} {c : Nat → Nat} {L L' : Nat → K} (h : ∀ x < n, L x = L' (c x))
    (p : Nat → K) (y : Nat) : grouped n c (fun x => p x * L x) y = grouped n c p y * L' y := by
  unfold grouped
  rw [Finset.sum_mul]
  refine Finset.sum_congr rfl fun x hx => ?_
  split
  · rename_i e
    show p x * L x = _
    rw [h x (Finset.mem_range.1 hx), e]
  · rw [zero_mul]

/-- The sum over trajectories of groups is the sum over the detailed trajectories. -/
theorem jointLast_grouped {n n' : Nat} {c : Nat → Nat} (hc : ∀ x < n, c x < n')
    {ss ss' : List (Step K)} (h : List.Forall₂ (SameByGroup n n' c) ss ss') :
    ∀ (p : Nat → K) (y : Nat), y < n' →
      grouped n c (jointLast n p ss) y = jointLast n' (grouped n c p) ss' y := by
  induction h with
  | nil =>
    intro p y hy
    rw [jointLast_nil _ _ hy]
    exact grouped_congr (fun x hx => jointLast_nil n p hx) y
  | cons hs _ ih =>
    intro p y hy
    cases hs with
    | move h =>
      rw [jointLast_move, ← jointLast_congr (fun x hx => grouped_totalProbability hc h p hx),
        ← ih _ _ hy]
      exact grouped_congr (fun x _ => jointLast_move n p _ _ x) y
    | observe h =>
      rw [jointLast_observe, ← jointLast_congr (fun x _ => grouped_mul h p x), ← ih _ _ hy]
      exact grouped_congr (fun x _ => jointLast_observe n p _ _ x) y

theorem historyEvidence_grouped {n n' : Nat} {c : Nat → Nat} (hc : ∀ x < n, c x < n')
    {ss ss' : List (Step K)} (h : List.Forall₂ (SameByGroup n n' c) ss ss') (p : Nat → K) :
    historyEvidence n' (grouped n c p) ss' = historyEvidence n p ss := by
  unfold historyEvidence
  rw [← grouped_sum hc]
  exact Finset.sum_congr rfl fun y hy => (jointLast_grouped hc h p y (Finset.mem_range.1 hy)).symm

end BFL.Spec
