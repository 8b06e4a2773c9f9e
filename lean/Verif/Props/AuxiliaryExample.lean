import Verif.Props.Auxiliary
import Verif.Lemmas.ParticleResampleCloud

/-!
# C109: a case that meets the hypotheses
-/

namespace BFL.Props

open Spec

namespace AuxFixture

def sysPdf : CondPdf Bool Bool ℚ :=
  ⟨1, fun args y => match args with
    | x :: _ => .ok (if x = y then 1 else 0)
    | [] => .ub, fun _ => .ub⟩

/-- The state stays as it is. -/
def sys : AuxSystem Unit Bool ℚ :=
  ⟨⟨⟨some sysPdf, some true⟩, fun _ args _ => match args with
      | x :: _ => .ok x
      | [] => .ub⟩, fun args => match args with
      | x :: _ => .ok x
      | [] => .ub⟩

/-- The measurement is three times as likely in state `true`. -/
def lik (x : Bool) : ℚ := if x then 3 / 4 else 1 / 4

def measPdf : CondPdf Bool Unit ℚ :=
  ⟨1, fun args _ => match args with
    | x :: _ => .ok (lik x)
    | [] => .ub, fun _ => .ub⟩

def meas : Model Bool Unit ℚ := ⟨some measPdf, some true⟩

def call : AuxCall Unit Bool Unit ℚ := ⟨some sys, false, some meas, (), false⟩

/-- Numbers of the resampling step: the ordered numbers are `1/5, 1, 1, 1`. -/
def noise : Noise Unit ℚ := ⟨fun _ => (), fun i => if i = 0 then 1 / 5 else 1, fun _ => 1⟩

def prior : MCPdf ℚ Bool :=
  ⟨[⟨false, some (1 / 4)⟩, ⟨false, some (1 / 4)⟩, ⟨true, some (1 / 4)⟩, ⟨true, some (1 / 4)⟩],
    [0, 1 / 4, 1 / 2, 3 / 4, 1], 1⟩

/-- `pow(x, 1/k)`, exact for `k = 1` and for `x = 1`, the cases that occur below. -/
def root (_ : Nat) (x : ℚ) : ℚ := x

theorem isAux : IsAuxSystem sys (fun x _ y => if x = y then 1 else 0) (fun x _ => x) :=
  ⟨⟨sysPdf, rfl, fun x u y => ⟨by show 0 ≤ (if x = y then (1 : ℚ) else 0); split <;> norm_num, rfl⟩⟩, fun r x u prev => ⟨x, rfl⟩, fun x u => rfl⟩

theorem isLik : IsLikelihood meas (fun _ x _ => lik x) :=
  ⟨measPdf, rfl, fun _ x _ => ⟨by cases x <;> norm_num [lik], rfl⟩⟩

theorem isRoot : IsRoot root := ⟨fun _ _ h0 h1 => ⟨h0, h1⟩, fun _ _ h => h⟩

theorem uniforms : Uniforms noise.static := by
  intro i
  simp only [noise]
  split <;> norm_num

/-- The filter constructed from the prior. -/
def filter : AsirFilter Unit Bool ℚ :=
  ⟨⟨⟨prior, prior.samples, prior.samples, []⟩, false, 0, true, 0, 2, .multinomial, none⟩, none⟩

theorem made : AsirFilter.make false none prior 0 2 .multinomial = .ok filter := by
  have : (ParticleFilter.make false prior (none : Option (Proposal Unit Bool ℚ)) 0 2 .multinomial) =
      .ok filter.pf := by
    have h1 : (MCPdf.make prior.numSamples false).listSetW false prior.listGet = .ok (true, prior) := by
      decide +kernel
    have h2 : ParticleFilter.policy 0 (2 : ℚ) = .ok true := by decide +kernel
    simp only [ParticleFilter.make, h1, Outcome.ok_bind, cassert_true, h2, Outcome.pure_eq]
    rfl
  simp only [AsirFilter.make, this, Outcome.ok_bind, Outcome.pure_eq]
  rfl

theorem reached : AuxReached Unit false root filter := .make (prior := prior) (by
  intro s hs w hw
  have h : ∀ s ∈ prior.samples, s.weight = some (1 / 4) := by decide +kernel
  rw [h s hs] at hw
  cases hw
  norm_num) made

theorem holds : Holds filter.pf.postGet (halves 1) := by
  show prior.samples = (halves 1).map fun a => { value := a.1, weight := some a.2 }
  decide +kernel

theorem quarters : ∀ i < 4 * 1, (i < 1 → selectors root noise.static (4 * 1) i ≤ 1 / 4) ∧
    (1 ≤ i → 1 / 4 < selectors root noise.static (4 * 1) i) := by
  decide +kernel

end AuxFixture

open AuxFixture

/-- Four particles: the filter returns 5/6 instead of 3/4. -/
example : ∃ a' ps', filter.update false root noise call = .ok a' ∧ Holds a'.pf.postGet ps' ∧
    weightOf (· = true) ps' = 5 / 6 :=
  (C109_wrong_ancestor isRoot one_pos uniforms quarters isAux (fun _ _ _ _ => rfl) isLik rfl rfl
    (by norm_num [lik]) (by norm_num [lik]) reached holds (by intro l h; cases h)).2.1

/-- The draws of the wrong case exist for every number of particles, with the true roots. -/
theorem C109_draws {k : Nat} (hk : 0 < k) : ∃ us : Nat → ℝ, Uniforms us ∧
    ∀ i < 4 * k, (i < k → selectors kthRoot us (4 * k) i ≤ 1 / 4) ∧
      (k ≤ i → 1 / 4 < selectors kthRoot us (4 * k) i) := by
  refine ⟨fun i => if i = k - 1 then (1 / 5) ^ k else 1, ?_, ?_⟩
  · intro i
    simp only
    split
    · exact ⟨by positivity, pow_le_one₀ (by norm_num) (by norm_num)⟩
    · norm_num
  have hroot : ∀ j, kthRoot (j + 1) (if j = k - 1 then (1 / 5 : ℝ) ^ k else 1) =
      if j = k - 1 then 1 / 5 else 1 := by
    intro j
    unfold kthRoot
    split
    · have : j + 1 = k := by omega
      rw [this, one_div (k : ℝ)]
      exact Real.pow_rpow_inv_natCast (by norm_num) hk.ne'
    · exact Real.one_rpow _
  have hsel : ∀ i < 4 * k, selectors kthRoot (fun i => if i = k - 1 then (1 / 5 : ℝ) ^ k else 1) (4 * k) i =
      if i < k then 1 / 5 else 1 := by
    intro i hi
    unfold selectors orderedUniform
    have : (((List.range (4 * k)).map (fun i => if i = k - 1 then (1 / 5 : ℝ) ^ k else 1)).drop i).mapIdx
        (fun m u => kthRoot (i + m + 1) u) =
        (List.range (4 * k - i)).map (fun m => if i + m = k - 1 then (1 / 5 : ℝ) else 1) := by
      apply List.ext_getElem (by simp)
      intro m h1 h2
      simp only [List.getElem_mapIdx, List.getElem_drop, List.getElem_map, List.getElem_range]
      exact hroot (i + m)
    rw [this, ← List.prod_toFinset _ List.nodup_range, List.toFinset_range]
    by_cases h : i < k
    · rw [if_pos h, Finset.prod_eq_single (k - 1 - i)]
      · rw [if_pos (by omega)]
      · intro m _ hm
        rw [if_neg (by omega)]
      · intro hm
        exact absurd (Finset.mem_range.2 (by omega)) hm
    · rw [if_neg h]
      exact Finset.prod_eq_one fun m _ => if_neg (by omega)
  intro i hi
  rw [hsel i hi]
  constructor
  · intro h
    rw [if_pos h]; norm_num
  · intro h
    rw [if_neg (by omega)]; norm_num

/-- All look-aheads fit equally well: an auxiliary step. Here all particles are in one state. -/
example : ∃ (a : AsirFilter Unit Bool ℚ) (ps : List (Bool × ℚ)), AuxReached Unit false root a ∧
    Holds a.pf.postGet ps ∧ Normalised ps ∧ Room a.mu ps.length ∧ 1 < ps.length ∧
    ∀ x ∈ ps, ∀ y ∈ ps, lik x.1 = lik y.1 := by
  have hmade : AsirFilter.make (R := Unit) false none ⟨[⟨true, some (1 / 2)⟩, ⟨true, some (1 / 2)⟩],
      [0, 1 / 2, 1], (1 : ℚ)⟩ 0 2 .multinomial = .ok ⟨⟨⟨⟨[⟨true, some (1 / 2)⟩, ⟨true, some (1 / 2)⟩],
      [0, 1 / 2, 1], 1⟩, [⟨true, some (1 / 2)⟩, ⟨true, some (1 / 2)⟩],
      [⟨true, some (1 / 2)⟩, ⟨true, some (1 / 2)⟩], []⟩, false, 0, true, 0, 2, .multinomial, none⟩, none⟩ := by
    have h1 : (MCPdf.make 2 false).listSetW false [⟨true, some (1 / 2)⟩, ⟨true, some (1 / 2)⟩] =
        .ok (true, ⟨[⟨true, some (1 / 2)⟩, ⟨true, some (1 / 2)⟩], [0, 1 / 2, 1], (1 : ℚ)⟩) := by
      decide +kernel
    have h2 : ParticleFilter.policy 0 (2 : ℚ) = .ok true := by decide +kernel
    simp only [AsirFilter.make, ParticleFilter.make, MCPdf.numSamples, List.length_cons, List.length_nil,
      Nat.zero_add, Nat.reduceAdd, h1, Outcome.ok_bind, cassert_true, h2, Outcome.pure_eq]
  refine ⟨_, [(true, 1 / 2), (true, 1 / 2)], .make ?_ hmade, rfl, ?_, ?_, by simp, ?_⟩
  · intro s hs w hw
    have h : ∀ s ∈ ([⟨true, some (1 / 2)⟩, ⟨true, some (1 / 2)⟩] : List (WSample ℚ Bool)),
        s.weight = some (1 / 2) := by decide +kernel
    rw [h s hs] at hw
    cases hw
    norm_num
  · constructor
    · intro w hw
      simp at hw
      subst hw
      norm_num
    · norm_num
  · intro l h
    cases h
  · intro x hx y hy
    simp at hx hy
    rw [hx, hy]

/-- A prediction with the filter of the example is undefined. -/
example : filter.update false root noise { call with meas := (none : Option (Model Bool Unit ℚ)) } = .ub :=
  C109_prediction isAux rfl rfl reached

/-- So is an update after one of a filter with two particles. -/
example : AsirFilter.update false root noise call ⟨filter.pf, some [true, true]⟩ = .ub :=
  C109_larger isAux isLik rfl rfl (reached.shared _) rfl (by decide +kernel)

/-- A measurement alone, after an update that has left other look-aheads: the weights, which should become
`1/8, 1/8, 3/8, 3/8`, become `3/16, 1/16, 3/16, 9/16`. -/
example : ∃ a' ps', AsirFilter.update false root noise { call with sys := none }
      ⟨filter.pf, some [false, true, true, false]⟩ = .ok a' ∧ Holds a'.pf.postGet ps' ∧
    ps' = [(false, 3 / 16), (false, 1 / 16), (true, 3 / 16), (true, 9 / 16)] := by
  obtain ⟨a', ps', h1, h2, h3⟩ := C109_measurement (dflt := false) (root := root) (noise := noise)
    (c := { call with sys := none }) isLik rfl rfl (reached.shared (some [false, true, true, false])) holds
    (by constructor
        · intro w hw
          simp [halves] at hw
          subst hw
          norm_num
        · norm_num [halves]) rfl (by simp [halves]) (by decide +kernel)
  refine ⟨a', ps', h1, h2, ?_⟩
  rw [reweighted_iff.1 h3]
  decide +kernel

end BFL.Props
