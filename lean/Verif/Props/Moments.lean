import Verif.Lemmas.Moments
import Verif.Props.MCPdf
import Mathlib.Data.Rat.Floor

/-!
# Properties C11 and C12: moments of particle sets
-/

set_option linter.unusedSectionVars false

namespace BFL.Props

open Spec MCPdf

variable {K : Type} [Field K] [LinearOrder K] [IsStrictOrderedRing K]

/-! ## C11 -/

/-- Mean and covariance are computed without failure and equal the weighted moments of the listed
samples and weights. -/
theorem C11_moments {n : Nat} {dflt : Fin n → K} {p : MCPdf K (Fin n → K)} (h : Assigned dflt p) :
    ∃ ws : List K, HasWeights p.listGet ws ∧ IsDistribution ws ∧
      p.meanGet = .ok (meanVector (p.listGet.map (·.value)) ws) ∧
      p.covGet = .ok (covMatrix (p.listGet.map (·.value)) ws) := by
  obtain ⟨ws, hg⟩ := h.good
  exact ⟨ws, hg.1, hg.2.1, meanGet_eq hg, covGet_eq hg⟩

/-- Each mean component lies between any lower and upper bound of the particles' components. -/
theorem C11_mean_between {n : Nat} {dflt : Fin n → K} {p : MCPdf K (Fin n → K)}
    (h : Assigned dflt p) (k : Fin n) {lo hi : K}
    (hb : ∀ s ∈ p.listGet, lo ≤ s.value k ∧ s.value k ≤ hi) :
    ∃ m, p.meanGet = .ok m ∧ lo ≤ m k ∧ m k ≤ hi := by
  obtain ⟨ws, hg⟩ := h.good
  refine ⟨_, meanGet_eq hg, ?_, ?_⟩
  · have := average_mono (xs := p.samples.map (·.value)) hg.2.1.1 (f := fun _ => lo)
      (g := fun x => x k) (by
        intro x hx
        obtain ⟨s, hs, rfl⟩ := List.mem_map.1 hx
        exact (hb s hs).1)
    rwa [average_const (by simpa using hg.length), hg.2.1.2, one_mul] at this
  · have := average_mono (xs := p.samples.map (·.value)) hg.2.1.1 (g := fun _ => hi)
      (f := fun x => x k) (by
        intro x hx
        obtain ⟨s, hs, rfl⟩ := List.mem_map.1 hx
        exact (hb s hs).2)
    rwa [average_const (by simpa using hg.length), hg.2.1.2, one_mul] at this

/-- The order of the particles does not matter. -/
theorem C11_reorder {n : Nat} {dflt : Fin n → K} {p q : MCPdf K (Fin n → K)}
    (hp : Assigned dflt p) (hq : Assigned dflt q) (hperm : p.listGet.Perm q.listGet) :
    p.meanGet = q.meanGet ∧ p.covGet = q.covGet := by
  obtain ⟨ws, hg⟩ := hp.good
  obtain ⟨vs, hg'⟩ := hq.good
  have key : ∀ g : (Fin n → K) → K, average (p.samples.map (·.value)) ws g =
      average (q.samples.map (·.value)) vs g := by
    have hrep : ∀ (r : MCPdf K (Fin n → K)) (us : List K), Good r us → ∀ g : (Fin n → K) → K,
        average (r.samples.map (·.value)) us g =
          (r.samples.map fun s => (s.weight.getD 0) * g s.value).sum := by
      intro r us hr g
      have : us = r.samples.map (fun s => s.weight.getD 0) := by
        have := congrArg (List.map (fun o : Option K => o.getD 0)) hr.1
        simpa [Function.comp_def] using this.symm
      rw [this]
      unfold average
      rw [List.zipWith_map, List.zipWith_self]
    intro g
    rw [hrep p ws hg g, hrep q vs hg' g]
    exact (List.Perm.map _ hperm).sum_eq
  have hm : meanVector (p.samples.map (·.value)) ws = meanVector (q.samples.map (·.value)) vs := by
    funext k; exact key _
  refine ⟨by rw [meanGet_eq hg, meanGet_eq hg', hm], ?_⟩
  rw [covGet_eq hg, covGet_eq hg']
  congr 1
  ext i j
  simp only [covMatrix, Matrix.of_apply]
  rw [hm]
  exact key _

/-- Rescaling all weights of the assigned list by a positive factor changes nothing. -/
theorem C11_rescale {T : Type} {dflt : T} {q : MCPdf K T} (hq : History dflt q) {xs : List T}
    {ws : List K} (hl : xs.length = ws.length) (hnn : ∀ w ∈ ws, 0 ≤ w) (hpos : 0 < ws.sum)
    {c : K} (hc : 0 < c) :
    q.listSetW dflt (List.zipWith (fun x w => ⟨x, some (c * w)⟩) xs ws) =
      q.listSetW dflt (List.zipWith (fun x w => ⟨x, some w⟩) xs ws) := by
  have hw : ∀ vs : List K, xs.length = vs.length →
      HasWeights (List.zipWith (fun x w => (⟨x, some w⟩ : WSample K T)) xs vs) vs := by
    intro vs hv
    unfold HasWeights
    rw [List.map_zipWith]
    apply List.ext_getElem
    · simp [hv]
    · intro i h1 h2; simp
  have hzip : List.zipWith (fun x w => (⟨x, some (c * w)⟩ : WSample K T)) xs ws =
      List.zipWith (fun x w => ⟨x, some w⟩) xs (ws.map (c * ·)) := by
    rw [List.zipWith_map_right]
  have hsum : (ws.map (c * ·)).sum = c * ws.sum := by
    have := sum_map_mul_right ws c
    simpa [mul_comm] using this
  have hs : ∀ los : List (WSample K T),
      Sized { q.numSamplesSet dflt los.length with samples := los } := by
    intro los
    unfold Sized; simpa using numSamplesSet_sized dflt hq.sized los.length
  rw [hzip]
  unfold listSetW
  rw [normalizeWeights_pos (hs _) (hw _ (by simpa using hl)) (by
      intro w hw
      obtain ⟨v, hv, rfl⟩ := List.mem_map.1 hw
      exact mul_nonneg hc.le (hnn v hv)) (by rw [hsum]; exact mul_pos hc hpos),
    normalizeWeights_pos (hs _) (hw _ hl) hnn hpos]
  have e1 : (ws.map (c * ·)).map (· / (ws.map (c * ·)).sum) = ws.map (· / ws.sum) := by
    rw [hsum, List.map_map]
    apply List.map_congr_left
    intro w _
    simp only [Function.comp_apply]
    exact mul_div_mul_left _ _ hc.ne'
  have e2 : scaled (List.zipWith (fun x w => (⟨x, some w⟩ : WSample K T)) xs (ws.map (c * ·)))
        (ws.map (c * ·)).sum =
      scaled (List.zipWith (fun x w => ⟨x, some w⟩) xs ws) ws.sum := by
    rw [hsum]
    unfold scaled
    rw [List.map_zipWith, List.map_zipWith, List.zipWith_map_right]
    congr 1
    funext x w
    simp only [Option.map_some]
    rw [mul_div_mul_left _ _ hc.ne']
  rw [e1, e2]

/-- The covariance is symmetric and positive semidefinite. -/
theorem C11_cov_psd {n : Nat} {dflt : Fin n → K} {p : MCPdf K (Fin n → K)} (h : Assigned dflt p) :
    ∃ c, p.covGet = .ok c ∧ c.transpose = c ∧ ∀ v : Fin n → K, 0 ≤ v ⬝ᵥ c.mulVec v := by
  obtain ⟨ws, hg⟩ := h.good
  refine ⟨_, covGet_eq hg, ?_, ?_⟩
  · ext i j
    exact covMatrix_comm _ _ j i
  · intro v
    set xs := p.samples.map (·.value)
    set m := meanVector xs ws
    have hq : v ⬝ᵥ (covMatrix xs ws).mulVec v =
        average xs ws (fun x => (∑ i, v i * (x i - m i)) * (∑ i, v i * (x i - m i))) := by
      have h1 : ∀ x : Fin n → K, (∑ i, v i * (x i - m i)) * (∑ i, v i * (x i - m i)) =
          ∑ i, ∑ j, (v i * v j) * ((x i - m i) * (x j - m j)) := by
        intro x
        rw [Finset.sum_mul_sum]
        refine Finset.sum_congr rfl fun i _ => Finset.sum_congr rfl fun j _ => by ring
      simp only [h1]
      rw [average_finset]
      simp only [average_finset, average_smul, dotProduct, Matrix.mulVec]
      refine Finset.sum_congr rfl fun i _ => ?_
      rw [Finset.mul_sum]
      refine Finset.sum_congr rfl fun j _ => ?_
      simp only [covMatrix, Matrix.of_apply]
      ring
    rw [hq]
    exact average_nonneg hg.2.1.1 (fun x _ => mul_self_nonneg _)

/-- `Cov = E[x x'] - m m'`. -/
theorem C11_cov_identity {n : Nat} {dflt : Fin n → K} {p : MCPdf K (Fin n → K)}
    (h : Assigned dflt p) :
    ∃ ws : List K, HasWeights p.listGet ws ∧ ∃ m c, p.meanGet = .ok m ∧ p.covGet = .ok c ∧
      ∀ i j, c i j = average (p.listGet.map (·.value)) ws (fun x => x i * x j) - m i * m j := by
  obtain ⟨ws, hg⟩ := h.good
  refine ⟨ws, hg.1, _, _, meanGet_eq hg, covGet_eq hg, ?_⟩
  intro i j
  set xs := p.samples.map (·.value) with hxs
  have hl : xs.length = ws.length := by simpa [hxs] using hg.length
  set m := meanVector xs ws with hm
  have h1 : (fun x : Fin n → K => (x i - m i) * (x j - m j)) =
      fun x => (x i * x j + ((- m j) * x i + (- m i) * x j)) + m i * m j := by
    funext x; ring
  simp only [covMatrix, Matrix.of_apply]
  rw [← hm, h1, average_add, average_add, average_add, average_smul, average_smul,
    average_const hl, hg.2.1.2]
  have hi : average xs ws (fun x => x i) = m i := rfl
  have hj : average xs ws (fun x => x j) = m j := rfl
  rw [hi, hj]
  ring

/-- A single particle has zero covariance and itself as mean. -/
theorem C11_single {n : Nat} {dflt : Fin n → K} {p : MCPdf K (Fin n → K)} (h : Assigned dflt p)
    {x : Fin n → K} {w : Option K} (hx : p.listGet = [⟨x, w⟩]) :
    p.meanGet = .ok x ∧ p.covGet = .ok 0 := by
  obtain ⟨ws, hg⟩ := h.good
  have hx' : p.samples = [⟨x, w⟩] := hx
  have hl : ws.length = 1 := by rw [← hg.length, hx']; rfl
  obtain ⟨a, ha⟩ := List.length_eq_one_iff.1 hl
  have ha1 : a = 1 := by have := hg.2.1.2; rw [ha] at this; simpa using this
  have hm : meanVector (p.samples.map (·.value)) ws = x := by
    funext k; simp [meanVector, average, hx', ha, ha1]
  refine ⟨by rw [meanGet_eq hg, hm], ?_⟩
  rw [covGet_eq hg]
  congr 1
  ext i j
  simp [covMatrix, hm]
  simp [average, hx', ha]

example : ∃ p : MCPdf ℚ (Fin 1 → ℚ), Assigned 0 p ∧ p.meanGet = .ok (fun _ => 5/2) ∧
    p.covGet = .ok (Matrix.of fun _ _ => 3/4) :=
  ⟨⟨[⟨fun _ => 1, some (1/4)⟩, ⟨fun _ => 3, some (3/4)⟩], [0, 1/4, 1], 1⟩,
    ⟨MCPdf.make 5 0, .setW [⟨fun _ => 1, some 1⟩, ⟨fun _ => 3, some 3⟩], ⟨5, [], rfl⟩,
    by simp [Assigns, Admissible], by decide +kernel⟩, by decide +kernel, by
      rw [covGet_eq (ws := [1/4, 3/4]) (by
        refine ⟨by decide +kernel, ⟨by decide +kernel, by decide +kernel⟩, by decide +kernel,
          by decide +kernel⟩)]
      congr 1
      ext i j
      simp only [covMatrix, meanVector, average, Matrix.of_apply, List.map, List.zipWith,
        List.sum_cons, List.sum_nil]
      norm_num⟩

/-! ## C12 -/

variable [FloorRing K]

/-- Rounding to nearest, halves up. -/
def roundHalfUp (x : K) : Int := ⌊x + 1 / 2⌋

/-- The mean of unsigned particles is the weighted mean rounded to nearest, for every particle
set. -/
theorem C12_mean {dflt : BitVec 32} {p : MCPdf K (BitVec 32)} (h : Assigned dflt p) :
    ∃ ws : List K, HasWeights p.listGet ws ∧ ∃ m, p.meanGetU = .ok m ∧
      (m.toNat : Int) =
        roundHalfUp (average (p.listGet.map (·.value)) ws (fun x => (x.toNat : K))) := by
  obtain ⟨ws, hg⟩ := h.good
  refine ⟨ws, hg.1, ?_⟩
  set A := average (p.samples.map (·.value)) ws (fun x => (x.toNat : K)) with hA
  have hl : (p.samples.map (·.value)).length = ws.length := by simpa using hg.length
  have hA0 : 0 ≤ A := average_nonneg hg.2.1.1 (fun x _ => by positivity)
  have hA1 : A ≤ 2 ^ 32 - 1 := by
    have := average_mono (xs := p.samples.map (·.value)) hg.2.1.1
      (f := fun x => (x.toNat : K)) (g := fun _ => 2 ^ 32 - 1) (by
        intro x _
        have h1 : x.toNat + 1 ≤ 2 ^ 32 := x.isLt
        have h2 : ((x.toNat + 1 : Nat) : K) ≤ ((2 ^ 32 : Nat) : K) := by exact_mod_cast h1
        push_cast at h2
        linarith)
    rwa [average_const hl, hg.2.1.2, one_mul] at this
  have hsum : (List.zipWith (fun (s : WSample K (BitVec 32)) w => (s.value.toNat : K) * w)
      p.samples ws).sum = A := by
    rw [hA]
    unfold average
    rw [List.zipWith_map_left]
    congr 2
    funext s w
    ring
  have hr : -1 < A + 1 / 2 ∧ A + 1 / 2 < 2 ^ 32 := by
    constructor <;> linarith
  have he : p.meanGetU = .ok (BitVec.ofNat 32 ⌊A + 1 / 2⌋.toNat) := by
    unfold meanGetU
    rw [weightGets_eq_ok.2 hg.1, Outcome.ok_bind]
    simp only [hsum, hg.2.2.2, div_one]
    rw [if_pos hr]
    rfl
  refine ⟨_, he, ?_⟩
  have h0 : 0 ≤ ⌊A + 1 / 2⌋ := Int.floor_nonneg.2 (by linarith)
  have h1 : ⌊A + 1 / 2⌋ < 2 ^ 32 := by
    apply Int.floor_lt.2
    have := hr.2
    norm_num at this ⊢
    exact this
  rw [BitVec.toNat_ofNat, Nat.mod_eq_of_lt (by omega)]
  rw [Int.toNat_of_nonneg h0]
  rfl

/-- The covariance is right as long as every particle is closer than `2^16` to the mean. Full
statement: for all particle sets; missing (and false, see `C12_false`): larger distances, where the
32-bit square wraps. -/
theorem C12_cov_partial {dflt : BitVec 32} {p : MCPdf K (BitVec 32)} (h : Assigned dflt p)
    {m : BitVec 32} (hm : p.meanGetU = .ok m)
    (hclose : ∀ s ∈ p.listGet, |((s.value.toNat : Int) - m.toNat)| < 2 ^ 16) :
    ∃ ws : List K, HasWeights p.listGet ws ∧
      p.covGetU = .ok (average (p.listGet.map (·.value)) ws
        (fun x => ((x.toNat : K) - m.toNat) ^ 2)) := by
  obtain ⟨ws, hg⟩ := h.good
  refine ⟨ws, hg.1, ?_⟩
  unfold covGetU
  rw [hm, Outcome.ok_bind, weightGets_eq_ok.2 hg.1, Outcome.ok_bind, hg.2.2.2]
  simp only [div_one, Outcome.pure_eq, Outcome.ok.injEq]
  have hpt : ∀ x ∈ p.samples.map (·.value),
      ((((x - m) * (x - m)).toNat : Nat) : K) = ((x.toNat : K) - m.toNat) ^ 2 := by
    intro x hx
    obtain ⟨s, hs, rfl⟩ := List.mem_map.1 hx
    have hc := hclose s hs
    set x := s.value
    obtain ⟨h1, h2⟩ := abs_lt.1 hc
    have hx' := x.isLt
    have hm' := m.isLt
    have key : (((x - m) * (x - m)).toNat : Int) = ((x.toNat : Int) - m.toNat) ^ 2 := by
      rw [BitVec.toNat_mul, BitVec.toNat_sub]
      set d : Int := (x.toNat : Int) - m.toNat with hd
      have hsq : d ^ 2 < 2 ^ 32 := by nlinarith
      have hsq0 : 0 ≤ d ^ 2 := sq_nonneg d
      rw [← Nat.mul_mod]
      rw [Int.natCast_mod, Nat.cast_mul, Nat.cast_add]
      have hcast : ((2 : Int) ^ 32 - (m.toNat : Int) + x.toNat) = d + 2 ^ 32 := by rw [hd]; ring
      have hsub : (((2 ^ 32 - m.toNat : Nat) : Int)) = 2 ^ 32 - (m.toNat : Int) := by
        rw [Nat.cast_sub hm'.le]; push_cast; rfl
      rw [hsub, hcast]
      have hmod : (d + 2 ^ 32) * (d + 2 ^ 32) = d ^ 2 + 2 ^ 32 * (2 * d + 2 ^ 32) := by ring
      rw [hmod, show ((2 ^ 32 : Nat) : Int) = 2 ^ 32 by norm_num, Int.add_mul_emod_self_left]
      exact Int.emod_eq_of_lt hsq0 hsq
    have := congrArg (Int.cast : Int → K) key
    push_cast at this
    exact this
  have h1 : (List.zipWith (fun (s : WSample K (BitVec 32)) w =>
      (((s.value - m) * (s.value - m)).toNat : K) * w) p.samples ws).sum =
      average (p.samples.map (·.value)) ws (fun x => (((x - m) * (x - m)).toNat : K)) := by
    unfold average
    rw [List.zipWith_map_left]
    congr 2
    funext s w
    ring
  rw [h1]
  exact average_congr hpt

/-- The property is false in general: particles 0 and 131072 with equal weight have mean 65536 and
variance `2^32`, but the code reports 0. -/
theorem C12_false : ∃ p : MCPdf ℚ (BitVec 32), Assigned 0 p ∧ p.meanGetU = .ok 65536#32 ∧
    p.covGetU = .ok 0 ∧
    average (p.listGet.map (·.value)) [1/2, 1/2] (fun x => ((x.toNat : ℚ) - 65536) ^ 2) = 2 ^ 32 :=
  ⟨⟨[⟨0#32, some (1/2)⟩, ⟨131072#32, some (1/2)⟩], [0, 1/2, 1], 1⟩,
    ⟨MCPdf.make 0 0, .setU [0#32, 131072#32], ⟨0, [], rfl⟩,
      by simp [Assigns], by decide +kernel⟩, by decide +kernel, by decide +kernel,
      by decide +kernel⟩

example : ∃ p : MCPdf ℚ (BitVec 32), Assigned 0 p ∧ p.meanGetU = .ok 5#32 ∧
    p.covGetU = .ok 9 :=
  ⟨⟨[⟨2#32, some (1/2)⟩, ⟨8#32, some (1/2)⟩], [0, 1/2, 1], 1⟩,
    ⟨MCPdf.make 0 0, .setU [2#32, 8#32], ⟨0, [], rfl⟩,
      by simp [Assigns], by decide +kernel⟩, by decide +kernel, by decide +kernel⟩

end BFL.Props
