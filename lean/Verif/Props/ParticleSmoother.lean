import Verif.Lemmas.ParticleSmoother
import Verif.Spec.ParticleSmoothing
import Mathlib.Algebra.BigOperators.Field
import Mathlib.Tactic.FieldSimp

set_option linter.unusedSectionVars false

/-!
# Properties of the particle smoother: C40
-/

namespace BFL.Props

open Spec PSmoother

variable {K T : Type} [Field K] [LinearOrder K] [IsStrictOrderedRing K]

/-- **C40 fails: undefined behaviour.** The running total of the new weights is read before it has a
value: whatever the particles and the system model, every update with at least one filtered particle
has undefined behaviour. -/
theorem C40_undefined_false (dflt : T) (density : T → T → Outcome K) (p : T → T → K)
    (hp : ∀ y x, density y x = .ok (p y x)) (fs os : List (T × K)) (hfs : fs ≠ [])
    (filtered : MCPdf K T) (f : PSmoother K T) (hf : filtered.samples = fs.map weighted)
    (ho : f.post.samples = os.map weighted) :
    f.update dflt none density filtered = .ub := by
  simp only [update, sysUpdate, MCPdf.listGet, hf, ho]
  cases hc : gammaLoop density (fs.map weighted) (os.map weighted)
      (List.replicate (os.map weighted).length 0) with
  | abort => exact absurd hc (gammaLoop_not_abort hp fs os _)
  | ub => rfl
  | ok g =>
    simp only [Outcome.ok_bind]
    cases fs with
    | nil => exact absurd rfl hfs
    | cons a fs =>
      have : weightLoop g.1 g.2 (os.map weighted) ((a :: fs).map weighted) 0 none = .ub := by
        simp only [List.map_cons, weightLoop]
        cases hd : deltaLoop g.1 g.2 0 (os.map weighted) 0 0 with
        | abort => exact absurd hd (deltaLoop_not_abort _ _ _ os _ _)
        | ub => rfl
        | ok d => rfl
      rw [this]
      rfl

/-- Particles of a static two-state system: state `false` and state `true` stay where they are. -/
def stay (y x : Bool) : ℚ := if y = x then 1 else 0

def fsFix : List (Bool × ℚ) := [(false, 1 / 2), (true, 1 / 2)]
def osFix : List (Bool × ℚ) := [(false, 3 / 4), (true, 1 / 4)]
def filteredFix : MCPdf ℚ Bool := ⟨fsFix.map weighted, [0, 1 / 2, 1], 1⟩
def smootherFix : PSmoother ℚ Bool := ⟨⟨osFix.map weighted, [0, 3 / 4, 1], 1⟩, 0⟩

example : smootherFix.update false none (fun y x => .ok (stay y x)) filteredFix = .ub :=
  C40_undefined_false false _ stay (fun _ _ => rfl) fsFix osFix (by simp [fsFix]) _ _ rfl rfl

/-- **C40 fails: numbers of particles.** With more filtered than smoothed particles the correction
factors are written behind the end of their vector, whatever value the uninitialised total has. -/
theorem C40_sizes_false (dflt : T) (stale : Option K) (density : T → T → Outcome K) (p : T → T → K)
    (hp : ∀ y x, density y x = .ok (p y x)) (fs os : List (T × K)) (hos : os ≠ [])
    (hlt : os.length < fs.length) (filtered : MCPdf K T) (f : PSmoother K T)
    (hf : filtered.samples = fs.map weighted) (ho : f.post.samples = os.map weighted) :
    f.update dflt stale density filtered = .ub := by
  simp only [update, sysUpdate, MCPdf.listGet, hf, ho]
  cases os with
  | nil => exact absurd rfl hos
  | cons b os =>
    have : gammaLoop density (fs.map weighted) ((b :: os).map weighted)
        (List.replicate ((b :: os).map weighted).length 0) = .ub := by
      simp only [List.map_cons, gammaLoop, weighted_value]
      rw [gammaRow_ub hp b.1 fs 0 0 _ (by simpa using hlt) (by omega)]
      rfl
    rw [this]
    rfl

example : (⟨⟨[(weighted (false, 1))], [0, 1], 1⟩, 0⟩ : PSmoother ℚ Bool).update false (some 0)
    (fun y x => .ok (stay y x)) filteredFix = .ub :=
  C40_sizes_false false _ _ stay (fun _ _ => rfl) fsFix [(false, 1)] (by simp) (by simp [fsFix]) _ _ rfl
    rfl

/-- **C40 fails: the weights.** On a machine where the uninitialised total happens to be zero, take a
static two-state system, filtered weights 1/2, 1/2 and smoothed weights 3/4, 1/4. The smoothed
weights of the earlier time are 3/4, 1/4; the code gives 0, 1. -/
theorem C40_weights_false :
    backwardSmoothed stay fsFix osFix = [(false, 3 / 4), (true, 1 / 4)] ∧
    ∃ f', smootherFix.update false (some 0) (fun y x => .ok (stay y x)) filteredFix = .ok (true, f') ∧
      f'.post.samples = [weighted (false, 0), weighted (true, 1)] := by
  refine ⟨by decide +kernel, ⟨⟨[weighted (false, 0), weighted (true, 1)], [0, 0, 1], 1⟩, 0⟩, ?_, rfl⟩
  decide +kernel

/-- What the code uses in place of the smoothing factor of filtered particle `n`: the density is taken
the wrong way round (from particle `m` of the filter to particle `n` of the smoother), and the
correction factor of `m` is a partial sum over the first `m + 1` filtered particles for the last
smoothed particle only. -/
def codeFactor (p : T → T → K) (N M : Nat) (x : Nat → T) (w : Nat → K) (y : Nat → T) (v : Nat → K)
    (n : Nat) : K :=
  ∑ m ∈ Finset.range N, v m * p (y n) (x m) / ∑ k ∈ Finset.range (m + 1), w k * p (y (M - 1)) (x k)

theorem zipIdx_range {α : Type} (f : Nat → α) (n : Nat) :
    ((List.range n).map f).zipIdx = (List.range n).map (fun i => (f i, i)) := by
  apply List.ext_getElem
  · simp
  · intro i h1 h2; simp

theorem sum_range_list (f : Nat → K) (n : Nat) :
    ((List.range n).map f).sum = ∑ i ∈ Finset.range n, f i := rfl

theorem leftover_getD (p : T → T → K) (N : Nat) (x : Nat → T) (w : Nat → K) (yl : T) (l : List K)
    (hl : ∀ a ∈ l, a = 0) (m : Nat) :
    (leftover p ((List.range N).map fun i => (x i, w i)) yl ++ l).getD m 0 =
      if m < N then ∑ k ∈ Finset.range (m + 1), w k * p yl (x k) else 0 := by
  have hlen := leftover_length p ((List.range N).map fun i => (x i, w i)) yl
  simp only [List.length_map, List.length_range] at hlen
  split
  · rename_i h
    rw [List.getD_eq_getElem?_getD, List.getElem?_append_left (by omega), leftover,
      List.getElem?_tail, runningSums_getElem? _ _ _ (by simp; omega)]
    simp only [List.map_map, zero_add, Option.getD_some]
    rw [← List.map_take, List.take_range, min_eq_left (by omega)]
    rfl
  · rw [List.getD_eq_getElem?_getD, List.getElem?_append_right (by omega)]
    cases h : l[m - (leftover p ((List.range N).map fun i => (x i, w i)) yl).length]? with
    | none => rfl
    | some a => exact hl a (List.mem_of_getElem? h)

/-- **C40, what is computed (partial: `codeFactor` is not the smoothing factor of the
specification, see `C40_weights_false`; and the value `t` of the uninitialised total is assumed).** If there are
at least as many smoothed as filtered particles and the total of the new weights is positive, with and
without the stale value, the filtered particles keep their values and order, and their weights are
multiplied by `codeFactor` and normalised; the stale value has no effect on them. -/
theorem C40_computes_partial (dflt : T) (t : K) (density : T → T → Outcome K) (p : T → T → K)
    (hp : ∀ y x, density y x = .ok (p y x)) (hp0 : ∀ y x, 0 ≤ p y x) (N M : Nat) (hNM : N ≤ M)
    (x y : Nat → T) (w v : Nat → K) (hw : ∀ i, 0 ≤ w i) (hv : ∀ i, 0 ≤ v i)
    (filtered : MCPdf K T) (f : PSmoother K T)
    (hf : filtered.samples = ((List.range N).map fun i => (x i, w i)).map weighted)
    (ho : f.post.samples = ((List.range M).map fun i => (y i, v i)).map weighted)
    (hs : f.post.Sized)
    (hpos : 0 < ∑ n ∈ Finset.range N, w n * codeFactor p N M x w y v n)
    (hstale : 0 < t + ∑ n ∈ Finset.range N, w n * codeFactor p N M x w y v n) :
    ∃ f', f.update dflt (some t) density filtered = .ok (true, f') ∧
      f'.post.samples = ((List.range N).map fun n => (x n, w n * codeFactor p N M x w y v n /
        ∑ k ∈ Finset.range N, w k * codeFactor p N M x w y v k)).map weighted := by
  set tot := ∑ n ∈ Finset.range N, w n * codeFactor p N M x w y v n with htot
  set fs := (List.range N).map fun i => (x i, w i) with hfs
  set os := (List.range M).map fun i => (y i, v i) with hos
  have hN : 0 < N := by
    by_contra h
    obtain rfl : N = 0 := by omega
    simp [htot] at hpos
  have hcf : ∀ n, 0 ≤ codeFactor p N M x w y v n := fun n =>
    Finset.sum_nonneg fun m _ => div_nonneg (mul_nonneg (hv m) (hp0 _ _))
      (Finset.sum_nonneg fun k _ => mul_nonneg (hw k) (hp0 _ _))
  have hlfs : fs.length = N := by simp [hfs]
  have hlos : os.length = M := by simp [hos]
  have hosne : os ≠ [] := by
    intro h; rw [h] at hlos; simp at hlos; omega
  have hlast : (os.getLast hosne).1 = y (M - 1) := by
    simp [hos, List.getLast_eq_getElem]
  set gamma := leftover p fs (y (M - 1)) ++ (List.replicate M (0 : K)).drop N with hgamma
  have hglen : gamma.length = M := by
    simp [hgamma, leftover_length, hlfs]; omega
  have hg := gammaLoop_ok hp fs os hosne (List.replicate M 0) (by simp; omega)
  rw [hlast, hlfs, ← hgamma] at hg
  have hgd : ∀ m, gamma.getD m 0 =
      if m < N then ∑ k ∈ Finset.range (m + 1), w k * p (y (M - 1)) (x k) else 0 :=
    leftover_getD p N x w (y (M - 1)) _ (by
      intro a ha; exact List.eq_of_mem_replicate (List.mem_of_mem_drop ha))
  have hd : ∀ i, i < (os.map (fun b => fs.map fun a => p b.1 a.1)).length →
      deltaLoop (os.map (fun b => fs.map fun a => p b.1 a.1)) gamma i (os.map weighted) 0 0 =
        .ok (codeFactor p N M x w y v i) := by
    intro i hi
    have hi' : i < M := by simpa [hlos] using hi
    rw [deltaLoop_ok (row := fs.map fun a => p (y i) a.1)
      (by simp [hos, hi']) (by
        intro k hk
        rw [hgd, if_neg]
        simp only [List.length_map, hlfs] at hk
        omega) os 0 0 (by omega)]
    rw [zero_add, deltaSum, hos, zipIdx_range, List.map_map, sum_range_list, codeFactor]
    congr 1
    have hterm : ∀ m, (((fun e : (T × K) × Nat => e.1.2 * (fs.map fun a => p (y i) a.1).getD e.2 0 /
        gamma.getD e.2 0) ∘ fun i => ((y i, v i), i)) m) =
        if m < N then v m * p (y i) (x m) / ∑ k ∈ Finset.range (m + 1), w k * p (y (M - 1)) (x k)
        else 0 := by
      intro m
      simp only [Function.comp_apply, hgd]
      split
      · rename_i h
        congr 2
        simp [hfs, h]
      · simp
    rw [Finset.sum_congr rfl fun m _ => hterm m, ← Finset.sum_filter]
    congr 1
    ext m
    simp only [Finset.mem_filter, Finset.mem_range]
    omega
  have hwl := weightLoop_ok (gamma := gamma) _ hd fs 0 t (by simp [hlfs, hlos]; omega)
  have hraw : (fs.zipIdx.map fun e => e.1.2 * codeFactor p N M x w y v e.2) =
      (List.range N).map fun n => w n * codeFactor p N M x w y v n := by
    rw [hfs, zipIdx_range, List.map_map]
    rfl
  rw [hraw, sum_range_list, ← htot] at hwl
  have hnew : mapOutcome (setWeight (some (t + tot)))
      ((fs.map weighted).zip ((List.range N).map fun n => w n * codeFactor p N M x w y v n)) =
      .ok (((List.range N).map fun n => (x n, w n * codeFactor p N M x w y v n / (t + tot))).map
        weighted) := by
    have hz : (fs.map weighted).zip ((List.range N).map fun n => w n * codeFactor p N M x w y v n) =
        (List.range N).map fun n => (weighted (x n, w n), w n * codeFactor p N M x w y v n) := by
      rw [hfs, List.map_map, List.zip_map', ]
      rfl
    rw [hz]
    have : ∀ e ∈ (List.range N).map (fun n => (weighted (x n, w n),
        w n * codeFactor p N M x w y v n)), setWeight (some (t + tot)) e =
        .ok ((fun e : WSample K T × K => (⟨e.1.value, some (e.2 / (t + tot))⟩ : WSample K T)) e) := by
      intro e he
      obtain ⟨n, _, rfl⟩ := List.mem_map.1 he
      simp only [setWeight, readTotal, Outcome.ok_bind, if_neg hstale.ne', WSample.weightSet]
      rw [cassert_true (div_nonneg (mul_nonneg (hw n) (hcf n)) hstale.le)]
      rfl
    rw [mapOutcome_eq_ok this, List.map_map, List.map_map]
    rfl
  have hset : f.post.listSetW dflt (((List.range N).map fun n =>
      (x n, w n * codeFactor p N M x w y v n / (t + tot))).map weighted) = .ok (true,
      { samples := MCPdf.scaled (((List.range N).map fun n =>
          (x n, w n * codeFactor p N M x w y v n / (t + tot))).map weighted)
            ((List.range N).map fun n => w n * codeFactor p N M x w y v n / (t + tot)).sum,
        cum := runningSums 0 (((List.range N).map fun n =>
          w n * codeFactor p N M x w y v n / (t + tot)).map
          (· / ((List.range N).map fun n => w n * codeFactor p N M x w y v n / (t + tot)).sum)),
        sumWeights := 1 }) := by
    simp only [MCPdf.listSetW]
    refine MCPdf.normalizeWeights_pos
      (p := { f.post.numSamplesSet dflt (List.length _) with samples := _ }) ?_
      (by simp [List.map_map, Function.comp_def, weighted]) ?_ ?_
    · simp only [MCPdf.Sized]
      exact MCPdf.numSamplesSet_sized dflt hs _
    · intro a ha
      obtain ⟨n, _, rfl⟩ := List.mem_map.1 ha
      exact div_nonneg (mul_nonneg (hw n) (hcf n)) hstale.le
    · rw [sum_range_list, ← Finset.sum_div, ← htot]
      exact div_pos hpos hstale
  have hup : f.update dflt (some t) density filtered = (f.post.listSetW dflt (((List.range N).map fun n =>
      (x n, w n * codeFactor p N M x w y v n / (t + tot))).map weighted) >>= fun r =>
        .ok (true, { f with post := r.2 })) := by
    simp only [update, sysUpdate, MCPdf.listGet, hf, ho]
    rw [List.length_map, hlos, hg, Outcome.ok_bind]
    simp only
    rw [hwl, Outcome.ok_bind]
    simp only
    rw [hnew, Outcome.ok_bind, hset]
    rfl
  rw [hset, Outcome.ok_bind] at hup
  refine ⟨_, hup, ?_⟩
  simp only [MCPdf.scaled, List.map_map]
  apply List.map_congr_left
  intro n _
  simp only [Function.comp_apply, weighted, Option.map_some, WSample.mk.injEq, Option.some.injEq,
    true_and]
  rw [sum_range_list, ← Finset.sum_div, ← htot]
  have h1 := hpos.ne'
  have h2 := hstale.ne'
  field_simp

example : ∃ f', smootherFix.update false (some 7) (fun y x => .ok (stay y x)) filteredFix = .ok (true, f') ∧
    f'.post.samples = [weighted (false, 0), weighted (true, 1)] := by
  obtain ⟨f', h, h'⟩ := C40_computes_partial false 7 (fun y x => .ok (stay y x)) stay (fun _ _ => rfl)
    (by decide) 2 2 le_rfl (fun i => i == 1) (fun i => i == 1) (fun _ => 1 / 2)
    (fun i => if i = 0 then 3 / 4 else 1 / 4) (fun _ => by norm_num)
    (fun i => by split <;> norm_num) filteredFix smootherFix (by decide +kernel) (by decide +kernel)
    rfl (by decide +kernel) (by decide +kernel)
  exact ⟨f', h, h'.trans (by decide +kernel)⟩

end BFL.Props
