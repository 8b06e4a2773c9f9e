import Verif.Model.CompareFilters

/-!
# The example program for the bootstrap filter

`main` of examples/nonlinear_particle/test_nonlinear_particle.cpp (lines 72-208), with the constants of
examples/mobile_robot_wall_cts.h: the models, the prior, the simulated robot and the estimation loop. Random numbers
are inputs.
-/

namespace BFL.ParticleProgram

open Matrix ExamplePdfs CompareFilters

variable (c : Settings)

/-- `sys_model`, lines 84-106: a `SystemModel` with the pdf of nonlinearSystemPdf.h:29-46, which has two conditional
arguments (nonlinearSystemPdf.cpp:22, 31) and only defines `SampleFrom`. `ProbabilityGet` is that of `Pdf`, which calls
`exit` (pdf/pdf.h:203-209). Simplification: the input has the size of the state; its third entry is not used. -/
noncomputable def sysModel : SysModel (Fin 3 → ℝ) (Fin 3 → ℝ) ℝ where
  model := ⟨some
    { numArgs := 2
      prob := fun _ _ => .abort
      draw := fun cs => match cs with
        | [x, u] => Prod.snd <$> systemSample (Gaussian.make c.sysMu c.q) .default x ![u 0, u 1] 0
        | _ => .ub }, some false⟩
  draw z cs _ := match cs with
    | [x, u] => Prod.snd <$> systemSample (Gaussian.make c.sysMu c.q) .default x ![u 0, u 1] z
    | _ => .ub

/-- The estimation loop, lines 179-191: the filter at the end and the number printed on line 196. The results of
`Update` are not looked at. -/
noncomputable def loop (root : Nat → ℝ → ℝ) (mm : Model (Fin 3 → ℝ) (Fin 1 → ℝ) ℝ) (u : Fin 2 → ℝ)
    (noise : Nat → Noise (Fin 3 → ℝ) ℝ) :
    List ((Fin 3 → ℝ) × (Fin 1 → ℝ)) → Nat → Robot → ParticleFilter (Fin 3 → ℝ) (Fin 3 → ℝ) ℝ →
      Outcome (ParticleFilter (Fin 3 → ℝ) (Fin 3 → ℝ) ℝ × Nat)
  | [], k, _, f => .ok (f, k + 1)
  | d :: ds, k, robot, f => do
    let z ← (robot.move u d.1).measure d.2
    let (_, f') ← ParticleFilter.bootUpdate 0 root (noise k) ⟨some (sysModel c), ![u 0, u 1, 0], some mm, z, 0⟩ f
    loop root mm u noise ds (k + 1) (robot.move u d.1) f'

/-- What the program prints, lines 196-198. -/
structure Report where
  printed : Nat
  mean : Fin 3 → ℝ
  cov : Matrix (Fin 3) (Fin 3) ℝ

/-- The program. `zs` are the values of `rnorm(0,1)` for the samples of the prior, `noise` the random numbers of the
filter, `ds` those of the robot. The measurement model and the prior are made as in the program that compares filters
(lines 113-129 and 135-155). -/
noncomputable def program (be : Backend) (root : Nat → ℝ → ℝ) (robot : Robot) (u : Fin 2 → ℝ)
    (zs : List (Fin 3 → ℝ)) (noise : Nat → Noise (Fin 3 → ℝ) ℝ) (ds : List ((Fin 3 → ℝ) × (Fin 1 → ℝ))) :
    Outcome Report := do
  let mm ← c.measParticle be
  let prior ← c.priorDiscrete zs
  let f ← ParticleFilter.make 0 prior none 0 ((zs.length : ℝ) / 4) .multinomial
  let (f, k) ← loop c root mm u noise ds 0 robot f
  let r ← Settings.particleReport f.postGet
  return ⟨k, r.1, r.2⟩

end BFL.ParticleProgram
