# Design: a Lean 4 model of the Bayesian Filtering Library (BFL)

Source modelled: `/repo/orocos_bfl/src` (read as text only; never built or run).
Lean sources: `/verif/lean/Verif/`.  Property list: `/verif/properties.jsonl`.

## 1. How the code is modelled

* **Outcomes.** Every modelled C++ function that can fail returns `Outcome α`:
  `ok a` (normal return), `abort` (a failed `assert` or an explicit `exit`), `ub` (undefined behaviour: an
  out-of-range `vector` index or iterator, a NULL dereference, a read of an uninitialised object).
  Asserts are modelled as enabled: the default CMake build type is Debug (`CMakeLists.txt:41-44`).
  With `-DNDEBUG` an `abort` of the model becomes "execution continues", about which nothing is claimed.
* **Numbers.** A C++ `double` is modelled by an element of an arbitrary ordered field `K` (instantiated to ℚ in
  the executable examples, to ℝ where square roots or powers are needed).  Arithmetic is exact.  Division by zero
  is *not* totalised silently: where the C++ code divides by a possibly zero double the result is inf or NaN and
  the `Probability` constructor asserts (`bfl_constants.h:41-48`), so the model returns `abort` there.
  Rounding is not modelled except where a section below says so.
* **Comparison-only code** (table look-ups, sweeps, argmax, schedules) performs no arithmetic; theorems about it are
  stated for an arbitrary table so they also apply to rounded tables.
* **Integers.** `int`/`unsigned` counters are `Nat`/`Int` except where the property is about wrap-around
  (`MCPdf<unsigned>`), where `BitVec 32` is used.
* **Randomness.** Each call to `runif()` / `rnorm()` consumes the next element of an explicit input list; theorems
  quantify over that list.  `runif()` is a default constructed
  `boost::uniform_real<double>` (`wrappers/rng/rng.cpp:31-45`); that its range is the half open interval [0,1) is
  Boost's documentation, not visible in this repository.  The draw 0 is therefore included.
* **Matrices.** `Matrix`, `SymmetricMatrix`, `ColumnVector` are Mathlib `Matrix (Fin n) (Fin m) K` and functions; a
  mismatch of dimensions is therefore not expressible except where a definition says so.  The explicit 1x1 and 2x2
  inverse of the wrapper is modelled as written; the external LU based inverse for n >= 3 is trusted to return the exact inverse of an
  invertible matrix and fails on a singular one (Boost: the wrapper's assert; Eigen: a meaningless result, `ub`).
  A parameter `Backend` selects Boost or Eigen (they keep different triangles in `convertToSymmetricMatrix`).
  In-place algorithms written in this repository (Cholesky) are modelled loop by loop.
* **Objects and pointers.** Value classes are structures and methods return the new value.  Where aliasing matters
  (Reset, Clone) a small heap (address → object) is modelled.
* **Virtual calls / user supplied models** (likelihoods, transition densities, nonlinear functions) are function
  parameters.

## 2. Layout

* `Verif/Prelude.lean`   outcome type, vector access.
* `Verif/Model/*.lean`   the model; every definition cites file and lines.
* `Verif/Spec/*.lean`    independent specifications, not mentioning model helpers.
* `Verif/Lemmas/*.lean`  helper lemmas.
* `Verif/Props/*.lean`   property theorems with an `example` showing that the hypotheses are satisfiable.

## 3. Trusted base

* The Lean 4.33.0 kernel; axioms `propext`, `Classical.choice`, `Quot.sound` (checked by `#print axioms`).
* The reading of the C++ text by the author of the model.
* Not modelled: IEEE-754 rounding (except as any rounding with a bounded relative error in C78, C85, C90, C93 and C121, and as binary64 without overflow and underflow in C85, C90 and C93), memory allocation failure, iostream output, the boost/Eigen/NEWMAT libraries
  (specified as exact linear algebra), GiNaC itself (specified as textbook differentiation, substitution and evaluation of
  expressions, C68) and RTT itself (its property bags and expressions are specified where the bindings use them, C66, C67).
  The SVD iteration is modelled in exact arithmetic, where its convergence test `fabs(x)+anorm==anorm` means `x = 0`.
* Also not modelled, because the text does not form a program that could run:
  `optimalimportancefilter` (not listed in `filter/CMakeLists.txt`; calls `ProposalSet()` without argument, while
  the only declarations take one), `optimal_importance_density` (not listed in `pdf/CMakeLists.txt`; uses `_ratio` and
  `_additiveNoise_Sigma`, which neither it nor its base class declares), `nonminimalkalmanfilter` (not listed in
  `filter/CMakeLists.txt`; includes `nonminimal_state/linearise.h`, which is not in the tree).
  The NEWMAT wrappers (`wrappers/matrix/*_NEWMAT.*`) do not override the pure virtual functions `size()` and `capacity()`
  (`wrappers/matrix/matrix_wrapper.h:50-53, 176-179`), so their classes are abstract and no object of them can exist.
  `asirfilter` is installed as a header, but its `UpdateInternal` ends with `this->ResampleStep()`
  (`asirfilter.cpp:153`), a name declared in no header of the tree; its steps up to that call are modelled in `Model/AsirFilter.lean` (C109).

## 4. Plan per property

* **C01** DiscretePdf stays a probability distribution under every history. Model `DiscretePdf` (values + cumulative table). Invariant (non-negative, sum 1, cum = prefix sums) by induction over a list of operations.
* **C02** DiscretePdf::ProbabilitySet pins one state and preserves the odds of the others. Direct theorem about the result of `ProbabilitySet`, both branches; ratio stated by cross multiplication.
* **C03** A rejected ProbabilitiesSet leaves the pdf unchanged. Expected to be FALSE (values overwritten before the sum is checked). Prove the negation with a witness, and the partial statement that success is exactly `sum > 0` and that on failure the stored values are the rejected ones with the stale table.
* **C04** DiscretePdf single-sample draw is inversion of the distribution. Model the `while` loop with out-of-range access as `ub`. Prove the interval characterisation for every u in (0,1]; prove that u = 0 yields state -1 (violation).
* **C05** DiscretePdf ordered-uniform (RIPLEY) list draw is N inversions. Model the ordered uniform construction with `pow` as a parameter and the one-pass sweep; prove sweep = map of single inversions for sorted input; instantiate pow with the real power. N = 0 is `ub`.
* **C06** MostProbableStateGet is an argmax with a fixed tie rule. Fold model; argmax theorem with the tie rule.
* **C07** MCPdf weights are normalised after every successful list assignment. Model the `MCPdf` state (list, sum, cumulative table); invariant by induction over operations; ratio preservation.
* **C08** MCPdf::ListOfSamplesUpdate(unweighted) never reports success without updating. Expected FALSE (length mismatch returns true and does nothing). Negation with witness; partial: holds when lengths agree.
* **C09** MCPdf draws are inversion of the particle weights. Same sweep lemma as C04/C05, over particles; u = 0 is `ub` (iterator before begin).
* **C10** Resampling is unbiased. Lebesgue measure of the set of draws selecting each particle is its weight, hence the integral over draws equals the mean.
* **C11** MCPdf mean and covariance are the weighted sample moments. List-sum algebra; positive semidefiniteness through quadratic forms.
* **C12** MCPdf<unsigned> moments are correct for every particle set. BitVec 32 model. Expected FALSE for the covariance (wrap-around of the square); exact under a bound; negation with witness.
* **C13** MCPdf::NumSamplesSet keeps the surviving particles. List lemma about the model of `NumSamplesSet`.
* **C14** Mixture weights stay normalised under every component history. Model `Mixture` weights+components; invariant by induction over operations.
* **C15** Deleting the only weighted component is handled. Expected FALSE. Negation with witness; partial for a positive remaining weight.
* **C16** AddComponent(pdf,w) / DeleteComponent are inverse on the weights. Round-trip theorem.
* **C17** Mixture density is the convex combination of its components. Convexity of the weighted sum; for discrete components total mass one.
* **C18** Mixture sampling selects components by weight. Sweep lemma; u = 0 is `ub`.
* **C19** A Mixture of any size can be copied. Expected FALSE for the empty mixture (assert). Partial for non-empty.
* **C20** DiscreteConditionalPdf table addressing is a bijection. Mixed radix bijection by induction on the argument list; read-after-write corollaries.
* **C21** DiscreteConditionalPdf sampling follows the selected row. Row extraction + sweep lemma.
* **C22** Histogram filter prediction is the total-probability rule. Model loops; equality with the total-probability sum; mass conservation.
* **C23** Histogram filter correction is Bayes' rule. Model loops; equality with Bayes' rule; commutation of two updates.
* **C24** Histogram filter reports an impossible measurement. Expected FALSE (return value dropped). Negation with witness; partial with positive evidence.
* **C25** Histogram filter is exact over every history. Specification enumerates all state paths; induction over the update list.
* **C26** Particle filter weight update is the importance weight. Weight factor theorem per branch; the sensor-parameter branch drops transition/proposal: negation with witness, partial otherwise.
* **C27** Resampling keeps the support and equalises the weights. Uses C09; EKParticleFilter override keeps weights: negation with witness.
* **C28** Resampling schedule. Run the update loop abstractly; characterise resampling instants; Cauchy-Schwarz for the effective sample size. MixtureParticleFilter increments the time per component: negation.
* **C29** Bootstrap filter equals a particle filter whose proposal is the system model. Unfold both filters; equality.
* **C30** Mixture particle filter is consistent with the flattened particle set. Nested sums.
* **C31** Filters count time steps. Induction over runs; false for Kalman/histogram (never incremented) and mixture particle filter (once per component).
* **C32** Kalman prediction preserves a valid covariance. `Spec.PSD` (symmetric, quadratic form >= 0) over any ordered field; exact F P F'+Q for both back ends; induction over runs of mixed updates.
* **C33** Kalman correction preserves a valid covariance and never increases uncertainty. Joseph identity; PSD of a sum; P - P' = P H' S^-1 H P; for the iterated filter at its last linearisation point.
* **C34** Kalman correction is the Gaussian Bayes posterior. Information form, unique minimiser of the cost, and Bayes' rule for actual normal densities (over the reals).
* **C35** Processing measurements one by one equals processing them together. Stacked against sequential measurement by block matrices and the information form; arbitrary permutations of lists of measurements.
* **C36** NIS is a squared Mahalanobis norm and does not change the filter. Positive definite quadratic form; model returns the state unchanged.
* **C37** EKF and iterated EKF agree with the Kalman filter on linear models. Model the iteration loop; induction on the count.
* **C38** Square-root IEKF covariance equals the standard covariance update. Matrix algebra.
* **C39** Rauch-Tung-Striebel smoothing. PosSemidef of congruences; negation for the linearisation point.
* **C40** Particle smoother weights follow the backward recursion. Model the code's indexing; prove the negation by witness; state what the code computes.
* **C41** Gaussian density cache coherence. State machine with dirty flag; invariant by induction over operations.
* **C42** Cholesky factorisation. Loop model on Fin n; invariant A = partial products + trailing block; negation for indefinite input.
* **C43** Uniform density and sampling agree. Direct; DimensionSet does not resize the scratch vector, so UniformSet on a default constructed object followed by SampleFrom is `ub`.
* **C44** Linear conditional Gaussian mean. State machine over argument/matrix sets; refinement to the affine formula.
* **C45** Models accept exactly one or two conditional arguments. State machine.
* **C46** Vector wrapper element operations stay in bounds. Array model with `ub`; negation for assign; rowCopy index base differs between backends.
* **C47** Small-matrix inverse and determinant. Explicit formulas.
* **C48** Pseudo-inverse. On top of the SVD of C59; the condition on the singular values is stated with the eigenvalues of AᵀA; Moore-Penrose equations.
* **C49** Filter::Reset gives a fresh filter. Pdf objects on a heap, every filter class as a value model working through the `_post` pointer; negation (aliasing of the prior, members that survive); simulation between the reset and the new filter where the first half holds.
* **C50** Clones are independent. Heap model.
* **C51** A list draw from a Mixture that reports success has drawn every sample. Expected FALSE: RIPLEY is passed on to the single draw of the component, which refuses it. Negation for all mixtures; partial for DEFAULT.
* **C52** Most probable component and state of a Mixture. Fold model; argmax with tie rule.
* **C53** A ruled-out mixture component does not stop a mixture particle filter. False: propagate "all weights zero" through every operation; the proposal loop stops there.
* **C54** Gaussian samples follow the reported density. Push-forward of independent standard normals (Mathlib `gaussianReal`) under the Cholesky factor; change of variables.
* **C55** Filter and smoother over a whole session of linear steps. Completing the square, by induction over the
  steps; the marginals are least values over all trajectories through a state.
* **C56** Uniform samples follow the reported density. Push-forward of Lebesgue measure on the unit cube under the affine map of `runif`; product measures.
* **C57** Linear models simulate what they report. Composition of C44, the conditional density and the push-forward of C54.
* **C58** A SymmetricMatrix is symmetric. Storage model of both back ends, induction over the calls; true for Boost, refuted for Eigen (a full matrix).
* **C59** Singular value decomposition. Loop-by-loop model of the Golub-Reinsch algorithm over the reals; invariants: product of stored reflections times bidiagonal matrix, accumulated products, rotations of a bidiagonal matrix with a bulge.
* **C60** Assignment copies. Heap model of C50 with the implicit memberwise assignment operator; negation (shared storage, double deletion) for the three classes with pointers, positive for `MCPdf`.
* **C61** EK particle filter on the heap model of its proposal (C62). Negation: the sample scratch vector has no rows, so no update of a constructed filter ever completes. With the vector enlarged: refinement of any run without resampling to `programStep`, equality with the importance weights for the first update, and negations for the second update (old particles of the base class are never refreshed) and for sensors with parameters.
* **C62** EKF proposal density with its filter and temporary prior on a heap, calls as a list of operations. Refinement to a fresh filter, queries irrelevant, destruction, agreement with the Kalman formulas and with Bayes' rule for linear models; optimal importance density for linear Gaussian models.
* **C63** Equivariance of one update and, by induction, of any run of the filter model of C32, for a `Coord` record (matrix, inverse, offset). Negation for the check the library ships: its threshold is on the raw squared length of the step, so it depends on units.
* **C64** A linear world on an arbitrary probability space (`Spec.LinearWorld`), the filter run for each outcome. Induction over events: the error is orthogonal to the span of the readings, its second moment is the reported covariance; Pythagoras for the comparison.
* **C65** From the run lemma of C64 and linearity of the expectation: E tr(S⁻¹ νν') = tr(S⁻¹ S).
* **C66** Property bags as trees with named items, RTT's `add`, `size`, `getProperty` assumed. The format (`Spec.SaysVec`, `Spec.SaysMat`) is stated independently of reader and writer; writer produces it, reader accepts every bag in it and (for bags with a row) no other; ragged bags are refused. Negations: Eigen writer runs off the matrix, matrices without rows, NULL dereference and half-written results on malformed bags, assert on non-square bags.
* **C67** The index checks followed by `operator[]` of the wrapper model of C46. Full for vectors and for matrices with typekit and Eigen; negations for the other combinations, with what each index does.
* **C68** Symbolic expressions with textbook `diff`, `subs`, `evalf` (what is assumed of GiNaC). `Spec.HasJacobian` uses Mathlib's Fréchet derivative of `ExpectedValueGet` itself. Negation for noisy inputs whose noise mean is not zero.
* **C69** As C68; derivative with respect to the noise mean set through the API. Exact moments by integration over an arbitrary probability space (no Gaussian assumed). Negation for a noise mean that is not zero.
* **C70** `ConditionalGaussian::ProbabilityGet`/`SampleFrom` with the virtual calls resolved and the base-class dimension kept apart from the size of the value. True if the two agree; negations (exact factor, undefined behaviour) if not.
* **C71** Order of covariances (`Spec.AtMost`), two runs related by `Spec.ToldMore`, induction over the pair. Key lemma: the correction is the least Joseph form over all gains, hence monotone in prior and noise covariance. Independence of the readings by antisymmetry. Boundary: a nonlinear sensor, where the covariance does depend on the reading.
* **C72** World of C64 with `Spec.ToldAtLeast` instead of equality; invariant: second moment of the error is at most the reported covariance. No centring needed. Boundary: for every understated sensor noise a world where the filter reports too little.
* **C73** Random numbers uniform on [0,1)^N (product measure). Order statistics: the recursive kth-root construction has, up to order, the law of N independent uniforms (induction on N: the maximum splits off, scaling and kth-root substitution). Then the inversion of the cumulative sums.
* **C74** C73 at the level of integrals: sums over the ordered draws have the mean and variance of sums over independent draws. Stated for `Resampled` and for a measurement update that resamples.
* **C75** Spec on general measurable spaces: transition kernel, likelihood, Bayes' rule (`Spec.exactFilter`), independent draws (`Spec.IndependentDraws`). Invariant: the particles are independent copies of one weighted trajectory; the measure it carries is the unnormalised exact filter (Fubini, change of variables by the importance weight). Then the strong law of large numbers for numerator and denominator. Expected FALSE for updates without a measurement when the proposal differs from the system model: negation with witness. Convergence when resampling takes place is C76.
* **C76** Spec: `Spec.exactFilter` as for C75, uniform numbers (`Spec.uniform`), convergence in probability (`Spec.Likely`). Invariant (`Approx`): the weights are nonnegative with sum 1 outside a rare event, no single weight stays large, and the weighted average of every nonnegative measurable function is rarely above any number greater than its exact integral; the lower bound follows by truncation. Moving, reweighting (conditional Markov inequality) and multinomial resampling (law of the selectors, C73/C74) preserve it. The random inputs of all updates are separated by Fubini (`Lemmas/CloudSources`).
* **C77** On top of C25 (`jointLast`, sum over trajectories). Induction over the history on unnormalised priors with equal evidence: a mixing move leaves a common part of size sigma, which cancels in the difference (Doeblin). `Spec.totalVariation`, `Spec.Mixes`.
* **C78** Second model `Model/Rounded.lean` of the same functions with a rounding after every operation (equal to the first model for the identity, `Rounded.run_id`). Spec: `IsRounding`, the exact posterior of C25, `roundings`. Proof: invariant that the stored probabilities are, up to k roundings, a multiple of the exact unnormalised ones, and sum to 1 up to n + 1 roundings; the factor drops out at the end. Assumes that every operation is rounded on its own (no fused multiply-add or extended precision).
* **C79** `WithinSigmas e P d`: (w.d)^2 <= e w'Pw for every w, equivalent to the Mahalanobis distance (`withinSigmas_iff`), also meaningful for singular covariances. Proof: the difference of the means is multiplied by A or by 1 - GH, the covariance by the same matrix on both sides plus a positive semidefinite term (Joseph form). `C79_nonlinear`: two EKFs with the sensor x^2.
* **C80** Spec: `squares` (one sum over all readings, no recursion), `Reading`. Proof: completing the square at every reading (`cost_split`), information form, and the strong law of large numbers of Mathlib for the average error.
* **C81** Filter variables with pointers that may have no value, implicit copy constructor and assignment, client programs as in C50. Negations for every filter class (`C81_copy_undefined`, `C81_assign_shares`, `C81_assign_double_delete`, `C81_assign_leaks`); refinement of programs with `F g(f.PostGet())` to programs on values, and a simulation between the two filters for the Kalman filters, the smoother and the histogram filter.
* **C82** A small imperative language of matrix commands with an interpreter per wrapper (`MatState.run`); the specification is a relation on tables of numbers with the contract as conditions (`Spec.Tables.Step`). Refinement by induction over programs (`C82_contract_partial`); commands that do not fit are undefined on both (`C82_misfit`); the differences of the wrappers outside the contract are theorems.
* **C83** Derivatives are those of analysis (`Spec.HasJacobian`); the specification `Propagated` speaks about derivatives of the composed motion only. Induction over the steps with the chain rule (`C83_propagation`), uniqueness of derivatives (`C83_one_step`), and the robot model of the examples (`C83_dead_reckoning`, `C83_frame`).
* **C84** The three densities and the robot are modelled with the noise object and the linear density of the library inside. Laws as push-forwards of standard normals (`C84_system_law`, `C84_move_law`, `C84_measure_law`, `C84_negated`), the distance as a minimum over the points of the wall (`C84_not_distance`), the likelihood for every history of the noise (`C84_likelihood`) and its bias (`C84_likelihood_bias`). Partial: the documented distance and the reported flag are wrong in the code.
* **C85** `Model/RoundedMCPdf.lean` repeats the setters, the normalisation, the cumulative table and the ordered uniforms with a rounding after every operation. The table is near the exact one (a relative error of at most 2n+2 roundings, `Represents`), so the search ends for draws up to `1-(2n+2)u` (`C85_defined`, `C85_ripley`) and finds the exact sample away from jumps (`C85_exact`). For binary64 with ties to even: all draws of 32 bits are safe (`C85_32bit`, `C85_ripley_32bit`), a draw of 53 bits is not (`C85_overrun`). The discrete density cannot overrun (`C85_discrete`). Without rounding it is the model of `MCPdf` used elsewhere (`Rounded.MC.run_id`, `Rounded.MC.sampleRipley_id`). Partial: the overrun is in the code.
* **C86** The steps are specified as unique minima of the misfit with the sensor replaced by its tangent (`Spec/GaussNewton.lean`), the loop of the code is shown to take them by completing the square (`C86_iterations`, with the reported covariance and the reason for stopping; `C86_square_root`). Fixed points of the step are the zeros of the derivative of the misfit (`C86_stationary`), convergence is Banach's theorem (`C86_converges`), and `C86_worse` shows that its hypothesis is needed.
* **C87** The readings are random variables on a probability space (`Spec/Identification.lean`). The posterior after a list of readings is C25's; its odds against the true state are a product of likelihood ratios. The square roots of the ratios are independent with the overlap as mean, which is below one by the inequality of the means, so the expected product is summable: Markov's inequality gives `C87_rate`, almost sure summability gives `C87_identifies`. `C87_limits` shows that the hypotheses on the prior and on the densities are needed.
* **C88** The calls, the Riccati equation in information form and `Follows` are in `Spec/Steady.lean`. One call maps the covariance by an order-preserving function for which scaling the argument by a factor scales the value by a factor that is closer to one; with noise in every direction it is closer by a fixed amount, which gives `C88_rate` and `C88_means` over any ordered field. Existence (`C88_settles`, over the reals): the covariances from the prior 0 increase and are bounded by the error covariance of an observer with the constant gain (a Lyapunov equation), so they converge. Conversely the gain of the limit follows the state (`C88_needed`). `C88_when` gives two simple sufficient conditions.
* **C89** `Model/ScriptOperators.lean` models the vector arithmetic of both back ends, the functors of the typekit and the table of registrations; an expression is resolved by the first registration with its symbol and types (how the script language works; outside the repository). `Spec/ScriptOperators.lean` reads every object as a table of numbers and says what the symbols mean (`Answers`), when they have a meaning (`Allowed`) and what an expression means (`Means`); `C89_unique` shows that this is one value. `C89_contract_partial` and `C89_defined` are by induction over the expression. `C89_missing` proves which operators of the classes are not available and `C89_order` why.
* **C90** `Model/RoundedKalman.lean` repeats `CalculateSysUpdate`, `CalculateMeasUpdate` (scalar readings) and the square root filter's `CalculateCovariance` with a rounding after every operation. `Spec/RoundedKalman.lean` has the exact variance of a scalar filter (`varAfter`) and the factor by which readings improve it (`Improves`). `C90_history_partial`: one state, any history, relative error at most `80 c u N` where no reading improves the variance by more than `c`. `C90_step`: one correction with any reading, variance and mean. `C90_negative`: a sharp sensor in double precision makes the reported variance -2^-52. `C90_squareroot`: the square root filter's variances are never negative, any dimensions. Several states, `Props/RoundedKalmanMany.lean`, in terms of entrywise absolute values (`Spec/RoundedMatrix.lean`, invariant `MajM`): `C90_prediction` (any number of motions), `C90_prediction_positive` (relative errors if no entry is negative), `C90_correction` (one scalar reading, error `20 (n+3) κ u` where cancellation leaves the part `1/κ` of the innovation variance), `C90_many_history_partial` (motions and scalar readings in any order, with the recursive bound `Slack`).
* **C91** `Spec/Evidence.lean` defines when two histories tell the same (`SameEvidence`). `C91_histogram` follows from `C25_exact` and an induction over `SameEvidence`. `C91_particles_product` (weights are multiplied by all likelihoods, by induction with `C26_measurement`) and `C91_particles_partial` hold for resampling every fixed number of moves; `C91_degenerate_false` is a concrete pair of runs for resampling on degeneracy. `C91_kalman`: linear readings whose joint misfit (minus twice the log likelihood) agrees up to a constant give the same filter, singular priors included; it generalises C35. `C91_nonlinear_false`: for the extended Kalman filter with nonlinear readings the order matters.
* **C92** `Spec/Split.lean` says when a history is another one with some calls made in two halves; `C92_histogram`, `C92_kalman` and `C92_bootstrap` are equalities of the whole runs, failures included, by induction over it; `C92_mixture_bootstrap` is the equality for one update. `C92_particle_partial`: the particle filter, if the proposal has the density of the motion model (or the reading has sensor parameters). `C92_proposal_false`: two runs of a particle filter with another proposal that end with different weights.
* **C93** `Model/RoundedParticle.lean` repeats the functions of the particle filters that compute with a rounding after every operation; without rounding it is the model of the particle filters (`Rounded.PF.update_id`, `Rounded.PF.bootUpdate_id`). `Props/RoundedParticleSetup.lean` says when the resampling decisions of the exact filter have a margin. `C93_history_partial` and `C93_bootstrap_partial`: same particles, weights with relative error at most `2 M u`, where `M` is linear in the particles, motions and readings (invariant `Follows`: the weights are those of the exact filter, up to a common factor and a number of roundings). `C93_early`: no condition before the first resampling. `C93_mean_partial`: the estimate. `C93_flip` and `C93_underflow`: what happens without the margin, and when likelihoods underflow
* **C94** `Spec/Innovations.lean` defines jointly normal numbers (every linear combination is normal) and the chi-square distribution (law of a sum of squares of independent standard normal numbers); `Props/InnovationsSetup.lean` the client that asks `NisGet` before every reading. `C94_white` from the invariant `Tracks` of C64. For `C94_independent` and `C94_sum` every innovation is whitened with a factor of its covariance (`run_blocks`: `NisGet` is the squared length of the whitened innovation, and the whitened innovations have moments 1 and are pairwise uncorrelated), and uncorrelated jointly normal numbers are independent (`Whitened.laws`)
* **C95** `Spec/BestEstimate.lean` names everything that was read. `C95_distribution`, `C95_coverage` and `C95_best` from the invariant of C64 (`error_law`): the error is an affine combination of jointly normal numbers, uncorrelated with the readings and hence independent of them (`indep_of_orth`)
* **C96** `Spec/HiddenWorld.lean` defines plans (a tree, so that later actions may depend on readings), the probability of a record with its final state (sum over trajectories, as in C25) and sums over all records. `C96_world`: these probabilities sum to one. `C96_calibrated`, `C96_best_guess` and `C96_brier` from `C25_exact`; records of probability zero, for which the filter reports nothing useful (C24), do not count
* **C97** `Spec/Certain.lean`: `Certain a v` (the filter gives `a · x` the value `v` and no covariance with anything), `Conserves`. `C97_exact`: the exact reading. `C97_kept`: induction over histories of `Update` calls. `C97_again_false`: the same exact sensor again always fails, because the zero innovation covariance is inverted
* **C98** `Spec/Mild.lean`: `Mild` (the Jacobian is the derivative and changes at most at rate `L`), mean and covariance of random vectors. Lemmas: Taylor's formula along a segment, integrated. `C98_prediction`, `C98_covariance` (with finite fourth moments, noise independent of the state), `C98_correction`, `C98_sharp` (a parabola attains the bound, so the predictions are biased in general)
* **C99** the world of C64; client program `smoothCalls` (filter forward, smooth backward). Proof: one smoothing step is a correction with the successor as the reading (the noise of the motion is the noise of that sensor), followed by adding the successor's own smoothed error, which is uncorrelated. `C99_error`, `C99_best`, `C99_hindsight`, `C99_distribution` (jointly normal sources)
* **C100** the setting of C75 for a fixed number of particles; `Spec.probabilityOf` (probability of all measurements). Chebyshev's inequality for the sum of the weights times (value minus exact mean minus `e`), whose expectation is negative, and the same for the other side. `C100_particleFilter`, `C100_bootstrap`
* **C101** the setting of C76 for a fixed number of particles; `Spec.errorConstant`, `Spec.KeepsEven`. Root mean square error of the weighted averages of all functions between -1 and 1, followed through resampling (`CloudNear.resample`), the random move (`CloudNear.pair`, with the sum of the squared weights) and the weighting (`CloudNear.reweight`); Chebyshev's inequality at the end. `C101_particleFilter`, `C101_bootstrap`
* **C102** the setting of C76 with vectors as states; the reported moments are averages of the coordinates and their products over the particles (`reported_moments`, needs that the posterior is normalised, which the convergence proof now also keeps), and these converge jointly (`converges_resampling_all`). `C102_particleFilter`, `C102_bootstrap`
* **C103** the exact Bayes filter on measures (`Spec/ExactFilter`) started with `normalLaw` (the measure with the normal density); prediction and Bayes' rule keep it normal with the numbers of the filter (`normalLaw_bind`, `normalLaw_bayes`). `Model/LinearParticle` is the linear model object as the particle filters use it through the base classes; what it reports as density and what it draws are the normal distribution that the Kalman filter assumes (`Linear.isTransition`, `Linear.draw`), then C102. `C103_kalman`, `C103_bootstrap`, `C103_particleFilter`
* **C104** the spec is the exact Bayes filter on measures started with the mixture (`Spec/ExactFilter`, `Spec/MixtureLaw`), and Bayes' rule for the components (`sourceProbability`). Every component runs like a plain particle filter (`MixtureRun`, `MixtureStep`), except that the time step that governs periodic resampling advances by the number of components per update; the total weight of a component converges to its evidence (`Approx.evidence`), so the component weights converge; the exact filter of a mixture is the mixture of the exact filters (`exactFilter_mixtureLaw`). `C104_particleFilter`, `C104_bootstrap`
* **C105** `Spec/Unrelated.lean`: `bothModels`, `firstModel`, `secondModel`, `bothFilters`, `PairStep`; `TwoStep` for finitely many states. `C105_extended`, `C105_iterated_partial` (all iterations done), `C105_checked_partial` (library check, no measurement of both at once), `C105_checked_false`, `C105_nis`, `C105_histogram`: induction over histories, block matrix algebra, product of trajectory sums
* **C106** `Spec/Reduced.lean`: `PartMoves`, `PartSeen`, `partOf`, `TwoViews`; `grouped`, `SameByGroup`. `C106_kalman`: induction over histories, the gain of the part is the part of the gain. `C106_histogram`: the trajectory sum of the groups is the trajectory sum of the states
* **C107** `Spec/Superposition.lean`: `JointStep`, `SameMatrices`, `IsSum`, `Superposed`. `C107_superposition`, `C107_covariance`: every linear relation between the data of the runs is kept by every step (induction over the history). `C107_nonlinear`: witness with the sensor `x²`
* **C108** `Spec/StateMap.lean`: `Same` (same way of ending, related results), `SameDensity`, `SameDraw`, `SameCall`, `SameHistory`, `movedPdf`, `movedMix`. `C108_particle`, `C108_bootstrap`, `C108_mixture`, `C108_mixture_bootstrap`: simulation of every function of the filters, abort and undefined behaviour included; `C108_moments`
* **C109** `Model/AsirFilter.lean` (asirfilter.cpp up to the call of the undeclared `ResampleStep`), `Spec/Auxiliary.lean`: `AuxiliaryStep`, `weightOf`. `C109_update` (the exact steps: the correction goes by place, not by ancestor), `C109_partial` (an auxiliary step if all look-aheads fit equally well), `C109_wrong_ancestor` (5/6 instead of 3/4, for every number of particles) with `C109_draws`, `C109_prediction`, `C109_larger` and `C109_room` (undefined), `C109_measurement`, `C109_first_measurement`, `C109_first_measurement_lost`
* **C110** `Spec/Merging.lean`: `mergedMass`, `Step.Merges`. `C110_merge` by induction over the history from the exactness of the filter (C25), `C110_renumber` for injective maps, `C110_condition` (equivalence for one prediction, point priors)
* **C111** `Model/FormulaModels.lean` (objects in memory with addresses; constructors, `SystemPdfSet/Get`, `MeasurementPdfSet/Get`, questions, the casts in `FunctionGet` etc.), `Spec/FormulaModels.lean`: `Op.Names`, `liveObjects`. `C111_follows` (general models), `C111_keeps` (models for formulas answer from a copy of their own), `C111_own`, `C111_formula_model` (with the pdfs of C68), `C111_formulas_undefined`, `C111_leak`
* **C112** `Spec/MoreReadings.lean`: `Plan.More` (the plans of C96 with additional readings), `ConvexReport`, `expectedGain`, `reportVariance`. `C112_average` by induction over the plans from the exactness of the filter (C25) and the convexity of the scaled function; `C112_mean`, `C112_decision`, `C112_variance`, `C112_entropy` as corollaries, `C112_reports` (the reports exist), `C112_not_always` (a single reading)
* **C113** `Spec/SmootherLaws.lean` with the coordinates of C63 and the joint runs of C107. Induction over the calls: forward by `C63_update` / `sysPart_jointly`, `measPart_jointly`, backward by `backward_ok` (the smoother's step succeeds and keeps the covariance valid) and the transformation of gain, mean and covariance
* **C114** `Model/SmootherProgram.lean` (the loops of the programs, the unassigned entry of the prior, the arguments). `C114_pairing` (which filtered estimate each backward step uses, by the smoother and by the program), `C114_wrong` (the results differ for every noise, closed form), `C114_constant_partial` (they agree for states that do not move), `C114_heading`, `C114_heading_junk` (the report follows unassigned memory), `C114_usage`
* **C115** `Model/DiscreteProgram.lean` (the whole program: table, models, prior, loop with the simulated robot), `Spec/DiscreteProgram.lean`: `stays`, `sensor`, `wander`, `Records`. `C115_posterior` (over all trajectories, by `Spec/Bayes.lean`), `C115_nearest`, `C115_printed` (the printed number is one too large). Exact arithmetic: likelihoods that underflow are outside the model
* **C116** `Model/LinearProgram.lean` (the whole program: matrices, models, prior, loop with the simulated robot), `Spec/LinearProgram.lean`: `WithinBounds`. `C116_models` (the models are what the linear classes of C44 make from the matrices), `C116_dead_reckoning` (the estimate of x ignores the readings, its variance grows linearly; that of y stays below a quarter of the reading's), `C116_drift` (the error in x exceeds any multiple of the reported deviation), `C116_y_bounded_partial`, `C116_printed`
* **C117** `Model/CompareFilters.lean` (the whole program: command line, models, prior, choice of the filter, loop with the simulated robot, files; and the program for the nonlinear Kalman filter), `Spec/CompareFilters.lean`: `estimates`. `C117_blind` (as shipped the estimates are the same for every robot and every reading, whatever the filter), `C117_asir`, `C117_ek`, `C117_ek_assertion`, `C117_usage`, `C117_same` (extended and iterated extended filter agree), `C117_grows`, `C117_measured_partial`, `C117_nonlinear_kalman`, `C117_printed`, `C117_records` (what the files hold: the reading written is another one than the reading used), `C117_readings` (the readings that the Kalman filters of both programs get, in order; both programs agree)
* **C118** `Model/ParticleProgram.lean` (the whole program: models, prior, filter, loop with the simulated robot), `Spec/ParticleProgram.lean`: the motion as a kernel, the sensor density, the readings and the prior. `Lemmas/BootDraws.lean`: a bootstrap filter only draws from its system model; `Lemmas/NonlinearMoments.lean`: second moments of the exact posterior exist for motions of linear growth with additive noise. `C118_completes`, `C118_no_samples`, `C118_compare_completes`, `C118_same`, `C118_moves`, `C118_converges`, `C118_compare_converges`, `C118_compare_shipped`
* **C119** Model of C22 and C20. `Spec/LongRun.lean`: probability of getting from one state to another by several moves, stationary distribution, minorisation. Proved by the contraction of the total variation distance, existence by completeness of the reals. `C119_at_once`, `C119_table`, `C119_only`, `C119_stationary`, `C119_settles`, `C119_swings`
* **C120** Models of C07 to C13, C26 and C27. `Spec/SampleOrder.lean`: weight of a value, lists that say the same, place of a sample after its moves. `C120_moments`, `C120_moments_unsigned`, `C120_draws`, `C120_draws_ripley`, `C120_draw`, `C120_reading`, `C120_readings`, `C120_effective_size`, `C120_order_bootstrap`, `C120_order_particle`; the resampling decision is decided by a witness: `C120_resampling_false`
* **C121** Models of C25 and C78. `Spec/Drift.lean`: tables alike up to a relative error, what is remembered of one error per step. `C121_tables`, `C121_tables_forever`, `C121_rounding`, `C121_accumulates`: every step of the disturbed filter stays close to the exact step (ratio bounds), later moves shrink the distance that has arisen (C77), so that the total is a geometric sum
* **C122** Models of C25 and C06. `Spec/Ordered.lean`: likelihood ratio order, orderly transitions, histories that rise. `C122_order`, `C122_moves_needed`, `C122_readings_needed`; `C122_dominance_false` is the witness that the weaker order is not kept. Sums over pairs of states whose terms have one sign, induction over the history, C25 for the reports
* **C123** Models and random inputs of C101. `Spec/Lasting.lean`: processes that move alike, the constant. `C123_lasting`: functions looking back from the last update, whose ratios lose their dependence on the state by the factor 1 - f per update (`Lemmas/LastingBackward`), the error of a single update seen from the last one (`LastingStep`), a geometric sum over the updates (`LastingRun`). `C123_particleFilter`: the same for other proposals, with weight factors instead of likelihoods. `C123_stuck`, `C123_forgetting_needed`: a small last uniform number of the ordered draws selects the first particle for all (`LastingStuck`)
* **C124** Models and conditions of C123. `C124_bootstrap`, `C124_particleFilter`: C123 for the filter's own prior, and the exact means from two starts lie in one interval whose length shrinks by 1 - f per update (`Lemmas/WrongStart`, from the functions of `LastingBackward`). `C124_static`, `C124_moves_needed`: by induction all particles stay at one place, while the exact probability is 3^T / (3^T + 1)
* **C125** Models and conditions of C123 and C124. `C125_bootstrap`, `C125_particleFilter`: C124 for the models of the filter, and a comparison of two exact filters (`Lemmas/WrongModels`): one update with the other models changes the mean at the end by at most d times the interval that is still open, 2 (1 - f)^k with k updates to go, and these add up to 2 d / f. `C125_parts`: factors of moves and likelihoods multiply. `C125_moves_needed`: by induction the weights are the first ones times the powers of the likelihoods
* **C126** Models of C79. `C126_gain`: by induction over the calls; the difference of the means goes through the update like an error with the covariance of the Joseph form, and two errors add up by the inequality of Cauchy and Schwarz (`WithinSigmas_add`). `C126_outlier`: the same with one difference. `C126_sharp`: one reading of a scalar state with a wide prior. `C126_nonlinear`: two readings computed

## 5. Disagreements between code and properties

In section 4 "expected FALSE" is a prediction made from reading the code.  This section lists what has been proved about
the model.

* **C02** one-state pdf: every `ProbabilitySet` call aborts (`C02_single_state_aborts`).
* **C03** a rejected `ProbabilitiesSet` overwrites the probabilities (`C03_false`, `C03_witness`).
* **C04** the draw 0 yields state -1 (`C04_zero_draw`).
* **C05** a zero first draw yields state -1 (`C05_zero_draw`); a list draw of zero samples is undefined behaviour
  (`C05_zero_samples`).
* **C07** assigning an empty unweighted list returns true although no weights can then sum to one
  (`C07_empty_accepted`).
* **C08** the unweighted `ListOfSamplesUpdate` with another length returns true and does nothing (`C08_false`).
* **C09** the draw 0 dereferences the element before the first particle (`C09_zero_draw`); zero samples
  (`C09_ripley_zero_samples`).
* **C12** the covariance of unsigned particles wraps at 2^32 (`C12_false`).
* **C13** after shrinking with `NumSamplesSet` a draw can run past the end (`C13_shrink_then_draw`).
* **C14** a one-component mixture accepts `WeightSet` with a weight up to 1e-9 away from 1, so the sum is not exactly
  one (`C14_exact_false`).
* **C15** deleting the only weighted component of several returns false after the component is already gone, and the
  object left behind aborts when copied (`C15_false`, `C15_witness`).
* **C18** the draw 0 reads a component out of range (`C18_zero_draw`).
* **C19** copying an empty mixture aborts (`C19_false`).
* **C20** an out-of-range conditional value is not rejected: the read may return another cell of the table (`C20_no_range_check`); raising the number of arguments with `NumConditionalArgumentsSet` makes reads undefined (`C20_more_arguments`).
* **C21** the random number 0 yields the sample -1, which is not a state (`C21_zero_draw`); an all-zero row yields no state (`C21_zero_row`).
* **C24** a measurement of probability zero: `Update` returns true, all posterior probabilities are zero, and draws from the posterior still follow the old distribution (`C24_false`); no later update repairs it (`C24_stays_zero`).
* **C45** a model built without pdf leaves its members uninitialised, every use is undefined (`C45_empty`).
* **C26** with sensor parameters the weight factor is the likelihood alone; transition and proposal densities are not used (`C26_sensor`, `C26_sensor_false`).
* **C27** systematic, stratified and residual resampling are accepted and do nothing (`C27_schemes_false`); `EKParticleFilter::Resample` copies weights along with particles (`C27_ek_false`).
* **C28**, **C31** the mixture filters advance the time step once per component, so a fixed resampling period is counted in components (`C28_mixture_false`, `C31_mixture_false`); `HistogramFilter` never advances it (`C31_histogram_false`).
* **C53** after a measurement rules out one component, a mixture filter with a resampling threshold returns `false` from every later system update and no longer moves the components after it (`C53_update_false`, `C53_forever_false`, `C53_witness_false`).
* **C31** the Kalman filters never advance the time step (`C31_kalman_false`).
* **C36** `NisGet` has no sensor parameter argument and evaluates a two-argument measurement model with an empty vector (`C36_input_false`).
* **C37** `IteratedExtendedKalmanFilter` accepts zero iterations and then reads buffers that were never written (`C37_zero_false`).
* **C42** `cholesky_semidefinite` returns true with the zero matrix for every matrix [[0,t],[t,0]] (`C42_success_false`), and drops pivots below the machine epsilon (`C42_small_false`); what success does guarantee is `C42_success_partial`.
* **C38** The square root filter transposes lower Cholesky factors where the update formula needs them untransposed. With a correlated vector measurement the gain is `P H' (L'L)⁻¹` instead of `P H' (LL')⁻¹` (`C38_measurement_false`: the estimate moves in the wrong direction). `SysUpdate` stores `L'`, so `J J' = P` is lost for states with more than one component (`C38_prediction_false`). `PriorSet` leaves the factor stale, so the covariance it sets has no influence on the next measurement update (`C38_prior_false`). Proved: the identity for correct factors, and agreement with the iterated filter for scalar measurements and for one-dimensional states.
* **C39** the smoother evaluates the Jacobian and the system noise at the smoothed estimate of the next time step instead of the filtered
  estimate being smoothed (rauchtungstriebel.cpp:53-55). For nonlinear models the gain is that of another linearisation
  (`C39_jacobian_false`), and feeding the filter's own prediction back changes the filtered covariance (`C39_unchanged_false`).
* **C40** the particle smoother reads `tot_weight` before it has a value, so every update with a filtered particle is undefined
  (`C40_undefined_false`); with more filtered than smoothed particles it writes behind the end of `gamma` (`C40_sizes_false`); if the
  total happens to be zero the weights are still wrong, because the correction factor is a partial sum for the last smoothed particle and
  the density matrix is read transposed (`C40_weights_false`: 0, 1 instead of 3/4, 1/4 for a static system).
* **C43** a Uniform made without centre and width keeps a sample buffer of the wrong size even after `UniformSet`, so sampling from it
  writes outside the buffer (`C43_default_false`); `ProbabilityGet` takes the dimension from its argument, so a shorter point is given the
  density of the box although it is no point of it (`C43_argument_false`).
* **C46** Under Boost `assign(n, v)` with n ≥ 1 always writes one entry past the end and never the first (`C46_assign_boost`). Under Eigen `RowVector::vectorAdd` works only for two vectors of length one (`C46_rowVectorAdd_eigen`), and `Matrix::rowCopy`, `columnCopy` and `operator[]` count from zero where Boost, the tests and the RTT bindings count from one (`C46_rowCopy_eigen`, `C46_rowCopy_backends_differ`).
* **C58** Under Eigen a `SymmetricMatrix` is a full matrix: writing `(i,j)` leaves `(j,i)` unchanged (`C58_eigen`, `C58_eigen_not_symmetric`).
* **C48** `pseudoinverse()` drops singular values below an absolute bound whose default is 0.01: the inverse of `(1/200)` comes out as `0` (`C48_default_epsilon`). With `epsilon <= 0` a singular matrix leads to a division by zero (`C48_epsilon_zero`).
* **C60** `DiscretePdf`, `DiscreteConditionalPdf` and `Mixture` define a copy constructor but no assignment operator. After `b = a` both use the same storage (`C60_discretePdf_shared`, `C60_conditional_shared`), `b`'s former storage is lost, and destroying both deletes it twice (`C60_discretePdf_double_delete`, `C60_mixture_double_delete`). Also seen while modelling: `~DiscreteConditionalPdf` frees nothing.
* **C49** `Filter::Reset` stores the client's pointer as posterior. After `Reset(p)` the updates change `p` (`C49_prior_is_posterior`, `C49_prior_changed_witness`), and filter and `p` cannot both be destroyed (`C49_double_delete`). The square root filter keeps the factor of the old covariance (`C49_square_root_ignores_covariance`), the histogram filter its scratch vector of the old size (`C49_histogram_size`), the particle filters `_timestep` (`C49_particle_static_witness`, `C49_mixture_static_witness`). The mixture filter's own `Reset` clones `p` (`C49_mixture_prior`).
* **C61** `EKFProposalDensity` is built with dimension 0, and `Pdf::DimensionSet` does not resize `ConditionalGaussian::_samples`: every first update writes outside it (`C61_update_false`, `C61_update_undefined`). `EKParticleFilter` declares its own `_old_samples`, so the inherited weight step reads the base class's, which still holds the prior given to the constructor (`C61_old_samples`); with the first defect repaired the weights after the second update are wrong (`C61_weights_false`). The weight step also uses the covariance of the last particle for all particles (`C61_run`), and for sensors with parameters leaves out transition and proposal (`C61_sensor_false`). Right: the first update otherwise (`C61_first_partial`).
* **C63** The library's `InnovationCheck` compares the squared length of the state step, in whatever mixture of units the state has, with a fixed number: in other units the iterated filter may stop after another number of iterations and give another estimate (`C63_library_check_false`).
* **C66** Under Eigen, writing a matrix to a property bag shifts the rows by one and reads past the last (`C66_matrix_write_eigen`); a matrix without rows is read back as whatever the target held (`C66_matrix_empty`); a bag with a missing or non-numeric item is a NULL dereference (`C66_vector_malformed`); a refused matrix bag leaves the target half overwritten (`C66_matrix_half_written`); a non-square bag for a symmetric matrix or a negative probability ends the program (`C66_sym_not_square`, `C66_probability_negative`); a non-symmetric one silently loses a triangle (`C66_sym_triangle`).
* **C67** `get_matrix_item` checks `0 <= index < rows` and then uses a one-based access: under Boost, and for symmetric matrices, index 0 reads outside the matrix and the last row is out of reach (`C67_typekit_boost_false`). The older `MatrixIndexChecker` accepts one index less than there are rows (`C67_toolkit_false`).
* **C68** `NonLinearAnalyticConditionalGaussian_Ginac::dfGet` evaluates the derivatives at the inputs without the noise mean, while `ExpectedValueGet` adds it (`C68_jacobian_input_wrong`). The constructor for noise on the value does not check the size of the noise (`C68_size_unchecked`).
* **C69** `CovarianceGet` has the same omission: it can report variance 0 for a value with variance (`C69_wrong`).
* **C70** The base class is made with the dimension of the noise: with noise on the inputs the density is off by `(2π)^((f-d)/2)` and sampling multiplies factors of different size (`C70_density_wrong`, `C70_sample_ub`, `C70_instance`).
* **C75** an update without a measurement (`Update(sysmodel, u)`) of the particle filter moves the particles by the proposal and leaves the weights alone, so it predicts with the proposal instead of the system model (`C75_prediction_false`).
* **C81** The copy constructor `Filter(const Filter&)` (and `BackwardFilter`) has an empty body, so that `_prior` and `_post` of a copied filter have no value: updating it, looking at its posterior and destroying it are undefined (`C81_copy_undefined`). The implicit assignment copies the pointers: both filters then work on one posterior (`C81_assign_shares`), destroying both deletes it twice (`C81_assign_double_delete`), and the former posterior is lost (`C81_assign_leaks`). The header admits a bug in the copy constructor ("we should make a copy of the prior").
* **C82** `convertToSymmetricMatrix` takes the lower half with Boost and the upper half with Eigen (`C82_toSym_differ`). One assignment `s(i,j) = x` off the diagonal changes both entries with Boost and one with Eigen, where `transpose` of the result is a plain copy (`C82_symPut_differ`). `resize` keeps the entries with Boost and leaves arbitrary ones with Eigen although both have the parameter `copy` set by default (`C82_resize_differ`). `SymmetricMatrix += Matrix` with an asymmetric matrix throws in Boost and makes an asymmetric "symmetric" matrix in Eigen (`C82_combineMat_differ`). `SymmetricMatrix(n, row)` differs, too (`C82_symRows_differ`).
* **C84** The examples document `WALL_CT = 1/sqrt(a^2+1)` and "the (perpendicular) distance z to the wall y = ax + b", but compute with `2/sqrt(a^2+1)` and without `b`: `MobileRobot::Measure` is twice the distance, negative above the wall (`C84_measure_law`, `C84_not_distance`). The two measurement densities evaluate the noise at `expected - measurement`, which is the density of `expected - noise` (`C84_likelihood_bias`: right for `expected + noise` iff the mean is zero). `NonlinearSystemPdf::SampleFrom` returns `true` although the noise reported failure (`C84_system_flag`) and adds a vector of size 0 for BOXMULLER and RIPLEY (`C84_system_methods`).
* **C85** `MCPdf::CumPDFUpdate` does not force the last entry of its table to 1 (`DiscretePdf`, `DiscreteConditionalPdf` and `Mixture` do). With seven equal samples in IEEE double precision the table ends below `1 - 2^-53`, so `SampleFrom` with that draw increments its iterators past the end (`C85_overrun`). Random numbers with 32 bits stay clear (`C85_32bit`).
* **C89.** The typekit registers the functors for `SymmetricMatrix + Matrix` and `SymmetricMatrix - Matrix` under the symbol `*` (bfl_typekit.cpp:256-257), so scripts have neither operator; that `*` still multiplies depends on the order of the registrations (`C89_order`). `SymmetricMatrix * SymmetricMatrix` is not registered at all. The operator `=` with a number works on a copy (lines 108-116, the comment there says that it does not work), and the operation `resize_SymmetricMatrix` is bound to the function that resizes a `Matrix` (line 285); these two concern the script language's parser and calls, which are not modelled.
* **C90.** The Kalman filter subtracts `K H P` from `P` (kalmanfilter.cpp:106-108). With a sensor whose variance is below the rounding unit times the prior variance the difference can be negative: prior variance 1, sensor factor 31 and sensor variance 2^-60 give a reported variance of -2^-52 (`C90_negative`). The filter does not check for this.
* **C91.** The order of simultaneous readings matters for a particle filter that resamples on degeneracy (two contradicting readings end with all particles at one state or at the other) and for the extended Kalman filter with nonlinear readings. Both are inherent in the methods.
* **C92.** A particle filter whose proposal differs from the motion model divides by the proposal density only if the call has both models. Made in two halves, the correction for the proposal is lost (`C92_proposal_false`, weights 1/4 and 3/4 instead of 1/10 and 9/10).
* **C93.** The particle filter multiplies weights by likelihoods without scaling (particlefilter.cpp:262). If all products are at most half the smallest positive double they underflow, and `Update` returns false for a reading that exact arithmetic handles (`C93_underflow`). Resampling compares random numbers with rounded running sums, so a random number next to a sum selects another particle than with exact arithmetic (`C93_flip`).
* **C97.** A second reading of a sensor without noise, even one that agrees with the first, is never processed: the innovation covariance is the zero matrix and kalmanfilter.cpp:93-98 inverts it (`C97_again_false`).
* **C105.** `InnovationCheck` compares the squared length of the whole step with a threshold, so an iterated filter for two unrelated systems goes on with both while one of them moves, and ends with other estimates than two separate filters (`C105_checked_false`).
* **C109.** `ASIRFilter::UpdateInternal` divides the weight of the particle at place `i` after the resampling by the likelihood of the look-ahead of the particle that was at place `i` before it, not of its ancestor (`C109_wrong_ancestor`). It dereferences the measurement model in an update with a system model alone (`C109_prediction`), keeps the look-aheads in a static vector sized once per process (`C109_larger`), and uses left-over look-aheads in updates with a measurement alone (`C109_measurement`, `C109_first_measurement_lost`).
* **C111.** `NonLinearAnalyticSystemModelGaussianUncertainty_Ginac` and its measurement counterpart copy the pdf they are given, unlike the other models: later changes of the pdf are not seen (`C111_keeps`), and the copy is never deleted (`C111_leak`). Their `FunctionGet`, `StateGet`, `InputGet` and `ConditionalGet` cast the pdf to the model class, which is undefined behaviour (`C111_formulas_undefined`).
* **C114.** `test_kalman_smoother.cpp:195-298` (and the same loops in `tests/smoother_test.cpp` and `test_nonlinear_smoother.cpp`) store the posterior after each update, so the first backward step combines the last filtered estimate with itself and every result is off by one step (`C114_pairing`, `C114_wrong`). `prior_mu(3)` is never assigned in `test_kalman_smoother.cpp:152-155` (`C114_heading_junk`). `test_nonlinear_smoother` advises arguments that it refuses (`C114_usage`).
* **C115.** `test_discrete_filter.cpp:153` prints one time step more than were made (`C115_printed`; the same in `test_linear_kalman.cpp`).
* **C116.** `test_linear_kalman.cpp:90-92` uses the heading 0.8, the robot has the heading `M_PI/4` (`mobile_robot_wall_cts.h:43`), and the readings from a horizontal wall do not correct `x`: the error grows in proportion to the time, the reported deviation only with its square root (`C116_drift`). Line 198 prints one time step too many (`C116_printed`).
* **C117.** `mobile_robot_wall_cts.h:26` sets `USE_MEASUREMENTS` to 0, so `test_compare_filters.cpp:303-306` never gives a reading to a filter and the comparison is the same for every robot (`C117_blind`). The case for `ASIR_filter` is commented out (lines 251-254) although the name is offered (`C117_asir`). `EK_particle_filter` stops at the assertion on the measurement model, or with the readings reads past a vector (C61) (`C117_ek`, `C117_ek_assertion`). Line 312 prints one time step too many (`C117_printed`).
* **C118.** `NonlinearSystemPdf` (nonlinearSystemPdf.h:29-46) does not define `ProbabilityGet`, so evaluating it ends the program (pdf.h:203-209). The bootstrap filter never does so (`C118_completes`, `C118_same`); a `ParticleFilter` with its own proposal would. The number of time steps printed on line 196 is one too large (`C118_completes`).
* **C51** a RIPLEY list draw from a mixture of this library's discrete or Monte Carlo pdfs returns true although no
  component drew anything (`C51_false`, `C51_library_components`).
