{"id": "C01", "title": "DiscretePdf stays a probability distribution under every history", "statement": "After any sequence of DiscretePdf construction, copy, ProbabilitySet and ProbabilitiesSet calls that all report success (no abort, no false), the values returned by ProbabilityGet are non-negative and sum to 1, and there are exactly NumStatesGet() of them.", "quantifier": "for every number of states n >= 1, every finite sequence of calls, every argument value", "why_tests_cant": "Tests exercise a handful of short call sequences; normalisation must survive arbitrary interleavings of single-state and whole-vector updates, including the branch where a state currently holds probability 1.", "anchors": ["orocos_bfl/src/pdf/discretepdf.cpp: DiscretePdf::DiscretePdf, ProbabilitySet, ProbabilitiesSet, NormalizeProbs, CumPDFUpdate"]}
{"id": "C02", "title": "DiscretePdf::ProbabilitySet pins one state and preserves the odds of the others", "statement": "ProbabilitySet(s,a) makes ProbabilityGet(s) equal to a; when s did not already hold all the mass, any two other states keep their probability ratio; when it did, the remaining mass is shared equally.", "quantifier": "for every n, every distribution, every state s in range, every a in [0,1]", "why_tests_cant": "The claim is an algebraic identity over all real-valued distributions.", "anchors": ["orocos_bfl/src/pdf/discretepdf.cpp: DiscretePdf::ProbabilitySet"]}
{"id": "C03", "title": "A rejected ProbabilitiesSet leaves the pdf unchanged", "statement": "If DiscretePdf::ProbabilitiesSet returns false the pdf still describes the distribution it described before the call, and sampling still agrees with ProbabilityGet.", "quantifier": "for every pdf and every rejected vector of values", "why_tests_cant": "Needs the relation between two pieces of internal state after an error path, for all inputs.", "anchors": ["orocos_bfl/src/pdf/discretepdf.cpp: DiscretePdf::ProbabilitiesSet, NormalizeProbs"]}
{"id": "C04", "title": "DiscretePdf single-sample draw is inversion of the distribution", "statement": "With method DEFAULT and uniform draw u, the returned state s satisfies P(0)+...+P(s-1) < u <= P(0)+...+P(s): it is a valid state, has positive probability, and the set of draws that yield s is an interval of length exactly P(s).", "quantifier": "for every reachable pdf and every draw u in the range of the generator", "why_tests_cant": "Frequency tests are statistical and can never show that a zero-probability or out-of-range state is impossible; the boundary draws have measure zero.", "anchors": ["orocos_bfl/src/pdf/discretepdf.cpp: DiscretePdf::SampleFrom(Sample<int>&)", "orocos_bfl/src/wrappers/rng/rng.cpp: runif"]}
{"id": "C05", "title": "DiscretePdf ordered-uniform (RIPLEY) list draw is N inversions", "statement": "With method RIPLEY the call yields exactly N samples; the ordered uniforms it builds are non-decreasing and lie in the unit interval, and sample i is the inversion of the i-th ordered uniform, i.e. the one-sweep algorithm equals N independent table look-ups.", "quantifier": "for every N >= 1, every distribution and every stream of uniform draws", "why_tests_cant": "The sweep carries a pointer between samples; equality with independent look-ups must hold for every distribution and every N.", "anchors": ["orocos_bfl/src/pdf/discretepdf.cpp: DiscretePdf::SampleFrom(vector<Sample<int>>&, RIPLEY)"]}
{"id": "C06", "title": "MostProbableStateGet is an argmax with a fixed tie rule", "statement": "MostProbableStateGet returns a state whose probability is at least that of every other state; among ties it returns the largest index.", "quantifier": "for every n >= 1 and every distribution", "why_tests_cant": "All distributions and tie patterns.", "anchors": ["orocos_bfl/src/pdf/discretepdf.cpp: DiscretePdf::MostProbableStateGet"]}
{"id": "C07", "title": "MCPdf weights are normalised after every successful list assignment", "statement": "Whenever ListOfSamplesSet or ListOfSamplesUpdate replaces the sample list and returns true, the weights reported by ListOfSamplesGet are non-negative and sum to 1, NumSamplesGet equals the list length, sample values are kept in order, and weighted input keeps all weight ratios while unweighted input gets weight 1/N each.", "quantifier": "for every sample list length and weights, after any history of earlier calls", "why_tests_cant": "Unbounded list lengths, weights and histories (grow/shrink).", "anchors": ["orocos_bfl/src/pdf/mcpdf.h: MCPdf::ListOfSamplesSet, ListOfSamplesUpdate, NumSamplesSet, SumWeightsUpdate, NormalizeWeights, CumPDFUpdate"]}
{"id": "C08", "title": "MCPdf::ListOfSamplesUpdate(unweighted) never reports success without updating", "statement": "If ListOfSamplesUpdate(vector<Sample>) returns true then ListOfSamplesGet afterwards holds the given values.", "quantifier": "for every pdf and every list", "why_tests_cant": "The offending case is a silent length mismatch; a test has to guess it.", "anchors": ["orocos_bfl/src/pdf/mcpdf.h: MCPdf::ListOfSamplesUpdate(const vector<Sample<T>>&)"]}
{"id": "C09", "title": "MCPdf draws are inversion of the particle weights", "statement": "For a uniform draw u the returned value is the value of the particle whose weight interval contains u (cumulative weight before < u <= cumulative weight after): always an existing particle with positive weight; each particle is selected for a set of draws of length equal to its normalised weight. The RIPLEY list draw returns exactly N such values.", "quantifier": "for every particle set with positive total weight, every draw / stream of draws, every N >= 1", "why_tests_cant": "Boundary draws and zero-weight particles have measure zero for a statistical test, and an iterator past either end is undefined behaviour.", "anchors": ["orocos_bfl/src/pdf/mcpdf.h: MCPdf::SampleFrom (both overloads)"]}
{"id": "C10", "title": "Resampling is unbiased", "statement": "Averaging the value returned by a single MCPdf draw over the uniform draw gives exactly ExpectedValueGet().", "quantifier": "for every particle set with positive total weight", "why_tests_cant": "A statement about an integral over all draws.", "anchors": ["orocos_bfl/src/pdf/mcpdf.h: MCPdf::SampleFrom", "orocos_bfl/src/pdf/mcpdf.cpp: MCPdf<ColumnVector>::ExpectedValueGet"]}
{"id": "C11", "title": "MCPdf mean and covariance are the weighted sample moments", "statement": "For vector particles ExpectedValueGet lies componentwise between the smallest and largest particle, is unchanged by reordering particles or rescaling all weights; CovarianceGet is symmetric, positive semidefinite, equals E[xx'] - mm', and is zero for a single particle.", "quantifier": "for every dimension, particle count and weights with positive sum", "why_tests_cant": "Universal algebraic identities over unbounded lists.", "anchors": ["orocos_bfl/src/pdf/mcpdf.cpp: MCPdf<ColumnVector>::ExpectedValueGet, CovarianceGet"]}
{"id": "C12", "title": "MCPdf<unsigned> moments are correct for every particle set", "statement": "For unsigned particles ExpectedValueGet is the weighted mean rounded to nearest, and CovarianceGet is the weighted sum of squared deviations from it.", "quantifier": "for every list of 32-bit unsigned particle values and weights", "why_tests_cant": "Depends on modular wrap-around of a subtraction and a product on extreme values.", "anchors": ["orocos_bfl/src/pdf/mcpdf.cpp: MCPdf<unsigned int>::ExpectedValueGet, CovarianceGet"]}
{"id": "C13", "title": "MCPdf::NumSamplesSet keeps the surviving particles", "statement": "NumSamplesSet(k) leaves exactly k samples; growing keeps all old samples, in order, in front; shrinking keeps a contiguous block of the old samples in order.", "quantifier": "for every current size and every k", "why_tests_cant": "All size pairs.", "anchors": ["orocos_bfl/src/pdf/mcpdf.h: MCPdf::NumSamplesSet"]}
{"id": "C14", "title": "Mixture weights stay normalised under every component history", "statement": "After any sequence of AddComponent, DeleteComponent, WeightSet and WeightsSet calls that all report success, the mixture has as many weights as components, and, if non-empty, the weights are non-negative and sum to 1.", "quantifier": "for every finite sequence of calls, any number of components", "why_tests_cant": "Arbitrary interleavings of growth, removal and re-weighting.", "anchors": ["orocos_bfl/src/pdf/mixture.h: Mixture::AddComponent, DeleteComponent, WeightSet, WeightsSet, NormalizeWeights, CumWeightsUpdate"]}
{"id": "C15", "title": "Deleting the only weighted component is handled", "statement": "DeleteComponent either succeeds and leaves a normalised mixture or reports failure and leaves the mixture unchanged.", "quantifier": "for every mixture and component index in range", "why_tests_cant": "The failing case is a zero-sum remainder.", "anchors": ["orocos_bfl/src/pdf/mixture.h: Mixture::DeleteComponent, NormalizeWeights"]}
{"id": "C16", "title": "AddComponent(pdf,w) / DeleteComponent are inverse on the weights", "statement": "AddComponent(pdf,w) on a non-empty mixture gives the new component weight w and scales the others by 1-w; deleting it again restores the previous components and weights exactly (w != 1).", "quantifier": "for every non-empty mixture and 0 <= w < 1", "why_tests_cant": "Round-trip law over all mixtures.", "anchors": ["orocos_bfl/src/pdf/mixture.h: Mixture::AddComponent(Pdf&,Probability), DeleteComponent"]}
{"id": "C17", "title": "Mixture density is the convex combination of its components", "statement": "Mixture::ProbabilityGet(x) equals the weighted sum of component densities; it lies between the smallest and largest component density at x; for discrete components it is itself a distribution (sums to 1).", "quantifier": "for every mixture, every point", "why_tests_cant": "All mixtures.", "anchors": ["orocos_bfl/src/pdf/mixture.h: Mixture::ProbabilityGet", "orocos_bfl/src/pdf/mixture.cpp: ExpectedValueGet"]}
{"id": "C18", "title": "Mixture sampling selects components by weight", "statement": "A draw u selects the component whose cumulative weight interval contains u: an existing component with positive weight.", "quantifier": "for every mixture, every draw", "why_tests_cant": "Boundary draws; unsigned wrap-around on index 0 minus 1.", "anchors": ["orocos_bfl/src/pdf/mixture.h: Mixture::SampleFrom"]}
{"id": "C19", "title": "A Mixture of any size can be copied", "statement": "Cloning/copying a mixture yields a mixture with the same dimension, components and weights, for every number of components including zero.", "quantifier": "for every mixture", "why_tests_cant": "Zero components is a boundary case of a container property.", "anchors": ["orocos_bfl/src/pdf/mixture.h: Mixture(const Mixture&), Clone, WeightsGet, TestNotInit"]}
{"id": "C20", "title": "DiscreteConditionalPdf table addressing is a bijection", "statement": "For in-range state and conditional arguments, distinct (state, arguments) tuples address distinct table cells inside the allocated table and every cell is addressed; hence ProbabilitySet changes ProbabilityGet for exactly one tuple and to exactly the given value.", "quantifier": "for every number of states, number of conditional arguments and dimensions", "why_tests_cant": "Mixed-radix addressing over arbitrarily many arguments; off-by-one strides can pass small square examples.", "anchors": ["orocos_bfl/src/pdf/discreteconditionalpdf.cpp: IndexGet, ProbabilityGet, ProbabilitySet"]}
{"id": "C21", "title": "DiscreteConditionalPdf sampling follows the selected row", "statement": "With conditional arguments c and draw u, the sampled state s satisfies cum(s) < u*total <= cum(s+1) where cum are prefix sums of the row P(.|c); it is in range and P(s|c) > 0.", "quantifier": "for every table with a positive row, every draw", "why_tests_cant": "Boundary draws.", "anchors": ["orocos_bfl/src/pdf/discreteconditionalpdf.cpp: DiscreteConditionalPdf::SampleFrom"]}
{"id": "C22", "title": "Histogram filter prediction is the total-probability rule", "statement": "A system update replaces the posterior by P'(x') = sum_x P(x'|x[,u]) P(x); if each row of the system pdf sums to one no probability mass is created or lost.", "quantifier": "for every number of states, transition table, prior and input", "why_tests_cant": "Unbounded matrices.", "anchors": ["orocos_bfl/src/filter/histogramfilter.cpp: HistogramFilter::SysUpdate"]}
{"id": "C23", "title": "Histogram filter correction is Bayes' rule", "statement": "A measurement update replaces the posterior by P(x) P(z|x[,s]) / sum_y P(y) P(z|y[,s]) whenever that denominator is positive; conditionally independent measurements may be processed in any order with the same result.", "quantifier": "for every prior and likelihood", "why_tests_cant": "Algebraic law over all tables.", "anchors": ["orocos_bfl/src/filter/histogramfilter.cpp: HistogramFilter::MeasUpdate"]}
{"id": "C24", "title": "Histogram filter reports an impossible measurement", "statement": "If every state has zero likelihood the update reports failure or leaves a valid distribution as posterior.", "quantifier": "for every prior and likelihood with zero evidence", "why_tests_cant": "Error path whose return value is discarded.", "anchors": ["orocos_bfl/src/filter/histogramfilter.cpp: MeasUpdate, UpdateInternal", "orocos_bfl/src/pdf/discretepdf.cpp: ProbabilitiesSet"]}
{"id": "C25", "title": "Histogram filter is exact over every history", "statement": "After any sequence of system and measurement updates the posterior equals the marginal of the last state obtained by summing the joint probability over all state paths and dividing by the evidence.", "quantifier": "for every number of states, every model, every length and order of updates with positive evidence", "why_tests_cant": "Exponentially many paths, unbounded histories.", "anchors": ["orocos_bfl/src/filter/histogramfilter.cpp: UpdateInternal", "orocos_bfl/src/filter/filter.cpp: Update"]}
{"id": "C26", "title": "Particle filter weight update is the importance weight", "statement": "A measurement update multiplies each particle weight by likelihood * transition / proposal (likelihood alone when no system model is given) and renormalises; particles keep their value and order.", "quantifier": "for every particle set, model and measurement, with and without inputs and sensor parameters", "why_tests_cant": "All model shapes; an omitted factor is invisible when the proposal equals the system pdf.", "anchors": ["orocos_bfl/src/filter/particlefilter.cpp: UpdateWeightsInternal"]}
{"id": "C27", "title": "Resampling keeps the support and equalises the weights", "statement": "After a resampling step the particle count is unchanged, each particle value is one of the previous particles with positive weight, and all weights equal 1/N.", "quantifier": "for every particle set and draw stream; every particle filter class", "why_tests_cant": "All draw streams; subclass overrides.", "anchors": ["orocos_bfl/src/filter/particlefilter.cpp: Resample", "orocos_bfl/src/filter/EKparticlefilter.cpp: Resample"]}
{"id": "C28", "title": "Resampling schedule", "statement": "With a fixed period p, over any run of updates the filter resamples exactly before the proposal of the updates numbered k*p+1 (k >= 1); with a threshold it resamples exactly when the effective sample size 1/sum w^2 is below the threshold, and that size is between 1 and N.", "quantifier": "for every run length, period, threshold and weights", "why_tests_cant": "Unbounded runs.", "anchors": ["orocos_bfl/src/filter/particlefilter.cpp: StaticResampleStep, DynamicResampleStep, UpdateInternal", "orocos_bfl/src/filter/mixtureParticleFilter.cpp: StaticResampleStep"]}
{"id": "C29", "title": "Bootstrap filter equals a particle filter whose proposal is the system model", "statement": "Update(sys,u,meas,z,s) on the bootstrap filter moves each particle through the system pdf and multiplies its weight by the measurement likelihood only; the result flag is the conjunction of both steps.", "quantifier": "for every particle set, model, input and measurement", "why_tests_cant": "All models and histories.", "anchors": ["orocos_bfl/src/filter/bootstrapfilter.cpp: UpdateInternal"]}
{"id": "C30", "title": "Mixture particle filter is consistent with the flattened particle set", "statement": "Viewing particle i of component k as carrying weight W_k*w_{k,i}, a measurement update multiplies each such product by the particle's likelihood and renormalises globally.", "quantifier": "for every number of components and particles, every likelihood with positive total", "why_tests_cant": "Double sums over unbounded nested lists with per-component normalisation.", "anchors": ["orocos_bfl/src/filter/mixtureParticleFilter.cpp: UpdateWeightsInternal, UpdateWeightsInternalOne"]}
{"id": "C31", "title": "Filters count time steps", "statement": "TimeStepGet equals the number of system updates performed.", "quantifier": "for every filter class and every run", "why_tests_cant": "Unbounded runs; per-class differences.", "anchors": ["orocos_bfl/src/filter/filter.cpp: TimeStepGet", "orocos_bfl/src/filter/particlefilter.cpp: ProposalStepInternal", "orocos_bfl/src/filter/mixtureParticleFilter.cpp: ProposalStepInternalOne", "orocos_bfl/src/filter/kalmanfilter.cpp: UpdateInternal"]}
{"id": "C32", "title": "Kalman prediction preserves a valid covariance", "statement": "With positive semidefinite prior covariance and process noise, the predicted covariance F P F' + Q is symmetric positive semidefinite; storing only one triangle loses nothing.", "quantifier": "for every dimension, F, P, Q; by induction for every run", "why_tests_cant": "All matrices and all run lengths.", "anchors": ["orocos_bfl/src/filter/kalmanfilter.cpp: CalculateSysUpdate", "orocos_bfl/src/wrappers/matrix/matrix_BOOST.cpp: convertToSymmetricMatrix"]}
{"id": "C33", "title": "Kalman correction preserves a valid covariance and never increases uncertainty", "statement": "With positive semidefinite prior covariance P and positive definite measurement noise R the corrected covariance is symmetric positive semidefinite and P - P' is positive semidefinite; it equals the Joseph form.", "quantifier": "for every state and measurement dimension, H, P, R", "why_tests_cant": "All matrices.", "anchors": ["orocos_bfl/src/filter/kalmanfilter.cpp: CalculateMeasUpdate"]}
{"id": "C34", "title": "Kalman correction is the Gaussian Bayes posterior", "statement": "With P and R positive definite the posterior satisfies the information form P'^-1 = P^-1 + H'R^-1H and P'^-1 m' = P^-1 m + H'R^-1 (z - Z + H m), and m' is the unique minimiser of the sum of prior and measurement quadratic costs.", "quantifier": "for every dimension and every input", "why_tests_cant": "Matrix inversion lemma over all dimensions.", "anchors": ["orocos_bfl/src/filter/kalmanfilter.cpp: CalculateMeasUpdate"]}
{"id": "C35", "title": "Processing measurements one by one equals processing them together", "statement": "Two independent linear measurements applied in sequence give the same posterior as the stacked measurement with block-diagonal noise, and their order does not matter.", "quantifier": "for every dimensions, matrices and measurements", "why_tests_cant": "Universal matrix identity.", "anchors": ["orocos_bfl/src/filter/kalmanfilter.cpp: CalculateMeasUpdate", "orocos_bfl/src/filter/extendedkalmanfilter.cpp: MeasUpdate"]}
{"id": "C36", "title": "NIS is a squared Mahalanobis norm and does not change the filter", "statement": "NisGet returns a non-negative number which is zero exactly when the measurement equals its prediction, and leaves the posterior unchanged.", "quantifier": "for every state, measurement model and measurement", "why_tests_cant": "All matrices.", "anchors": ["orocos_bfl/src/filter/kalmanfilter.cpp: CalculateNis", "orocos_bfl/src/filter/extendedkalmanfilter.cpp: NisGet"]}
{"id": "C37", "title": "EKF and iterated EKF agree with the Kalman filter on linear models", "statement": "For linear models the EKF update is the Kalman update; the iterated EKF gives the same posterior as the EKF for every iteration count >= 1, and with one iteration it equals the EKF for nonlinear models too.", "quantifier": "for every model, iteration count and innovation check", "why_tests_cant": "Every iteration count and nonlinear function.", "anchors": ["orocos_bfl/src/filter/iteratedextendedkalmanfilter.cpp: MeasUpdate", "orocos_bfl/src/filter/extendedkalmanfilter.cpp", "orocos_bfl/src/filter/innovationCheck.cpp"]}
{"id": "C38", "title": "Square-root IEKF covariance equals the standard covariance update", "statement": "If the stored factor J satisfies P = JJ', S = Sr Sr', R = Rv Rv' and Rv+Sr is invertible, the square-root update yields JJ' = P - P H' S^-1 H P.", "quantifier": "for every dimension and matrices", "why_tests_cant": "Universal matrix identity.", "anchors": ["orocos_bfl/src/filter/SRiteratedextendedkalmanfilter.cpp: CalculateMatrix, CalculateCovariance"]}
{"id": "C39", "title": "Rauch-Tung-Striebel smoothing", "statement": "With the smoothed next-step covariance not larger than the predicted one, the smoothed covariance is symmetric, positive semidefinite and not larger than the filtered covariance; if the next-step smoothed estimate equals the prediction the filtered estimate is unchanged; the Jacobian is evaluated at the filtered estimate being smoothed.", "quantifier": "for every dimension, model and filtered history", "why_tests_cant": "All matrices; the linearisation point is invisible on linear test models.", "anchors": ["orocos_bfl/src/smoother/rauchtungstriebel.cpp: SysUpdate"]}
{"id": "C40", "title": "Particle smoother weights follow the backward recursion", "statement": "The smoothed weight of filtered particle n is proportional to w_n * sum_m v_m p(y_m|x_n) / sum_k w_k p(y_m|x_k), for any numbers of filtered and smoothed particles.", "quantifier": "for all particle counts and models", "why_tests_cant": "Index transposition cannot be seen with symmetric transition densities and equal counts.", "anchors": ["orocos_bfl/src/smoother/particlesmoother.cpp: SysUpdate"]}
{"id": "C41", "title": "Gaussian density cache coherence", "statement": "ProbabilityGet(x) always returns the density for the mean and covariance most recently set, whatever the interleaving of ExpectedValueSet, CovarianceSet, copies and ProbabilityGet calls.", "quantifier": "for every history", "why_tests_cant": "A dirty-flag cache must be right after every interleaving.", "anchors": ["orocos_bfl/src/pdf/gaussian.cpp: ProbabilityGet, CovarianceSet, ExpectedValueSet"]}
{"id": "C42", "title": "Cholesky factorisation", "statement": "cholesky_semidefinite on a positive semidefinite matrix returns true and a lower triangular L with L L' equal to the matrix, and Gaussian samples are mean + L * normals; it returns true only if the result is a factorisation.", "quantifier": "for every dimension and every symmetric matrix", "why_tests_cant": "In-place triple loop over all dimensions, singular and indefinite matrices.", "anchors": ["orocos_bfl/src/wrappers/matrix/matrix_wrapper.cpp: cholesky_semidefinite", "orocos_bfl/src/pdf/gaussian.cpp: SampleFrom"]}
{"id": "C43", "title": "Uniform density and sampling agree", "statement": "ProbabilityGet is 1/volume inside the closed box and 0 outside; samples drawn lie inside the box; CenterGet/WidthGet return what the constructor or UniformSet was given.", "quantifier": "for every dimension, center, positive widths, point and draw", "why_tests_cant": "All boxes, points and setter histories.", "anchors": ["orocos_bfl/src/pdf/uniform.cpp"]}
{"id": "C44", "title": "Linear conditional Gaussian mean", "statement": "ExpectedValueGet returns sum_i A_i c_i + mu for the conditional arguments and matrices most recently set, independent of earlier calls; the system model's PredictionGet(u,x) is A x + B u + mu.", "quantifier": "for every number of arguments, matrices, history of sets and gets", "why_tests_cant": "Uses shared scratch members; all histories.", "anchors": ["orocos_bfl/src/pdf/linearanalyticconditionalgaussian.cpp", "orocos_bfl/src/model/analyticsystemmodel_gaussianuncertainty.cpp", "orocos_bfl/src/pdf/conditionalpdf.h"]}
{"id": "C45", "title": "Models accept exactly one or two conditional arguments", "statement": "A system or measurement model can be built or reassigned only with a pdf with one or two conditional arguments; the with/without-input query, Simulate and ProbabilityGet overloads agree with that count and abort otherwise.", "quantifier": "for every pdf and sequence of SystemPdfSet calls", "why_tests_cant": "All histories of reassignments.", "anchors": ["orocos_bfl/src/model/systemmodel.cpp", "orocos_bfl/src/model/measurementmodel.cpp"]}
{"id": "C46", "title": "Vector wrapper element operations stay in bounds", "statement": "ColumnVector::assign(n,v) yields a vector of n entries all equal to v; sub and vectorAdd are inverse; rowCopy(r) returns row r under every backend.", "quantifier": "for every size and index", "why_tests_cant": "Out-of-bounds writes may pass tests silently; backends differ.", "anchors": ["orocos_bfl/src/wrappers/matrix/vector_BOOST.cpp: assign, vectorAdd, sub", "orocos_bfl/src/wrappers/matrix/matrix_BOOST.cpp: rowCopy", "orocos_bfl/src/wrappers/matrix/matrix_EIGEN.cpp: rowCopy"]}
{"id": "C47", "title": "Small-matrix inverse and determinant", "statement": "For 1x1 and 2x2 matrices inverse() times the matrix is the identity when determinant() is non-zero; the symmetric inverse is symmetric.", "quantifier": "for every matrix with non-zero determinant", "why_tests_cant": "All real matrices.", "anchors": ["orocos_bfl/src/wrappers/matrix/matrix_BOOST.cpp: inverse, determinant"]}
{"id": "C48", "title": "Pseudo-inverse", "statement": "Given a singular value decomposition whose singular values are either zero or at least epsilon, pseudoinverse(epsilon) satisfies the four Moore-Penrose conditions.", "quantifier": "for every matrix and epsilon > 0", "why_tests_cant": "All matrices and rank patterns.", "anchors": ["orocos_bfl/src/wrappers/matrix/matrix_wrapper.cpp: pseudoinverse, PYTHAG"]}
{"id": "C49", "title": "Filter::Reset gives a fresh filter", "statement": "After Reset(p) the filter behaves as a newly constructed filter with prior p, and p itself is not modified by later updates.", "quantifier": "for every filter, prior and subsequent updates", "why_tests_cant": "Aliasing only shows in later histories.", "anchors": ["orocos_bfl/src/filter/filter.cpp: Reset", "orocos_bfl/src/filter/histogramfilter.cpp"]}
{"id": "C50", "title": "Clones are independent", "statement": "Updating a clone of a DiscretePdf, MCPdf, DiscreteConditionalPdf or Mixture never changes the original and vice versa.", "quantifier": "for every object and every sequence of later operations on either", "why_tests_cant": "Aliasing over all histories.", "anchors": ["orocos_bfl/src/pdf/discretepdf.cpp", "orocos_bfl/src/pdf/mcpdf.h", "orocos_bfl/src/pdf/discreteconditionalpdf.cpp", "orocos_bfl/src/pdf/mixture.h"]}
{"id": "C51", "title": "A list draw from a Mixture that reports success has drawn every sample", "statement": "If Mixture::SampleFrom(list, N, method) returns true, each of the N samples was produced by a draw from one of the components.", "quantifier": "for every non-empty mixture, every N, every sampling method and every random stream", "why_tests_cant": "The failing draws are silent: the call returns true and the list holds plausible default samples.", "anchors": ["orocos_bfl/src/pdf/mixture.h: SampleFrom (list)", "orocos_bfl/src/pdf/discretepdf.cpp: SampleFrom", "orocos_bfl/src/pdf/mcpdf.h: SampleFrom"]}
{"id": "C52", "title": "Most probable component and state of a Mixture", "statement": "MostProbableComponentGet returns the first component of largest weight; ExpectedValueGet of a mixture of discrete pdfs returns the first state of largest mixture probability.", "quantifier": "for every successfully built non-empty mixture", "why_tests_cant": "Argmax with ties over all weight vectors.", "anchors": ["orocos_bfl/src/pdf/mixture.h: MostProbableComponentGet", "orocos_bfl/src/pdf/mixture.cpp: ExpectedValueGet"]}
{"id": "C53", "title": "A ruled-out mixture component does not stop a mixture particle filter", "statement": "If a measurement excludes every particle of one component but not the whole mixture, Update returns true, and later system updates still move the particles of all other components and return true.", "quantifier": "for every number of components and particles, every measurement with positive total likelihood and every later history", "why_tests_cant": "Needs a component whose weights are all zero and an unbounded later history; typical tests use likelihoods that never vanish.", "anchors": ["orocos_bfl/src/filter/mixtureParticleFilter.cpp: ProposalStepInternal, ProposalStepInternalOne, UpdateWeightsInternal"]}
{"id": "C54", "title": "Gaussian samples follow the reported density", "statement": "If the normal random numbers are independent standard normal, the samples drawn from a Gaussian have exactly the distribution whose density ProbabilityGet reports for the mean and covariance set last, and that density integrates to one.", "quantifier": "for every dimension, mean, covariance without eigenvalues below the machine epsilon, and history of earlier calls", "why_tests_cant": "Equality of two probability measures; a test can only compare histograms.", "anchors": ["orocos_bfl/src/pdf/gaussian.cpp: ProbabilityGet, SampleFrom", "orocos_bfl/src/wrappers/matrix/matrix_wrapper.cpp: cholesky_semidefinite"]}
{"id": "C55", "title": "Filtering forward and smoothing backward gives the posterior of the whole trajectory", "statement": "For linear models, running a Kalman filter over all measurements and then the Rauch-Tung-Striebel smoother back over the stored filtered estimates gives at every time the mean and covariance of the state given all measurements: the least total squared noise of any trajectory through x at time k is a constant plus the squared distance of x from the smoothed mean in the smoothed covariance. The smoothed means together are the unique most probable trajectory, and no smoothed covariance exceeds the filtered one.", "quantifier": "for every dimension, number of time steps, linear models changing over time, inputs, steps with or without measurement, positive definite covariances, and both filters", "why_tests_cant": "Minimality over all trajectories, for an unbounded number of steps; a test can compare a few trajectories.", "anchors": ["orocos_bfl/src/smoother/rauchtungstriebel.cpp: SysUpdate", "orocos_bfl/src/smoother/backwardfilter.cpp: Update", "orocos_bfl/src/filter/kalmanfilter.cpp: CalculateSysUpdate, CalculateMeasUpdate", "orocos_bfl/src/filter/extendedkalmanfilter.cpp: SysUpdate, MeasUpdate"]}
{"id": "C56", "title": "Uniform samples follow the reported density", "statement": "If the uniform random numbers are independent and uniform on [0,1], the samples drawn from a Uniform have exactly the distribution whose density ProbabilityGet reports for the centre and width set last, and that density integrates to one.", "quantifier": "for every dimension, centre, positive widths, and history of earlier calls on an object made with a centre and a width", "why_tests_cant": "Equality of two probability measures; a test can only compare histograms.", "anchors": ["orocos_bfl/src/pdf/uniform.cpp: ProbabilityGet, SampleFrom, UniformSet", "orocos_bfl/src/wrappers/rng/rng.cpp: runif"]}
{"id": "C57", "title": "Linear models simulate the distribution whose density they report", "statement": "For a linear system or measurement model ProbabilityGet(y,x,u) is the normal density with mean PredictionGet(u,x) and covariance CovarianceGet(u,x), and if the normal random numbers are independent standard normal, Simulate(x,u) has exactly that distribution, whatever was called before on the model or its pdf.", "quantifier": "for every dimension, matrices, noise mean, noise covariance without eigenvalues below the machine epsilon, state, input, with or without input, and history of calls", "why_tests_cant": "Equality of probability measures after arbitrary histories.", "anchors": ["orocos_bfl/src/model/systemmodel.cpp: Simulate, ProbabilityGet", "orocos_bfl/src/model/measurementmodel.cpp: Simulate, ProbabilityGet", "orocos_bfl/src/pdf/conditionalgaussian.cpp: ProbabilityGet, SampleFrom", "orocos_bfl/src/pdf/linearanalyticconditionalgaussian.cpp: ExpectedValueGet"]}
{"id": "C58", "title": "A SymmetricMatrix is symmetric", "statement": "After any sequence of element writes and fills, entry (i,j) of a SymmetricMatrix equals entry (j,i), and both are the value written last to either position.", "quantifier": "for every size, every history of writes and every pair of indices, under every back end", "why_tests_cant": "All histories; the tests write both triangles or only check one back end.", "anchors": ["orocos_bfl/src/wrappers/matrix/matrix_BOOST.cpp: SymmetricMatrix::operator()", "orocos_bfl/src/wrappers/matrix/matrix_EIGEN.cpp: SymmetricMatrix::operator()", "orocos_bfl/src/wrappers/matrix/matrix_EIGEN.h: EigenSymmetricMatrix"]}
{"id": "C59", "title": "Singular value decomposition", "statement": "Matrix::SVD(D, U, V) never divides by zero and never reads outside the arrays. If it returns true then the matrix is U diag(D) V^T, the entries of D are non-negative, V is orthogonal, and the columns of U that belong to non-zero singular values are orthonormal (all columns, if there are at least as many rows as columns). With at most two columns it always returns true.", "quantifier": "for every matrix of any shape and rank, whatever the output arguments held before", "why_tests_cant": "All matrices; the tests decompose two fixed ones. The branches for zero pivots, rank deficiency and cancellation are reached only by special matrices.", "anchors": ["orocos_bfl/src/wrappers/matrix/matrix_wrapper.cpp: Matrix_Wrapper::SVD, PYTHAG, SIGN"]}
{"id": "C60", "title": "Assignment copies", "statement": "Assigning one DiscretePdf, DiscreteConditionalPdf, Mixture or MCPdf object to another gives an independent copy, and both objects can be destroyed afterwards.", "quantifier": "for every pair of objects, whatever was done to them before, and every sequence of later operations", "why_tests_cant": "Aliasing and double deletion show only in later histories; the tests never assign these objects.", "anchors": ["orocos_bfl/src/pdf/discretepdf.h", "orocos_bfl/src/pdf/discretepdf.cpp: ~DiscretePdf", "orocos_bfl/src/pdf/discreteconditionalpdf.h", "orocos_bfl/src/pdf/mixture.h: ~Mixture", "orocos_bfl/src/pdf/mcpdf.h"]}
{"id": "C61", "title": "EK particle filter updates give importance weights", "statement": "Every update of an EKParticleFilter with valid analytic Gaussian models succeeds, draws each new particle from the extended Kalman filter step made from its old particle and that particle's covariance, and multiplies the particle's weight by likelihood times transition density divided by proposal density, then normalises.", "quantifier": "for all priors with normalised weights, all system and measurement models with positive definite noise covariances (with and without inputs and sensor parameters), all sequences of updates without resampling, all random numbers", "why_tests_cant": "The weights are a function of real-valued particles, models and random draws over an unbounded sequence of updates, and a wrong old particle or covariance still gives plausible normalised weights; writing past the end of a scratch vector need not crash. The repository's own test has the update of this filter commented out.", "anchors": ["orocos_bfl/src/filter/EKparticlefilter.cpp:26-173", "orocos_bfl/src/filter/EKparticlefilter.h:38-57", "orocos_bfl/src/filter/particlefilter.cpp:200-269", "orocos_bfl/src/pdf/conditionalgaussian.cpp:65-112", "orocos_bfl/src/pdf/pdf.h:171-176"]}
{"id": "C62", "title": "EKF proposal density depends only on its current arguments", "statement": "The mean and covariance reported by an EKFProposalDensity are those of a newly created extended Kalman filter that starts from the first conditional argument with the sample covariance and is updated once with the models and the remaining arguments. They do not depend on earlier calls, queries do not change later answers, and the density can be destroyed once without freeing an object twice.", "quantifier": "for all histories of calls (model, covariance and argument setters, mean and covariance queries), all analytic models with and without inputs, both matrix backends, all argument values", "why_tests_cant": "The object holds a filter whose prior pointer is replaced at every query and shares a pdf with it; independence of an unbounded history of mutating queries is a property of all call sequences.", "anchors": ["orocos_bfl/src/pdf/filterproposaldensity.cpp:28-146", "orocos_bfl/src/pdf/EKF_proposaldensity.cpp:25-35", "orocos_bfl/src/filter/filter.cpp:40-62"]}
{"id": "C63", "title": "Kalman filters do not depend on units, axes or origin", "statement": "Writing the prior, the models, the inputs' effects and the measurements in other coordinates (any invertible affine change of the state, and a separate one for each measurement) gives the same estimate written in the new coordinates, and the same normalised innovation squared. For the iterated filter the user's convergence check must be rewritten too.", "quantifier": "for all invertible affine changes of state and measurement coordinates, all sequences of updates with evaluable models, positive semidefinite process noise and positive definite measurement noise, extended and iterated filter with any number of iterations and any check, both back ends", "why_tests_cant": "It compares two runs over an unbounded sequence of updates, for a continuum of coordinate changes and nonlinear models; a formula that only works for orthogonal axes or zero offsets passes tests in standard coordinates.", "anchors": ["orocos_bfl/src/filter/kalmanfilter.cpp:75-163", "orocos_bfl/src/filter/extendedkalmanfilter.cpp:74-112", "orocos_bfl/src/filter/iteratedextendedkalmanfilter.cpp:79-136", "orocos_bfl/src/filter/innovationCheck.cpp:34-40"]}
{"id": "C64", "title": "Reported covariance is the true error, and no linear estimate is better", "statement": "If the state moves linearly with noise and is read by linear sensors with noise, the filter is told the right matrices, and noises are uncorrelated with each other and with the initial state, then the estimate is unbiased, the reported covariance is the true second moment of the estimation error, and no estimate that is linear in all readings so far has a smaller error covariance.", "quantifier": "for all probability spaces, all square-integrable noises and initial states (not only Gaussian), all sequences of predictions and corrections of any dimensions, extended and iterated filter, both back ends, all competing linear estimates", "why_tests_cant": "It is about expectations over a probability space and about all competing estimators over an unbounded history.", "anchors": ["orocos_bfl/src/filter/kalmanfilter.cpp:75-163", "orocos_bfl/src/filter/extendedkalmanfilter.cpp:74-112", "orocos_bfl/src/filter/iteratedextendedkalmanfilter.cpp:79-136"]}
{"id": "C65", "title": "Mean of the normalised innovation squared is the measurement dimension", "statement": "In the setting of C64, the expectation of NisGet for the next reading is the number of measured values, after any history.", "quantifier": "for all probability spaces, noises and initial states with finite second moments, all histories of predictions and corrections, all linear sensors without parameter, both back ends", "why_tests_cant": "It is an expectation over a probability space after an unbounded history.", "anchors": ["orocos_bfl/src/filter/kalmanfilter.cpp:129-146", "orocos_bfl/src/filter/extendedkalmanfilter.cpp:102-112"]}
{"id": "C66", "title": "Values written to a property bag and read back are unchanged", "statement": "Writing a vector, matrix, symmetric matrix, probability or weighted sample to an RTT property bag and reading the bag back, into an object of any previous contents, gives the same value; the order of the items in the bag does not matter; a bag that does not describe a value of the type is refused and leaves the object as it was.", "quantifier": "for all sizes, all entries, all previous contents of the object read into, all orders of the items, all malformed bags, both back ends", "why_tests_cant": "Round trips over all sizes and all previous contents of the target, and refusal of every malformed bag; the failures (no rows, a missing item, a ragged row) sit in corners a test has to think of first.", "anchors": ["orocos_bfl/src/bindings/rtt/bfl_toolkit.cpp:87-345", "orocos_bfl/src/bindings/rtt/SampleComposition.hpp:187-281", "bfl_typekit/src/bflTypekitMatrix.cpp:93-150"]}
{"id": "C67", "title": "Row access from scripts gives the requested row", "statement": "Indexing a vector or matrix from a script gives the requested entry or row for every index in range, refuses every other index and never touches memory outside the object; every row can be reached.", "quantifier": "for all matrix sizes and contents, all indices including negative ones, both bindings (toolkit and typekit), both back ends", "why_tests_cant": "It quantifies over all sizes and indices; a check that is off by one only shows at the ends.", "anchors": ["orocos_bfl/src/bindings/rtt/bfl_toolkit.hpp:59-67", "orocos_bfl/src/bindings/rtt/bfl_toolkit.cpp:347-367", "bfl_typekit/src/bflTypekitMatrix.cpp:20-34"]}
{"id": "C68", "title": "The Jacobian used by the extended Kalman filters is the derivative of the predicted mean", "statement": "For a pdf given by symbolic formulas, ExpectedValueGet is the value of the formulas (at the inputs disturbed by the noise mean, or plus the noise mean), and dfGet(0) is the matrix of the partial derivatives of ExpectedValueGet with respect to the state, at every point where the mean can be computed and after every history of setters and copies. The mobile robot pdf of the examples, whose Jacobian is written by hand, has the same property.", "quantifier": "for all formulas built from numbers, symbols, sums, products, reciprocals, sine, cosine and exponential, all inputs and states, all noise parameters, all histories of copies and setters", "why_tests_cant": "A derivative is a limit: a test compares finite differences for a few formulas at a few points, with the noise mean it happens to use (always zero in the tests).", "anchors": ["orocos_bfl/src/pdf/nonlinearanalyticconditionalgaussian_ginac.cpp:29-169", "orocos_bfl/src/pdf/nonlinearanalyticconditionalgaussian_ginac.cpp:223-261", "orocos_bfl/examples/nonlinearanalyticconditionalgaussianmobile.cpp:37-76"]}
{"id": "C69", "title": "Noise on the inputs is propagated to the covariance of the value", "statement": "For a pdf given by formulas with noise on its inputs, CovarianceGet is D S D' where S is the noise covariance and D the matrix of the partial derivatives of the value with respect to the noise, at the noise mean; for formulas linear in the noisy inputs the reported mean and covariance are exactly those of the value under a random disturbance with the given mean and covariance. A valid noise covariance gives a valid covariance. With noise on the value the covariance is that of the noise.", "quantifier": "for all formulas, all choices of noisy inputs, all noise means and covariances, all points, all probability spaces and disturbances", "why_tests_cant": "Derivatives and integrals over arbitrary distributions; the existing tests use a zero noise mean.", "anchors": ["orocos_bfl/src/pdf/nonlinearanalyticconditionalgaussian_ginac.cpp:126-220"]}
{"id": "C70", "title": "Density and samples of a pdf given by formulas belong to its mean and covariance", "statement": "ProbabilityGet is the normal density with the mean ExpectedValueGet and the covariance CovarianceGet, and SampleFrom draws from that density, whatever the number of noisy inputs.", "quantifier": "for all formulas, all numbers of noisy inputs, all points, both matrix libraries", "why_tests_cant": "Equality of a density at all points and of the law of the samples cannot be sampled; the tests never use a number of noisy inputs different from the size of the value.", "anchors": ["orocos_bfl/src/pdf/conditionalgaussian.cpp:47-112", "orocos_bfl/src/pdf/analyticconditionalgaussian_additivenoise.cpp:34-39", "orocos_bfl/src/pdf/nonlinearanalyticconditionalgaussian_ginac.cpp:29-58"]}
{"id": "C71", "title": "More information never makes the Kalman filters less certain", "statement": "With linear models, a filter that starts at least as certain as another, receives every prediction and measurement the other receives with at most its noise, and perhaps further measurements in between, never reports a larger covariance. The reported covariance does not depend on what the sensors read, on the prior mean, on the matrix library or on whether the extended or the iterated filter is used, so it can be computed before any measurement is made.", "quantifier": "for all dimensions, all pairs of histories of any length of which one is told at least as much, all linear models with valid noise, all readings, both matrix libraries, both filters", "why_tests_cant": "A matrix inequality between two arbitrary histories; a test compares two fixed runs.", "anchors": ["orocos_bfl/src/filter/kalmanfilter.cpp:75-163", "orocos_bfl/src/filter/extendedkalmanfilter.cpp:74-100", "orocos_bfl/src/filter/iteratedextendedkalmanfilter.cpp:79-136"]}
{"id": "C72", "title": "Pessimistic noise models are safe", "statement": "If the matrices given to the Kalman filters are right and every noise covariance and the prior covariance are at least the true ones, the reported covariance is at least the true second moment of the estimation error after any history; understated noise breaks this.", "quantifier": "for all probability spaces, all linear worlds of any length with uncorrelated noise, all overstated covariances, both matrix libraries, both filters", "why_tests_cant": "Expectation over all outcomes of the noise, a matrix inequality, and arbitrary histories.", "anchors": ["orocos_bfl/src/filter/kalmanfilter.cpp:75-163", "orocos_bfl/src/filter/extendedkalmanfilter.cpp:74-100", "orocos_bfl/src/filter/iteratedextendedkalmanfilter.cpp:79-136"]}
{"id": "C73", "title": "Efficient sampling has the distribution of independent draws", "statement": "The list returned by one SampleFrom call with method RIPLEY on a DiscretePdf or MCPdf, read without its order, has exactly the joint distribution of that many independent single draws; with method DEFAULT the samples are independent with the stored probabilities.", "quantifier": "for all discrete and Monte Carlo pdfs with any number of states or samples, all list lengths, all events that do not depend on the order of the list", "why_tests_cant": "An identity between joint distributions over all random numbers; tests can only compare histograms.", "anchors": ["orocos_bfl/src/pdf/discretepdf.cpp:127-220", "orocos_bfl/src/pdf/mcpdf.h:214-330"]}
{"id": "C74", "title": "Resampling does not bias the estimate", "statement": "In the mean over the random numbers of the resampling step, the posterior average of any function of the state equals its average with the weights before resampling, and its variance is the weighted variance divided by the number of particles.", "quantifier": "for all particle sets of any size, all weights, all real functions of the state, all particle filters with multinomial resampling reached by any history", "why_tests_cant": "An expectation over all random numbers; a test sees single runs.", "anchors": ["orocos_bfl/src/filter/particlefilter.cpp:270-420", "orocos_bfl/src/pdf/mcpdf.h:240-297"]}
{"id": "C75", "title": "The particle filters converge to the exact Bayes filter", "statement": "With particles drawn independently from the prior, after any sequence of updates without resampling, the posterior average of any integrable function of the state tends almost surely to its exact conditional expectation as the number of particles grows, and from some number of particles on all updates succeed. Holds for the particle filter with any proposal that covers the posterior and for the bootstrap filter.", "quantifier": "for all state spaces, priors, numbers of updates, models, proposals, readings and integrable functions, almost all sequences of random numbers", "why_tests_cant": "A limit over the number of particles, almost surely, for arbitrary models; a test sees finitely many particles of one model and has no exact posterior to compare with.", "anchors": ["orocos_bfl/src/filter/particlefilter.cpp:143-342", "orocos_bfl/src/filter/bootstrapfilter.cpp:61-103"]}
{"id": "C76", "title": "The particle filters converge to the exact Bayes filter also if they resample", "statement": "With particles drawn independently from the prior and independent uniform numbers for resampling, after any sequence of updates of a filter with multinomial resampling, whether it resamples every fixed number of updates or whenever the effective sample size is below a threshold (which may depend on the number of particles), the probability that all updates succeed and the posterior average of an integrable function is closer than any given positive tolerance to its exact conditional expectation tends to 1 as the number of particles grows. Holds for the particle filter with any proposal that covers the posterior and for the bootstrap filter.", "quantifier": "for all state spaces, priors, numbers of updates, models, proposals, readings, resampling periods and thresholds, integrable functions and tolerances", "why_tests_cant": "A limit over the number of particles, in probability, for arbitrary models and resampling policies; resampled particles are dependent, so no sample average of a test run settles it.", "anchors": ["orocos_bfl/src/filter/particlefilter.cpp:143-342", "orocos_bfl/src/filter/bootstrapfilter.cpp:61-103", "orocos_bfl/src/pdf/mcpdf.h:262-330"]}
{"id": "C77", "title": "The histogram filter forgets its prior", "statement": "Two histogram filters that start from different priors and get the same updates come together: if at every move the probability of going to a state depends on the present state by at most the factor sigma, the total variation distance of their posteriors after k moves is at most (1 - sigma)^k, whatever is observed, and a number of moves that suffices for a given tolerance depends on sigma alone. A single prediction never takes two filters further apart and shrinks their distance by the factor 1 - sigma if every state goes to y with at least sigma times a fixed distribution. A state that never moves is not forgotten.", "quantifier": "for all numbers of states, pairs of priors, sequences of updates and readings, factors and tolerances", "why_tests_cant": "A bound uniform over all priors, all readings and all lengths of history; a test compares two runs.", "anchors": ["orocos_bfl/src/filter/histogramfilter.cpp:40-95", "orocos_bfl/src/filter/filter.cpp:54-123"]}
{"id": "C78", "title": "Rounding errors of the histogram filter stay small", "statement": "In floating point arithmetic whose operations have relative error at most u, without overflow and underflow, a histogram filter over n states never trips its normalisation check as long as (2n + 4) u is at most 5e-10 (two million states for doubles), and after any sequence of possible updates every posterior probability has a relative error of at most 2 N u with respect to the exact Bayes posterior, where N is linear in the number of updates; impossible states keep probability exactly 0. If results underflow to zero, a possible observation can leave all probabilities zero while Update returns true.", "quantifier": "for all rounding functions with relative error u, numbers of states, weights, models, readings and sequences of updates", "why_tests_cant": "A bound for every order of magnitude of every probability and every length of history; a test shows the rounding of a few numbers and has no exact posterior.", "anchors": ["orocos_bfl/src/pdf/discretepdf.cpp:31-57", "orocos_bfl/src/pdf/discretepdf.cpp:117-124", "orocos_bfl/src/pdf/discretepdf.cpp:207-248", "orocos_bfl/src/filter/histogramfilter.cpp:24-95", "orocos_bfl/src/bfl_constants.h:41-48"]}
{"id": "C79", "title": "A wrong prior mean does no lasting harm to the Kalman filters", "statement": "Two Kalman filters with the same prior covariance and different prior means get the same Update calls with linear models. They report the same covariance, and if their prior means are at most k prior standard deviations apart in every direction, their means are always at most k of the reported standard deviations apart in every direction (the squared Mahalanobis distance never increases). Right after a reading the readings they expect of that sensor differ by at most k standard deviations of the sensor noise, however vague the prior was. With a nonlinear sensor one update can drive the means arbitrarily far apart.", "quantifier": "for all pairs of filters, back ends, sequences of updates with linear models and readings", "why_tests_cant": "A bound in every direction for every length of history and every pair of priors; a test compares two runs.", "anchors": ["orocos_bfl/src/filter/kalmanfilter.cpp:75-163", "orocos_bfl/src/filter/extendedkalmanfilter.cpp:74-100", "orocos_bfl/src/filter/iteratedextendedkalmanfilter.cpp:79-136"]}
{"id": "C80", "title": "The Kalman filters find a constant state", "statement": "For a state that does not move, the mean after any list of linear readings is the unique minimiser of the weighted sum of squares of the deviation from the prior and of all residuals, the inverse of the reported covariance is the curvature of that sum, and the order of the readings does not matter. If one sensor whose readings determine the state is read again and again with errors that are pairwise independent, identically distributed and of mean zero, the means converge almost surely to the state, whatever the prior mean and the noise covariance told to the filter, and the reported covariance shrinks like 1/N.", "quantifier": "for all priors with positive definite covariance, sensors, lists of readings, distributions of the errors and back ends", "why_tests_cant": "Batch optimality over all states and all lists of readings, and an almost sure limit over infinitely many readings, are not observable in finitely many runs.", "anchors": ["orocos_bfl/src/filter/kalmanfilter.cpp:75-163", "orocos_bfl/src/filter/extendedkalmanfilter.cpp:74-100", "orocos_bfl/src/filter/iteratedextendedkalmanfilter.cpp:79-136"]}
{"id": "C81", "title": "A copied filter is a second, independent filter", "statement": "After F g(f) or g = f for two filters of the same class, g has the same posterior as f, later updates of one do not show in the other, the posterior g had before an assignment is released, and both filters can be destroyed. The same holds for a filter started from the posterior of another, F g(f.PostGet()), which then gives the same results as f for the same updates. [The copy constructor and the assignment violate this; the start from the posterior satisfies it.]", "quantifier": "for all client programs that construct, copy, assign, update and destroy filters and smoothers, and all variables", "why_tests_cant": "Sharing and lifetime errors show only for particular interleavings of updates and destructions of the copies, and undefined behaviour may pass a test; the claim is about all programs.", "anchors": ["orocos_bfl/src/filter/filter.cpp:24-46", "orocos_bfl/src/filter/filter.cpp:125-129", "orocos_bfl/src/filter/kalmanfilter.cpp:27-42", "orocos_bfl/src/filter/histogramfilter.cpp:25-38", "orocos_bfl/src/filter/particlefilter.cpp:122-130", "orocos_bfl/src/smoother/backwardfilter.cpp:23-42", "orocos_bfl/src/smoother/rauchtungstriebel.cpp:27-48"]}
{"id": "C82", "title": "Programs with the matrix classes compute matrix algebra on every back end", "statement": "A program that makes matrices and symmetric matrices, reads and writes entries, adds, subtracts, multiplies, scales, transposes, cuts out blocks, resizes, converts and compares them gets the results of ordinary matrix algebra, and the same results with the Boost and with the Eigen wrapper. [Holds within a contract; outside of it the two wrappers differ in conversion of an asymmetric matrix, a single assignment off the diagonal of a symmetric matrix, resize to another size, += of an asymmetric matrix and the constructor from a row.]", "quantifier": "for all programs over the operations of Matrix and SymmetricMatrix, all sizes and entries, both wrappers, and all contents of new memory", "why_tests_cant": "Tests run single operations with small literal matrices on the one back end they were built with; the claim is about all sequences of operations and the equality of two builds.", "anchors": ["orocos_bfl/src/wrappers/matrix/matrix_BOOST.cpp:63-227", "orocos_bfl/src/wrappers/matrix/matrix_BOOST.cpp:296-330", "orocos_bfl/src/wrappers/matrix/matrix_BOOST.cpp:461-641", "orocos_bfl/src/wrappers/matrix/matrix_EIGEN.cpp:45-244", "orocos_bfl/src/wrappers/matrix/matrix_EIGEN.cpp:322-502"]}
{"id": "C83", "title": "Long predictions of the extended Kalman filters are first-order propagation of the whole motion", "statement": "A Kalman filter that is updated with system models only, for any number of steps, ends with the mean where the models lead from the prior mean and with the covariance that first-order error propagation gives for the whole motion: the prior covariance through the derivative of the whole motion plus the noise of each step through the derivative of the rest of the motion. Without noise, many steps give the posterior of one step with a model of the whole motion. For the mobile robot of the examples this is dead reckoning, and the result does not depend on the frame in which prior and noise are given.", "quantifier": "for all Kalman filter classes, all lists of system models with correct derivatives and all inputs, all prior means and symmetric covariances, all frames, both matrix wrappers", "why_tests_cant": "Tests run a fixed number of steps of one robot and compare with stored numbers; the claim is about the composition of arbitrarily many nonlinear steps and about derivatives of composed functions.", "anchors": ["orocos_bfl/src/filter/kalmanfilter.cpp:75-85", "orocos_bfl/src/filter/kalmanfilter.cpp:148-163", "orocos_bfl/src/filter/extendedkalmanfilter.cpp:74-84", "orocos_bfl/src/model/analyticsystemmodel_gaussianuncertainty.cpp:46-70", "orocos_bfl/examples/nonlinearanalyticconditionalgaussianmobile.cpp:37-76", "orocos_bfl/examples/mobile_robot.cpp:53-54"]}
{"id": "C84", "title": "The example densities describe the simulated robot", "statement": "The densities written for the examples fit the simulated robot: the system density of the particle filter samples what the robot's Move does, the measurement densities report the density of what Measure returns, Measure returns the distance to the wall plus noise, and SampleFrom reports whether it could sample. [Move and the negated Measure fit, for every noise. Measure returns twice the distance, negative above the wall; the measurement densities are those of 2y - noise; SampleFrom always reports success.]", "quantifier": "for all states, velocities and measurements, all noise means and covariances and all histories of the noise object, all slopes of the wall, all sampling methods", "why_tests_cant": "The examples are not tested; agreement of a sampler with a density is a statement about a probability distribution, and the distance to a wall is a minimum over all its points.", "anchors": ["orocos_bfl/examples/nonlinear_particle/nonlinearMeasurementPdf.cpp:38-47", "orocos_bfl/examples/discrete_filter/conditionalUniformMeasPdf1d.cpp:38-51", "orocos_bfl/examples/nonlinear_particle/nonlinearSystemPdf.cpp:39-57", "orocos_bfl/examples/mobile_robot.cpp:63-106", "orocos_bfl/examples/nonlinear_kalman/test_nonlinear_kalman.cpp:59-68"]}
{"id": "C85", "title": "Sampling stays inside the samples under rounding", "statement": "With rounded arithmetic, sampling a sample-based density whose samples and weights were set or updated returns one of its samples for every random number between 0 and 1, and the sample is the one exact arithmetic gives unless the random number is within the rounding error of a jump of the cumulative distribution. [True with a margin of (2n+2) roundings below 1, which random numbers of 32 bits keep; false for random numbers of 53 bits, where the search runs past the table. The discrete density is safe for every rounding.]", "quantifier": "for all roundings with a bounded relative error and for IEEE double precision, all earlier operations on the density, all lists of samples and nonnegative weights with positive sum, all random numbers, both sampling methods", "why_tests_cant": "The failure needs a random number next to 1 and a sum of weights that happens to round down: a test with random numbers hits it with probability 2^-50 or less, and safety is a statement on all weights and all roundings.", "anchors": ["orocos_bfl/src/pdf/mcpdf.h:227-327", "orocos_bfl/src/pdf/mcpdf.h:381-462", "orocos_bfl/src/pdf/mcpdf.h:465-525", "orocos_bfl/src/pdf/discretepdf.cpp:225-248"]}
{"id": "C86", "title": "The iterated Kalman filter looks for the most probable state", "statement": "The estimate of the iterated extended Kalman filter is reached by Gauss-Newton steps on the posterior density that start at the prior mean: the asked number of steps, or fewer if a step does not pass the innovation check. If the steps contract on a closed set around the prior mean, the estimates converge geometrically to the only stationary point of the posterior density in the set, the innovation check stops the filter only nearby, and a most probable state in the set is that point. Without contraction more iterations can give a less probable state.", "quantifier": "for all state and measurement dimensions, all differentiable sensors, all priors and noises with positive definite covariance, all measurements, all numbers of iterations from one, all innovation checks, both back ends; the square root filter for sensors that measure one number", "why_tests_cant": "Each step is the minimum of a function over all states, and convergence is a statement about all numbers of iterations; a test sees one number of iterations on one sensor.", "anchors": ["orocos_bfl/src/filter/iteratedextendedkalmanfilter.cpp:98-136", "orocos_bfl/src/filter/innovationCheck.cpp:34-40", "orocos_bfl/src/filter/kalmanfilter.cpp:87-127", "orocos_bfl/src/filter/SRiteratedextendedkalmanfilter.cpp:65-142"]}
{"id": "C87", "title": "The histogram filter identifies a state that does not change", "statement": "A histogram filter is given independent readings of a sensor, and the hidden state does not change. If the prior does not exclude the true state and every other state would give readings of another distribution, then almost surely the reported probability of the true state tends to one and from some time on it is the most probable state. The probability that a wrong state is still believed falls geometrically with the number of readings, with the overlap of the two sensor densities as the factor. A state that the prior excludes is never found, and states with the same likelihood keep their odds.", "quantifier": "for all numbers of states, all priors, all sensors (readings in any measurable space) with exact sensor densities, with and without a system model that keeps the state, almost all infinite sequences of readings", "why_tests_cant": "It is a statement about the limit of infinitely many random readings; a test sees finitely many readings of one sequence.", "anchors": ["orocos_bfl/src/filter/histogramfilter.cpp:40-95", "orocos_bfl/src/pdf/discretepdf.cpp:250-263"]}
{"id": "C88", "title": "The Kalman filters settle", "statement": "A Kalman filter is called again and again with linear models of constant matrices; the inputs and the readings may vary. If the process noise acts in every direction and some constant gain is enough to follow the state, then the reported covariance converges to the only positive definite solution of the Riccati equation, whatever the prior was, and the relative error falls geometrically. Two filters with the same prior covariance and different prior means agree more and more, geometrically. The gain is also necessary: if one filter reports bounded covariances, such a gain exists. It exists when the sensor determines the state and when the state forgets by itself.", "quantifier": "for all state and measurement dimensions, all matrices A and H, all positive definite Q and R, all positive semidefinite prior covariances, all prior means, all sequences of inputs and readings, all numbers of calls, the extended and the iterated filter, both back ends", "why_tests_cant": "It is a statement about the limit of infinitely many calls for all priors and all sequences of readings.", "anchors": ["orocos_bfl/src/filter/kalmanfilter.cpp:76-127", "orocos_bfl/src/filter/extendedkalmanfilter.cpp:75-100", "orocos_bfl/src/filter/iteratedextendedkalmanfilter.cpp:80-136"]}
{"id": "C89", "title": "Expressions of scripts mean what they say", "statement": "A script of the real-time toolkit can combine numbers, column vectors, row vectors, matrices and symmetric matrices with + - * / == and =. Every expression that is accepted when the script is loaded has, with either matrix back end, the value and the type it has on paper; it gives no value only if somewhere in it the sizes do not fit or a divisor is zero. Every operator that the C++ classes have for these types is available to scripts.", "quantifier": "for all expressions of any depth, all values and sizes of the variables, both matrix back ends, all contents of newly allocated memory", "why_tests_cant": "Expressions nest without bound and their operators are picked from a table by the types of the operands; a test exercises single combinations and cannot show that no entry of the table is wrong or hidden by another.", "anchors": ["bfl_typekit/src/bfl_typekit.cpp:107-282", "orocos_bfl/src/wrappers/matrix/vector_BOOST.cpp:108-231", "orocos_bfl/src/wrappers/matrix/vector_BOOST.cpp:315-439", "orocos_bfl/src/wrappers/matrix/vector_EIGEN.cpp:77-193", "orocos_bfl/src/wrappers/matrix/vector_EIGEN.cpp:266-381", "orocos_bfl/src/wrappers/matrix/matrix_BOOST.cpp:530-604"]}
{"id": "C90", "title": "Rounding does not make a variance negative", "statement": "The Kalman filters compute with rounded numbers. Starting from a valid prior, with valid noise variances, no variance that a filter reports is ever negative, and the reported mean and variance are those of exact arithmetic up to an error proportional to the rounding unit.", "quantifier": "for all roundings with a bounded relative error, all priors, models, readings and histories of any length", "why_tests_cant": "Rounding errors depend on the last bits of every number; the filters of the tests have sensors of moderate quality, where the cancellation in the covariance formula does no harm.", "anchors": ["orocos_bfl/src/filter/kalmanfilter.cpp:75-114", "orocos_bfl/src/filter/SRiteratedextendedkalmanfilter.cpp:220-231", "orocos_bfl/src/wrappers/matrix/matrix_BOOST.cpp:122-168", "orocos_bfl/src/wrappers/matrix/matrix_BOOST.cpp:258-270"]}
{"id": "C91", "title": "Readings count only for what they tell", "statement": "What a filter concludes from readings depends on them only through the product of their likelihoods as a function of the state, up to a factor: simultaneous readings may be processed in any order, a likelihood may be scaled, and several readings may be replaced by one with the product of their likelihoods (Gaussian readings: by any readings with the same total information), without any change of the posterior.", "quantifier": "for all histories of any length, all pairs of reading sequences with proportional likelihood products, all priors", "why_tests_cant": "It compares two runs over all reorderings, scalings and groupings of arbitrary readings; the tests process fixed readings in one order.", "anchors": ["orocos_bfl/src/filter/histogramfilter.cpp:70-97", "orocos_bfl/src/filter/particlefilter.cpp:200-345", "orocos_bfl/src/filter/kalmanfilter.cpp:87-114"]}
{"id": "C92", "title": "A combined update is a prediction followed by a correction", "statement": "Update(sysmodel, u, measmodel, z, s) has the effect of Update(sysmodel, u) followed by Update(measmodel, z, s), with the same result and the same failures. Any calls of a history may be made in two halves without changing anything.", "quantifier": "for all filters, histories of any length, models, inputs, readings and random numbers, and all choices of the calls that are split", "why_tests_cant": "It compares all pairs of call sequences on arbitrary models; the tests call one overload with one model and compare estimates with a tolerance.", "anchors": ["orocos_bfl/src/filter/filter.cpp:54-123", "orocos_bfl/src/filter/histogramfilter.cpp:85-97", "orocos_bfl/src/filter/kalmanfilter.cpp:148-163", "orocos_bfl/src/filter/particlefilter.cpp:200-342", "orocos_bfl/src/filter/bootstrapfilter.cpp:61-78", "orocos_bfl/src/filter/mixtureBootstrapFilter.cpp:65-82"]}
{"id": "C93", "title": "Rounding hardly changes what a particle filter computes", "statement": "The particle filters compute with rounded numbers. A history of updates that succeeds with exact arithmetic succeeds with rounded arithmetic, with the same particles, with weights and estimates that are those of exact arithmetic up to an error proportional to the rounding unit.", "quantifier": "for all roundings with a bounded relative error, all priors, models, proposals, readings, random numbers, resampling policies and histories of any length", "why_tests_cant": "Rounding errors depend on the last bits of every number, and one comparison that turns out differently in a resampling step replaces a particle by another; the tests compare estimates with wide tolerances.", "anchors": ["orocos_bfl/src/filter/particlefilter.cpp:144-269", "orocos_bfl/src/filter/particlefilter.cpp:273-393", "orocos_bfl/src/filter/bootstrapfilter.cpp:61-78", "orocos_bfl/src/pdf/mcpdf.h:240-560", "orocos_bfl/src/pdf/mcpdf.cpp:76-84"]}
{"id": "C94", "title": "Innovations are white, and the consistency checks are independent chi-square numbers", "statement": "In the setting of C64, the difference between the next reading and its prediction has mean zero, the covariance H P H' + R that the filter uses, and is uncorrelated with everything computed linearly from the earlier readings. If initial state and noises are jointly normal, the values that NisGet returns before every reading of a history are independent, each has the chi-square distribution with as many degrees of freedom as the reading has values, and so their sum has as many degrees of freedom as values were measured.", "quantifier": "for all probability spaces, all histories of motions and readings of any sizes, and both matrix backends; for NisGet the sensors have no parameter (see C36)", "why_tests_cant": "This is a statement about joint distributions over all histories; a test sees single draws, and no test of the repository calls NisGet.", "anchors": ["orocos_bfl/src/filter/extendedkalmanfilter.cpp:102-112", "orocos_bfl/src/filter/kalmanfilter.cpp:75-146"]}
{"id": "C95", "title": "With normal noise the filter reports the distribution of the state given the readings", "statement": "In the setting of C64 with jointly normal initial state and noises, the error of the estimate is independent of everything that was read, and is normal with mean zero and the reported covariance. The ellipsoid given by the reported covariance therefore contains the state with the promised probability, whatever was read. No estimate computed from the readings, linear or not, has a smaller mean square error.", "quantifier": "for all probability spaces with jointly normal initial state and noises, all histories of motions and readings, all linear filters of the Kalman family and both matrix backends; the ellipsoids for invertible reported covariances", "why_tests_cant": "Coverage and optimality are statements about distributions and about all other estimators; tests compare single runs with a tolerance.", "anchors": ["orocos_bfl/src/filter/kalmanfilter.cpp:75-127", "orocos_bfl/src/filter/extendedkalmanfilter.cpp:60-100", "orocos_bfl/src/filter/iteratedextendedkalmanfilter.cpp:74-130"]}
{"id": "C96", "title": "Histogram filter reports are calibrated and its most probable state is the best guess", "statement": "In a world that behaves as the models say: among all worlds in which the filter reports probability q for a state, the fraction with that state is q. No other guess computed from the readings is right more often than MostProbableStateGet of the posterior, and no other way of computing probabilities has a smaller expected quadratic score.", "quantifier": "for all priors, state numbers, transition tables, sensors and plans of moves and readings, where the next action may depend on the readings so far; all events of the readings; all competing guesses and probability reports", "why_tests_cant": "The claim sums over all worlds and compares with all other estimators; tests feed a few readings.", "anchors": ["orocos_bfl/src/filter/histogramfilter.cpp:38-102", "orocos_bfl/src/pdf/discretepdf.cpp:250-263"]}
{"id": "C97", "title": "Kalman filters honour exact readings and keep exact knowledge", "statement": "After a reading of a linear sensor without noise the estimate reproduces the reading exactly and the measured quantities have no uncertainty left. A linear combination of the states that is known exactly keeps its value and its zero uncertainty through all later updates, with any sensors and any motions that conserve it. Reading the exact sensor once more is harmless.", "quantifier": "for all dimensions, priors, linear sensors without noise, readings, matrix libraries, extended and iterated filters, and later histories of any length with linear or nonlinear sensors", "why_tests_cant": "Every test in the repository has noise in all directions; constraints such as a conserved sum appear only as rounding-sized drifts in particular runs.", "anchors": ["orocos_bfl/src/filter/kalmanfilter.cpp:75-163", "orocos_bfl/src/filter/extendedkalmanfilter.cpp:74-100", "orocos_bfl/src/filter/iteratedextendedkalmanfilter.cpp:98-136"]}
{"id": "C98", "title": "The error of the extended Kalman filter's linearisation is of second order", "statement": "If the state has the reported mean and covariance and the Jacobian of a model changes at most at rate L, then the predicted mean is wrong by at most L/2 times the total variance, and the predicted covariance by terms of third and fourth order in the uncertainty. The corrected estimate has a bias of at most the gain times L/2 times the total variance. The bound on the mean cannot be improved.", "quantifier": "for all distributions of the state and of the noise with the reported second moments, all models whose Jacobian is their derivative and changes at a bounded rate, all dimensions and both matrix libraries", "why_tests_cant": "The claim compares the report with expectations over all states for every nonlinear model; tests run the filter on one simulated path with wide tolerances.", "anchors": ["orocos_bfl/src/filter/extendedkalmanfilter.cpp:74-100", "orocos_bfl/src/filter/kalmanfilter.cpp:75-127"]}
{"id": "C99", "title": "The smoother's reports are right, and all readings together allow no better estimate", "statement": "If state and sensors are linear and the filter is told the truth, then at every time the smoothed estimate is unbiased and the smoother reports the true second moment of its error. Among all estimates that are linear in all readings, earlier and later ones, it has the smallest error in every direction, and the smoother never reports more uncertainty than the filter did. With normal noise the state is distributed around the smoothed estimate as reported, whatever the sensors have read.", "quantifier": "for all histories of motions (with noise in all directions) and readings, all times in them, all distributions of state and noise with the stated second moments, all dimensions and both matrix libraries", "why_tests_cant": "Expectations over all worlds and a comparison with all other estimators; a test smooths one simulated path and has no competitor to compare with.", "anchors": ["orocos_bfl/src/smoother/rauchtungstriebel.cpp:50-77", "orocos_bfl/src/smoother/backwardfilter.cpp:50-61", "orocos_bfl/src/filter/kalmanfilter.cpp:75-127"]}
{"id": "C100", "title": "How many particles are enough", "statement": "If N particles are drawn independently from the prior, the weight factors of update t are at most B_t, p is the probability density of all measurements and V the exact posterior variance of a quantity, then without resampling the probability that an update fails or that the estimate of the quantity is wrong by e or more is at most 2 (product of B_t / p) (V / e^2 + 1) / N.", "quantifier": "for all numbers of particles, tolerances, state spaces, priors, numbers of updates, models, proposals, readings and quantities with finite variance", "why_tests_cant": "A bound on a probability over all random numbers for every model; a test with one seed cannot tell a probability, and repeated seeds only estimate it for one model.", "anchors": ["orocos_bfl/src/filter/particlefilter.cpp:143-342", "orocos_bfl/src/filter/bootstrapfilter.cpp:61-103"]}
{"id": "C101", "title": "How many particles are enough if the filter resamples", "statement": "If N particles are drawn independently from the prior, the weight factors of update t are at most B_t, and the filter either resamples at every update or whenever the effective number of particles after a measurement is below N/s, then the probability that an update fails or that the estimate of a quantity between -1 and 1 is wrong by e or more is at most k^2 (1/e^2 + 1) / N, where k starts at 1 and each update takes it to 2 (B_t / p_t) (k + 1 + sqrt s) + 1, p_t being the probability density of the measurement given the earlier ones.", "quantifier": "for all numbers of particles, tolerances, state spaces, priors, numbers of updates, models, proposals, readings, resampling settings of the two kinds and quantities between -1 and 1", "why_tests_cant": "A bound on a probability over all random numbers, including those of the resampling, for every model; a test with one seed cannot tell a probability, and repeated seeds only estimate it for one model.", "anchors": ["orocos_bfl/src/filter/particlefilter.cpp:143-342", "orocos_bfl/src/filter/bootstrapfilter.cpp:61-103", "orocos_bfl/src/filter/particlefilter.cpp:342-386"]}
{"id": "C102", "title": "The mean and covariance that the particle filters report converge to the exact ones", "statement": "For particles that are vectors, let the particle filter or the bootstrap filter be started with N particles drawn independently from the prior and be updated with models that give the densities of the system and the sensor. Then the probability that all updates succeed and that every component of the expected value and of the covariance that the posterior reports is closer than e to the mean and the covariance of the exact conditional distribution of the state tends to 1 with N, whatever the resampling period or threshold.", "quantifier": "for all tolerances, dimensions, priors, numbers and kinds of updates, models, proposals, readings, periods and thresholds such that the exact conditional distribution has second moments", "why_tests_cant": "A limit over the number of particles of a probability over all random numbers, for every model; a test has one seed, one model and one number of particles, and cannot tell a small bias from noise.", "anchors": ["orocos_bfl/src/filter/particlefilter.cpp:143-386", "orocos_bfl/src/filter/bootstrapfilter.cpp:61-103", "orocos_bfl/src/pdf/mcpdf.cpp:76-102"]}
{"id": "C103", "title": "In a linear Gaussian world the Kalman filter is exact, and bootstrap filters with the same models converge to it", "statement": "Start a Kalman filter with a Gaussian and update it in any order with linear Gaussian system and measurement models. The mean and covariance it reports are those of a normal distribution that is the conditional distribution of the state given all readings (not only the best linear summary). Give the same model objects, inputs and readings to a bootstrap filter whose N particles are drawn from the same Gaussian: the probability that its reported mean and covariance are closer than e to those of the Kalman filter tends to 1 with N, whatever the resampling setting. The same holds for a particle filter with any fit proposal.", "quantifier": "for all dimensions, positive definite priors and noises, linear models with or without input after any history of calls, sequences of updates, readings, tolerances, resampling periods and thresholds", "why_tests_cant": "Equality of two probability distributions for all models and readings, and a limit over the number of particles of a probability over all random numbers; comparing two filters on one data set shows only that they are roughly alike there.", "anchors": ["orocos_bfl/src/filter/extendedkalmanfilter.cpp:75-100", "orocos_bfl/src/filter/kalmanfilter.cpp:76-182", "orocos_bfl/src/filter/bootstrapfilter.cpp:61-103", "orocos_bfl/src/filter/particlefilter.cpp:143-386", "orocos_bfl/src/model/systemmodel.cpp:21-165", "orocos_bfl/src/model/measurementmodel.cpp:25-167", "orocos_bfl/src/pdf/linearanalyticconditionalgaussian.cpp:29-107", "orocos_bfl/src/pdf/conditionalgaussian.cpp:47-106"]}
{"id": "C104", "title": "Mixture filters converge to the exact answer, and their component weights to the probabilities of the components", "statement": "The state was drawn from one of several distributions, each with a known probability. Give a mixture particle filter (or mixture bootstrap filter) a mixture whose components hold N draws from these distributions and whose component weights are the known probabilities. After any sequence of updates the probability tends to 1 with N that all updates succeed, that the average of a function over the posterior mixture is closer than e to its exact conditional expectation given all measurements, and that every component weight is closer than e to the conditional probability that the state was drawn from that component. This holds for any fit proposal and any resampling setting.", "quantifier": "for all state spaces, numbers of components, component weights, transition laws, likelihoods, proposals, sequences of updates under which every component keeps positive finite evidence, functions with finite expectations, resampling periods and thresholds, and tolerances", "why_tests_cant": "A limit over the number of particles of a probability over all random numbers, for all models and sequences of updates; a seeded test shows one run of one model, where a wrong component weight can look like sampling noise.", "anchors": ["orocos_bfl/src/filter/mixtureParticleFilter.cpp:28-75", "orocos_bfl/src/filter/mixtureParticleFilter.cpp:174-521", "orocos_bfl/src/filter/mixtureBootstrapFilter.cpp:65-83"]}
{"id": "C105", "title": "Unrelated systems may be estimated by one filter or by one filter each", "statement": "Two systems that have nothing to do with each other (neither state enters the other's models, their noises are independent) may be put into one filter. After any history the one filter reports the means and covariances that two separate filters report, and no correlation between the two. A measurement of one system leaves the estimate of the other untouched. The consistency number of a measurement of both is the sum of the two numbers. The histogram filter of the pair reports the product of the two posteriors.", "quantifier": "for all dimensions, nonlinear models with or without inputs, noises, priors, matrix libraries, extended and iterated Kalman filters, histories of any length in which both move and one, both or none is measured; for histogram filters all numbers of states, transition and measurement probabilities", "why_tests_cant": "The repository has no test with block structured models; a leak between the blocks would be one wrong entry among many for particular matrices.", "anchors": ["orocos_bfl/src/filter/kalmanfilter.cpp:75-163", "orocos_bfl/src/filter/extendedkalmanfilter.cpp:74-112", "orocos_bfl/src/filter/iteratedextendedkalmanfilter.cpp:79-136", "orocos_bfl/src/filter/innovationCheck.cpp:34-40", "orocos_bfl/src/filter/histogramfilter.cpp:40-95"]}
{"id": "C106", "title": "What does not matter may be left out of the state", "statement": "If a part of the state moves by itself and is all that the sensors react to, a filter for this part alone reports after any history exactly what the filter for the full state reports about the part. For Kalman filters the part may be any linear function of the state (mean and covariance agree); for histogram filters it may be any grouping of the states (the probability of a group is the sum of the probabilities of its states). In particular the numbering of the states does not matter.", "quantifier": "for all dimensions, linear functions of the state, nonlinear models with or without inputs, noises, priors, matrix libraries, extended and iterated filters (whose check looks at the part), and histories of any length; for histogram filters all numbers of states, groupings, transition and measurement probabilities", "why_tests_cant": "Tests use one state vector per problem; the claim compares two filters of different dimensions for every model and history.", "anchors": ["orocos_bfl/src/filter/kalmanfilter.cpp:75-163", "orocos_bfl/src/filter/extendedkalmanfilter.cpp:74-100", "orocos_bfl/src/filter/iteratedextendedkalmanfilter.cpp:79-136", "orocos_bfl/src/filter/histogramfilter.cpp:40-95"]}
{"id": "C107", "title": "Superposition, and covariances can be computed in advance", "statement": "For linear models the Kalman filters are linear in the data: if prior means, inputs and readings of one run are weighted sums of those of other runs with the same matrices, its estimate is the weighted sum of their estimates. The reported covariance does not depend on prior mean, inputs, offsets and readings at all, so that it can be computed before the first reading arrives. With a nonlinear sensor neither holds.", "quantifier": "for all dimensions, numbers of runs, weights (not necessarily summing to one), linear models with offsets or inputs, positive semidefinite system noise, positive definite sensor noise, priors, both matrix libraries, extended and iterated filters, and histories of any length; a witness for the boundary", "why_tests_cant": "Tests run one data set; the claim relates any number of runs on all data sets.", "anchors": ["orocos_bfl/src/filter/kalmanfilter.cpp:75-163", "orocos_bfl/src/filter/extendedkalmanfilter.cpp:74-100", "orocos_bfl/src/filter/iteratedextendedkalmanfilter.cpp:79-136"]}
{"id": "C108", "title": "Particle filters do not depend on how states are described", "statement": "If a problem is described twice, with states x and with states f(x), by models, proposals and priors that say the same about corresponding states, then two particle filters given the same random numbers do the same: they end in the same way, return the same values, and hold corresponding particles with equal weights after every update, including all resampling decisions. This covers changes of units, axes and origin, renumberings, and leaving out parts of the state that do not matter. Densities of states may differ by a constant factor and likelihoods of a reading by a factor that does not depend on the state, so neither units nor missing normalisation constants matter. For mixture filters the component weights agree as well. If particles are moved by an affine map, the reported mean is moved by it and the reported covariance is transformed accordingly.", "quantifier": "for all types of states and measurements, maps between them (invertible or not), proposals, models with and without inputs and sensor parameters (also missing ones), priors, resampling policies and schemes, random numbers, and histories of any length; particle, bootstrap, mixture particle and mixture bootstrap filters", "why_tests_cant": "Tests use one description of one problem; the claim compares runs for all pairs of descriptions and all random numbers.", "anchors": ["orocos_bfl/src/filter/particlefilter.cpp:28-393", "orocos_bfl/src/filter/bootstrapfilter.cpp:61-78", "orocos_bfl/src/filter/mixtureParticleFilter.cpp:28-521", "orocos_bfl/src/filter/mixtureBootstrapFilter.cpp:65-82", "orocos_bfl/src/pdf/mcpdf.h:227-525", "orocos_bfl/src/pdf/mcpdf.cpp:76-102"]}
{"id": "C109", "title": "The auxiliary particle filter corrects every particle for the choice of its own ancestor", "statement": "An update of the auxiliary particle filter with a system model and a measurement resamples the particles in proportion to weight times likelihood of the look-ahead, moves them, and multiplies the weight of each by its likelihood divided by the likelihood of the look-ahead of the particle it comes from. An update with a system model alone is a prediction, one with a measurement alone multiplies the weights by the likelihoods, and several filters may be used in one program.", "quantifier": "for all state types, numbers of particles, weights, system models with or without inputs, measurement models with or without sensor parameters, random numbers, and earlier updates of this or other filters", "why_tests_cant": "The class is not used by any test (its example is commented out). The weights depend on which ancestor the random numbers select, so that a wrong correction looks like sampling noise.", "anchors": ["orocos_bfl/src/filter/asirfilter.cpp:25-155", "orocos_bfl/src/filter/asirfilter.h:40-100", "orocos_bfl/src/filter/particlefilter.cpp:144-197", "orocos_bfl/src/filter/particlefilter.cpp:344-386"]}
{"id": "C110", "title": "States that behave alike may be merged, and the numbering of states does not matter", "statement": "A process with finitely many states is described twice, and every state of the first description belongs to a state of the second. If states that belong together behave alike (from each of them the process gets into every merged state with the same probability, and every reading is equally likely in them, up to a factor that does not depend on the state), then two histogram filters that process the same history report matching probabilities: the probability of a merged state is the sum of the probabilities of the states belonging to it. If different states get different numbers, every state keeps its probability under its new number, and additional states that cannot be reached get probability zero. The condition on the moves is necessary: if one prediction gives matching reports from all matching priors, the states that belong together behave alike.", "quantifier": "for all numbers of states, maps between states, priors, transition probabilities and likelihoods with or without inputs and sensor parameters, and histories of any length whose readings together have positive probability", "why_tests_cant": "Tests use one table; the claim compares runs for all pairs of descriptions and all histories.", "anchors": ["orocos_bfl/src/filter/histogramfilter.cpp:24-95", "orocos_bfl/src/pdf/discretepdf.cpp:26-120"]}
{"id": "C111", "title": "A model answers from the pdf it was made from, and can tell its formulas", "statement": "A system or measurement model made from a pdf predicts and linearises as that pdf does at the time of the question, also after the pdf was changed. A model made from a pdf given by formulas tells the formula, the state symbols, the input symbols and the noisy inputs. Making and deleting a model leaves no memory behind.", "quantifier": "for all pdfs, kinds of models, and programs that make, change and delete pdfs and models in any order", "why_tests_cant": "Whether a change of the pdf reaches the model depends on the order of the operations of the whole program; wrong casts and leaks show only in the interplay with memory, and the classes for formulas are used by no test.", "anchors": ["orocos_bfl/src/model/nonlinearanalyticsystemmodel_gaussianuncertainty_ginac.cpp:29-63", "orocos_bfl/src/model/nonlinearanalyticmeasurementmodel_gaussianuncertainty_ginac.cpp:26-103", "orocos_bfl/src/model/systemmodel.cpp:21-121", "orocos_bfl/src/model/measurementmodel.cpp:26-118", "orocos_bfl/src/model/analyticsystemmodel_gaussianuncertainty.cpp:28-70", "orocos_bfl/src/model/analyticmeasurementmodel_gaussianuncertainty.cpp:27-61", "orocos_bfl/src/pdf/nonlinearanalyticconditionalgaussian_ginac.cpp:84-109"]}
{"id": "C112", "title": "On average, more readings make the histogram filter more certain and decisions better", "statement": "Two histogram filters follow the same process; one of them gets additional readings, chosen depending on what was read so far. Averaged over everything that can happen: the reports of both filters have the same mean; deciding for the highest expected gain according to the report gains at least as much with the additional readings; the variance of every quantity of the state and the entropy of the report are not larger; and so for every convex function of the report. A single reading may make the filter less certain.", "quantifier": "for all numbers of states, priors, moves, sensors with finitely many readings, plans of any length whose sensing depends on the readings, gains of finitely many decisions, and convex functions of the report", "why_tests_cant": "The claim is about the average over all records of readings, of which there are exponentially many, and fails for single records; a wrong normalisation or a likelihood used twice still gives plausible single reports.", "anchors": ["orocos_bfl/src/filter/histogramfilter.cpp:24-95", "orocos_bfl/src/pdf/discretepdf.cpp:26-120"]}
{"id": "C113", "title": "Smoothed estimates do not depend on units, superpose, and their covariances are known in advance", "statement": "Filtering forward and smoothing backward after rewriting the prior, all models and all measurements in other units, axes or origins gives the same smoothed estimates in those coordinates, for linear and nonlinear models. For linear models with the same matrices, if the prior means, inputs and measurements of one run are a weighted sum of those of other runs, every smoothed mean is that weighted sum of theirs; and the smoothed covariances do not depend on prior mean, inputs or measurements.", "quantifier": "for all state dimensions, invertible affine changes of coordinates of the state and of each measurement, sequences of predictions and corrections with measurements of any dimensions, extended and iterated filters, both matrix backends, finitely many runs and weights", "why_tests_cant": "The claim is about all changes of coordinates and all weighted sums over runs of any length; a test compares a few numbers in one coordinate system, where a missing transpose or a gain built from the wrong covariance can go unnoticed.", "anchors": ["orocos_bfl/src/smoother/rauchtungstriebel.cpp:27-91", "orocos_bfl/src/filter/kalmanfilter.cpp:30-170"]}
{"id": "C114", "title": "The smoother examples report the smoothed estimate of each time step", "statement": "The example programs that filter forward, store the estimates and smooth backward report for every time step the smoothed estimate of that step: the one obtained by stepping back with the filtered estimate of that step. What they report depends only on values the program has set, and the arguments they advise are accepted.", "quantifier": "for all models, priors, numbers of steps, readings (or none) in each step, extended and iterated filters, both matrix backends, and contents of uninitialised memory", "why_tests_cant": "The program's results look plausible and have the right number of entries; that each is off by one step shows only when compared with the smoothing equations for general models, and the effect of unassigned memory depends on the run.", "anchors": ["orocos_bfl/examples/smoother/test_kalman_smoother.cpp:150-302", "orocos_bfl/examples/smoother/test_nonlinear_smoother.cpp:85-104", "orocos_bfl/tests/smoother_test.cpp:150-211", "orocos_bfl/src/smoother/rauchtungstriebel.cpp:27-91"]}
{"id": "C115", "title": "The histogram filter example reports the exact posterior of its robot's readings", "statement": "Whatever noise the simulated robot meets, the example program ends with a probability distribution over the places that is the exact Bayesian posterior for the robot's readings under the described motion (stay, or go to any other place) and sensor; no place gets probability zero. If every reading is nearest to the same place, that place is reported as most probable. The printed number of time steps is the number of steps made.", "quantifier": "for all numbers of places, probabilities of staying, sensor noises, robots, inputs, numbers of steps and values of the robot's noise, both matrix backends", "why_tests_cant": "The robot's noise is random and the result is only printed; whether the table, the uniform prior, the own likelihood class and the negated reading fit together for every run cannot be seen from one output.", "anchors": ["orocos_bfl/examples/discrete_filter/test_discrete_filter.cpp:55-165", "orocos_bfl/examples/discrete_filter/conditionalUniformMeasPdf1d.cpp:38-51", "orocos_bfl/examples/mobile_robot.cpp:25-98", "orocos_bfl/src/filter/histogramfilter.cpp:24-95"]}
{"id": "C116", "title": "The Kalman filter example knows how far off its estimate may be", "statement": "However long the Kalman filter example runs and whatever noise its robot meets, the program completes, the error of the estimated position stays within a fixed multiple of the reported standard deviations plus the noise, and the printed number of time steps is the number of steps made.", "quantifier": "for all constants of the models and priors (positive measurement noise, horizontal wall), robots, speeds, numbers of steps and values of the robot's noise, both matrix backends", "why_tests_cant": "The program runs 100 steps with one random noise and only prints the result. That one coordinate is never corrected by the readings, and that the heading given to the filter (0.8) is not the one of the robot (pi/4), shows only in much longer runs.", "anchors": ["orocos_bfl/examples/linear_kalman/test_linear_kalman.cpp:72-206", "orocos_bfl/examples/mobile_robot.cpp:25-98", "orocos_bfl/examples/mobile_robot_wall_cts.h:26-124", "orocos_bfl/src/filter/extendedkalmanfilter.cpp:40-110"]}
{"id": "C117", "title": "The filter comparison example compares the filters it offers", "statement": "For every filter name that the comparison example offers, the program runs that filter on the readings of the simulated robot to the end; the uncertainty it reports reflects what the readings tell and nothing else; the printed number of time steps is the number of steps made.", "quantifier": "for all constants of the models and priors, robots, speeds, numbers of steps, command lines and values of every random number, both matrix backends, with and without use of the readings", "why_tests_cant": "The program is run by hand, with one filter and one random noise at a time, and prints plausible numbers also when the readings are never given to the filter. That the result is the same for every robot is a statement about pairs of runs.", "anchors": ["orocos_bfl/examples/compare_filters/test_compare_filters.cpp:78-342", "orocos_bfl/examples/nonlinear_kalman/test_nonlinear_kalman.cpp:72-200", "orocos_bfl/examples/mobile_robot.cpp:25-98", "orocos_bfl/examples/mobile_robot_wall_cts.h:26-124"]}
{"id": "C118", "title": "The particle filter examples converge to the exact posterior of their nonlinear problem", "statement": "The particle filter example, and the bootstrap filter of the comparison example, complete for every number of samples above zero, although the system density of the former can only be sampled; both report the same for the same random numbers; and as the number of samples grows, the probability that the reported mean or covariance is a given distance or more from that of the conditional distribution of the robot's pose given its readings tends to zero. Without readings (as the comparison is shipped) the limit is the prior after the moves.", "quantifier": "for all constants with noise and prior variances above the machine precision and a positive measurement variance, robots, speeds, numbers of steps, noises of the robot, readings and independent random numbers of the filter, both matrix backends, every distance", "why_tests_cant": "The exact posterior of the nonlinear problem has no closed form to compare a run with, each run is random, and a limit over the number of samples is not reached by any run.", "anchors": ["orocos_bfl/examples/nonlinear_particle/test_nonlinear_particle.cpp:72-208", "orocos_bfl/examples/nonlinear_particle/nonlinearSystemPdf.cpp:22-57", "orocos_bfl/examples/compare_filters/test_compare_filters.cpp:204-316", "orocos_bfl/examples/mobile_robot.cpp:25-98", "orocos_bfl/src/pdf/pdf.h:203-209"]}
{"id": "C119", "title": "Several moves may be made at once, and long predictions of the histogram filter settle", "statement": "Telling a histogram filter of several moves one after the other and telling it of one move with the probabilities of all of them together leaves the same filter, and that table can be entered with ProbabilitySet; no other table does for all priors. A distribution that the move does not change is reported for ever. If some number k of moves takes the process from every state to y with at least sigma times a fixed probability, there is exactly one such distribution and the reports of every filter that only predicts tend to it, after j predictions with a distance of at most (1 - sigma)^(j/k). Without this condition the reports may swing for ever.", "quantifier": "for all numbers of states, system models with or without input, transition tables, sequences of moves of any length, filters after any history that hold a distribution, numbers of predictions", "why_tests_cant": "Unbounded numbers of predictions and all priors and tables; existence and uniqueness of the limit concern infinitely many distributions.", "anchors": ["orocos_bfl/src/filter/histogramfilter.cpp:40-68", "orocos_bfl/src/filter/histogramfilter.cpp:85-95", "orocos_bfl/src/pdf/discreteconditionalpdf.cpp:94-133", "orocos_bfl/src/model/discretesystemmodel.cpp:23-24"]}
{"id": "C120", "title": "What a sampled distribution says depends only on how much weight lies on which value", "statement": "Two sampled distributions in which every value carries the same weight, whatever the order of the samples, however the weight of a value is divided among equal samples, and however many samples carry no weight, have the same mean and covariance, and their draws, direct or efficient, have the same law. Particle filters that hold them and do not resample accept a reading both or neither and go on saying the same after every sequence of readings. With moves this holds for the order of the samples if every sample keeps its random numbers: the samples and weights at the end are the same in the other order. The number of samples does matter for the decision to resample: filters that say the same, one of them with a value in two samples, may differ after one reading; their order does not.", "quantifier": "for all numbers of samples, values, weights, orders and divisions of the weight, filters after any history, sequences of readings and moves of any length, models, random numbers", "why_tests_cant": "Relations between pairs of runs over all orders and divisions of the weight; equality of laws of random draws is not visible in any finite number of draws.", "anchors": ["orocos_bfl/src/pdf/mcpdf.h", "orocos_bfl/src/pdf/mcpdf.cpp:76-148", "orocos_bfl/src/filter/particlefilter.cpp:144-386", "orocos_bfl/src/filter/bootstrapfilter.cpp:61-78"]}
{"id": "C121", "title": "Small errors of the tables and of the arithmetic do not add up in a histogram filter whose moves mix", "statement": "Two histogram filters start from the same prior. One uses the right transition and measurement probabilities; those of the other one have a relative error of at most e in every entry (the measurement probabilities may also be scaled). If every transition mixes (up to the factor s the probability of going to a state is the same from every present state) and every update has a move, the posteriors never differ by more than 4 e / s in total variation, however many updates there are. In the same way the rounding errors of a filter with n states do not add up: in arithmetic with relative rounding error u the posterior never differs from the exact one by more than 6 (n + 2) u / s. Without moves errors do add up: however small e is, there are tables of a state that stays where it is for which the posterior becomes wrong by almost 1/2.", "quantifier": "for all numbers of states, priors, tables, errors, mixing factors, numbers and orders of updates, roundings of bounded relative error, histories the model does not rule out", "why_tests_cant": "Bounds that are uniform in the number of updates, over all tables and all disturbances of them; tests run a few histories of bounded length, and an error that slowly grows is not visible in them.", "anchors": ["orocos_bfl/src/filter/histogramfilter.cpp:40-95", "orocos_bfl/src/pdf/discretepdf.cpp:117-124", "orocos_bfl/src/pdf/discretepdf.cpp:207-248"]}
{"id": "C122", "title": "Higher readings and higher priors give higher histogram filter reports", "statement": "Let the states be numbered so that larger numbers mean more of something (a position, a fill level). A distribution lies higher than another one if the ratio of its probabilities to those of the other one grows with the state; a reading points higher than another one if the same holds for the probabilities of the readings; a transition is orderly if from a higher state the process goes to a higher distribution. Then of two histogram filters with the same orderly moves the one with the higher or equal prior and the higher or equal readings reports the higher posterior, after any history: the average of every growing function of the state is larger, so also the probability of being above any state, and MostProbableStateGet is not smaller. Both conditions are necessary: a prediction that keeps the order of all pairs of priors belongs to an orderly transition, and a reading that gives a higher posterior than another one for every prior points higher. It is not enough that the prior gives more probability to the states above every state: one reading can turn the order round.", "quantifier": "for all numbers of states, priors, transition and measurement probabilities with or without inputs and sensor parameters, histories of any length whose readings are possible, growing functions", "why_tests_cant": "A comparison of pairs of runs over all priors, readings and histories, with a necessity part that quantifies over all priors; tests compare single reports with stored numbers.", "anchors": ["orocos_bfl/src/filter/histogramfilter.cpp:40-95", "orocos_bfl/src/pdf/discretepdf.cpp:207-248", "orocos_bfl/src/pdf/discretepdf.cpp:250-265"]}
{"id": "C123", "title": "Long histories need no more particles if the process forgets", "statement": "The error bound of C101 grows with the number of updates. If the process moves alike from all states up to a factor f (there is a finite measure v such that the probability of getting into a set lies between f v and v of the set, whatever the present state) and the likelihoods of each measurement differ from state to state by a factor of at most r, then the bootstrap filter keeps its quality for ever. With N particles drawn independently from the prior, and resampling at every update or whenever the effective number of particles after a measurement is below N/s, the probability that an update fails or that the estimate of a quantity between -1 and 1 is wrong by e or more is at most k^2 / (e^2 N) after any number of updates, with k = (2/f) (1 + (2 r (1 + sqrt s) + 1) / f). The same holds for the particle filter with another proposal and a measurement model without sensor parameters, if the densities of system and proposal are positive and likelihood times system density is at most r times the smallest likelihood of the measurement times the density of the proposal. The condition on the moves is needed: if the state never moves and the filter resamples at every update, the particles become all equal, except with a probability of at most (1 - N^-N)^(T-1) after T updates, so for a fair coin and every N there is a number of updates after which the estimate is wrong by 1/2 with a probability of at least 1/2.", "quantifier": "for all numbers of particles, tolerances, state spaces, priors, proposals, sequences of system and measurement models and readings that meet the conditions, numbers of updates, resampling settings of the two kinds, quantities between -1 and 1; for all models of a state that never moves", "why_tests_cant": "A bound on a probability that holds for every length of the history; a test run is finite, has one seed and one model.", "anchors": ["orocos_bfl/src/filter/bootstrapfilter.cpp:61-103", "orocos_bfl/src/filter/particlefilter.cpp:143-342", "orocos_bfl/src/filter/particlefilter.cpp:342-386", "orocos_bfl/src/pdf/mcpdf.h:250-285"]}
{"id": "C124", "title": "A wrong prior and wrong early readings do no lasting harm to the particle filters", "statement": "Let the process move alike from all states up to a factor f, as in C123. Start a bootstrap filter or a particle filter with any prior, right or wrong, and let its first S readings be right or wrong. Whatever the true distribution of the state at that time is, after T more updates with right readings the estimate of a quantity between -1 and 1 differs from the exact one by less than 2 (1 - f)^T + e, except with the probability k^2 / (e^2 N) of C123, where N is the number of particles. So the effect of the start decays with a rate that depends only on the moves, and no particular choice of prior is needed. The condition on the moves is needed: if the state never moves and all particles start at one place, they stay there for ever, whatever the readings say and however many particles there are, although the exact probability of that place may tend to 0.", "quantifier": "for all priors of the filter, true distributions, early readings, numbers of early and later updates, numbers of particles, tolerances, state spaces, proposals, models and readings that meet the conditions, resampling settings of C123, quantities between -1 and 1; for all models of a state that never moves, resampling settings and random numbers", "why_tests_cant": "A bound on a probability over all wrong priors and all lengths of the history; a test has one prior, one seed and one history.", "anchors": ["orocos_bfl/src/filter/bootstrapfilter.cpp:61-103", "orocos_bfl/src/filter/particlefilter.cpp:143-342", "orocos_bfl/src/filter/particlefilter.cpp:342-386", "orocos_bfl/src/pdf/mcpdf.h:250-285"]}
{"id": "C125", "title": "With models that are nearly right the errors of the particle filters stay small for ever", "statement": "Let the process, as the models of a bootstrap filter or particle filter describe it, move alike from all states up to a factor f, as in C123. Let the true process and the true sensor agree with the models up to the factor 1 + d: for every state and every set, the probability of moving into the set and reading what was read is between once and 1 + d times what the models say, apart from a common factor per update. Start the filter with any prior and let its first S readings be wrong. Whatever the true distribution of the state is then, after T more updates the estimate of a quantity between -1 and 1 differs from the one that is exact for the true process and sensor by less than 2 (1 - f)^T + 2 d / f + e, except with the probability k^2 / (e^2 N) of C123. So errors of the models do not add up, however long the filter runs. If all probabilities of moves are right up to 1 + d1 and all likelihoods up to 1 + d2, then d is (1 + d1) (1 + d2) - 1. The condition on the moves is needed: if the state never moves, a filter that believes in odds of 1 + d to one of a sensor that says nothing comes to report the probability (1 + d)^T / ((1 + d)^T + 1) instead of 1/2.", "quantifier": "for all true processes and sensors that agree with the models up to a factor, priors of the filter, true distributions, early readings, numbers of early and later updates, numbers of particles, tolerances, state spaces, proposals, models and readings that meet the conditions, resampling settings of C123, quantities between -1 and 1; for all factors, numbers of updates, sets of particles of which half are true, thresholds up to 1 and random numbers in the case of a state that never moves", "why_tests_cant": "A bound on a probability over all wrong models near the true ones and all lengths of the history; a test has one wrong model, one seed and one history.", "anchors": ["orocos_bfl/src/filter/bootstrapfilter.cpp:61-103", "orocos_bfl/src/filter/particlefilter.cpp:143-342", "orocos_bfl/src/filter/particlefilter.cpp:342-386", "orocos_bfl/src/pdf/mcpdf.h:250-285"]}
{"id": "C126", "title": "Wrong readings move the Kalman filters' estimates by no more standard deviations than they are wrong", "statement": "Run two Kalman filters (extended or iterated, on either matrix library) with the same linear models and the same prior covariance, but with prior means, inputs and readings that differ. Measure every difference in standard deviations of the noise it belongs to, in the worst direction: prior means by the prior covariance, effects of inputs by the system noise, readings by the sensor noise. Then both filters report the same covariance, and the square of the difference of their estimates, measured in reported standard deviations in the worst direction, is at most the sum of the squares of all these differences. In particular one wrong reading that is off by k standard deviations of its sensor changes no later estimate by more than k reported standard deviations, whatever happens before and after. The bound cannot be improved by a factor below 1. Linear models are needed: with a sensor for the square of the state, a reading that is off by one standard deviation may change the estimate after the next reading by more than 30.", "quantifier": "for all histories of calls with linear models, valid covariances, prior means, inputs and readings, dimensions, kinds of filter, matrix libraries, positions of the wrong reading; for all factors below 1", "why_tests_cant": "A bound for all histories, all sizes and combinations of errors, and all directions; a test has one outlier in one history.", "anchors": ["orocos_bfl/src/filter/kalmanfilter.cpp:75-163", "orocos_bfl/src/filter/extendedkalmanfilter.cpp:74-100", "orocos_bfl/src/filter/iteratedextendedkalmanfilter.cpp:79-136"]}
