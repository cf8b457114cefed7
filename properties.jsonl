{"id": "C01", "title": "Registry of names", "statement": "After any sequence of addVariable/setCorrelation/addCallFunction calls, getNames() lists exactly the names of the accepted objects in call order with no repetition; every name is a key of exactly one of getVariables() and getConstants(); and getVariables() enumerates its keys in the same order as getMarginalDistributions(), so the i-th keyword argument and the i-th marginal always belong to each other.", "quantifier": "every finite history of model-building calls, accepted or rejected, starting from StochasticModel()", "why_tests_cant": "histories are unbounded; a test fixes a handful of models", "anchors": ["src/pystra/model.py:StochasticModel.addVariable", "src/pystra/model.py:StochasticModel.getVariables"]}
{"id": "C02", "title": "Rejected additions change nothing", "statement": "addVariable raises exactly when the object is neither a Distribution nor a Constant or its name is already registered, and a raising call leaves names, variables, constants, marginals, correlation and call counter as they were.", "quantifier": "every reachable model state and every object", "why_tests_cant": "must hold in every state, including after other rejected calls", "anchors": ["src/pystra/model.py:StochasticModel.addVariable"]}
{"id": "C03", "title": "Default and explicit correlation", "statement": "The model's correlation is the n x n identity (n = number of random variables) immediately after every accepted Distribution, which silently discards an earlier setCorrelation; accepted Constants, counters and rejected calls leave it as it was; setCorrelation installs exactly the given matrix.", "quantifier": "every history", "why_tests_cant": "order-dependence over unbounded histories", "anchors": ["src/pystra/model.py:StochasticModel.addVariable", "src/pystra/model.py:StochasticModel.setCorrelation"]}
{"id": "C04", "title": "Cumulative evaluation counter", "statement": "getCallFunction() equals the total number of limit-state points evaluated over all analyses ever run on the model: evaluating nx points adds nx without gradient or with DDM, and nx*(1+nrv) with finite differences.", "quantifier": "every history of evaluations, all sizes", "why_tests_cant": "unbounded sums over histories", "anchors": ["src/pystra/model.py:LimitState.evaluate_nogradient", "src/pystra/model.py:LimitState.evaluate_ffd", "src/pystra/model.py:LimitState.evaluate_ddm", "src/pystra/model.py:StochasticModel.addCallFunction"]}
{"id": "C05", "title": "Block size is invisible", "statement": "evaluate_lsf without gradient returns, for each column of x, the value of the limit state at that column, whatever the block size >= 1, each point being evaluated exactly once and in order; block size 0 with at least one point never terminates.", "quantifier": "all limit-state functions acting pointwise, all numbers of points, all block sizes", "why_tests_cant": "two unbounded integers and an arbitrary function", "anchors": ["src/pystra/model.py:LimitState.evaluate_nogradient"]}
{"id": "C06", "title": "Finite-difference gradient", "statement": "With diff_mode ffd and one evaluation point, the returned value is g(x) and component j of the gradient is the forward difference quotient with step stdv_j/ffdpara in coordinate j only; it is exact for affine g; and its error for any g with an L-Lipschitz derivative is at most L*step/2. With more than one point and at least one variable the call raises instead.", "quantifier": "all g, x, standard deviations, ffdpara, dimensions and block sizes", "why_tests_cant": "real-valued quantification over functions", "anchors": ["src/pystra/model.py:LimitState.evaluate_ffd"]}
{"id": "C07", "title": "Effect of evaluation on the caller's point", "statement": "Evaluation without gradient or with DDM leaves the caller's array x as it was; with ffd the caller's array comes back with every component j shifted by exactly stdv_j/ffdpara.", "quantifier": "all x, models, options", "why_tests_cant": "aliasing effect over all inputs; the existing tests do not look at x afterwards", "anchors": ["src/pystra/model.py:LimitState.evaluate_ffd", "src/pystra/model.py:LimitState.evaluate_lsf"]}
{"id": "C08", "title": "Differentiation-mode dispatch", "statement": "Passing any non-None diff_mode, or selecting mode 'no', suppresses the gradient (returned as zeros); 'ddm' uses the user's gradient; every other mode string uses finite differences; multi_proc = 0 always raises NotImplementedError and evaluates nothing.", "quantifier": "all mode strings, overrides and option states", "why_tests_cant": "string-valued quantification", "anchors": ["src/pystra/model.py:LimitState.evaluate_lsf"]}
{"id": "C09", "title": "Named-argument binding", "statement": "The limit state function is called with exactly one keyword per registered variable and constant: the i-th registered random variable receives row i of x, and each constant receives its value repeated once per evaluation point.", "quantifier": "all models reachable by addVariable and all x", "why_tests_cant": "ranges over all registries and orders of insertion", "anchors": ["src/pystra/model.py:LimitState.compute_lsf"]}
{"id": "C10", "title": "Return shape matches differentiation mode", "statement": "compute_lsf accepts a plain value or the first entry of a tuple when no gradient is wanted; with DDM it accepts exactly a pair and reports a TypeError with the documented message for a non-iterable return.", "quantifier": "all return values", "why_tests_cant": "sum-type case analysis over all returns", "anchors": ["src/pystra/model.py:LimitState.compute_lsf"]}
{"id": "C11", "title": "Standard normal functions", "statement": "The standard normal cdf used for all transformations is strictly increasing from 0 to 1, symmetric (Phi(-u) = 1 - Phi(u)), differentiable with derivative the Gaussian density, the distribution function of the standard Gaussian measure, and its ppf is its two-sided inverse on (0,1).", "quantifier": "all real u and all p in (0,1)", "why_tests_cant": "real analysis", "anchors": ["src/pystra/distributions/distribution.py:StdNormal"]}
{"id": "C12", "title": "Marginal round trip", "statement": "For a marginal with strictly increasing continuous cdf, x_to_u(u_to_x(u)) = u for every u and u_to_x(x_to_u(x)) = x for every x with 0 < F(x) < 1, and both maps are strictly increasing.", "quantifier": "all marginals in the stated class and all reals", "why_tests_cant": "function-space quantification", "anchors": ["src/pystra/distributions/distribution.py:Distribution.u_to_x", "src/pystra/distributions/distribution.py:Distribution.x_to_u"]}
{"id": "C13", "title": "Marginal Jacobian", "statement": "jacobian(u, x) evaluated at u = x_to_u(x) is the derivative of x_to_u at x, namely f(x)/phi(u), for every marginal whose pdf is the derivative of its cdf; for Normal it is 1/stdv everywhere and for Lognormal 1/(zeta*x).", "quantifier": "all x and all such marginals", "why_tests_cant": "real analysis", "anchors": ["src/pystra/distributions/distribution.py:Distribution.jacobian", "src/pystra/distributions/normal.py:Normal.jacobian", "src/pystra/distributions/distribution.py:Distribution.jacobian"]}
{"id": "C14", "title": "Moment matching by parameters", "statement": "Every parametric family (Normal, Lognormal, ShiftedLognormal, Uniform, Gamma, ShiftedExponential, ShiftedRayleigh, Gumbel, TypeIlargest/TypeIsmallest, ChiSquare, Weibull, TypeIIlargest, Beta) constructs an object whose recorded mean and stdv are the mean and standard deviation of the probability law given by its pdf. For Normal, Lognormal, ShiftedLognormal, Uniform, Gamma, ShiftedExponential and ShiftedRayleigh these are exactly the requested values; for Gumbel and the Type I families the mean is off by the truncation of the Euler constant; for Weibull, TypeIIlargest and Beta they are the requested values when the numerical root returned by the solver is an exact root.", "quantifier": "all means and standard deviations accepted by the constructor", "why_tests_cant": "integrals over a continuum of parameters", "anchors": ["src/pystra/distributions/normal.py", "src/pystra/distributions/lognormal.py", "src/pystra/distributions/shiftedlognormal.py", "src/pystra/distributions/uniform.py", "src/pystra/distributions/gamma.py", "src/pystra/distributions/shiftedexponential.py", "src/pystra/distributions/shiftedrayleigh.py"]}
{"id": "C15", "title": "Constructor contract", "statement": "A Distribution needs either a frozen distribution or both mean and stdv, its standard deviation must be finite, and without an explicit start point the start point is the mean; otherwise construction raises.", "quantifier": "all argument combinations", "why_tests_cant": "combinatorial and real-valued", "anchors": ["src/pystra/distributions/distribution.py:Distribution.__init__"]}
{"id": "C16", "title": "Maximum of N", "statement": "Maximum(parent, N) is rejected for N < 1; its cdf is the N-th power of the parent's cdf, its pdf is the derivative of that cdf, and its ppf is the inverse; cdf of the maximum of n independent copies for integer N = n.", "quantifier": "all parents, all real N >= 1, all x", "why_tests_cant": "function-space quantification", "anchors": ["src/pystra/distributions/maximum.py:Maximum"]}
{"id": "C17", "title": "Parent of a maximum", "statement": "MaxParent(max, N) has cdf F^(1/N), pdf the derivative of it, ppf the inverse of it; Maximum and MaxParent with the same N undo each other.", "quantifier": "all distributions, all real N >= 1, all x", "why_tests_cant": "function-space quantification", "anchors": ["src/pystra/distributions/parent.py:MaxParent"]}
{"id": "C18", "title": "Zero-inflated mixtures", "statement": "ZeroInflated(dist, p) rejects p outside [0,1) at construction. Outside the 1e-6 window used in the code its cdf is that of the mixture (atom p at zero, 1-p times the parent), with mean q*m and variance q*s^2 + p*q*m^2, and its ppf is the generalised inverse of its cdf. set_zero_probability with an admissible p gives the object that the constructor would give. (Its pdf adds the mass p to the density on the window and does not integrate to one, and set_zero_probability has no range check.)", "quantifier": "all parents, all p, all x", "why_tests_cant": "function-space quantification", "anchors": ["src/pystra/distributions/zeroinflated.py:ZeroInflated"]}
{"id": "C19", "title": "Analytical cdf sensitivities", "statement": "Normal and Lognormal dF_dtheta return the true partial derivatives of the cdf with respect to mean and stdv at fixed x. (ShiftedLognormal inherits the Lognormal formulas although its parameters are shifted, so its values are wrong for lower != 0.)", "quantifier": "all x, means, stdvs", "why_tests_cant": "real analysis", "anchors": ["src/pystra/distributions/normal.py:Normal.dF_dtheta", "src/pystra/distributions/lognormal.py:Lognormal.dF_dtheta", "src/pystra/distributions/shiftedlognormal.py"]}
{"id": "C20", "title": "GEV parameters", "statement": "GEVmax reproduces the requested mean and rejects shape >= 0.5; GEVmin uses the same location formula for the mirrored variable, so its mean is not the requested one, its cdf(ppf(u)) is 1-u, and its u_to_x is not the inverse of its x_to_u.", "quantifier": "all means, stdvs, shapes", "why_tests_cant": "parametric over reals", "anchors": ["src/pystra/distributions/gev.py:GEVmax", "src/pystra/distributions/gev.py:GEVmin"]}
{"id": "C21", "title": "Nataf round trip", "statement": "Transformation.x_to_u and u_to_x are mutually inverse on their domains, for Cholesky and SVD alike.", "quantifier": "all dimensions, all correlation matrices that are positive definite, all marginals in the round-trip class, all points", "why_tests_cant": "dimension and real-valued quantification", "anchors": ["src/pystra/transformation.py:Transformation.x_to_u", "src/pystra/transformation.py:Transformation.u_to_x"]}
{"id": "C22", "title": "Factor reproduces the correlation", "statement": "For positive definite Ro both factorisations satisfy inv_T inv_T^T = Ro and T inv_T = I, so that z = inv_T u has covariance Ro when u is standard; with SVD an indefinite symmetric Ro is accepted silently and the transformation then realises a different matrix.", "quantifier": "all dimensions, all symmetric matrices", "why_tests_cant": "matrix-valued quantification", "anchors": ["src/pystra/transformation.py:Transformation._computeCholesky", "src/pystra/transformation.py:Transformation._computeSVD"]}
{"id": "C23", "title": "Nataf Jacobian", "statement": "Transformation.jacobian is the Frechet derivative of x_to_u at x, and np.linalg.inv of it maps x-gradients to u-gradients (chain rule).", "quantifier": "all dimensions, marginals, points", "why_tests_cant": "multivariate calculus", "anchors": ["src/pystra/transformation.py:Transformation.jacobian", "src/pystra/form.py:Form.computeJacobian"]}
{"id": "C24", "title": "Transform selection", "statement": "Transformation(None) is Cholesky; any string other than cholesky/svd raises at construction of the analysis; changing the option afterwards has no effect on an existing analysis object.", "quantifier": "all strings and histories of option changes", "why_tests_cant": "histories", "anchors": ["src/pystra/transformation.py:Transformation.__init__", "src/pystra/analysis.py:AnalysisObject.__init__"]}
{"id": "C25", "title": "Modified correlation matrix", "statement": "computeModifiedCorrelationMatrix returns a symmetric matrix with unit diagonal, reads only the strict lower triangle of R, keeps zero entries zero, and the number of quadrature points per pair depends only on |rho|, monotonically.", "quantifier": "all n, all R, any solver", "why_tests_cant": "any n and any solver result", "anchors": ["src/pystra/correlation.py:computeModifiedCorrelationMatrix", "src/pystra/sensitivity.py:_select_nIP"]}
{"id": "C26", "title": "Cholesky factorisation", "statement": "cholesky_with_derivative returns L0 lower triangular with positive diagonal and L0 L0^T = R0 for every positive definite symmetric R0 and any size, without changing its inputs.", "quantifier": "all n and all symmetric positive definite R0", "why_tests_cant": "matrix induction", "anchors": ["src/pystra/cholesky_sensitivity.py:cholesky_with_derivative"]}
{"id": "C27", "title": "Cholesky derivative", "statement": "The returned dL0 is lower triangular and satisfies dL0 L0^T + L0 dL0^T = dR0; it is the derivative of the factor along any differentiable path through R0 with velocity dR0; dinvL0_dtheta is the derivative of the inverse factor.", "quantifier": "all n, all symmetric positive definite R0, all symmetric dR0", "why_tests_cant": "matrix calculus", "anchors": ["src/pystra/cholesky_sensitivity.py:cholesky_with_derivative", "src/pystra/cholesky_sensitivity.py:dinvL0_dtheta"]}
{"id": "C28", "title": "FORM stops, and why", "statement": "For i_max >= 1 FORM performs at most i_max iterations, and when it stops either both tolerances hold at the reported point or the reported iteration count is i_max; it cannot stop earlier; with i_max = 0 and tolerances never met it never stops.", "quantifier": "all limit states, models, options", "why_tests_cant": "loops over arbitrary functions", "anchors": ["src/pystra/form.py:Form.run"]}
{"id": "C29", "title": "FORM result identities", "statement": "The reported alpha has unit length, beta is alpha.u, Pf = Phi(-beta) lies in (0,1), and when stopped by tolerance | |u|^2 - beta^2 | < e2^2 and |G| < e1 |G0|.", "quantifier": "all runs with nonzero gradients", "why_tests_cant": "real-valued runs", "anchors": ["src/pystra/form.py:Form.computeAlpha", "src/pystra/form.py:Form.computeBeta", "src/pystra/form.py:Form.computeFailureProbability"]}
{"id": "C30", "title": "FORM is exact for linear limit states in normal variables", "statement": "For g(x) = a0 + a.x with (correlated) normal variables, unit step and finite-difference or analytical gradient, FORM converges after one step (in at most two iterations) and returns beta = E[g]/sd(g) and Pf = P(g <= 0).", "quantifier": "all dimensions, coefficients, means, deviations, positive definite correlations", "why_tests_cant": "continuum of problems", "anchors": ["src/pystra/form.py:Form.run"]}
{"id": "C31", "title": "Armijo step", "statement": "With step_size 0 the step is the first of 1,1/2,...,1/32 whose merit does not exceed the current merit, and 1/32 if none does; the merit is |u|^2/2 + c|G| with c = 2|u|/|grad|+10; with any other option value the step is that value.", "quantifier": "all points, gradients, limit states", "why_tests_cant": "real-valued search", "anchors": ["src/pystra/form.py:Form.computeStepSize", "src/pystra/form.py:Form.getStepSize"]}
{"id": "C32", "title": "Search direction", "statement": "The HLRF direction leads to the point of the linearised limit state closest to the origin, vanishes exactly at a point of the limit-state surface where u is parallel to the gradient, and is a descent direction of the merit function when c > |u|/|grad|, which the code's c always satisfies.", "quantifier": "all u, G, gradient != 0", "why_tests_cant": "continuum", "anchors": ["src/pystra/form.py:Form.computeSearchDirection", "src/pystra/form.py:Form.computeStepSize"]}
{"id": "C33", "title": "Cholesky and SVD give the same FORM", "statement": "Runs of FORM that differ only in the transform type have the same x-iterates, limit-state values, iteration count, beta and Pf, and u-iterates related by one fixed orthogonal matrix.", "quantifier": "all models, positive definite Ro, options, number of iterations", "why_tests_cant": "two infinite families of runs compared", "anchors": ["src/pystra/form.py:Form.run", "src/pystra/transformation.py"]}
{"id": "C34", "title": "FORM evaluation count", "statement": "After i iterations FORM with finite differences has added exactly i*(1+nrv) + 6*(i-1) evaluations to the model's counter when the Armijo rule is used, and i*(1+nrv) with a fixed step.", "quantifier": "all runs, all dimensions", "why_tests_cant": "unbounded iteration counts", "anchors": ["src/pystra/form.py:Form.run", "src/pystra/form.py:Form.getNoFunctionCalls"]}
{"id": "C35", "title": "Labelling of alpha", "statement": "getAlpha(as_dict=True) maps each random variable's name to its own component whenever no constant was added before a random variable; when a constant precedes a variable the labels are shifted.", "quantifier": "all models and runs", "why_tests_cant": "all insertion orders", "anchors": ["src/pystra/form.py:Form.getAlpha"]}
{"id": "C36", "title": "Crude Monte Carlo estimate", "statement": "CrudeMonteCarlo's Pf is (number of evaluated samples with g < 0)/(number evaluated), so it lies in [0,1]; its coefficient of variation equals sqrt((1-Pf)/(k Pf)) when Pf > 0; with no failures it reports Pf = 0 and beta = 0.", "quantifier": "all sample streams, limit states, sample sizes, block sizes", "why_tests_cant": "random streams of any length", "anchors": ["src/pystra/mc.py:CrudeMonteCarlo"]}
{"id": "C37", "title": "Monte Carlo stopping rule", "statement": "The simulation evaluates whole blocks, never more than the requested samples, stops early only when the estimated cov is at or below the target, and otherwise evaluates exactly the requested number; the call counter grows by that number.", "quantifier": "all streams, targets, block sizes >= 1", "why_tests_cant": "random streams", "anchors": ["src/pystra/mc.py:MonteCarlo"]}
{"id": "C38", "title": "Importance-sampling weights", "statement": "Each importance-sampling weight is the ratio of the standard normal density to the sampling density at the sampled point, so the estimator's expectation under the sampling law is the failure probability; with stdv 1 and centre at the origin every weight is 1 and the result is crude Monte Carlo.", "quantifier": "all points, centres, sampling stdv > 0, dimensions", "why_tests_cant": "integral identity", "anchors": ["src/pystra/mc.py:ImportanceSampling", "src/pystra/mc.py:MonteCarlo"]}
{"id": "C39", "title": "Distribution analysis keeps every sample", "statement": "DistributionAnalysis evaluates exactly the requested number of samples in blocks and stores every sampled x and its g, in order.", "quantifier": "all streams, sample counts and block sizes", "why_tests_cant": "unbounded counts", "anchors": ["src/pystra/mc.py:DistributionAnalysis"]}
{"id": "C40", "title": "Subset simulation levels", "statement": "In every terminating run the threshold list and the conditional-probability list have the reported number of levels, thresholds never increase, all but the last are positive and the last is 0, and Pf is the product of the conditional probabilities, hence in [0,1].", "quantifier": "all sample streams and limit states", "why_tests_cant": "random histories", "anchors": ["src/pystra/ss.py:SubsetSimulation"]}
{"id": "C41", "title": "Conditional sampling stays in the subset", "statement": "Every state produced by the modified Metropolis-Hastings chains satisfies g <= threshold, exactly N states are produced, and the chain lengths split N over the seeds as evenly as possible.", "quantifier": "all seeds, thresholds, random draws, N", "why_tests_cant": "random histories", "anchors": ["src/pystra/ss.py:SubsetSimulation"]}
{"id": "C42", "title": "Metropolis kernel leaves the normal density invariant", "statement": "A component accepts its candidate xi with probability min(1, phi(xi)/phi(u)); the vector proposal satisfies detailed balance with the standard normal law; and if the seed of a chain has the standard normal law conditioned on the subset g <= threshold, so has every later state of the chain.", "quantifier": "all states, proposal widths, dimensions, measurable subsets, chain lengths", "why_tests_cant": "continuum", "anchors": ["src/pystra/ss.py"]}
{"id": "C43", "title": "Subset simulation may not terminate", "statement": "For a limit state with no failure region, e.g. a constant positive one, subset simulation has no terminating run.", "quantifier": "all random streams", "why_tests_cant": "non-termination cannot be tested", "anchors": ["src/pystra/ss.py:SubsetSimulation.run"]}
{"id": "C44", "title": "Line sampling root location", "statement": "Each line's distance lies in the scanned interval [-c_max, c_max]; when the scan sees a safe-to-failure sign change the interval handed to the root finder is the first such one; when no sign change is seen the end of the interval matching the sign of g is returned.", "quantifier": "all lines, limit states, initial guesses", "why_tests_cant": "arbitrary functions", "anchors": ["src/pystra/ls.py"]}
{"id": "C45", "title": "Line sampling estimate", "statement": "Line sampling's Pf is the mean of Phi(-c_i) over the lines, lies in (0,1), and is exact with zero variance for a limit state that is affine in u with alpha along its gradient.", "quantifier": "all streams, all N", "why_tests_cant": "random streams, real-valued", "anchors": ["src/pystra/ls.py"]}
{"id": "C46", "title": "Breitung formulas", "statement": "SORM's Pf with zero curvatures equals FORM's Phi(-beta); the point-fitted formula with equal curvatures on both sides equals the curve-fitted formula; for beta > 0 larger curvatures give smaller Pf; curvatures below -1/beta are reported as invalid.", "quantifier": "all beta, curvature lists of any length", "why_tests_cant": "real-valued lists", "anchors": ["src/pystra/sorm.py"]}
{"id": "C47", "title": "Rotation to the design point", "statement": "The rotation used by SORM is orthogonal, has alpha as last row, and maps the FORM design point to (0,...,0,beta).", "quantifier": "all dimensions, all unit alpha with nonzero last component", "why_tests_cant": "matrix-valued", "anchors": ["src/pystra/sorm.py:Sorm.orthonormal_matrix", "src/pystra/sorm.py:Sorm.gram_schmidt"]}
{"id": "C48", "title": "Curve-fitted curvatures of quadratics", "statement": "For a limit state whose u-space form is quadratic, the finite-difference Hessian is exact, symmetric, and independent of the step size; it uses the documented number of evaluations.", "quantifier": "all quadratics, dimensions, steps", "why_tests_cant": "continuum", "anchors": ["src/pystra/sorm.py:Sorm.computeHessian"]}
{"id": "C49", "title": "Point-fitting", "statement": "The fitted point solves the limit-state equation on the prescribed path to the Newton tolerance when it is reported converged, and its curvature is the coefficient of the parabola through design point and fitting point.", "quantifier": "all limit states", "why_tests_cant": "arbitrary functions", "anchors": ["src/pystra/sorm.py"]}
{"id": "C50", "title": "FORM sensitivities in closed form", "statement": "For independent normals and a limit state not depending on parameters, closed-form sensitivities equal d beta/d mean_i = -alpha_i/sigma_i and d beta/d stdv_i = -alpha_i u_i/sigma_i; these are the true derivatives of beta for affine limit states.", "quantifier": "all dimensions and parameters", "why_tests_cant": "calculus", "anchors": ["src/pystra/sensitivity.py:SensitivityAnalysis"]}
{"id": "C51", "title": "Correlation sensitivities", "statement": "Correlation sensitivity matrices are symmetric with zero diagonal, and each entry is the derivative of the FORM index when the Cholesky factor is used.", "quantifier": "all n and matrices", "why_tests_cant": "matrix calculus", "anchors": ["src/pystra/sensitivity.py:SensitivityAnalysis"]}
{"id": "C52", "title": "Numerical sensitivities do not disturb the model", "statement": "Finite-difference sensitivity perturbs copies only: the user's model has the same marginals afterwards, and each perturbation changes exactly one parameter of one variable by the reported amount.", "quantifier": "all models, parameters", "why_tests_cant": "aliasing over all models", "anchors": ["src/pystra/sensitivity.py"]}
{"id": "C53", "title": "Bivariate normal density and derivative", "statement": "phi2 is the standard bivariate normal density with correlation rho, symmetric in its arguments, and its implemented rho-derivative is the true derivative.", "quantifier": "all z1,z2 and |rho|<1", "why_tests_cant": "calculus", "anchors": ["src/pystra/integration.py"]}
{"id": "C54", "title": "Quadrature correlation integral", "statement": "rho_integral is the weighted quadrature sum of the standardised product against phi2, drho_drho0 is its derivative in rho0, and the grid is the tensor product of the affine image of the 1-D rule on [-zmax,zmax].", "quantifier": "all marginals, n, zmax, rho0", "why_tests_cant": "calculus", "anchors": ["src/pystra/integration.py"]}
{"id": "C55", "title": "Gauss-Legendre rule", "statement": "quadratureRule(n) returns n points and n weights, points antisymmetric and weights symmetric about the midpoint; the recursion evaluates the Legendre polynomial and its derivatives exactly.", "quantifier": "all n", "why_tests_cant": "all n", "anchors": ["src/pystra/quadrature.py:quadratureRule"]}
{"id": "C56", "title": "Load-case distributions", "statement": "In each load combination case, exactly the named leading actions use their maximum distribution and all other combination variables their point-in-time distribution; resistances and other variables are the given ones.", "quantifier": "all cases and variable sets", "why_tests_cant": "all dictionaries", "anchors": ["src/pystra/loadcomb.py"]}
{"id": "C57", "title": "Case arguments and defaults", "statement": "Overrides supplied per call replace only the named variables or constants; constants are added before variables; the case correlation is reindexed by name to the model's variable order.", "quantifier": "all override dictionaries", "why_tests_cant": "all dictionaries", "anchors": ["src/pystra/loadcomb.py"]}
{"id": "C58", "title": "Design point factors", "statement": "Design-point combination factors reproduce the design point: nominal * partial factor * combination factor = X* for each case when the coefficient method is used with nonzero factors.", "quantifier": "all cases and values", "why_tests_cant": "real-valued tables", "anchors": ["src/pystra/calibration.py"]}
{"id": "C59", "title": "Maxima and minima over cases", "statement": "get_psi_max returns for each action the largest combination factor over the cases where it is not leading, with 1 for the leading action; get_phi_min returns the smallest resistance factor over the cases.", "quantifier": "all tables of any size", "why_tests_cant": "tables of any size", "anchors": ["src/pystra/calibration.py"]}
{"id": "C60", "title": "Target-beta calibration loop", "statement": "The alpha calibration performs at most max_iter iterations, and when it reports convergence the design parameter's beta is within tolerance of the target.", "quantifier": "all oracles", "why_tests_cant": "arbitrary limit states", "anchors": ["src/pystra/calibration.py"]}
{"id": "C61", "title": "Generic calibration design equation", "statement": "Every design factor produced by the generic calibration satisfies the factored design equation exactly, for every load ratio on the grid. After any sequence of setter calls on a GenericModel every attribute has the value of the last call that names it. The limit state of the generic calibration, called with keyword arguments, evaluates z wR R - wS((1-aq)(ag G + (1-ag) P) + aq Q) when exactly the nine names z, aq, ag, wR, R, wS, G, P, Q are given, in any order, and raises TypeError otherwise.", "quantifier": "all models, ratios, factors", "why_tests_cant": "grids and real parameters", "anchors": ["src/pystra/calibration.py:GenericCalibration"]}
{"id": "C62", "title": "Generic calibration life cycle", "statement": "add_model invalidates earlier results; analysing without models or plotting before analysis raises; betas are stored at the grid cell of their load ratios.", "quantifier": "all histories", "why_tests_cant": "histories", "anchors": ["src/pystra/calibration.py:GenericCalibration"]}
{"id": "C63", "title": "Recorded Monte Carlo samples", "statement": "The arrays of all samples a CrudeMonteCarlo run keeps are, while the run fits in one block, the n-by-k arrays of samples in u-space and x-space; from the second block on both are flattened and the x-space array receives the u-coordinates of the later blocks (so it does not hold x-space samples).", "quantifier": "all streams, limit states, block sizes, sample counts", "why_tests_cant": "unbounded number of blocks", "anchors": ["src/pystra/mc.py:CrudeMonteCarlo.run"]}
{"id": "C64", "title": "Cost of subset simulation", "statement": "A terminating run of subset simulation evaluates the limit state exactly N times per level: the call counter grows by N times the reported number of levels.", "quantifier": "all models, limit states, random streams, N, block sizes, p0", "why_tests_cant": "the number of levels is random and unbounded", "anchors": ["src/pystra/ss.py:SubsetSimulation", "src/pystra/model.py:LimitState"]}
{"id": "C65", "title": "Matrix method: one set of combination factors satisfies every design equation", "statement": "With the matrix method, when each combination case is led by one combination variable and the limit state is affine in the combination loads, the factors phi, gamma, psi that Calibration returns put the factored nominal values of every combination case (phi*nominal resistances, psi*gamma*nominal loads, the case's calibrated design parameter) exactly on the limit state; psi is 1 for leading and static loads and is the same in every case where a load is companion. With complete tables, at least two combination variables and a nonzero effect of each leading load the method succeeds; with a calibration variable not named 'z' it raises KeyError.", "quantifier": "all numbers of variables and cases, all limit states affine in the combination loads, all tables", "why_tests_cant": "quantifies over every linear system size and every design table", "anchors": ["src/pystra/calibration.py:Calibration.calc_pg_matrix", "src/pystra/calibration.py:Calibration.calc_epgS_mat"]}
{"id": "C66", "title": "Design parameter from factors lies on the limit state", "statement": "get_design_param_factor returns, for each combination case, a nonnegative design parameter; for a limit state of the form z*r - s whose design parameter's own constant is 1 and whose load and resistance effects have the same sign, the limit state evaluated at the factored values of the case with that parameter is 0. Factored values are nominal*phi (smallest phi on request) for resistances and nominal*max gamma*psi (largest psi on request) for loads. If the constant is not 1 the returned parameter is wrong by that factor.", "quantifier": "all factor tables, limit states of that form, cases", "why_tests_cant": "must hold for every limit state and table", "anchors": ["src/pystra/calibration.py:Calibration.calc_design_param_Xst", "src/pystra/calibration.py:Calibration.get_design_param_factor", "src/pystra/calibration.py:Calibration.calc_df_pgRS"]}
{"id": "C67", "title": "A whole calibration: factors reproduce the design points of the cases at the target reliability", "statement": "Calibration.run calibrates every load case and stores, for each, the design point of FORM at the calibrated design parameter. With est_method 'coeff' and without set_max, nominal value * load factor * combination factor equals the case's design-point coordinate of every load, and nominal value * resistance factor that of every resistance, and the case's reliability index is within 1e-4 + 1e-5*target of the target unless 100 rounds were used. An est_method argument takes precedence over the constructor's; with set_max each resistance factor becomes the smallest of its column and the combination factors those of get_psi_max. An unknown est_method raises nothing and stores no factors.", "quantifier": "all load combinations, limit states, FORM results, numbers of cases and variables, all runs", "why_tests_cant": "ranges over every load combination and every convergence history of the calibration loop", "anchors": ["src/pystra/calibration.py:Calibration.run", "src/pystra/calibration.py:Calibration._run_calibration", "src/pystra/calibration.py:Calibration.calc_pg_coeff"]}
{"id": "C68", "title": "Reliability indices at a design parameter", "statement": "calc_beta_design_param(z) returns one reliability index per load case in the order of the cases, each that of FORM on that case's own model with the calibration variable set to z; it raises exactly when one of those analyses raises.", "quantifier": "all design parameters, load combinations and numbers of cases", "why_tests_cant": "for every list of cases and every outcome of their analyses", "anchors": ["src/pystra/calibration.py:Calibration.calc_beta_design_param", "src/pystra/loadcomb.py:LoadCombination.run_reliability_case"]}
{"id": "C69", "title": "Running a simulation object again", "statement": "Calling run() again on a crude Monte Carlo or importance sampling object gives the estimate, reliability index, coefficient of variation, number of samples, draws and limit-state calls that a fresh object would give from the same draws: earlier runs do not change the estimate. The kept records are not reset: the values and distances of the new run are appended to the old ones, and the record of physical samples gains only standard-space coordinates.", "quantifier": "all histories of runs, options, sampling centres, streams, limit states", "why_tests_cant": "ranges over every history of earlier runs and every stream of random numbers", "anchors": ["src/pystra/mc.py:CrudeMonteCarlo.run", "src/pystra/mc.py:CrudeMonteCarlo.initializeVariables", "src/pystra/mc.py:MonteCarlo.computeTransformation"]}
{"id": "C70", "title": "Analyses sharing one model do not disturb each other", "statement": "Any number of analyses (FORM, SORM, crude Monte Carlo, importance sampling, distribution analysis, subset simulation, line sampling) run one after the other on the same stochastic model: each gives exactly the result, exception and limit-state calls it would have given alone on the model as defined; the definition (variables, order, correlation, constants) is untouched, the evaluation counter grows by the sum of the analyses' own counts, and the order of the analyses is irrelevant to their results. Analyses with a bounded number of iterations or samples always end, even when the limit state raises.", "quantifier": "all lists of analyses, options, models, limit states (also raising ones), streams of draws", "why_tests_cant": "ranges over every sequence of analyses on every model and every limit-state function", "anchors": ["src/pystra/analysis.py:AnalysisObject.init_run", "src/pystra/model.py:StochasticModel.setModifiedCorrelation", "src/pystra/form.py:Form.run", "src/pystra/mc.py:CrudeMonteCarlo.run", "src/pystra/sorm.py:Sorm.run", "src/pystra/ss.py:SubsetSimulation.run", "src/pystra/ls.py:LineSampling.run"]}
{"id": "C71", "title": "Importance sampling from constructor to result", "statement": "An importance-sampling object runs FORM when it is made, and its centre is FORM's design point in standard space; if FORM raises there is no object. Every run() then finishes for a pointwise limit state, counts exactly the evaluations it reports, and its Pf is the mean of the density ratios of the failing samples around that centre; with a fixed number of samples its expectation is the probability of failure, whatever point FORM stopped at. The print option is restored after a successful run; a run that raises leaves it switched off.", "quantifier": "all models, limit states, FORM outcomes, sample sizes, block sizes, sampling standard deviations, streams", "why_tests_cant": "unbiasedness is a statement about the law of the whole stream of draws, for every model", "anchors": ["src/pystra/mc.py:ImportanceSampling.__init__", "src/pystra/mc.py:ImportanceSampling.run", "src/pystra/form.py:Form.getDesignPoint"]}
{"id": "C72", "title": "Distribution objects under the setters", "statement": "set_location, set_scale, set_lower, set_zero_probability, set_exponent and setStartPoint may be called in any order, on an object or on any wrapper of it, with failing calls in between. Afterwards a scipy-backed object is exactly the one its constructor would build from the location and scale last set; a Normal has the mean and standard deviation last set; a wrapper on which the setter was called is what it would be if built from the wrapped object now. The start point only changes through setStartPoint, and objects that share nothing with the target are untouched. Where the code does not keep this promise (Lognormal.ppf and sample, Uniform.u_to_x, GEVmin.mean, wrappers of an object modified directly, an invalid scale that is stored before it is refused) the exact behaviour is stated.", "quantifier": "all classes, all parameter values, all programs of constructor, setter and sample calls on any heap of objects", "why_tests_cant": "a test runs one sequence of calls; the state after an arbitrary history with sharing between wrappers cannot be enumerated", "anchors": ["src/pystra/distributions/distribution.py:Distribution.set_location", "src/pystra/distributions/distribution.py:Distribution.set_scale", "src/pystra/distributions/normal.py:Normal.set_location", "src/pystra/distributions/lognormal.py:Lognormal.set_location", "src/pystra/distributions/shiftedlognormal.py:ShiftedLognormal.set_lower", "src/pystra/distributions/zeroinflated.py:ZeroInflated.set_zero_probability", "src/pystra/distributions/maximum.py:Maximum.set_location", "src/pystra/distributions/parent.py:MaxParent.set_exponent"]}
{"id": "C73", "title": "sample(n) draws from the object's law", "statement": "sample(n) returns ppf at the next n numbers of the global uniform stream, changes no object, and consecutive calls share no number; if the uniform numbers are independent, the values are independent with the object's cdf as distribution function (for a Lognormal after its setters: with the cdf it was created with).", "quantifier": "all objects whose ppf and cdf belong together, all n, all streams", "why_tests_cant": "a claim about the joint law of the returned array, not about one seeded draw", "anchors": ["src/pystra/distributions/distribution.py:Distribution.sample", "src/pystra/distributions/normal.py:Normal.sample"]}
{"id": "C74", "title": "Law of the physical variables", "statement": "If the standard normal variables U are independent, X = u_to_x(U) has exactly the model the user wrote down: each X_i has the density, mean and standard deviation its distribution object reports; each pair has the bivariate Nataf law, whose correlation coefficient is the double integral that rho_integral evaluates by quadrature; the joint density is the standard normal density at x_to_u(x) times |det jacobian|; the law is the same for the Cholesky and the SVD transformation; and with the identity correlation the variables are independent.", "quantifier": "all numbers of variables, all positive definite correlation matrices with unit diagonal, both transformations, all standard classes with valid parameters", "why_tests_cant": "equality of probability laws; a sample only tests it statistically, for one model", "anchors": ["src/pystra/transformation.py:Transformation.u_to_x", "src/pystra/transformation.py:Transformation.jacobian", "src/pystra/integration.py:rho_integral", "src/pystra/distributions/distribution.py:Distribution.u_to_x"]}
{"id": "C75", "title": "Error of the simulation estimates", "statement": "With a fixed number N of samples the Pf reported by crude Monte Carlo and by importance sampling estimates the integral of the joint density of the physical variables over g < 0. Its variance is (E[w; failure] - p^2)/N with w the ratio of the standard normal to the sampling density, for every centre and every sampling standard deviation above 1/sqrt(2); for standard deviation 1 it is (exp(|c|^2) P(U - c fails) - p^2)/N, which is p(1-p)/N for crude Monte Carlo. Hence the probability of an error of eps or more is at most that variance over eps^2, at most 1/(4 N eps^2) for crude Monte Carlo.", "quantifier": "all limit states with a measurable failure set, all centres, sampling standard deviations above 1/sqrt(2), block sizes, sample sizes, eps > 0", "why_tests_cant": "a statement about the law of the estimate over all streams of draws", "anchors": ["src/pystra/mc.py:MonteCarlo.run", "src/pystra/mc.py:CrudeMonteCarlo.run", "src/pystra/mc.py:ImportanceSampling.run"]}
{"id": "C76", "title": "Life of a FORM object", "statement": "Whatever runs, failed runs and changes of the model a Form object goes through, getBeta, getFailure and the summary report the results of the last run that was completed (beta, Pf and number of iterations of one and the same run) together with the model's current number of limit-state calls; before the first started run the summary raises ValueError, before the first completed one TypeError; after a completed run the design point, alpha, beta and Pf are all of that run and equal to those of a fresh object. A run that raises leaves beta and Pf of the previous run beside the design point of the aborted one, and the summary does not complain.", "quantifier": "all histories of runs with any settings, model changes and exceptions, all models, limit states and options", "why_tests_cant": "quantifies over all histories of an object, including every point at which a run can raise", "anchors": ["src/pystra/form.py:Form.run", "src/pystra/form.py:Form.getBeta", "src/pystra/form.py:Form.getFailure", "src/pystra/form.py:Form.getDesignPoint", "src/pystra/form.py:Form.getAlpha", "src/pystra/form.py:Form.showResults"]}
{"id": "C77", "title": "Detailed FORM report", "statement": "After a completed run the detailed report has exactly one line per random variable, in the order they were added, each with the variable's own name, its coordinate of u*, of x* and of alpha of that run, followed by the model's constants; constants never shift the lines. If a random variable is added to the model after the run, the report and the design point in physical space raise IndexError.", "quantifier": "all models reachable by the model API, all completed runs, any order of constants and variables", "why_tests_cant": "ranges over all models and all runs; tests print one report", "anchors": ["src/pystra/form.py:Form.showDetailedOutput", "src/pystra/form.py:Form.getDesignPoint"]}
{"id": "C78", "title": "Life of a SORM object", "statement": "Constructing a Sorm object runs FORM once (or takes the given Form object) and no run ever runs FORM again: whatever the model has become, betaHL is the index of the held Form object. Over any history of curve fits, point fits, failed runs, reruns of the Form object and model changes, betaHL, kappa and the Breitung numbers are those of the last completed run, kappa_pf those of the last completed point fit, and if the last run was completed the printed report is exactly that of a new object running it. A point fit that raises after a completed curve fit makes the report print the curve-fit numbers under '(Point-Fitting)', and an unknown fit_type raises ValueError but leaves the report showing the old numbers.", "quantifier": "all histories of runs of either kind, exceptions at any point, printing on or off, model changes and FORM reruns in between; all models and limit states", "why_tests_cant": "quantifies over all histories of an object", "anchors": ["src/pystra/sorm.py:Sorm.__init__", "src/pystra/sorm.py:Sorm.run", "src/pystra/sorm.py:Sorm.run_curvefit", "src/pystra/sorm.py:Sorm.run_pointfit", "src/pystra/sorm.py:Sorm.showResults"]}
{"id": "C79", "title": "Detailed SORM report", "statement": "After a completed SORM run the detailed report shows Pf and beta of the FORM object, the Breitung and Hohenbichler-Rackwitz numbers and the curvatures of that run (pairs exactly for a point fit), the number of limit-state calls, and one line per random variable in order of addition with its own name, its coordinates of the FORM design point in both spaces and its component of alpha, then the constants.", "quantifier": "all reachable models, all completed runs of either kind", "why_tests_cant": "ranges over all models and runs", "anchors": ["src/pystra/sorm.py:Sorm.showDetailedOutput"]}
{"id": "C80", "title": "Life of a LineSampling object", "statement": "Over any history of runs, failed runs, reruns of the Form object, other use of the random generator and model changes, Pf, beta, cov, the number of samples and the contributions are those of the last completed run, exactly those a new object holding the same Form object would have computed from the same place of the random stream; the report is then exactly that new object's report. Before the first completed run, the report raises ValueError (no run) or TypeError (only failed runs). A first run executes FORM once and agrees with line sampling on a fresh model; no later run executes FORM again, so the important direction stays the one found first: if the limit state was changed meanwhile so that this direction points away from the failure domain, the completed run reports (up to the root tolerance) one minus the failure probability, with coefficient of variation zero.", "quantifier": "all histories, streams, models, limit states and settings; exceptions at any point; printing on or off", "why_tests_cant": "quantifies over all histories of an object and all random streams", "anchors": ["src/pystra/ls.py:LineSampling.__init__", "src/pystra/ls.py:LineSampling.run", "src/pystra/ls.py:LineSampling.showResults"]}
{"id": "C81", "title": "Life of a Monte Carlo or importance-sampling object", "statement": "Over any history of runs, failed runs, other use of the random generator and model changes, the failure probability and beta of the object are those of the last completed run, exactly those a new object with the same centre would have computed from the same place of the random stream (and a first run is the analysis itself); the stored samples, values and distances are those of all runs, one after another. After a completed run the report is that new object's report. The report raises ValueError before any run, TypeError when no run reached its sampling loop, IndexError after a run with no samples; when the last run raised in its loop it shows Pf and beta of the last completed run beside the number of simulations at which the last run stopped and a NaN coefficient of variation. A run with a random generator other than 0 draws nothing: it raises TypeError on a new object, and on a used one evaluates the block of samples left behind again and again.", "quantifier": "all histories, streams, models, limit states, centres, block sizes and settings; exceptions at any point; printing on or off", "why_tests_cant": "quantifies over all histories of an object and all random streams", "anchors": ["src/pystra/mc.py:CrudeMonteCarlo.run", "src/pystra/mc.py:CrudeMonteCarlo.showResults", "src/pystra/mc.py:ImportanceSampling.run", "src/pystra/mc.py:MonteCarlo.computeRandomNumbers"]}
{"id": "C82", "title": "Running estimates and plots of a Monte Carlo run", "statement": "A completed crude Monte Carlo run keeps, at the end of every evaluated block, the mean of the summands so far and its coefficient of variation, and zeros and NaN everywhere else. Its plots have at most 299 points, the first at 1 simulation, the others below the number of simulations at multiples of the size of the last block; a point that lies at the end of a block shows the estimate at that number of simulations, and every other point shows probability zero. In particular the estimate at the final number of simulations is never plotted (unless only one sample was taken), and when the last block is a short one the plot shows zeros that are no estimates.", "quantifier": "all sample numbers, block sizes, targets, streams, models and limit states", "why_tests_cant": "ranges over all sample and block sizes and all random streams", "anchors": ["src/pystra/mc.py:CrudeMonteCarlo.run", "src/pystra/mc.py:CrudeMonteCarlo.initializeVariables", "src/pystra/mc.py:CrudeMonteCarlo.showResults", "src/pystra/mc.py:MonteCarlo.computeCoefficientOfVariation"]}
{"id": "C83", "title": "Life of a SubsetSimulation object", "statement": "Over any history of runs, failed runs, other use of the random generator and model changes, Pf, beta, cov and the number of levels are those of the last completed run, exactly those a new object would have computed from the same places of the random streams (a first run being the analysis itself); thresholds and conditional probabilities are those of the last run that got past its initialisation, completed or not. After a completed run the report is that new object's report, with one line per level, the last at threshold 0. Before a run the report raises ValueError, before a completed run TypeError; when the last run raised after its initialisation, the report shows the results of the last completed run beside the levels the failed run had finished, whose thresholds are all positive.", "quantifier": "all histories, streams, models, limit states, p0 in (0,1), proposal widths and settings; exceptions at any point; printing on or off", "why_tests_cant": "quantifies over all histories of an object and all random streams", "anchors": ["src/pystra/ss.py:SubsetSimulation.__init__", "src/pystra/ss.py:SubsetSimulation.run", "src/pystra/ss.py:SubsetSimulation._finalise", "src/pystra/ss.py:SubsetSimulation.showResults"]}
{"id": "C84", "title": "Options objects", "statement": "A fresh AnalysisOptions has exactly the documented attributes and values. After any history of assignments, setter calls and deletions every attribute, and the getter of every option, returns the value last given to that option by its name or by its own setter, and the documented value if there was none; actions on other options do not matter, unknown getters and setters raise AttributeError and change nothing. Analyses hold a reference: an action on an options object reaches the next run of every analysis created with it and of no other; an analysis created without options has an object of its own. Options are read when a run starts, except the transformation type, which is read (and refused if unknown) when the analysis is created. The result of a run depends only on the options its class uses: Monte Carlo, distribution analysis and subset simulation not on the differentiation mode, the finite-difference parameter or the FORM settings, FORM and SORM not on the simulation settings.", "quantifier": "all histories of actions with any values on any number of options objects shared in any way by any number of analyses; all analysis classes, models, limit states and random streams", "why_tests_cant": "quantifies over all histories and all pairs of options objects", "anchors": ["src/pystra/analysis.py:AnalysisOptions", "src/pystra/analysis.py:AnalysisObject.__init__", "src/pystra/model.py:LimitState.evaluate_lsf"]}
{"id": "C85", "title": "Copies made for sensitivity analysis are faithful", "statement": "For every distribution class, both ways of calling its constructor (moments or own parameters), every accepted set of arguments and every start point, rebuilding the object from the mean, standard deviation and extra arguments it reports gives an object of the same class with the same mean, standard deviation, extra arguments, pdf, cdf, ppf, u_to_x, x_to_u and jacobian; only the start point is replaced by the mean. For the Type I classes, whose source truncates the Euler constant, the copy is the object moved by less than a millionth of its standard deviation. Objects of the composite classes (Maximum, MaxParent, ZeroInflated, ScipyDist) cannot be copied: the attempt raises, whatever the overrides.", "quantifier": "all distribution classes, all real arguments accepted by the constructors, both input types, all start points", "why_tests_cant": "ranges over all real parameters of every class", "anchors": ["src/pystra/distributions/distribution.py:Distribution._make_copy", "src/pystra/distributions/gev.py:GEVmax", "src/pystra/distributions/gumbel.py:Gumbel", "src/pystra/distributions/beta.py:Beta", "src/pystra/distributions/weibull.py:Weibull"]}
{"id": "C86", "title": "Cdf sensitivities of the classes without formulas of their own", "statement": "For a class without its own dF_dtheta, dF_dtheta(x) returns, in the order mean, std, further parameters, the central differences of the cdf at x of the objects built with the varied parameter, with step max(|value|*1e-6, stdv*1e-8); each is the derivative of the cdf with respect to that parameter at a value within the step, and for the location-scale classes it is minus the density (times the standardised distance for std) of a member of the class within the step. The call succeeds at every point for every Uniform, Type I, shifted exponential and shifted Rayleigh object, for Gamma and chi-square objects whose mean exceeds stdv*1e-8, and for GEV objects whose shape plus its step is below one half; for the other GEV objects (e.g. every one with stdv >= 0.5e8, the step of the dimensionless shape being proportional to stdv) and for every composite object it raises ValueError. For chi-square objects the copy with a varied mean moves twice as fast as the mean, and its standard deviation moves against the varied one, although unit derivatives of the moments are reported. The derivatives of mean and standard deviation with respect to a further parameter (_dmoments_dtheta) are their derivatives at values of that parameter within the step.", "quantifier": "all classes without dF_dtheta of their own, all constructor arguments, all points x", "why_tests_cant": "ranges over all real parameters and points", "anchors": ["src/pystra/distributions/distribution.py:Distribution.dF_dtheta", "src/pystra/distributions/distribution.py:Distribution._dmoments_dtheta", "src/pystra/distributions/chisquare.py:ChiSquare", "src/pystra/distributions/gev.py:GEVmax"]}
{"id": "C87", "title": "The methods of a distribution object describe one law", "statement": "For every distribution class, both ways of calling its constructor, all accepted arguments and every start point, the object made describes a single law on an open support: cdf rises strictly from 0 to 1, ppf is its inverse in both directions, pdf is its derivative and integrates to it, x_to_u is the standard normal quantile of cdf and u_to_x is ppf of the standard normal distribution function (also in the classes that override them with formulas of their own), jacobian is the derivative of x_to_u, mean and stdv are the moments of pdf, and the start point is the one given or the mean. Hence numbers drawn by sample are independent with the distribution function cdf, and u_to_x of a standard normal variable has the density pdf. The one exception is GEVmin: no object of that class describes a single law, since its ppf is the upper quantile of its cdf.", "quantifier": "all distribution classes except the composite ones, all real constructor arguments in the admissible range, both input types, all start points", "why_tests_cant": "ranges over all real parameters of every class and all points of the support", "anchors": ["src/pystra/distributions/distribution.py:Distribution", "src/pystra/distributions/normal.py:Normal", "src/pystra/distributions/lognormal.py:Lognormal", "src/pystra/distributions/uniform.py:Uniform", "src/pystra/distributions/gev.py:GEVmin"]}
{"id": "C88", "title": "Life of a DistributionAnalysis object", "statement": "Over any history of runs of one DistributionAnalysis object with the default generator, some interrupted by exceptions, and any changes of the model in between, the number of simulations, all_X, getDistributionData and getBins are those the last run that wrote them would have given to a new object, and getBeta and getFailure stay None. A run that completes stores exactly the physical points of its own draws and their limit-state values, in order, as a column; if the limit state raises in the middle, the blocks before it are stored, in a row, followed by zeros, and the object counts as run. The percentages printed are increasing multiples of five, those of the block ends, ending with 100 exactly when the run completes. showResults raises ValueError before the first run and TypeError while no run has got past the transformation; otherwise it shows, for each variable, the histogram of its samples with its density at 200 equidistant points from the least to the greatest sample. The figure of each variable carries that variable's name if and only if no constant was added before a random variable. With independent standard normal draws and sim_stdv = 1 the stored samples are independent with the joint law of the model; with sim_stdv = s each variable has the density drawn beside its histogram if and only if s = 1. With a generator other than 0 nothing is drawn: a new object raises TypeError, a used one repeats the last block of the earlier run.", "quantifier": "all histories of runs and model changes, all draws, sample counts, block sizes, limit states (raising or not), all models and registration orders", "why_tests_cant": "unbounded histories and sample sizes, arbitrary exceptions, and equality of probability laws", "anchors": ["src/pystra/mc.py:DistributionAnalysis", "src/pystra/mc.py:MonteCarlo"]}
{"id": "C89", "title": "Unit of the limit-state function", "statement": "Multiplying the limit-state function by a constant c > 0 (a change of unit), whatever it returns and whether or not it raises, does not change the reliability results: FORM with a fixed step size makes the same calls, iterations and design point, with the same alpha, beta and Pf or the same exception; line sampling and curve-fitting SORM give the same results; crude Monte Carlo and importance sampling depend only on the set where the function is negative; subset simulation gives the same levels, conditional probabilities, Pf and coefficient of variation with thresholds multiplied by c. For c < 0 FORM gives the same point with alpha and beta of opposite sign and the complementary Pf. Two features do depend on the unit: the automatic step size (iterates of the default FORM differ between 1 - x/10 and 10 - x), and point-fitting SORM, which in a unit large enough that all values are below 1e-6 reports all curvatures 0 and the FORM probability, whatever the function.", "quantifier": "all limit-state functions (with or without gradient, raising or not), all constants c, models, transformations, options, draws and lengths of run", "why_tests_cant": "a relation between two runs, for every function, constant and execution", "anchors": ["src/pystra/form.py:Form", "src/pystra/mc.py:CrudeMonteCarlo", "src/pystra/ss.py:SubsetSimulation", "src/pystra/ls.py:LineSampling", "src/pystra/sorm.py:Sorm", "src/pystra/model.py:LimitState"]}
{"id": "C90", "title": "Units of the variables", "statement": "Writing a model down in other units (every quantity v becomes off + fac*v, name by name; marginals, bounds, start points and constants converted, correlation unchanged) and the limit-state function for these units (with its gradient in the new numbers when it returns one) changes nothing but the numbers of physical points: any sequence of FORM, SORM, crude Monte Carlo, importance sampling, distribution analysis, subset simulation and line sampling on the model gives the same beta, alpha, Pf, curvatures, coefficients of variation, thresholds, values of the limit state, standard normal points and exceptions, design points and samples are converted, the modified correlation is the same, and the function is called with the same quantities in the same order. The distribution classes provide the converted objects from the converted mean, standard deviation and bounds (classes whose support starts at zero: for a change of scale; Beta, Weibull, TypeIIlargestValue: if the solver finds the same shape); GEVmin does not follow an offset: its mean moves with it, its u_to_x the other way.", "quantifier": "all units (offsets and nonzero factors), all building programs, models, limit-state functions, options, draws, sequences of analyses and lengths of run; all parameters of the distribution classes", "why_tests_cant": "a relation between two runs for every model, unit, function and execution", "anchors": ["src/pystra/form.py:Form", "src/pystra/sorm.py:Sorm", "src/pystra/mc.py:CrudeMonteCarlo", "src/pystra/ss.py:SubsetSimulation", "src/pystra/ls.py:LineSampling", "src/pystra/model.py:StochasticModel", "src/pystra/model.py:LimitState", "src/pystra/correlation.py:setModifiedCorrelationMatrix", "src/pystra/distributions/distribution.py:Distribution"]}
{"id": "C91", "title": "Order of the variables", "statement": "Adding the same variables and constants (distinct names) to the model in another order, with the correlation matrix in that order, does not change FORM when the limit-state function takes its arguments by name: it raises the same exception, or ends after the same number of iterations with the same G, beta and Pf at the same design point (every variable has the same value), having evaluated the function at the same points; the modified correlation of every pair is the same. The vectors of the standard normal space are turned by one orthogonal matrix: without correlation (and with the default transformation) u and alpha are the same variable by variable; with correlation the alpha reported for a variable does depend on the order (example: 0 or -1/2).", "quantifier": "all orders, models, symmetric correlation matrices (positive definite or not), both transformations, limit-state functions of the named arguments, options, numbers of iterations; finite differences or no gradient", "why_tests_cant": "a relation between two runs for every model, order, function and execution", "anchors": ["src/pystra/form.py:Form", "src/pystra/model.py:StochasticModel", "src/pystra/model.py:LimitState", "src/pystra/correlation.py:computeModifiedCorrelationMatrix", "src/pystra/transformation.py:Transformation"]}
{"id": "C92", "title": "Variables that the limit state does not use", "statement": "Adding random variables that the limit-state function does not use, and that are uncorrelated with the others, does not change FORM: it raises the same exception, or ends after the same number of iterations with the same G, beta and Pf, every common variable having the same value at the design point and the extra ones staying where they are; the modified correlations of the common variables are the same. The vectors of the standard normal space are related by an isometry; with the default transformation and the common variables in the same order, u, alpha and the gradient are the same for the common variables and exactly 0 for the extra ones. The extra variables must start at 0 in the standard normal space (normal variables do by default); they may be anywhere in the order and correlated with each other.", "quantifier": "all models, all numbers and positions of extra variables, positive definite modified correlation matrices, both transformations, limit-state functions of the named arguments, options, numbers of iterations; finite differences or no gradient", "why_tests_cant": "a relation between two runs for every model, function, embedding and execution", "anchors": ["src/pystra/form.py:Form", "src/pystra/model.py:StochasticModel", "src/pystra/model.py:LimitState", "src/pystra/correlation.py:computeModifiedCorrelationMatrix", "src/pystra/transformation.py:Transformation"]}
{"id": "C93", "title": "Variables of the composite classes have the law they are named after", "statement": "A variable of class Maximum(parent, N), sampled through u_to_x from a standard normal value, has the distribution function F^N and, for whole N, is distributed as the largest of N independent copies of the parent; a variable of class MaxParent(max, N) has F^(1/N), and the largest of N independent copies of it is distributed as the given maximum; a variable of class ZeroInflated(dist, p) is 0 with probability p and distributed as dist otherwise. Every standard class qualifies as parent (its cdf, ppf and u_to_x belong to one continuous law on the whole line), and so do Maximum and MaxParent themselves. With independent variables of any of these classes, the expected failure probability reported by Monte Carlo is the probability that g(x) < 0 under the product of those laws. The atom of a zero-inflated variable makes u_to_x constant on an interval, so that x_to_u does not undo it there.", "quantifier": "all parents, all N >= 1 (real), all zero probabilities in [0, 1), all start points, both transformations, all limit-state functions, numbers of samples, block sizes and centres", "why_tests_cant": "equality of probability laws, for every parent law and every N and p; a finite sample cannot establish it", "anchors": ["src/pystra/distributions/maximum.py:Maximum", "src/pystra/distributions/parent.py:MaxParent", "src/pystra/distributions/zeroinflated.py:ZeroInflated", "src/pystra/distributions/distribution.py:Distribution", "src/pystra/mc.py:MonteCarlo"]}
{"id": "C94", "title": "A SensitivityAnalysis object reports the right numbers, in a complete table, and leaves the model alone", "statement": "run(numerical=...) of a SensitivityAnalysis object, with either method and any options, leaves the user's model as it was except for the call counter and the stored modified correlation matrix, whether it raises or not. When it returns a result, summary(result) has exactly one row for every variable of the model and every parameter of its distribution, in the order of the model, with numbers as values; with finite differences this fails (AttributeError) exactly when a variable is called 'marginal'. For a limit state affine in independent normal variables both methods succeed: the closed form with ordinary options (default ones or given; index at most 37 in absolute value) reports the exact partial derivatives of the reliability index with respect to every mean and standard deviation; the finite differences report the same numbers for the means, whatever the step, and the difference quotients of the exact index for the standard deviations, which tend to the derivatives; the options given to the object have no effect on the finite differences.", "quantifier": "all objects, options, steps, models and histories of calls that built them, all limit-state functions; for the exact values all affine limit states, all numbers of normal variables, means, standard deviations, start points and constants", "why_tests_cant": "all models, option values, names and coefficients; exactness of derivatives is a statement about limits", "anchors": ["src/pystra/sensitivity.py:SensitivityAnalysis", "src/pystra/form.py:Form", "src/pystra/model.py:StochasticModel"]}
{"id": "C95", "title": "Which objects share data", "statement": "As long as no array is assigned to the property model.correlation, a program with any number of arrays, CorrelationMatrix objects, distribution objects and StochasticModel objects sees what it would see if every array were a value of its own: setCorrelation(C) stores a copy of what C holds at that moment, so that later changes of C (or of the array it was made from, which it shares) leave every model alone; adding variables to, setting the correlation of, running an analysis on or writing through getCorrelation() of one model changes neither the other models nor any array of the user. Every model an analysis can meet could have been built by calls on one StochasticModel. Distribution objects are shared: a setter changes the variable in every model it was added to and nothing else. After model.correlation = A for two models the array is shared: an element written through one of them, or into A, changes both models and A.", "quantifier": "all histories of actions on any numbers of objects, in any interleaving, whether or not actions raise", "why_tests_cant": "aliasing appears only for particular interleavings; all histories are covered by an ownership invariant", "anchors": ["src/pystra/model.py:StochasticModel", "src/pystra/correlation.py:CorrelationMatrix"]}
{"id": "C96", "title": "On which side of the exact failure probability FORM's result lies", "statement": "If the limit state is a convex (concave) function of the standard normal variables, the exact failure probability is at most (at least) Phi(-(beta + G/|grad|)) with the beta, G and gradient FORM reports, whether or not it converged; hence at most the reported Pf if the reported G is >= 0 (at least it if G <= 0). For an affine limit state of normal and lognormal variables with any admissible correlation, forward-difference gradients and either step rule, FORM always finishes, and the signs of the coefficients of the lognormal variables decide the direction: all >= 0 gives the upper bound, all <= 0 the lower bound. For convex or concave limit states of normal variables with exact (ddm) gradients the same bounds hold.", "quantifier": "all models of the described kind, all options (step rule, tolerances, iteration limit) and all starting points", "why_tests_cant": "the bound compares FORM's output with an exact probability (an integral) for infinitely many models, including runs that stop before convergence", "anchors": ["src/pystra/form.py:Form", "src/pystra/transformation.py:Transformation", "src/pystra/distributions/lognormal.py:Lognormal", "src/pystra/distributions/normal.py:Normal"]}
{"id": "C97", "title": "The estimates of the simulation methods converge", "statement": "For almost every stream of independent standard normal draws: the Pf reported by CrudeMonteCarlo and ImportanceSampling comes arbitrarily close to the probability of failure, and beta to the index belonging to it, when the number of samples is large and the target coefficient of variation small, for every centre, sampling standard deviation > 0 and block size; sqrt(N) times the reported coefficient of variation converges to the coefficient of variation of one summand (standard deviation > 1/sqrt 2); a run with a positive target stops after a number of samples that does not depend on the number requested, unless the summands have no spread, in which case (failure probability 0, or 1 for crude Monte Carlo) it never stops early. Crude Monte Carlo misses the failure probability by eps or more with probability at most 2 exp(-2 N eps^2); line sampling obeys the same bound up to the error on single lines, if every line crosses the limit state once, and with exact line probabilities its variance is at most that of crude Monte Carlo. The fraction of the values stored by DistributionAnalysis that lie in a set converges to the probability of the set.", "quantifier": "almost all streams of draws, all limit states with measurable failure sets, all options, centres and numbers of samples", "why_tests_cant": "a limit over the number of samples, and a probability over all random streams, cannot be observed in finitely many runs", "anchors": ["src/pystra/mc.py:CrudeMonteCarlo", "src/pystra/mc.py:ImportanceSampling", "src/pystra/mc.py:DistributionAnalysis", "src/pystra/ls.py:LineSampling"]}
{"id": "C98", "title": "SORM of a paraboloid: order of the approximations, and asymptotic exactness", "statement": "For a limit state that is a paraboloid of the standard normal variables (any rotation, any marginals and dependence, exact gradients) with FORM at its apex: the modified Breitung probability reported by curve-fitted SORM, whenever it is defined, is never smaller than the true probability of failure; if all curvatures are >= 0 and beta > 0, true <= modified Breitung <= Breitung <= FORM; if all are <= 0, FORM <= true <= modified Breitung and FORM <= Breitung <= modified Breitung. For curvatures k_i/beta with k_i > -1, both reported probabilities are relatively exact in the limit beta -> infinity: for every eps there is a B such that for every beta >= B every such analysis reports probabilities with relative error at most eps.", "quantifier": "all dimensions, rotations, curvatures, reliability indices, marginals, dependence structures and step parameters", "why_tests_cant": "the true probability of a curved failure set is an integral that no finite computation gives exactly, and asymptotic exactness is a limit", "anchors": ["src/pystra/sorm.py:Sorm"]}
{"id": "C99", "title": "FORM's reliability index and the distance of the failure set", "statement": "Write G and grad for the limit-state value and the gradient (in standard normal space, exact gradients) at the design point u that FORM reports, and d for the least distance of a failure point from the origin (Hasofer-Lind). If the limit state is convex in standard normal space, no failure point is closer than beta + G/|grad|, converged or not; if the design point lies on the limit state surface and the run ended before the last allowed iteration, beta <= d < sqrt(beta^2 + e2^2), and d = beta exactly if the design point is parallel to alpha. If the limit state is concave, some failure point has distance |beta + G/|grad||. For every limit state, d <= |u| if the design point fails, and d < sqrt(beta^2 + e2^2) if the run also ended before the last iteration. Without convexity nothing more holds: for (3-x)(1+x)(1-x+x^2) of one standard normal variable FORM converges, exactly, to beta = 3 and Pf = Phi(-3) although the failure set has distance 1 and probability Phi(-3) + Phi(-1).", "quantifier": "all limit states with the stated shape, marginals, dependence structures, options, tolerances and numbers of iterations", "why_tests_cant": "the distance of a failure set is an infimum over all points of standard normal space", "anchors": ["src/pystra/form.py:Form"]}
{"id": "C100", "title": "Names and constants are labels", "statement": "Renaming the variables and constants of a model, one to one, with a limit-state function that takes the new argument names, changes nothing else: the same additions are accepted and refused, every sequence of analyses (FORM, SORM, crude Monte Carlo, importance sampling, distribution analysis, subset simulation, line sampling) gives the same results or exceptions, calls the function with the same arguments under the new names and leaves the same model under the new names. A constant of the model is an argument fixed at a value: leaving out its addition gives the model without it, and every sequence of analyses with the limit-state function whose argument is fixed to the value gives the same results, exceptions and calls (without that argument).", "quantifier": "all one-to-one renamings, all models, limit-state functions, options, random streams and sequences of analyses; for constants all histories of the model and all values", "why_tests_cant": "there are infinitely many renamings, models and sequences of analyses; a test tries a few names", "anchors": ["src/pystra/model.py:StochasticModel", "src/pystra/model.py:LimitState", "src/pystra/analysis.py:AnalysisObject"]}
{"id": "C101", "title": "Systems and common random numbers", "statement": "Crude Monte Carlo and importance sampling with the same draws and a fixed number of samples (target coefficient of variation 0): if everything that fails for one limit state fails for another, the estimate for the first is at most that for the second and its reliability index at least; the estimates for min(f,g) and max(f,g) add up to those for f and g; a series system of any number of components gets an estimate between the largest and the sum of those of its components; in crude Monte Carlo a parallel system gets at most the smallest, and its complement at most the sum of the complements. With a positive target this can fail: the simulations may stop at different samples, and the limit state that fails more often may get the smaller estimate.", "quantifier": "all limit states and systems of any number of components, all draws, block sizes, sample sizes, centres and sampling standard deviations", "why_tests_cant": "an inequality between runs for every stream of draws; a test runs a few seeds", "anchors": ["src/pystra/mc.py:CrudeMonteCarlo", "src/pystra/mc.py:ImportanceSampling", "src/pystra/mc.py:MonteCarlo"]}
{"id": "C102", "title": "A linear problem, end to end: all methods agree", "statement": "A user who creates a model, adds any number of normal variables with distinct names, writes the limit state a0 + sum a_i X_i (not constant) and runs any analyses on it, in any order and with any draws — FORM with full steps or with the default step rule, SORM with the curve fit or the point fit, line sampling, crude Monte Carlo about any point, importance sampling — gets from every one of them an answer that agrees with the exact probability P(a0 + sum a_i X_i < 0): FORM and SORM report it exactly together with the exact index (mean over standard deviation) and zero curvatures, line sampling reports it to the tolerance of its root finder with zero coefficient of variation whatever the draws, and the expectation of what a simulation reports is the exact probability.", "quantifier": "all numbers of variables, means, standard deviations, starting points, coefficients, draws, sample sizes, block sizes, and all sequences of analyses", "why_tests_cant": "agreement of several algorithms for every linear problem, every stream of draws and every order of the analyses; a test compares a few runs to a tolerance", "anchors": ["src/pystra/model.py:StochasticModel", "src/pystra/form.py:Form", "src/pystra/sorm.py:Sorm", "src/pystra/ls.py:LineSampling", "src/pystra/mc.py:CrudeMonteCarlo", "src/pystra/mc.py:ImportanceSampling"]}
{"id": "C103", "title": "Convergence of FORM", "statement": "FORM, with the default step rule or any fixed step size s in (0, 1], converges linearly to the design point: for a limit state with exact gradients whose gradient in standard normal space is differentiable at a design point u* (g = 0, u* = -beta grad g/|grad g|) with all principal curvatures bounded by kappa and |beta| kappa < 1, every run started close enough to u* ends, its reported design point and reliability index are within C theta^(i-1) times the initial distance after i passes (theta = 1 - s (1 - rho) with rho < 1, and s = 1/32, the shortest step of the default rule), a run that stops before i_max has errors of at most C (e1 |g(start)| + e2), and the number of passes is bounded by the logarithm of the tolerances. When the limit state is a paraboloid beta - u_n + 1/2 sum kappa_i u_i^2 in some orthonormal axes, with curvatures of comparable size (ratio below 2) and |beta| kappa < 1, this holds from every starting point. The condition is sharp: for a paraboloid with beta kappa_i > 1 for some i there is a starting point from which FORM, with full steps and with the default step rule alike, jumps between two points until the iteration limit and then reports, without error, an index below 1/kappa_i < beta and a point where g is far from 0.", "quantifier": "all numbers of variables, marginals and correlations, limit states with the stated derivatives, starting points, tolerances and iteration limits", "why_tests_cant": "convergence rate and divergence for whole classes of limit states and every starting point; a test sees a few runs", "anchors": ["src/pystra/form.py:Form", "src/pystra/form.py:computeStepSize", "src/pystra/form.py:computeBeta", "src/pystra/form.py:computeAlpha", "src/pystra/transformation.py:Transformation"]}
{"id": "C104", "title": "FORM does not depend on how a requirement is written", "statement": "A requirement on normal variables and logarithms of lognormal variables, M = a0 + sum a_i Y_i >= 0, may be written as limit state phi(M) with any convex or concave phi with positive derivative and phi(0) = 0; in particular a safety factor F = c prod X_i^a_i of lognormal variables may be written as F - 1, 1 - 1/F or ln F. With exact gradients, and the default step rule or any fixed step size in (0, 1], FORM converges from every starting point, and always to the same result: the index is the mean of M over its standard deviation (with the modified correlations), the design point is the point of M = 0 nearest to the origin (given in closed form in physical space), and the exact probability of failure is Phi(-beta); the reported Pf misses it by at most the error of the reported index over sqrt(2 pi). When M itself is the limit state FORM is exact, after two passes with full steps and at most 37 with the default step rule.", "quantifier": "all numbers of variables, means, standard deviations, positive definite correlations, coefficients, functions phi, starting points, tolerances and iteration limits", "why_tests_cant": "global convergence for a whole class of formulations, from every starting point; a test compares a few formulations from one starting point", "anchors": ["src/pystra/form.py:Form", "src/pystra/form.py:computeSearchDirection", "src/pystra/distributions/lognormal.py:Lognormal", "src/pystra/distributions/normal.py:Normal", "src/pystra/transformation.py:Transformation"]}
{"id": "C105", "title": "FORM with inaccurate gradients", "statement": "FORM tolerates inaccurate gradients: near a design point with curvatures below 1/|beta|, if the limit state returns exact values and gradients with an error of at most eps, every run started close enough ends, and the reported design point and index are within C (theta^(i-1) D + eps) of the true ones after i passes (D the initial distance, theta < 1), and within C (e1 |g(start)| + e2 + eps) when the run stopped before i_max; the constants do not depend on eps. In the default mode of the code, forward differences with steps stdv/ffdpara, this holds for every vectorised limit-state function with a Lipschitz gradient (constant L) near the design point, with eps = L sum(stdv)/(2 ffdpara), for ffdpara large enough, with the default step rule or any fixed step size in (0, 1].", "quantifier": "all numbers of variables, marginals with continuously differentiable transformations, correlations, limit states with the stated derivatives, gradient errors, ffdpara, block sizes, starting points near the design point, tolerances and iteration limits", "why_tests_cant": "a bound on the effect of every possible gradient error, for whole classes of limit states; a test compares a few runs", "anchors": ["src/pystra/form.py:Form", "src/pystra/form.py:computeStepSize", "src/pystra/form.py:computeBeta", "src/pystra/model.py:LimitState", "src/pystra/transformation.py:Transformation"]}
{"id": "C106", "title": "Importance sampling with a narrow sampling density", "statement": "If the failure region has infinite volume in standard normal space (it contains a half-space, for instance) and the sampling standard deviation is below 1/sqrt(2), or equal to it in a simulation around the origin, the Pf reported by a simulation of any fixed length has the right expectation but an infinite mean square; for almost every stream of draws sqrt(N) times the reported coefficient of variation grows without bound; and a run with a positive target nevertheless stops after a number of samples that does not depend on the number requested and reports a coefficient of variation within the target. So below 1/sqrt(2) the reported coefficient of variation does not measure the accuracy of Pf (above it C75 and C97 hold).", "quantifier": "all numbers of variables, marginals, transformations, limit-state functions with a measurable failure region of infinite volume, centres, sampling standard deviations, numbers of samples, block sizes, targets, positions in the stream; almost all streams", "why_tests_cant": "infinite variance and almost-sure limits are statements about the law of all streams; every finite sample has a finite variance", "anchors": ["src/pystra/mc.py:ImportanceSampling", "src/pystra/mc.py:computeCoefficientOfVariation", "src/pystra/mc.py:computeRandomNumbers", "src/pystra/analysis.py:AnalysisOptions"]}
{"id": "C107", "title": "Analysing the safe set (sign of the limit state reversed)", "statement": "Crude Monte Carlo on the same stream with a fixed number of samples reports probabilities for g and for -g that add up to 1 less the fraction of samples with g = 0 (to the mean weight of the samples with g different from 0 in importance sampling), and opposite indices. Curve-fitting SORM on a negative multiple of g, given the FORM result of that function, leaves the same state, raises the same exceptions and reports the opposite index and the opposite curvatures; but if the index of g is positive, Breitung's formula never gives a probability for the safe set (the value is an invalid zero, infinite or undefined, and printing the invalid zero raises TypeError), and for paraboloids the two probabilities by the modified formula, where defined, are each at least the probability of their own set, hence add up to at least 1.", "quantifier": "all numbers of variables, marginals, transformations, limit-state functions, negative factors, streams, sample sizes, block sizes, design points; paraboloids of any curvatures for the last clause", "why_tests_cant": "an identity over every stream and every function; the bound over every paraboloid", "anchors": ["src/pystra/mc.py:CrudeMonteCarlo", "src/pystra/mc.py:computeFailureProbability", "src/pystra/sorm.py:run_curvefit", "src/pystra/sorm.py:pf_breitung", "src/pystra/sorm.py:orthonormal_matrix"]}
{"id": "C108", "title": "Curve-fitted SORM of limit states that are not quadratic", "statement": "With exact gradients, the Hessian that SORM takes by differences of gradients differs in every entry by at most L h/2 from the matrix of second derivatives at the design point (h = 1/ffdpara, L a Lipschitz constant of the second derivatives), and every reported (real) curvature by at most n L h/(2 |grad|) from a principal curvature of the limit state surface. If the limit state is merely twice differentiable at the design point and the principal curvatures are distinct, then, as ffdpara grows, the reported curvatures converge to them one by one, and the probabilities by Breitung's and the modified formula to those of the true curvatures. If they are not distinct this can fail: there are smooth limit states (with a converged FORM) for which, for every ffdpara, none of the eigenvalues SORM asks for is real.", "quantifier": "all numbers of variables, marginals, dependence structures, limit states with the stated smoothness, design points, values of ffdpara", "why_tests_cant": "error bounds and limits over all smooth functions and all step sizes", "anchors": ["src/pystra/sorm.py:computeHessian", "src/pystra/sorm.py:run_curvefit", "src/pystra/sorm.py:evaluateLSF", "src/pystra/sorm.py:pf_breitung"]}
{"id": "C109", "title": "Closed-form sensitivities and the distance of the surface", "statement": "Define the reliability index of a model without reference to the algorithm: the distance from the origin of the limit-state surface in standard normal space, negative if the origin is in the failure domain. If at the present parameters exactly one point of the surface is nearest (and is not the origin, and the gradient there is not zero), then the index FORM reports at that point is this index, the index is differentiable with respect to every mean, standard deviation and correlation, and the closed-form sensitivity analysis at that point returns those derivatives (Cholesky transformation). Nothing need be assumed about how the design point moves with the parameters; it may move non-differentiably.", "quantifier": "all numbers of variables, distributions on open supports with correct parameter derivatives, correlations, continuous limit-state functions with one nearest point", "why_tests_cant": "derivatives of a minimum over a surface, for all limit states", "anchors": ["src/pystra/sensitivity.py:SensitivityAnalysis", "src/pystra/form.py:computeAlpha", "src/pystra/cholesky_sensitivity.py:cholesky_with_derivative"]}
{"id": "C110", "title": "Convergence of the alpha calibration", "statement": "Calibrate the design parameter z of the limit state z·(weighted sum of resistances) − (weighted sum of loads), all variables independent normals, with the alpha method and the library's FORM, the design parameter's own constant being 1. If the target index β is below the index (mean/standard deviation) of the resistance alone, there is exactly one design parameter zs ≥ 0 with that index; the method ends without an exception; the index it reports is the index at the design parameter it returns; after n ≥ 1 rounds the design parameter is not above zs and is off by at most (β·deviation/mean)^(n−1)·zs; and it stops at the target as soon as this bound is below the tolerance. Calibrating all cases then returns one design parameter per case, each meeting the target. If the target is not reachable, the method uses up its rounds and returns a value off the target without reporting it; if the design parameter's constant is above 1, every computed value stays below zs divided by that constant.", "quantifier": "all numbers of variables, weights, means, standard deviations, targets, start values, tolerances and numbers of rounds", "why_tests_cant": "convergence of an iteration from every start and for all parameters", "anchors": ["src/pystra/calibration.py:_calibration_alpha", "src/pystra/calibration.py:calc_design_param_Xst", "src/pystra/calibration.py:_calibrate_design_param", "src/pystra/loadcomb.py:run_reliability_case"]}
{"id": "C111", "title": "Numerical and closed-form sensitivities agree", "statement": "If at the present parameters exactly one point of the limit-state surface is nearest, then for every η > 0 there is a δ0 such that for every delta below δ0 the number run(numerical=True, delta) reports for a parameter of a variable is within η + 2ε/(|delta|·stdv) of the number run(numerical=False) reports at that point, where ε is the accuracy of the two FORM analyses: with exact analyses the finite differences converge to the closed form as delta → 0, with inexact ones the error bound grows like ε/delta.", "quantifier": "all numbers of variables, distributions with correct parameter derivatives, correlations, continuous limit states with one nearest point, all FORM implementations of accuracy ε", "why_tests_cant": "a limit, for all limit states and distributions", "anchors": ["src/pystra/sensitivity.py:_numerical_sens", "src/pystra/sensitivity.py:_cf_sens", "src/pystra/distributions/distribution.py:_make_copy"]}
{"id": "C112", "title": "Accuracy of a converged FORM index", "statement": "If FORM ends before the last allowed iteration with index β ≥ 0, the limit state is a convex function of the standard normal variables, its gradient there has Lipschitz constant L, and 2·L·e1·|G0| is at most the squared length of the last gradient, then with δ = e1·|G0|/‖∇‖ the distance d of the failure set from the origin exists, β − d ≤ δ, |β − d| ≤ 2δ + e2, and the reported failure probability differs from Φ(−d) by at most (2δ + e2)/√(2π) — whether or not the reported design point itself fails. The upper bound on d holds without convexity.", "quantifier": "all numbers of variables, marginals, correlations, limit states, start points, tolerances, step rules and iteration counts", "why_tests_cant": "a bound for all limit states and tolerances; the true distance is not computable by a test", "anchors": ["src/pystra/form.py:run", "src/pystra/form.py:computeBeta", "src/pystra/analysis.py:setE1", "src/pystra/analysis.py:setE2"]}
{"id": "C113", "title": "Life of a Calibration object", "statement": "After any history of run(est_method, set_max), failed runs, queries (get_design_param_factor, calc_beta_design_param, calc_lsf_eval_df, print_detailed_output) and assignments to beta_t, calib_method and est_method, a Calibration object has the settings of the last assignments, the design points (dfXstarcal) of the last run that could calibrate every load case, and the factors of the last run that returned with a known estimation method; every answer is the one those determine, and AttributeError before the first such run. A completed run leaves the same object as a run of a new object with the same settings. A run that raises never changes the factors, and changes the design points only if the exception came after they were found. A run with an unknown estimation method returns without an error and leaves the design points of one run beside the factors of another. calc_lsf_eval_df(df) has the rows and columns of df and in each entry the (absolute) limit-state value of that entry alone, with z = 1, the other variables 0 and the other constants at their values.", "quantifier": "all load combinations, limit states, FORM results, settings and all sequences of calls with exceptions at any of them", "why_tests_cant": "all histories and crash points", "anchors": ["src/pystra/calibration.py:run", "src/pystra/calibration.py:_run_calibration", "src/pystra/calibration.py:get_design_param_factor", "src/pystra/calibration.py:print_detailed_output", "src/pystra/calibration.py:calc_lsf_eval_df"]}
{"id": "C114", "title": "Large samples have the reported moments and distribution function", "statement": "Numbers drawn with sample(n) from an object of any distribution class with proper arguments (also one that has been moved and rescaled since, at any position of the generator and with other objects in use) have, for almost every stream of independent uniform numbers, a mean that converges to the mean the object reports, a standard deviation that converges to the stdv it reports and an empirical distribution function that converges to its cdf uniformly over the support, as n grows.", "quantifier": "all distribution classes, arguments, positions of the stream, worlds of objects; almost all random streams; n to infinity", "why_tests_cant": "a limit over all sample sizes and almost all random streams", "anchors": ["src/pystra/distributions/distribution.py:sample", "src/pystra/distributions/normal.py:sample"]}
{"id": "C115", "title": "Confidence intervals from the reported coefficient of variation", "statement": "For crude Monte Carlo and importance-sampling runs of fixed length N, the interval Pf +/- z*cov*Pf made of the reported failure probability and the reported coefficient of variation contains the exact failure probability with a probability (over independent standard normal streams) that converges to Phi(z)-Phi(-z) as N grows, and the one-sided bound Pf - z*cov*Pf lies below it with a probability that converges to Phi(z).", "quantifier": "all limit states whose failure has positive probability, marginals and transformations, centres, sampling standard deviations above 1/sqrt(2) with non-constant summands (crude: 0 < p < 1), block sizes, stream positions, all z; N to infinity", "why_tests_cant": "a limit law over all random streams and all sample sizes", "anchors": ["src/pystra/mc.py:computeCoefficientOfVariation", "src/pystra/mc.py:computeFailureProbability"]}
{"id": "C116", "title": "Runs that stop at a target coefficient of variation", "statement": "A crude Monte Carlo or importance-sampling run with a target delta for the coefficient of variation reaches the accuracy asked for although it decides itself when to stop: as delta goes to 0 and the allowed number of samples N satisfies N*delta^2 -> infinity, the number of samples used times delta^2 converges in probability to V/p^2 (p the exact failure probability, V the variance of one summand; crude: (1-p)/p), the reported failure probability is within z*delta*p of p with a probability that converges to Phi(z)-Phi(-z), and the interval Pf +/- z*cov*Pf made of the reported values covers p with the same limiting probability.", "quantifier": "all limit states whose failure has positive probability, marginals and transformations, centres, sampling standard deviations above 1/sqrt(2) with non-constant summands (crude: 0 < p < 1), block sizes, stream positions, all sequences of targets going to 0 and sample limits with N*delta^2 to infinity, all z >= 0", "why_tests_cant": "a limit law over all random streams for a data-dependent stopping time", "anchors": ["src/pystra/mc.py:computeCoefficientOfVariation", "src/pystra/mc.py:computeFailureProbability", "src/pystra/mc.py:run"]}
{"id": "C117", "title": "Generic calibration with the FORM analysis it runs", "statement": "The reliability indices that GenericCalibration computes over its grid of load ratios mean what they say: with positive partial factors and nominal values, load ratios in [0,1] and a positive resistance law, every entry of get_reliabilities is an index (nothing raises, no vanishing gradient, one row per dead load ratio and one column per live load ratio); each entry belongs to the design z computed from the factors and is the index -grad.v/|grad| of the tangent plane of the safety margin at a point v of the space of six independent standard normal variables, with the exact gradient although the code differentiates numerically, within the tolerances e1 and e2 unless the iteration limit was hit. Writing the resistance (law and nominal value) in another unit changes no entry and no exception; multiplying all partial factors, phi included, by one number changes nothing; the column aq = 1 does not depend on the dead load ratio. The analysis of a cell goes by the names of the six distribution objects: if they are not distinct from each other and from z, aq, ag the cell raises the duplicate-name exception; if they are distinct but not the six argument names wR, R, wS, G, P, Q in some order it raises TypeError; if they are those names, in whatever assignment to the attributes, the cell is FORM on exactly those six variables and the constants z, aq, ag.", "quantifier": "all laws of the library for the six variables, all partial factors, nominal values, load ratios, FORM options, transformation types, units, and (for the invariances) all models whether or not the analysis succeeds", "why_tests_cant": "ranges over all laws, factors and options of an iterative analysis inside a grid", "anchors": ["src/pystra/calibration.py:get_reliabilities", "src/pystra/calibration.py:analyse_design", "src/pystra/calibration.py:lsf", "src/pystra/calibration.py:design", "src/pystra/form.py:run"]}
{"id": "C118", "title": "Products of lognormal variables", "statement": "For a limit state that compares two products of powers of lognormal variables, g = cR prod x_i^a_i - cS prod x_i^b_i (resistance factors against load factors), with any positive definite correlation of the logarithms: (1) the probability of failure of the model is exactly Phi(-index), index = mean/standard deviation of ln(resistance) - ln(load); (2) a FORM run that ended before the iteration limit reports that index within e2 + 2 rho (1 + |beta| dS)/dM, where rho is e1*|G(start)| relative to the resistance at the reported point and dS, dM are the standard deviations of the logarithms of the load product and of the quotient, and reports the probability within that over sqrt(2 pi); (3) from every starting point close enough to the design point the run converges to the exact index, whatever the index; from every starting point at all if one of the products is a constant; (4) for plain products (exponents 0 or 1) the same bound holds with the finite differences of the code, whatever ffdpara.", "quantifier": "all numbers of variables, means, standard deviations, correlations, exponents, constants, factorisations, tolerances, step options and starting points", "why_tests_cant": "ranges over all models of the class, all options and starting points of an iterative algorithm, and compares with an exact probability", "anchors": ["src/pystra/form.py:run", "src/pystra/distributions/lognormal.py:u_to_x", "src/pystra/distributions/lognormal.py:_update_params", "src/pystra/transformation.py:u_to_x", "src/pystra/model.py:evaluate_ffd"]}
{"id": "C119", "title": "The correlation the physical variables really have", "statement": "The correlation coefficient (covariance over the product of standard deviations) of X_i and X_j, X = u_to_x(U) for independent standard normal U, depends only on the two distributions and on the (i,j) entry of the matrix the transformation is built from, and it is a strictly increasing function of that entry: so at most one entry gives a requested coefficient, the coefficient is zero exactly when the entry is, and has its sign. Likewise the probability that both variables exceed given values, and that neither does, strictly increases with the entry. The coefficient always lies strictly between the coefficients of the two extreme dependences of the two distributions, and every number strictly between is reached by exactly one entry in (-1,1). For two normal variables it is the entry itself; for two lognormal variables (exp(Ro z z') - 1)/(d d'), z the standard deviation of the logarithm and d the coefficient of variation; for a normal and a lognormal variable Ro z/d. Hence a requested coefficient outside the range is never realised, whatever matrix the code arrives at (two lognormals with coefficient of variation 1 never have a coefficient of -1/2 or less); the code gives no warning.", "quantifier": "all pairs of distributions of all standard classes, all models that contain them (any number of variables), all positive definite matrices with unit diagonal, both transformations", "why_tests_cant": "strict monotonicity and reachability over a continuum of correlations, distributions and models; expectations compared exactly", "anchors": ["src/pystra/correlation.py:computeModifiedCorrelationMatrix", "src/pystra/integration.py:rho_integral", "src/pystra/transformation.py:u_to_x", "src/pystra/distributions/lognormal.py:u_to_x", "src/pystra/distributions/normal.py:u_to_x"]}
{"id": "C120", "title": "Series and parallel systems as the correlations grow", "statement": "Take two models with the same distributions for m variables (among possibly others), the second with larger or equal entries, between these variables, of the matrix the transformation is built from. A parallel system, which fails when all m variables exceed their limits (limits inside the supports), fails at least as often in the second; a series system, which fails when at least one does, at most as often; strictly as soon as one of the entries is strictly larger; the same for lower limits. So with nonnegative entries the series system fails with probability at most 1 - prod(1 - p_l) and the parallel system with probability at least prod(p_l), p_l the probabilities of the single exceedances; with nonpositive entries the other way round. Monte Carlo shows it: for almost every stream of draws, from some number of samples on, Pf of the series system is smaller and Pf of the parallel system larger in the second model. For m affine limit states of correlated normal variables (any number, gradients possibly dependent) the FORM runs of the components give the same bounds from their reported Pf: the products of the reported vectors alpha are the correlation coefficients of the limit states, and when none is negative the series system fails with probability at most 1 - prod(1 - Pf_l) and the parallel system at least prod(Pf_l); when none is positive the other way round.", "quantifier": "all models and choices of m variables of the standard classes, all limits, all pairs of positive definite matrices with unit diagonal ordered on the chosen variables, both transformations; all systems of affine limit states of correlated normal variables", "why_tests_cant": "inequalities between probabilities of orthants in any dimension, over a continuum of matrices and limits; sampling noise hides them", "anchors": ["src/pystra/transformation.py:u_to_x", "src/pystra/correlation.py:computeModifiedCorrelationMatrix", "src/pystra/mc.py:CrudeMonteCarlo", "src/pystra/form.py:getAlpha", "src/pystra/form.py:getBeta"]}
{"id": "C121", "title": "Stronger resistances, smaller loads: which changes of the variables make the answers safer", "statement": "u_to_x of one variable is nowhere below u_to_x of another exactly when its law exceeds every value with at least the probability with which the other's law does. Take a limit state that does not fall when the resistances grow and the loads fall (on the supports), and replace resistances by larger and loads by smaller variables in this sense, the transformation being the same: every point of standard space that fails in the new model fails in the old one, so the exact probability of failure does not grow, the distance of the failure domain from the origin does not fall, and, with the same draws and a fixed number of samples, crude Monte Carlo and importance sampling estimate a probability that is not larger and an index that is not smaller. FORM on an affine limit state of correlated normal variables: adding delta to the means adds sum(a_i delta_i) over the standard deviation of the margin to beta and leaves alpha unchanged. The changes that qualify: adding a constant to mean and bounds, at fixed standard deviation, for every class with a location; multiplying mean, standard deviation and bounds by a factor of at least 1 for positive variables. Raising the mean alone is not enough: for two Lognormal variables with the same standard deviation there is a level, above both medians, beyond which exactly the one with the larger mean is exceeded less often; and for GEVmin, raising the mean lowers u_to_x everywhere, so that the improved resistance is reported as the less safe.", "quantifier": "all laws, limit states, numbers of variables, transformations, streams of draws, sampling options with a fixed number of samples; all arguments of the classes; all linear limit states of normal variables", "why_tests_cant": "a comparison at every point of the standard space and for every stream of draws; two runs of a simulation with different draws prove nothing", "anchors": ["src/pystra/transformation.py:u_to_x", "src/pystra/mc.py:CrudeMonteCarlo", "src/pystra/form.py:getBeta", "src/pystra/distributions/lognormal.py:Lognormal", "src/pystra/distributions/gev.py:GEVmin", "src/pystra/distributions/gumbel.py:Gumbel"]}
{"id": "C122", "title": "When importance sampling at the design point pays, and when it does harm", "statement": "Sampling standard deviation 1, centre c. If every failing point u of standard space satisfies c.u >= |c|^2 (the failure domain lies beyond the plane through the centre), then every run of importance sampling, whatever the draws and wherever it stops, reports a Pf between 0 and exp(-|c|^2/2), and with a fixed number of samples its variance is at most exp(-|c|^2/2) times the variance p(1-p)/N of crude Monte Carlo. FORM ended on a limit state convex in standard space, at a point that does not fail: importance sampling centred at that point, converged exactly or not, has a variance of at most (exp(|u*|^2) Phi(-2 beta) - p^2)/N, below exp(e2^2 - beta^2)/(2N) when FORM stopped before its last allowed iteration with beta >= 0; if the point is parallel to its gradient the condition above holds and the factor is exp(-beta^2/2). An affine limit state: the variance is exactly (exp(beta^2) Phi(-2 beta) - Phi(-beta)^2)/N. For an affine limit state with beta > 0 the best centre of all lies on the axis of the design point, strictly beyond it and less than 1/(2 beta) away, and the design point itself is nearly best: the second moment of a weight there is within a factor exp(1/(4 beta^2)) of the least. Without convexity it can do harm: on the limit state (3-x)(1+x)(1-x+x^2) of a standard normal variable FORM stops at its far design point, and importance sampling there has more than 16000 times the variance of crude Monte Carlo with as many samples, for every number of samples and all tolerances.", "quantifier": "all limit states, models, numbers of variables and samples, block sizes, centres and streams of draws; all FORM runs on convex limit states", "why_tests_cant": "a comparison of the variances of two estimators over all streams of draws; a test compares two numbers of one seed", "anchors": ["src/pystra/mc.py:ImportanceSampling", "src/pystra/mc.py:CrudeMonteCarlo", "src/pystra/form.py:getDesignPoint"]}
{"id": "C123", "title": "The sampling standard deviation and the number of variables", "statement": "Crude Monte Carlo and importance sampling with a fixed number N of samples, any centre c and any sampling standard deviation s above 1/sqrt(2): the variance of the reported Pf is exactly ((s^2/sqrt(2s^2-1))^n exp(|c|^2/(2s^2-1)) q - p^2)/N, with n the number of random variables, p the probability of failure and q the probability that the point s/sqrt(2s^2-1) u - c/(2s^2-1) fails. The factor s^2/sqrt(2s^2-1) is 1 for s = 1 and larger than 1 otherwise. So with s other than 1 every random variable costs, even one the limit state does not use: adding k such variables (centre 0 there) leaves the mean of the estimate unchanged and multiplies the second moment of a weight by that factor to the power k; and for affine limit states of a given reliability index (variance given explicitly for centres on the axis of the design point) the variance exceeds any bound M/N as soon as there are enough variables, while for s = 1 their number plays no role.", "quantifier": "all limit states with a measurable failure domain, models, numbers of variables and samples, block sizes, centres, sampling standard deviations above 1/sqrt(2), positions of the unused variables", "why_tests_cant": "exact variances over all streams of draws, as a function of the number of variables", "anchors": ["src/pystra/mc.py:CrudeMonteCarlo", "src/pystra/mc.py:ImportanceSampling", "src/pystra/analysis.py:AnalysisOptions"]}
{"id": "C124", "title": "Finite numbers of samples: exact law, runs that see no failure, exponential error bounds", "statement": "Crude Monte Carlo with a fixed number N of samples reports Pf = k/N with probability exactly C(N,k) p^k (1-p)^(N-k). A run of crude Monte Carlo or importance sampling with any centre, sampling standard deviation and target coefficient of variation below 1 reports Pf = 0 - and then beta = 0, the index of a structure that fails every second time - with probability exactly (1-q)^N, where q is the probability that one sample fails (q = p for crude Monte Carlo); this lies between 1 - N q and exp(-N q). With a fixed number of samples, importance sampling with standard deviation 1 whose failure domain lies beyond the plane through the centre c (C122) misses p by eps or more with probability at most 2 exp(-2 N eps^2 exp(|c|^2)); for crude Monte Carlo the bound is that of C97.", "quantifier": "all limit states with a measurable failure domain, models, numbers of samples, block sizes, centres, targets, eps; all k", "why_tests_cant": "exact probabilities over all streams of draws for every N; a test sees one stream", "anchors": ["src/pystra/mc.py:CrudeMonteCarlo", "src/pystra/mc.py:ImportanceSampling", "src/pystra/mc.py:computeFailureProbability", "src/pystra/mc.py:computeBeta"]}
{"id": "C125", "title": "Subset simulation against crude Monte Carlo: one level, exact law, what the numbers can be", "statement": "When at least p0(N-1)+1 of the N draws of the first level fail (g <= 0), subset simulation ends after that level and reports the fraction that fails, whatever the uniform draws; a run that ends after one level always reports that fraction, and more than p0(N-1) draws have failed. So one-level runs report k/N, for k >= p0(N-1)+1, with the binomial probability; a probability of failure p above (p0(N-1)+1)/N + eps is met within eps after one level with probability at least 1 - 2 exp(-2 N eps^2); and when p + eps <= p0(N-1)/N a one-level run has a probability of at most 2 exp(-2 N eps^2). From the same draws, taken in one block, a one-level run and crude Monte Carlo differ exactly by the draws with g = 0, which only subset simulation counts as failures; without such draws they report the same probability and, below 1, the same index. In every terminating run with L levels, Pf is a whole number of N^L-ths and above (p0(N-1)/N)^L; cov is at most that of crude Monte Carlo with the same Pf and N, equal to it for L = 1, and at least sqrt(log(1/Pf)/N), and cov^2 <= L (N/(p0(N-1)) - 1)/N.", "quantifier": "all limit states (measurable failure domain for the laws), models, settings p0, N, block sizes, proposal widths, streams of draws, eps, k; every terminating run", "why_tests_cant": "statements over all streams of draws and exact probabilities; a test sees one stream", "anchors": ["src/pystra/ss.py:SubsetSimulation", "src/pystra/ss.py:_finalise", "src/pystra/ss.py:_eval_g_batch", "src/pystra/mc.py:CrudeMonteCarlo"]}
{"id": "C126", "title": "Failure modes that subset simulation does not see", "statement": "The chains of subset simulation do not jump: a state differs from its predecessor by at most the width of the proposal in each component, so the k-th state of a chain is within k+1 widths of its seed. Hence a failure mode B that no draw of the first level has hit, and that within {g <= Y} differs from every point outside B by more than the width in some component, is never found when at least p0(N-1)+1 of the draws have g <= Y: the run is that for any limit state that equals g outside B and exceeds Y on B - the same samples, thresholds, conditional probabilities, number of levels, Pf, beta and cov, or still running in both cases. When {g <= Y} has a probability of at least (p0(N-1)+1)/N + eps, this happens with probability at least (1 - P(B))^N - 2 exp(-2 N eps^2). (Two modes of equal probability Phi(-3), 100 samples per level: with probability at least 0.8 half of the failure probability is ignored.)", "quantifier": "all limit states, modes B, levels Y, models, settings, uniform draws in [0,1], normal draws (or their law), numbers of levels, eps", "why_tests_cant": "equality of whole runs over all streams of draws, and its probability", "anchors": ["src/pystra/ss.py:SubsetSimulation", "src/pystra/ss.py:_mmh_step"]}
{"id": "C127", "title": "What line sampling misses", "statement": "Line sampling reports one distance per line. When every line carries a near failure mode beginning at C(v) (short of the end of the scan) with a safe stretch of at least one scan interval before it, and possibly a second mode on the far side, Pf is, for every stream of draws, the mean of Phi(-C) over the lines up to the cut-off and the tolerance of the root finder, and the expected value of that mean is the probability of failure minus the probability of the far mode. For a limit state with two parallel failure modes b + w.u and b' - w.u and the direction of the first, every run gives the same distance on all lines, coefficient of variation zero, and misses exactly Phi(-b'/|w|) up to the tolerance. A failure mode a < alpha.u < b between two neighbouring points of the 40-point scan is not seen: every run reports Phi(-m) with coefficient of variation zero where the probability is Phi(b) - Phi(a). In general two limit states that agree outside such a strip and are safe on its edges give identical results in every run.", "quantifier": "all limit states of the stated shape, directions, FORM indices, models, streams of draws (or their law), numbers of lines", "why_tests_cant": "all streams of draws and all limit states; an expectation over streams; equality of whole runs", "anchors": ["src/pystra/ls.py:LineSampling", "src/pystra/ls.py:_find_line_intersection"]}
{"id": "C128", "title": "Cost of line sampling", "statement": "After its FORM analysis a run of line sampling over N lines evaluates the limit state at least 40 N and at most 92 N times, one point per call, whatever the limit state does (including raising) and whatever the draws; it evaluates it exactly 40 N times when no line shows a sign change in the scan.", "quantifier": "all limit states (also raising ones), models, directions, streams of draws, numbers of lines", "why_tests_cant": "a bound on the number of iterations of a root finder over all functions", "anchors": ["src/pystra/ls.py:LineSampling", "src/pystra/ls.py:_find_line_intersection"]}
{"id": "C129", "title": "A conditional level of subset simulation is unbiased", "statement": "A conditional level of subset simulation whose seeds each have the standard normal law conditioned on {g <= y}, however they depend on one another, and whose uniform draws are independent of them, does not raise, and the expected share of its N samples in {g <= y'} is exactly P(g <= y' | g <= y), for every fixed y', number of samples, number of seeds (dividing N or not) and width of the proposal.", "quantifier": "all limit states with measurable level sets, models, thresholds, numbers of seeds and samples, joint laws of the seeds, proposal widths", "why_tests_cant": "an exact expectation over all streams of draws", "anchors": ["src/pystra/ss.py:SubsetSimulation", "src/pystra/ss.py:_mmh_step"]}
{"id": "C130", "title": "Choice of the direction in line sampling", "statement": "If the limit state does not change along the direction alpha, line sampling is crude Monte Carlo at forty or more times the price: every line reports an end of the scan (-m when its draw has g <= 0, m otherwise), Pf is p + (1 - 2p) Phi(-m) with p the fraction of draws with g <= 0, hence p up to Phi(-m), and the reported coefficient of variation, the expected value and the variance are those of crude Monte Carlo with as many samples up to the same factor. For a limit state that is affine in standard normal space and any unit direction towards failure, the mean of the exact line probabilities (which Pf equals up to cut-off and tolerance) has the failure probability as expected value, and its variance does not increase when the direction is brought closer to the direction of steepest descent.", "quantifier": "all limit states constant along alpha (first part) or affine (second part), directions, numbers of lines, streams of draws, numbers of variables", "why_tests_cant": "pathwise for every stream of draws; exact expectations and a comparison of variances for every pair of directions", "anchors": ["src/pystra/ls.py:LineSampling", "src/pystra/ls.py:_find_line_intersection", "src/pystra/ls.py:_eval_g_at_c"]}
{"id": "C131", "title": "Cost of SORM", "statement": "A SORM analysis adds whole gradients to the limit-state counter and nothing else, a gradient being 1 + n calls with finite differences and one without. The curve fit takes n + 1 gradients (one at the design point, one per variable) when it completes and never more; the point fit takes at least 2(n-1) when it completes, and at most 100(n-1) however the 2(n-1) searches for fitting points go; any other fit type costs nothing. A point fit that stays at 2(n-1) has reported all curvatures as zero and, for a limit state that answers alike when asked alike, a fit that reports all curvatures as zero has taken 2(n-1): this is the case for every limit state that is affine in standard normal space. The other way to a Hessian, computeHessian(diff_type), counts 2n + n(n-1)/2 points when it completes and nothing when it raises. Together with FORM, a completed session job counts (iterations + fit gradients) times the price of a gradient, plus 6 calls per iteration but the last when the step size is chosen automatically.", "quantifier": "all limit states, transformations, options, fit types, states of the object and of the model, completed or interrupted runs, numbers of variables", "why_tests_cant": "the number of Newton passes depends on the limit state; the bounds must hold for every limit state and every outcome, including exceptions", "anchors": ["src/pystra/sorm.py:computeHessian", "src/pystra/sorm.py:run_pointfit", "src/pystra/sorm.py:evaluateLSF"]}
{"id": "C132", "title": "What a session of analyses costs", "statement": "Every analysis that ends with a result adds to the counter of the model an amount fixed by what it is: FORM the number of its iterations (between one and the maximum) times the price of a gradient, plus 6 per iteration but the last when the step size is automatic; crude Monte Carlo the number of samples it reports, never more than were asked for; importance sampling the price of its one FORM analysis plus the samples it reports; the distribution analysis exactly the samples asked for; subset simulation the samples per level times the number of levels reported; line sampling one FORM analysis plus between 40 and 92 calls per line; SORM one FORM analysis plus n+1 gradients (curve fit) or between 2(n-1) and 100(n-1) gradients (point fit). The counter after a session is the counter before it plus the sum of these, whatever ran before and in whatever order. So the cost of a session lies between two numbers that are known before it starts, up to the number of levels of its subset simulations.", "quantifier": "all models, limit states, options, sequences of analyses, initial states of the model", "why_tests_cant": "the sum ranges over all sessions and all limit states; how many samples, levels or iterations an analysis takes depends on the data", "anchors": ["src/pystra/form.py:Form", "src/pystra/mc.py:CrudeMonteCarlo", "src/pystra/ls.py:LineSampling", "src/pystra/ss.py:SubsetSimulation", "src/pystra/sorm.py:Sorm", "src/pystra/model.py:LimitState"]}
{"id": "C133", "title": "The counter against the calls of the limit-state function", "statement": "Over any session of analyses, however each ends (result, exception, undefined numbers), the counter of the model never grows by more than the number of points at which the user's limit-state function was really evaluated, whatever that function returns. It grows by exactly that number, in every differentiation mode, when the function always answers in the expected shape (one number per point, with a gradient when gradients are the user's), whichever numbers it answers. It falls behind only through evaluations that raise after a part of their points was evaluated: on every model there is a limit-state function for which four evaluated points are counted as none.", "quantifier": "all models, limit-state functions, options, sequences of analyses and outcomes", "why_tests_cant": "must hold for every history, including those in which a user function misbehaves", "anchors": ["src/pystra/model.py:LimitState", "src/pystra/model.py:addCallFunction", "src/pystra/model.py:evaluate_nogradient", "src/pystra/model.py:evaluate_ffd", "src/pystra/model.py:evaluate_ddm"]}
