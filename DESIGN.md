# Formal model of pystra in Lean 4 — design

## 1. Method

* `lean/Verif/Model/*.lean` — a function-by-function model of `/repo/src/pystra`.  Every definition cites the file and
  lines it models and says where it simplifies.
* `lean/Verif/Spec/*.lean` — small independent specifications (what "round trip", "load case", "path of models" … mean).
* `lean/Verif/Lemmas/*.lean` — helper lemmas (integration, Cholesky, normal distribution, association lists, loops).
* `lean/Verif/Props/*.lean` — the property theorems, named `Cnn_…`, and beside them `example`s (or theorems on named concrete
  objects) showing that the hypotheses are met by a concrete, non-trivial case.
* `MANIFEST.json` maps properties to theorem names (regenerate with `python3 mkmanifest.py`).
* `seeded/LOG.jsonl` — wrong programs tried against the theorems.

A method of a Python object is a function returning the new state *and* the outcome, so "mutate first, raise later" is visible.
Loops are recursive functions with a fuel argument returning `none` when the fuel runs out; termination is a theorem (or its
failure is a theorem: C37, C43), never an assumption.

## 2. Trusted base

* Lean 4.33.0's kernel and the axioms `propext`, `Classical.choice`, `Quot.sound` (no others; `vcheck` prints them for every
  theorem of the manifest).  Mathlib is checked by the same kernel.
* The definitions in `Verif/Model` are a hand reading of the Python source; nothing checks that reading mechanically.
* **Floating point is idealised as exact real arithmetic.**  Rounding, overflow and underflow are not modelled.  NaN and infinities
  are modelled where the control flow depends on them (division by zero, missing table cells, `ppf` at 0 and 1, zero FORM gradient);
  the type is then `Option`, `Fl`, `Num`, `EReal` or an explicit outcome `nan`.
* Python exceptions are values of `PyErr` (the exception class; messages are dropped).
* `Verif/Model/Scipy.lean` states what `scipy.stats` frozen distributions compute (documented densities, cdfs, quantile
  functions, `loc`/`scale`); `.mean()` and `.std()` are the integrals.  `StdNormal.lean` states `scipy.special.erf/erfinv`.
* `scipy.optimize.brentq` is modelled step by step from scipy's C source (`LineSampling.lean`, namespace `Brent`), over the reals.

Oracles — parameters of the model, any behaviour allowed unless a theorem states a contract as a hypothesis:

| external routine | where | contract used |
|---|---|---|
| `np.linalg.cholesky`, `svd` | `LinAlg` | `LinAlgOK` (Spec/Transformation): the factorisation equations; existence of such routines is proved |
| `np.linalg.inv` | `npInv` | modelled: inverse, raising iff singular |
| `np.linalg.eig` | `Sorm.run` | real eigenvalues, as a list whose characteristic polynomial matches (C48) |
| `np.linalg.solve` | calibration matrix method | modelled: the solution, raising iff singular |
| `scipy.optimize.fmin` | correlation, Maximum/MaxParent ppf, Beta | "returns a zero of the objective" where used, otherwise nothing |
| `scipy.optimize.fsolve` | Weibull, TypeII, calibration | "returns a root" where used, otherwise nothing |
| `np.random.randn / rand / uniform` | streams `ω`, `υ` | all theorems hold for *every* stream; expectations are integrals against the normal law |
| user limit state | `Kwargs → GRet` | arbitrary; regularity only where stated |
| FORM inside calibration and finite-difference sensitivities | an oracle on models | arbitrary; instantiated with the model of `Form` in C52 |

Not modelled: the layout of console output (what the reports of `Form`, `Sorm`, `LineSampling`, the Monte Carlo and the subset-simulation objects contain, and the points that Monte Carlo plots, is modelled: C76–C83), other plotting,
`Distribution.plot/zero_distn`, pandas beyond labelled tables (`Frame`), threads (the code has none), time.

Simplifications (also stated at each definition): a NaN cell met by the calibration's row evaluation is a `ValueError` (Python computes
with NaN); complex eigenvalues in SORM are not modelled (C108 shows a smooth limit state for which they occur); a limit state that raises on NaN input in the `beta = 0` point fit is not
modelled; the `multi_proc` option has only the values the code distinguishes; a non-square correlation array is one error.

## 3. What is modelled, property by property

| property | model | how it is proved |
|---|---|---|
| C01–C04 registry, rejected additions, correlation, counter | `Model/Stochastic`, `Model/LimitState` | invariants by induction over arbitrary operation lists |
| C05–C10 limit-state evaluation | `Model/LimitState`: block loops, ffd table, dispatch, keyword binding | loop invariants; Taylor bound for C06 |
| C11–C13 normal functions, marginal transforms, Jacobians | `Model/StdNormal`, `Model/Distribution`, `Model/Scipy` | monotonicity, FTC, inverse function theorem |
| C14 moments of every family | parameter formulas as coded | integrals of the laws (Gamma, Beta, Gumbel, Weibull, Fréchet, GEV …) |
| C15–C20 constructor, Maximum, MaxParent, ZeroInflated, cdf sensitivities, GEV | same | algebra and calculus |
| C21–C24 Nataf transformation, its Jacobian, selection | `Model/Transformation` | matrix algebra, `HasFDerivAt`, histories |
| C25 modified correlation | `Model/Correlation` | double-loop invariant |
| C26–C27 Cholesky and derivative | `Model/Cholesky`: in-place triple loop | Schur-complement invariant; derivative of the loop |
| C28–C35 FORM | `Model/Form` | loop invariants, inner-product geometry; exact convergence for affine limit states; simulation relation for C33 |
| C36–C39, C63, C69 Monte Carlo, importance sampling, distribution analysis | `Model/MonteCarlo` | loop invariants for every stream; change of variables for C38 |
| C40–C43, C64 subset simulation | `Model/Subset` | loop invariants; detailed balance; non-termination by invariant |
| C44–C45 line sampling, brentq | `Model/LineSampling` | bracket invariant of brentq; list search lemmas |
| C46–C49 SORM | `Model/Sorm` | algebra; Gram–Schmidt invariant; finite-difference identities for quadratics |
| C50–C52 sensitivities | `Model/Sensitivity` (with a heap of model objects for C52) | calculus: derivative of the reliability index along a path of models; `Props/SensNormal`: for independent variables the reported number in closed form (`C50_independent`, including the threshold 1e-300), for independent normal variables and affine limit states FORM followed by the sensitivity analysis yields the derivatives of the exact reliability index (`C50_affine`) |
| C53–C55 bivariate density, correlation integral, quadrature | `Model/Integration`, `Model/Quadrature` | `HasDerivAt`, polynomial identities |
| C56–C57 load combinations | `Model/LoadComb` | association-list lemmas |
| C58–C60, C65–C68 calibration | `Model/Calibration` (labelled tables) | table algebra, linear systems, loop invariants |
| C70 sessions, C71 importance sampling | `Model/Session` (all analyses on one shared model object) | simulation relation between evaluator states; composition of C30, C37, C38, C69 |
| C72 setters, C73 sample | `Model/Mutable` (heap of distribution objects, wrappers share the wrapped object; every public setter, constructor and `sample` as a step) | induction over programs; the class structure and the chain of wrappers are invariants; the law of a sample by the quantile transform and product measures |
| C74 law of X, C75 error of the estimates | existing models of `u_to_x`, `jacobian`, `compute` and of the simulation loop; laws as Mathlib measures (`Spec/NatafLaw`) | change of variables in one and n dimensions, characteristic functions for linear images of the standard normal law, independence of the samples, Chebyshev |
| C76 life of a FORM object, C77 detailed report | `Model/FormObject` (every attribute of the object, every method, any history of runs and model changes) | simulation between the object and `Form.run`; induction over histories and over the table's lines |
| C78 life of a SORM object, C79 detailed report | `Model/SormObject` (every attribute, the held `Form` object with its own transformation, every method, any history) | comparison of every run with the run of a new object; induction over histories |
| C80 life of a line-sampling object | `Model/LineObject` (every attribute, the held or created `Form` object, any history of runs on one random stream) | comparison with the run of a new object; induction over histories; oddness of `brentq` and C45 for a reversed direction |
| C81 life of a simulation object | `Model/MonteCarloObject` (every attribute of `CrudeMonteCarlo`/`ImportanceSampling` objects, any history of runs on one random stream) | comparison of a run on a used object with the run on a new one (loop invariant); induction over histories; `lastWritten` as specification |
| C82 running estimates and plots | `q_bar`, `cov_q_bar`, the index arithmetic of the plots (`arange`, thinning, `round`) | loop invariant giving every array entry; bounds on the thinned index list |
| C83 life of a subset-simulation object | `Model/SubsetObject` (every attribute, positions in both random streams also when a run raises) | simulation between the object's loops and those of C40–C43; induction over histories |
| C84 options objects | `Model/Options`: attribute dictionary, every getter and setter, what each class reads, options objects shared by analyses; documented table and what the values mean in `Spec/Options` | induction over histories; congruence of every simulation loop in the parts of the evaluator it uses |
| C85 faithful copies | `Model/DistClasses`: every class, the keyword arguments its constructor takes and remembers, `type(self)(…)`; which arguments determine the law in `Spec/DistClasses` | moments of every class inverted by its parameter formulas; bound on the Euler constant by harmonic numbers |
| C86 cdf sensitivities by differences | same; `Dist.baseDF` of `Model/Sensitivity` | loop over the parameters, mean value theorem, Lipschitz bound of the Gumbel cdf, totality class by class |
| C87 one law per object | `Model/DistClasses`, `Model/Distribution`; `OneLaw` and the admissible arguments in `Spec/OneLaw` | regularity of each scipy law carried through location and scale; the support is the range of `ppf ∘ Φ`; push-forward of the normal law |
| C88 distribution-analysis objects | `Model/DistributionObject` (attributes, runs, progress messages, report as data handed to matplotlib); `daAlone`, `daRuns`, `DoneMessages`, `Honest` in `Spec/Objects` | loop invariant over the first `K` samples, simulation of the used by the new object, induction on the history; laws from C74; titles from C35 |
| C89 unit of the limit state | all analyses on an evaluator and on its multiple (`scaleRet`, `scaledResult`, `scaledSubset`, `RelValues` in `Spec/Scaling`) | simulation lemma per function, induction over the loops; homogeneity of norms, order statistics and Brent steps; counterexamples computed |
| C90 units of the variables | two sessions (`Session.session`) of models built by related programs (`Units`, `Rescaled`, `OpInUnits`, `SameFunction`, `Units.Report` in `Spec/Units`); the classes of `Family` | the evaluator of the new units pulled back to the old ones; simulation lemma per function; induction over loops, programs and jobs; per class, the frozen objects are location-scale images |
| C91 order of the variables | two runs of FORM (`Session.formRun`) on models related by a permutation (`Reordered`, `ByName`, `EvReordered`, `ResultReordered` in `Spec/Order`) | the orthogonal matrix `T' P T⁻¹` (positive semidefinite square roots are unique, so also for an indefinite matrix with SVD); the evaluator of the new order pulled back; the pair integral is symmetric; induction over the loop; for the example, C30 |
| C92 unused variables | two runs of FORM on a model and one with further variables (`WithExtra`, `IgnoresNames`, `ExtraAtRest`, `ResultExtra`, `ResultExtraZero` in `Spec/Extra`) | the isometry `T' E T⁻¹` (E puts the components in their places); the forward differences in the unused variables are exactly 0; the evaluator of the large model pulled back; induction over the loop; for the Cholesky factor, uniqueness applied to the factor conjugated by a sign matrix |
| C93 composite classes | `Maximum`, `MaxParent`, `ZeroInflated` over a parent that `Describes` a law (`Spec/Composite`: `cdf` is its distribution function, `ppf` its quantile function, `u_to_x` is `ppf(Φ(u))`); `largestOf` is the image of the product measure under the maximum | the image of the standard normal law under `ppf ∘ Φ` computed on half lines, up to the countably many probabilities where the quantile function is a convention; product measures for the largest of several; C87 for the standard classes, whose `cdf` is shown monotone with values in [0, 1] off the support as well; C38 for Monte Carlo |
| C94 sensitivity objects | `Model/SensitivityObject`: constructor, `run`, `run_form`, the dictionaries returned, `summary` with its `result.get("marginal", result)`; the FORM run inside `_cf_sens` with the object's options, the FORM runs inside `_numerical_sens` without them | loops of the table; C52 for the finite differences on the heap; C30 with default options (Armijo) for every perturbed model, which is again a model of independent normal variables (`Lemmas/ModelMap`: exchanging distributions keeps a model reachable); C50 for the closed form |
| C95 shared data | `Model/Aliasing`: arrays and distribution objects on a heap, `StochasticModel` and `CorrelationMatrix` objects holding references; specification `Spec/Aliasing`: the same actions on values, with the value-level `StochModel` | ownership invariant (no two owners of an array), kept by every action, gives a refinement of the value-level program; it justifies the value semantics of `Model/Stochastic` |
| C96 side of FORM's error | the runs of `Model/Form` on `Model/LimitState`; the exact probability is the measure of the failure set under the standard normal law (`Spec/FormBound`, `Lemmas/Gauss`) | the invariant of C28 gives the tangent at the last iterate; a convex function lies above its tangent, so the failure set lies in a half-space whose probability is known |
| C97 convergence | the runs of `Model/MonteCarlo` and `Model/LineSampling` on a stream of draws whose law is the product of standard normal laws (`Spec/MonteCarlo`) | strong law of large numbers on the draws of complete blocks, Borel-Cantelli for the incomplete last block (whose layout depends on the number of samples); Hoeffding's inequality; `C37_run` for the stopping rule |
| C98 SORM of paraboloids | `Model/Sorm` `runCurvefit` with the hypotheses of C48 | rotation invariance and Fubini give the failure probability as the mean of the normal tail at the height of the boundary; `log Φ(-x)` is concave with derivative `-ψ` (the factor of Hohenbichler and Rackwitz), so tangents bound it; dominated convergence with Mills' ratio |
| C99 distance of the failure set | `Model/Form` `runFrom` on any evaluator with exact gradients | tangent planes of convex and concave functions, Cauchy-Schwarz, the identities of C29; a run of two passes computed symbolically for the counterexample |
| C100 names and constants are labels | `Model/Stochastic` `run`, `Model/LimitState` `inpdict`, `Model/Session` `session` | the dictionaries under a one-to-one renaming, or without one constant, entry by entry; then a simulation of two analyses whose limit-state functions answer alike (`Lemmas/Twin`), lifted to every analysis and to sessions |
| C101 systems and common random numbers | `Model/MonteCarlo` `run` | the mean of the summands (C37) compared summand by summand; a concrete stream for the counterexample with a positive target |
| C102 a linear problem, end to end | `Model/Session` on the model built by the script (`Spec/EndToEnd`) | the results on linear problems (C30, C38, C45, C46, C48, C49, C71) on the model that `addVariable` builds, carried to sessions by C70 |
| C103 convergence of FORM | `Model/Form.runFrom` (`ConvergesFrom` in `Spec/FormConvergence`) | the full step is the HL-RF map (`Lemmas/Hlrf`), a contraction in a norm weighted along the gradient; norms are convex and every step the code takes is at least 1/32 of the full one; induction over the passes of the loop; for paraboloids a global contraction, and an explicit 2-cycle when βκ > 1 |
| C104 formulations of a requirement | `Model/Form.runFrom`, `Model/Distribution` (normal, lognormal), `Spec/Margin` | the search becomes Newton's method for phi on a line (`Lemmas/MarginNewton`), which contracts in a norm that weighs the two sides differently; the argument of C103; half-space probability |
| C105 inaccurate gradients | `Model/Form.runFrom`, `lsEvaluator` in mode `ffd` | the full step is Lipschitz in the gradient (`Lemmas/HlrfNoise`), so the contraction of C103 holds up to a term proportional to the error; forward differences of a function with Lipschitz gradient |
| C106 narrow sampling density | `Model/MonteCarlo.run` | the weight times the normal density is bounded below, so the second moment is at least a constant times the volume; truncated strong law for the squares; numbers with a finite mean grow more slowly than their index, so the reported coefficient still tends to 0 |
| C107 the safe set | `Model/MonteCarlo.run`, `Model/Sorm.runCurvefit` | sample by sample the indicators of g < 0, g = 0 and g > 0 add up to 1; Gram-Schmidt from the opposite direction negates one row, hence the reduced matrix changes sign only through the factor; the roots of the characteristic polynomial of -M; C98 for g and for -g |
| C108 SORM of smooth limit states | `Model/Sorm.computeHessianAt`, `Model/Sorm.runCurvefit` | error of a forward difference by a fencing argument; Bauer-Fike in the rotated tangent plane; the characteristic polynomial is continuous, so simple real roots persist (intermediate value theorem) and the sorted roots converge; a cubic with two equal curvatures whose difference Hessian is a rotation-like block |
| C109 sensitivities of the distance | `Model/Sensitivity.marginalOne`, `corrOne`; `Spec/SurfaceDistance` (surfaceDist, hasoferLind, OnlyNearest) | in physical space the surface does not move with the parameters, so Danskin's argument applies (`Lemmas/Danskin`: velocities uniform near a point, almost-minimisers, compactness for their convergence); the gradient at the nearest point is radial by the intermediate value theorem along rays |
| C110 convergence of the alpha calibration | `Model/Calibration` (alphaLoop, calcDesignParam, calibrateDesignParam) with `Model/CalibrationForm` (the session's FORM as the analysis of a case); `Spec/CalibrationAlpha` (LinearCalib, NormalCase, caseIndex) | C102's exact FORM results for linear limit states give the design point in closed form; one round is then one Newton step for the concave function mean(z) − β·deviation(z) (`Lemmas/AlphaNewton`), hence monotone convergence from below |
| C111 numerical and closed-form sensitivities | `Model/Sensitivity` (numericalSens, makeCopy, marginalOne); `Spec/Sensitivity` (Within, ApproachedBy) | C52 says what each entry of the finite-difference result is, C109 that the closed form is the derivative of the distance of the surface; the quotient of values known up to ε |
| C112 accuracy of a converged FORM index | `Model/Form` (iteration, cond1, cond2, runFrom); `Spec/Form` (len) | C29 turns the two stopping criteria into bounds on G and on u; a step of length 2G/‖∇‖ along alpha from the design point reaches the failure set (Lipschitz gradient), the tangent plane of a convex limit state bounds the distance from below (C99) |
| C113 life of a Calibration object | `Model/CalibrationObject` (state, calls, exceptions; calc_lsf_eval_df); `Spec/CalibrationLife` (settings, latest, calibrated, estimated, outcome: told from the list of calls, without the object) | induction over the history from its end |
| C114 large samples | `Model/Mutable.sample`; `Spec/SampleLimit` (np.mean, np.std, empirical cdf of a list; law of the stream) | strong law of large numbers, Glivenko–Cantelli for the uniform stream, C87 |
| C115 confidence intervals | `Model/MonteCarlo.run` (reported Pf and coefficient of variation, no target) | central limit theorem, strong law and Slutsky's theorem on independent copies of one summand, transferred to the draws of the run (`samples_law`) |
| C116 stopping at a target | `Model/MonteCarlo.run` (loop with the early exit `cov_q_bar[k] <= cov`) | the run's length is a stopping index of its summands (`run_stops`); Kolmogorov's maximal inequality and Anscombe's theorem are proved (`Lemmas/Kolmogorov`, `Lemmas/Anscombe`); transferred to the draws by `samples_law` |
| C117 generic calibration and FORM | `Model/CalibrationForm` `formBeta`, `arrayFn` on `Model/GenericCalib` and `Session.formRun` | units: the model of a design in the other unit is related by C90; live column: a `Twin` of the two analyses; index: the limit state is affine in each variable, so finite differences are exact (`ffd_exact_separate`), then `result_exact` and an orthogonal change of variables (`independent_point`); totality by `run_finishes`. The same invariance for the unit of the *loads* does not hold with the automatic step (`C89_automatic_step`: the step depends on the size of G) and is not claimed |
| C118 products of lognormals | `Spec/LogMargin` on `Model/Form`, `Model/Transformation`, `Model/Lognormal` | in standard normal space each product is `exp(A0 + A·u)` (`product_std`), so failure is a half-space; accuracy by the geometry of the last pass (`loglinear_index`); local convergence from C103 with curvature 0, global from C104; plain products are affine in each variable, so finite differences are exact (`ffd_exact_separate`) |
| C119 real correlation | `Spec/NatafCorrelation` (`pearson`) on `Model/Transformation` and the marginals | the coefficient is `E h(Z1) g(Z2)` for increasing `h`, `g`; strictly increasing in the correlation of `(Z1, Z2)` by reflection at the bisector of the two directions (`mixed_strictMono`), continuous by L2 approximation (`mixed_continuous`), so intermediate values give existence and uniqueness; closed forms from the Gaussian moment generating function. The quadrature and the root finder of the code stay outside: the theorems are about the entry they deliver |
| C120 systems and correlation | `Model/Transformation`, `Model/Form`, `Model/MonteCarlo`; events stated directly on `u_to_x` | Slepian's inequality, proved from scratch (`Lemmas/Slepian`): one entry by reflection, with the other rows fixed (`orth_turn`, `exists_row`); a general increase by splitting the segment between the matrices into steps small enough to stay positive definite (`orthant_mono`); dependent directions by a little independent noise and dominated convergence (`orth_mono`). With C97 for the simulation and C30 for the FORM runs |
| C121 stochastic order | `Model/Distribution`, `Model/Transformation`, `Model/MonteCarlo`, `Model/Form`; laws as densities (`Spec/NatafLaw`) | quantile coupling: the comparison of the laws is equivalent to the comparison of `u_to_x` (C74), then pointwise in standard space; run by run for the simulations (`run_full`); C30 for FORM; the classes from C90; the lognormal level is where the two lines `ζu + λ` cross. The same transformation is a hypothesis: it holds for independent or normal variables; otherwise the correlation solver may return another matrix for the new marginals |
| C122 gain of importance sampling | `Model/MonteCarlo`, `Model/Form` | the weight of a point beyond the plane is at most `exp(-\|c\|²/2)`, run by run (`C37_run`) and in the mean (C75); FORM's half-space from convexity (C96, C99), shifted by the centre; the harm is computed on C99's two-sided limit state; the best centre minimises `x² + log Φ(-(β + x))`, whose derivative is bounded on both sides by the Mills ratio (`Lemmas/Mills`). Scope: sampling standard deviation 1; the variance statements need a fixed number of samples |
| C123 sampling width and dimension | `Model/MonteCarlo` | the product of the weight with that of a matched normal density is constant (completing the square), so the second moment is a constant times a normal probability; marginalisation of the standard normal law for the unused variables. Scope: fixed number of samples; 'unused' is a hypothesis on the failure domains in standard space (it holds for uncorrelated extra variables, cf. C92) |
| C124 finite numbers of samples | `Model/MonteCarlo` | the samples of a run are independent standard normal vectors (`samples_law`); counting over the subsets of failing samples; run by run from `C37_run` (the stopping rule cannot fire while the coefficient of variation is 1); Hoeffding's inequality (Mathlib) for the bounded summands |
| C125 subset simulation against crude Monte Carlo | `Model/Subset`, `Model/MonteCarlo` | the first level reads the draws of one block of crude Monte Carlo (`firstLevel_draws`); the percentile lies between two order statistics, so counting failures decides the first test; binomial and Hoeffding bounds from C124/C97; the bounds on `cov` and `Pf` by induction over the levels of C40 (`log x ≤ x - 1`, `Σ(1/pᵢ - 1) ≤ 1/∏pᵢ - 1`) |
| C126 modes that subset simulation does not see | `Model/Subset` | lockstep of two runs whose limit states agree off `B` (`move_same` to `levels_same`): a candidate in `B` is rejected by both, in one because it would have to jump the gap, in the other by its value; the first level agrees as no draw is in `B`; product of the probabilities of the draws, Hoeffding for the draws at or below `Y` |
| C127 what line sampling misses | `Model/LineSampling` | `near_found`: the scan's first safe-to-failure change is at the near mode whatever the far mode; `near_prob` (Fubini along `alpha`); `Lemmas/BrentOn`: `brentq` evaluates only inside its bracket, so two functions equal there give the same root; C44 and C45 for the rest |
| C128 cost of line sampling | `Model/LineSampling` | a predicate `Q k` of the states after `k` evaluations is carried through scan, root finder (induction on its passes) and lines |
| C129 conditional level is unbiased | `Model/Subset` | explicit samples of a chain (`chain_full`), the law of each from C42 (`stateAt_law`), expectations added over chains (`chains_mean`, induction on the seeds) |
| C130 choice of the direction | `Model/LineSampling` | `constant_line` from C44 (root finder at an exact zero), `draws_moments` (product law), `second_moment_mono` (conditional variance under convolution of normal laws), C45 for the run |
| C131 cost of SORM | `Model/Sorm`, `Model/SormObject`, `Model/LimitState` | counter of one gradient (C04) through the Hessian columns and the Newton loop (induction on passes and sides), C34/C76/C78 for the whole job |
| C132 cost of a session | `Model/Session` | one price per analysis (`Spec/SessionCost`), proved from C131, C130, C34 and the sampling loops; the session by induction on its jobs |
| C133 counter against calls | `Model/LimitState`, `Model/Session` | count and recorded points of one evaluation for an arbitrary function (`Spec/CounterTruth` for the shapes); whatever `init_run` and the evaluations keep, every analysis and every session keeps (`KeptRun`) |
| C61–C62 generic calibration | `Model/GenericCalib` | state machine histories |

Nothing in the list is inexpressible in a model; what stays outside (floating-point rounding, convergence of scipy's solvers, quality of the
random generator) is listed in section 2.

## 4. Findings (places where the code differs from what a user would expect; each is a theorem)

* **Limit state**: `ffd` overwrites the caller's point (C07); a `ddm` limit state returning an array raises `ValueError`, not the documented
  `TypeError` (C10); several points with `ffd`/`ddm` raise.
* **Distributions**: `GEVmin` has the wrong location and `cdf(ppf(u)) = 1 − u` (C20); `ShiftedLognormal.dF_dtheta` is wrong (C19);
  `ZeroInflated.pdf` adds the probability mass to a density, `set_zero_probability` is unchecked (C18); a negative standard deviation is
  accepted (C15); Gumbel/Type I use a truncated Euler constant, so their mean is off by a tiny multiple of the standard deviation (C14).
* **Correlation**: an asymmetric matrix is silently accepted, only the lower triangle is used (C25).
* **Quadrature**: `25*h` where `0.25*h` is meant, the last correction is applied twice, `n = 0` raises `ZeroDivisionError` (C55).
* **FORM**: `getAlpha(as_dict=True)` mislabels when constants were added before variables (C35); a starting point on the limit state never
  passes the first convergence test (C28); a run that raises leaves the old beta beside the new design point, `showResults` accepts it (C76);
  a variable added after the run makes the detailed report raise `IndexError` (C77); `i_max = 0` may not stop; `multi_proc ≠ 1` with Armijo steps is an unbound local.
* **Monte Carlo**: after the first block `x_all` records `u` (C63); `block_size = 0` loops forever; `samples = 0`, `sim_stdv = 0` raise;
  running an object again appends to the kept records of the previous runs, and `x_all` then gains only `u` (C69);
  `ImportanceSampling.run` leaves `print_output` switched off when the simulation raises (C71).
* **Setters**: `Lognormal.set_location`/`set_scale` do not rebuild the frozen object, so `ppf` and `sample` keep the old law (C72, C73);
  `Uniform.u_to_x` keeps the old interval (C72); any setter on `GEVmin` makes `mean` that of `-X` (C72); a setter called on
  the wrapped object leaves the wrapper's `mean`/`stdv` stale (C72); an invalid scale is stored before it raises (C72).
* **Subset simulation**: a limit state that never fails makes `run` loop forever (C43); a terminating run never reports `Pf = 0`.
* **Line sampling**: when `brentq` needs more than 50 iterations the midpoint is silently used (C44);
  FORM is run once and its direction is kept: rerun after the limit state was changed so that the direction points the wrong way, the
  object reports 1 − Pf with cov 0, and a run that raises leaves the old numbers in the report (C80).
- A Monte Carlo object keeps the arrays of the last run that reached its loop but `Pf` and `beta` of the last completed one: after a run
  that raised, the report mixes the two (old probability, new number of simulations, NaN coefficient of variation), and after a run with
  `samples = 0` it raises `IndexError`.  The stored samples are those of all runs together (C81).
- `random_generator` other than 0 does not select another generator: it raises `TypeError` on a new object and re-uses the last block of
  old samples on a used one (C81).
- The plots of a crude Monte Carlo run use the size of the *last* block as spacing: with a short last block, most points are drawn at
  probability 0; the final estimate is never plotted (C82).
- A `SubsetSimulation` object whose last run raised reports the old probability and number of levels with the levels of the failed run
  (or none) as "intermediate results" (C83).
- `setTransform` after an analysis has been created has no effect on it, while every other setter reaches all analyses that share the
  options object; an unknown transformation type is not noticed until the next analysis is created (C84).
- A copy made by `_make_copy` loses the start point; the copy of a Type I object is displaced by about `1e-12` standard deviations, because
  of the truncated Euler constant (C85).
- `dF_dtheta` varies the dimensionless GEV shape by at least `stdv * 1e-8`: with a large standard deviation (say in newtons) it raises
  `ValueError`, or differentiates over a wide interval (C86).
- A chi-square variable is varied inconsistently: its single parameter is `2 mean²/stdv²`, so that the mean of the copy with `mean + h` moves by
  `2h`, and raising `std` lowers the standard deviation of the copy; `_dmoments_dtheta` nevertheless returns (1, 0) and (0, 1) (C86).
* **DistributionAnalysis**: an exception in the limit state leaves an object that counts as run, with the rest of `all_X`, `all_G`
  zero and `all_G` still a row, of which the report makes one data set per sample; a constant added before a variable shifts the titles
  of the figures; `sim_stdv ≠ 1` shows samples of another law than the density drawn beside them; with a generator other than 0 a used
  object repeats the last block of the previous run; `getBeta`, `getFailure` are always `None` (C88).
* **Non-convergence**: when βκ > 1 for some principal curvature κ (a perfectly smooth limit state), FORM can jump between two points until
  `i_max`, with full steps and with the default step rule alike, and then reports a wrong index without any error (C103).
* **Units**: the automatic step size of FORM and the convergence tests of point-fitting SORM compare values of the limit state with fixed
  numbers, so results that stop early depend on its unit; in a large enough unit point-fitting SORM returns the FORM result (C89).
  The units of the variables do not matter (C90), except that `GEVmin` follows an offset the wrong way, and that `Beta`'s `fmin` stops on an
  absolute tolerance of a criterion that is proportional to the unit (C90 assumes that the solver finds the same shape).
  The direction cosine reported for a correlated variable depends on the order in which the variables were added (C91): it belongs to a
  component of the standard normal space, which the Cholesky factor mixes.
  An unused variable that does not start at 0 in the standard normal space (any skew distribution: the default start point is the mean)
  takes part in the first steps: it counts in the norms of the convergence test and of the merit function, so the number of iterations may
  change; hence the hypothesis `ExtraAtRest` of C92.
  `ZeroInflated.u_to_x` is constant on the interval of the jump and `x_to_u(0)` is its upper end (`C93_atom`): the round trip of C21 fails
  there, so FORM with a zero-inflated variable differentiates a function that is flat on an interval.  `Lognormal.cdf` calls `math.erf`, which
  rejects arrays of more than one element and turns an array of one element into a float; `ZeroInflated(Lognormal).cdf` and `x_to_u` index the
  result and raise `TypeError`, while `u_to_x` works.  Array shapes are not modelled; C93 is about the numbers.  `Lognormal.cdf` below 0 is NaN
  in the program and 0 in the model.
* **SORM**: under `ffd` the Jacobian is taken at the perturbed point (C48); for `beta < 0` the curve fit rejects every usable list of
  curvatures (C46); an invalid fit makes `showResults` raise `TypeError`; the rotation raises when the last direction cosine is (almost) 0
  and for a single variable (C47); a point fit that raises leaves the curve-fit numbers under the heading "(Point-Fitting)", and
  an unknown `fit_type` leaves the old report standing (C78); no run re-runs FORM after a model change (C78).
* **Early stopping and comparisons** (C101): `C101_early_stopping` is a stream on which the more severe of two limit states gets the
  smaller estimate, because a block in which every sample fails has coefficient of variation 0, which the code replaces by 1, so that
  its simulation goes on while the other one stops.
* **FORM finds stationary points** (C99): `C99_local` is a limit state of one variable for which FORM converges exactly (value 0, direction
  error 0) to a point that is three times as far from the origin as the nearest failure point; nothing in the result shows it.
* **The modified formula of Breitung** (C98): on paraboloids the factor `φ(β)/Φ(-β)` turns Breitung's formula into a bound: the result
  is never below the probability of failure.  Breitung's own formula is a bound only for non-negative curvatures.
* **Stopping rule without spread** (C97): if every sample fails, the reported coefficient of variation is 0 and is replaced by 1
  (mc.py 152-153), so that crude Monte Carlo never stops early for a failure probability of 1.
* **The bias of FORM** (C96): for convex limit states FORM's Pf is an upper bound only if the last G is >= 0; a run stopped early must be
  corrected by G/|grad|.
* **Shared arrays** (C95): the setter `model.correlation = A` stores the caller's array itself (`setCorrelation` copies): two models given
  the same array, and the caller, then share it (`C95_assign`).  The getters return the model's own array.
* **SensitivityAnalysis objects** (C94): `run(numerical=True)` ignores the `analysis_options` of the object: every FORM run inside uses the
  defaults.  `summary` looks for the key `"marginal"` in the result, so that the finite differences of a model with a variable of that name
  cannot be tabulated (`AttributeError`), although the run succeeds (`C94_example`).
* **Sensitivity**: silently zero where the normal density underflows `1e-300`; the closed form is derived for the Cholesky transform
  only (C50, C51): with `transform = "svd"` a limit state that uses one of two correlated normal variables gets a correlation sensitivity
  that is not zero although its index does not depend on the correlation (`C51_svd`); the finite-difference variant ignores the analysis
  options.  That the computed `dρ₀/dρ` is not 0 (`hbig` of `C51_derivative`, `kappa` of `C51_affine`) cannot be exhibited: the quadrature
  points come from Newton iterations on reals.
* **Load combination / calibration**: missing `dict_comb_cases` or constants raise `TypeError`/`AttributeError` (C56, C57);
  `get_psi_max` treats the table positionally (C59); negative factors become 0 (C59); a start value that already meets the target makes the
  alpha calibration raise (C60); the matrix method works only when the calibration variable is called `"z"` (C65); the design
  parameter is right only if the parameter's own constant is 1 (C66); an unknown estimation method stores nothing, silently (C67).
* **Generic calibration**: changing a model after `analyse` leaves stale plots (C62); a failing `analyse` leaves a mixture of old and
  new results marked as analysed (C62).
