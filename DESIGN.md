# Formal model of carma_pack: design

Source under study: `/repo` (carma_pack: the C++ core, the Boost.Python run functions and the Python package).
Everything below is about a Lean 4 model of that source, read as text; nothing of it is built or executed.
The properties are in `properties.jsonl`, the state of each in `MANIFEST.json`, the attempts to break the
theorems in `seeded/LOG.jsonl`.

## 1. Layers

| layer | modules | content |
|---|---|---|
| model | `Verif/Model/*` | one Lean definition per function of the source, each with a file/line citation |
| spec | `Verif/Spec/*` | small definitions that do not mention the model (Gaussian conditional law, CARMA autocovariance, detailed balance, a run as a list of sweeps, ...) |
| theory | `Verif/Theory/*` | helper lemmas |
| properties | `Verif/Props/*` | the property theorems `Cxx_...`, each with a concrete `example` meeting its hypotheses |

## 2. Modelling conventions

* **Numbers.** `double` is exact real arithmetic. Where the code itself looks at infinities or NaN (acceptance
  tests, log-densities, prior bounds, running minima, trial selection) the model uses `Dbl`
  (`fin x | pinf | ninf | nan`) with IEEE comparison rules. `std::complex<double>` is `ℂ`. Rounding, overflow, underflow and
  signed zero are **not** modelled, so numerical statements are about the exact-arithmetic reading of the code, with one exception:
* **Rounded arithmetic** (C72–C75, C89–C91, C93, C94, C99–C103, C105–C110). `Model/Float.lean` repeats the constructor, filter and log-density of CAR(1) with machine numbers: every value is a `Dbl`, every operation
  is rounded by itself, NaN and infinities propagate. The rounding and the library functions are a parameter `Arith`; `Spec/Binary64.lean` states what is assumed of it:
  results are doubles or infinities, rounding is monotone and leaves doubles alone (true of every rounding mode), `sqrt` is correctly rounded, `exp` of a number `<= 0` is between 0 and 1, `|log|` of a
  positive double is at most 1024, `log 0 = -inf`. `C72_nearest` proves that rounding to nearest, ties to even, with correctly rounded functions satisfies it (an earlier version of `EvenBelow` held for every subnormal number, so that ties there were not to even; found while proving C106, corrected). Idealisations left: no fused
  multiply-add and no extended precision; zero is unsigned (in the mode that rounds downwards `x - x` is `-0`, and then the NaN of C73 may be an infinity instead); the prior bound
  `10 * sqrt(arma::var(y))` is an argument. C74 proves that with nothing rounded this is the model in reals.
  `Model/FRun.lean` does the same for the first lines of the run functions: variance of the values, bound of the prior, Cholesky factor of the first proposal (`C89_exact` is the comparison with the model in reals).
  `Model/FSamp.lean` does it for the rest of the run: `AdaptiveMetro` with its rank-one update, `ExchangeStep`, the sampler and `RunCar1Sampler`. A matrix-vector product, `arma::norm` and `pow` are arbitrary functions of
  their arguments (`Mach`), uniform and Student t variates and the values returned by `StartingValue` are arbitrary streams (`Usable`: uniform variates are not negative, vectors have the right length and consist of doubles or
  non-finite values). C90 assumes `Strict`: `exp`, `log` and `sqrt` of NaN are NaN and `exp(inf) = inf`. `C90_nan_stuck` and `C90_zero_draw` assume `ZeroAndNan` in addition: a product with NaN in the column is NaN, with a zero vector zero.
  `Model/FStart.lean` computes the values drawn by `CAR1::StartingValue` from the numbers that Armadillo and Boost return (C93; `C93_exact` is the comparison with the model in reals).
  `Model/FSimulate.lean` is `Simulate` of CAR(1) given the standard normal draws (C94): `RandGen.normal(mu, sigma)` is `z * sigma + mu` as in Boost, `arma::sort` rejects NaN.
  `Model/FCarma.lean` is the constructors and `LogDensity` of CARp, CARMA, ZCAR and ZCARMA with machine numbers (C99). A complex number is a pair; sums, differences and products with a `double` act on the components. Product and quotient of complex numbers, `exp`, `pow`, `abs`, matrix products and `solve` are fields of `CArith`: C99 asks nothing of them except, for `C99_zcarma_edge`, that NaN is passed on (`NanLib`). Zero is unsigned: with rounding to nearest the variance is a sum with `yerr*yerr`, which is not -0, so it is not -0 either.
  `Model/FCarmaRun.lean` is `StartingValue`, `SetStartingValue`, `Save` and `RunCarmaSampler` with machine numbers (C100), on top of the sampler of `Model/FSamp.lean`. The arithmetic that turns random draws into a proposal of the search (`StartingAR`, `StartingMA`, the variance and the mean) is left out: a pass of the search meets an arbitrary vector of doubles and an arbitrary variance; `Model/FStartP.lean` computes them from the numbers drawn (C102; `C102_exact` is the comparison with the model in reals). The search loop has no bound in the code; the model stops it with `timeout` after `fuel` passes. `linspace` is modelled as in Armadillo. An exception of `solve` leaves `LogDensity` as `-inf`, and `StartingValue` as itself.
  `Model/FPredict.lean` does it for `KalmanFilter1::Predict` with `InitializeCoefs` and `UpdateCoefs` (C91; `C91_exact_refines` is the comparison with the model in reals; C101 bounds the rounding errors of what it returns).
  `Model/FPredictP.lean` is `Predict` and `Simulate` of `KalmanFilterp` with machine numbers (C103; `C103_exact_refines` is the comparison with the model in reals), with the parameters `CArith` of `Model/FCarma.lean`. `state_const_` and `state_slope_` are handed on as a pair instead of being members; `InitializeCoefs` sets them before `UpdateCoefs` reads them.
  `Model/FSetP.lean` is the setters of both filter classes with machine numbers (C105). The order `p` is a parameter of the type; `SetOmega` of `KalmanFilterp` with a vector of another length goes from `FKFp p` to `FKFp p'`.
  C75 assumes in addition `Accurate A`: `exp` and `log` of a double have an error of at most one unit in the last place (proved for correctly rounded functions, `C75_nearest`).
* **Faults.** `Except Fault`. `bounds`: an Armadillo bounds-checked access (or a Python `IndexError`) out of range.
  `nonfinite`: an operation that gives NaN or an infinity in C++ at a place where the model uses reals (division by zero,
  root or logarithm of a negative number). The model stops there, the program would go on with the NaN; the theorems that claim
  absence of faults therefore exclude it, the theorems that claim a value never pass through it.
  `runtime`: a C++ or Python exception (`arma::solve` on a singular system, `chol` of a matrix that is not positive definite, size mismatch).
  `ub`: undefined behaviour (unchecked index, uninitialised variable).
  `timeout`: the fuel of an unbounded loop ran out.
* **Unbounded loops** (`StartingValue`, `StretchProposal::GrabParameter`, the prompts) take a fuel argument. Theorems are for every
  fuel; non-termination is stated as "`timeout` for every fuel".
* **Objects.** A C++ object is a structure; a method is a function returning the new structure. Virtual dispatch and
  member hiding are resolved by hand, and the resolution is stated in the comment of the definition.
* **Randomness.** Generators are streams: a draw reads the next element of an arbitrary stream. Theorems quantify over all
  streams; `Rng.Ok` (uniform draws in (0,1), positive chi-square draws) is a hypothesis only where the code needs it. That the streams have the advertised
  distributions is not modelled, except where the statement is about a transformation of a draw (C22, C35, C49, C76) or about the law of the chains or of the searches (C67, C69, C77, C83, C84, C85, C88, C104: independent draws are a hypothesis).
* **External calls.** `arma::sort_index` and `np.argsort` are a parameter constrained only to return a sorting permutation (not
  necessarily stable); `arma::solve` returns the unique solution of a nonsingular system; `scipy.optimize.minimize` and
  `multiprocessing` are arbitrary functions; the file system is a map from names to contents with permission predicates; the boost generator is
  an abstract `Engine` whose text form reads back.

## 3. What is modelled and what is not

| source | modelled | not modelled |
|---|---|---|
| `include/kfilter.hpp`, `kfilter.cpp` | everything: constructors, `init`, setters, `Filter`, `Simulate`, `Reset`, `Update`, `Predict`, `InitializeCoefs`, `UpdateCoefs` of both classes | the getters (fields), the vector versions of `Predict`/`Simulate` that only convert containers. In rounded arithmetic: only the constructor, `init`, `Reset`, `Update`, `Filter`, `Predict`, `InitializeCoefs`, `UpdateCoefs`, `Simulate` of both classes (`Model/Float`, `FPredict`, `FSimulate`, `FCarma`, `FPredictP`), and the setters (`FSetP`) |
| `include/carpack.hpp`, `carpack.cpp` | `CARMA_Base`, `CAR1`, `CARp`, `ZCAR`, `CARMA`, `ZCARMA`: constructors, `SetPrior`, `SetMLE`, `SetKappaBounds`, `LogDensity`, `LogPrior`, `CheckPriorBounds`, `Extract*`, `SetFilter`, `Variance`, `ARRoots`, `StartingValue`, `StartingAR`, `StartingMA`, `SetStartingValue`, `Save`; `polycoefs`, `unique_roots`, `logit`, `inv_logit` | `StringValue`, `Print*`. In rounded arithmetic: constructors, `CheckPriorBounds`, `LogPrior`, `LogDensity`, `StartingValue`, `SetStartingValue`, `Save` of all classes (`Model/Float`, `FStart`, `FCarma`, `FStartP`, `FCarmaRun`) |
| `include/parameters.hpp` | `Parameter` (value, log-density, temperature, tracking, sample vectors), `Ensemble` as a list of parameters | string output, file output |
| `include/proposals.hpp`, `proposals.cpp` | all proposal classes, `StretchProposal` | |
| `include/steps.hpp`, `steps.cpp` | `MetropStep`, `AdaptiveMetro`, `ExchangeStep`, `CholUpdateR1` | `GibbsStep` is modelled too, though the package does not use it. `Model/Steps.lean` counts in natural numbers; `Model/IntRun.lean` repeats the two steps with the `int` counters of the code and what they print (the text and the rounding of the numbers are dropped) |
| `include/samplers.hpp`, `samplers.cpp` | `Sampler` (`AddStep`, `Run`, `Iterate`, `SaveValues`), the option prompt | the progress bar, timing, `PrintReport` |
| `random.cpp` | every generator: the distribution object with its parameters, and the transformation (`Model/Random`); in the runs, `normal`, `lognormal`, `uniform` as shift and scale of a standard draw (justified by `C76_standard_*`); seed save/recover | the laws of the Boost objects (trusted, `Spec/Laws`); the stubs `mtdist`, `beta`, `weibull` |
| `carmcmc.cpp`, `boost_python_wrapper.cpp` | `RunCar1Sampler`, `RunCarmaSampler` whole; in rounded arithmetic the lines before the first iteration that compute the variance, the prior bound and the first proposal (`Model/FRun`), and the rest of `RunCar1Sampler` (`Model/FSamp`) | conversion of containers between C++ and Python |
| `carmcmc/carma_pack.py` | `CarmaModel` (constructor, `run_mcmc`, `get_mle` with its pool of processes, `choose_order`), constructors of `CarmaSample`, `Car1Sample`, `_get_mle_single` whole with the optimiser as a parameter, `CarmaSample`/`Car1Sample` derived parameters, `predict`, `simulate`, `plot_power_spectrum` (frequencies, spectra, percentiles, median; not the drawing), `DIC`, module functions `get_ar_roots`, `power_spectrum`, `carma_variance`, `carma_process`, `car1_process`, the class `KalmanFilterDeprecated` whole (array version of `predict`/`simulate` loops over scalars; integer arrays not modelled), `assess_fit` (the numbers drawn; not the histogram), `makeKalmanFilter` for every `bestfit`, `add_mle` (with integer division and with Python 3's; the stored log-likelihood is a copy and is not modelled) | drawing, the optimiser itself |
| `carmcmc/samplers.py` | constructor, `generate_from_file`, `get_samples` (with sharing of arrays), `effective_samples`, `posterior_summaries`, `newaxis` for real parameters | parsing of numbers in files (`genfromtxt` is a parameter), plots, complex parameters, the `acor` module (a parameter) |
| `src/paper`, `examples`, tests | not modelled | |

## 4. How each property is proved

| id | result | how |
|---|---|---|
| C01, C02, C03, C04 | proved | the imperative run equals a state-space recursion (induction over observations); the recursion satisfies the normal equations of the Gaussian law; those give `k K⁻¹ y`. Prediction: row of the inverse of the covariance augmented by the unknown value. Reality and positivity for CARMA from conjugate symmetry and an integral representation of the process noise |
| C05, C06 | proved | C01/C03, `det K = Π var`, `yᵀK⁻¹y = Σ innov²/var` |
| C07, C08, C48 | proved | Lagrange partial fractions, improper exponential integrals |
| C09–C12, C37 | proved | induction over factors against Mathlib polynomials; binomial theorem |
| C13, C14 | proved | loop invariants, iff statements over `Dbl` |
| C15, C21 | proved | frame relations ("same data and parameters"), invariant over operation lists, including throwing operations |
| C16, C17 | proved | from the closed form of C01–C04: linearity of the conditional mean, behaviour of the conditional moments under shift, scaling and reversal of time |
| C18 | proved | list induction for every sorting permutation |
| C19, C20, C41, C42, C51, C55, C56, C57, C31, C34, C45, C60, C61, C62, C63, C65, C66, C68 | partial: the stated property is **false** for the code | negation with a concrete witness, exact description of what the code does instead, and the property under the missing hypothesis (`_partial`) |
| C22, C49 | proved | C02/C04 on the extended data; covariance of a linear recursion in the draws |
| C23–C26, C35 | proved | decision logic over `Dbl`, algebra of `exp` and real powers |
| C27, C28 | proved | rank-one update identity by induction on columns; invariant over runs |
| C29, C30, C33, C46, C47 | proved | `Sampler::Run` refines the list-of-sweeps specification `Spec/Run`; invariants over all sweeps; totality of every function called |
| C32 | proved | partial correctness of the starting loops; invariant of a chain stuck at −inf |
| C36 | proved | algebra and derivative |
| C38, C39 | proved | stream model of `cin`; files as cells |
| C40, C50–C54 | proved (C51 partial) | folds over candidates; sorted permutations |
| C58 | proved | composition of C50, C46, C30, C47, C53; the object after a run is, up to its filter, the one built at the start |
| C59 | proved | same recursion as C03/C04/C22; every cell of the uninitialised arrays is written before it is read |
| C43 | proved | partial fractions at `2πif`; Fourier integral of the autocovariance |
| C44 | proved | algebra of `StartingAR`/`ARRoots` |
| C67 | proved | each step is a measurable function of chains and draws; Metropolis and exchange steps preserve the product of tempered densities with the laws of the draws (change of variables for the symmetric shift, Fubini, splitting of infinite products); the state the code is in refines that function; measurability of the likelihood in the parameters |
| C68 | partial | eigenvalue bounds for the observation covariance (errors from below, standard deviation and bounds of the prior from above) give a Gaussian bound in the mean and a polynomial bound in the scale, integrated coordinate by coordinate; for the negation the same bounds from below, uniformly in the moving-average parameters. Measurements without error: if two have different values the likelihood decays faster than any power as the scale tends to 0 (least eigenvalue of the correlation matrix bounded below by compactness of the set of separated roots), if `k` of them have one common value and there is no other, the likelihood is of order `σ^-k` times a normal density in the mean of width `σ`; to the power `1/T` that is integrable exactly if `k < 2T`. For moving-average models the least eigenvalue of the correlation matrix is bounded below by compactness of the set of separated roots times the unit sphere of coefficients |
| C69 | proved | pointwise ergodic theorem (proved here by the maximal inequality) for the stationary chain with its stream of draws; a Markov chain argument: an invariant set is, up to null sets, a set of states, every state leaves each null set, and from every state every set of positive volume is reached with positive probability (the proposal has a positive density, the exchange carries it from chain to chain, the Cholesky factors stay invertible by C27); so the limit is the same constant from every state of finite log-density. Not covered: one statement for the whole run including the adaptive burn-in (the theorem is conditional on the state reached) |
| C70 | proved | simulation between the sampler with `int` counters (overflow is `ub`) and the one with natural counters, with the number of iterations of each step as a bound; inversion of the builders for the converse |
| C71 | proved | invariant over steps, sweeps and recorded samples: counters of step j = number of accepted moves since the last report; the list of printed lines is computed exactly; acceptance specified from the log-densities, temperatures and the uniform |
| C72 | proved | interval propagation through each rounded operation (bounds that are doubles are kept by monotone rounding); invariant of the filter: the computed variance is at least the computed error variance, the computed mean is a rounded convex combination and its bound does not grow with the number of observations; induction over observations and over earlier calls |
| C73 | proved | with zero errors the computed variance of each point is `S(1 - rho^2)` as rounded; a zero variance gives `+inf - (+inf or NaN)`, which NaN absorbs; witness with rounding to nearest (no double lies strictly between `1 - 2^-53` and 1) |
| C74 | proved | sorting, removal of repeated times and sizes agree step by step for any data; simulation relation between the two models; when the exact model reports a division by zero the machine model has a zero variance and so NaN |
| C75 | proved | forward error analysis: errors of one update of the filter in terms of the errors before it (the variance error is multiplied by `rho^2`, the mean error by `rho`, so errors are forgotten as fast as the process forgets); link between the arrays the filter leaves and the recursion; induction over observations; sum of the likelihood terms with the rounding of each addition; exact side from the innovations form of C05 |
| C76 | proved | change of variables in one dimension (and the linear map for the multivariate normal); uniqueness of continuous densities for the negation |
| C77 | proved | every pass uses a fixed number of draws (when no draw is exactly 0 or equal to another); a box of draws of positive probability whose Lorentzians satisfy the prior (well separated centroids, widths below them, standard deviation below its limit), so the pass ends the search; passes use disjoint draws, so by the second Borel-Cantelli lemma lucky passes come again and again; the run is total once the searches end |
| C78 | partial | Gaussian log-density under scaling, shift and permutation; extreme gaps, span, sample variance and median in the new units; factors, roots, response function and moving average polynomial scale; prior bounds are scale free except for the tolerance of the ordering test; witness with roots -1±i, -1±2i in gigaseconds and seconds |
| C79 | partial | equal polynomials have the same list of roots up to order; the autocovariance and the bounds other than the order do not depend on the order of the roots; sorting the factors; ordered lists of roots with separate centroids are equal (sorted lists that are permutations of each other), and the roots determine the coordinates; witness: roots -1, -2, -3, -4 in three pairings and two orders |
| C80 | proved | exactness of Predict (C02, C04); the conditional variance is the minimum over linear predictors, so fewer data or larger errors cannot lower it; positive definite covariances; autocovariances are exponential sums, hence continuous and vanishing at infinity |
| C81 | proved | exactness of each simulated value (C22, C59); conditioning on one more value updates means and covariances by the Schur complement; by induction the values are an affine function of the draws whose matrix is the Cholesky factor of the conditional covariance; characteristic functions of Gaussian laws, also for data and values together |
| C82 | proved | log-posterior formulas (C05, C06); the law of process plus errors is Gaussian with the summed covariance (characteristic functions); its density by the change of variables with the square root of the covariance; prior densities by change of variables |
| C83 | proved | the whole run, starting values included, as a measurable map of the draws; the starting values use draws other than those of the sweeps and the number of passes takes countably many values, so the sweeps see fresh draws; adaptation during burn-in is part of the map; then the ergodic strong law (C69) and return with probability one (C77). CAR(1) makes no check of its starting value: the alternative of a run that never moves is in the statement, and its probability is bounded below |
| C84 | proved | the sweeps keep a measure of infinite mass (C67, C68); maximal inequality for infinite measures, so the probability of exceeding an average is integrable; it is constant along the chain, hence constant, hence 0. The density has finite mass where the moving-average parameters are bounded and, if the measurements without error require it, the standard deviation is bounded away from 0. For two or more walkers the statements are about the chains jointly |
| C85 | proved | mean squares of the probabilities of a set decrease by the mean squared differences along the chain, so the differences tend to 0; every state reaches every set, so subsequences of the probabilities tend to constants almost everywhere; the constants are the invariant probabilities (finite mass) or 0 (infinite mass, `C84_carma_vanishes`). From a given state by Lebesgue decomposition of its law after many sweeps, whose singular part vanishes |
| C86 | partial | the log-posterior is a quadratic polynomial of the data, along rays of large sample variance, so equal values give equal inverse covariances and means; for CAR(1) three measurements give the variance, the decay rate and the error scale. CARMA: the covariances at lags Δ, …, 2pΔ are sums of p exponentials, determined by 2p values (Prony); exp is injective below the Nyquist frequency, which gives the autoregressive roots; the amplitudes give β(z)β(−z) at 2p points, hence as a polynomial, and β has its roots in the left half plane. Negations: autoregressive roots -a ± ib with moving-average root -√(a²+b²) have the autocorrelation exp(-a d) cos(b d), equal on a grid for b and 2π/Δ - b; roots -a, -r with moving-average root -r have the autocorrelation exp(-a d) |
| C87 | partial | induction over the files: which line is the key, which file counts; addresses of new arrays lie behind the memory in use, so stored arrays and copies share none (invariant over all sequences of actions); negations by the newline that `readline` keeps, and by a file with another root |
| C88 | proved | the events `search m ends with pass c m` are measurable in the draws used up by then and partition the sample space, so the starting state is a random variable and the draws left are independent of it; this independence is kept by the sweeps, adaptive or not; then C85 from almost every state and dominated convergence. Sorting is handled by the finitely many orders of the centroids |
| C89 | partial | error analysis of the two sums, the division and the subtraction with absolute bounds, then relative errors through products, quotients and square roots; the witness by computing the neighbours of five integers above 2^56 in the binary64 grid |
| C90 | partial | the log-density is a function of the vector whatever was called before (the filter state is overwritten); invariant of all chains over steps, sweeps and records; a ratio that is not finite rejects and a swap probability with a non-finite side is 0 or never exceeds a uniform draw; finite log-density forces finite parameters because NaN passes every comparison of `CheckPriorBounds` but not the variance; the NaN stays on the diagonal because each row of the update squares it; with exact arithmetic a simulation relation (chains, factors, streams) is kept by every step, so the two models of the sampler agree |
| C91 | partial | bounds on every number the forward and backward recursions compute, carried along the loops; a decay factor below 1 is at most 1 - 2^-53, which keeps the variance given the past above 2^-351; where it is rounded to 1 and the error variance is lost the variance is exactly 0, the precision infinite, and infinity times 0 is NaN; two objects that differ only in what `Reset` and `Update` overwrite give the same answer |
| C92 | partial | sorting forgets the order; if the values were also a sample in the requested order, data and values would have two different covariance matrices: for CAR(1) the covariances with two data points determine the time |
| C93 | partial | relative errors of each operation; `log x <= x - 1` shows that the comparison of the logarithm with the largest frequency is inert; the rest is C72 and C90 |
| C94 | partial | every index of the loop is within the vectors as long as their lengths agree, whatever the numbers; a NaN value reaches the mean of every later prediction through the forward or the backward recursion; at the time of an error-free point the backward variance is exactly 0 and the precision infinite, shortly after one the forward variance is; infinity times 0 is NaN. For the values that are finite (`C94_all_finite`): with a decay factor below 1 the predicted variance is at least `2^-155` and the gain at most 1, so each mean exceeds the largest value before it by a relative `2^-26` at most; each simulated value is bounded by `(n+2) 2^400`, `n` growing by 2 per request |
| C95 | partial | a step relation for the pool (any idle worker takes the next batch, any busy one runs its next trial); invariants of all executions: a worker's generators are the caller's after as many trials as it has run, every trial is in exactly one place, each worker's trials are in increasing order; the work left decreases; a schedule in turns for the witness |
| C96 | partial | the extraction of the MA coefficients stores past the end of a vector of length p for every parameter vector inside the prior; the starting value search meets one in its first pass, because a rejected start is drawn again and an accepted one is evaluated; runs, `run_mcmc`, `get_mle`, `choose_order` inherit it |
| C97 | partial | the short run by C30, C46 and C77; the start in the box by C52; every point of the box has a value, since the box lies inside the prior (CAR(1)) or the prior is switched off and the scale is positive; a contract for the optimiser (stays in the box, reports the value, does not go uphill) that says nothing about minima; the offset from `log s >= 1 - 1/s` |
| C98 | partial | the loop of `carma_process` with an arbitrary conversion on assignment, compared with a state space that realises the autocovariance: the conditional laws given the stored values; the step variance is at most the process variance (a diagonal entry of the Cholesky factor); a zero variance at the second of two equal times |
| C99 | partial | case analysis of every operation after the filter: the real part is a `double`, a nonpositive variance gives NaN or `-inf`, the log-prior and the sum are bounded; histories: an invariant on lengths, and the filter overwrites everything it reads; exact arithmetic: a lifting lemma for every function; overflow of `exp` at 720 |
| C100 | partial | an outcome predicate (which exceptions, which results) carried through the start loops of all steps; an object invariant under which the log-density is a function of the vector, so that the stale value `Save` computes is the right one; the machinery of C90 for the sweeps; counting of proposals: each search uses one that is good and skips the others; two equal columns make `solve` fail |
| C101 | proved | the object is reduced to recursions of numbers (`Theory/FPredEval.lean`), the same for doubles and reals; errors of the recursions over the observations in terms of the bounds on the variances and the memory (`FPredErr`), of the backward recursion for the coefficients and the precision, where each term carries a relative error because slopes decrease and the precision never falls below that given the past (`FCoef`, `FPredSum`, `FPredCoef`, `FPredFin`); decay factors by the relative error of the product and the contraction of exp (`FPredList`); the recursions over the reals are the conditional mean and variance by C02 and C91_exact_refines (`FPredAcc`) |
| C102 | proved | errors of logarithms are absolute errors that do not grow (`Theory/FStartP.lean`): a rounded frequency is the one meant up to a factor near 1, its logarithm up to a few units; sorting commutes with a map; the bounds of the last uniform draw are in order because a draw of `2^-40` times the logarithm of the frequency ratio (at least log 2, three times) exceeds the rounding errors (`FStartPass`, `FStartAR`) |
| C103 | proved | `PSame` (same data, parameters and lengths of `mean`, `var`) is kept by every call; the filter, the backward recursion and the sums of `Predict` are sequences defined from data and the solution of the linear system alone (`Theory/FPredictP.lean`), so an invariant of the loops gives both that they return and that history does not matter; `Simulate` inserts into two such objects alike (`FSimP.lean`); operation by operation comparison with the real model, then C04 and C22 |
| C104 | proved | the box of lucky draws of C77 has a probability bounded below by a number that depends on `n` and `p` only; blocks of `k` passes, one per search, are each without a lucky pass with probability at most `(1-c)^k`; if every block has one, the run returns (`carma_run_within`); sum of a geometric series |
| C105 | proved | a history with setters keeps the lengths and the stored gaps (`LiveP.whole`), so two objects whose getters agree are `PSame`; when the system cannot be solved or the number of coefficients is wrong every call stops in `Reset` with the same exception (`reset_cases`) |
| C106 | proved | every operation of the filters and log-densities commutes with the change of sign of means, values and innovations (`flip1_call`, `flipP_call`, `flipCar1_logDensity`, `flipCarP_logDensity`); induction over the sequence of calls; canonical form of the doubles next to a number for ties to even |
| C107 | proved | involution on parameter objects commuting with log-density and starting values (`Mirrors`); conjugation of the proposal factor with a diagonal matrix of signs commutes with the rank-one update (`flip_cholRow`); induction over steps, sweeps and samples (`flip_run`) |
| C108 | proved | simulation of the real `init()` by the machine one (`dec_init`: a difference of two doubles rounds to a number of the same sign, to zero only if it is zero); values and errors carried by position (`finit_kept`); sign of `1/min(dt)` (`unsorted_freq`) |
| C109 | proved | taking absolute values of the errors commutes with every operation of the filters (`abs1_call`, `absP_call`); for the log-densities objects are compared up to this map (`same_map`, `answers_same`) |
| C110 | proved | a relation between parameter objects that the log-density and the starting values respect is respected by the whole sampler (`Bisim`, `bis_run`); the relation is "equal up to the signs of the errors" |
| C64 | proved | order statistics of the sorted list; Cauchy–Schwarz for mean against median |

## 5. Where the code disagrees with what one would expect

Proved (theorem in brackets):

1. Unsorted data: the filter sorts its own copy, `LogDensity` uses the caller's order. The log-density of unsorted data is −inf, in
   maximum-likelihood mode values are paired with the wrong times, repeated times end in a bounds exception (`C19_*`).
2. `ZCAR` has a member `ma_coefs_` that hides the base member, so its likelihood uses moving-average polynomial 1 (`C20_*`).
3. `SetMLE(true)` leaves the log-prior in the value; `CAR1` ignores the flag altogether (`C42_*`).
4. With one walker the only chain runs at temperature 100 (`C31_one_walker_temperature`).
5. `StretchProposal::LogDensity` treats moves below 1e-10 as no move, and loses the Hastings factor; with one walker the search for a partner never ends (`C34_*`).
6. `Filter` does not notice vectors that are too long, a value vector one short (CAR(1)), nor times replaced by `SetTime` (`C45_mismatch_unnoticed`, `C45_set_time_unnoticed`). `Filter` before any roots are set reads an uninitialised order (`C45_carma_unset_order`).
7. A CAR(1) chain started outside the prior stays at −inf until a proposal with finite density is drawn; it is recorded all the same (`C32_car1_frozen`, `C32_car1_stuck_outside`, `C30_car1`; in double precision `C93_run_outside_negation`).
8. Constant data make the initial proposal covariance singular: the run throws (`C46_constant_values_fail`). Two observations leave no admissible frequency range for p>=2: the search for a starting value never ends (`C46_two_points_hang`). From three observations on it ends with probability one (`C77_run_returns`).
9. `choose_order` ignores `qmax` (`C41_negation`), its AICc counts one parameter less than is fitted (`C40_param_count`).
10. `get_mle` returns the first trial when its value is NaN (`C51_nan_first`). Two observations give an empty search interval (`C52_two_points`).
11. `predict` and `simulate` of the sample classes ignore the fitted error scale (`C55_negation`).
12. `CarmaSample` log-likelihoods, and hence DIC, include the log-prior (`C56_negation`): the column `loglik` equals the column `logpost` (`C58_loglik_is_logpost`). `run_mcmc` with `p=1` ignores `q`; with `nsamples=0` it reads the first of no samples (`C58_car1_returns`).
13. Mean/median roots need not be closed under conjugation (`C57_negation`).
14. The check on the number of samples in `plot_power_spectrum` has no effect, thinning repeats samples (`C54_thin_repeats`).
15. `get_ar_roots` drops the conjugate of roots with centroid at most 1e-10 (`C44_zero_centroid`); `carma_variance` ignores moving-average coefficients beyond `p` (`C48_extra_ignored`); `car1_process` gives NaN on unsorted times (`C49_car1_unsorted`).
16. The prompt reads an uninitialised seed after a burn-in that is not a number, hangs on a sample size that is not a number, and erases the data file when the output has the same name (`C38_*`).
17. `KalmanFilterDeprecated` cannot predict at or before the first observation, and cannot be used with one root (`C59_numpy_backcast_raises`, `C59_numpy_one_root_raises`).
18. `Predict` at the time of an observation without measurement error divides by zero instead of returning the observed value; `Simulate` fails for the same reason at such a time and at repeated request times, and only then (`C60_*`).
19. `assess_fit` starts its curve at 1.001 times the first time: before the data for negative times, after all data for Julian dates of a short campaign (`C62_grid_negation_*`). It raises with at most 50 observations (`C62_short_raises`), and its residuals are not those of the fitted model when the error scale is not 1 (`C61_negation`).
20. `plot_power_spectrum` with two times has decreasing frequencies (`C63_frequencies`); its band may contain no sample (`C63_coverage_negation`); `Car1Sample.plot_power_spectrum(nsamples=...)` indexes with floats and raises (`C63_car1`). The figure is never returned (`sp` is reassigned before it is compared with `None`; not modelled).
21. `add_mle` raises for every estimate under Python 3 (`C65_negation`); with integer division and an estimate of larger order it reads an uninitialised array (`C65_other_order`).
22. `bestfit='median'` takes medians of complex roots (real part first), which need not be closed under conjugation (`C66_median_negation`); `Car1Sample` with `bestfit='random'` uses the means (`C66_car1_random_negation`); `posterior_summaries` of a vector raises (`C64_vector_raises`), its branch for vectors is never reached.
23. There is no prior on the moving-average parameters of a CARMA model: as functions of them alone the density stays bounded away from 0, so the density that `RunCarmaSampler` explores for `q ≥ 1` has infinite mass at every temperature and there is no posterior distribution (`C68_carma_negation`). The chains still satisfy detailed balance (C67) with respect to that infinite measure. For CAR(1), CARp and ZCAR the density to the power `1/T` has infinite mass exactly if at least `2T` measurements have error 0 and all of those have the same value (`C68_car1_negation`, `C68_car_negation`): the likelihood then grows without bound as the standard deviation tends to 0. In both cases the chains never settle (C84).
24. `report_iter = burnin + thin * sample_size` is computed in `int`; where it overflows the behaviour is undefined although the number is needed for a message only, and not at all in `RunCar1Sampler` (`C70_carma_overflow`, `C70_car1_overflow`; witness: 50000 samples, thinning 50000). Negative or zero thinning is not rejected and records one value `N` times (`C70_carma_thin`). A negative burn-in makes the exchange steps report several times (`C71_carma`).
25. Without measurement errors the CAR(1) log-density is NaN wherever `exp(-w dt)` rounds to 1 between two neighbours (`w dt < 2^-54`), although the exact value is finite there (`C73_error_free_nan`, `C73_witness`). Nothing in the code looks for this; a NaN proposal is never accepted (C23), so the chain cannot enter that part of the prior.
26. The density in the comment on `scaled_inverse_chisqr` (`random.cpp` line 178) has `dof * x` where the law has `2 x` in the exponent. The code is right and the comment is wrong, except for two degrees of freedom (`C76_comment`). `uniform_integer` is declared and never defined; `mtdist`, `beta` and `weibull` draw nothing: the first returns an uninitialised vector, the others 0. None is called.
27. The centroids are required to decrease up to a tolerance of `1e-8` (`carpack.cpp` lines 353-362), an absolute number in inverse time units. With times in seconds it is comparable with frequencies of years: the ordering is then not enforced and the posterior has its label-switched copies. The log-posterior hence depends on the unit of time (`C78_unit_dependence`).
28. The ordering of the centroids does not identify the parameters when more than one root is real, and the factors of the moving average are not ordered: the posterior has several copies of such models (`C79_real_copies`, `C79_ma_copies`, `C79_copies`). Marginal posteriors of the raw coordinates mix the copies; the likelihood and everything derived from the roots does not.
29. The prior allows centroids up to `max_freq_ = 1/dt_min`, which for evenly spaced times is twice the Nyquist frequency: CARMA(2,1) parameters with frequency `b` and `2π/Δ − b` (and their own moving-average coefficients) have the same posterior for all data (`C86_carma_alias_negation`). The prior also does not compare autoregressive roots with those of the moving average: where one cancels the other its value does not change the posterior (`C86_carma_cancel_negation`).
30. `MCMCSample.generate_from_file` uses the first line with its newline as the key, so no parameter can be asked for by its name (`C87_name_negation`); the constructors of the sample classes ignore their argument `filename` (`C87_filename_ignored`); `CarmaSample.generate_from_file` leaves the derived columns of the old samples in place (`C87_reload_negation`); the arguments `logpost` and `trace` of the base class raise (`C87_base_arguments`).
31. The run functions compute the variance of the values as mean square minus squared mean. For values with a large offset this loses all digits: for `300000002, 300000004` it gives -16, so the prior bound is NaN and `arma::chol` throws before the first iteration (`C89_negation`; any computed variance that is not positive has this effect, `C89_fails`). Python's `CarmaModel` does not subtract the mean before calling.
32. `AdaptiveMetro::DoStep` divides by the norm of the vector of variates without a test for zero. If all variates of an iteration of the burn-in are zero, the update of the factor meets `inf * 0`, its diagonal becomes NaN, every later proposal has a NaN and is rejected, and the sample is one repeated value (`C90_zero_draw`, `C90_nan_stuck`; in practice such a draw does not occur).
33. `KalmanFilter1::Predict` divides by the variance given the past without a test for zero. Shortly after a precisely measured observation (errors below about 1e-8 of the standard deviation of the process) this variance is computed as 0 and the result is NaN with variance 0, though the exact answer is finite (`C91_predict_nan`, `C91_witness`). With an error-free observation the same happens in exact arithmetic at its own time only (C02 excludes it).
34. `Simulate` sorts its copy of the times and returns the values in sorted order; Python's `simulate` hands them back as they are, although its documentation promises values "at the input values of time". For times that are not increasing the values do not belong to the positions of the request (`C92_order_lost`, `C92_car1_aligned_iff`, `C92_witness`). `predict` keeps the order.
35. `Simulate` treats each simulated value as an error-free observation. In double precision a time requested twice, a time at which there is an error-free observation, or two requested times so close that the decay factor between them is rounded to 1 (with an observation later) give NaN, silently, for that time and every later one (`C94_twice_nan`, `C94_observed_nan`, `C94_close_nan`, `C94_witness`; otherwise, for data of moderate size, all values are finite, `C94_all_finite`; `C60_car1_simulate_iff` says when the code in real numbers divides by zero). The request is not checked.
36. `get_mle` with several processes does not try `ntrials` random starts. The workers are forks of the caller, all with the same state of all generators, which nobody seeds again: the results are those of the first `m` trials of one process, `m` being the largest number of trials one worker happened to run, at best `ntrials / njobs` (`C95_parallel_trials`, `C95_parallel_few`, `C95_parallel_same`). The caller's generators do not move, so calling again, or the next order in `choose_order`, repeats the same starts (`C95_parallel_again`). With one process, the default, it raises under Python 3 (`C95_python3`), and `setup.py` contains an f-string, so Python 3 is what the package is installed under.
37. The order is not checked. `try: p > q except ValueError` in the constructor, `run_mcmc` and `get_mle` compares and discards; `BOOST_ASSERT_MSG(q < p)` is compiled out under `-DNDEBUG`, which Python's build flags contain (with assertions on, the process aborts instead). With `q >= p >= 2` every run ends with an out-of-bounds exception of Armadillo (`C96_run_throws`), also inside `choose_order` with such a pair in its list (`C96_choose_order`); with `p = 1` any `q` is accepted and ignored (`C96_one_ignores_q`), although the AICc counts it (C53).
38. What `get_mle` minimises, and returns as `fun`, is not minus the log-likelihood: the log-prior of the error scale stays in (`SetMLE(True)` only skips the bounds, and is not called for `p = 1`). It makes `fun` larger by more than 24 (`C97_not_loglik`), hence the deviance in the AICc by more than 48; comparisons between orders are shifted alike. For `p > 1` an estimate with two equal AR roots has the value infinity (`C97_carma`).
39. `carma_process` stores its values in `np.empty_like(time)`. For an integer array of times (`np.arange(100)`) every value is truncated to an integer, silently, and the truncated value is what later ones are conditioned on (`C98_integers`, `C98_zeros`, `C98_integer_negation`). `car1_process` uses `np.zeros` and is not affected, so for `p = 1` the same call works. A repeated time gives NaN from the value after next on (`C98_repeated`), while `car1_process` handles it.
40. ZCARMA: `inv_logit(x) = exp(x) / (1 + exp(x))` is `inf/inf` for `x > 709.8`, so that all moving-average coefficients are NaN and the log-density is NaN; `LogPrior` adds `-x - 2 log(1 + exp(-x))`, which is `-inf` for `x < -709.8` though the exact value is about `x`. Both are harmless in a chain (a proposal with NaN or `-inf` is rejected, C90), but a chain cannot start there, and `C99_zcarma_witness` gives data for which the exact value is finite.
41. `StartingValue` and `SetStartingValue` of CARp, CARMA and ZCAR call `Filter()` themselves, before `LogDensity`, and outside any `try`. `LogDensity` turns the exception of a singular system into `-inf`; here it ends the run (`C100_throws`, `C100_twin`, `C100_throws_witness`). For continuous draws the event has probability zero, except that for two observation times `max_freq_` equals `min_freq`, and `StartingAR` then proposes equal factors always: with `p >= 4` such a run throws where `solve` refuses singular systems. With two times no vector meets the prior bounds anyway, and no run returns (`C100_two_times`). The filter run is not needed: `LogDensity` runs it again.
42. With `nwalkers = 1` the only chain, whose samples are returned, has temperature `exp(log(100))`, about 100, in machine numbers as well (`C100_one_walker`); with two or more chains it has temperature exactly 1 where the library's `exp(0)` is 1 (`C100_cold`). With `nwalkers = 0` the code reads the first element of an empty ensemble, whatever the other arguments (`C100_no_walker`).
43. `StartingAR` calls `RandGen.uniform(log(min_freq), log(lorentz_cent(p_/2-1)))` for odd `p` (lines 288-291). The second bound is the logarithm of a rounded exponential of the first plus something that may be zero; if the draw is zero, or with two observation times, nothing keeps it from being below the first by a rounding error, which Boost forbids. The model makes that undefined behaviour; C102 excludes it for draws of at least `2^-40` and three times.

Observed in the text, recorded without a theorem:

* `CARMA_Base::Save` hides `Parameter::Save`; `make_shared` copies share the filter pointer; `SetSeed` does not control Armadillo's `randu`/`randn`.
* `BOOST_ASSERT(q < p)` disappears under `NDEBUG`.
* `CAR1::StartingValue` compares `log_omega` with `max_freq_`, which has no effect (C93); starting values of tempered chains are drawn twice.
* An exception in `Simulate` between extension and restoration would leave the extended series in the object; C94 and C103 show that no operation of a filter throws there.
* Python: `Car1Sample` thinning does not cast to int, `np.random.random_integers` no longer exists, `carma_process` sorts the caller's array in place and truncates for integer times, comparisons inside `try/except` without effect.

## 6. Trusted base

* The Lean 4.33.0 kernel and the Mathlib oleans shipped with it.
* Axioms: every theorem of `Verif.Props` depends on a subset of `propext`, `Classical.choice`, `Quot.sound` (table in section 7). No axioms are added; no `sorry`, `admit`, `native_decide`, `bv_decide`, `implemented_by`, `unsafe`.
* The reading of `/repo` recorded in the comments of `Verif/Model`: that each definition says what the cited lines do.
* The idealisations of section 2, chiefly exact real arithmetic (everywhere but C72–C75, C89–C91, C93, C94 and C99–C103, C105–C110).
* That the specifications in `Verif/Spec` mean what their comments say.

## 7. Property theorems and their axioms

Abbreviations: P `propext`, C `Classical.choice`, Q `Quot.sound`. Names are in `Verif.Props`.

| id | status | theorems (axioms) |
|---|---|---|
| C01 | proved | `C01_car1_filter_exact` (PCQ) |
| C02 | proved | `C02_car1_predict_exact` (PCQ) |
| C03 | proved | `C03_carma_filter_exact` (PCQ) |
| C04 | proved | `C04_carma_predict_exact` (PCQ) |
| C05 | proved | `C05_car1_logpost` (PCQ) |
| C06 | proved | `C06_carma_logpost` (PCQ) |
| C07 | proved | `C07_variance` (PCQ), `C07_variance_filter` (PCQ) |
| C08 | proved | `C08_car1_stdev` (PCQ), `C08_carp_stdev` (PCQ) |
| C09 | proved | `C09_arRoots` (PCQ) |
| C10 | proved | `C10_carmaMA` (PCQ) |
| C100 | partial | `C100_run` (PCQ), `C100_init` (PCQ), `C100_search` (PCQ), `C100_nearest` (PCQ), `C100_throws` (PCQ), `C100_twin` (PCQ), `C100_throws_witness` (PCQ), `C100_cold` (PCQ), `C100_one_walker` (PCQ), `C100_no_walker` (PCQ), `C100_two_times` (PCQ) |
| C101 | proved | `C101_predict_accurate` (PCQ), `C101_forecast_accurate` (PCQ) |
| C102 | proved | `C102_pass` (PCQ), `C102_run` (PCQ), `C102_exact` (PCQ) |
| C103 | proved | `C103_new` (PCQ), `C103_predict` (PCQ), `C103_simulate` (PCQ), `C103_filter` (PCQ), `C103_nan` (PCQ), `C103_exact_refines` (PCQ), `C103_exact` (PCQ) |
| C104 | proved | `C104_tail` (PCQ), `C104_mean` (PCQ), `C104_grab` (PCQ) |
| C105 | proved | `C105_shown` (PCQ), `C105_outcome` (PCQ), `C105_set` (PCQ), `C105_data` (PCQ), `C105_car1` (PCQ), `C105_car1_set` (PCQ), `C105_set_time` (PCQ) |
| C106 | proved | `C106_nearest` (PCQ), `C106_setup` (PCQ), `C106_car1_filter` (PCQ), `C106_carma_filter` (PCQ), `C106_car1_density` (PCQ), `C106_carma_density` (PCQ) |
| C107 | proved | `C107_car1` (PCQ), `C107_carma` (PCQ) |
| C108 | proved | `C108_init` (PCQ), `C108_order` (PCQ), `C108_unsorted` (PCQ) |
| C109 | proved | `C109_car1_filter` (PCQ), `C109_carma_filter` (PCQ), `C109_car1_density` (PCQ), `C109_carma_density` (PCQ) |
| C11 | proved | `C11_polycoefs` (PCQ) |
| C110 | proved | `C110_car1` (PCQ), `C110_carma` (PCQ), `C110_car1_drawn` (PCQ), `C110_carma_drawn` (PCQ) |
| C12 | proved | `C12_zcarmaMA` (PCQ), `C12_default_kappa` (PCQ) |
| C13 | proved | `C13_car1_bounds` (PCQ), `C13_carp_bounds` (PCQ), `C13_default_bounds` (PCQ) |
| C14 | proved | `C14_unique_roots` (PCQ) |
| C15 | proved | `C15_car1_history` (PCQ), `C15_carp_history` (PCQ) |
| C16 | proved | `C16_car1_variance_bounds` (PCQ) |
| C17 | proved | `C17_car1_filter` (PCQ), `C17_carma_filter` (PCQ), `C17_car1_predict` (PCQ), `C17_carma_predict` (PCQ) |
| C18 | proved | `C18_init` (PCQ) |
| C19 | partial | `C19_filter_order_partial` (PCQ), `C19_negation` (PCQ), `C19_unsorted_rejected` (PCQ), `C19_repeated_fault` (PCQ), `C19_mle_scrambled` (PCQ) |
| C20 | partial | `C20_zcar_is_carp` (PCQ), `C20_negation` (PCQ) |
| C21 | proved | `C21_car1_history` (PCQ), `C21_carma_history` (PCQ) |
| C22 | proved | `C22_car1_simulate_exact` (PCQ), `C22_carma_simulate_exact` (PCQ) |
| C23 | proved | `C23_balance` (PCQ), `C23_ram_accepts` (PCQ), `C23_ram_symmetric` (PCQ), `C23_metro_accepts` (PCQ), `C23_normal_density` (PCQ), `C23_student_density` (PCQ), `C23_multinormal_density` (PCQ), `C23_lognormal_density` (PCQ) |
| C24 | proved | `C24_ram_step` (PCQ), `C24_metro_step` (PCQ), `C24_sweeps` (PCQ) |
| C25 | proved | `C25_carma` (PCQ), `C25_car1` (PCQ) |
| C26 | proved | `C26_swap_probability` (PCQ), `C26_reversible` (PCQ), `C26_exchange` (PCQ) |
| C27 | proved | `C27_ram_update` (PCQ), `C27_ram_forever` (PCQ) |
| C28 | proved | `C28_ram_stops` (PCQ), `C28_sweeps` (PCQ), `C28_carma` (PCQ), `C28_car1` (PCQ) |
| C29 | proved | `C29_run` (PCQ) |
| C30 | proved | `C30_carma` (PCQ), `C30_car1` (PCQ) |
| C31 | partial | `C31_temperatures_partial` (PCQ), `C31_one_walker_temperature` (PCQ), `C31_only_chain_0_recorded` (PCQ) |
| C32 | proved | `C32_start_finite` (PCQ), `C32_setStart` (PCQ), `C32_good_init_taken` (PCQ), `C32_car1_frozen` (PCQ), `C32_car1_stuck_outside` (PCQ) |
| C33 | proved | `C33_carma` (PCQ), `C33_car1` (PCQ) |
| C34 | partial | `C34_draw` (PCQ), `C34_correction_partial` (PCQ), `C34_step_partial` (PCQ), `C34_density` (PCQ), `C34_balance` (PCQ), `C34_small_move_uncorrected` (PCQ), `C34_one_walker_hangs` (PCQ) |
| C35 | proved | `C35_inverts` (PCQ), `C35_distribution` (PCQ), `C35_minus_one` (PCQ) |
| C36 | proved | `C36_log_prior` (PCQ) |
| C37 | proved | `C37_logit` (PCQ) |
| C38 | proved | `C38_validated` (PCQ), `C38_same_file_erased` (PCQ), `C38_first_valid` (PCQ), `C38_word_for_burnin` (PCQ), `C38_word_for_size_hangs` (PCQ) |
| C39 | proved | `C39_save_recover` (P), `C39_unopenable` (P), `C39_seed_choice` (PCQ) |
| C40 | proved | `C40_choose_order` (PCQ), `C40_exceptions` (PCQ), `C40_param_count` (PCQ) |
| C41 | partial | `C41_search_partial` (PCQ), `C41_negation` (PCQ) |
| C42 | partial | `C42_mle_value_partial` (PCQ), `C42_negation` (PCQ), `C42_car1_ignores_flag` (PCQ) |
| C43 | proved | `C43_ar_coefs` (PCQ), `C43_fourier` (PCQ), `C43_autocovariance` (PCQ), `C43_variance_pair` (PCQ) |
| C44 | proved | `C44_roundtrip` (PCQ), `C44_python` (PCQ), `C44_zero_centroid` (PCQ) |
| C45 | partial | `C45_few_points` (PCQ), `C45_unsorted_short` (PCQ), `C45_car1_filter_needs_partial` (PCQ), `C45_car1_filter_faults` (PCQ), `C45_carma_filter_needs_partial` (PCQ), `C45_carma_filter_faults` (PCQ), `C45_carma_bad_order` (PCQ), `C45_carma_unset_order` (PCQ), `C45_car1_filter_iff` (PCQ), `C45_carma_filter_iff` (PCQ), `C45_mismatch_unnoticed` (PCQ), `C45_set_time_unnoticed` (PCQ) |
| C46 | proved | `C46_carma_run_returns` (PCQ), `C46_car1_run_returns` (PCQ), `C46_car1_run_returns_any_init` (PCQ), `C46_carma_run_any_init` (PCQ), `C46_two_points_never_return` (PCQ), `C46_two_points_hang` (PCQ), `C46_constant_values_fail` (PCQ) |
| C47 | proved | `C47_carma` (PCQ), `C47_car1` (PCQ) |
| C48 | proved | `C48_python_variance` (PCQ), `C48_extra_ignored` (PCQ) |
| C49 | proved | `C49_car1` (PCQ), `C49_car1_unsorted` (PCQ), `C49_carma` (PCQ), `C49_carma1` (PCQ) |
| C50 | proved | `C50_data` (PCQ), `C50_order` (PCQ), `C50_car1_posterior` (PCQ) |
| C51 | partial | `C51_best_partial` (PCQ), `C51_nan_first` (PCQ) |
| C52 | proved | `C52_start_in_box` (PCQ), `C52_car1_box` (PCQ), `C52_two_points` (PCQ) |
| C53 | proved | `C53_derived` (PCQ) |
| C54 | proved | `C54_psd` (PCQ), `C54_thin` (PCQ), `C54_thin_repeats` (PCQ) |
| C55 | partial | `C55_carma_predict_partial` (PCQ), `C55_car1_predict_partial` (PCQ), `C55_scale_one` (PCQ), `C55_carma_simulate_partial` (PCQ), `C55_simulate_law_partial` (PCQ), `C55_negation` (PCQ) |
| C56 | partial | `C56_car1_loglik` (PCQ), `C56_carma_loglik_partial` (PCQ), `C56_negation` (PCQ), `C56_dic` (PCQ) |
| C57 | partial | `C57_mean_partial` (PCQ), `C57_mean_predict_partial` (PCQ), `C57_negation` (PCQ) |
| C58 | proved | `C58_carma` (PCQ), `C58_carma_outcome` (PCQ), `C58_loglik_is_logpost` (PCQ), `C58_two_times` (PCQ), `C58_car1` (PCQ), `C58_car1_returns` (PCQ) |
| C59 | proved | `C59_numpy_filter_exact` (PCQ), `C59_numpy_predict_exact` (PCQ), `C59_numpy_simulate_exact` (PCQ), `C59_numpy_agrees_with_compiled` (PCQ), `C59_numpy_backcast_raises` (PCQ), `C59_numpy_one_root_raises` (PCQ), `C59_numpy_repeated_root_raises` (PCQ) |
| C60 | partial | `C60_car1_law` (PCQ), `C60_carma_law` (PCQ), `C60_car1_negation` (PCQ), `C60_carma_negation` (PCQ), `C60_numpy_negation` (PCQ), `C60_car1_simulate_iff` (PCQ), `C60_carma_simulate_iff` (PCQ) |
| C61 | partial | `C61_carma_residuals_partial` (PCQ), `C61_car1_residuals_partial` (PCQ), `C61_sum_of_squares` (PCQ), `C61_negation` (PCQ) |
| C62 | partial | `C62_grid` (PCQ), `C62_grid_negation_before` (PCQ), `C62_grid_negation_after` (PCQ), `C62_acorr` (PCQ), `C62_short_raises` (PCQ), `C62_car1_returns_partial` (PCQ), `C62_carma_returns_partial` (PCQ), `C62_car1_errorFree_negation` (PCQ), `C62_carma_errorFree_negation` (PCQ) |
| C63 | partial | `C63_percentile` (PCQ), `C63_percentile_exact` (PCQ), `C63_percentile_fail` (PCQ), `C63_band` (PCQ), `C63_coverage_negation` (PCQ), `C63_frequencies` (PCQ), `C63_carma` (PCQ), `C63_carma_thinned` (PCQ), `C63_car1` (PCQ) |
| C64 | proved | `C64_summaries` (PCQ), `C64_vector_raises` (PCQ) |
| C65 | partial | `C65_negation` (PCQ), `C65_add_mle_partial` (PCQ), `C65_other_order` (PCQ) |
| C66 | partial | `C66_median_predict_partial` (PCQ), `C66_medians_exist` (PCQ), `C66_single` (PCQ), `C66_random_predict_partial` (PCQ), `C66_median_negation` (PCQ), `C66_car1_median` (PCQ), `C66_car1_mean` (PCQ), `C66_car1_random_negation` (PCQ) |
| C67 | proved | `C67_carma` (PCQ), `C67_car1` (PCQ) |
| C68 | partial | `C68_car1_proper_partial` (PCQ), `C68_car_proper_partial` (PCQ), `C68_carma_negation` (PCQ), `C68_car1_negation` (PCQ), `C68_car_negation` (PCQ) |
| C69 | proved | `C69_car` (PCQ), `C69_car1` (PCQ) |
| C70 | proved | `C70_carma` (PCQ), `C70_car1` (PCQ), `C70_carma_overflow` (PCQ), `C70_car1_overflow` (PCQ), `C70_carma_negative` (PCQ), `C70_car1_negative` (PCQ), `C70_carma_domain` (PCQ), `C70_car1_domain` (PCQ), `C70_carma_thin` (PCQ), `C70_car1_thin` (PCQ) |
| C71 | proved | `C71_carma` (PCQ), `C71_car1` (PCQ), `C71_carma_rates` (PCQ), `C71_car1_rates` (PCQ), `C71_fractions` (PCQ) |
| C72 | proved | `C72_car1_finite` (PCQ), `C72_nearest` (PCQ) |
| C73 | proved | `C73_error_free_nan` (PCQ), `C73_witness` (PCQ) |
| C74 | proved | `C74_exact_refines` (PCQ), `C74_construct` (PCQ), `C74_any_order` (PCQ) |
| C75 | proved | `C75_car1_accurate` (PCQ), `C75_nearest` (PCQ) |
| C76 | proved | `C76_exp` (PCQ), `C76_normal` (PCQ), `C76_lognormal` (PCQ), `C76_uniform` (PCQ), `C76_powerlaw` (PCQ), `C76_tdist` (PCQ), `C76_chisqr` (PCQ), `C76_scaled_inverse_chisqr` (PCQ), `C76_comment` (PCQ), `C76_gamma` (PCQ), `C76_invgamma` (PCQ), `C76_prior` (PCQ), `C76_standard_normal` (PCQ), `C76_standard_lognormal` (PCQ), `C76_standard_uniform` (PCQ), `C76_multinormal` (PCQ) |
| C77 | proved | `C77_run_returns` (PCQ), `C77_grab` (PCQ), `C77_grab_alone` (PCQ) |
| C78 | partial | `C78_car1_units` (PCQ), `C78_carma_origin` (PCQ), `C78_carma_units_partial` (PCQ), `C78_unit_dependence` (PCQ) |
| C79 | partial | `C79_same_model` (PCQ), `C79_represented` (PCQ), `C79_identified_partial` (PCQ), `C79_real_copies` (PCQ), `C79_ma_copies` (PCQ), `C79_copies` (PCQ) |
| C80 | proved | `C80_car1_predict` (PCQ), `C80_carma_predict` (PCQ), `C80_car1_coherent` (PCQ), `C80_carma_coherent` (PCQ) |
| C81 | proved | `C81_car1_simulate` (PCQ), `C81_carma_simulate` (PCQ), `C81_numpy_simulate` (PCQ) |
| C82 | proved | `C82_car1_likelihood` (PCQ), `C82_carma_likelihood` (PCQ), `C82_logit` (PCQ) |
| C83 | proved | `C83_car_run` (PCQ), `C83_car1_run` (PCQ), `C83_car1_stuck` (PCQ) |
| C84 | proved | `C84_carma_escapes` (PCQ), `C84_carma_no_limit` (PCQ), `C84_carma_no_law` (PCQ), `C84_carma_one_walker` (PCQ), `C84_carma_vanishes` (PCQ), `C84_car1` (PCQ) |
| C85 | proved | `C85_car` (PCQ), `C85_car_cold` (PCQ), `C85_car_unique` (PCQ), `C85_car1` (PCQ) |
| C86 | partial | `C86_car1_identified_partial` (PCQ), `C86_car1_conditions` (PCQ), `C86_carma_identified_partial` (PCQ), `C86_carma_alias_negation` (PCQ), `C86_carma_cancel_negation` (PCQ) |
| C87 | partial | `C87_from_files_partial` (PCQ), `C87_name_negation` (PCQ), `C87_copies_safe` (PCQ), `C87_filename_ignored` (PCQ), `C87_reload_partial` (PCQ), `C87_reload_negation` (PCQ), `C87_base_arguments` (PCQ) |
| C88 | proved | `C88_car_law` (PCQ), `C88_car1_law` (PCQ) |
| C89 | partial | `C89_variance` (PCQ), `C89_setup_partial` (PCQ), `C89_fails` (PCQ), `C89_exact` (PCQ), `C89_negation` (PCQ) |
| C90 | partial | `C90_car1_run` (PCQ), `C90_nearest` (PCQ), `C90_car1_accurate` (PCQ), `C90_ensemble` (PCQ), `C90_nan_stuck` (PCQ), `C90_zero_draw` (PCQ), `C90_exact_sampler` (PCQ), `C90_exact_run` (PCQ) |
| C91 | partial | `C91_predict_finite_partial` (PCQ), `C91_predict_nan` (PCQ), `C91_witness` (PCQ), `C91_predict_repeatable` (PCQ), `C91_exact_refines` (PCQ) |
| C92 | partial | `C92_order_lost` (PCQ), `C92_car1_aligned_iff` (PCQ), `C92_carma_sorted_partial` (PCQ), `C92_witness` (PCQ) |
| C93 | partial | `C93_values` (PCQ), `C93_decides` (PCQ), `C93_nearest` (PCQ), `C93_run_inside_partial` (PCQ), `C93_run_outside_negation` (PCQ), `C93_exact` (PCQ) |
| C94 | partial | `C94_returns` (PCQ), `C94_new_whole` (PCQ), `C94_rejects` (PCQ), `C94_repeatable` (PCQ), `C94_exact_refines` (PCQ), `C94_spread` (PCQ), `C94_nan_data` (PCQ), `C94_twice_nan` (PCQ), `C94_close_nan` (PCQ), `C94_observed_nan` (PCQ), `C94_witness` (PCQ), `C94_all_finite` (PCQ), `C94_first_partial` (PCQ) |
| C95 | partial | `C95_sequential` (PCQ), `C95_pool_returns` (PCQ), `C95_parallel_trials` (PCQ), `C95_parallel_value` (PCQ), `C95_parallel_again` (PCQ), `C95_parallel_few` (PCQ), `C95_parallel_same` (PCQ), `C95_python3` (PCQ), `C95_witness` (PCQ) |
| C96 | partial | `C96_density` (PCQ), `C96_run_never` (PCQ), `C96_run_throws` (PCQ), `C96_fit` (PCQ), `C96_one_ignores_q` (PCQ), `C96_zcar_ignores_q` (PCQ), `C96_trial` (PCQ), `C96_choose_order` (PCQ), `C96_witness` (PCQ) |
| C97 | partial | `C97_car1` (PCQ), `C97_carma` (PCQ), `C97_carma_returns` (PCQ), `C97_car1_best` (PCQ), `C97_not_loglik` (PCQ) |
| C98 | partial | `C98_doubles` (PCQ), `C98_values` (PCQ), `C98_integers` (PCQ), `C98_zeros` (PCQ), `C98_integer_negation` (PCQ), `C98_repeated` (PCQ) |
| C99 | partial | `C99_never_pinf` (PCQ), `C99_same` (PCQ), `C99_exact` (PCQ), `C99_exact_likelihood` (PCQ), `C99_zcarma_edge` (PCQ), `C99_zcarma_witness` (PCQ) |
