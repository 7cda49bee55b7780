{"id": "C01", "title": "CAR(1) filter output is the exact Gaussian one-step prediction", "statement": "For a CAR(1) filter object built from strictly increasing times, with sigsqr>0 and omega>0, Filter() terminates without fault and GetMean()[i], GetVar()[i] are the conditional mean and variance of y[i] given y[0..i-1] under the zero-mean Gaussian law whose covariance is sigsqr/(2 omega) exp(-omega|t_i-t_j|) plus yerr[i]^2 on the diagonal.", "quantifier": "every series length n>=2, every strictly increasing time vector, every y and yerr (including zero errors), every sigsqr>0 and omega>0, every index i", "why_tests_cant": "Tests compare a few simulated series against precomputed numbers; exactness for every irregular sampling pattern and length is an induction over the recursion.", "anchors": ["src/kfilter.cpp: KalmanFilter1::Reset, KalmanFilter1::Update", "src/include/kfilter.hpp: KalmanFilter::Filter"]}
{"id": "C02", "title": "CAR(1) Predict is the exact Gaussian conditional at any time", "statement": "KalmanFilter1::Predict(t) returns the conditional mean and variance of the noise-free process value at time t given the whole series, whether t is before the first, between, equal to (with positive error bar), or after the observation times.", "quantifier": "every series, every real prediction time not coinciding with a noise-free observation, every sigsqr>0, omega>0", "why_tests_cant": "Forecast, interpolation and backcast run different code paths and the precision recursion runs over arbitrarily many later points; a sample of times cannot cover them.", "anchors": ["src/kfilter.cpp: KalmanFilter1::Predict, InitializeCoefs, UpdateCoefs"]}
{"id": "C03", "title": "CARMA(p,q) filter output is the exact Gaussian one-step prediction", "statement": "For a CARMA filter with p>=2 distinct roots closed under conjugation and with negative real parts, real moving-average coefficients of length p not all zero, sigsqr>0 and strictly increasing times, Filter() gives at every index the conditional mean and variance of y[i] given the earlier y under the Gaussian law with the CARMA autocovariance plus measurement noise; all variances are strictly positive.", "quantifier": "every p>=2, every admissible root set and MA vector, every series and error vector, every index", "why_tests_cant": "The rotated complex state-space recursion has to be exact for all orders p and lengths n; numerical tests fix p=5 or 9 and tolerate 1e-8.", "anchors": ["src/kfilter.cpp: KalmanFilterp::Reset, KalmanFilterp::Update", "src/include/kfilter.hpp: KalmanFilter::Filter"]}
{"id": "C04", "title": "CARMA(p,q) Predict is the exact Gaussian conditional at any time", "statement": "KalmanFilterp::Predict(t) returns the conditional mean and variance of the noise-free CARMA process at time t given the whole series, for forecasting, interpolation and backcasting alike.", "quantifier": "every admissible CARMA parameter set, every series, every time not coinciding with a noise-free observation", "why_tests_cant": "Correctness of the linear-coefficient recursion (const + slope * unknown) is an identity over all n later points and all p.", "anchors": ["src/kfilter.cpp: KalmanFilterp::Predict, InitializeCoefs, UpdateCoefs"]}
{"id": "C05", "title": "CAR(1) log-posterior equals Gaussian log-density plus log-prior", "statement": "For strictly increasing input times, if theta satisfies the prior bounds (and theta(0)!=0 or all errors positive) then CAR1::LogDensity(theta) = log N(y; mu 1, K(theta)) + n/2 log(2 pi) + LogPrior(theta), K being the exact CAR(1) covariance with standard deviation theta(0), rate exp(theta(3)) and error variances theta(1) yerr^2.", "quantifier": "every data set with strictly increasing times, every theta inside the prior bounds", "why_tests_cant": "The sum over innovations equals the joint density only through the LDL factorisation of K, for all n; a numerical comparison covers single points.", "anchors": ["src/include/carpack.hpp: CARMA_Base::LogDensity, CARMA_Base::LogPrior, CAR1::ExtractAR, CAR1::ExtractSigsqr"]}
{"id": "C06", "title": "CARp/CARMA/ZCARMA log-posterior equals Gaussian log-density plus log-prior", "statement": "For strictly increasing times and theta inside the prior bounds, LogDensity(theta) of CARp, CARMA and ZCARMA equals the Gaussian log-density (up to n/2 log 2pi) of the data under the CARMA covariance implied by theta plus that class's LogPrior(theta).", "quantifier": "every p>=2, q<p, every strictly increasing data set, every theta inside the bounds with nonzero theta(0)", "why_tests_cant": "Ties together root extraction, variance normalisation and a complex Kalman filter for all orders; tests compare to stored numbers.", "anchors": ["src/include/carpack.hpp: CARMA_Base::LogDensity, CARp::ExtractSigsqr, CARMA::ExtractSigsqr, ZCARMA::ExtractSigsqr", "src/carpack.cpp: CARp::ARRoots, CARp::Variance, CARMA::ExtractMA, ZCARMA::ExtractMA"]}
{"id": "C07", "title": "Variance() is the CARMA autocovariance", "statement": "CARp::Variance(roots, ma, sigma, dt) equals sigma^2 times the integral over s>=0 of h(s)h(s+dt), where h is the impulse response of the CARMA filter; at dt=0 it is the stationary variance and equals the filter's initial prediction variance, and it is positive.", "quantifier": "every p, every distinct conjugate-closed roots with negative real part, every real MA vector of length at most p, every dt>=0", "why_tests_cant": "A rational-function identity (partial fractions) over all root configurations.", "anchors": ["src/carpack.cpp: CARp::Variance", "src/kfilter.cpp: KalmanFilterp::Reset"]}
{"id": "C08", "title": "theta(0) is the process standard deviation", "statement": "With the driving-noise variance returned by ExtractSigsqr(theta), the stationary variance of the model process is theta(0)^2 for CAR1, CARp, CARMA and ZCARMA.", "quantifier": "every theta for which the roots are distinct", "why_tests_cant": "Normalisation must hold for all parameter vectors, not a sample.", "anchors": ["src/include/carpack.hpp: CAR1::ExtractSigsqr, CARp::ExtractSigsqr, CARMA::ExtractSigsqr, ZCARMA::ExtractSigsqr"]}
{"id": "C09", "title": "AR roots are always stable, conjugate-closed and match the quadratic factors", "statement": "For every parameter vector the extracted AR roots have strictly negative real part, come in conjugate pairs or are real, and prod_k (s - root_k) equals the product of the factors s^2 + exp(theta(4+2i)) s + exp(theta(3+2i)) (times s + exp(theta(p+2)) when p is odd).", "quantifier": "every order p>=1 and every real parameter vector of length at least p+3", "why_tests_cant": "Claim over all reals and all p; includes the double-root boundary.", "anchors": ["src/carpack.cpp: CARp::ARRoots"]}
{"id": "C10", "title": "CARMA moving-average coefficients", "statement": "CARMA::ExtractMA(theta) returns p real numbers, beta_0 = 1, entries above q zero, all of beta_0..beta_q positive, and the polynomial sum beta_i s^i equals the product of the normalised quadratic factors read from theta (so it has only roots with negative real part).", "quantifier": "every p>q>=0 and every theta of length at least p+q+3", "why_tests_cant": "Needs an induction over the factor list for every q.", "anchors": ["src/carpack.cpp: CARMA::ExtractMA, polycoefs"]}
{"id": "C11", "title": "polycoefs returns the coefficients of prod (x - r_i)", "statement": "polycoefs(roots) has length n+1 and, when the roots are closed under conjugation, its entries are exactly the coefficients (highest first) of prod_i (x - r_i); the leading one is 1.", "quantifier": "every list of complex roots", "why_tests_cant": "Recursion over an arbitrary number of roots.", "anchors": ["src/carpack.cpp: polycoefs"]}
{"id": "C12", "title": "ZCARMA moving-average coefficients", "statement": "ZCARMA::ExtractMA(theta) gives the coefficients of (1 + s/kappa)^(p-1) with kappa strictly between kappa_low and kappa_high, for every theta.", "quantifier": "every p>=1, every theta, every pair of bounds 0<kappa_low<kappa_high", "why_tests_cant": "Binomial identity and range claim over all reals.", "anchors": ["src/carpack.cpp: ZCARMA::ExtractMA, inv_logit"]}
{"id": "C13", "title": "Prior bounds are enforced exactly", "statement": "LogDensity(theta) is -infinity whenever the documented bounds fail, and for CAR1 the bound check is true exactly when min_freq<=omega<=max_freq, 0<=theta(0)<=max_stdev, 0.5<=theta(1)<=2; for CARp the check is true exactly when all centroids<max_freq, min_freq<all widths<max_freq, roots pairwise separated by fractional distance >1e-4, centroids nonincreasing up to 1e-8, and the scale bounds hold.", "quantifier": "every theta of the right length and every prior setting", "why_tests_cant": "An iff over all real vectors; tests try single violations.", "anchors": ["src/carpack.cpp: CAR1::CheckPriorBounds, CARp::CheckPriorBounds, unique_roots", "src/include/carpack.hpp: CARMA_Base::CheckPriorBounds, LogDensity, SetPrior"]}
{"id": "C14", "title": "unique_roots decides pairwise separation", "statement": "For positive tolerance unique_roots(roots,tol) returns true iff every pair of distinct positions has |r_i-r_j|/|r_i+r_j|>tol (a pair with 0/0 is not counted); in particular, for roots with negative real part a true result implies the roots are pairwise different.", "quantifier": "every list of complex numbers, every tolerance>0", "why_tests_cant": "Nested loop with running minimum over arbitrary lists.", "anchors": ["src/carpack.cpp: unique_roots"]}
{"id": "C15", "title": "Log-density evaluation is independent of history", "statement": "The value of LogDensity(theta) does not depend on which thetas were evaluated, saved or rejected before: any sequence of evaluations, Save, SetLogDensity and exchange operations leaves every later LogDensity(theta) equal to the value on a fresh object.", "quantifier": "all finite sequences of API operations, all theta", "why_tests_cant": "The filter object is mutated by each evaluation; independence is a statement over all histories.", "anchors": ["src/include/carpack.hpp: CARMA_Base::LogDensity, CARMA_Base::Save", "src/include/kfilter.hpp: setters, Filter"]}
{"id": "C16", "title": "CAR(1) filter variances are positive, bounded, and data independent", "statement": "For every i: yerr[i]^2 <= var[i] <= sigsqr/(2 omega)+yerr[i]^2, var[i]>0, and var does not depend on y.", "quantifier": "every series, sigsqr>0, omega>0", "why_tests_cant": "Invariant along the recursion of unbounded length.", "anchors": ["src/kfilter.cpp: KalmanFilter1::Reset, Update"]}
{"id": "C17", "title": "Filter means are linear in the data and equivariant", "statement": "Filter means are linear in y; shifting all times by a constant changes neither means nor variances; multiplying y and yerr by c and sigsqr by c^2 multiplies means by c and variances by c^2.", "quantifier": "every series and scalars, CAR(1) and CARMA filters", "why_tests_cant": "Relational property over pairs of runs of every length.", "anchors": ["src/kfilter.cpp: KalmanFilter1, KalmanFilterp Reset/Update"]}
{"id": "C18", "title": "Constructor sorts and de-duplicates, keeping triples together", "statement": "After construction from at least two points the stored times are strictly increasing, their set equals the set of input times, every stored (time,y,yerr) triple is an input triple, and already strictly increasing data is stored unchanged; re-running the initialisation changes nothing.", "quantifier": "every list of at least two triples (with at least two distinct times), and every order the underlying sort may choose among equal times", "why_tests_cant": "Sorting and duplicate removal over arbitrary inputs, with an unspecified order among ties.", "anchors": ["src/include/kfilter.hpp: KalmanFilter::init, constructors"]}
{"id": "C19", "title": "Log-density does not depend on the order in which data are supplied", "statement": "Permuting the (time,y,yerr) triples given to the model constructor does not change LogDensity(theta).", "quantifier": "every data set, every permutation, every theta", "why_tests_cant": "Relational property over all permutations.", "anchors": ["src/include/carpack.hpp: CARMA_Base constructor, LogDensity", "src/include/kfilter.hpp: init, SetTimeSeries, SetTimeSeriesErr"]}
{"id": "C20", "title": "The z-parametrised CAR model evaluates the likelihood with its own moving-average coefficients", "statement": "For the ZCAR model, LogDensity(theta) is the likelihood of the process with MA polynomial (1+s/kappa)^(p-1), kappa = 1/min dt, plus the log-prior.", "quantifier": "every p>=2, every data set and theta", "why_tests_cant": "Which coefficients reach the filter is decided by member hiding and missing overrides; a claim about every theta.", "anchors": ["src/include/carpack.hpp: ZCAR constructor, CARp::ExtractMA, CARp::ExtractSigsqr, LogDensity"]}
{"id": "C21", "title": "Filter, Predict and Simulate do not disturb later results", "statement": "Any sequence of Filter, Predict and Simulate calls leaves times, values and errors unchanged, and a Filter call (or Predict call) after it returns exactly what it returns on a fresh object.", "quantifier": "all finite call sequences with arbitrary arguments and random draws", "why_tests_cant": "Predict overwrites stored variances and Simulate temporarily edits the data; safety is over all histories.", "anchors": ["src/include/kfilter.hpp: KalmanFilter::Filter, Simulate", "src/kfilter.cpp: Predict"]}
{"id": "C22", "title": "Simulate draws sequentially from the exact conditional law", "statement": "Simulate(times) returns one value per requested time, in increasing time order; the k-th value is drawn from a normal law whose mean and variance are the exact conditional ones given the measured series and the k values already drawn.", "quantifier": "every series, every list of pairwise distinct request times distinct from noise-free data times, every sequence of normal draws, CAR(1) and CARMA", "why_tests_cant": "Involves repeated insertion into the data and re-filtering, for arbitrarily many draws.", "anchors": ["src/include/kfilter.hpp: KalmanFilter::Simulate"]}
{"id": "C23", "title": "Metropolis-Hastings acceptance satisfies detailed balance at temperature T", "statement": "With acceptance probability min(1, exp(alpha)) as computed, pi(x)^(1/T) q(x->y) a(x,y) = pi(y)^(1/T) q(y->x) a(y,x) for every pair of states with finite log-density, whenever the proposal's LogDensity is its true log-density up to a symmetric factor (normal, Student, multivariate normal, log-normal).", "quantifier": "all pairs of states, all finite log-densities, all temperatures>0", "why_tests_cant": "Equality over a continuum of pairs.", "anchors": ["src/include/steps.hpp: MetropStep::Accept", "src/steps.cpp: AdaptiveMetro::Accept", "src/include/proposals.hpp: LogDensity of proposals"]}
{"id": "C24", "title": "A Metropolis step never moves to a state with non-finite log-density", "statement": "Whatever the proposal and random numbers, if the current stored log-density is finite it stays finite, and the new value is either the old value or the proposed value.", "quantifier": "all states, proposals, random numbers, all step sequences", "why_tests_cant": "Invariant over all histories including NaN and infinities.", "anchors": ["src/steps.cpp: AdaptiveMetro::Accept, DoStep", "src/include/steps.hpp: MetropStep, ExchangeStep::DoStep"]}
{"id": "C25", "title": "Stored log-density always belongs to the stored value", "statement": "After any number of iterations of the sampler built by RunCarmaSampler (any number of chains), each chain's GetLogDensity() equals LogDensity(Value()).", "quantifier": "all numbers of chains, all random streams, all iteration counts", "why_tests_cant": "The exchange step overwrites log-densities by hand after a Save that evaluates with a stale filter; correctness is over all interleavings of steps.", "anchors": ["src/include/steps.hpp: ExchangeStep::DoStep", "src/include/parameters.hpp: Parameter::Save, SetLogDensity", "src/include/carpack.hpp: CARMA_Base::Save"]}
{"id": "C26", "title": "Exchange step swaps or does nothing, with the tempered swap probability", "statement": "An exchange step either leaves all chains unchanged or swaps value and log-density of two neighbouring chains; the swap probability makes the product of tempered densities reversible.", "quantifier": "all chain states, temperatures>0, random numbers", "why_tests_cant": "Holds for all real log-densities; multiset preservation is over all histories.", "anchors": ["src/include/steps.hpp: ExchangeStep::DoStep"]}
{"id": "C27", "title": "RAM update is the Vihola update and keeps the proposal covariance positive definite", "statement": "Each adaptation step turns the proposal covariance S = R'R into R'(I + eta (alpha - target) u u'/|u|^2)R, keeps the factor upper triangular with positive diagonal, never takes the square root of a negative number, and hence the covariance stays symmetric positive definite for ever.", "quantifier": "all dimensions, all factors with positive diagonal, all nonzero unit proposals, all alpha in [0,1], target in (0,1), all iteration counts", "why_tests_cant": "Rank-one Cholesky up/downdate for all dimensions, and an invariant over unbounded adaptation.", "anchors": ["src/steps.cpp: AdaptiveMetro::DoStep, CholUpdateR1"]}
{"id": "C28", "title": "Adaptation stops after burn-in", "statement": "After maxiter (= burn-in) iterations the proposal covariance never changes again, so recorded samples come from a fixed-proposal Metropolis chain.", "quantifier": "all random streams and iteration counts", "why_tests_cant": "Statement about all later iterations.", "anchors": ["src/steps.cpp: AdaptiveMetro::DoStep", "src/carmcmc.cpp: RunCar1Sampler, RunCarmaSampler"]}
{"id": "C29", "title": "Sampler iteration count, thinning and alignment", "statement": "Run() performs exactly burnin + thin*sample_size sweeps; recorded sample k is the tracked chain's value after burnin + thin*(k+1) sweeps and the k-th recorded log-density is that value's log-density; exactly sample_size samples are recorded.", "quantifier": "all sample sizes, burn-ins, thinning intervals and step behaviours", "why_tests_cant": "Counting over arbitrary loops.", "anchors": ["src/samplers.cpp: Sampler::Run, Iterate, SaveValues", "src/include/parameters.hpp: SetSampleSize, AddToSample"]}
{"id": "C30", "title": "Every recorded sample has finite log-density inside the prior support", "statement": "If the starting value has finite log-density then every recorded sample has finite recorded log-density equal to LogDensity(sample), and satisfies the prior bounds.", "quantifier": "all random streams, sample sizes, chains", "why_tests_cant": "Invariant over unbounded runs.", "anchors": ["src/samplers.cpp: Sampler::Run", "src/steps.cpp: AdaptiveMetro", "src/include/steps.hpp: ExchangeStep"]}
{"id": "C31", "title": "Only the coolest chain is recorded and it samples the untempered posterior", "statement": "In RunCarmaSampler only chain 0 is tracked, its temperature is 1, and temperatures increase geometrically to 100.", "quantifier": "all numbers of chains >= 1", "why_tests_cant": "Claim for all ensemble sizes.", "anchors": ["src/carmcmc.cpp: RunCarmaSampler", "src/samplers.cpp: AddStep"]}
{"id": "C32", "title": "Starting values give a finite posterior", "statement": "If StartingValue() of CARp, CARMA or ZCARMA returns, the returned vector has finite log-density; SetStartingValue(init) returns init exactly when init has the right length and finite log-density. A CAR(1) chain whose starting value has log-density -infinity can never move.", "quantifier": "all random streams, data sets, init vectors", "why_tests_cant": "Partial correctness of a random loop; stuck-forever is a statement over all futures.", "anchors": ["src/carpack.cpp: StartingValue, SetStartingValue of CAR1, CARp, CARMA, ZCARMA", "src/steps.cpp: AdaptiveMetro::Accept"]}
{"id": "C33", "title": "Parameter dimension and proposal covariance agree", "statement": "For every model kind built by the two Run functions the initial proposal covariance is a square matrix whose size equals the length of the parameter vector produced by StartingValue, so no step indexes out of range.", "quantifier": "all p, q, model kinds", "why_tests_cant": "Holds for all orders.", "anchors": ["src/carmcmc.cpp: RunCar1Sampler, RunCarmaSampler", "src/include/carpack.hpp: constructors"]}
{"id": "C34", "title": "Stretch move is reversible with the stated Hastings factor", "statement": "The stretch scale lies in [1/a,a]; the reverse move exists with scale 1/z, the density g satisfies g(1/z)=z g(z), and the log ratio added is (d-1) log z; the partner is never the walker itself.", "quantifier": "all dimensions, walkers, a>1, uniform draws", "why_tests_cant": "Continuum of draws.", "anchors": ["src/include/proposals.hpp: StretchProposal", "src/random.cpp: RandomGenerator::powerlaw"]}
{"id": "C35", "title": "Power-law generator inverts the power-law distribution", "statement": "powerlaw(lower,upper,slope) lies in [lower,upper] and, as a function of the uniform draw u, satisfies CDF(x)=u for the density proportional to x^slope, for slope != -1.", "quantifier": "all 0<lower<upper, slope != -1, all u in [0,1)", "why_tests_cant": "Identity over all real inputs.", "anchors": ["src/random.cpp: RandomGenerator::powerlaw"]}
{"id": "C36", "title": "Log-priors are the documented densities", "statement": "exp(LogPrior) of the base class is proportional to the scaled-inverse-chi-square(50,1) density in theta(1); the extra ZCARMA term is the log-derivative of the inverse logit, i.e. the density of logit of a uniform variable.", "quantifier": "all theta with theta(1)>0", "why_tests_cant": "Identity over all reals.", "anchors": ["src/include/carpack.hpp: CARMA_Base::LogPrior, ZCARMA::LogPrior", "src/carpack.cpp: logit, inv_logit"]}
{"id": "C37", "title": "logit and inv_logit are mutually inverse", "statement": "inv_logit maps every real into (0,1), logit(inv_logit(x))=x and inv_logit(logit(u))=u for u in (0,1).", "quantifier": "all reals / all u in (0,1)", "why_tests_cant": "Round trip over a continuum.", "anchors": ["src/carpack.cpp: logit, inv_logit"]}
{"id": "C38", "title": "Option prompt returns validated options", "statement": "If the interactive prompt returns, then sample_size>=1, thin>=1, burnin>=0, and the accepted values are the first valid ones entered.", "quantifier": "all input streams", "why_tests_cant": "Loop over arbitrary user input.", "anchors": ["src/samplers.cpp: mcmc_options_prompt"]}
{"id": "C39", "title": "Saving and recovering the generator state reproduces the stream", "statement": "RecoverSeed after SaveSeed to the same readable and writable file restores the generator state, so the subsequent draws are identical; if the file cannot be opened the state is unchanged.", "quantifier": "all generator states and file-system outcomes", "why_tests_cant": "All states.", "anchors": ["src/random.cpp: SaveSeed, RecoverSeed, SetSeed"]}
{"id": "C40", "title": "Order selection returns a minimiser of AICc", "statement": "choose_order stores a (p,q) from the searched list whose AICc is minimal, breaking ties by first occurrence, provided at least one AICc is below 1e300.", "quantifier": "all candidate lists and all likelihood values", "why_tests_cant": "Loop over arbitrary lists.", "anchors": ["src/carmcmc/carma_pack.py: CarmaModel.choose_order"]}
{"id": "C41", "title": "Order selection honours qmax", "statement": "choose_order(pmax,qmax) only searches pairs with q<=qmax.", "quantifier": "all pmax, qmax", "why_tests_cant": "Claim over all arguments.", "anchors": ["src/carmcmc/carma_pack.py: CarmaModel.choose_order"]}
{"id": "C42", "title": "Maximum-likelihood mode evaluates the likelihood alone", "statement": "After SetMLE(true) the prior plays no role: LogDensity(theta) equals the Gaussian log-likelihood for every theta.", "quantifier": "every model kind, data set, theta", "why_tests_cant": "Claim over all theta.", "anchors": ["src/include/carpack.hpp: SetMLE, LogDensity", "src/carpack.cpp: CheckPriorBounds"]}
{"id": "C43", "title": "Power spectrum and autocovariance describe the same process", "statement": "The power spectrum formula sigma^2 |beta(2 pi i f)|^2/|alpha(2 pi i f)|^2 equals sigma^2 times the squared modulus of the Fourier transform of the impulse response whose autocorrelation is the autocovariance of C07.", "quantifier": "every f, every admissible root and MA set", "why_tests_cant": "Identity over all frequencies and orders.", "anchors": ["src/carmcmc/carma_pack.py: power_spectrum, carma_variance", "src/carpack.cpp: CARp::Variance"]}
{"id": "C44", "title": "Lorentzian parametrisation round-trips", "statement": "For starting values built from positive widths and non-negative centroids, the AR roots extracted from the resulting parameters are -2 pi width +- 2 pi i centroid.", "quantifier": "all widths>0, centroids>=0, all p", "why_tests_cant": "Round trip over a continuum and all p.", "anchors": ["src/carpack.cpp: CARp::StartingAR, CARp::ARRoots", "src/carmcmc/carma_pack.py: get_ar_roots"]}
{"id": "C45", "title": "Faults are detected, never silent", "statement": "Filter() on an object with fewer than two points, with mismatched vector lengths, or (CARMA) with p=1 or repeated roots ends in a fault (bounds error, or runtime error) rather than returning numbers; when the stated preconditions hold no fault occurs.", "quantifier": "all object states", "why_tests_cant": "All shapes of input.", "anchors": ["src/include/kfilter.hpp: init", "src/kfilter.cpp: KalmanFilterp::Reset"]}
{"id": "C46", "title": "Runs on sensible input end without a fault", "statement": "For strictly increasing times, values not all equal, p>=2, q<p, at least one walker, and an initial vector of the right length inside the prior bounds, RunCarmaSampler and RunCar1Sampler return: no index is out of range, no matrix is singular, no factorisation fails. With an initial vector of any other kind RunCar1Sampler still returns, and RunCarmaSampler (at least three observations, or p<=3) either returns or searches for a starting value without end. With two observations RunCarmaSampler never returns. For constant data both end with an exception.", "quantifier": "all data sets, orders, model kinds, numbers of walkers, sample sizes, burn-ins, thinning intervals, random streams", "why_tests_cant": "Absence of faults over unbounded runs and all random numbers.", "anchors": ["src/carmcmc.cpp: RunCar1Sampler, RunCarmaSampler", "src/samplers.cpp: Sampler::Run", "src/steps.cpp: AdaptiveMetro", "src/kfilter.cpp"]}
{"id": "C47", "title": "Recorded log-densities are Gaussian log-posteriors, end to end", "statement": "Every sample returned by RunCarmaSampler satisfies the prior bounds and its recorded log-density is the log of the multivariate Gaussian density of the observed data under the stationary CARMA process with these parameters plus the log prior; the same for RunCar1Sampler unless its chain never left a starting value of non-finite log-density.", "quantifier": "all data sets with strictly increasing times, p>=2, q<p, walkers, sample sizes, burn-ins, thinning intervals, random streams", "why_tests_cant": "End-to-end statement over unbounded runs relating recorded numbers to a closed-form density.", "anchors": ["src/carmcmc.cpp: RunCar1Sampler, RunCarmaSampler", "src/include/carpack.hpp: LogDensity", "src/kfilter.cpp"]}
{"id": "C48", "title": "Python carma_variance equals the autocovariance and the C++ Variance", "statement": "For admissible roots and at most p moving average coefficients, carma_variance(sigma^2, roots, ma, lag) returns the autocovariance of the process at |lag|, the same number as CARp::Variance(roots, ma, sigma, |lag|).", "quantifier": "every p, every admissible root set, every coefficient list, every lag", "why_tests_cant": "Identity over a continuum of roots, coefficients and lags and all orders.", "anchors": ["src/carmcmc/carma_pack.py: carma_variance", "src/carpack.cpp: CARp::Variance"]}
{"id": "C49", "title": "Python generators draw from the exact law of the process", "statement": "car1_process on non-decreasing times, and carma_process on distinct times in any order, return L z for a matrix L independent of the standard normal draws z with L L^T the covariance matrix of the process at the (sorted) times. car1_process does not sort: any step back in time yields a non-finite value.", "quantifier": "every number of times, every p, every admissible root set, every draw sequence", "why_tests_cant": "Statistical tests only compare sample moments on particular time grids; the identity L L^T = K is exact for every grid.", "anchors": ["src/carmcmc/carma_pack.py: car1_process, carma_process"]}
{"id": "C50", "title": "CarmaModel orders and deduplicates its data", "statement": "For arrays of equal length CarmaModel keeps a sub-collection of the input triples in strictly increasing time order with one triple for every distinct time, all of them when times are distinct; the order of the input then has no effect, and the C++ object built from the kept data has the posterior of the kept data.", "quantifier": "every data set, every sorting function breaking ties in any way", "why_tests_cant": "Holds for every length, order and pattern of repeated times.", "anchors": ["src/carmcmc/carma_pack.py: CarmaModel.__init__"]}
{"id": "C51", "title": "get_mle returns the best trial", "statement": "get_mle returns one of its trials, and no trial has a smaller value.", "quantifier": "all lists of trials, values possibly NaN or infinite", "why_tests_cant": "Loop over arbitrary lists and special values.", "anchors": ["src/carmcmc/carma_pack.py: CarmaModel.get_mle"]}
{"id": "C52", "title": "Maximum-likelihood search starts inside valid bounds", "statement": "With at least three observations that are not all equal, every bound of _get_mle_single is an interval of positive length, there is one per parameter, and the starting point lies inside; for p=1 every point of the box satisfies the prior bounds of the C++ object.", "quantifier": "every data set, every order, every recorded sample, every random draw", "why_tests_cant": "Claim over all data sets and random draws.", "anchors": ["src/carmcmc/carma_pack.py: _get_mle_single"]}
{"id": "C53", "title": "Derived parameters of a sample", "statement": "For every row of the trace of a CARMA(p,q) run the autoregressive roots, moving-average coefficients and driving noise that CarmaSample derives are those of the C++ object at that row.", "quantifier": "every order q < p and every row", "why_tests_cant": "Two independent implementations compared over a continuum of parameters.", "anchors": ["src/carmcmc/carma_pack.py: CarmaSample._ar_roots, _ma_coefs, _sigma_noise", "src/carpack.cpp: CARp::ARRoots, CARMA::ExtractMA, CARp::Variance"]}
{"id": "C54", "title": "Power spectra of the samples", "statement": "plot_power_spectrum computes for each sample the Fourier transform of its autocovariance; thinning selects valid, different samples.", "quantifier": "every sample, frequency and number of samples", "why_tests_cant": "Identity over all frequencies and orders; index arithmetic over all sizes.", "anchors": ["src/carmcmc/carma_pack.py: CarmaSample.plot_power_spectrum"]}
{"id": "C55", "title": "Prediction uses the fitted model", "statement": "predict and simulate with bestfit='map' give the conditional law of the process of the sample of largest log-posterior given the data under the fitted model, including the fitted error scale.", "quantifier": "every data set, trace and list of times", "why_tests_cant": "Claim over all data sets and parameters.", "anchors": ["src/carmcmc/carma_pack.py: makeKalmanFilter, predict, simulate"]}
{"id": "C56", "title": "Stored log-likelihoods and DIC", "statement": "The loglik values stored with the samples are Gaussian log-likelihoods, and DIC is mean deviance plus half its variance.", "quantifier": "every data set and sample", "why_tests_cant": "Claim over all data sets and parameters.", "anchors": ["src/carmcmc/carma_pack.py: CarmaSample.__init__, Car1Sample.__init__, DIC"]}
{"id": "C57", "title": "Averaged samples describe a process", "statement": "With bestfit='mean' the averaged roots are in the left half plane and closed under conjugation.", "quantifier": "every set of samples", "why_tests_cant": "Needs samples on both sides of the boundary between real and complex roots.", "anchors": ["src/carmcmc/carma_pack.py: makeKalmanFilter"]}
{"id": "C58", "title": "run_mcmc from the user's data to the table of samples", "statement": "CarmaModel(time, y, ysig, p, q).run_mcmc(nsamples) on data in any order, with repeated times: if it returns, the table has nsamples rows of the right width inside the prior bounds; the stored roots, AR and MA coefficients, Lorentzian parameters, variance and sigma of each row describe one and the same process, and the stored logpost is the Gaussian log-posterior of the kept observations under it. On sensible data it raises no exception. With two different times and p>=2 it never returns.", "quantifier": "all data sets, orders, numbers of samples, burn-ins, temperatures, thinnings, initial vectors, random streams", "why_tests_cant": "End-to-end statement over all data and all executions; a test has no independent value of the log-posterior.", "anchors": ["src/carmcmc/carma_pack.py: CarmaModel.__init__, run_mcmc, CarmaSample.__init__, Car1Sample.__init__", "src/carmcmc.cpp: RunCar1Sampler, RunCarmaSampler", "src/include/carpack.hpp: getSamples"]}
{"id": "C59", "title": "The numpy filter class computes the exact conditional laws after the first observation, and only there", "statement": "KalmanFilterDeprecated with admissible roots, at most p MA coefficients and strictly increasing times: filter() returns the exact one-step conditional means and variances; predict(x) for x after the first observation (and not at an error-free observation) returns the exact conditional mean and variance given the whole series, the same values as the compiled filter; simulate draws from the exact conditional laws and restores the data. None of it depends on the uninitialised arrays of np.empty_like. At or before the first time predict raises; with one root every method raises; with repeated roots filter raises.", "quantifier": "all series, times, variances, roots, MA coefficients, request times, normal draws, contents of uninitialised memory", "why_tests_cant": "Equality with an analytic conditional law for all inputs; independence from uninitialised memory cannot be observed by running.", "anchors": ["src/carmcmc/carma_pack.py:1264-1527 KalmanFilterDeprecated"]}
{"id": "C60", "title": "Prediction and simulation at the time of an error-free observation", "statement": "The conditional law of the process at the time of an observation with measurement error 0 is the observed value with variance 0. Predict at such a time should return that value and variance 0, and Simulate at such a time (or at a repeated request time) should repeat the known value. (False for the code: it divides by a zero variance. Simulate returns exactly when the request times are distinct and none is the time of an error-free observation.)", "quantifier": "all series, errors, parameter values, request times, normal draws", "why_tests_cant": "Holds for every parameter value; a test would meet a silent NaN for the particular request only.", "anchors": ["src/kfilter.cpp: Predict, InitializeCoefs, UpdateCoefs", "src/include/kfilter.hpp: Simulate", "src/carmcmc/carma_pack.py:1377-1527"]}
{"id": "C61", "title": "Standardized residuals of assess_fit are white under the fitted model", "statement": "For the best sample, the standardized residuals of assess_fit are W (y - mu), with W lower triangular, positive on the diagonal and W K W^T = 1 for the covariance K of the observations under that sample, including its error scale; their squares add up to the quadratic form of the Gaussian density. (False for the code as soon as the error scale is not 1: the residuals are white for the errors as given, not for the fitted ones.)", "quantifier": "all series, errors, traces, samples", "why_tests_cant": "Identity between a recursion and a matrix factorisation for every data set and parameter value.", "anchors": ["src/carmcmc/carma_pack.py:719-723 assess_fit", "src/carmcmc/carma_pack.py: makeKalmanFilter (both classes)"]}
{"id": "C62", "title": "assess_fit shows the interpolated series over the observed range", "statement": "assess_fit draws the conditional mean and one-sigma band on equally spaced times from the first to the last observation, and the autocorrelations of residuals and squared residuals up to lag 50 (1 at lag 0, never beyond 1). (False for the code: the times start at 1.001 times the first time, hence before the first observation for negative times and after the last one for Julian dates of a short campaign; with at most 50 observations it raises; when the last observation has no error it gives NaN.)", "quantifier": "all series, errors, traces, numbers of points", "why_tests_cant": "A plot is not checked by tests; the statement is about every time axis.", "anchors": ["src/carmcmc/carma_pack.py:687-770 assess_fit"]}
{"id": "C63", "title": "plot_power_spectrum shows the pointwise posterior band of the power spectrum", "statement": "For strictly increasing times and samples with different stable roots, plot_power_spectrum returns 1000 positive frequencies, equally spaced in the logarithm and increasing from 1/(observed length) to 1/(2 shortest gap), and at each of them lower limit <= median <= upper limit of the power spectra of the samples (Fourier transforms of their autocovariances), the limits containing the stated percentage of the samples, whatever their order; for CAR(1) the same, also on a subset of the samples. (False for the code: with two times the frequencies decrease; the limits may contain none of the samples, although never fewer than pct/100 (n-1) - 1; Car1Sample with nsamples raises IndexError.)", "quantifier": "all series, traces, percentages", "why_tests_cant": "Interpolated order statistics and an integral identity over all samples, frequencies and percentages.", "anchors": ["src/carmcmc/carma_pack.py:548-648 CarmaSample.plot_power_spectrum", "src/carmcmc/carma_pack.py:950-1033 Car1Sample.plot_power_spectrum"]}
{"id": "C64", "title": "posterior_summaries describes the samples", "statement": "For every set of samples with n rows, posterior_summaries reports per column the median, the standard deviation (0 exactly for constant samples; the mean is within one standard deviation of the median), nested 68, 95 and 99 percent intervals around the median and inside the range of the values, each with more than pct (n-1) - 1 samples inside and more than (1-pct)/2 (n-1) on either side, and n divided by the autocorrelation time. A vector not passed through newaxis raises IndexError.", "quantifier": "all samples, all numbers of rows and columns", "why_tests_cant": "Order statistics over all samples.", "anchors": ["src/carmcmc/samplers.py:74-101 autocorr_timescale, effective_samples", "src/carmcmc/samplers.py:370-408 posterior_summaries, newaxis"]}
{"id": "C65", "title": "add_mle describes the process of the estimate", "statement": "For every estimate of the sample's order with different roots, add_mle stores roots, Lorentzian widths and centroids, AR and MA coefficients and sigma of one process: the one C++ derives from the same parameters, with variance MLE.x[0]^2 and the power spectrum given by the stored coefficients. (False for the code: under Python 3 range(self.p / 2) raises TypeError for every estimate; with an estimate of another order, as choose_order returns, it reads an uninitialised array.)", "quantifier": "all orders and estimates", "why_tests_cant": "An identity between two implementations for all parameters; no test calls add_mle.", "anchors": ["src/carmcmc/carma_pack.py:326-400 add_mle"]}
{"id": "C66", "title": "bestfit median, mean and random draw give the prediction of a process", "statement": "For every value of bestfit, predict returns the conditional means and variances of one stationary process given the data: of the medians or means over the samples or of the drawn sample; with one sample all values of bestfit agree. (False for the code: medians of roots need not be closed under conjugation; Car1Sample ignores the random draw and uses the means. True for Car1Sample median and mean, for the drawn sample of CarmaSample, and for medians that describe a process.)", "quantifier": "all series, traces, prediction times", "why_tests_cant": "Conditional Gaussian laws for all data and samples.", "anchors": ["src/carmcmc/carma_pack.py:650-685 CarmaSample.makeKalmanFilter", "src/carmcmc/carma_pack.py:925-948 Car1Sample.makeKalmanFilter"]}
{"id": "C67", "title": "After the burn-in the sampler leaves the tempered posteriors unchanged", "statement": "From any state of a run after the burn-in, any number of further sweeps (robust adaptive Metropolis moves of every chain, exchanges between neighbours) leaves unchanged the joint law in which the chains are independent, chain i with density proportional to the posterior to the power 1/T_i, and the random numbers still to come are independent (uniform on [0,1), proposal draws from any law symmetric about 0). The posterior is the Gaussian likelihood of the CAR(1) or CARMA process times the prior, written without the Kalman filter, and the log-densities kept by the sampler are its values.", "quantifier": "all data with strictly increasing times, orders, numbers of walkers, seeds, starting values, burn-in lengths, numbers of further sweeps", "why_tests_cant": "A statement about invariant measures on an infinite-dimensional space; finite samples only give noisy evidence, and a wrong acceptance ratio can hide for a long time.", "anchors": ["src/steps.cpp AdaptiveMetro::DoStep, ExchangeStep", "src/include/steps.hpp ExchangeStep::DoStep", "src/samplers.cpp Sampler::Run", "src/carmcmc.cpp RunCar1Sampler, RunCarmaSampler", "src/carpack.cpp LogDensity"]}
{"id": "C68", "title": "The density the sampler explores can be normalised", "statement": "The density whose logarithm the sampler evaluates (likelihood times prior, on all of parameter space, and its tempered versions) has positive and finite total mass, so that there is a posterior distribution for the chains to converge to.", "quantifier": "all data with at least three strictly increasing times, values not all equal and any errors; all orders, samplers, seeds, starting values, temperatures", "why_tests_cant": "Finiteness of an integral over an unbounded parameter space: no finite set of evaluations decides it, and a chain on an improper density drifts off so slowly that short runs look fine.", "anchors": ["src/carpack.cpp CAR1::CheckPriorBounds, CARp::CheckPriorBounds", "src/include/carpack.hpp CARMA_Base::LogDensity, LogPrior, CARMA::ExtractMA", "src/carmcmc.cpp RunCar1Sampler, RunCarmaSampler"]}
{"id": "C69", "title": "Averages over the recorded samples tend to posterior means", "statement": "For the CAR(1) sampler (started where the density is not 0) and for the CARp and ZCAR samplers: from any state of a run after the burn-in, if the random numbers still to come are independent (uniform on [0,1), proposal draws from a symmetric law with the same null sets as length), then with probability 1 the averages of any function with a posterior mean over the values of the recorded chain, taken after every thin sweeps, tend to its mean under the normalised posterior density to the power 1/T, where T is 1 for the CAR(1) sampler and for two or more walkers, and 100 for a single walker.", "quantifier": "all data with at least three strictly increasing times, values not all equal and fewer than 2T measurements without error or two of those with different values (T = 1, or 100 for a single walker); all orders p, numbers of walkers, starting values, burn-in lengths, thinning, measurable functions with a mean, and almost all streams of random numbers", "why_tests_cant": "A limit over infinitely many sweeps that holds for almost all streams: finite runs cannot tell slow mixing from a reducible chain, and the chain has no checkable stopping point.", "anchors": ["src/steps.cpp AdaptiveMetro::DoStep", "src/include/steps.hpp ExchangeStep::DoStep", "src/samplers.cpp Sampler::Run", "src/carmcmc.cpp RunCar1Sampler, RunCarmaSampler", "src/carpack.cpp LogDensity"]}
{"id": "C70", "title": "The run functions at int arguments: exact domain, no overflow inside it, defined behaviour of odd arguments", "statement": "With the 32-bit int counters and arguments of the code: if the sample size and the number of walkers are not negative and neither thin*N nor burnin + thin*N leaves the range of int, no counter overflows during the run and the run does exactly what it does with unbounded counters, a negative burn-in or thinning counting as 0. If the product or the sum leaves int, the behaviour is undefined (signed overflow) although the number is needed for a message only; a negative sample size throws; every run that returns satisfies these conditions. With a thinning that is not positive all recorded samples are equal.", "quantifier": "all int arguments, data, orders, seeds, starting values", "why_tests_cant": "Overflow needs more than two billion sweeps or a product of that size, which no test runs; undefined behaviour may look right in a test build.", "anchors": ["src/carmcmc.cpp RunCar1Sampler, RunCarmaSampler (report_iter)", "src/samplers.cpp Sampler::Run, Iterate", "src/steps.cpp AdaptiveMetro", "src/include/steps.hpp ExchangeStep"]}
{"id": "C71", "title": "The acceptance rates printed by a run are the fractions of accepted moves", "statement": "Whenever a run returns, what its steps have printed is exactly: in sweep number burnin each RAM step, from the hottest chain to chain 0, the fraction of its moves that were accepted in the burn-in; at every positive multiple of burnin + thin*N sweeps each exchange step the fraction of its swaps accepted since its last report (for arguments that are not negative: once, over the whole run). A move is accepted when the uniform drawn is below the Metropolis ratio of the tempered densities. All numbers printed are between 0 and 1.", "quantifier": "all int arguments for which the run returns, data, orders, seeds, starting values", "why_tests_cant": "The statement fixes the whole output of runs of any length for any stream of random numbers; a counter updated one step late or reset at the wrong time changes the number by one part in thousands.", "anchors": ["src/steps.cpp AdaptiveMetro::Accept, DoStep", "src/include/steps.hpp ExchangeStep::DoStep, Report", "src/samplers.cpp Sampler::Run", "src/carmcmc.cpp RunCar1Sampler, RunCarmaSampler"]}
{"id": "C72", "title": "The CAR(1) log-density cannot overflow or become NaN in double precision", "statement": "In IEEE binary64 arithmetic, in any rounding mode and with any number of observations: for data of moderate size (gaps of at least 2^-300, span, values and mean at most 2^300, measurement errors between 2^-148 and 2^148) the CAR(1) object is constructed, and after any earlier calls LogDensity returns -inf outside the prior bounds and a finite double inside. Inside them every computed filter mean is finite and every computed variance is at least the computed error variance of its observation, in particular positive, so no cancellation makes it zero or negative. Rounding to nearest even with correctly rounded library functions is such an arithmetic.", "quantifier": "all binary64 arithmetics (rounding modes, exp and log of any accuracy within crude bounds), all data of moderate size and any length, all theta of doubles, all sequences of earlier calls", "why_tests_cant": "Cancellation and overflow depend on the digits of the data, on the parameters and on the number of observations; a test samples a few of them in one rounding mode.", "anchors": ["src/kfilter.cpp KalmanFilter1::Reset, Update", "src/include/kfilter.hpp init, Filter", "src/include/carpack.hpp LogDensity, LogPrior, CAR1", "src/carpack.cpp CAR1::CheckPriorBounds"]}
{"id": "C73", "title": "Without measurement errors rounding makes the CAR(1) log-density NaN at slow rates", "statement": "In binary64 arithmetic, for data whose measurement errors are all zero: if exp(-w dt) is rounded to 1 between two neighbouring observations, then at every theta inside the prior bounds a computed variance is zero and LogDensity is NaN. There are data and a theta inside the prior bounds for which this happens although the exact log-density is finite.", "quantifier": "all binary64 arithmetics, all error-free data, all theta inside the prior bounds, all sequences of earlier calls; concrete witness with rounding to nearest", "why_tests_cant": "It needs a rate and a gap whose product is below the precision of a double; with exact-arithmetic reasoning the value is finite.", "anchors": ["src/kfilter.cpp KalmanFilter1::Update", "src/include/carpack.hpp LogDensity"]}
{"id": "C74", "title": "The machine-number model without rounding is the real-number model", "statement": "For any data the constructors of the CAR(1) object in the machine-number model with exact operations and in the real-number model fail together or build objects with the same data, bounds and filter (sorting and removal of repeated times included). For different times in any order the two objects then give the same value, finite, -inf or NaN, in every call of any sequence of calls of LogDensity.", "quantifier": "all data (construction), all data with different times in any order (calls), all sequences of calls with at least four numbers", "why_tests_cant": "It relates two readings of the code over all inputs; it justifies treating a division by zero as NaN of the result.", "anchors": ["src/kfilter.cpp KalmanFilter1::Reset, Update", "src/include/carpack.hpp LogDensity"]}
{"id": "C75", "title": "Rounding error of the CAR(1) log-density", "statement": "In binary64 arithmetic with any rounding mode, and exp and log accurate to one unit in the last place, the number CAR1::LogDensity returns inside the prior bounds differs from the exact log-posterior (Gaussian log-density of the data under the CAR(1) covariance, plus log-prior) by at most 2^-38 n (n + N^2) kappa (1 + chi), where n is the number of observations, kappa = 2^b/2^c bounds the ratio of the variances to the smallest noise variance, chi = 2^(2a-c) the ratio of squared values to the smallest noise variance, and N is n or, when neighbouring observations are correlated by at most 1 - 1/N, any such number independent of n.", "quantifier": "all data of moderate size, any number of observations, all parameters inside the prior bounds, all rounding modes, after any earlier calls", "why_tests_cant": "A test compares the result with another floating-point computation on a few light curves; it cannot bound the accumulated error for every length and every parameter.", "anchors": ["src/kfilter.cpp KalmanFilter1::Reset, Update", "src/include/carpack.hpp LogDensity lines 131-176"]}
{"id": "C76", "title": "The generators draw from the densities they document", "statement": "If the Boost distribution objects have their documented laws, then exp, normal, lognormal, uniform, powerlaw, tdist, chisqr, gamma, invgamma and scaled_inverse_chisqr return a number with probability one, and its law has a density proportional to the one in the comment above the function (for scaled_inverse_chisqr: to the scaled inverse chi-squared density; the density in the comment is right only for two degrees of freedom). normal(covar) draws from the multivariate normal law with covariance covar, including the constant. The starting value of the measurement error scale is drawn, before it is cut off, from the prior used in the log-density. Shifting and scaling standard draws gives the same laws.", "quantifier": "all parameter values in the domain of each distribution, all dimensions and all positive definite matrices, all measurable sets", "why_tests_cant": "A test compares a finite sample with a density; a wrong factor in the exponent or a wrong tail passes at finite sample sizes, and only some parameter values are tried.", "anchors": ["src/random.cpp lines 57-210", "src/include/random.hpp lines 44-75", "src/include/carpack.hpp lines 118-126"]}
{"id": "C77", "title": "The unbounded searches end with probability one", "statement": "If the random numbers are independent draws with the laws the code asks for, then with probability one RunCarmaSampler returns: every search for a starting value with finite log-density (a loop without bound) ends, for any initial vector, any number of walkers and iterations. This needs at least three strictly increasing times, values not all equal, 2 <= p < 2500 and q < p. The search of the stretch move for a partner ends with probability one with at least two walkers, and never with one.", "quantifier": "all light curves with at least three increasing times and values not all equal, all orders below 2500, all numbers of walkers, iterations, thinnings and initial vectors; almost all random streams", "why_tests_cant": "A test that returns shows that one seed ends; the chance that the search goes on for ever, for some light curve, order or seed, cannot be read off finitely many runs.", "anchors": ["src/carpack.cpp lines 175-311", "src/carpack.cpp lines 416-519", "src/carmcmc.cpp lines 97-177", "src/include/proposals.hpp lines 194-206"]}
{"id": "C78", "title": "The posterior does not depend on units or on the clock", "statement": "Give the same light curve with times c t + a (c may be negative: the clock runs backwards), values k y + m and errors k e. Then the log-posterior of the new data at the parameters in the new units is that of the old data minus n log |k|, at every parameter vector, including where it is -inf or NaN. True for CAR(1), and for all other classes when |c| = 1; false for the unit of time when p >= 4, since the centroids are ordered up to an absolute tolerance of 1e-8.", "quantifier": "all light curves with at least two increasing times, all orders, all classes, all parameter vectors, all units and origins", "why_tests_cant": "A test checks some unit changes at some parameters; a constant with a hidden unit (such as the tolerance 1e-8) shows only for light curves with short or long time units.", "anchors": ["src/carpack.cpp lines 116-170", "src/carpack.cpp lines 314-412", "src/carpack.cpp lines 522-580", "src/carpack.cpp lines 687-735", "src/include/carpack.hpp lines 54-180", "src/include/carpack.hpp lines 406-455"]}
{"id": "C79", "title": "The ordering of the centroids selects one of the equivalent parameter vectors", "statement": "Parameter vectors that describe the same model (same scales and mean, same autoregressive and moving-average polynomial) have the same log-posterior unless the ordering of the Lorentzian centroids excludes one of them. The ordering never excludes all of them, so no model is lost. It leaves exactly one when the centroids of the factors differ by more than the tolerance. It does not when several roots are real (their centroids are all 0: all pairings and orders remain, six copies for four real roots), and it does not look at the factors of the moving average, all orders of which remain.", "quantifier": "all light curves with at least two increasing times, all orders p and q, all classes, all parameter vectors and all exchanges of factors", "why_tests_cant": "A test compares the values of some vectors; that nothing is lost and when a copy remains are statements about all vectors of a model at once.", "anchors": ["src/carpack.cpp lines 137-170", "src/carpack.cpp lines 314-374", "src/carpack.cpp lines 522-580", "src/include/carpack.hpp lines 131-180"]}
{"id": "C80", "title": "Predictions obey the laws of conditional distributions", "statement": "For the predictions returned by Predict: the variance is positive, at most the stationary variance, at most what any single measurement alone leaves, and below the error variance at a measured time. Adding measurements or reducing errors never increases it, whatever the values. The prediction is a continuous function of the requested time (forecast, interpolation and backcast join without a jump), it tends to mean 0 and the stationary variance far from the data on both sides, and to the measured value with variance 0 at an error-free measurement. The one-step predictions left by Filter are the predictions of Predict from the measurements seen so far.", "quantifier": "all light curves with at least two increasing times, all subsets of the measurements, all errors, all request times, all orders and all admissible roots and coefficients", "why_tests_cant": "Monotonicity under removal of data, limits and continuity relate infinitely many calls; the three code paths of Predict meet at times a test would have to hit exactly.", "anchors": ["src/kfilter.cpp lines 19-134", "src/kfilter.cpp lines 138-284"]}
{"id": "C81", "title": "Simulated values follow the joint law of the process given the data", "statement": "With independent standard normal draws, the values that Simulate returns for different times, asked for in any order, are jointly Gaussian with exactly the conditional means and the full matrix of conditional covariances of the process given the measurements; this matrix is positive definite. If the measurements are themselves a realization of the process with measurement errors, then measurements and simulated values together have the joint law of the process.", "quantifier": "all light curves with increasing times, all error bars, all orders and admissible parameters, all finite sets of different request times in any order", "why_tests_cant": "A law on a space of sequences of draws is not observable from samples; a wrong correlation between two simulated times would need many thousands of draws for each configuration.", "anchors": ["src/include/kfilter.hpp lines 131-200", "src/carmcmc/carma_pack.py lines 1504-1527"]}
{"id": "C82", "title": "The likelihood is the probability density of the measurements", "statement": "Let the measurements be the values of the Gaussian process described by theta plus independent Gaussian errors of variance theta(1) yerr^2. Their law has a continuous positive density f with respect to Lebesgue measure, and LogDensity(theta) is log f(y) plus the constant n/2 log 2 pi plus the log-prior; the log-prior is the logarithm of the density from which scaled_inverse_chisqr(50, 1) draws, and for ZCARMA also of the density of the normalised logit of a kappa uniform between its bounds. So the function sampled is likelihood times prior in the sense of probability theory.", "quantifier": "all increasing times, all values and errors, all orders, all parameter vectors inside the prior bounds", "why_tests_cant": "That a function is the density of a law is a statement about its integrals over all sets of data; a wrong normalisation that depends on theta would shift the posterior without any visible error.", "anchors": ["src/include/carpack.hpp lines 86-180", "src/include/carpack.hpp lines 444-458", "src/random.cpp lines 170-190"]}
{"id": "C83", "title": "Strong law for a whole run of the sampler", "statement": "Let the random numbers be independent draws with the laws the code asks for. With probability one there is a sequence of parameter vectors, not depending on the number N of samples asked for, such that RunCarmaSampler (autoregressive models) returns its first N members, and the averages of any function with a posterior mean over them tend to that mean: under the posterior itself if there are two or more walkers, under its power 1/100 if there is only one. This includes the choice of starting values and the adaptation during burn-in, for any initial vector and any burn-in length. For RunCar1Sampler the averages converge or the run stays for ever at a vector of posterior density 0; without an initial vector the latter has positive probability, at least the probability that a chi-squared draw with n-1 degrees of freedom is below n/100.", "quantifier": "all light curves with at least three strictly increasing times, fewer than 2T measurements without error or two of those with different values (T = 1, or 100 for a single walker), values not all equal, all 2 <= p < 2500, all numbers of walkers, burn-in lengths, thinnings and initial vectors, all functions with a posterior mean", "why_tests_cant": "Convergence with probability one is a statement about infinite runs; a run that is stuck with small probability is easily missed.", "anchors": ["src/carmcmc.cpp lines 29-76", "src/carmcmc.cpp lines 79-177", "src/include/samplers.hpp", "src/include/steps.hpp", "src/carpack.cpp lines 38-113"]}
{"id": "C84", "title": "Where the posterior has infinite mass the sampler never settles", "statement": "If the posterior density at the temperature of the cold chain has infinite mass (C68: there are moving-average parameters, q >= 1, or at least 2T measurements are without error and all of those have one value, T being the temperature of the cold chain), then with independent random numbers: from any state of a run after the burn-in, with probability one, for every K, the share of the recorded times at which in all chains the moving-average parameters are at most K in size (in the second case also: the standard deviation is at least 1/(K+1)) tends to 0, and so does the probability of that after k sweeps; the joint law of the chains after k sweeps has no limiting probability law as k grows; and no probability law of the chains on values of positive density is left unchanged by the sweeps. With one walker the averages of the recorded values of every function integrable with respect to the (tempered) density tend to 0. For RunCar1Sampler, started at a value of positive density, the same with the standard deviation.", "quantifier": "all light curves with at least three strictly increasing times, any errors and values not all equal, CAR(1) and all 2 <= p < 2500 with q < p, all numbers of walkers, all states of a run after the burn-in, all thinnings", "why_tests_cant": "A finite run always shows a histogram of the parameters; that the histogram never converges is a statement about infinite runs.", "anchors": ["src/carmcmc.cpp lines 79-177", "src/carpack.cpp", "src/include/carpack.hpp", "src/include/samplers.hpp", "src/include/steps.hpp"]}
{"id": "C85", "title": "The law of the chains tends to the posterior, and no other law is stationary", "statement": "For CAR(1), CARp and ZCAR, with independent random numbers: from any state of a run after the burn-in with chains at values of positive density, the joint law of the chains after k sweeps tends, on every measurable set, to the law under which the chains are independent and chain i has the posterior density to the power 1/T_i; T_i is 100^(i/(nw-1)), so the cold chain, whose values are recorded, tends to the posterior (to its 1/100th power with one walker). A probability law of the chains on values of positive density is left unchanged by the sweeps if and only if it is that law.", "quantifier": "all light curves with at least three strictly increasing times, fewer than 2T measurements without error or two of those with different values (T = 1, or 100 for a single walker), values not all equal, all 2 <= p < 2500, all numbers of walkers, all states of a run after the burn-in, all measurable sets", "why_tests_cant": "It is about the limit of probabilities as the number of sweeps grows, for every measurable set and every starting state.", "anchors": ["src/carmcmc.cpp lines 29-177", "src/include/samplers.hpp", "src/include/steps.hpp", "src/steps.cpp"]}
{"id": "C86", "title": "The posterior tells different parameters apart", "statement": "Two different parameter vectors have different posteriors: if the log-posteriors of two vectors differ by the same constant for all measurements at which both are finite, then the two vectors are equal (CARp, ZCAR, CARMA: describe the same model, that is have the same scales, mean and polynomials). True for CAR(1) with three or more measurements, one of them with an error, and standard deviations other than 0 (both conditions are needed). True for CARp, ZCAR and CARMA when the differences of the times contain D, 2D, ..., 2pD, the autoregressive roots oscillate slower than the Nyquist frequency of D and no root of the moving average cancels one of the autoregression. The prior enforces neither condition, and the property is false without them: at evenly spaced times CheckPriorBounds allows twice the Nyquist frequency, and CARMA(2,1) vectors with roots -a +- ib and -a +- i(2 pi/dt - b) and suitable moving-average coefficients have the same finite log-posterior for all measurements and errors; at all times the CARMA(2,1) vectors with autoregressive roots -a, -r and moving-average root -r have the same finite log-posterior for all r.", "quantifier": "CAR(1): all strictly increasing times (n >= 3), all errors not all 0, all pairs of parameter vectors. CARp, ZCAR, CARMA: all orders, all strictly increasing times with the stated differences, all errors not all 0, all pairs of parameter vectors. Negations: all measurements, errors, standard deviations, scales, means and roots in the prior; even grids for the first, all times for the second", "why_tests_cant": "Whether two parameter vectors have the same posterior is a statement about all measurements; the failures are on exactly even grids or exactly equal roots.", "anchors": ["src/include/carpack.hpp lines 131-180", "src/carpack.cpp lines 116-134", "src/carpack.cpp lines 314-374"]}
{"id": "C87", "title": "Samples read from files and copies given to the user", "statement": "After MCMCSample.generate_from_file(files), get_samples(name) returns the samples of the first file whose first line names the parameter, and an array obtained from get_samples can be changed without changing the stored samples. The second part holds for all sequences of loads, requests and assignments. The first holds only with the newline of the first line as part of the name: with the plain name get_samples always raises KeyError. The argument filename of CarmaSample is ignored; reading a file into a CarmaSample leaves the columns derived from the old samples; the arguments logpost and trace of the base class raise.", "quantifier": "all files and contents, all parsers, all names, all sequences of loads, get_samples and assignments", "why_tests_cant": "Absence of sharing is a statement about all sequences of actions; tests in the repository never read a file.", "anchors": ["src/carmcmc/samplers.py lines 27-73", "src/carmcmc/carma_pack.py lines 281-324", "src/carmcmc/carma_pack.py lines 402-437"]}
{"id": "C88", "title": "The law of the recorded samples tends to the posterior for a whole run", "statement": "For CAR(1), CARp and ZCAR, with independent random numbers of the laws the code asks for: the samples recorded by a call of RunCarmaSampler or RunCar1Sampler are random variables, every call with a larger number of samples extends the sequence, and the probability that sample number k lies in a measurable set B tends to the posterior probability of B as k grows (to that of the 1/100th power for a single walker; for CAR(1), whose starting value is not checked, on the event that the density at the starting value is not 0, the sequence being constant on the complement).", "quantifier": "all light curves with at least three strictly increasing times, fewer than 2T measurements without error or two of those with different values (T = 1, or 100 for a single walker), values not all equal, all 2 <= p < 2500, all numbers of walkers, burn-in iterations, thinning and initial vectors, all measurable sets", "why_tests_cant": "Limit of probabilities over all random number sequences, for every measurable set.", "anchors": ["src/carmcmc.cpp lines 29-177", "src/carpack.cpp lines 38-134", "src/carpack.cpp lines 137-311", "src/include/samplers.hpp", "src/steps.cpp"]}
{"id": "C89", "title": "The variance the run functions compute in double precision", "statement": "From values that are not all equal the run functions compute, in IEEE double arithmetic, a positive variance close to the variance of the values, hand ten standard deviations to the prior, and start AdaptiveMetro with the factor of the intended diagonal covariance. For n values of moderate size the computed variance is within 4(n+2) 2^-52 times the mean square of the values in every rounding mode, and if the variance is at least twice that, bound and factor have the corresponding relative error. Otherwise the property is false: for the values 300000002, 300000004 the computed variance is -16 and the run ends with an exception.", "quantifier": "all binary64 rounding modes, all n up to 2^39, all values with mean square between 2^-300 and 2^300, all numbers of parameters", "why_tests_cant": "An error bound over all values and rounding modes; the failing light curves are those with a large offset, which no test uses.", "anchors": ["src/carmcmc.cpp lines 35-54", "src/carmcmc.cpp lines 85-89", "src/carmcmc.cpp lines 132-136", "src/steps.cpp lines 24-33"]}
{"id": "C90", "title": "RunCar1Sampler and the tempered sampler in double precision", "statement": "A run with IEEE double arithmetic in any rounding mode returns, whatever the generators hand out (even infinite or NaN Student t variates), with exactly the requested number of samples and log-densities; each recorded log-density is the one LogDensity gives for the recorded sample; if the start has a finite log-density then every recorded log-density is finite and every recorded sample consists of finite doubles within the prior bounds, otherwise the chain stays at its start; every recorded log-density is as close to the exact log-posterior as C75 says; and a chain is never stopped for good by the adaptation. The last part is false: AdaptiveMetro divides by the norm of the variates, so variates that are all zero while the factor is adapted put a NaN into it, after which every proposal is rejected and all samples are equal.", "quantifier": "all rounding modes, data of moderate size, user starts, streams of numbers from the generators, sample sizes, burn-ins, thinnings; for the tempered sampler all parameter objects whose log-density is a function of the vector, all numbers of chains and temperatures >= 1", "why_tests_cant": "Overflow, underflow and NaN inside acceptance ratios, exchanges and the rank-one update of the Cholesky factor for all streams of random numbers; the failing stream has probability of about 2^-200.", "anchors": ["src/carmcmc.cpp lines 30-77", "src/steps.cpp lines 38-104", "src/include/steps.hpp lines 292-372", "src/samplers.cpp lines 57-115", "src/carpack.cpp lines 38-113"]}
{"id": "C91", "title": "Predict in double precision", "statement": "For positive measurement errors, KalmanFilter1::Predict with IEEE double arithmetic in any rounding mode returns a finite mean and a finite positive variance for every requested time; the answer does not depend on earlier calls of Filter and Predict; and with nothing rounded it is the answer of the real-number code. The first part is false between observations: if the request is so close after an observation that the decay factor is rounded to 1, and the variance of that observation's error is lost when it is subtracted from the filter variance, then the variance given the past is computed as 0, the precision as an infinity, and the result is NaN with variance 0. After the last observation the variance may be computed as 0.", "quantifier": "all rounding modes, data and parameters of moderate size, requested doubles, histories of earlier calls", "why_tests_cant": "Cancellation, underflow and division by zero in a recursion of arbitrary length, for all data; the failing requests lie in intervals of relative width 1e-16.", "anchors": ["src/kfilter.cpp lines 51-135"]}
{"id": "C92", "title": "Simulated values belong to the requested times", "statement": "The values that simulate and Simulate return are a sample of the process, given the data, at the requested times in the order in which they were requested. This is false: the times are sorted first and the values come back in sorted order, whatever the order of the request, so the caller cannot tell from the answer. For CAR(1) the values are a sample at the requested times in the requested order if and only if the times are increasing.", "quantifier": "all filter classes, objects, request lists, streams of normal draws; for the equivalence all CAR(1) parameters, light curves and lists of different times", "why_tests_cant": "A statement about the joint law of the values for every permutation of every list of times.", "anchors": ["src/include/kfilter.hpp lines 135-184", "src/carmcmc/carma_pack.py lines 809-837"]}
{"id": "C93", "title": "Starting values of CAR(1) in double precision", "statement": "CAR1::StartingValue with IEEE double arithmetic in any rounding mode returns four doubles whatever was called before: a positive standard deviation within a relative 2^-49 of the square root of the scaled inverse chi-squared variate, a scale between 0.5 and 2 even if the chi-squared variate is 0, the mean plus the normal variate times the standard deviation over n to 2^-48, and minus the logarithm of median gap times uniform variate, the comparison with the largest frequency having no effect. A run without user's starting values starts at a point of finite log-density and records finite log-densities within the prior bounds. The last sentence is false: it holds when the product of median gap and uniform variate is at most the time span and the standard deviation is below the prior's bound, and if the product exceeds the time span (possible for fewer than about 50 evenly spaced points) the run never moves and records -inf. With nothing rounded the function is the one over the reals.", "quantifier": "all rounding modes, observation times, values, variates of moderate size, histories of earlier calls, later draws", "why_tests_cant": "Random starting values and rounding errors for all data; a run that starts outside the prior looks like any other short run.", "anchors": ["src/carpack.cpp lines 38-81", "src/random.cpp lines 180-186", "src/carmcmc.cpp lines 30-77"]}
{"id": "C94", "title": "Simulate of CAR(1) in double precision", "statement": "KalmanFilter1::Simulate with IEEE double arithmetic returns one value per requested time whatever the data, parameters, requested times (other than NaN, which is rejected before anything changes) and draws; it gives back the object with its data, and Filter, Predict and Simulate give the same numbers whatever calls came before. With nothing rounded it is the function over the reals. The values are not NaN for finite data and draws. The last sentence is false: a time requested twice, the time of an error-free observation, and two requested times whose decay factor is rounded to 1 (with an observation later and none between) give NaN from there on, since a NaN value makes all later ones NaN; for data, positive errors, parameters and draws of moderate size all values are finite provided that the requested times differ and the computed decay factor from the point last before each of them, observed or requested, is not 1.", "quantifier": "all rounding modes, data (NaN and infinities included where not said otherwise), requested times, draws, histories of earlier calls", "why_tests_cant": "Simulations are random, the request that goes wrong depends on rounding of a decay factor, and the failure is silent.", "anchors": ["src/include/kfilter.hpp lines 135-186", "src/kfilter.cpp lines 51-135", "src/random.cpp lines 76-81"]}
{"id": "C95", "title": "The trials of get_mle are different random starts, however many processes run them", "statement": "get_mle(ntrials, njobs) returns the best of ntrials random starts that use the generators one after the other, each start once, and successive calls use fresh starts; the number of processes changes the time taken, not what is tried. This holds for one process under Python 2. It is false for two or more: in every execution of the pool (any scheduling of the workers) the results are exactly those of the first m trials of one process for some m between ntrials/njobs and ntrials, the value returned is the one a single process finds with m trials, and all further calls return one of the same trials; there are executions in which m is the batch size times the number of batches per worker, and with as many workers as trials executions in which all trials are the same. The pool itself is sound: executions end, can always be completed, and give exactly one result per trial.", "quantifier": "all trial functions and generator states, numbers of trials, processes and calls, all schedules of the workers", "why_tests_cant": "Scheduling is nondeterministic, the fits look plausible, and a search that repeats itself still returns a good fit on easy data.", "anchors": ["src/carmcmc/carma_pack.py lines 92-129", "src/carmcmc/carma_pack.py lines 195-252", "src/random.cpp lines 16-20"]}
{"id": "C96", "title": "Orders with q not below p are refused", "statement": "A CARMA(p,q) fit with q >= p is refused with an error before any result is produced, whichever way the order is given (constructor, run_mcmc, get_mle, choose_order). For p >= 2 no result is produced: every run ends with an out-of-bounds exception in the first pass of the search for starting values, whatever the data, the starting values given and the draws, although the checks written for this purpose have no effect (the Python comparison is discarded, the C++ assertion is compiled out). The claim is false for p = 1: any q is accepted and a CAR(1) model is fitted, with the same result as for q = 0.", "quantifier": "all data, draws, numbers of walkers and iterations, initial vectors, optimisers; all p and q with q >= p", "why_tests_cant": "That no call with a wrong order produces a result is a statement about all data and draws; a fit of the wrong model is silent.", "anchors": ["src/carmcmc/carma_pack.py lines 28-31", "src/include/carpack.hpp lines 370-380", "src/carpack.cpp lines 520-545", "src/carmcmc/carma_pack.py lines 195-252"]}
{"id": "C97", "title": "A trial of get_mle returns a likelihood fit inside its bounds", "statement": "For at least three observations, not all equal, and an optimiser that keeps to the bounds and does not go uphill, a trial of get_mle (a short run of the sampler, the sample moved into the bounds, the optimiser) returns a point of the search region whose value fun is minus the log-likelihood of the data, not above that of the starting point; several trials return the best of them. For CAR(1) every trial returns and the value is a number; for CARMA(p,q), q < p, trials return with probability one, the value is a number if the AR roots of the estimate are different and infinite otherwise, and different roots at the start give different roots at the end. What is false: fun is minus the log-likelihood minus the log-prior of the error scale, which is larger by more than 24 everywhere in the search region, so that fun is neither a log-likelihood nor is the estimate the maximum-likelihood one (SetMLE(True) leaves this prior in, and is not called for p = 1).", "quantifier": "all data of at least three points, strictly increasing times, orders q < p, draws, optimisers that satisfy the contract", "why_tests_cant": "The optimiser visits unpredictable points; that all of them have a value, with the right sign and meaning, is a statement about the whole region. An offset of 24 does not show in a fit.", "anchors": ["src/carmcmc/carma_pack.py lines 92-129", "src/carmcmc/carma_pack.py lines 195-260", "src/include/carpack.hpp lines 118-176", "src/carpack.cpp lines 312-345"]}
{"id": "C98", "title": "carma_process returns a draw of the process whatever the array of times", "statement": "carma_process(time, sigsqr, ar_roots, ma_coefs) returns a realisation of the process at the given times for every numpy array of times. For doubles and distinct times each value is a draw from the conditional law given the values before. The claim is false for integer arrays: values are truncated to integers when stored (and the truncated values are conditioned on), the result has integer values only, is identically zero when every draw times the process standard deviation is below one in size, and no linear map of the draws with the covariance of the process gives it. It is false for repeated times too: the function returns if and only if no two sorted neighbours are equal except perhaps the last two; otherwise it divides by a variance of zero.", "quantifier": "all times in any order, orders p >= 2, admissible roots, moving-average coefficients, draws", "why_tests_cant": "The output is random; a truncated series with large variance looks plausible, and the law is a statement about all draws.", "anchors": ["src/carmcmc/carma_pack.py lines 1148-1259"]}
{"id": "C99", "title": "The CARMA log-density in double precision is never plus infinity, has no memory, and is a number where it should be", "statement": "In double-precision arithmetic LogDensity of CARp, CARMA, ZCAR and ZCARMA never returns +inf, whatever the data (also infinite or NaN), the parameters, the complex library and the earlier calls. For times at least 2^-300 apart and orders 2 <= p, q < p every call returns, and the value depends only on the data, the parameters and the setting of SetMLE, not on earlier calls (also ones that produced NaN). With exact arithmetic it is the log-density of the data plus the prior terms. The claim that it is a finite number wherever the exact value is one is false for ZCARMA: with |theta(p+3)| >= 720 it is -inf or NaN for every data set, while the exact value is finite.", "quantifier": "all data, parameters, histories of LogDensity and SetMLE, rounding of real operations allowed by IEEE 754, results of complex operations and linear algebra", "why_tests_cant": "An infinite value would make the sampler accept one point forever, and could come from any operation of a filter with unspecified order of complex operations; tests cannot try all data, parameters and libraries.", "anchors": ["src/kfilter.cpp lines 138-215", "src/carpack.cpp lines 30-345", "src/carpack.cpp lines 522-700", "src/include/carpack.hpp lines 118-176", "src/include/carpack.hpp lines 260-450"]}
{"id": "C100", "title": "RunCarmaSampler in double precision returns finite log-densities that belong to its samples, or says why not", "statement": "In double-precision arithmetic, for times at least 2^-300 apart, values and errors of any kind from which the proposal covariance can be computed, orders 2 <= p and q < p, at least one chain, and any random draws (also infinite or NaN): RunCarmaSampler either never leaves the search for a starting value, or throws runtime_error from that search, or returns exactly the requested number of records; every recorded sample has the right length and meets the prior bounds, and its recorded log-density is finite and is what LogDensity of a new object gives for it. If the user's starting value has a finite log-density it returns for all draws. If among the proposals of the search there are 2*nwalkers-1 with a finite log-density, and none on which solve throws, it returns. The claim that a singular proposal is only skipped, as it is in LogDensity, is false: StartingValue runs the filter outside any try block, so the whole run throws. With two or more chains the chain that is returned has temperature exactly 1; with one chain its temperature is within 1e-6 of 100 instead; with none the behaviour is undefined. With two observation times, whatever the user gives as starting value, it never returns a sample: the two frequency bounds of the prior coincide.", "quantifier": "all data, orders, numbers of chains, sample sizes, burn-in, thinning, starting values, streams of random draws, roundings allowed by IEEE 754, results of complex operations and linear algebra", "why_tests_cant": "A chain that records a NaN, or a log-density left over from an earlier call, shows up only for particular draws and particular rounding; the exception needs a proposal with two equal factors, which random tests meet with probability zero unless the data make it certain.", "anchors": ["src/carmcmc.cpp lines 79-177", "src/carpack.cpp lines 175-265", "src/carpack.cpp lines 416-512", "src/carpack.cpp lines 586-678", "src/include/carpack.hpp lines 76-176", "src/include/steps.hpp"]}
{"id": "C101", "title": "CAR(1) predictions in double precision are close to the exact conditional mean and variance", "statement": "In double-precision arithmetic with an exp accurate to one unit in the last place, for data and parameters of moderate size: let 2^c and 2^b/2 bound the stationary variance and the measurement variances from below and above, 2^a the values, let N be the memory of the process (at least 1, and either at least the number n of observations or such that neighbouring observations have correlation at most 1 - 1/N), and let kappa = 2^b/2^c and K = kappa^2 n (n + N^2). If K <= 2^39, then the constructor returns, and for every requested time within 2^300 of the observations, before, between, at or after them, and after any earlier calls of Filter and Predict, Predict returns a positive variance that differs from the exact conditional variance by at most the fraction 2^-42 K, and a mean that differs from the exact conditional mean by at most 2^-39 K n kappa 2^a. For requests after the last observation the variance is within 192 2^-52 2^b N and the mean within 1440 2^-52 kappa N^2 2^a, independent of n.", "quantifier": "all numbers of observations, data, parameters and requested times of the stated sizes, all earlier calls, all roundings allowed by IEEE 754 and all accurate exp functions", "why_tests_cant": "A test compares a few series with a reference; loss of accuracy in the backward recursion (differences of nearly equal variances, products of many slopes) depends on spacing, errors and rounding together, and on the whole series.", "anchors": ["src/kfilter.cpp lines 15-48", "src/kfilter.cpp lines 51-69", "src/kfilter.cpp lines 72-135", "src/include/kfilter.hpp lines 216-245"]}
{"id": "C102", "title": "The starting values proposed for CARp, CARMA, ZCAR and ZCARMA in double precision are the ones meant", "statement": "In double-precision arithmetic with exp and log accurate to one unit in the last place, for strictly increasing times of moderate size (at least three of them if p is odd), orders 2 <= p and q < p, and draws in the ranges of their distributions (for odd p, uniform draws of centroids not below 2^-40), every pass of StartingValue up to the proposal returns: no access out of bounds, no exception of sort, no uniform distribution with bounds out of order. The proposed vector has the length the class expects and consists of finite doubles. The standard deviation is the one drawn, to a fraction 2^-49; the error scale is in [0.5, 2]; the mean is that of the values plus the normal draw times standard deviation over n, to 2^-48 of its parts. The logarithms of the autoregressive coefficients are, to 2^-40, those of quadratic factors whose widths and centroids are the frequencies that the uniform draws choose on a logarithmic scale between one over the time span and one over the smallest gap, centroids in descending order; for odd p the last factor has a width between one over the time span and the last centroid. The moving-average parameters of CARMA are the absolute values of the draws, the parameter of ZCARMA the logit of the draw to 2^-40. So RunCarmaSampler with such draws never fails otherwise than by an endless search or the runtime_error of C100. Without rounding the proposal is that of the model with real numbers for the same draws.", "quantifier": "all times, values, orders, classes and draws of the stated sizes, all roundings allowed by IEEE 754, all accurate exp and log functions", "why_tests_cant": "The bounds of the uniform draw for odd p are a rounded logarithm and the logarithm of a rounded exponential; whether they can be out of order depends on rounding for particular times and draws. A wrong factor or a swapped index in the conversion still gives a plausible starting value, which the sampler forgets.", "anchors": ["src/carpack.cpp lines 175-227", "src/carpack.cpp lines 268-311", "src/carpack.cpp lines 416-474", "src/carpack.cpp lines 515-519", "src/carpack.cpp lines 586-641", "src/carpack.cpp lines 681-684"]}
{"id": "C103", "title": "Predict and Simulate of a CARMA filter in double precision always return, remember nothing, and are the conditional mean and draws before rounding", "statement": "For a KalmanFilterp object built from any data that its constructor accepts (in particular increasing times at least 2^-300 apart; values, measurement errors and parameters any doubles, also infinite or NaN), with p >= 2 and at most p moving-average coefficients, and for every rounding of the real operations and every behaviour of the complex operations and matrix products: Predict(time) returns for every double time, also NaN, Filter returns, and Simulate(times) returns one value per requested time if none is NaN. No element outside a vector is read or written, no memory is read before it is set. The numbers depend on the data, the parameters, the request and the draws only, not on earlier calls of Filter, Predict or Simulate, and Simulate puts the data back. The only other outcomes are std::runtime_error from Armadillo's solve, which happens for every request or for none, and the exception of arma::sort for a requested time that is NaN, which leaves the object unchanged. A value of NaN at or after the requested time makes the predicted mean NaN. Without rounding, Predict returns the mean and variance of the process given all observations, and Simulate the draws of C22.", "quantifier": "all data, parameters, orders p >= 2, requests, draws and histories of calls; all libraries for the complex and matrix operations", "why_tests_cant": "The object carries the state vector, the prediction variance, the current index and the coefficients of the backward recursion from call to call; that none of it reaches a later answer is a statement about all sequences of calls. Tests compare a few requests on well-behaved data with a reference implementation up to a tolerance.", "anchors": ["src/kfilter.cpp lines 139-215", "src/kfilter.cpp lines 218-286", "src/kfilter.cpp lines 290-337", "src/include/kfilter.hpp lines 135-186", "src/include/kfilter.hpp lines 271-334"]}
{"id": "C104", "title": "The searches for starting values and for a stretch partner are short: geometric tail, uniform over data", "statement": "For every number n >= 3 of observation times and every order 2 <= p < 2500 there is a number c < 1 such that, for all data with n strictly increasing times and values not all equal, every q < p (or do_zcarma), every number of walkers, initial vector and length of run, with independent draws of the laws the code asks for: the probability that RunCarmaSampler has not returned when each of its S = 2*nwalkers - 1 searches for starting values is stopped after S*k passes is at most S*c^k. The sum of these probabilities over all bounds, the expected number of passes of the longest search, is at most S^2/(1-c). The search of the stretch move for a partner in an ensemble of w walkers is unfinished after k draws with probability exactly (1/w)^k.", "quantifier": "all data sets of n points, orders, walkers, run lengths, initial vectors, and all probability spaces of independent draws", "why_tests_cant": "The loops have no bound in the code. A test shows that some runs end; it cannot show that the waiting time has a finite mean, let alone that one bound serves all data sets of a size.", "anchors": ["src/carpack.cpp lines 175-227", "src/carpack.cpp lines 268-311", "src/carpack.cpp lines 416-474", "src/samplers.cpp lines 80-90", "src/include/proposals.hpp lines 198-201"]}
{"id": "C105", "title": "Filters have no memory beyond what their getters show, setters included (machine numbers)", "statement": "Take two KalmanFilterp objects (or two KalmanFilter1 objects) built by either constructor from any data and parameters (after the constructor taking data only, SetSigsqr and SetOmega have been called), each with any history of Filter, Predict and Simulate calls that returned and of the setters SetTimeSeries, SetTimeSeriesErr (same number of elements), SetSigsqr, SetOmega (also with another number of roots), SetMA with any doubles. If GetTime, GetTimeSeries, GetTimeSeriesErr, GetSigsqr, GetOmega, GetMA agree at the end, then every further Predict, Simulate or Filter has the same outcome for both: the same numbers, or the same exception. The exceptions are: std::logic_error if there are fewer than two roots, else std::runtime_error if the system in the roots set last cannot be solved, else std::logic_error if SetMA was last given a number of coefficients other than the number of roots (SetMA does not pad), or if a time requested from Simulate is NaN; a CAR(1) filter throws only for the last. SetTime is different: it does not recompute the stored gaps, so Filter after SetTime computes the values for the old times.", "quantifier": "all data, parameters, histories of calls and setters, requests, arithmetics and libraries", "why_tests_cant": "A stale work array or a value left over from an earlier call shows only for particular sequences of calls; the claim is about all sequences, and about all values including NaN and infinities.", "anchors": ["src/include/kfilter.hpp lines 79-107", "src/include/kfilter.hpp lines 126-132", "src/include/kfilter.hpp lines 337-357", "src/kfilter.cpp"]}
{"id": "C106", "title": "The sign of the data does not matter (machine numbers)", "statement": "Change the sign of all measured values (magnitudes instead of fluxes, say). Then, bit for bit in double arithmetic with the default rounding: (a) the bound of the prior, the factor of the first proposal covariance and the exceptions of the set-up of a run are the same, and the mean changes sign; (b) a CAR(1) or CARMA filter given the same calls (Filter, Predict, Simulate, setters), with the sign changed in SetTimeSeries and in the normal draws of Simulate, answers with all means and simulated values changed in sign and all variances equal, and throws the same exceptions at the same calls; (c) the log-density of CAR1, CARp, CARMA, ZCAR and ZCARMA at theta with theta(2) changed in sign is the same double, in any sequence of evaluations. Rounding to nearest, ties to even, treats both signs alike, also for subnormal numbers.", "quantifier": "all data, parameters, orders, sequences of calls and evaluations, libraries, and roundings that treat both signs alike", "why_tests_cant": "An expression that treats the two signs differently (an absolute value, a comparison with zero, a branch on the sign of the innovation) may differ only for particular data or in the last bit.", "anchors": ["src/carmcmc.cpp lines 35-54, 85-89", "src/kfilter.cpp", "src/include/kfilter.hpp", "src/carpack.cpp", "src/include/carpack.hpp"]}
{"id": "C107", "title": "The sign of the data in a whole run (machine numbers)", "statement": "Run RunCar1Sampler or RunCarmaSampler on the values with the other sign, with the other sign of the mean in the starting vector, and with mirrored draws: the same uniform numbers, the other sign of the mean in every vector proposed by StartingValue and of the third component of every Student t vector. Then all recorded parameter vectors are those of the original run with the other sign of the mean, and all recorded log-posteriors are the same doubles; the run ends with the same exception if there is one. This includes the searches for starting values, the adaptation of the proposal covariance (whose third row and column change sign) and the exchanges between tempered chains.", "quantifier": "all data, draws, orders, parametrisations, numbers of chains, samples, burn-in, thinning, libraries that treat both signs alike", "why_tests_cant": "A run depends on the draws, and two runs of the real program cannot be given mirrored draws; statistical comparison of two runs cannot see a small asymmetry.", "anchors": ["src/carmcmc.cpp lines 30-177", "src/steps.cpp lines 24-131", "src/include/steps.hpp lines 318-362", "src/samplers.cpp lines 37-124", "src/carpack.cpp lines 38-113, 175-265, 416-512, 586-678"]}
{"id": "C108", "title": "Order and repetition of the data (machine numbers)", "statement": "Times are finite doubles; values and errors are any doubles. With at least two different times the constructor of a filter stores a selection of the (time, value, error) triples, none used twice, with strictly increasing times among which every time given appears; the stored differences are the rounded differences and all are positive, so that doubles however close are never taken for equal. Running init() again changes nothing. If all times are different nothing is dropped, and the filter objects are the same, bit for bit, whatever the order of the triples and the sort routine. Fewer than two different times end in a bounds error. The model classes look at the data before sorting: if some time is smaller than an earlier one, LogDensity of CAR1 is -inf whenever the last parameter is a number, and that of CARp and its subclasses always.", "quantifier": "all data (times up to 2^970 in size for the last part), sort routines, rounding rules, orders p, classes, parameter vectors", "why_tests_cant": "Whether two doubles that differ by the smallest subnormal number, or whose difference overflows, are told apart cannot be seen on ordinary data; the effect of the sort routine on ties depends on the library.", "anchors": ["src/include/kfilter.hpp lines 43-76, 215-245, 270-334", "src/include/carpack.hpp lines 56-72, 131-176, 201-207", "src/carpack.cpp lines 116-130, 314-362"]}
{"id": "C109", "title": "The signs of the measurement errors (machine numbers)", "statement": "If two vectors of measurement errors have the same absolute values, element by element, then filters of either class built from them answer every sequence of calls (Filter, Predict, Simulate, all setters, with errors of the same absolute values in SetTimeSeriesErr) with the same doubles and the same exceptions, under any rounding; and LogDensity of all five classes gives the same values under any rounding that does not prefer a sign. A negative error is therefore never noticed.", "quantifier": "all data, parameters, sequences of calls, orders p, classes, libraries", "why_tests_cant": "Equality to the last bit for all data, including infinities and NaN, and for all sequences of calls.", "anchors": ["src/kfilter.cpp lines 19-135, 138-345", "src/include/kfilter.hpp lines 43-190", "src/include/carpack.hpp lines 131-176"]}
{"id": "C110", "title": "Whole runs and the signs of the measurement errors (machine numbers)", "statement": "run_mcmc_car1 and run_mcmc_carma on two vectors of measurement errors with the same absolute values, element by element, and with the same draws, record the same values and the same log-posteriors to the last bit, or end with the same fault, under any rounding that does not prefer a sign; also when the starting values are computed from the draws of StartingValue.", "quantifier": "all data, starting values, draws, numbers of samples, burn-in lengths, thinnings, orders p and q, numbers of chains, libraries", "why_tests_cant": "Equality to the last bit of whole random runs, of any length, for all data and all draws.", "anchors": ["src/carmcmc.cpp lines 30-177", "src/steps.cpp lines 24-131", "src/include/steps.hpp lines 318-362", "src/samplers.cpp lines 37-124", "src/carpack.cpp lines 38-113, 175-265, 416-512, 586-678"]}
