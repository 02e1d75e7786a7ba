{"id": "C01", "title": "SDE solver time grid", "statement": "sde_solver (and the state-space parabola solver, Euler-Maruyama and both 1.5 schemes) returns a time array with exactly N+1 entries whose k-th entry is k*step; it starts at 0, ends at N*step and is strictly increasing when step > 0.", "quantifier": "every step size, every N >= 0 (including 0 and 1)", "why_tests_cant": "the number of grid points is unbounded; a test fixes a handful of N and compares floats", "anchors": ["bayesian_sde_solver/sde_solver.py: sde_solver", "bayesian_sde_solver/ssm_parabola/ssm_parabola_ode.py: sde_solver", "bayesian_sde_solver/sde_solvers/euler_maruyama.py: solver, solver_pathwise"]}
{"id": "C02", "title": "SDE trajectory starts at x0 and has one state per grid point", "statement": "The trajectory returned by sde_solver has N+1 entries, the first is exactly the given initial state (array or (sample, mean, covariance) tuple), and one tuple of Brownian coefficients is returned per interval.", "quantifier": "every initial state, N, key, Brownian approximation and ODE integrator", "why_tests_cant": "tests only look at the final marginal of one configuration", "anchors": ["bayesian_sde_solver/sde_solver.py: sde_solver", "bayesian_sde_solver/utils/insert.py: insert"]}
{"id": "C03", "title": "Each SDE step integrates the parabola ODE on its own interval", "statement": "traj[k+1] is the ODE integrator applied to traj[k] over a horizon delta with the vector field (z,t) -> drift(z, t+k*delta) + sigma(z, t+k*delta) @ d/dt path_k(t), where path_k is the Brownian path rebuilt from exactly the coefficients that are returned for interval k.", "quantifier": "every k < N, every drift, sigma, key, Brownian approximation and integrator", "why_tests_cant": "a wrong time shift or a mismatch between used and returned coefficients is invisible in autonomous tests with statistical tolerances", "anchors": ["bayesian_sde_solver/sde_solver.py: sde_solver.body"]}
{"id": "C04", "title": "Restarting an SDE solve in the middle changes nothing", "statement": "Solving N1+N2 intervals gives the same trajectory and coefficients as solving the first N1 intervals and then continuing from the reached state with the drift and diffusion shifted by N1*delta, using the same per-interval keys.", "quantifier": "every split point N1, N2 and all inputs", "why_tests_cant": "quantifies over all split points and all user functions", "anchors": ["bayesian_sde_solver/sde_solver.py: sde_solver"]}
{"id": "C05", "title": "SDE solver is causal", "statement": "The first k+1 states of a trajectory depend only on the first k per-interval keys and on drift/diffusion at times reachable in the first k intervals: two problems that agree there have identical first k+1 states.", "quantifier": "every k, every pair of problems that agree up to k*delta, every integrator that only looks at its vector field on [0,T]", "why_tests_cant": "relational property over pairs of inputs", "anchors": ["bayesian_sde_solver/sde_solver.py: sde_solver.body"]}
{"id": "C06", "title": "No random key is used for two draws", "statement": "In one run of sde_solver (with any of the three Brownian approximations and a sampling ODE solver), of the state-space parabola solver or of Euler-Maruyama, all keys handed to a random draw are pairwise different derivations of the root key, and no key that was drawn from is also split.", "quantifier": "every N, every number of fine steps, every root key", "why_tests_cant": "key reuse biases results without raising; a test cannot enumerate N or see key provenance", "anchors": ["bayesian_sde_solver/sde_solver.py: sde_solver.body", "bayesian_sde_solver/foster_polynomial.py: get_approx_fine.parabolas", "bayesian_sde_solver/sde_solvers/euler_maruyama.py: solver.body"]}
{"id": "C07", "title": "Progress bar is transparent and its total is exact", "statement": "Decorating a scan body with progress_bar does not change carries or outputs; the bar is created once before any update, closed once after all updates, and the updates sum to exactly num_samples.", "quantifier": "every num_samples >= 1, every body", "why_tests_cant": "the print-rate arithmetic has a boundary case for every residue; tests cannot cover all num_samples", "anchors": ["bayesian_sde_solver/utils/progress_bar.py: progress_bar"]}
{"id": "C08", "title": "Ito/Stratonovich conversions are mutually inverse", "statement": "to_stratonovich(*to_ito(drift, sigma)) and to_ito(*to_stratonovich(drift, sigma)) return a drift pointwise equal to the given one; the diffusion is returned unchanged by each.", "quantifier": "every drift, diffusion, state and time, every dimension", "why_tests_cant": "tests check two points", "anchors": ["bayesian_sde_solver/ito_stratonovich.py: to_ito, to_stratonovich"]}
{"id": "C09", "title": "Drift correction is the Kloeden-Platen term", "statement": "The i-th component added (times 1/2) by to_ito is sum_{j,k} sigma_{jk}(x,t) d sigma_{ik}/dx_j (x,t).", "quantifier": "every differentiable diffusion of any shape d x m, every x and t", "why_tests_cant": "index conventions in an einsum agree on symmetric or small examples by accident", "anchors": ["bayesian_sde_solver/ito_stratonovich.py: drift_correction"]}
{"id": "C10", "title": "Additive noise needs no correction", "statement": "If sigma does not depend on the state, to_ito and to_stratonovich leave the drift unchanged.", "quantifier": "every state-independent diffusion (possibly time dependent), every dimension", "why_tests_cant": "all functions", "anchors": ["bayesian_sde_solver/ito_stratonovich.py: drift_correction"]}
{"id": "C11", "title": "Parabola matches the Brownian increment at the interval ends", "statement": "The evaluated polynomial is 0 at t=0 and equals the increment coefficient at t=dt, and its derivative is (a + sqrt(6) b (1-2t/dt))/dt, for all three Brownian approximations.", "quantifier": "every t, dt != 0 and coefficients, every dimension", "why_tests_cant": "continuous quantifier", "anchors": ["bayesian_sde_solver/foster_polynomial.py: get_approx.eval_parabola"]}
{"id": "C12", "title": "Parabola area", "statement": "The time integral over [0,dt] of the evaluated polynomial is dt*(a/2 + b/sqrt(6)).", "quantifier": "every dt > 0 and coefficients", "why_tests_cant": "continuous quantifier", "anchors": ["bayesian_sde_solver/foster_polynomial.py: get_approx.eval_parabola"]}
{"id": "C13", "title": "Law of the sampled parabola", "statement": "If the generator's standard normal draws are iid N(0,1), the coefficients of get_approx are independent Gaussians with variances dt and dt/2; the increment and the path integral then have exactly the joint covariance [[dt, dt^2/2],[dt^2/2, dt^3/3]] of Brownian motion.", "quantifier": "every dt >= 0 and dimension", "why_tests_cant": "statistical tests have tolerance and fixed dt", "anchors": ["bayesian_sde_solver/foster_polynomial.py: get_approx.parabolas", "tests/test_foster.py: test_path_integral"]}
{"id": "C14", "title": "Fine parabolas aggregate consistently", "statement": "For get_approx_fine, the coarse parabola has the same increment and the same time integral over [0,dt] as the continuous path obtained by concatenating the N fine parabolas it was built from.", "quantifier": "every N >= 1, dt > 0, every realisation of the draws, every dimension", "why_tests_cant": "induction over N", "anchors": ["bayesian_sde_solver/foster_polynomial.py: get_approx_fine.parabolas"]}
{"id": "C15", "title": "Fine parabola has the same law as the direct one", "statement": "With iid N(0,1) draws the coarse coefficients returned by get_approx_fine(N) are independent centred Gaussians with variances dt and dt/2, whatever N, i.e. the same law as get_approx.", "quantifier": "every N >= 1, dt > 0, dimension", "why_tests_cant": "induction over N, exact law", "anchors": ["bayesian_sde_solver/foster_polynomial.py: get_approx_fine.parabolas"]}
{"id": "C16", "title": "Sampled Brownian variant: increment exact, returned increments are standard", "statement": "For get_approx_and_brownian the increment coefficient equals sqrt(dt/N) times the sum of the returned (unit-variance) increments, so feeding them to solver_pathwise needs standard=True while the increments of get_approx_fine need standard=False.", "quantifier": "every N >= 1, dt, draws", "why_tests_cant": "scale conventions differ between two functions and no test relates them", "anchors": ["bayesian_sde_solver/foster_polynomial.py: get_approx_and_brownian.parabolas", "bayesian_sde_solver/sde_solvers/euler_maruyama.py: solver_pathwise"]}
{"id": "C17", "title": "Sampled Brownian variant: area coefficient is uncorrelated with the increment", "statement": "The second coefficient of get_approx_and_brownian should be uncorrelated with the increment like in the other two approximations. (The code violates it: the covariance is sqrt(6)*dt*(N-2)/N^2 for N >= 2 and -sqrt(6)*dt/2 for N = 1.)", "quantifier": "every N >= 1 and dt", "why_tests_cant": "Monte-Carlo tests at N=1000 cannot see an O(1/N) bias", "anchors": ["bayesian_sde_solver/foster_polynomial.py: get_approx_and_brownian.parabolas"]}
{"id": "C18", "title": "Euler-Maruyama recursion", "statement": "The Euler-Maruyama trajectory starts at init and satisfies x_{k+1} = x_k + h drift(x_k, k h) + sigma(x_k, k h) @ dW_k; the keyed solver is the pathwise solver run with standard=True on the draws it makes.", "quantifier": "every k, drift, sigma, increments", "why_tests_cant": "induction over N", "anchors": ["bayesian_sde_solver/sde_solvers/euler_maruyama.py: solver, solver_pathwise"]}
{"id": "C19", "title": "Euler-Maruyama can be run block by block", "statement": "Running the pathwise solver on consecutive blocks of fine increments, restarting each block from the previous end state with time-shifted coefficients, gives exactly the subsampled trajectory of one run over all increments. (The low-memory experiment scripts rely on this.)", "quantifier": "every number of blocks, block length and inputs", "why_tests_cant": "equivalence of two programs over unbounded sizes", "anchors": ["bayesian_sde_solver/sde_solvers/euler_maruyama.py: solver_pathwise", "scripts/pathwise_convergence_experiment_2_RAM.py: experiment.sde_solver"]}
{"id": "C20", "title": "Unit-variance flag of the pathwise solver", "statement": "solver_pathwise(incs, standard=True) equals solver_pathwise(sqrt(h)*incs, standard=False).", "quantifier": "every increments array, h, coefficients", "why_tests_cant": "all inputs", "anchors": ["bayesian_sde_solver/sde_solvers/euler_maruyama.py: solver_pathwise"]}
{"id": "C21", "title": "Euler-Maruyama without noise is Euler", "statement": "With zero diffusion the last Euler-Maruyama state equals the Euler ODE solver's result, whatever the key or increments.", "quantifier": "every drift, h, N, key, increments", "why_tests_cant": "relational, unbounded N", "anchors": ["bayesian_sde_solver/ode_solvers/euler.py: solver", "bayesian_sde_solver/sde_solvers/euler_maruyama.py: solver"]}
{"id": "C22", "title": "Euler solver converges to the ODE solution", "statement": "For a vector field Lipschitz in the state and an exact solution y with second derivative bounded by M on [0, N h], the Euler result differs from y(N h) by at most h M/(2L) (exp(L N h)-1).", "quantifier": "every Lipschitz field, exact solution, h > 0, N", "why_tests_cant": "asymptotic/global error bound", "anchors": ["bayesian_sde_solver/ode_solvers/euler.py: solver"]}
{"id": "C23", "title": "Square-root and covariance Kalman steps agree", "statement": "predict and update called in square-root mode on Cholesky-like factors return the same mean and a factor L with L L^T equal to the covariance returned in covariance mode, including the returned innovation covariance.", "quantifier": "all sizes, all states, transition and observation matrices and noise factors with a non-singular innovation covariance, any QR routine", "why_tests_cant": "tests check one random 2x2 instance (and no longer run: they omit an argument)", "anchors": ["bayesian_sde_solver/ode_solvers/probnum/ekf.py: predict, update, tria"]}
{"id": "C24", "title": "Whole filter runs agree between modes", "statement": "ekf run with lower_sqrt=True from a factor of P0, with a factor of Q and R, returns at every step the same mean and a factor of the same covariance as lower_sqrt=False.", "quantifier": "every number of steps, every observation function, parameters", "why_tests_cant": "induction over steps", "anchors": ["bayesian_sde_solver/ode_solvers/probnum/ekf.py: ekf"]}
{"id": "C25", "title": "Filter covariance stays symmetric positive semi-definite", "statement": "Starting from a PSD covariance with PSD process and observation noise, every covariance returned by predict/update/ekf is symmetric PSD.", "quantifier": "every number of steps, all sizes", "why_tests_cant": "invariant over unbounded runs", "anchors": ["bayesian_sde_solver/ode_solvers/probnum/ekf.py: predict, update, ekf"]}
{"id": "C26", "title": "Innovation covariance is never singular in the ODE filters", "statement": "With the default (integrated Brownian motion) prior, h > 0 and PSD (possibly zero) observation noise, the innovation covariance that update inverts is positive definite at every step for EKF0 and EKF1, so no solve or triangular solve is ill-posed.", "quantifier": "every vector field, initial condition, number of steps, number of states, dimension", "why_tests_cant": "needs an invariant over all reachable filter states", "anchors": ["bayesian_sde_solver/ode_solvers/ekf.py: _solver", "bayesian_sde_solver/ode_solvers/probnum/ekf.py: update"]}
{"id": "C27", "title": "Update is exact Gaussian conditioning", "statement": "If the prior state is N(m,P) and the observation is c + H(x-m) plus independent N(0,R) noise observed to be 0, the mean and covariance returned by update are those of the conditional law of the state given the observation.", "quantifier": "all sizes, all m, P PSD, H, R with H P H^T + R positive definite", "why_tests_cant": "distributional statement", "anchors": ["bayesian_sde_solver/ode_solvers/probnum/ekf.py: update"]}
{"id": "C28", "title": "Noise-free update interpolates the observation", "statement": "With zero observation noise, after the update the linearised residual c + H (b - m) is zero and H C = 0: nothing uncertain is left in the observed directions.", "quantifier": "all sizes and states with a non-singular innovation", "why_tests_cant": "all inputs", "anchors": ["bayesian_sde_solver/ode_solvers/probnum/ekf.py: update"]}
{"id": "C29", "title": "Update never increases uncertainty", "statement": "The covariance before an update minus the one after is positive semi-definite.", "quantifier": "all sizes and states", "why_tests_cant": "all inputs", "anchors": ["bayesian_sde_solver/ode_solvers/probnum/ekf.py: update"]}
{"id": "C30", "title": "Observation noise means the same in both modes", "statement": "Calling a filtering ODE solver with the same noise matrix should give the same posterior whether sqrt is on or off. (The code violates it: the matrix is used as R in covariance mode and as a factor of R in square-root mode.)", "quantifier": "every solver call with noise given", "why_tests_cant": "requires comparing semantics for all noises", "anchors": ["bayesian_sde_solver/ode_solvers/ekf.py: _solver"]}
{"id": "C31", "title": "IOUP transition matrix", "statement": "The transition matrix of the integrated Ornstein-Uhlenbeck prior is exp(F dt) for the companion drift F in every coordinate block; for theta=0 entry (i,j) is dt^(j-i)/(j-i)! on and above the diagonal and 0 below, and it satisfies A(s+t)=A(s)A(t).", "quantifier": "every q, dim, dt, theta", "why_tests_cant": "all q and dt", "anchors": ["bayesian_sde_solver/ode_solvers/probnum/IOUP.py: transition_function"]}
{"id": "C32", "title": "IBM process noise is the exact covariance", "statement": "For theta=0 the returned Q equals the integral over [0,dt] of exp(Fs) L L^T exp(Fs)^T with L=sigma e_q, entry by entry, and hence (A,Q) satisfy Chapman-Kolmogorov: Q(s+t)=A(t)Q(s)A(t)^T+Q(t).", "quantifier": "every q, dt, sigma, dim", "why_tests_cant": "all q and dt", "anchors": ["bayesian_sde_solver/ode_solvers/probnum/IOUP.py: transition_function"]}
{"id": "C33", "title": "IBM process noise is positive definite", "statement": "For sigma != 0 and dt > 0 the returned Q is symmetric positive definite, so the Cholesky factorisation used in square-root mode exists.", "quantifier": "every q, dim, dt > 0, sigma != 0", "why_tests_cant": "definiteness for all q (a Hilbert-like matrix, numerically nearly singular)", "anchors": ["bayesian_sde_solver/ode_solvers/probnum/IOUP.py: transition_function", "bayesian_sde_solver/ode_solvers/ekf.py: _solver"]}
{"id": "C34", "title": "OU process noise is exact for theta != 0", "statement": "For theta != 0 the returned (A,Q) should still be the transition of the integrated OU process. (The code violates it: Q is the theta=0 formula, and Chapman-Kolmogorov fails.)", "quantifier": "every theta != 0", "why_tests_cant": "needs the exact integral", "anchors": ["bayesian_sde_solver/ode_solvers/probnum/IOUP.py: transition_function"]}
{"id": "C35", "title": "Matern-3/2 closed form", "statement": "For k=1 the closed-form A is exp(F dt) with F=[[0,1],[-lambda^2,-2 lambda]], lambda=sqrt(3)/length, and the closed-form Q is the integral of exp(Fs) L L^T exp(Fs)^T over [0,dt].", "quantifier": "every dt, magnitude, length != 0, dim", "why_tests_cant": "continuous parameters", "anchors": ["bayesian_sde_solver/ode_solvers/probnum/matern.py: transition_function"]}
{"id": "C36", "title": "Matern general branch agrees with the closed form", "statement": "For k=1 the numerically integrated branch (mc=True) should use the same drift matrix as the closed form, and for every k the companion matrix of (s+lambda)^(k+1). (The code violates it unless lambda=1: powers of lambda are inverted.)", "quantifier": "every k and length", "why_tests_cant": "needs the formula for all lengths; length=sqrt(3) hides it", "anchors": ["bayesian_sde_solver/ode_solvers/probnum/matern.py: transition_function"]}
{"id": "C37", "title": "Numerical transition function is a valid Gaussian transition", "statement": "transition_function returns A=exp(F h), a symmetric PSD Q for h >= 0, and xi=0 when u=0; xi is linear in u and Q is quadratic in L.", "quantifier": "every F, u, L, h >= 0, number of quadrature nodes", "why_tests_cant": "all inputs", "anchors": ["bayesian_sde_solver/ode_solvers/probnum/transition_function.py: transition_function"]}
{"id": "C38", "title": "Multi-dimensional prior is a product of one-dimensional ones", "statement": "The IOUP (and Matern) prior for dim coordinates equals get_independently_factorized_prior of dim copies of its one-dimensional version.", "quantifier": "every dim, q, dt, parameters", "why_tests_cant": "index bookkeeping for all dims", "anchors": ["bayesian_sde_solver/ode_solvers/probnum/transition_function.py: get_independently_factorized_prior", "bayesian_sde_solver/ode_solvers/probnum/IOUP.py: transition_function"]}
{"id": "C39", "title": "Prior padding", "statement": "pad_prior raises AssertionError unless the target order exceeds the current size, otherwise it returns a transition of size q+1 whose leading block is the input and whose other entries are 0; padded coordinates are mapped to exactly 0 by a prediction.", "quantifier": "every prior and target order", "why_tests_cant": "all sizes", "anchors": ["bayesian_sde_solver/ode_solvers/probnum/transition_function.py: pad_prior"]}
{"id": "C40", "title": "Interlacing round trip", "statement": "Taking every n-th entry of interlace((a_0,...,a_{n-1})) from offset k gives back a_k, and every entry of the result comes from exactly one input.", "quantifier": "every n, length and arrays", "why_tests_cant": "index arithmetic over all sizes", "anchors": ["bayesian_sde_solver/ode_solvers/probnum/_utils.py: interlace"]}
{"id": "C41", "title": "Interlaced covariance", "statement": "interlace_matrix(V,W,X,Y) is the covariance of the interlaced vector: its four stride-2 sub-matrices are V, W, X, Y; it is symmetric PSD iff the block matrix [[V,W],[X,Y]] is.", "quantifier": "every dimension and blocks", "why_tests_cant": "index arithmetic over all sizes", "anchors": ["bayesian_sde_solver/ode_solvers/probnum/_utils.py: interlace_matrix"]}
{"id": "C42", "title": "Prepending the initial state", "statement": "insert(x, 0, y, axis=0) returns y followed by x for arrays and component-wise for tuples.", "quantifier": "every length and tuple arity", "why_tests_cant": "all sizes", "anchors": ["bayesian_sde_solver/utils/insert.py: insert"]}
{"id": "C43", "title": "EKF0 with one derivative is an explicit trapezoidal scheme", "statement": "EKF0 with the integrated Brownian motion prior (q=1), exact initialisation and no noise returns the mean y_N of y_{k+1}=y_k+h/2 (v_k+v_{k+1}), v_{k+1}=f(y_k+h v_k,(k+1)h), v_0=f(y_0,0); for N=1 this is Heun's method.", "quantifier": "every vector field, dimension, h > 0, N, prior scale sigma != 0, both modes", "why_tests_cant": "closed form for all N and all fields", "anchors": ["bayesian_sde_solver/ode_solvers/ekf0.py: solver", "bayesian_sde_solver/ode_solvers/ekf.py: _solver"]}
{"id": "C44", "title": "EKF0 posterior covariance", "statement": "In the same setting the posterior covariance of the solution after N steps is sigma^2 N h^3/12 times the identity and the derivative components have zero variance, whatever the vector field.", "quantifier": "every vector field, dimension, h > 0, N, sigma != 0", "why_tests_cant": "closed form for all N", "anchors": ["bayesian_sde_solver/ode_solvers/ekf0.py: solver"]}
{"id": "C45", "title": "Means do not depend on the prior scale", "statement": "With zero initial covariance and no observation noise, multiplying the prior covariance by c > 0 leaves every posterior mean and residual unchanged and multiplies every covariance and innovation covariance by c (EKF0 and EKF1).", "quantifier": "every prior, vector field, N, c > 0", "why_tests_cant": "relational over all runs", "anchors": ["bayesian_sde_solver/ode_solvers/ekf.py: _solver"]}
{"id": "C46", "title": "Pure noise is integrated exactly", "statement": "For zero drift and constant diffusion, sde_solver with EKF0 (IBM prior q=1) and mean output returns x0 + sigma @ (sum of the Brownian increments) at every grid point.", "quantifier": "every diffusion matrix, N, inner steps M, delta > 0, draws", "why_tests_cant": "exactness for all paths", "anchors": ["bayesian_sde_solver/sde_solver.py: sde_solver", "bayesian_sde_solver/ode_solvers/ekf0.py: solver"]}
{"id": "C47", "title": "Filter samples have the posterior law", "statement": "With a key, ekf0/ekf1 return mean + factor @ standard normals: given iid N(0,1) draws the returned vector is Gaussian with the posterior mean and the posterior covariance of the solution components; without a key they return the mean.", "quantifier": "every posterior, both modes, every dimension", "why_tests_cant": "distributional", "anchors": ["bayesian_sde_solver/ode_solvers/ekf0.py: solver", "bayesian_sde_solver/ode_solvers/ekf1.py: solver"]}
{"id": "C48", "title": "Algorithm 3 mean and covariance ignore the sample keys", "statement": "For ekf0_2/ekf1_2 the returned mean and covariance do not depend on the key or on the sample component of the initial state, so along a whole sde_solver run the (mean, covariance) trajectory is a function of the Brownian coefficients only.", "quantifier": "every key (or None), initial state, N", "why_tests_cant": "non-interference over pairs of runs", "anchors": ["bayesian_sde_solver/ode_solvers/ekf0_2.py: solver", "bayesian_sde_solver/ode_solvers/ekf1_2.py: solver"]}
{"id": "C49", "title": "Algorithm 3 initial covariance is that of (Y, H Y)", "statement": "ekf1_2 (ekf0_2) starts its filter from the exact joint covariance of (Y, J Y) (resp. (Y, 0)) when Y has the given covariance; it is symmetric PSD whenever the given one is.", "quantifier": "every dimension, PSD covariance, Jacobian", "why_tests_cant": "all inputs", "anchors": ["bayesian_sde_solver/ode_solvers/ekf1_2.py: solver", "bayesian_sde_solver/ode_solvers/ekf0_2.py: solver"]}
{"id": "C50", "title": "return_all does not change the result, and its order", "statement": "With return_all=True the solvers return the same (sample, mean, covariance) as without; the additional tuple is (sample, mean, covariance, innovation covariance S, residual z) in this order, although the documentation says z before S.", "quantifier": "every input, both modes", "why_tests_cant": "relational", "anchors": ["bayesian_sde_solver/ode_solvers/ekf1_2.py: solver", "bayesian_sde_solver/ode_solvers/probnum/ekf.py: ekf"]}
{"id": "C51", "title": "Default prior is usable", "statement": "ekf0/ekf1 called without a prior should use the integrated Brownian motion prior like the filter they wrap. (The code violates it: they raise TypeError for every input.)", "quantifier": "every input with prior=None", "why_tests_cant": "claim about every input", "anchors": ["bayesian_sde_solver/ode_solvers/ekf0.py: solver", "bayesian_sde_solver/ode_solvers/ekf1.py: solver"]}
{"id": "C52", "title": "Higher-order priors are initialised as documented", "statement": "For priors with n>=4 states per coordinate, the first three states should be initialised exactly (zero variance) and the others with unit variance. (ekf0 raises for every such prior; ekf1 zeroes the wrong entries for dim>=2.)", "quantifier": "every dim and n_states >= 4", "why_tests_cant": "index bookkeeping for all sizes", "anchors": ["bayesian_sde_solver/ode_solvers/ekf0.py: solver", "bayesian_sde_solver/ode_solvers/ekf1.py: solver"]}
{"id": "C53", "title": "EKF1 solves affine problems consistently", "statement": "For a vector field affine in the state, EKF1 without noise returns a mean whose derivative component equals the vector field at the solution component exactly at every step, and a covariance supported on that constraint.", "quantifier": "every affine field (time-dependent), dimension, N", "why_tests_cant": "all fields", "anchors": ["bayesian_sde_solver/ode_solvers/ekf.py: _solver", "bayesian_sde_solver/ode_solvers/ekf1.py: solver"]}
{"id": "C54", "title": "Diffusion MLE: sign, scaling, calibration", "statement": "mle_diffusion is nonnegative for PD covariances, is divided by c when every S is multiplied by c, and re-running a filter with the prior variance multiplied by the estimate gives an estimate of exactly 1.", "quantifier": "every sequence of residuals and PD covariances, every c > 0", "why_tests_cant": "relational", "anchors": ["bayesian_sde_solver/ode_solvers/probnum/calibration.py: mle_diffusion"]}
{"id": "C55", "title": "Calibration script reaches a calibrated prior", "statement": "The uncertainty calibration experiment should re-run with a prior scale for which the estimate becomes 1. (The script violates it: it ignores the scale sqrt(10) of the first run, so the second estimate is 10.)", "quantifier": "every run with a nonzero estimate", "why_tests_cant": "relational between two runs", "anchors": ["scripts/sampling_from_posterior_alg3/uncertainty_calibration.py"]}
{"id": "C56", "title": "Joint initial covariance of the state-space parabola filter", "statement": "The initial covariance built for (y, y', W, I) is the exact covariance of (x0, drift + sigma @ parabola'(0), W, I) with W~N(0,delta I), I~N(0,delta/2 I) independent; it is symmetric PSD.", "quantifier": "every dim, delta > 0, diffusion matrix", "why_tests_cant": "all inputs", "anchors": ["bayesian_sde_solver/ssm_parabola/ekf.py: _solver"]}
{"id": "C57", "title": "State-space vector field matches the parabola ODE", "statement": "The extended vector field evaluated on a state carrying (W,I) equals drift + sigma @ derivative of the parabola with those coefficients, i.e. the field sde_solver would integrate.", "quantifier": "every state, time, delta != 0, dim", "why_tests_cant": "all inputs", "anchors": ["bayesian_sde_solver/ssm_parabola/ekf.py: _solver.extended_vector_field", "bayesian_sde_solver/sde_solver.py: sde_solver.body"]}
{"id": "C58", "title": "State-space parabola solvers are callable", "statement": "ekf0_marginal_parabola / ekf1_marginal_parabola should return a sample. (The code violates it: for every input that passes its assertion they raise TypeError because the transition increment is not passed.)", "quantifier": "every input", "why_tests_cant": "claim about every input", "anchors": ["bayesian_sde_solver/ssm_parabola/ekf.py: _solver", "bayesian_sde_solver/ode_solvers/probnum/ekf.py: ekf"]}
{"id": "C59", "title": "Brownian coefficients are static in the state-space prior", "statement": "Prediction leaves the (W,I) components of the mean and their joint covariance unchanged, so with a zero increment the filter conditions on them only through observations.", "quantifier": "every state, prior, dim", "why_tests_cant": "all inputs", "anchors": ["bayesian_sde_solver/ssm_parabola/ekf.py: _solver"]}
{"id": "C60", "title": "1.5 scheme is the Ito-Taylor step for additive noise", "statement": "For a constant diagonal diffusion, one diag_15_scheme step is x + h b + h^2/2 (b' b + 1/2 sum_j sigma_j^2 d_jj b) + sigma dW + b' sigma dZ, and (dZ,dW) is drawn with the exact covariance of (int W, W).", "quantifier": "every twice differentiable drift, diagonal constant sigma, h, draws", "why_tests_cant": "all fields", "anchors": ["bayesian_sde_solver/sde_solvers/diag_15_scheme.py: solver.body"]}
{"id": "C61", "title": "1.5 scheme is consistent for multiplicative noise", "statement": "For a driftless scalar SDE the expected one-step increment should be 0 (martingale). (The code violates it: for sigma(x)=x the expected increment is -x h/3, a bias of the order of the step itself.)", "quantifier": "every x, h > 0", "why_tests_cant": "a statistical test at loose tolerance cannot separate bias", "anchors": ["bayesian_sde_solver/sde_solvers/diag_15_scheme.py: solver.body"]}
{"id": "C62", "title": "1.5 scheme acts coordinatewise for decoupled problems", "statement": "For diagonal noise whose coordinates are decoupled the i-th output should depend only on the i-th state and noise. (The code violates it: three terms are scalars broadcast to all coordinates.)", "quantifier": "every decoupled problem of dim >= 2", "why_tests_cant": "relational", "anchors": ["bayesian_sde_solver/sde_solvers/diag_15_scheme.py: solver.body"]}
{"id": "C63", "title": "Hypoelliptic 1.5 scheme draws from a valid covariance", "statement": "The covariance used for the noise of the hypoelliptic scheme is symmetric PSD for every h >= 0 and equals the covariance of (a_u Gamma int W, Gamma W).", "quantifier": "every drift, diffusion, state, h >= 0", "why_tests_cant": "all inputs", "anchors": ["bayesian_sde_solver/sde_solvers/hypoelliptic_diffusion__diag_15_scheme.py: solver.body"]}
{"id": "C64", "title": "Integrated Brownian motion reference moments", "statement": "The variances returned by ibm() and double_ibm() solve V' = F V + V F^T + sigma sigma^T, V(0)=0, for the drift matrix and diffusion returned with them.", "quantifier": "every t", "why_tests_cant": "continuous quantifier", "anchors": ["bayesian_sde_solver/utils/ivp.py: ibm, double_ibm"]}
{"id": "C65", "title": "Harmonic oscillator reference moments", "statement": "theoretical_mean solves the drift ODE from x0 for every t, and theoretical_variance_up_to_order3 agrees with the variance ODE up to an error with vanishing derivatives of order <= 3 at 0.", "quantifier": "every t", "why_tests_cant": "continuous quantifier", "anchors": ["bayesian_sde_solver/utils/ivp.py: harmonic_oscillator, harmonic_oscillator_square"]}
{"id": "C66", "title": "FitzHugh-Nagumo reference mean", "statement": "theoretical_mean_up_to_order_2 of fhn should have the second-order Taylor coefficient (J b)(x0) of the mean. (The code violates it in the first component: the sign of alpha is wrong.)", "quantifier": "the declared x0 and parameters, every t", "why_tests_cant": "needs the exact Taylor expansion", "anchors": ["bayesian_sde_solver/utils/ivp.py: fhn"]}
{"id": "C67", "title": "Synaptic conductance problems are self-consistent", "statement": "Each component of the drift should depend on its own conductance and the reference mean should be the second-order expansion of the drift. (The code violates it: the reduced problem reads index 2 of a length-2 array; the full problem's reference uses (x0[1]-V_E) for (x0[0]-V_E).)", "quantifier": "every state", "why_tests_cant": "out-of-range reads are silent in JAX", "anchors": ["bayesian_sde_solver/utils/ivp.py: synaptic_conductance_reduced, synaptic_conductance"]}
{"id": "C68", "title": "Random linear SDE uses independent matrices", "statement": "The drift and diffusion matrices of random_linear_sde should be independent draws. (The code violates it: both use the same key and shape, so they are equal for every key.)", "quantifier": "every key, dim", "why_tests_cant": "all keys", "anchors": ["bayesian_sde_solver/utils/ivp.py: random_linear_sde"]}
{"id": "C69", "title": "Euler-Maruyama mean of geometric Brownian motion", "statement": "With iid N(0,1) draws the Euler-Maruyama solution of gbm() after k steps of size h has mean x0 (1+h)^k.", "quantifier": "every k, h", "why_tests_cant": "exact expectation for all k", "anchors": ["bayesian_sde_solver/sde_solvers/euler_maruyama.py: solver", "bayesian_sde_solver/utils/ivp.py: gbm"]}
{"id": "C70", "title": "Geometric Brownian motion reference moments", "statement": "theoretical_mean of gbm solves m' = a m from x0, and theoretical_variance solves V' = (2a + b^2) V + b^2 m^2 from 0, the moment equations of dX = aX dt + bX dW, and both are the only solutions.", "quantifier": "every t", "why_tests_cant": "continuous quantifier", "anchors": ["bayesian_sde_solver/utils/ivp.py: gbm"]}
{"id": "C71", "title": "FitzHugh-Nagumo reference variance", "statement": "theoretical_variance_up_to_order3 of fhn should have the derivatives of order <= 3 at 0 of the variance of the SDE linearised at x0. (The code violates it: the third-order terms of the entries (0,1) and (1,1) are missing.)", "quantifier": "the declared x0 and parameters, every entry and order <= 3", "why_tests_cant": "needs the exact Taylor expansion", "anchors": ["bayesian_sde_solver/utils/ivp.py: fhn, square_matrix_fhn"]}
{"id": "C72", "title": "Synaptic conductance reference variance", "statement": "theoretical_variance_up_to_order_3_first_coordinate has the derivatives of order <= 3 at 0 of the (0,0) entry of the variance of the SDE linearised at x0.", "quantifier": "the declared x0 and parameters, every order <= 3", "why_tests_cant": "needs the exact Taylor expansion", "anchors": ["bayesian_sde_solver/utils/ivp.py: synaptic_conductance"]}
{"id": "C73", "title": "Harmonic oscillator integrated variance", "statement": "theoretical_variance of both harmonic oscillators vanishes at 0, is symmetric positive semidefinite for t >= 0, and differs from the solution of the variance equation by at most |t|^3 z / (12 * 999^2), z bounding the second derivative of the integrand on [0, t].", "quantifier": "every t, stiffness, damping and diffusion", "why_tests_cant": "continuous quantifiers, error bound", "anchors": ["bayesian_sde_solver/utils/ivp.py: harmonic_oscillator, harmonic_oscillator_square"]}
{"id": "C74", "title": "Second order of EKF0", "statement": "With the once integrated Brownian motion prior (any nonzero scale, either mode), started at y(0), the mean returned by ekf0 after N steps of size h differs from the ODE solution y(Nh) by at most h^2 (M2/2 + M3/(18 L)) (exp(3 L N h / 2) - 1), where L is the Lipschitz constant of the vector field and M2, M3 bound the second and third derivatives of y.", "quantifier": "every Lipschitz vector field with a C^3 solution, dimension, step, number of steps, scale and mode", "why_tests_cant": "convergence over continuous inputs; tests check one vector field and one step size", "anchors": ["bayesian_sde_solver/ode_solvers/probnum/ekf.py: ekf", "bayesian_sde_solver/ode_solvers/ekf0.py"]}
{"id": "C75", "title": "Error of sde_solver with EKF0", "statement": "With M EKF0 steps per interval (once integrated Brownian motion prior) the states returned by sde_solver differ at every grid point from the exact solution of the random ODE driven by the returned Brownian coefficients by at most (delta/M)^2 times a constant that does not depend on M.", "quantifier": "every drift, diffusion, Brownian approximation, N, M, delta for which the pieces of the exact solution are smooth and the fields Lipschitz", "why_tests_cant": "convergence over continuous inputs", "anchors": ["bayesian_sde_solver/sde_solver.py: sde_solver", "bayesian_sde_solver/ode_solvers/ekf0.py"]}
{"id": "C76", "title": "Weak consistency with few EKF0 steps per interval", "statement": "With a fixed number M of EKF0 steps per interval, the mean of the final state returned by sde_solver for gbm (drift converted by to_stratonovich) tends to theoretical_mean(T) as the number N of intervals grows. (The code violates it: for every M the limit is x0 exp((a - 3 b^2/(2 M^3)) T).)", "quantifier": "every M, horizon T, prior scale and mode", "why_tests_cant": "needs the limit N to infinity and exact expectations; the tests use large M or additive noise", "anchors": ["bayesian_sde_solver/sde_solver.py: sde_solver", "bayesian_sde_solver/ode_solvers/ekf0.py", "bayesian_sde_solver/foster_polynomial.py: get_approx", "bayesian_sde_solver/utils/ivp.py: gbm"]}
{"id": "C77", "title": "Parabola is the best predictor of the path", "statement": "At every time of the interval the covariance of the sampled parabola with its end point and with its integral is that of Brownian motion, its variance is at most that of Brownian motion (with the exact gap), and the parabola with the end point and the integral of a Brownian path predicts the path with an error uncorrelated with both. This holds for the direct and for the aggregated parabola.", "quantifier": "every time in the interval, interval length, dimension, number of fine pieces", "why_tests_cant": "second moments at every time", "anchors": ["bayesian_sde_solver/foster_polynomial.py: get_approx", "bayesian_sde_solver/foster_polynomial.py: get_approx_fine"]}
{"id": "C78", "title": "Law on integrated Brownian motion", "statement": "For the ibm problem, sde_solver with EKF0 (once integrated prior, M steps per interval) has at every grid point t the law N((x + t v, v), var(t)). (The code violates it for every M: the variance of the position is too large by k delta^3 (3 kappa^2 - 1/12) with kappa = 1/6 + 5/(6 M^2) - 1/(2 M^3); mean, velocity and cross covariance are exact, and with an exact ODE integrator the whole law is exact.)", "quantifier": "every M, step delta, grid point, initial state, prior scale and mode", "why_tests_cant": "needs the exact law for all step sizes and grid points; the tests compare sample moments with tolerances", "anchors": ["bayesian_sde_solver/sde_solver.py: sde_solver", "bayesian_sde_solver/ode_solvers/ekf0.py", "bayesian_sde_solver/utils/ivp.py: ibm", "bayesian_sde_solver/foster_polynomial.py: get_approx"]}
{"id": "C79", "title": "Driving noise is a Brownian motion on the grid", "statement": "The partial sums of the increment coefficients returned by sde_solver are jointly distributed like a standard Brownian motion at the grid times, for get_approx, get_approx_fine and get_approx_and_brownian.", "quantifier": "every number of intervals, dimension, step, number of fine pieces, key, drift, diffusion and integrator", "why_tests_cant": "joint law of all grid values, needs independence across intervals for every N", "anchors": ["bayesian_sde_solver/sde_solver.py: sde_solver", "bayesian_sde_solver/foster_polynomial.py"]}
{"id": "C80", "title": "Strong solution of geometric Brownian motion", "statement": "With an exact ODE integrator and the drift converted by to_stratonovich, sde_solver on gbm returns at every grid point the strong solution x0 exp((a - b^2/2) t + b W(t)) for the W rebuilt from the returned coefficients, and its mean and variance are theoretical_mean(t) and theoretical_variance(t). Without the conversion the mean is off by the factor exp(b^2 t/2).", "quantifier": "every grid point, step, number of intervals, exact integrator, parabola approximation", "why_tests_cant": "pathwise identity for all paths and exact moments", "anchors": ["bayesian_sde_solver/sde_solver.py: sde_solver", "bayesian_sde_solver/ito_stratonovich.py: to_stratonovich", "bayesian_sde_solver/utils/ivp.py: gbm"]}
{"id": "C81", "title": "Algorithm 3 along a whole run", "statement": "Along a run of sde_solver with the EKF0 solver of Algorithm 3 (once integrated prior), the means at the grid points are the states of the run of Algorithm 2 without sampling, from the initial mean and with the same key; the covariance at grid point k is the initial covariance plus sigma^2 k delta (delta/M)^2 / 12 times the identity, independent of the problem and of the path.", "quantifier": "every drift, diffusion, path approximation, key, initial mean and positive semidefinite covariance, step, number of intervals and filter steps, prior scale, mode", "why_tests_cant": "equality of whole trajectories of two solvers for all problems", "anchors": ["bayesian_sde_solver/sde_solver.py: sde_solver", "bayesian_sde_solver/ode_solvers/ekf0_2.py", "bayesian_sde_solver/ode_solvers/ekf0.py"]}
{"id": "C82", "title": "Noise injected by EKF0 along a run", "statement": "With keys, every interval of a run of sde_solver with EKF0 (once integrated prior) is the trapezoidal scheme for the interval's random field plus a noise vector; all noise vectors and all path coefficients of the run are jointly normal and independent, each noise component with variance sigma^2 delta (delta/M)^2 / 12.", "quantifier": "every drift, diffusion, initial value, step, number of intervals and filter steps, prior scale, mode, key", "why_tests_cant": "joint law over all intervals, in particular independence of the sampling keys from the path keys", "anchors": ["bayesian_sde_solver/sde_solver.py: sde_solver", "bayesian_sde_solver/ode_solvers/ekf0.py"]}
{"id": "C83", "title": "EKF0 with the twice integrated prior is a cubic spline scheme", "statement": "Without a key, EKF0 with the twice integrated Brownian motion prior of any nonzero scale returns the solution of a three-value scheme: slope evaluated at the second order Taylor prediction, second derivative corrected with a gain that depends only on the step number, solution advanced by the Hermite rule h/2 (v+v') + h^2/12 (a-a'). The posterior covariance is independent of the vector field: coordinates uncorrelated, slopes certain, variance of the solution sigma^2 h^5 (N/720 + s/144) and of the second derivative sigma^2 h s with 1/4 <= s < 1/3.", "quantifier": "every vector field, initial value, dimension, step, number of steps, prior scale, mode", "why_tests_cant": "closed form of the filter for all fields and all numbers of steps, in both covariance and square root mode", "anchors": ["bayesian_sde_solver/ode_solvers/ekf0.py: solver", "bayesian_sde_solver/ode_solvers/ekf1.py: _solver", "bayesian_sde_solver/ode_solvers/probnum/IOUP.py"]}
{"id": "C84", "title": "Exact initialisation of the second derivative", "statement": "For priors with three states the third initial state is the second derivative of the ODE solution at the start ('the first two cases are exact initialization').", "quantifier": "every differentiable vector field and initial value", "why_tests_cant": "a statement about all time dependent fields; for the fields of sde_solver the missing time derivative is the whole second derivative", "anchors": ["bayesian_sde_solver/ode_solvers/ekf0.py: solver, n_states == 3", "bayesian_sde_solver/ode_solvers/ekf1.py: solver"]}
{"id": "C85", "title": "Pure noise with the twice integrated prior", "statement": "For zero drift and constant diffusion S, sde_solver with EKF0 and the twice integrated prior has at grid point k the law of x0 + S W(k delta).", "quantifier": "every diffusion matrix, initial value, step, number of intervals and filter steps, prior scale, mode, key", "why_tests_cant": "law of the output for all parameters; the excess variance 3 (1-rho_M)^2/(36 M^4) is hidden in the Monte Carlo error for M > 1", "anchors": ["bayesian_sde_solver/sde_solver.py: sde_solver", "bayesian_sde_solver/ode_solvers/ekf0.py: solver", "scripts/EKF0_Mat_vs_IBM_FHN/comparison_2_RAM.py"]}
{"id": "C86", "title": "One EKF1 step is a linearly implicit step", "statement": "Without a key, EKF1 with one filter step and the once integrated Brownian motion prior of any nonzero scale returns z + W^{-1} (h/2 - h^2/3 J^T)(f(z,h) - f(y,0)), where z = y + h f(y,0) is the Euler prediction, J the Jacobian of f(., h) at z and W = 1 - h/2 (J+J^T) + h^2/3 J^T J; the covariance of the solution is sigma^2 h^3/12 W^{-1}. So every interval of sde_solver with EKF1 and M = 1, the setting of the experiments, is this step for the random field of the interval.", "quantifier": "every vector field differentiable in the state, initial value, dimension, step, prior scale, mode; every drift, diffusion, path approximation, key and number of intervals", "why_tests_cant": "closed form of the filter for all vector fields, in both covariance and square root mode", "anchors": ["bayesian_sde_solver/ode_solvers/ekf1.py: solver", "bayesian_sde_solver/ode_solvers/ekf.py: _solver", "bayesian_sde_solver/ode_solvers/ekf1_2.py", "bayesian_sde_solver/sde_solver.py: sde_solver"]}
{"id": "C87", "title": "EKF1 is stable on dissipative linear drifts", "statement": "For the drift J x with J invertible and x^T J x <= 0 for all x, and no noise, the states of sde_solver with EKF1 and one filter step per interval tend to zero for every step size. EKF0 does not have this property: on the scalar drift l x its states grow without bound as soon as l delta < -2.", "quantifier": "every matrix J with these properties, dimension, initial value, step size, prior scale, mode, path approximation, key", "why_tests_cant": "behaviour for infinitely many intervals and all step sizes", "anchors": ["bayesian_sde_solver/ode_solvers/ekf1.py: solver", "bayesian_sde_solver/ode_solvers/ekf0.py: solver", "bayesian_sde_solver/sde_solver.py: sde_solver"]}
{"id": "C88", "title": "Posterior covariances of Algorithm 3 are positive definite", "statement": "Along a run of sde_solver with Algorithm 3 (EKF0 or EKF1) the posterior covariance of the solution is positive definite at every grid point after the first, even when the initial value is certain, so that the Cholesky factorisation in the posterior sampling script is of a positive definite matrix.", "quantifier": "every drift and diffusion (differentiable in the state for EKF1), path approximation, key, positive semidefinite initial covariance, step, number of intervals and filter steps, two-state prior with positive definite noise, mode", "why_tests_cant": "invariant over all intervals for all problems", "anchors": ["bayesian_sde_solver/ode_solvers/ekf0_2.py", "bayesian_sde_solver/ode_solvers/ekf1_2.py", "bayesian_sde_solver/sde_solver.py: sde_solver", "scripts/sampling_from_posterior_alg3/pathwise_sampling_from_posterior.py"]}
{"id": "C89", "title": "Draws from the posteriors of Algorithm 3", "statement": "The draws of pathwise_sampling_from_posterior.py are, given the path, independent normal vectors at the grid points with the posterior means and covariances of Algorithm 3.", "quantifier": "every path, key and number of intervals", "why_tests_cant": "a statement about the joint law of the draws; the script multiplies the noise by the upper Cholesky factor, which keeps the trace and determinant of the covariance and is invisible in isotropic problems", "anchors": ["scripts/sampling_from_posterior_alg3/pathwise_sampling_from_posterior.py:99-113"]}
{"id": "C90", "title": "Strong order one for additive noise", "statement": "For an SDE with additive noise and a smooth Lipschitz drift, sde_solver with an exact ODE integrator and parabolas that agree with the Brownian path in end point and integral converges strongly with order one: the expected largest error over the grid points is at most a constant, independent of the number of steps, times delta. Along every single continuous path the error is bounded by a sum of terms quadratic in delta and in the oscillation of the path over an interval.", "quantifier": "every dimension, drift with Lipschitz Jacobian, diffusion matrix, Brownian motion, horizon, number of steps, parabola approximation", "why_tests_cant": "a bound on an expectation over all paths, uniform in the number of steps; the scripts only fit a slope through a few sample averages", "anchors": ["bayesian_sde_solver/sde_solver.py:11-45", "bayesian_sde_solver/foster_polynomial.py:7-27", "scripts/strong_convergence_parabola_ode.py:1-120"]}
{"id": "C91", "title": "The law of the matched parabolas", "statement": "The coefficients of the parabolas that agree with the paths of a Brownian motion in end point and integral over the intervals of a grid are independent centred normal variables, with variance delta for the increment and delta/2 for the second coefficient; the coefficients that sde_solver draws with get_approx have exactly this joint law.", "quantifier": "every Brownian motion, dimension, grid, number of intervals, key and ODE integrator", "why_tests_cant": "a statement about a joint law that involves integrals of Brownian paths", "anchors": ["bayesian_sde_solver/foster_polynomial.py:7-27", "bayesian_sde_solver/sde_solver.py:11-45"]}
{"id": "C92", "title": "Strong order one of the solver with EKF0", "statement": "For an SDE with additive noise, a drift that is Lipschitz with Lipschitz Jacobian and Lipschitz in time, sde_solver with ekf0 (the once integrated Brownian motion prior, no sampling) and parabolas that agree with the Brownian path in end point and integral has mean square error at most A delta^2 at every grid point, with a constant A that depends neither on the number of intervals nor on the number M >= 1 of filter steps per interval.", "quantifier": "every dimension, smooth drift, diffusion matrix, Brownian motion, horizon, number of intervals, number of filter steps, prior scale, square root or standard filter", "why_tests_cant": "an expectation over Brownian paths, with a bound uniform in the number of intervals and filter steps; with M = 1 the individual filter errors are of the size of the noise and cancel only in mean", "anchors": ["bayesian_sde_solver/sde_solver.py:11-45", "bayesian_sde_solver/ode_solvers/ekf0.py:1-60", "bayesian_sde_solver/foster_polynomial.py:7-27"]}
{"id": "C93", "title": "Euler-Maruyama as reference solution", "statement": "For additive noise solver_pathwise fed with the increments of the driving path converges to the solution along every continuous path, uniformly over the grid; fed with Brownian increments it has mean square error at most A h^2 at every grid point. Hence the mean square distance that the scripts measure, between sde_solver with ekf0 and Euler-Maruyama on an r times finer grid, is at most A delta^2 for every r >= 1.", "quantifier": "every dimension, smooth drift, diffusion matrix, continuous path or Brownian motion, horizon, number of steps, refinement factor", "why_tests_cant": "limits along arbitrary continuous paths and expectations over Brownian paths, uniform in the step numbers", "anchors": ["bayesian_sde_solver/sde_solvers/euler_maruyama.py:26-46", "bayesian_sde_solver/sde_solver.py:11-45", "scripts/pathwise_convergence_experiment_2_RAM.py:1-160"]}
{"id": "C94", "title": "Order one in law with the generator's own draws", "statement": "Run with an ideal generator, sde_solver with ekf0 and get_approx, and Euler-Maruyama with a key, approximate the law of the solution of an SDE with additive noise: for every grid point and every Lipschitz function g, the expectation of g at the output differs from the expectation of g at the solution by at most A * Lip(g) * delta, with A independent of g, the number of intervals and the number of filter steps. No coupling between the generator and the Brownian motion is assumed.", "quantifier": "every dimension, smooth drift, diffusion matrix, Brownian motion, ideal generator, key, number of intervals, number of filter steps, Lipschitz function", "why_tests_cant": "a bound on the distance between two laws, uniform over all Lipschitz test functions and step numbers", "anchors": ["bayesian_sde_solver/sde_solver.py:11-45", "bayesian_sde_solver/foster_polynomial.py:7-27", "bayesian_sde_solver/sde_solvers/euler_maruyama.py:5-23", "bayesian_sde_solver/ode_solvers/ekf0.py:1-60"]}
{"id": "C95", "title": "On affine problems the filter computes the exact posterior", "statement": "If the observation functions are affine in the state, the filter returns the conditional law of the state of the prior Gauss-Markov chain after N steps, given that the N observations are zero: the state minus the returned mean minus a linear function of the observations is independent of them and normal with the returned covariance. In particular ekf1 on a vector field affine in the state, and ekf0 on a vector field that does not depend on the state, return the exact posterior of the chain given that it satisfies the ODE at the grid points.", "quantifier": "every dimension, number of states per coordinate, number of steps, prior with increment, noise, affine field with time-dependent coefficients, probability space carrying the chain", "why_tests_cant": "an identity between conditional laws on an arbitrary probability space for every number of steps", "anchors": ["bayesian_sde_solver/ode_solvers/probnum/ekf.py:5-88", "bayesian_sde_solver/ode_solvers/ekf.py:8-52"]}
{"id": "C96", "title": "Sampling inside EKF0 keeps order one", "statement": "With keys, every interval of sde_solver draws its end point from the posterior of EKF0 (Algorithm 2). For additive noise and an ideal generator the run with draws stays within mean square A (sigma delta / M)^2 of the run with means on the same Brownian coefficients, this order is attained, and the law of the output converges to that of the solution with order one in delta.", "quantifier": "every continuous Lipschitz (for the law: smooth) drift, constant diffusion, dimension, number of intervals and inner steps, prior scale, key, both branches of the filter", "why_tests_cant": "mean square distances and laws over all draws and all step sizes", "anchors": ["bayesian_sde_solver/sde_solver.py: sde_solver", "bayesian_sde_solver/ode_solvers/ekf0.py: solver with key"]}
{"id": "C97", "title": "Law of the draws of Algorithm 4 for constant coefficients", "statement": "For constant drift b and diffusion S, the solution, the Brownian increment W and the area coefficient I drawn together by the parabola filters have the law they are meant to have: W is N(0, delta), I is N(0, delta/2), both independent, and the solution is x0 + delta b + S W up to independent noise of the prior.", "quantifier": "every dimension, drift, diffusion matrix, step, number of filter steps, prior scale, both filters, both modes, ideal generator", "why_tests_cant": "the joint law of the output after any number of filter steps", "anchors": ["bayesian_sde_solver/ssm_parabola/ekf.py:10-98", "bayesian_sde_solver/ssm_parabola/ekf0.py:8-26", "bayesian_sde_solver/ssm_parabola/ekf1.py:8-26"]}
{"id": "C98", "title": "Algorithm 3 carries the exact posterior over a whole run", "statement": "On a vector field affine in the state with its own coefficients on every interval, the mean and covariance that EKF1 (and, for fields independent of the state, EKF0) with Algorithm 3 carries from interval to interval are the conditional mean and covariance of the solution given that the derivative equals the vector field at all grid points of all intervals so far, under the prior that is continuous across intervals and restarts the derivative from the vector field. In particular this holds for sde_solver on an SDE with drift M(t) x + b(t) and diffusion S(t), conditionally on the drawn Brownian coefficients.", "quantifier": "every dimension, affine fields, prior with positive definite process noise, step, number of intervals and inner steps, first mean and covariance, both branches of the filter, every Brownian approximation and generator", "why_tests_cant": "an exact conditional law over any number of intervals, restarts included", "anchors": ["bayesian_sde_solver/ode_solvers/ekf1_2.py: solver", "bayesian_sde_solver/ode_solvers/ekf0_2.py: solver", "bayesian_sde_solver/ode_solvers/ekf.py: _solver", "bayesian_sde_solver/sde_solver.py: sde_solver"]}
{"id": "C99", "title": "The low-memory pathwise scripts compute what the direct script computes", "statement": "One run of the solver in pathwise_convergence_experiment_2_RAM.py returns the grid and trajectory of sde_solver with the same key and get_approx_fine, and as reference every fine-th state of one Euler-Maruyama run over all fine increments of that run, which is what pathwise_convergence_experiment_2.py computes; for additive noise the Stratonovich drift passed to the reference is the given drift. The EM_FHN script compares Euler-Maruyama on the summed increments with Euler-Maruyama on the increments of the same path.", "quantifier": "every key, generator, drift, diffusion, integrator and its state, starting points, step, number of intervals and number of fine steps at least one", "why_tests_cant": "equality of two programs over all problems and sizes; the direct script runs out of memory at the sizes of the experiments", "anchors": ["scripts/pathwise_convergence_experiment_2_RAM.py:44-92", "scripts/pathwise_convergence_experiment_2_RAM_2.py:49-97", "scripts/pathwise_convergence_experiment_2.py:46-76", "scripts/EM_FHN/pathwise_convergence_experiment_2_RAM.py:36-89", "scripts/strong_convergence_parabola_ode.py:30-80"]}
{"id": "C100", "title": "The error measured by the pathwise experiments is of order delta", "statement": "For additive noise, a smooth drift and an ideal generator, the mean square distance at every grid time between the EKF0 trajectory (the filter called without a key, so that it returns its mean; with a key see C108) and the Euler-Maruyama reference returned by the low-memory solver is finite and at most A delta^2, with one constant A for all numbers of intervals, filter steps and fine steps.", "quantifier": "every dimension, smooth Lipschitz drift, constant diffusion, start, horizon, number of intervals, filter steps and fine steps at least one, prior scale, key, both branches of the filter, ideal generator", "why_tests_cant": "an expectation over all draws for all step sizes with a uniform constant", "anchors": ["scripts/pathwise_convergence_experiment_2_RAM.py:28-118", "bayesian_sde_solver/foster_polynomial.py: get_approx_fine", "bayesian_sde_solver/ode_solvers/ekf0.py: solver", "bayesian_sde_solver/sde_solvers/euler_maruyama.py: solver_pathwise"]}
{"id": "C101", "title": "The Algorithm 3 pathwise script pairs every solution with its own reference", "statement": "In pathwise_convergence_experiment_2_RAM_2.py the saved reference is, for every key, the Euler-Maruyama trajectory on the Brownian path of the solution saved for that key.", "quantifier": "every list of keys, problem, step, number of intervals and fine steps", "why_tests_cant": "holds for a single key; needs two keys with different draws", "anchors": ["scripts/pathwise_convergence_experiment_2_RAM_2.py:108-126"]}
{"id": "C102", "title": "The closed formula reference for linear SDEs", "statement": "The reference of breaking_multidimensionnal.py is exp(A delta) x plus the sum of exp(A (delta - s_i)) S dW_i over the left ends s_i of the fine intervals.", "quantifier": "every drift and diffusion matrix, step at most one, number of filter steps at least one, state and list of fine increments", "why_tests_cant": "holds for one fine increment, and to first order in delta for more", "anchors": ["scripts/breaking_multidimensionnal.py:34-88", "bayesian_sde_solver/utils/ivp.py:121-144"]}
{"id": "C103", "title": "Order one in probability for locally Lipschitz drifts", "statement": "For additive noise and a drift with two continuous derivatives, neither bounded nor globally Lipschitz, whose solution exists up to the time T: for every level the error at every grid time of sde_solver with EKF0 and matched parabolas, and of Euler-Maruyama on the increments, exceeds A delta with at most that probability, with one constant A for all filter steps and all large enough numbers of intervals.", "quantifier": "every dimension, twice continuously differentiable drift, constant diffusion, start, horizon, level, number of intervals from some number on, filter steps, prior scale, key, parabola approximation matched to the Brownian motion", "why_tests_cant": "a probability over all Brownian paths with a constant uniform in the step size; tests use one step size and few paths", "anchors": ["bayesian_sde_solver/sde_solver.py: sde_solver", "bayesian_sde_solver/ode_solvers/ekf0.py: solver", "bayesian_sde_solver/sde_solvers/euler_maruyama.py: solver_pathwise"]}
{"id": "C104", "title": "The error measured on FitzHugh-Nagumo is of order delta in probability", "statement": "FitzHugh-Nagumo as defined in ivp.py has a solution along every continuous path of the noise. Run on it with an ideal generator, the low-memory pathwise solver returns an EKF0 trajectory (the filter called without a key; with a key see C108) and an Euler-Maruyama reference whose distance at every grid time exceeds A delta with at most a prescribed probability, with one constant for all filter steps, fine steps and large enough numbers of intervals. The same holds for every drift with two continuous derivatives whose equation has solutions along continuous paths.", "quantifier": "every horizon, level, ideal generator, number of intervals from some number on, filter steps, fine steps, prior scale, key, both branches of the filter, both shapes of the diffusion", "why_tests_cant": "a probability over all draws for all step sizes with a uniform constant", "anchors": ["bayesian_sde_solver/utils/ivp.py:18-66", "scripts/pathwise_convergence_experiment_2_RAM.py:28-118", "bayesian_sde_solver/ode_solvers/ekf0.py: solver"]}
{"id": "C105", "title": "Euler steps inside each interval leave an error 1/M", "statement": "sde_solver with M Euler steps per interval on an SDE with additive noise, with parabolas matched to a Brownian motion, has mean square error at most A (delta^2 + 1/M^2); the term 1/M^2 is really there: for a constant drift the error at time t is exactly normal with covariance 3 t / M^2 S S^T for every delta, and the states drawn with get_approx have variance (1 + 3/M^2) t S S^T. With M at least proportional to the number of intervals the order is one, in mean square for smooth drifts and in probability for locally Lipschitz ones; in particular the two trajectories that strong_convergence_parabola_ode.py saves for FitzHugh-Nagumo with M = 1/delta differ by more than A delta with at most a prescribed probability.", "quantifier": "every dimension, smooth (or twice continuously differentiable) drift, constant diffusion, start, horizon, number of intervals, number of Euler steps, key, parabola approximation matched to the Brownian motion, ideal generator", "why_tests_cant": "the tests fix M = 100, where the excess variance is a factor 1.0003, far below their tolerance; a law over all draws for all step sizes cannot be sampled", "anchors": ["bayesian_sde_solver/ode_solvers/euler.py:5-16", "bayesian_sde_solver/sde_solver.py: sde_solver", "scripts/strong_convergence_parabola_ode.py:20-128", "tests/test_sde_solver_foster.py:17-80"]}
{"id": "C106", "title": "Strong order one of the solver with EKF1", "statement": "For an SDE with additive noise, a drift that is Lipschitz with Lipschitz Jacobian and Lipschitz in time, sde_solver with ekf1 (the once integrated Brownian motion prior of any scale, one filter step per interval, no sampling) and parabolas that agree with the Brownian path in end point and integral has mean square error at most A delta^2 at every grid point, with A independent of the number of intervals; the same holds for the distance between the EKF1 trajectory and the Euler-Maruyama reference of the low-memory solver run with an ideal generator, for every number of fine steps.", "quantifier": "every dimension, drift of the class, constant diffusion, start, horizon, number of intervals, prior scale, key, both modes of the filter, number of fine steps, ideal generator", "why_tests_cant": "an expectation over all Brownian paths with a constant that must be uniform in the number of steps; the linearly implicit step of EKF1 differs from the trapezoidal one by a term of the size of the noise, which only cancels in the mean", "anchors": ["bayesian_sde_solver/ode_solvers/ekf1.py: solver", "bayesian_sde_solver/sde_solver.py: sde_solver", "scripts/EKF1_IBM/pathwise_convergence_experiment_2_RAM.py:28-110"]}
{"id": "C107", "title": "Order one in probability with EKF1, in particular on FitzHugh-Nagumo", "statement": "For an SDE with additive noise and a drift with two continuous derivatives whose solution exists up to the horizon, sde_solver with ekf1 (one filter step per interval, no sampling) has at every grid point an error above A delta with at most a prescribed probability, for all large enough numbers of intervals; for FitzHugh-Nagumo as defined in ivp.py, run with an ideal generator, the same holds for the distance between the EKF1 trajectory and the Euler-Maruyama reference of the low-memory solver.", "quantifier": "every horizon, level, ideal generator, number of intervals from some number on, fine steps, prior scale, key, both branches of the filter, both shapes of the diffusion", "why_tests_cant": "a probability over all draws for all step sizes with a uniform constant, for a drift that is not globally Lipschitz", "anchors": ["bayesian_sde_solver/ode_solvers/ekf1.py: solver", "bayesian_sde_solver/utils/ivp.py:18-66", "scripts/EKF1_FHN/pathwise_convergence_experiment_2_RAM.py:24-110"]}
{"id": "C108", "title": "The error measured by the pathwise experiments when EKF0 draws from its posterior", "statement": "The pathwise scripts hand the sample key to the filter, so every interval ends with a draw from the posterior. For additive noise, a smooth drift and an ideal generator, the mean square distance at every grid time between that EKF0 trajectory and the Euler-Maruyama reference returned by the low-memory solver is finite and at most A (1 + (sigma/M)^2) delta^2, with one constant A for all numbers of intervals, filter steps and fine steps and all prior scales sigma. For a drift with two continuous derivatives whose equation has solutions along continuous paths, in particular FitzHugh-Nagumo as defined in ivp.py, the distance exceeds A delta with at most a prescribed probability, for all |sigma| <= s0 M and large enough numbers of intervals.", "quantifier": "every dimension, drift of the class, constant diffusion, start, horizon, number of intervals, filter steps and fine steps, prior scale, key, both modes of the filter, ideal generator", "why_tests_cant": "an expectation over all draws of the Brownian coefficients and of the posterior samples, with a constant that must be uniform in the number of steps; no test compares the sampled trajectories with a reference", "anchors": ["scripts/pathwise_convergence_experiment_2_RAM.py:39-128", "scripts/EKF0_IBM/pathwise_convergence_experiment_2_RAM.py:39-101", "scripts/EKF0_FHN/pathwise_convergence_experiment_2_RAM.py", "bayesian_sde_solver/ode_solvers/ekf0.py: solver"]}
{"id": "C109", "title": "The error measured by the pathwise experiments when EKF1 draws from its posterior", "statement": "The EKF1 scripts hand the sample key to the filter, so every interval ends with a draw from the posterior, whose covariance depends on the Jacobian at the prediction. For additive noise, a smooth drift and an ideal generator, with one filter step per interval as in the scripts, the mean square distance at every grid time between that EKF1 trajectory and the Euler-Maruyama reference returned by the low-memory solver is finite and at most A delta^2, with one constant A for all numbers of intervals and fine steps and all prior scales |sigma| <= s0. For a drift with two continuous derivatives whose equation has solutions along continuous paths, in particular FitzHugh-Nagumo as defined in ivp.py, the distance exceeds A delta with at most a prescribed probability for all large enough numbers of intervals.", "quantifier": "every dimension, drift of the class, constant diffusion, start, horizon, number of intervals and fine steps, prior scale up to s0, key, both modes of the filter, ideal generator", "why_tests_cant": "an expectation over all draws of the Brownian coefficients and of the posterior samples, with a constant that must be uniform in the number of steps; no test compares the sampled trajectories with a reference", "anchors": ["scripts/EKF1_FHN/pathwise_convergence_experiment_2_RAM.py:24-110", "bayesian_sde_solver/ode_solvers/ekf1.py: solver"]}
{"id": "C110", "title": "The error measured by the pathwise experiments of Algorithm 3 with EKF0", "statement": "The RAM_2 scripts run Algorithm 3: the filter carries the mean and the covariance of the solution from one interval to the next and returns a sample around the mean. For additive noise, a smooth drift and an ideal generator, after n intervals the covariance is exactly sigma^2 (n delta) (delta/M)^2 / 12 times the identity; the mean square distance between the means and the Euler-Maruyama reference is at most A delta^2 whatever the scale of the prior, and that between the samples and the reference at most A (1 + (sigma/M)^2) delta^2, with one constant A for all numbers of intervals, filter steps and fine steps. For a drift with two continuous derivatives whose equation has solutions along continuous paths, in particular FitzHugh-Nagumo as defined in ivp.py, both distances exceed A delta with at most a prescribed probability, for all |sigma| <= s0 M and large enough numbers of intervals.", "quantifier": "every dimension, drift of the class, constant diffusion, start, horizon, number of intervals, filter steps and fine steps, prior scale, key, both modes of the filter, ideal generator", "why_tests_cant": "an expectation over all draws of the Brownian coefficients and of the posterior samples, with a constant that must be uniform in the number of steps; the tests of Algorithm 3 only look at one run and do not compare with a reference", "anchors": ["scripts/pathwise_convergence_experiment_2_RAM_2.py:39-135", "scripts/EKF0_IBM/pathwise_convergence_experiment_2_RAM_2.py:39-122", "scripts/EKF0_FHN/pathwise_convergence_experiment_2_RAM_2.py", "bayesian_sde_solver/ode_solvers/ekf0_2.py: solver"]}
{"id": "C111", "title": "The error measured by the pathwise experiments of Algorithm 3 with EKF1", "statement": "For additive noise, a smooth drift, an ideal generator and one filter step per interval, Algorithm 3 with EKF1 (mean and covariance carried from one interval to the next) stays within order one of the Euler-Maruyama reference computed from the same Brownian path: in mean square for drifts with bounded derivatives, and in probability for a drift with two continuous derivatives whose equation has solutions along continuous paths, in particular FitzHugh-Nagumo as defined in ivp.py. The covariances are of order two.", "quantifier": "every dimension, drift of the class, constant diffusion, start, horizon, number of intervals and of fine steps, prior scale, key, both modes of the filter, ideal generator", "why_tests_cant": "an expectation over all draws of the Brownian coefficients and of the posterior samples, with a constant that must be uniform in the number of steps; the experiments use FitzHugh-Nagumo and the integrated Brownian motion, where the Jacobian does not change along the noise, and so cannot show that the claim fails for other drifts", "anchors": ["scripts/EKF1_FHN/pathwise_convergence_experiment_2_RAM_2.py", "scripts/EKF1_IBM/pathwise_convergence_experiment_2_RAM_2.py", "bayesian_sde_solver/ode_solvers/ekf1_2.py: solver", "bayesian_sde_solver/ode_solvers/probnum/ekf.py: _solver"]}
{"id": "C112", "title": "Expected Lipschitz constant of the flow of the parabola", "statement": "With an ideal generator, the expectation of what experiment_exp_lipschitz.py computes (the mean over the keys of exp of the trapezoid approximation of the integral of |P'| over an interval of length delta, P the parabola of Foster et al.) is finite and at most theoretical_bound(delta) = 1 + (sqrt(3/2pi) + sqrt(2/pi)) sqrt(delta), with 3.1415 for pi; and so is the expectation of exp of the total variation itself.", "quantifier": "every delta > 0, every non-empty list of keys, ideal generator", "why_tests_cant": "an expectation over all draws; the script averages over 100000 keys for ten values of delta and cannot see the sign of a difference that is small against the sampling error, nor what happens for other intervals", "anchors": ["scripts/experiment_exp_lipschitz.py: experiment, theoretical_bound", "bayesian_sde_solver/foster_polynomial.py: get_approx"]}
{"id": "C113", "title": "The local order experiment compares two solutions of the same path", "statement": "local_step of local_order_experiment_from_scratch.py returns, for every key, the value of EKF0 on the equation driven by the coarse parabola and the value of Euler-Maruyama along the fine increments (of variance fine_delta) of the same draw; and the distance between the two has a finite mean, so that a local order can be read off averages of it.", "quantifier": "every key, delta > 0, number of fine steps and of filter steps, prior scale, both modes of the filter; ideal generator for the mean", "why_tests_cant": "the mean of the distance is infinite, which no finite sample shows; the missing prior and the missing flag only appear when the script is run, and then only for its own parameters", "anchors": ["scripts/local_order_experiment_from_scratch.py: experiment, wrapped", "bayesian_sde_solver/sde_solvers/euler_maruyama.py: solver_pathwise", "bayesian_sde_solver/ode_solvers/ekf0.py: solver"]}
{"id": "C114", "title": "The law of the runs of Algorithm 4 has order one", "statement": "Suppose the wrappers of the parabola filters (ekf0_marginal_parabola, ekf1_marginal_parabola) received the increment they lack. Then, with one filter step per interval as in the scripts and tests, the once integrated Brownian motion prior, additive noise and an ideal generator, the states of the sde_solver of Algorithm 4 have the law of the solution up to order one: for every Lipschitz function the error of its expectation at every grid time is at most a constant times the interval length, for EKF0 and for EKF1.", "quantifier": "every dimension, drift with bounded derivatives, constant square diffusion, start, horizon, number of intervals, prior scale, key, both modes of the filter, Lipschitz function; ideal generator", "why_tests_cant": "a statement on expectations over all draws with a constant uniform in the number of intervals; the tests stop at the missing argument, and compare sample moments for one step size only", "anchors": ["bayesian_sde_solver/ssm_parabola/ekf.py: _solver", "bayesian_sde_solver/ssm_parabola/ekf0.py", "bayesian_sde_solver/ssm_parabola/ekf1.py", "bayesian_sde_solver/ssm_parabola/ssm_parabola_ode.py", "tests/test_ssm_parabola_ode.py", "scripts/pathwise_convergence_experiment_3_ssm.py"]}
{"id": "C115", "title": "The comparison of priors made for the reviewer measures order one for both priors", "statement": "In comparison_2_RAM_setup_in_the_response_to_the_reviewer.py the second derivative is a state of the noiseless coordinate only (pad_prior fills it with zeros for the noisy one). With either prior, integrated Ornstein-Uhlenbeck or Matern, EKF0 with one filter step per interval and a draw from its posterior stays within order one of Euler-Maruyama on the fine increments of the same path: the distance of the two saved trajectories at every grid point is at most a constant times the interval length, in mean square for smooth drifts and in probability for FitzHugh-Nagumo. Building the two priors raises no exception.", "quantifier": "every smooth planar drift, diffusion without noise in the first coordinate, start, horizon, scale, rate and lengths of the priors, key, number of fine steps, all large numbers of intervals; ideal generator, exact factorisations", "why_tests_cant": "a bound with one constant for all numbers of intervals and all draws; the script runs seven interval lengths, and is not a test; with the unpadded prior of the other script the noisy coordinate does not converge at all (C85)", "anchors": ["scripts/EKF0_Mat_vs_IBM_FHN/comparison_2_RAM_setup_in_the_response_to_the_reviewer.py:36-131", "bayesian_sde_solver/ode_solvers/probnum/transition_function.py: pad_prior, get_independently_factorized_prior", "bayesian_sde_solver/ode_solvers/probnum/matern.py", "bayesian_sde_solver/ode_solvers/probnum/IOUP.py", "bayesian_sde_solver/ode_solvers/ekf0.py"]}
{"id": "C116", "title": "What the posterior-sampling and calibration experiments save", "statement": "uncertainty_calibration.py, sanity_check_calibration_ode.py and pathwise_sampling_from_posterior.py raise no exception, and all their arrays belong to one Brownian path: the saved increments, flattened, drive Euler-Maruyama on the fine grid; their block sums are the saved first coefficients and drive Euler-Maruyama on the coarse grid; the Euler reference of the parabola ODE, the filter and the saved coefficients use the same draws of the first key. The saved means and covariances are those of sde_solver with Algorithm 3 (EKF1), and the estimate is the one computed from the residuals of that run. Rescaling the prior changes neither the references nor the means, multiplies the covariances by the square of the ratio of scales and divides the estimate by it; so whenever the first estimate e is not zero the calibrated run of the script saves the same means as the uncalibrated one, its covariances times e/10, and its own estimate is 10. The posterior samples are drawn with keys derived from the script's key, one for each requested sample.", "quantifier": "every drift, diffusion matrix, start, key, step, numbers of intervals, filter steps, fine steps and samples, every prior scale; differentiable coefficients and correct factorisations for the statements on rescaling", "why_tests_cant": "the scripts are not tests and their parts agree only through the way keys are split in two different loops (custom_sde_solver and sde_solver); a mismatch would change all the figures without any visible failure", "anchors": ["scripts/sampling_from_posterior_alg3/uncertainty_calibration.py:32-195", "scripts/sampling_from_posterior_alg3/sanity_check_calibration_ode.py:30-152", "scripts/sampling_from_posterior_alg3/pathwise_sampling_from_posterior.py:36-117", "bayesian_sde_solver/sde_solver.py", "bayesian_sde_solver/foster_polynomial.py", "bayesian_sde_solver/ode_solvers/ekf1_2.py"]}
{"id": "C117", "title": "The calibration experiment in closed form, and the sanity check on an ODE", "statement": "With one filter step per interval (as the calibration scripts run it) the means, covariances and the estimate of the calibration experiment are those of an explicit recursion: from covariance zero, each interval linearises its field at the mean and at the Euler prediction, the residual is the difference of the slopes there, and the estimate is the average per coordinate of the squared Mahalanobis norms of the residuals. On an ODE, as in sanity_check_calibration_ode.py, with any numbers of filter steps and intervals, two runs with different generators and keys save the same means, covariances, solutions and estimate, and the three reference solutions are Euler's method with the fine step, with the interval as step, and with the fine step restarted at every interval. For the logistic equation of the script the estimate is 0.0169875^2/(2.061025/3) and the mean at time one is 0.145 + 1.145/2.061025*0.0169875.", "quantifier": "every differentiable drift and diffusion, start, step, prior scale, key and generator, every number of intervals and fine steps; correct factorisations", "why_tests_cant": "the script prints one number for one equation and compares it with nothing; independence of the keys concerns all generators", "anchors": ["scripts/sampling_from_posterior_alg3/sanity_check_calibration_ode.py:30-165", "scripts/sampling_from_posterior_alg3/uncertainty_calibration.py:78-149", "bayesian_sde_solver/ode_solvers/ekf1_2.py", "bayesian_sde_solver/ode_solvers/probnum/calibration.py"]}
{"id": "C118", "title": "Calibrated covariances do not shrink with the step", "statement": "In uncertainty_calibration.py (one filter step per interval, prior scale calibrated by the estimate) a constant drift and a constant non-zero diffusion matrix S make the filter exact: its means are the values of the solution for the increments drawn, equal to the saved Euler-Maruyama reference. The covariances of the run with scale sqrt(10) are (5/6) t delta^2, but the estimate is proportional to the squared second parabola coefficients over delta^3, so the calibrated covariance at the grid time t is t v times the identity with v = (sum of |S b_k|^2)/(5 N d delta). With ideal normals v is positive almost surely and its expectation, tr(S S^T)/(10 d), does not depend on the step.", "quantifier": "every constant drift and non-zero diffusion matrix, every start, step, number of intervals and fine steps, every key; every generator for the formulas, ideal normals for the expectation; correct factorisations", "why_tests_cant": "the script plots one band for one step size; that the band keeps its width for all steps while the error is zero is a statement about all steps and about an expectation", "anchors": ["scripts/sampling_from_posterior_alg3/uncertainty_calibration.py:78-149", "scripts/sampling_from_posterior_alg3/uncertainty_calibration.py:165-195"]}
{"id": "C119", "title": "Calibrated covariances do not shrink with the step: drifts that depend on the state", "statement": "In uncertainty_calibration.py (EKF1, one filter step per interval, prior scale calibrated by the estimate) on dX = f(X,t) dt + S dW with S constant and not zero and f Lipschitz in state and time, there is a constant c > 0 such that, with a probability that tends to one with the number of intervals, the calibrated run succeeds and every calibrated covariance at the grid time t is at least c t times the identity, in all directions of the state space. The same holds, with a constant that may depend on the probability left out, for a drift that need not be Lipschitz when it is twice continuously differentiable, its equation has a solution along every continuous path and its Jacobian does not change in the directions of the noise; this covers the FitzHugh-Nagumo model on which the script runs. So the calibrated bands keep their width when the step goes to zero.", "quantifier": "every dimension, drift of the class, non-zero constant diffusion matrix, start, horizon, number of fine steps, keys, correct factorisations, ideal generator; all sufficiently large numbers of intervals", "why_tests_cant": "the statement is about the limit of small steps and about the probability over all draws; the script plots one band for one step", "anchors": ["scripts/sampling_from_posterior_alg3/uncertainty_calibration.py:78-149", "scripts/sampling_from_posterior_alg3/uncertainty_calibration.py:165-195"]}
{"id": "C120", "title": "The reference lies within any fraction of the calibrated band", "statement": "In uncertainty_calibration.py (EKF1, one filter step per interval) on dX = f(X,t) dt + S dW with S constant and not zero, f twice continuously differentiable with a solution along every continuous path and a Jacobian that does not change in the directions of the noise, in particular on the FitzHugh-Nagumo model of the script: for every factor eta > 0, every time t0 > 0 and every eps > 0, for all sufficiently small steps, at every grid time from t0 on, the fine Euler-Maruyama solution that the script saves differs from the saved mean by at most eta calibrated standard deviations in every direction, except on an event of probability at most eps. So the calibrated bands are not calibrated to the error: they are wider than it by any factor as the step goes to zero.", "quantifier": "every dimension, drift of the class, non-zero constant diffusion matrix, start, horizon, eta, t0, eps, number of fine steps, keys, correct factorisations, ideal generator; all sufficiently large numbers of intervals and all later grid points", "why_tests_cant": "the statement is about the limit of small steps, about all draws and about all directions; the script plots one band for one step of 1/50", "anchors": ["scripts/sampling_from_posterior_alg3/uncertainty_calibration.py:78-149", "scripts/sampling_from_posterior_alg3/uncertainty_calibration.py:165-195"]}
{"id": "C121", "title": "The driving path as the notebook plots it", "statement": "special_plots.ipynb, for the arrays that pathwise_sampling_from_posterior.py saves for the first key: the Brownian path on the coarse grid, the one on the fine grid and the parabolas agree at the ends of all intervals; between them the plotted curve is the parabola whose derivative drove the solver on that interval; and the plotted slopes are the derivatives of that curve. (The last part is false: parabola(t) returns a + b sqrt(6) (1/delta - 2u/delta), which lacks the factor 1/delta in front of the increment a, so that for delta = 1/9 all plotted slopes on intervals with a non-zero increment are wrong.)", "quantifier": "every problem, generator, key, step, number of intervals, number of fine steps and grid point", "why_tests_cant": "the notebook is only looked at; the wrong slope has no visible jump to give it away", "anchors": ["scripts/special_plots.ipynb:35-47", "scripts/special_plots.ipynb:107-151", "scripts/sampling_from_posterior_alg3/pathwise_sampling_from_posterior.py:116-117"]}
{"id": "C122", "title": "The bands and z-scores of the calibration notebook", "statement": "sampling_from_posterior_alg3/main.ipynb, for what uncertainty_calibration.py saves: the curves have one value per grid time k delta; mean, standard deviation and reference belong to the same time and coordinate; all z-scores are numbers; and if the number of fine steps differs from the number of intervals (the slice has step N instead of the number of fine steps) the cell raises an error instead of comparing different times. (False only for the first z-score, which is 0/0 for every run.) Moreover, for the calibrated run, from any positive time on the z-scores tend to zero in probability with the step.", "quantifier": "every problem, generator, keys, step, number of intervals, filter steps and fine steps, prior scale, coordinate; the limit for every problem of C120", "why_tests_cant": "nan is not drawn; the limit of the z-scores is about all draws and all small steps", "anchors": ["scripts/sampling_from_posterior_alg3/main.ipynb:50-51", "scripts/sampling_from_posterior_alg3/main.ipynb:73-85", "scripts/sampling_from_posterior_alg3/uncertainty_calibration.py:165-195"]}
{"id": "C123", "title": "The error estimators of the convergence notebook", "statement": "Untitled.ipynb, for the arrays that the low-memory pathwise experiments save, with any number of sample keys. For drifts with bounded derivatives the means of the strong global and the strong local error are at most A sqrt(1 + (sigma/M)^2) delta with EKF0 and A delta with EKF1. For FitzHugh-Nagumo the order plotted at a grid time is at least 1 - eta with probability at least 1 - eps once the number of intervals is large enough; at time 0 it is infinite because both paths start at the same point. The weak global error bounds the error of every empirical second moment at every grid time; at each time it is at most the mean over the samples of the distance times the sum of the norms; it is zero for paths and their reflections, however far these are apart. The strong global error is zero exactly if the paths of every key agree at the last time, the local one if they agree after the first interval, the weak one if all second moments agree.", "quantifier": "every number of keys, all keys, all numbers of intervals, filter steps and fine steps, all prior scales in a bounded range, every smooth additive-noise problem or FitzHugh-Nagumo, every eta, eps > 0; the weak part for all arrays of any size", "why_tests_cant": "the notebook evaluates three step sizes and one seed; the claims are about all small steps and about probabilities", "anchors": ["scripts/Untitled.ipynb:45-66", "scripts/Untitled.ipynb:87-112", "scripts/EKF0_FHN/pathwise_convergence_experiment_2_RAM.py:36-90"]}
{"id": "C124", "title": "The orders of convergence fitted by the notebook", "statement": "Untitled.ipynb: the coefficient fitted to the logarithms of the errors is an average of the orders observed between pairs of step sizes: if between any two step sizes the errors change at least with order lo and at most with order hi, it lies between lo and hi. It recovers power laws exactly and does not depend on the unit of the errors. For the notebook's three step sizes it is half the binary logarithm of the ratio of the first to the last error, whatever the error in the middle; errors between a delta^p and A delta^p give an order within log2(A/a)/2 of p. summary(df) needs six rows and raises a TypeError otherwise, in particular for the three rows written by the same notebook; with six rows it returns the same coefficient, no line leaves a smaller sum of squares, var_ squared is an unbiased estimate of the variance of uncorrelated noise in the logarithms, and the score is the fraction of the total sum of squares explained by the line. The table of the mean trajectory has the rows k/1024 for 1024 intervals and raises a ValueError for any other number, in particular 16, 32 and 64.", "quantifier": "every number of step sizes (not all equal), all positive step sizes and errors; all arrays of paths for the table; every noise distribution for the variance", "why_tests_cant": "no test runs the notebook; the statements are about all error arrays", "anchors": ["scripts/Untitled.ipynb:43", "scripts/Untitled.ipynb:121-126", "scripts/Untitled.ipynb:230-234", "scripts/Untitled.ipynb:299-305"]}
{"id": "C125", "title": "The pathwise experiment of Algorithm 4 converges in law and not along paths", "statement": "pathwise_convergence_experiment_3_ssm.py and its copies: the script saves the trajectories of Algorithm 4 for many keys and ends with the comment 'warning: no path convergence, only moment'. For additive noise, a drift with two continuous derivatives whose equation has a solution along every continuous path, and the filter EKF0 with one step: as the interval tends to zero the law of the saved values tends to the law of the solution, uniformly over the grid and over bounded Lipschitz functions; and if the noise reaches some coordinate, the distance at the final time between a saved value and the Euler-Maruyama reference that the other pathwise experiments save for the same key does not tend to zero: for every level there is a positive distance exceeded up to that probability for all small intervals and all refinements of the reference, and the mean error stays above a positive constant. In particular for FitzHugh-Nagumo with the square diffusion.", "quantifier": "all drifts with two continuous derivatives and path-wise solutions, all constant square diffusions, all initial values, final times, keys, ideal generators, refinements of the reference and integrators run next to it", "why_tests_cant": "a statement about laws, limits and independence; the code raises a TypeError on every run", "anchors": ["scripts/pathwise_convergence_experiment_3_ssm.py:21-61", "scripts/pathwise_convergence_experiment_3_ssm.py:64-80", "scripts/EKF1_FHN/pathwise_convergence_experiment_3_ssm.py", "bayesian_sde_solver/ssm_parabola/ssm_parabola_ode.py:11-44"]}
{"id": "C126", "title": "EKF0 with a twice integrated prior in every coordinate approaches the Euler-Maruyama reference along paths", "statement": "scripts/EKF0_Mat_vs_IBM_FHN/comparison_2_RAM.py compares EKF0 with the IOUP prior and with the Matern prior, both of order 2 in every coordinate, one filter step per interval and a draw from the posterior, with Euler-Maruyama on the fine increments of the same path. For additive noise and a drift with two continuous derivatives the distance of the two final states should tend to zero in probability as the number of intervals grows, as it does for the priors of the other comparison (C115). It does not: as soon as one coordinate is noisy, for every level there is a positive distance exceeded up to that probability for all large numbers of intervals, with either prior, any parameters, covariances or their factors; for FitzHugh-Nagumo with the parameters of the script the expected distance stays above a positive constant. The pair of final states tends jointly in law to the solutions of two equations, of which that of the filter has, besides the noise S of the path, an independent noise s S with s = sqrt(3)/4 for IOUP and s = sqrt(3)(9999^2-1)/(2(2*9999^2+1)) for Matern.", "quantifier": "all drifts with two continuous derivatives whose equations have solutions along continuous paths, all constant diffusions, initial values, final times, parameters of the priors, keys, ideal generators, numbers of fine steps and both covariance modes", "why_tests_cant": "a limit in law over all numbers of intervals; a run at a few step sizes shows small numbers because the noise of the script is small", "anchors": ["scripts/EKF0_Mat_vs_IBM_FHN/comparison_2_RAM.py:42-117", "bayesian_sde_solver/ode_solvers/probnum/IOUP.py:9-29", "bayesian_sde_solver/ode_solvers/probnum/matern.py", "bayesian_sde_solver/ode_solvers/ekf0.py"]}
{"id": "C127", "title": "The closed form means and covariances are those of the SDE", "statement": "For the linear problems of ivp.py the closed forms returned next to the problem are the moments of the solution of the stochastic differential equation itself, driven by Brownian motion: at every time the solution is normal; for ibm with mean (1+t, 1) and covariance theoretical_variance, for double_ibm with mean (t^2/2, t, 1) and covariance theoretical_variance, for the harmonic oscillators with mean theoretical_mean and a covariance from which theoretical_variance differs by the error of a trapezoidal rule with 999 cells and whose derivatives at zero up to order three are those of theoretical_variance_up_to_order3. For the scalar problem of tests/test_end_to_end.py, after the conversion to Stratonovich form, the mean is x0 exp(mu t) and, for the parameters of the test, the standard deviation is the one asserted.", "quantifier": "all Brownian motions, all solutions, all times, all parameters of the harmonic oscillator and all diffusion matrices", "why_tests_cant": "a statement about the law of the solution of an SDE; tests can only compare formulas with simulations", "anchors": ["bayesian_sde_solver/utils/ivp.py:71-109", "bayesian_sde_solver/utils/ivp.py:180-259", "tests/test_end_to_end.py:24-65"]}
{"id": "C128", "title": "The moments asserted by the end to end test are the limits of those of the solver", "statement": "For a linear SDE with additive noise and an ideal generator, the means and the covariances of the states returned by sde_solver with get_approx are finite and differ from the mean and the covariance of the solution at the same time by at most a constant times the interval length, with one constant for all numbers of intervals and filter steps and all grid times: for ekf0 with the once integrated Brownian motion prior of any scale, for ekf1 with one filter step per interval, for ekf0_2 called without key and prior as in the tests, and for Euler-Maruyama. In particular the mean and the standard deviation that test_end_to_end.py estimates for ekf0_2 tend to its reference values.", "quantifier": "all drift and diffusion matrices, initial values, horizons, numbers of intervals and filter steps, prior scales, keys, ideal generators, covariance modes and grid times", "why_tests_cant": "the test compares averages over ten thousand keys with a tolerance of ten per cent for one number of intervals; the claim is about expectations and their rate", "anchors": ["tests/test_end_to_end.py:24-65", "tests/test_end_to_end.py:68-111", "bayesian_sde_solver/sde_solver.py:10-53", "bayesian_sde_solver/ode_solvers/ekf0_2.py", "bayesian_sde_solver/sde_solvers/euler_maruyama.py"]}
{"id": "C129", "title": "The experiment that stores the increments agrees with the low-memory one", "statement": "pathwise_convergence_experiment_2.py runs, and for additive noise returns for every key the same trajectory and the same reference points as the low-memory script pathwise_convergence_experiment_2_RAM.py, together with the fine increments of the Brownian path of that run in order. False as written: the measurement noise passed is a 1x1 matrix while the problem has two components, so the first filter step raises AssertionError for every number of intervals. With a noise of the right size, or none, the claim holds. For multiplicative noise it does not: the references use different drifts.", "quantifier": "all generators, keys, drifts, state-independent diffusions, initial points, steps, numbers of intervals, filter steps and fine steps >= 1, all integrators that do not raise", "why_tests_cant": "the script is not covered by tests; agreement of two programs over all keys, integrators and sizes is an equality of lists of any length", "anchors": ["scripts/pathwise_convergence_experiment_2.py:35-76", "scripts/pathwise_convergence_experiment_2_RAM.py:44-92", "bayesian_sde_solver/ode_solvers/ekf.py:21-24"]}
{"id": "C130", "title": "EKF1 with any number of steps is a linearly implicit scheme", "statement": "With the once integrated prior, no measurement noise and any number of steps, EKF1 follows an explicit recursion: predict z = x + h v, take the Jacobian J' of the field at z, correct by e = G (f(z) - v), set x = z + e and v = f(z) + J' e. The gain G and the covariance depend only on h, the last two Jacobians and the covariance before, in units of sigma^2 h^3; the scale of the prior does not enter the mean. Algorithm 2 starts it without uncertainty and returns its value; Algorithm 3 starts it from any mean and positive semidefinite covariance and returns its mean and covariance. Square-root and covariance mode agree. In sde_solver each interval is one run of this recursion with M steps. The recursion is not the iteration of its first step: two steps of EKF1 differ from two calls with one step.", "quantifier": "all dimensions, differentiable fields, step sizes > 0, prior scales != 0, numbers of steps, initial values and covariances, both modes, all correct linear algebra kernels", "why_tests_cant": "equality with a recursion over all fields and numbers of steps; tests sample a few fields with loose tolerances", "anchors": ["bayesian_sde_solver/ode_solvers/ekf1.py:9-41", "bayesian_sde_solver/ode_solvers/ekf1_2.py:9-52", "bayesian_sde_solver/ode_solvers/probnum/ekf.py:46-88"]}
{"id": "C131", "title": "Strong order one of EKF1 with any number of filter steps per interval", "statement": "For an SDE with additive noise and a smooth drift, sde_solver with EKF1, the once integrated prior and M filter steps per interval, driven by parabolas that match the Brownian path in end point and integral, has mean square error at every grid point at most A delta^2, where A does not depend on the number of intervals, on M, on the scale of the prior or on the mode. The distance between the solver and the Euler-Maruyama reference of the low-memory solver obeys the same bound, and on linear SDEs the means and covariances of the states, computed with an ideal generator, are those of the solution up to A delta.", "quantifier": "all smooth drifts with Lipschitz derivative on [0,T], constant diffusions, initial points, numbers N, M >= 1, scales sigma != 0, both modes, keys, fine steps r >= 1, all n <= N", "why_tests_cant": "The claim is about an expectation over Brownian paths and an asymptotic rate uniform in M; tests run finitely many keys and compare at one step size with a loose tolerance.", "anchors": ["bayesian_sde_solver/ode_solvers/ekf.py:8-52", "bayesian_sde_solver/ode_solvers/probnum/ekf.py:10-88", "bayesian_sde_solver/sde_solver.py", "bayesian_sde_solver/foster_polynomial.py"]}
{"id": "C132", "title": "Order one in probability of EKF1 with any number of filter steps, for drifts that are not globally Lipschitz", "statement": "For an SDE with additive noise whose drift is twice continuously differentiable and whose solution exists up to T, sde_solver with EKF1, the once integrated prior and M filter steps per interval has error of order delta in probability: for every eps there are A and N0 such that for N >= N0 the error at a grid point exceeds A delta with probability at most eps, with A and N0 independent of M, of the scale of the prior and of the mode. The distance to the Euler-Maruyama reference of the low-memory solver obeys the same bound when a solution exists along every continuous path, in particular for FitzHugh-Nagumo with either of its diffusions.", "quantifier": "all C2 drifts, constant diffusions, initial points, eps > 0, N >= N0, M >= 1, scales sigma != 0, both modes, keys, fine steps r >= 1, all n <= N", "why_tests_cant": "A probability over Brownian paths and a rate uniform in N and M; FitzHugh-Nagumo has a cubic drift for which no finite sample shows that the constant does not blow up.", "anchors": ["bayesian_sde_solver/ode_solvers/ekf1.py:9-41", "bayesian_sde_solver/ode_solvers/probnum/ekf.py:13-88", "scripts/EKF1_FHN/pathwise_convergence_experiment_2_RAM.py", "bayesian_sde_solver/utils/ivp.py:20-68"]}
{"id": "C133", "title": "The error measured by the pathwise experiments when EKF1 takes any number of filter steps per interval and draws from its posterior", "statement": "The same as C109 for every number M of filter steps per interval, as the scripts allow through their lambda M(delta): the filter is called with the sample key, the once integrated prior of step delta/M, h = delta/M and N = M, and the interval ends with a draw from the final posterior, whose covariance depends on the Jacobians at all M predictions. For additive noise, a smooth drift and an ideal generator, the mean square distance at every grid time to the Euler-Maruyama reference returned by the low-memory solver is at most A delta^2, with one constant A for all numbers of intervals, of filter steps and of fine steps and all prior scales |sigma| <= s0. For a drift with two continuous derivatives whose equation has solutions along continuous paths, in particular FitzHugh-Nagumo with either of its diffusions, the distance exceeds A delta with at most a prescribed probability for all large enough numbers of intervals, with A and the threshold independent of M.", "quantifier": "every dimension, drift of the class, constant diffusion, start, horizon, numbers of intervals, filter steps and fine steps, nonzero prior scale up to s0, key, both modes of the filter, ideal generator", "why_tests_cant": "an expectation over the Brownian coefficients and the posterior samples, with a constant that must be uniform in the numbers of intervals and of filter steps; no test compares sampled trajectories with a reference", "anchors": ["scripts/EKF1_FHN/pathwise_convergence_experiment_2_RAM.py:24-110", "bayesian_sde_solver/ode_solvers/ekf1.py: solver", "bayesian_sde_solver/ode_solvers/probnum/ekf.py:13-88"]}
{"id": "C134", "title": "Moments of geometric Brownian motion when every interval takes a fixed number of Euler steps", "statement": "test_gbm_euler solves dx = x dt + x dW, converted to Stratonovich form, with M Euler steps per interval, and asserts that the mean and the standard deviation of the final state are mean(1) and var(1)^0.5. As the number of intervals grows with M fixed, the mean and the variance of the final state over an ideal generator tend to mean(T) and var(T). (False: the mean tends to exp((1 - (1/M - 3/(2 M^2) + 1/M^3)) T) and the second moment has a biased rate too; both limits tend to the reference values as M grows, and for M >= 100 and T = 1 they are within the tolerance 0.15 of the test.)", "quantifier": "every horizon T, every number M >= 1 of Euler steps per interval, all numbers of intervals in the limit, every key, ideal generator", "why_tests_cant": "The test draws finitely many keys at one pair of N and M with tolerance 0.15; the bias is invisible at that M, and no sample shows a limit.", "anchors": ["tests/test_sde_solver_foster.py:17-45", "bayesian_sde_solver/ode_solvers/euler.py", "bayesian_sde_solver/sde_solver.py", "bayesian_sde_solver/utils/ivp.py:262-284"]}
{"id": "C135", "title": "The moments asserted by tests/test_foster.py", "statement": "For the three Brownian approximations the increment W(h) computed as in test_moments is a centred normal vector with independent coordinates of standard deviation h^0.5, and the trapezoidal sum of t dW over n steps computed as in test_path_integral is a centred normal vector with independent coordinates whose common variance differs from the asserted h^3/3 by at most h^3/n^2 for get_approx and get_approx_fine, and by at most h^3/n^2 + 4 h^3/N for get_approx_and_brownian with N points. With h = 0.5, n >= 500 and N >= 1000 every entry of the covariance is within the tolerance 1.5e-3 of the test.", "quantifier": "every dimension, h > 0, n >= 2, N >= 2, key, ideal generator", "why_tests_cant": "The test estimates one covariance from 10000 keys in dimension 2 at a single h, n and N; it cannot show the law, or that the error is a term of the trapezoidal rule and one of the Brownian sampling.", "anchors": ["tests/test_foster.py:15-34", "tests/test_foster.py:37-63", "bayesian_sde_solver/foster_polynomial.py"]}
{"id": "C136", "title": "The values asserted by tests/test_euler.py and tests/test_euler_maruyama.py", "statement": "euler on x' = x with N steps of 1/N returns (1 + 1/N)^N, within e/(2N) of e; on x' = sin t it returns a value within (e - 1)/(2N) of 2 - cos 1; both are within the tolerance 1.5e-3 of the tests as soon as N >= 1000. Every state of euler_maruyama on the geometric Brownian motion problem of the tests has the mean and the variance of the product of k independent factors, and for N >= 100 the four assertions of test_gbm_moment hold of the exact moments. euler_maruyama_pathwise with standard increments on the integrated Brownian motion problem returns exactly the two coordinates that test_ibm_path reconstructs by cumulative sums, for all increments, initial values and steps.", "quantifier": "every number of steps N, key, ideal generator; every list of increments, initial value and step", "why_tests_cant": "Each test fixes N and one seed; test_gbm_moment averages samples with a tolerance of one decimal, which does not separate the bias of the method from sampling error.", "anchors": ["tests/test_euler.py:8-30", "tests/test_euler_maruyama.py:9-36", "tests/test_euler_maruyama.py:39-59", "bayesian_sde_solver/sde_solvers/euler_maruyama.py:5-46", "bayesian_sde_solver/ode_solvers/euler.py"]}
{"id": "C137", "title": "Order 1.5 of the diagonal Ito-Taylor scheme for additive noise", "statement": "Let the drift have bounded first and second derivatives, a Lipschitz second derivative and a Lipschitz generator term, and let the diffusion be a constant square matrix S with S S^T diagonal (the docstring supports only diagonal ones; the harmonic oscillator of the tests is of this form). If the noise drawn by solver of diag_15_scheme.py is made of the increments and the integrals of a Brownian motion, then the mean square distance between every state it returns and the solution of the SDE at that grid point is at most A h^3, with A independent of the number of steps, the grid point, the key and the generator: strong order 1.5, as the docstring says. With an ideal generator, on any probability space, the expectation of every Lipschitz function of a state is within A kappa h^(3/2) of its expectation under the law of the solution.", "quantifier": "every dimension, drift of that smoothness, constant diffusion S with S S^T diagonal (also degenerate), initial value, horizon, number of steps, grid point, key, Lipschitz function, Brownian motion, and generator with the stated noise", "why_tests_cant": "The tests of the scheme compare sample moments of one first step for two linear problems; an order of convergence is a statement about all step sizes and about expectations.", "anchors": ["bayesian_sde_solver/sde_solvers/diag_15_scheme.py:5-75", "bayesian_sde_solver/utils/ivp.py:180-204"]}
{"id": "C138", "title": "Order of the scheme for hypoelliptic diffusions with additive noise", "statement": "Let the drift have bounded first and second derivatives, a Lipschitz second derivative and a Lipschitz generator term, let the diffusion be a constant matrix whose first row is zero and whose other rows are independent, and let the first component of the drift depend on a rough variable at every point. With an ideal generator, on any probability space, the states returned by solver of hypoelliptic_diffusion__diag_15_scheme.py approximate the solution with order 1.5 in the step, as the docstring announces: the expectation of every Lipschitz function of a state is within A kappa h^(3/2) of its expectation under the law of the solution.", "quantifier": "every dimension, drift of that smoothness, constant hypoelliptic diffusion, initial value, horizon, number of steps, grid point, key, Lipschitz function, Brownian motion and ideal generator", "why_tests_cant": "The tests of the scheme compare sample moments of one first step for fixed parameters; the missing term of the rough components changes the variance of one step by a term of order h^2 only, below their tolerance, but accumulates to order h over a run.", "anchors": ["bayesian_sde_solver/sde_solvers/hypoelliptic_diffusion__diag_15_scheme.py:5-80"]}
{"id": "C139", "title": "Moments of the schemes of order 1.5 on linear problems", "statement": "Let the drift be F x. With an ideal generator, every state returned by solver of diag_15_scheme.py (constant diffusion S with S S^T diagonal) is normal, with mean Q^n x0 and covariance the sum over i < n of Q^i V Q^i^T, where Q = 1 + hF + h^2 F^2 / 2 and V is the integral over [0, h] of (1 + sF) S S^T (1 + sF)^T. Its mean and covariance are those of the solution of the SDE up to C h^2, at every grid point. The states of hypoelliptic_diffusion__diag_15_scheme.py (first row of S zero, other rows independent) have the same mean and the covariance in which F is replaced by its first row inside V, so that the mean is of order two and the covariance of order one. For the harmonic oscillator of the tests, the covariance of the first step of the diagonal scheme is the asserted one plus 2h^3/3 outside the diagonal, the mean after the 100 steps of the test is within 0.007 of the asserted one, and the covariance of the first step of the hypoelliptic scheme is within the tolerance of the test for every step up to 1/20.", "quantifier": "every dimension, matrix F, constant diffusion of that form, initial value, horizon, number of steps, grid point, key, Brownian motion and ideal generator", "why_tests_cant": "The tests compare sample moments of 1000 runs at one step and one grid point, with a tolerance that hides terms of order h^2.", "anchors": ["bayesian_sde_solver/sde_solvers/diag_15_scheme.py:5-82", "bayesian_sde_solver/sde_solvers/hypoelliptic_diffusion__diag_15_scheme.py:5-80", "bayesian_sde_solver/utils/ivp.py:180-220", "tests/test_exact_hypoelliptic_diffusion_15_scheme.py:33-62", "tests/test_hypoelliptic_diffusion_15_scheme.py:9-30"]}
{"id": "C140", "title": "Moments of the first step on the problems of the tests", "statement": "With an ideal generator, the first state of hypoelliptic_diffusion__diag_15_scheme.py on the FitzHugh-Nagumo problem is normal, with the mean asserted by test_fitzhugh_nagumo minus 8h^2 in the first component and the asserted covariance plus 0.09h^2 in the second. On the synaptic conductance problem, the first state of that scheme and of diag_15_scheme.py is normal, with the mean asserted by test_synaptic_conductance plus 27.3h^2 in the voltage, and the variance of the voltage is exactly the reference of ivp.py at the time h. On the reduced problem the mean of the first state of diag_15_scheme.py is the asserted one plus h / (24000 sqrt 10). Every one of these deviations is below the tolerance of its test for every step up to 1/100.", "quantifier": "every step, number of steps, key and ideal generator", "why_tests_cant": "The tests compare sample moments of 1000 runs at one step with two decimals, which cannot see the wrong terms of order h^2 of the reference values nor the bias of the reduced problem.", "anchors": ["bayesian_sde_solver/sde_solvers/hypoelliptic_diffusion__diag_15_scheme.py:5-80", "bayesian_sde_solver/sde_solvers/diag_15_scheme.py:5-82", "tests/test_hypoelliptic_diffusion_15_scheme.py:32-83", "tests/test_exact_hypoelliptic_diffusion_15_scheme.py:9-29", "tests/test_diag_15_scheme.py:9-23"]}
{"id": "C141", "title": "Ito/Stratonovich conversion of linear diffusions and the values asserted by tests/test_ito_strato.py", "statement": "When the columns of the diffusion are A_k x, to_ito adds half the sum of the A_k^2 x to the drift and to_stratonovich takes it off. Every assertion of tests/test_ito_strato.py holds at every state and time: the round trip returns the drift, diag(x) takes half of the state off the drift in every dimension, the one-dimensional diffusion x takes x/2 off, and the diffusion of test_md adds the term written there.", "quantifier": "every dimension, number of columns, matrices A_k, drift, state and time", "why_tests_cant": "The tests evaluate the converted drift at one state.", "anchors": ["bayesian_sde_solver/ito_stratonovich.py:5-29", "tests/test_ito_strato.py:7-67"]}
{"id": "C142", "title": "Moments of sde_solver with Euler steps inside each interval on linear problems", "statement": "For the drift F x and a constant diffusion S, with an ideal generator, every state of sde_solver with parabolas and M Euler steps per interval is normal. With E = 1 + (delta/M) F its mean is E^(Mn) x0 and each interval adds the covariance delta A S S^T A^T + 3 delta B S S^T B^T, where A is the mean of the first M powers of E and B the mean of them with the weights 1 - 2i/M. Its mean is within C delta/M and its covariance within C (delta^2 + 1/M^2) of those of the solution of the SDE at every grid point, and the term 1/M^2 is there: without drift the covariance is (1 + 3/M^2) t S S^T. For the harmonic oscillator with M = 100 every entry of the covariance of the first state is within ten per cent of the reference, as asserted by test_harmonic_oscillator_euler, for every interval up to 1/1000.", "quantifier": "every dimension, matrices F and S, initial value, horizon, number of intervals and of Euler steps, grid point, key, Brownian motion and ideal generator", "why_tests_cant": "The test compares the sample covariance of one state for one step size and one number of Euler steps with ten per cent of tolerance, which cannot show the orders in delta and M nor the excess 3/M^2.", "anchors": ["bayesian_sde_solver/sde_solver.py:11-45", "bayesian_sde_solver/foster_polynomial.py:7-27", "bayesian_sde_solver/ode_solvers/euler.py:5-16", "bayesian_sde_solver/utils/ivp.py:223-259", "tests/test_sde_solver_foster.py:48-76"]}
{"id": "C143", "title": "The tests of the Kalman steps pass", "statement": "test_agree_predict_sqrt and test_agree_update_sqrt pass: the square-root and covariance modes of predict and update agree within the relative tolerance of the assertions for the arrays drawn by the tests. (The code violates it: for every draw the first raises TypeError because the calls of predict leave out the required argument xi, and the second raises AttributeError because update returns a pair of a state and None, which the test unpacks as mean and factor. With xi supplied and the pairs unpacked, both tests pass in exact arithmetic for all sizes whenever the rows of the drawn arrays are linearly independent.)", "quantifier": "all sizes, all drawn arrays, all increments, every correct set of linear algebra routines", "why_tests_cant": "The tests themselves raise before any comparison; and a repaired test draws one array per size and key, while the claim is about all of them.", "anchors": ["tests/test_ekf.py:10-25", "tests/test_ekf.py:28-44", "bayesian_sde_solver/ode_solvers/probnum/ekf.py:13-43"]}
{"id": "C144", "title": "Moments of sde_solver with one EKF0 step per interval on linear problems", "statement": "For the drift F x and a constant diffusion S, with an ideal generator, every state of sde_solver with parabolas and one step of the EKF0 mean per interval, any scale of the prior and either covariance representation, is normal. With E = 1 + delta F + delta^2 F^2/2 and A = 1 + (delta/2) F its mean is E^n x0 and each interval adds the covariance delta A S S^T A^T + (3 delta^3/4) F S S^T F^T. Its means and covariances are within C delta^2 of those of the solution of the SDE at every grid point.", "quantifier": "every dimension, matrices F and S, initial value, horizon, number of intervals, grid point, key, scale of the prior, representation, Brownian motion and ideal generator", "why_tests_cant": "The tests compare sample moments of one state for a few step sizes with loose tolerances, which cannot show an order nor the exact covariance.", "anchors": ["bayesian_sde_solver/sde_solver.py:11-45", "bayesian_sde_solver/foster_polynomial.py:7-27", "bayesian_sde_solver/ode_solvers/ekf0.py", "bayesian_sde_solver/ode_solvers/ekf.py"]}
{"id": "C145", "title": "Moments of the solver of Algorithm 4 on linear problems, and the tests of Algorithm 4 pass", "statement": "The three tests of test_ssm_parabola_ode.py pass in expectation: on the problems of the tests the mean of the last state is within ten per cent of the reference, its standard deviation (one dimension), covariance (two dimensions) and covariance on the integrated Brownian motion are within the tolerances asserted, and sde_solver with parabolas agrees with them. (The code violates it: the solver of the three tests raises TypeError on every input because the wrapper leaves out the increment, and ekf0 without a prior raises TypeError as well. With the increment and the prior supplied, the states of Algorithm 4 on every linear problem are normal with mean E^n x0, E = 1 + delta F + delta^2 F^2/2, each interval adding the covariance delta S S^T + (c^2 delta^3/12) 1; the means are within C delta^2 and the covariances within C delta of the exact ones, the order one of the covariances being sharp; and all the assertions hold for the exact moments for every interval up to 1/100.)", "quantifier": "every dimension, matrices F and S, initial value, horizon, number of intervals, grid point, key, scale of the prior, representation, Brownian motion and ideal generator; for the assertions every interval up to 1/100 that divides the horizon one", "why_tests_cant": "The tests raise before any comparison; repaired, they compare sample moments for one step size with tolerances of ten per cent and more, which cannot show an order of convergence nor that the order is sharp.", "anchors": ["tests/test_ssm_parabola_ode.py:20-65", "tests/test_ssm_parabola_ode.py:68-95", "tests/test_ssm_parabola_ode.py:98-119", "bayesian_sde_solver/ssm_parabola/ekf.py: _solver", "bayesian_sde_solver/ssm_parabola/ekf0.py", "bayesian_sde_solver/ssm_parabola/ssm_parabola_ode.py"]}
{"id": "C146", "title": "Moments of sde_solver with one EKF1 step per interval on linear problems", "statement": "For the drift F x and a constant diffusion S, with an ideal generator, every state of sde_solver with parabolas and one step of the EKF1 mean per interval, any scale of the prior and either covariance representation, is normal. With W = 1 - delta (F + F^T)/2 + delta^2 F^T F/3, which is invertible for every delta, and E = W^-1 (1 + delta (F - F^T)/2 - delta^2 F^T F/6) its mean is E^n x0, and with V = S S^T each interval adds the covariance delta W^-1 (V - delta (F^T V + V F)/2 + delta^2 F^T V F/3) W^-1. Its means and covariances are within C delta^2 of those of the solution of the SDE at every grid point. If F is dissipative and invertible the means tend to zero along the grid for every delta; with EKF0, for the drift -x and delta above two, they never fall below the initial value.", "quantifier": "every dimension, matrices F and S, initial value, horizon, number of intervals, grid point, interval length, key, scale of the prior, representation, Brownian motion and ideal generator", "why_tests_cant": "The tests compare sample moments of one state for one step size with ten per cent of tolerance, which cannot show an order, the exact covariance nor stability for every step.", "anchors": ["bayesian_sde_solver/sde_solver.py:11-45", "bayesian_sde_solver/foster_polynomial.py:7-27", "bayesian_sde_solver/ode_solvers/ekf1.py", "bayesian_sde_solver/ode_solvers/ekf.py", "tests/test_end_to_end.py:23-104"]}
{"id": "C147", "title": "Moments of sde_solver with one EKF0 step and the twice integrated prior on linear problems", "statement": "For the drift F x and a constant diffusion S, with an ideal generator, the means and covariances of the states of sde_solver with parabolas and one step per interval of the EKF0 mean with the twice integrated Brownian motion prior converge to those of the solution of the SDE as the interval shrinks. (False of the code: every state is normal, with means within C delta^2 of those of the solution, but the covariances converge to 19/16 times those of the solution, with an error of at most C delta.)", "quantifier": "every dimension, matrices F and S with a coordinate driven by noise, initial value, horizon, number of intervals, grid point, key, scale of the prior, representation, Brownian motion and ideal generator", "why_tests_cant": "The tests use the once integrated prior, for one step size and with ten per cent of tolerance on sample moments. A limit over all step sizes and all linear problems is out of their reach.", "anchors": ["bayesian_sde_solver/sde_solver.py:11-45", "bayesian_sde_solver/foster_polynomial.py:7-27", "bayesian_sde_solver/ode_solvers/ekf0.py", "bayesian_sde_solver/ode_solvers/ekf.py"]}
{"id": "C148", "title": "The reference moments of the harmonic oscillators tend to those of the stationary law", "statement": "For positive D and gamma, theoretical_mean and theoretical_variance of the harmonic oscillators tend, as the time grows, to the mean zero and the covariance diag(sig^2/(2 gamma D), sig^2/(2 gamma)) of the stationary law, as the moments of the solution of the SDE do. (False of the code: the means do and so do the moments of the solution, but theoretical_variance takes a thousand nodes whatever the time, and the variance of the velocity that it returns is at least sig^2 t/1998, so it tends to infinity. For the parameters of the code the stationary covariances are diag(2, 2) and diag(50, 5).)", "quantifier": "every time, positive D and gamma, noise level sig, form of the diffusion matrix (2x1 or 2x2), Brownian motion and family of solutions; for the failure every D and gamma and every sig other than zero", "why_tests_cant": "The tests call the references at the time one or less only, where a thousand nodes are enough; a limit in time is out of reach of finitely many calls.", "anchors": ["bayesian_sde_solver/utils/ivp.py:180-220", "bayesian_sde_solver/utils/ivp.py:223-259"]}
{"id": "C149", "title": "The stationary law of sde_solver with single filter steps on Ornstein-Uhlenbeck problems", "statement": "For the drift -theta x with theta > 0 and the diffusion s times the identity, with an ideal generator, parabolas and one filter step per interval of length delta, let a = theta delta. With EKF1, for every delta, the means of the last state tend to zero as the number of intervals grows and its covariance tends to s^2/(2 theta) (1 - a^3/((2 + a)(12 + 6 a + a^2))) times the identity, which is positive, below the stationary one of the SDE, and off by at most the fraction a^3/24. With EKF0 and a below two the means tend to zero and the covariance to s^2/(2 theta) (1 + a^2 (4 + a)/((2 - a)(4 - 2 a + a^2))) times the identity, which exceeds the stationary one; with EKF0, a at least two and s not zero the variances tend to infinity.", "quantifier": "every dimension, rate, noise level, interval length, number of intervals, initial value, key, scale of the prior, covariance representation and ideal generator", "why_tests_cant": "The tests stop at the time one with a fixed small step and ten per cent of tolerance; limits in the number of steps for every step length are out of reach of finitely many runs.", "anchors": ["bayesian_sde_solver/sde_solver.py:11-45", "bayesian_sde_solver/foster_polynomial.py:7-27", "bayesian_sde_solver/ode_solvers/ekf0.py", "bayesian_sde_solver/ode_solvers/ekf1.py", "bayesian_sde_solver/ode_solvers/ekf.py"]}
