# Design of the formal model of bayesianSDEsolver

The code under study is the Python package in `/repo` (JAX). Nothing in `/repo` is run. The model is a Lean 4
transcription of every function of the package that computes something, of the experiment scripts, and of the computations in the
notebooks. All theorems are about this transcription.

## Layout

| Path (under `lean/`) | Content |
|---|---|
| `Verif/Basic.lean` | vectors, matrices, Python exceptions as values |
| `Verif/Jnp.lean` | the NumPy/JAX array primitives used by the package (scan, linspace, kron, strided slices, trapezoid, jacfwd, ...) |
| `Verif/LinAlg.lean` | numerical kernels (QR, Cholesky, sqrtm, solves) as a record of functions, and their contracts |
| `Verif/Rng.lean` | pseudo random keys as derivation paths, draws as a function of (key, shape, index) |
| `Verif/Model/*.lean` | one file per Python file; each definition cites file and lines |
| `Verif/Spec/*.lean` | small independent specifications used by the property theorems |
| `Verif/Lemmas/*.lean` | helper lemmas |
| `Verif/Props/*.lean` | the property theorems (names start with the property id), each next to an `example` showing that its hypotheses can be met |

## Modelling decisions (and trusted base)

1. **Numbers.** Python floats are modelled by real numbers. Rounding, overflow and NaN are not modelled. All
   statements are about exact arithmetic.
2. **Arrays.** A length-`n` array is `Fin n → ℝ`, a matrix is `Matrix (Fin m) (Fin n) ℝ`. Arrays whose leading axis is the
   time axis of a `lax.scan` are `List`s. Interlaced states are kept in the flat index of the code
   (`Fin (dim * n)`; coordinate `i`, state `s` sits at `i * n + s`), so that slicing, `kron` and `reshape(order='F')`
   are index arithmetic as in the code. Shapes that the code does not check are enforced by types; shapes that the code
   does check (asserts, scan lengths, prior sizes) are dynamic and failures are values of `PyErr`.
3. **Numerical kernels** are an abstract record `LinAlg` with the contract `LinAlg.Correct`:
   `qr(mode='r')` returns an upper trapezoidal `R` with `RᵀR = AᵀA`; `cholesky` of a positive definite matrix is lower
   triangular with `L Lᵀ = Q`; `real(sqrtm P)` of a PSD `P` is PSD with square `P`;
   `solve(assume_a='pos')` solves for positive definite matrices; `solve` for invertible ones; `solve_triangular`
   for invertible lower triangular ones. Outside these guards nothing is assumed. The contract is
   proved satisfiable. C109 also assumes that the triangular factor of `qr` is a measurable function of the matrix
   (`LinAlg.MeasurableQr`); Householder reflections satisfy this and the contract (`measurableLinAlg`). `expm` is the matrix exponential of Mathlib.
4. **Automatic differentiation.** `jacfwd f x` is the matrix of the Fréchet derivative (`fderiv`), `jacfwd` of a function of time
   is `deriv`. `stop_gradient` is modelled by giving the observation function a second, non-differentiated, copy of its
   argument.
5. **Randomness.** A key is its derivation path: `split(k, n)[i]` is the path extended by `(n, i)`.
   `normal(key, shape)` is an arbitrary function of key, shape and flat index. Distributional
   theorems assume an ideal generator: for every set of keys any two of which descend from *different children of the same split*,
   and any choice of one shape per key, the draws are iid N(0,1). Nothing is assumed for
   a key and its ancestor or for two different splits of one key, as in JAX. The assumption is proved satisfiable.
   `multivariate_normal(key, m, C)` is `m + cholesky(C) @ normal(key)` as in JAX.
6. **Out-of-range reads** `x.at[i].get()` and `x[i]` on JAX arrays with a non-static or too large index are clamped to the last element.
7. **jnp.vectorize / vmap** are maps; `jax.jit` is the identity; host callbacks are a log of events emitted in program order.
8. `jax.random.split(key, 1)` is passed on as if it were the single key `split(key,1)[0]`; some JAX versions reject a batch of keys. `jnp.empty` is zero.

Lean side: the kernel of Lean 4.33, Mathlib, and the axioms `propext`, `Classical.choice`, `Quot.sound` (what each theorem depends on is
a subset of these; no other axiom is used, there is no `sorry`, `native_decide` or `bv_decide`).

Not modelled: drawing and timing (the arrays that the notebooks draw are modelled), file output of scripts, `tests/` (except what `Model/Tests.lean` models: the problem and the reference values of `test_end_to_end.py`, and what `test_foster.py`, `test_euler.py`, `test_euler_maruyama.py` compute for one key, and `Model/TestEkf.lean`, the whole of `test_ekf.py`, and `Model/TestSsm.lean`, the problems, references and solver of `test_ssm_parabola_ode.py`), jit compilation, dtype (float32/float64), devices,
performance, exceptions raised by JAX on wrongly shaped input other than those named in the model.

## Plan per property

| Id | What is modelled, how it is proved |
|---|---|
| C01 | `linspace` as in NumPy; closed form by list indexing |
| C02-C03 | `sdeSolver` as a scan; characterise scan output by induction, read off entry k |
| C04-C05 | scan over an append / congruence of scans by induction over the input list |
| C06 | derivation paths: explicit footprints (the output depends only on draws under given paths) and pairwise divergence of the paths; iid corollary |
| C07 | event log of the three `cond`s and the close callback; arithmetic of `print_rate` and `remainder`, induction over iterations |
| C08-C10 | direct algebra; Fréchet derivative of a constant |
| C11-C12 | polynomial algebra, derivative, interval integral |
| C13, C15 | linear images of iid Gaussians: characteristic function / covariance criterion for independence in Mathlib |
| C14 | induction over the fine scan, compared with the integral of a piecewise defined path |
| C16-C17 | cumsum and trapezoid sums by induction; covariance of two linear forms; C17 is false: prove the exact covariance and the negation, `_partial` for the N for which it holds |
| C18-C21 | scan induction; blocks via append lemma |
| C22 | discrete Grönwall induction plus Taylor bound |
| C23-C25, C28-C29 | matrix algebra (Schur complement), induction over filter steps |
| C26 | invariant "covariance PSD", full row rank of the observation matrix, positive definiteness of Q |
| C27 | joint law as composition of the observation law with a Gaussian kernel, via independence of uncorrelated jointly Gaussian vectors |
| C30 | negation with witness and the partial statement for factored noise |
| C31-C34 | powers of the nilpotent companion matrix, exponential series; integral of monomials; Gram matrix of monomials |
| C35-C36 | derivative of the closed form, ODE uniqueness for exp; the general branch by explicit 2x2 witness |
| C37 | trapezoid weights nonnegative, sums of PSD matrices |
| C38-C42 | index arithmetic (div/mod) |
| C43-C45 | closed-form invariant of one filter step, induction over N |
| C46 | combine C03 with C43 |
| C47 | law of an affine image of a standard Gaussian vector |
| C48-C52 | wrappers unfolded; error branches as values |
| C53 | C28 applied at each step; affine fields make linearisation exact |
| C54-C55 | bilinear forms |
| C56-C59 | index arithmetic, B diag Bᵀ factorisation; error value; block structure of A and Q |
| C60-C63 | transcription of the scheme, algebra, expectation of Gaussian polynomials |
| C64-C69 | derivatives of the closed forms; counterexamples; induction for the EM mean |
| C70-C73 | the reference moments of the scripts as solutions of moment ODEs, with uniqueness; variance of the linearised problem; trapezoid error of the quadrature |
| C74-C75 | order two of the trapezoidal scheme EKF0 reduces to, by Grönwall; its error within `sde_solver` |
| C76 | expectation of one interval with few filter steps, by Gaussian moments; counterexample |
| C77 | orthogonality of the parabola error to the coefficients: covariances of linear functionals of the path |
| C78 | law of linear recursions with exact integrators |
| C79-C80 | Brownian values on the grid as a structure of laws; the solution of geometric Brownian motion driven by them |
| C81-C82 | Algorithm 3 and the noise of EKF0 along a whole run, induction over intervals |
| C83-C85 | the cubic spline scheme EKF0 reduces to with the three-state prior, closed-form invariants; counterexamples |
| C86-C87 | EKF1 with the two-state prior as a linearly implicit step; stability by the spectral theorem |
| C88-C89 | Joseph form of the update; `jax.scipy.linalg.cholesky` is upper by default, so the posterior draws of the script use the wrong factor |
| C90 | additive noise along a path: chaining of local errors; for a Brownian motion (Mathlib's `IsBrownianReal`) with a maximal inequality |
| C91 | the parabola matched to a Brownian path has the law of `get_approx`; limits of normal laws |
| C92 | L² error recursion with conditional cancellation of the martingale part; EKF0 as trapezoidal scheme |
| C93 | Euler-Maruyama along a path and in L² |
| C94 | transfer of L² bounds to laws: outputs are the same function of equally distributed inputs. The Brownian motion needed by the examples is constructed (Lévy's series) |
| C95 | error of the posterior mean is independent of the observations (induction over steps with the conditioning lemma of C27) |
| C96 | recursion for the mean square distance, independence of earlier draws, exact law without drift |
| C97 | closed form of the Riccati recursion (coefficients conditioned by Woodbury, solution direction unobserved), for the repaired wrapper |
| C98 | sequential conditioning: one interval maps an affine state and fresh noise to the next state and residuals, so the posterior of C95 composes over intervals |
| C99, C101 | the scan of the low-memory scripts splits into the scan of `sde_solver` and block restarted Euler-Maruyama (C19); the Algorithm 3 variant keeps the reference of the first key only |
| C100 | the fine pairs of a run have the law of pairs matched to a Brownian motion on the fine grid; aggregation keeps end point and integral, so C92 and C93 apply on the space of the Brownian motion and transfer by equality in law |
| C102 | `arange(0, delta, M)` has one element when `delta <= M`, so the reference only sees the whole increment; scan induction for the closed form |
| C103 | smooth cut-off of the drift outside a ball, to which C92 and C93 apply; on an event of large probability the solution stays in the ball, the noise moves little over each interval and the errors stay below one half, so all stages of both schemes use the same values of the drift (induction over intervals and filter steps); Chebyshev for the rest |
| C104 | one-sided growth of the FitzHugh-Nagumo drift and Grönwall for `|x|²` give a solution along every path; then C103 and the equality in law of C100 |
| C105 | the Euler steps add `√6/M S b` per interval; expansion of the rest to second order, the mean square core of C92 for the rest and a discrete Grönwall lemma for a perturbed stable scheme; exact laws from C91 for a constant drift; localisation and equality in law as in C103, C104 |
| C106 | EKF1 with one step is the linearly implicit step of C86; it is the trapezoidal step plus `δ G(y) S b` with `G` linear in the Jacobian, up to terms of second order, and grows linearly; the sum of the extra terms is a martingale up to second order, so its mean square is of order `δ²`; equality in law as in C100 |
| C107 | localisation as in C103: drifts that agree on a ball give the same linearly implicit step, Jacobian included, if the prediction stays inside; equality in law and FitzHugh-Nagumo as in C104 |
| C108 | the draw of EKF0 in one interval is a fixed matrix times a normal vector (C82); the draws have the law of normalised increments of further components of the Brownian motion, so the runs live on one space with the solution; sums of draws with factors that depend on the past are orthogonal, and the mean square core of C92 absorbs them; localisation and equality in law as in C103, C104 |
| C109 | one step of EKF1 with a key is the linearly implicit step plus a factor, a measurable function of the Jacobian, times normals; its square is `σ²δ³/12 (W)⁻¹` with `W⁻¹ ≤ 4`; sums of the draws as in C108, martingale defect as in C106; localisation as in C107 |
| C110 | one interval of Algorithm 3 with EKF0 maps the mean as Algorithm 2 does and adds a fixed multiple of the identity to the covariance (C81), so the means do not see the draws and C92 applies to them; each sample is the mean plus a fixed matrix times normals, whose mean square is the trace; localisation and equality in law as in C103, C104, for integrators with further state |
| C111 | false: with one filter step per interval the mean of EKF1 moves by a gain times the residual, and the gain contains `(C/δ)(J0 - J1)`, `C` of order `δ²` the carried covariance, `J0`, `J1` the Jacobians at the two ends. When the Jacobian changes along the noise this product is of order `δ` per interval and correlated with the residual, so that it does not average out (drift `-cos x`, `C111_fails`: lower bound for the mean of a scalar recursion, transferred to the run by equality in law). Where the Jacobian does not change along the noise the argument of C109, C110 applies |
| C112 | true for `δ ≤ 1/50` (the deltas of the script are far below): the slope of the parabola at a node is normal, `exp\|x\| ≤ \|x\| + e^x + e^{-x} - 1`, Jensen for the weights of the trapezoid rule, then numerical bounds; false for `δ ≥ 9`, where `exp(δ/2)` already exceeds the bound |
| C113 | false: `local_step` raises TypeError (no prior), and the reference takes standard normals as increments; with both calls repaired the values are those of the trapezoidal scheme and of Euler-Maruyama along the same draw, but for the drift `exp x` Euler-Maruyama has no mean from the third step on (`E y^{n+1} h^n/n!` is unbounded in `n` for a lognormal `y`) |
| C114 | false: the wrappers raise (C58); with the missing argument supplied and one filter step, EKF0 is Heun's scheme plus `S W` plus independent noise of variance `c² δ³/12`, hence weak order one for Lipschitz functions; EKF1 shrinks the Brownian increment of a degenerate diffusion (on the integrated Brownian motion the variance of the second component at `T` tends to `c²/(1+c²) T`) |
| C115 | the filter with independent coordinates is one step of `blockStep` (`ekf0_blocks`), with the blocks of the transition and the gains `Q01/Q11`; the blocks are expanded with the exponential series, the gains of the Matérn prior by bounding the trapezoid sum as a positive functional; the step is the trapezoidal step plus `δ D S b` plus terms of second order, and the martingale argument of C108, C109 applies |
| C116 | both loops are scans over the same inputs; a body that may raise is replaced by a total one (`scanOutE_ok`, `customSolver_ok`), `mapM` over the keys by a map (`mapM_ok`, `except_bind`); the rescaled run is `ekf2All_scale_full` carried through the scan by induction, the estimate by `estimate_map`; the model is `Model/ScriptsPosterior.lean` |
| C117 | one interval with `return_all` is `step_alg3` for the state and `C50_order` without earlier steps for the residual (`ekf2All_one`); the run and the list of residuals follow by induction on the intervals (`calibrationRun_one`); on an ODE only the sample depends on the key (`ekf2All_det`), Euler restarted at grid points is `eulerSolver_add` |
| C118 | with constant coefficients the Jacobians vanish, so gain, residual covariance and covariance are multiples of the identity (`alg3_const`) and the run of `C117_estimate` is explicit (`alg3Path_const`); the calibrated run is `C116_main`; the expectation is the second moment of the second coefficients (`C15_fine_law`) |
| C119 | lower bound for the covariance recursion (Joseph form: `alg3P_joseph`, `alg3_lower`, one step keeps a factor `1 - Cδ` and adds `δ³/12`), so covariances in units of the prior are at least `c k δ³` (`alg3_path_lower`); the residuals are `(2√6/δ) S b_k` up to terms bounded by a discrete Grönwall argument (`alg3_mean_growth`), so the estimate is at least a multiple of `∑ |S b_k|²/δ³` (`calib_path`); the sum of squares is bounded below by a Laplace transform over the independent intervals (`secondCoeff_small`); drifts that are not Lipschitz, such as FitzHugh–Nagumo, by localisation: the means stay in a ball (`alg3_run_bounded`, from the boundedness machinery of C111 with the running maximum as part of the state) and such runs do not see the drift outside a larger ball (`alg3Path_local`) |
| C120 | the means and the fine solution of the experiment are the two trajectories of the low-memory pathwise script (`C120_pairing`), so C111 bounds their distance by `A δ`; C119 bounds the calibrated covariance below by `c t0` |
| C121 | closed form of `parabola` on each interval by the floor of `t / δ`; partial sums of a flattened list of blocks; the derivative of the path is compared with the returned slope. The slope is wrong: `C121_partial` states the exact discrepancy, `C121_slopes_fail` that it never vanishes |
| C122 | lengths of slices and of the saved arrays (C116), positivity of the covariances (C88); the first z-score is `0 / 0` (`C122_fails`); C119 and C120 give the limit of the z-scores |
| C123 | mean square and probability bounds of C108 and C109 for every key, union bound or sum over the keys; `x ≤ (x² + B) / (2 √B)` instead of the Cauchy-Schwarz inequality; the quotient of logarithms in the extended reals; the Frobenius norm of `x xᵀ - y yᵀ` |
| C124 | the centred sums are sums over pairs; normal equations; the residual sum of squares as a quadratic form of the noise |
| C125 | the repaired wrapper is Heun's scheme plus a normal perturbation; order in probability by localisation; the solution has no atoms because its last increment is nearly independent of the past; reference and run use disjoint keys |
| C126 | one step of the filter is an Euler-Maruyama step plus `√6 (1 - 2γ) S` times the second coefficient of the parabola, `γ` being the limit of the gain over the step (3/8 for IOUP, a trapezoid sum for Matérn); that coefficient is independent of the increment, so the pair is in law a scheme for two equations driven by a doubled Brownian motion; their difference has no atom at zero |
| C127 | the Euler-Maruyama states of a linear equation are normal with explicit mean and covariance (a linear recursion in the increments); these converge to the matrix exponential and to the solution of the variance equation, and the states converge in mean square (C93), so the limit is normal with the limiting moments; then C64, C65, C73 identify the closed forms |
| C128 | the run has the law of a run with parabolas matched to a Brownian motion (C91), whose states are close in mean square (C92, C93, C106) to the solution; Cauchy-Schwarz turns that into bounds for means and covariances around the values of C127; C81 carries it over to Algorithm 3 |
| C129 | the script that stores the increments: `AssertionError` as written, equality with the low-memory script for additive noise, exact gap of the references for geometric Brownian motion |
| C130 | EKF1 with any number of filter steps, from any covariance: the exact scheme for mean and covariance (`rosScheme`), Algorithms 2 and 3, both modes; it is not the iteration of its one-step version |
| C131 | Strong order one of `sde_solver` with EKF1 and any number `M` of filter steps per interval (additive noise), with a constant uniform in `M`; the measured error of the low-memory experiment; the moments on linear SDEs |
| C132 | Order one in probability of EKF1 with any number of filter steps for C² drifts that are not globally Lipschitz, and for FitzHugh-Nagumo |
| C133 | the M-step filter with a key is the scheme of C130 plus a factor, a measurable function of the M Jacobians, times normals; its square is `σ²h³` times the recursion of `rosCs`, bounded by `φ(l) σ²δ³` for Jacobians bounded by `l`, uniformly in M; sums of the draws as in C108, defect as in C131, localisation as in C132 |
| C134 | with M Euler steps the interval of a linear SDE is multiplication by a polynomial in √δ and the two normals of the interval; mean and second moment over N intervals are N-th powers of polynomials in δ with constant term 1 (`polyGrowth`), whose linear coefficients are computed from binomial sums |
| C135 | the increment and the trapezoidal sum are fixed linear combinations of the two coefficients of each coordinate (`trapezoid_parabola`, closed sums of k and k²), so the laws of C13, C15 and C17 give theirs; C17 now includes the variance of the second coefficient |
| C136 | Euler on a linear field is a power and on a field of time alone a left Riemann sum, compared with the exponential and with the error of the rectangle rule; the states of Euler-Maruyama on the geometric Brownian motion are products of independent factors (`em_gbm_prod`); the reconstruction of test_ibm_path by induction on the increments |
| C137 | The error of one step is expanded to second order (`order15_local`): the quadratic noise (`quadNoise`) has mean zero given the past, the remainder is bounded by sixth powers of the supremum of the Brownian motion (`brownian_sup6`); the squared error satisfies a recursion whose expectation is summed by Gronwall (`order15_core`); the noise of the run has the law of increments and integrals (`brownian_noise15`), which transfers the bound to an ideal generator on any space |
| C138 | The step is the Itô-Taylor step with the Jacobian replaced by its first row (`firstRow`, `taylorWith`), of strong order one along a Brownian path (`taylorWith_core`); a chain driven by independent inputs has the law determined by the laws of its steps (`markov_identDistrib`), which transfers the bound to the draws. `C138_fails` computes the exact normal laws of one component under this scheme and under the full step (`ar_law`) and bounds the difference of the standard deviations from below by a multiple of `h` (`gap_sqrt`) |
| C139 | On a linear drift both schemes are linear recursions with independent normal inputs, whose exact law is `isNormal_steps`; the covariance of a step of the diagonal scheme is `∫₀ʰ (1+sF)SSᵀ(1+sF)ᵀ` (`load15_cov`), of the hypoelliptic scheme the same with the first row of `F` only (`hypo_linear_noiseCov`). Powers and covariances are compared with those of the solution in the operator norm (`mean15`, `cov_order`, `cov15_local`), one step at a time through `V(s+t) = e^{tF} V(s) e^{tF}ᵀ + V(t)`. |
| C140 | The first state is one step from the initial value (`hypo_first`, `diag_first`); its law is that of C63 for the hypoelliptic scheme and `diag15_first_law` for the diagonal scheme when the diagonal of the diffusion matrix is constant, its mean that of C61 on the reduced problem (`SynReduced.bias`). The references of ivp.py are compared through C66 and C67. |
| C141 | From the correction formula C09 with the derivative of a linear map. |
| C142 | The Euler steps of one interval are affine in the state and in the two coefficients of the parabola (`euler_interval`), whose joint law is C91; `isNormal_steps` gives the law. Powers of `1 + (δ/M)F` are expanded to first order (`eulerOne_pow_linear`), which gives the covariance of an interval up to `δ(δ² + 1/M²)` (`eulerCov_local`), and the recursion is compared with that of the solution (`cov_recursion_near`). The test on the oscillator bounds the entries one by one (`harmonic_eulerCov`) and the trapezoidal rule of the reference (`harmonic_variance`). |
| C143 | Both failures follow by evaluation: a missing required argument is an option that is `none`, the second component of the returned pair is an option too. The repaired tests pass by C23, the drawn covariances being positive definite when the rows are independent. |
| C144 | One EKF0 step is Heun's method (C43); on an affine field Heun's method is an affine map of the state and the two normal vectors of the interval, so the laws follow by induction over the intervals. The order follows from the local expansion of the transition covariance and the stability argument of C139. |
| C145 | The failures follow from C58 and by evaluation. With the increment supplied, one interval is an affine map again; the assertions follow from bounds on the powers of 1 + δ + δ²/2 and, for the integrated Brownian motion, from a closed form of the covariance. |
| C146 | One EKF1 step is the linearly implicit step of C86; on the field of one interval it is an affine map of the state and the two normal vectors, with factors that are rational in δF. The order follows from multiplying by W and comparing polynomials, with the bound 4d on the norm of the inverse of W, and the stability argument of C142; the stable means from C87. |
| C147 | False. One step of the cubic spline scheme of C83 on the field of one interval is an affine map of the state and the two normal vectors; the second coefficient enters with the weight 1/4 to leading order, which adds 3/16 of the covariance. The limit follows from C146's comparison applied to the exact covariance of an interval, plus a bound on the sum of the defects. The defect in the code is that the filter evaluates the parabola's slope at the end points only, with unequal weights 5/8 and 3/8. |
| C148 | False. `trapz` weighs the node at zero with half a step, and `linspace` keeps a thousand nodes whatever the time, so the reference variance of the velocity is at least sig² t / 1998. The solution itself has a limit: the exponential of the matrix decays, because a quadratic form of its columns decays exponentially, and the stationary covariance solves the Lyapunov equation. |
| C149 | The laws of C144 and C146 for multiples of the identity: means and covariances are geometric, and their limits follow from the geometric series. EKF0 grows for a step of two or more, where its factor is at least one. |

Properties that are false of the code are kept in the list with the full statement; the theorem file proves the negation
(`_fails` suffix) and the strongest positive part (`_partial` suffix).
