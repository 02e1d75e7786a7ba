{
 "claims": [
  {
   "property": "C01",
   "status": "proved",
   "theorems": [
    "Verif.C01_sde_solver_grid",
    "Verif.C01_ssm_grid",
    "Verif.C01_em_grid",
    "Verif.C01_em_pathwise_grid",
    "Verif.C01_diag15_grid",
    "Verif.C01_hypo15_grid",
    "Verif.C01_grid_ends_and_increases"
   ],
   "note": "Proved for sde_solver, the state-space solver, both Euler-Maruyama solvers and both 1.5 schemes, all N."
  },
  {
   "property": "C02",
   "status": "proved",
   "theorems": [
    "Verif.C02_trajectory_shape",
    "Verif.C02_ssm_trajectory_shape"
   ],
   "note": "All N, also 0."
  },
  {
   "property": "C03",
   "status": "proved",
   "theorems": [
    "Verif.C03_interval_step",
    "Verif.C03_ssm_interval_step"
   ],
   "note": "All intervals, all integrators, for sde_solver and the state-space solver."
  },
  {
   "property": "C04",
   "status": "proved",
   "theorems": [
    "Verif.C04_restart"
   ],
   "note": "The partial runs may use their own keys as long as they deliver the same coefficients and integrator randomness."
  },
  {
   "property": "C05",
   "status": "proved",
   "theorems": [
    "Verif.C05_causality",
    "Verif.C05_euler_looksOnlyAt"
   ],
   "note": "For every integrator that only evaluates its vector field on [0, delta]; shown for Euler with any number of inner steps."
  },
  {
   "property": "C06",
   "status": "proved",
   "theorems": [
    "Verif.C06_approx",
    "Verif.C06_approx_and_brownian",
    "Verif.C06_approx_fine",
    "Verif.C06_ekf",
    "Verif.C06_ekf_2",
    "Verif.C06_sde_solver",
    "Verif.C06_euler_maruyama",
    "Verif.C06_taylor15",
    "Verif.C06_ssm",
    "Verif.C06_fresh_draws_iid"
   ],
   "note": "Footprint of every run (which key, which shape), pairwise divergence, no drawn key is split; sde_solver with any approximation and the EKF samplers, Euler-Maruyama, both 1.5 schemes, state-space solver; iid consequence."
  },
  {
   "property": "C07",
   "status": "proved",
   "theorems": [
    "Verif.C07_transparent",
    "Verif.C07_log",
    "Verif.C07_sde_solver_log"
   ],
   "note": "Result transparency for every loop body, and the exact event log."
  },
  {
   "property": "C08",
   "status": "proved",
   "theorems": [
    "Verif.C08_conversions_inverse"
   ],
   "note": "Inverse in both orders, every drift and diffusion."
  },
  {
   "property": "C09",
   "status": "proved",
   "theorems": [
    "Verif.C09_correction_formula"
   ],
   "note": "Entry formula with partial derivatives."
  },
  {
   "property": "C10",
   "status": "proved",
   "theorems": [
    "Verif.C10_additive_noise"
   ],
   "note": "State-independent diffusion: conversion is the identity."
  },
  {
   "property": "C11",
   "status": "proved",
   "theorems": [
    "Verif.C11_parabola_ends_and_slope"
   ],
   "note": "All three approximations."
  },
  {
   "property": "C12",
   "status": "proved",
   "theorems": [
    "Verif.C12_parabola_area"
   ],
   "note": "All three approximations."
  },
  {
   "property": "C13",
   "status": "proved",
   "theorems": [
    "Verif.C13_coefficients_law",
    "Verif.C13_increment_and_area_law"
   ],
   "note": "Exact joint law under ideal normal draws; existence of such draws is proved."
  },
  {
   "property": "C14",
   "status": "proved",
   "theorems": [
    "Verif.C14_fine_aggregates",
    "Verif.C14_path_exists"
   ],
   "note": "Against the concatenated fine path, whose existence is proved."
  },
  {
   "property": "C15",
   "status": "proved",
   "theorems": [
    "Verif.C15_fine_law",
    "Verif.C15_fine_increment_and_area_law"
   ],
   "note": "Exact joint law for every N."
  },
  {
   "property": "C16",
   "status": "proved",
   "theorems": [
    "Verif.C16_brownian_increments",
    "Verif.C16_fine_increments",
    "Verif.C16_increments_law"
   ],
   "note": "Increment identity, law of increments, and both calls of solver_pathwise."
  },
  {
   "property": "C17",
   "status": "partial",
   "theorems": [
    "Verif.C17_covariance_partial",
    "Verif.C17_two_steps_partial",
    "Verif.C17_fails",
    "Verif.C17_not_uncorrelated"
   ],
   "note": "False for the code. C17_fails: the coefficients are correlated for every N other than 2 and dt > 0. C17_covariance_partial gives the exact covariance; only N = 2 is uncorrelated."
  },
  {
   "property": "C18",
   "status": "proved",
   "theorems": [
    "Verif.C18_pathwise_recursion",
    "Verif.C18_keyed_is_pathwise"
   ],
   "note": "Pathwise recursion, error case, and keyed solver as pathwise solver."
  },
  {
   "property": "C19",
   "status": "proved",
   "theorems": [
    "Verif.C19_block_restart"
   ],
   "note": "Low-memory loop of the script equals the subsampled single run."
  },
  {
   "property": "C20",
   "status": "proved",
   "theorems": [
    "Verif.C20_standard_flag"
   ],
   "note": "All inputs, including those that raise."
  },
  {
   "property": "C21",
   "status": "proved",
   "theorems": [
    "Verif.C21_zero_noise_pathwise",
    "Verif.C21_zero_noise_keyed"
   ],
   "note": "Keyed and pathwise."
  },
  {
   "property": "C22",
   "status": "proved",
   "theorems": [
    "Verif.C22_euler_error"
   ],
   "note": "Sup norm; solution differentiable within [0, N h]."
  },
  {
   "property": "C23",
   "status": "proved",
   "theorems": [
    "Verif.C23_predict",
    "Verif.C23_update"
   ],
   "note": "Any correct linear algebra library (LinAlg.Correct, shown satisfiable); the QR factor may have any signs."
  },
  {
   "property": "C24",
   "status": "proved",
   "theorems": [
    "Verif.C24_run",
    "Verif.C24_run_UC"
   ],
   "note": "By induction on the steps, for every prefix of the run; also with return_UC. Hypothesis: innovation covariance positive definite along the covariance-mode run."
  },
  {
   "property": "C25",
   "status": "proved",
   "theorems": [
    "Verif.C25_steps",
    "Verif.C25_run"
   ],
   "note": "Steps and whole runs, every prefix."
  },
  {
   "property": "C26",
   "status": "proved",
   "theorems": [
    "Verif.C26_covariance",
    "Verif.C26_sqrt"
   ],
   "note": "Default prior or any IBM prior of scale σ ≠ 0, any r+2 states per coordinate, both modes. In covariance mode the noise is any PSD matrix; in square-root mode any factor. For EKF1 the vector field must be differentiable in the state (it is linearised by jacfwd); EKF0 needs nothing."
  },
  {
   "property": "C27",
   "status": "proved",
   "theorems": [
    "Verif.C27_conditioning"
   ],
   "note": "Conditional distribution (condDistrib) of the state given the observation, P may be singular."
  },
  {
   "property": "C28",
   "status": "proved",
   "theorems": [
    "Verif.C28_interpolates"
   ],
   "note": "Both modes."
  },
  {
   "property": "C29",
   "status": "proved",
   "theorems": [
    "Verif.C29_decreases"
   ],
   "note": "Both modes."
  },
  {
   "property": "C30",
   "status": "partial",
   "theorems": [
    "Verif.C30_fails",
    "Verif.C30_partial"
   ],
   "note": "False. C30_fails: for every ρ > 0, ρ ≠ 1 the two modes of ekf0 with noise ρ·I return different values. C30_partial: the matrix LR in square-root mode means the same as LR LRᵀ in covariance mode (ekf0_2/ekf1_2, any number of steps). Missing: the same matrix meaning the same in both modes."
  },
  {
   "property": "C31",
   "status": "proved",
   "theorems": [
    "Verif.C31_exp",
    "Verif.C31_ibm",
    "Verif.C31_semigroup"
   ],
   "note": "All theta, q, dt, dim; blocks compared with the matrix exponential of the companion drift."
  },
  {
   "property": "C32",
   "status": "proved",
   "theorems": [
    "Verif.C32_exact"
   ],
   "note": "Integral form and Chapman-Kolmogorov for all q, dim."
  },
  {
   "property": "C33",
   "status": "proved",
   "theorems": [
    "Verif.C33_posDef"
   ],
   "note": "All q, dim; also for theta != 0 since the code uses the same Q."
  },
  {
   "property": "C34",
   "status": "partial",
   "theorems": [
    "Verif.C34_fails",
    "Verif.C34_partial"
   ],
   "note": "False: C34_fails for every theta != 0 (covariance and Chapman-Kolmogorov). C34_partial: entrywise within exp(+-2|theta|dt) of the exact covariance. Missing: equality, which does not hold."
  },
  {
   "property": "C35",
   "status": "proved",
   "theorems": [
    "Verif.C35_exact",
    "Verif.C35_compose"
   ],
   "note": "Exact exponential and covariance integral, Chapman-Kolmogorov, PSD."
  },
  {
   "property": "C36",
   "status": "partial",
   "theorems": [
    "Verif.C36_fails",
    "Verif.C36_partial"
   ],
   "note": "False: C36_fails for every k, every length with length^2 != 2k+1 and every dt != 0 (Liouville determinant). C36_partial: it is the Matern prior with lambda inverted, right only if length^2 = 2k+1."
  },
  {
   "property": "C37",
   "status": "proved",
   "theorems": [
    "Verif.C37_valid",
    "Verif.C37_linear",
    "Verif.C37_scaling",
    "Verif.C37_converges"
   ],
   "note": "Every number of nodes; also convergence to the exact moments at rate 1/(nodes-1)^2."
  },
  {
   "property": "C38",
   "status": "proved",
   "theorems": [
    "Verif.C38_ioup",
    "Verif.C38_matern"
   ],
   "note": "IOUP and Matern (closed form and numerical branch); dim = 0 raises."
  },
  {
   "property": "C39",
   "status": "proved",
   "theorems": [
    "Verif.C39_error",
    "Verif.C39_padded"
   ],
   "note": "Error condition, entries, and predictions of mean and covariance."
  },
  {
   "property": "C40",
   "status": "proved",
   "theorems": [
    "Verif.C40_interlace_round_trip"
   ],
   "note": "All n and lengths."
  },
  {
   "property": "C41",
   "status": "proved",
   "theorems": [
    "Verif.C41_blocks",
    "Verif.C41_posSemidef_iff",
    "Verif.C41_covariance"
   ],
   "note": "Blocks, PSD equivalence, and covariance under ideal draws."
  },
  {
   "property": "C42",
   "status": "proved",
   "theorems": [
    "Verif.C42_insert_array",
    "Verif.C42_insert_tuple"
   ],
   "note": "Every length and arity."
  },
  {
   "property": "C43",
   "status": "proved",
   "theorems": [
    "Verif.C43_trapezoidal",
    "Verif.C43_heun"
   ],
   "note": "Both modes, every vector field (no smoothness), h > 0, σ ≠ 0, number of steps and dimension. The scheme is specified on its own in Spec/Ekf.lean (trapScheme); C43_heun unfolds one step."
  },
  {
   "property": "C44",
   "status": "proved",
   "theorems": [
    "Verif.C44_covariance",
    "Verif.C44_alg3"
   ],
   "note": "Every entry of the posterior covariance; C44_alg3 gives mean and covariance returned by ekf0_2 from any PSD initial covariance."
  },
  {
   "property": "C45",
   "status": "proved",
   "theorems": [
    "Verif.C45_filter",
    "Verif.C45_solver"
   ],
   "note": "C45_filter for any filter problem whose innovation covariances are positive definite; C45_solver for the ODE solvers from an exact initial value, EKF0 and EKF1, in both modes. solverUC is the variant with return_all, so the innovation covariance and residual of the last step are covered for every N, hence for every step."
  },
  {
   "property": "C46",
   "status": "proved",
   "theorems": [
    "Verif.C46_pure_noise"
   ],
   "note": "bm is any approximation evaluated by eval_parabola; the EKF0 integrator may be built with any scale, any positive number of inner steps, both modes."
  },
  {
   "property": "C47",
   "status": "proved",
   "theorems": [
    "Verif.C47_finish",
    "Verif.C47_ekf0",
    "Verif.C47_ekf1",
    "Verif.C47_alg3"
   ],
   "note": "C47_finish for every posterior; C47_ekf0/C47_ekf1 for whole calls (every number of states the wrapper accepts, both modes), C47_alg3 for the sample of the Algorithm 3 solvers. Draws are ideal (IdealNormals); multivariate_normal is modelled with its Cholesky factor. For EKF1 the field is differentiable in the state."
  },
  {
   "property": "C48",
   "status": "proved",
   "theorems": [
    "Verif.C48_call",
    "Verif.C48_run"
   ],
   "note": "C48_call for one call (errors included); C48_run by induction along sde_solver, for two runs that consume the same Brownian coefficients."
  },
  {
   "property": "C49",
   "status": "proved",
   "theorems": [
    "Verif.C49_law",
    "Verif.C49_blocks"
   ],
   "note": "C49_law: joint law of the initial value and the linearised (frozen) field, both modes; C49_blocks: the four blocks and positive semi-definiteness."
  },
  {
   "property": "C50",
   "status": "proved",
   "theorems": [
    "Verif.C50_same",
    "Verif.C50_order"
   ],
   "note": "C50_same for every input, errors included; C50_order for every positive number of steps, default or given prior, with or without noise, both modes."
  },
  {
   "property": "C51",
   "status": "partial",
   "theorems": [
    "Verif.C51_fails",
    "Verif.C51_partial"
   ],
   "note": "False: C51_fails, TypeError for every input. C51_partial: the filter they wrap (any number of states) and the Algorithm 3 solvers use the IBM prior of scale 1. Missing: ekf0 and ekf1 themselves."
  },
  {
   "property": "C52",
   "status": "partial",
   "theorems": [
    "Verif.C52_fails",
    "Verif.C52_partial"
   ],
   "note": "False: C52_fails, ekf0 raises TypeError for every prior with four or more states, and for dim ≥ 2 ekf1 starts with a third state of variance one and a fourth of variance zero. C52_partial: the mean in every dimension, the covariance in dimension one. Missing: the covariance for dim ≥ 2, and ekf0."
  },
  {
   "property": "C53",
   "status": "proved",
   "theorems": [
    "Verif.C53_affine",
    "Verif.C53_ekf1"
   ],
   "note": "Every N ≥ 1, hence every step; time-dependent M(t), b(t); any prior with positive definite covariance; any number of states; both modes. The covariance is supported on the constraint: each derivative row is M times the solution rows."
  },
  {
   "property": "C54",
   "status": "proved",
   "theorems": [
    "Verif.C54_nonneg",
    "Verif.C54_scalar",
    "Verif.C54_scaling",
    "Verif.C54_calibrated",
    "Verif.C54_experiment"
   ],
   "note": "C54_nonneg (zero only for zero residuals), C54_scalar (value in one dimension, pins down the normalisation), C54_scaling; C54_calibrated for the filtering ODE solvers from an exact start (EKF0/EKF1, both modes, any prior with positive definite covariance) and C54_experiment for whole runs of the calibration experiment over many intervals."
  },
  {
   "property": "C55",
   "status": "partial",
   "theorems": [
    "Verif.C55_fails",
    "Verif.C55_fails_witness",
    "Verif.C55_partial"
   ],
   "note": "False: C55_fails shows the second estimate is 10 for every run with a nonzero first estimate, C55_fails_witness that such a run exists. C55_partial: it is 1 when the first run has scale 1. Missing: the scale √10 the script uses. The fields of the intervals are arbitrary differentiable ones; e**0.5 is modelled by the square root."
  },
  {
   "property": "C56",
   "status": "proved",
   "theorems": [
    "Verif.C56_joint_law",
    "Verif.C56_draws",
    "Verif.C56_psd"
   ],
   "note": "Joint law: affine image of the coefficients (W, I); also for the coefficients get_approx draws. Positive semi-definiteness for every diffusion matrix."
  },
  {
   "property": "C57",
   "status": "proved",
   "theorems": [
    "Verif.C57_field",
    "Verif.C57_observation",
    "Verif.C57_jacobian_ekf0",
    "Verif.C57_jacobian_ekf1"
   ],
   "note": "The extended field equals the field sde_solver integrates for the parabola with the coefficients stored in the state; both observation functions are the derivative component minus that field."
  },
  {
   "property": "C58",
   "status": "partial",
   "theorems": [
    "Verif.C58_fails",
    "Verif.C58_partial"
   ],
   "note": "The property is false: C58_fails shows every call raises (TypeError as soon as the assertions pass). C58_partial: with the zero increment passed explicitly the call returns. Missing: the code does not pass it."
  },
  {
   "property": "C59",
   "status": "proved",
   "theorems": [
    "Verif.C59_static",
    "Verif.C59_iterate"
   ],
   "note": "One prediction and, by induction, any number of predictions, both covariance modes."
  },
  {
   "property": "C60",
   "status": "proved",
   "theorems": [
    "Verif.C60_step",
    "Verif.C60_noise",
    "Verif.C60_trajectory"
   ],
   "note": "One step for every noise, whole trajectories, and the joint law of the noise of all steps."
  },
  {
   "property": "C61",
   "status": "partial",
   "theorems": [
    "Verif.C61_mean",
    "Verif.C61_scalar",
    "Verif.C61_fails",
    "Verif.C61_partial"
   ],
   "note": "The property is false. C61_mean: exact mean of one step for every drift and diffusion; C61_scalar and C61_fails: the bias -x h/3 for sigma(x) = x. C61_partial: the bias vanishes exactly when (g g')' g = 0 at the state. Missing: all other diffusions."
  },
  {
   "property": "C62",
   "status": "partial",
   "theorems": [
    "Verif.C62_exact",
    "Verif.C62_fails",
    "Verif.C62_not_coordinatewise",
    "Verif.C62_partial"
   ],
   "note": "The property is false. C62_exact: the step for every decoupled problem; C62_fails/C62_not_coordinatewise: output i moves with the noise of coordinate j. C62_partial: additive noise. Missing: multiplicative noise."
  },
  {
   "property": "C63",
   "status": "proved",
   "theorems": [
    "Verif.C63_covariance",
    "Verif.C63_psd",
    "Verif.C63_posDef",
    "Verif.C63_one_step"
   ],
   "note": "Covariance for every h; PSD for h >= 0; positive definite and law of one step in the hypoelliptic case (the contract of the Cholesky factorisation only covers positive definite matrices)."
  },
  {
   "property": "C64",
   "status": "proved",
   "theorems": [
    "Verif.C64_ibm",
    "Verif.C64_double_ibm",
    "Verif.C64_prior"
   ],
   "note": "Polynomial variances of ibm and double_ibm solve the variance equation and equal the exact transition covariance (uniqueness proved)."
  },
  {
   "property": "C65",
   "status": "proved",
   "theorems": [
    "Verif.C65_mean",
    "Verif.C65_variance"
   ],
   "note": "Mean solves the drift ODE for every stiffness and damping; derivatives of order 0..3 at zero of var3 equal those of the solution of the variance equation, for both the column and the square diffusion."
  },
  {
   "property": "C66",
   "status": "partial",
   "theorems": [
    "Verif.C66_fails",
    "Verif.C66_partial"
   ],
   "note": "The full statement is false (C66_fails: first component off by 8 t^2 for every t). Proved: the second component is the exact second-order expansion and the first is right to first order."
  },
  {
   "property": "C67",
   "status": "partial",
   "theorems": [
    "Verif.C67_reduced_fails",
    "Verif.C67_reduced_partial",
    "Verif.C67_full_fails",
    "Verif.C67_full_partial"
   ],
   "note": "The full statement is false. C67_reduced_fails: the reduced drift and diffusion never read the first conductance (index 2 clamps to 1). C67_full_fails: the first component of the reference mean is off by 27.3 t^2. Proved: what remains right in both problems."
  },
  {
   "property": "C68",
   "status": "partial",
   "theorems": [
    "Verif.C68_fails",
    "Verif.C68_partial"
   ],
   "note": "The full statement is false (C68_fails: the two matrices are equal for every generator and key, hence not independent). Proved: each matrix on its own has independent standard normal entries."
  },
  {
   "property": "C69",
   "status": "proved",
   "theorems": [
    "Verif.C69_em_gbm_mean"
   ],
   "note": "All k up to N, h, initial value."
  },
  {
   "property": "C70",
   "status": "proved",
   "theorems": [
    "Verif.C70_gbm"
   ],
   "note": "Mean and variance solve the moment equations and are their only solutions."
  },
  {
   "property": "C71",
   "status": "partial",
   "theorems": [
    "Verif.C71_fails",
    "Verif.C71_partial"
   ],
   "note": "The full statement is false (C71_fails: third derivatives of three entries). Proved: all derivatives of order at most two and the third of the entry (0,0). The reference is the linearisation at x0."
  },
  {
   "property": "C72",
   "status": "proved",
   "theorems": [
    "Verif.C72_variance"
   ],
   "note": "The reference is the variance of the linearisation at x0."
  },
  {
   "property": "C73",
   "status": "proved",
   "theorems": [
    "Verif.C73_integrated"
   ],
   "note": "Error bound with an arbitrary bound z of the third derivative of the exact variance on the interval."
  },
  {
   "property": "C74",
   "status": "proved",
   "theorems": [
    "Verif.C74_ekf0_order2"
   ],
   "note": "Via the trapezoidal form of EKF0 (C43) and a discrete Gronwall argument; exact real arithmetic."
  },
  {
   "property": "C75",
   "status": "proved",
   "theorems": [
    "Verif.C75_sde_ekf0_error"
   ],
   "note": "The pieces of the exact solution are a hypothesis (they exist for every run with zero drift and unit diffusion, see the example); the solver is called without key, so the state is the filter mean."
  },
  {
   "property": "C76",
   "status": "partial",
   "theorems": [
    "Verif.C76_limit_mean",
    "Verif.C76_fails",
    "Verif.C76_partial"
   ],
   "note": "False for the code. C76_limit_mean gives the exact limit for every linear problem and every M, C76_fails: it is never theoretical_mean(T). C76_partial: the bias vanishes as M grows. Missing: equality for a fixed M, which does not hold."
  },
  {
   "property": "C77",
   "status": "proved",
   "theorems": [
    "Verif.C77_covariances",
    "Verif.C77_best_predictor"
   ],
   "note": "BrownianTo is the specification (covariance min(s,t) and its integral). C77_best_predictor is stated for any variables with the Brownian second moments."
  },
  {
   "property": "C78",
   "status": "partial",
   "theorems": [
    "Verif.C78_ekf0_law",
    "Verif.C78_fails",
    "Verif.C78_partial",
    "Verif.C78_exact_integrator"
   ],
   "note": "False for every M, step and grid point > 0: the position variance is strictly too large (C78_fails); C78_ekf0_law gives the exact law. C78_partial: mean, velocity variance and cross covariance are exact, and the excess vanishes as M grows. C78_exact_integrator: the law is exact for an exact ODE integrator."
  },
  {
   "property": "C79",
   "status": "proved",
   "theorems": [
    "Verif.C79_driver",
    "Verif.C79_driver_fine",
    "Verif.C79_driver_brownian"
   ],
   "note": "Joint law over all grid points and coordinates, under the ideal generator hypothesis, for the three approximations."
  },
  {
   "property": "C80",
   "status": "proved",
   "theorems": [
    "Verif.C80_strong_solution",
    "Verif.C80_moments",
    "Verif.C80_ito_drift"
   ],
   "note": "ExactIntegrator quantifies over fields Lipschitz in the state; such integrators exist (exists_exactIntegrator). The Itô drift gives a wrong mean (C80_ito_drift)."
  },
  {
   "property": "C81",
   "status": "proved",
   "theorems": [
    "Verif.C81_alg3_run"
   ],
   "note": "For the once integrated prior with exact linear algebra."
  },
  {
   "property": "C82",
   "status": "proved",
   "theorems": [
    "Verif.C82_noise"
   ],
   "note": "Under an ideal generator."
  },
  {
   "property": "C83",
   "status": "proved",
   "theorems": [
    "Verif.C83_spline",
    "Verif.C83_covariance"
   ],
   "note": "C83_spline: returned value in both modes; C83_covariance: posterior covariance, with the bounds on the variance of the second derivative. The scheme and the variance recursion are written down in Spec/Ekf.lean without reference to the filter."
  },
  {
   "property": "C84",
   "status": "partial",
   "theorems": [
    "Verif.C84_derivatives",
    "Verif.C84_autonomous_partial",
    "Verif.C84_fails_drift",
    "Verif.C84_gap",
    "Verif.C84_fails",
    "Verif.C84_partial"
   ],
   "note": "False of the code: the third state is J f without the time derivative of f. C84_gap and C84_derivatives give the missing term against a solution of the ODE, for three or more states; C84_fails and C84_fails_drift show that the initialisation is wrong for fields of sde_solver; C84_partial and C84_autonomous_partial prove the claim for fields without time dependence."
  },
  {
   "property": "C85",
   "status": "partial",
   "theorems": [
    "Verif.C85_closed_form",
    "Verif.C85_law",
    "Verif.C85_fails",
    "Verif.C85_partial"
   ],
   "note": "False of the code, because of C84: C85_closed_form and C85_law give the values and the law, with covariance (1 + 3 kappa^2) k delta S S^T; C85_fails proves the excess for all parameters; C85_partial bounds the factor by 1 + 3/(16 M^4)."
  },
  {
   "property": "C86",
   "status": "proved",
   "theorems": [
    "Verif.C86_step",
    "Verif.C86_alg3",
    "Verif.C86_run"
   ],
   "note": "C86_step: the ekf1 wrapper; C86_alg3: Algorithm 3 from a certain value, with covariance; C86_run: in sde_solver. Differentiability in the state is needed because the model's Jacobian is the derivative."
  },
  {
   "property": "C87",
   "status": "proved",
   "theorems": [
    "Verif.C87_stable",
    "Verif.C87_ekf0_unstable"
   ],
   "note": "C87_stable: the step matrix has all complex eigenvalues of modulus below one; C87_ekf0_unstable: EKF0 diverges for l delta < -2."
  },
  {
   "property": "C88",
   "status": "proved",
   "theorems": [
    "Verif.C88_posDef"
   ],
   "note": "C88_posDef, by induction over the intervals; any number of filter steps and both modes."
  },
  {
   "property": "C89",
   "status": "partial",
   "theorems": [
    "Verif.C89_iff",
    "Verif.C89_fails",
    "Verif.C89_partial"
   ],
   "note": "False of the code: jax.scipy.linalg.cholesky returns the upper factor, so the draws have covariance L^T L instead of L L^T. C89_iff: the law is right exactly when all covariances are diagonal. C89_fails: wrong on every path for the FitzHugh-Nagumo problem with the settings of the script. C89_partial: right for EKF0 in every problem, whose covariances are multiples of the identity."
  },
  {
   "property": "C90",
   "status": "proved",
   "theorems": [
    "Verif.C90_pathwise",
    "Verif.C90_strong_order"
   ],
   "note": "The noise is a process that Mathlib calls a Brownian motion; the exact solution is taken path by path (additive noise needs no stochastic integral). C90_pathwise is the deterministic bound for any continuous path, C90_strong_order the expectation. Existence of solutions and of matching runs is proved for every path."
  },
  {
   "property": "C91",
   "status": "proved",
   "theorems": [
    "Verif.C91_matched_law",
    "Verif.C91_code_law"
   ],
   "note": "C91_matched_law for any vector of Brownian motions (Mathlib's IsBrownianReal, independent components); C91_code_law for the coefficients sde_solver draws with an ideal generator. Equality of the two joint laws is the common IsNormal statement."
  },
  {
   "property": "C92",
   "status": "proved",
   "theorems": [
    "Verif.C92_ekf0_strong"
   ],
   "note": "The constant is existential and independent of N, M, the prior scale and the generator. Hypotheses on the drift: SmoothField (Lipschitz, Lipschitz Jacobian) and TimeLipschitz up to the horizon. The matching of the parabolas to the Brownian path is a hypothesis, as in the scripts that compute the coefficients from a fine path; C91 shows the drawn coefficients have the matched law."
  },
  {
   "property": "C93",
   "status": "proved",
   "theorems": [
    "Verif.C93_em_along_paths",
    "Verif.C93_em_strong",
    "Verif.C93_measured_error"
   ],
   "note": "C93_em_along_paths needs only a continuous Lipschitz drift; C93_em_strong and C93_measured_error use the hypotheses of C92."
  },
  {
   "property": "C94",
   "status": "proved",
   "theorems": [
    "Verif.C94_ekf0_law",
    "Verif.C94_em_law"
   ],
   "note": "Wasserstein-type statement over all Lipschitz functions. Non-vacuity is shown with a Brownian motion built by Levy's construction (Lemmas/LevyBrownian.lean, exists_brownianVec) and the ideal generator drawsRng."
  },
  {
   "property": "C95",
   "status": "proved",
   "theorems": [
    "Verif.C95_filter",
    "Verif.C95_ekf1",
    "Verif.C95_ekf0"
   ],
   "note": "Proved for the filter with any affine observation function and noise (conditional distribution and its independent-error form), and for the solver behind ekf1 on fields affine in the state and behind ekf0 on fields independent of the state. Existence of the Gauss-Markov chain is shown in the example."
  },
  {
   "property": "C96",
   "status": "proved",
   "theorems": [
    "Verif.C96_draws",
    "Verif.C96_law",
    "Verif.C96_sharp"
   ],
   "note": "C96_draws bounds the distance of the two runs, C96_sharp gives its exact law without drift, C96_law the order one in law of the run with draws. IBM(1) prior, additive noise."
  },
  {
   "property": "C97",
   "status": "partial",
   "theorems": [
    "Verif.C97_partial",
    "Verif.C97_fails",
    "Verif.C97_fails_scalar"
   ],
   "note": "The code raises (C58), so this is about the wrapper with the missing increment supplied. C97_partial gives the joint law of the draws: W and the solution given W are right. C97_fails: the area coefficient does not have the law N(0, delta/2) unless the diffusion is zero; its variance is of order delta^3 (C97_fails_scalar)."
  },
  {
   "property": "C98",
   "status": "proved",
   "theorems": [
    "Verif.C98_run",
    "Verif.C98_ekf0",
    "Verif.C98_sde_solver"
   ],
   "note": "The prior over a run is the structure PiecewisePrior in Spec/Filtering.lean; exists_piecewisePrior shows that it exists for every choice of fields. The conditional law is stated as IsPosterior: the error of the estimate is independent of the residuals and normal with the returned covariance."
  },
  {
   "property": "C99",
   "status": "proved",
   "theorems": [
    "Verif.C99_low_memory",
    "Verif.C99_additive_reference",
    "Verif.C99_em_pair"
   ],
   "note": "The low-memory solver returns the trajectory of sde_solver with get_approx_fine and, as reference, Euler-Maruyama on the fine increments of the same draws."
  },
  {
   "property": "C100",
   "status": "proved",
   "theorems": [
    "Verif.C100_measured_error"
   ],
   "note": "Hypotheses: globally Lipschitz drift with Lipschitz derivative (SmoothField, TimeLipschitz); FitzHugh-Nagumo itself is only locally Lipschitz."
  },
  {
   "property": "C101",
   "status": "partial",
   "theorems": [
    "Verif.C101_partial",
    "Verif.C101_fails"
   ],
   "note": "False of the code: `sol2 = sol2[0]` (line 124) indexes the stacked references, not a tuple, so only the reference of the first key is saved. C101_fails gives two keys; C101_partial states what is saved."
  },
  {
   "property": "C102",
   "status": "partial",
   "theorems": [
    "Verif.C102_partial",
    "Verif.C102_fails"
   ],
   "note": "False of the code: `jnp.arange(0, delta, M)` uses the number of filter steps as step, so it has one element and all reads are clamped to s = 0 (C102_fails). C102_partial: the reference of the whole run is x -> exp(G delta)(x + G dW) with the increment of the interval, G the single matrix of normal draws of random_linear_sde with default arguments."
  },
  {
   "property": "C103",
   "status": "proved",
   "theorems": [
    "Verif.C103_ekf0",
    "Verif.C103_em"
   ],
   "note": "The parabolas are required to match the Brownian path in end point and integral, as in C92; C104 removes this hypothesis for the law of the error."
  },
  {
   "property": "C104",
   "status": "proved",
   "theorems": [
    "Verif.C104_measured",
    "Verif.C104_fhn"
   ],
   "note": "A statement in probability; no mean square bound is claimed for the cubic drift."
  },
  {
   "property": "C105",
   "status": "proved",
   "theorems": [
    "Verif.C105_strong",
    "Verif.C105_order",
    "Verif.C105_sharp",
    "Verif.C105_law",
    "Verif.C105_prob",
    "Verif.C105_measured",
    "Verif.C105_script"
   ],
   "note": "Mean square bound, exact error law showing that the 1/M term is real, order one when M grows with N, and the saved quantity of strong_convergence_parabola_ode.py in probability."
  },
  {
   "property": "C106",
   "status": "proved",
   "theorems": [
    "Verif.C106_strong",
    "Verif.C106_measured"
   ],
   "note": "Mean square order one for ekf1 with one filter step per interval and no sample key, also for the distance to the Euler-Maruyama reference of the low-memory solver."
  },
  {
   "property": "C107",
   "status": "proved",
   "theorems": [
    "Verif.C107_prob",
    "Verif.C107_measured",
    "Verif.C107_fhn"
   ],
   "note": "Order one in probability for C2 drifts and FitzHugh-Nagumo, ekf1 with one filter step per interval and no sample key."
  },
  {
   "property": "C108",
   "status": "proved",
   "theorems": [
    "Verif.C108_measured",
    "Verif.C108_prob",
    "Verif.C108_fhn"
   ],
   "note": "Mean square bound uniform in N, M, r and sigma for the runs in which the filter is handed the sample key, as the scripts do; in probability for C2 drifts and FitzHugh-Nagumo."
  },
  {
   "property": "C109",
   "status": "proved",
   "theorems": [
    "Verif.C109_measured",
    "Verif.C109_prob",
    "Verif.C109_fhn"
   ],
   "note": "C109_measured: mean square, smooth drifts, every number of intervals; C109_prob: in probability, locally smooth drifts; C109_fhn: FitzHugh-Nagumo with either diffusion. The QR factor is assumed to depend measurably on the matrix, which the constructed factorisation does."
  },
  {
   "property": "C110",
   "status": "proved",
   "theorems": [
    "Verif.C110_measured",
    "Verif.C110_prob",
    "Verif.C110_fhn"
   ],
   "note": "C110_measured: mean square, smooth drifts; C110_prob and C110_fhn: in probability. The trajectory compared is that of the samples, not of the means."
  },
  {
   "property": "C111",
   "status": "partial",
   "theorems": [
    "Verif.C111_fails",
    "Verif.C111_order_fails",
    "Verif.C111_measured_partial",
    "Verif.C111_prob_partial",
    "Verif.C111_fhn_partial",
    "Verif.C111_affine_partial"
   ],
   "note": "False in general: C111_fails gives the drift -cos x with unit noise and a short horizon, where the mean distance between the means and the reference stays above a positive constant however large the number of intervals, whatever the prior scale and mode, and C111_order_fails derives the negation of the order-one claim for a concrete ideal generator. The reason: the gain contains the carried covariance times the change of the Jacobian over the interval, which is correlated with the residual. Proved when the Jacobian of the drift does not change in the directions of the noise: C111_measured_partial (mean square; it also asks that the Jacobian changes at a bounded rate along the drift), C111_prob_partial (in probability, without that second hypothesis), C111_fhn_partial (FitzHugh-Nagumo as in ivp.py), C111_affine_partial (affine drifts, any constant diffusion)."
  },
  {
   "property": "C112",
   "status": "partial",
   "theorems": [
    "Verif.C112_partial",
    "Verif.C112_fails"
   ],
   "note": "False for long intervals (C112_fails: from delta = 9 on both expectations exceed the bound). C112_partial proves it for 0 < delta <= 1/50, which covers all intervals of the script; between 1/50 and 9 nothing is claimed."
  },
  {
   "property": "C113",
   "status": "partial",
   "theorems": [
    "Verif.C113_fails",
    "Verif.C113_reference_fails",
    "Verif.C113_partial",
    "Verif.C113_infinite_mean_fails"
   ],
   "note": "False of the code: C113_fails (TypeError for every input, ekf0 is called without a prior), C113_reference_fails (increments of variance one are used where fine_delta is meant; the reference has no mean). C113_partial proves the first half for the step with both calls repaired; C113_infinite_mean_fails shows that even then the distance has no mean."
  },
  {
   "property": "C114",
   "status": "partial",
   "theorems": [
    "Verif.C114_partial",
    "Verif.C114_fails"
   ],
   "note": "False of the code, which raises (C58). Even if the missing increment is supplied it fails for EKF1: C114_fails gives the exact law of the second component of the integrated Brownian motion of ivp.py, whose variance at T tends to c^2/(1+c^2) T instead of T, so the first absolute moment stays away from the exact one. C114_partial proves order one for EKF0 with one filter step per interval, every Lipschitz function, every drift with bounded derivatives and every constant diffusion matrix."
  },
  {
   "property": "C115",
   "status": "proved",
   "theorems": [
    "Verif.C115_priors",
    "Verif.C115_measured",
    "Verif.C115_prob",
    "Verif.C115_fhn"
   ],
   "note": "C115_measured: mean square, smooth drifts; C115_prob: in probability, locally smooth drifts with solutions along every path; C115_fhn: the script with its own parameters; C115_priors: neither prior raises. The interval count must exceed a threshold because the covariance of the Matern prior is a trapezoid sum whose expansion is used for small steps."
  },
  {
   "property": "C116",
   "status": "proved",
   "theorems": [
    "Verif.C116_references",
    "Verif.C116_filter",
    "Verif.C116_rescaled",
    "Verif.C116_main",
    "Verif.C116_posterior"
   ],
   "note": "All three scripts on any problem; the rescaling statements need differentiable coefficients and correct factorisations; the first estimate must not be zero for the calibrated run, otherwise its prior is degenerate."
  },
  {
   "property": "C117",
   "status": "proved",
   "theorems": [
    "Verif.C117_estimate",
    "Verif.C117_ode",
    "Verif.C117_one",
    "Verif.C117_sanity"
   ],
   "note": "The closed form is for one filter step per interval, the independence of the keys for any number."
  },
  {
   "property": "C118",
   "status": "proved",
   "theorems": [
    "Verif.C118_exact",
    "Verif.C118_expected"
   ],
   "note": "The negation of shrinking: the calibrated covariance has an expectation independent of the step while the error is zero. For constant drift and diffusion; one filter step per interval."
  },
  {
   "property": "C119",
   "status": "proved",
   "theorems": [
    "Verif.C119_lower",
    "Verif.C119_prob",
    "Verif.C119_fhn"
   ],
   "note": "C119_lower: globally Lipschitz drift, lower bound with probability tending to one. C119_prob: C2 drifts with solutions along every path and a Jacobian constant along the noise, constant may depend on the probability left out; C119_fhn: the script's model. One filter step per interval."
  },
  {
   "property": "C120",
   "status": "proved",
   "theorems": [
    "Verif.C120_pairing",
    "Verif.C120_prob",
    "Verif.C120_fhn"
   ],
   "note": "C120_prob: on the terms of C111_prob_partial; pointwise in the grid time. C120_fhn: the model of the script. One filter step per interval, as in the script."
  },
  {
   "property": "C121",
   "status": "partial",
   "theorems": [
    "Verif.C121_partial",
    "Verif.C121_slopes_fail",
    "Verif.C121_fails"
   ],
   "note": "The slopes are wrong (C121_fails, C121_slopes_fail): the increment is not divided by delta. Proved: the curves themselves, on the whole grid, and the exact discrepancy of the slopes."
  },
  {
   "property": "C122",
   "status": "partial",
   "theorems": [
    "Verif.C122_length",
    "Verif.C122_partial",
    "Verif.C122_fails",
    "Verif.C122_vanish"
   ],
   "note": "The first z-score is 0/0 (C122_fails). Proved: all other entries, the error for other numbers of fine steps, and that the calibrated z-scores vanish with the step."
  },
  {
   "property": "C123",
   "status": "proved",
   "theorems": [
    "Verif.C123_order_ekf0",
    "Verif.C123_order_ekf1",
    "Verif.C123_mean_ekf0",
    "Verif.C123_mean_ekf1",
    "Verif.C123_weak",
    "Verif.C123_blind",
    "Verif.C123_weak_global",
    "Verif.C123_zero"
   ],
   "note": "In the mean for drifts with bounded derivatives (EKF0, EKF1), in probability for FitzHugh-Nagumo; the weak part is a statement about arrays."
  },
  {
   "property": "C124",
   "status": "proved",
   "theorems": [
    "Verif.C124_between",
    "Verif.C124_power_law",
    "Verif.C124_scale",
    "Verif.C124_middle",
    "Verif.C124_bounds",
    "Verif.C124_summary",
    "Verif.C124_summary_power_law",
    "Verif.C124_variance",
    "Verif.C124_rows",
    "Verif.C124_rows_notebook",
    "Verif.C124_table"
   ],
   "note": "Regression, summary and table of the notebook."
  },
  {
   "property": "C125",
   "status": "partial",
   "theorems": [
    "Verif.C125_fails",
    "Verif.C125_law_partial",
    "Verif.C125_paths_partial",
    "Verif.C125_error_partial",
    "Verif.C125_fhn_partial",
    "Verif.C125_script_partial"
   ],
   "note": "False of the code: the wrappers of Algorithm 4 call ekf without the increment, so every run of the experiment with a key and an interval raises TypeError, and so does the script (C125_fails, both filters, every square problem). With the wrapper repaired (zero increment), EKF0 and the default prior, C125_law_partial, C125_paths_partial, C125_error_partial and C125_fhn_partial prove the statement in full. C125_script_partial fixes the arrays, steps and interval lengths of what the script would save. Missing: the code raises; EKF1 is only covered by C125_fails."
  },
  {
   "property": "C126",
   "status": "partial",
   "theorems": [
    "Verif.C126_ioup_partial",
    "Verif.C126_matern_partial",
    "Verif.C126_fails",
    "Verif.C126_fhn_fails"
   ],
   "note": "The convergence is false of the code: C126_fails proves that the filter stays away from the reference with either prior, C126_fhn_fails the same for the script as it stands, in the mean. C126_ioup_partial and C126_matern_partial prove what the pair of final states does tend to."
  },
  {
   "property": "C127",
   "status": "proved",
   "theorems": [
    "Verif.C127_law",
    "Verif.C127_ibm",
    "Verif.C127_double_ibm",
    "Verif.C127_harmonic",
    "Verif.C127_test"
   ],
   "note": "General law for linear equations and its instances; solutions are the path-wise solutions of the equation along the Brownian path."
  },
  {
   "property": "C128",
   "status": "proved",
   "theorems": [
    "Verif.C128_ekf0",
    "Verif.C128_ekf1",
    "Verif.C128_ekf0_2",
    "Verif.C128_test",
    "Verif.C128_em"
   ],
   "note": "EKF1 with several filter steps per interval and ekf1_2, which the tests also run, are not covered: their gain depends on the number of steps. ekf0 and ekf1 as called in the tests (no prior) raise a TypeError (C51)."
  },
  {
   "property": "C129",
   "status": "partial",
   "theorems": [
    "Verif.C129_run",
    "Verif.C129_same_as_low_memory",
    "Verif.C129_fails",
    "Verif.C129_partial",
    "Verif.C129_multiplicative"
   ],
   "note": "False as written: noise=jnp.array([[0.0]]) is 1x1 for a problem with two components, so EKF0 raises AssertionError (C129_fails). C129_run gives the result for every integrator that does not raise and every diffusion; C129_same_as_low_memory and C129_partial the equality with the low-memory script for additive noise; C129_multiplicative the gap for geometric Brownian motion."
  },
  {
   "property": "C130",
   "status": "proved",
   "theorems": [
    "Verif.C130_steps",
    "Verif.C130_alg3",
    "Verif.C130_run",
    "Verif.C130_memory"
   ],
   "note": "Covariance stays along the lifted Jacobian (H P = 0 after a noise-free update), so mean and covariance close into rosScheme; proved by induction on the steps, in both modes, for Algorithm 2, Algorithm 3 from any covariance and inside sde_solver. C130_memory exhibits the difference between one call with two steps and two calls with one step."
  },
  {
   "property": "C131",
   "status": "proved",
   "theorems": [
    "Verif.C131_strong",
    "Verif.C131_measured",
    "Verif.C131_moments"
   ],
   "note": "Full statement. The M-step scheme of C130 is expanded to second order with a constant uniform in M (ros_steps_expansion); C131_strong against the solution, C131_measured against the Euler-Maruyama reference of the low-memory solver, C131_moments for linear SDEs."
  },
  {
   "property": "C132",
   "status": "proved",
   "theorems": [
    "Verif.C132_prob",
    "Verif.C132_measured",
    "Verif.C132_fhn"
   ],
   "note": "Full statement. The predicted points of all M steps stay in the ball where the drift is not cut off (third part of ros_steps_expansion), so the scheme agrees with that of a cut-off drift, to which C131 applies."
  },
  {
   "property": "C133",
   "status": "proved",
   "theorems": [
    "Verif.C133_measured",
    "Verif.C133_prob",
    "Verif.C133_fhn"
   ],
   "note": "C133_measured: mean square, smooth drifts, every number of intervals; C133_prob: in probability, C2 drifts; C133_fhn: FitzHugh-Nagumo with either diffusion. The draw factor is a measurable function of the Jacobians of the M steps, and its Frobenius norm is of order sigma delta^(3/2) uniformly in M. The QR factor is assumed to depend measurably on the matrix, which the constructed factorisation does."
  },
  {
   "property": "C134",
   "status": "partial",
   "theorems": [
    "Verif.C134_limits",
    "Verif.C134_fails",
    "Verif.C134_partial",
    "Verif.C134_tolerance"
   ],
   "note": "False as stated: C134_fails shows that at every fixed M and T > 0 the mean does not tend to the reference. C134_limits gives the limits of the first two moments, C134_partial that these tend to the reference values as M grows, C134_tolerance that for M >= 100 the values of the test are eventually met within its tolerance."
  },
  {
   "property": "C135",
   "status": "proved",
   "theorems": [
    "Verif.C135_increment",
    "Verif.C135_path_integral",
    "Verif.C135_error",
    "Verif.C135_tolerance"
   ],
   "note": "The laws of the increment and of the trapezoidal sum for all three approximations; the variances are pathVar and pathVarBrownian, compared with h^3/3 in C135_error; the tolerance of the test in C135_tolerance."
  },
  {
   "property": "C136",
   "status": "proved",
   "theorems": [
    "Verif.C136_exponential",
    "Verif.C136_sin",
    "Verif.C136_euler_tolerance",
    "Verif.C136_em_gbm_moments",
    "Verif.C136_gbm_tolerance",
    "Verif.C136_ibm_path"
   ],
   "note": "The assertions are proved of the exact moments and, for the deterministic tests, of the returned values; the sampling error of the averages over keys is not modelled."
  },
  {
   "property": "C137",
   "status": "proved",
   "theorems": [
    "Verif.C137_strong",
    "Verif.C137_law"
   ],
   "note": "C137_strong is the pathwise statement (noise of the run equal to increments and integrals of the Brownian motion), C137_law the statement about laws with the generator's own draws. Multiplicative noise is excluded: C61 shows that the scheme is not consistent with it."
  },
  {
   "property": "C138",
   "status": "partial",
   "theorems": [
    "Verif.C138_partial",
    "Verif.C138_fails"
   ],
   "note": "False as stated: C138_fails shows, for a damped noisy velocity and its integral, that the mean absolute velocity at time one is not within A h^(3/2) for any A, because the rough components omit the term b' sigma dZ (the docstring also says that only the leading order is kept). C138_partial proves order one in law for all problems of the statement, assuming that the Cholesky factor of the covariance of a step depends measurably on the state."
  },
  {
   "property": "C139",
   "status": "proved",
   "theorems": [
    "Verif.C139_diag_law",
    "Verif.C139_hypo_law",
    "Verif.C139_diag_order",
    "Verif.C139_hypo_order",
    "Verif.C139_diag_tests",
    "Verif.C139_hypo_tests"
   ],
   "note": "Laws and moments exact over the reals with an ideal generator (IdealNormals). The covariance of the states after all the steps is covered by the order theorem, not by a numerical constant."
  },
  {
   "property": "C140",
   "status": "proved",
   "theorems": [
    "Verif.C140_fhn",
    "Verif.C140_synaptic_hypo",
    "Verif.C140_synaptic_diag",
    "Verif.C140_synaptic_reduced"
   ],
   "note": "Population moments of the first step (the tests use sample moments). The variances that the tests compare after 4 or 10 steps are not covered: the statement gives them after one step."
  },
  {
   "property": "C141",
   "status": "proved",
   "theorems": [
    "Verif.C141_linear",
    "Verif.C141_tests"
   ],
   "note": "Arithmetic is exact; the tests compare floats."
  },
  {
   "property": "C142",
   "status": "proved",
   "theorems": [
    "Verif.C142_law",
    "Verif.C142_order",
    "Verif.C142_sharp",
    "Verif.C142_test"
   ],
   "note": "Population moments of the model in exact arithmetic (the test uses the sample covariance of its runs)."
  },
  {
   "property": "C143",
   "status": "partial",
   "theorems": [
    "Verif.C143_fails",
    "Verif.C143_partial"
   ],
   "note": "False as stated: C143_fails shows that both tests raise for every draw (TypeError for the missing xi, AttributeError for None.T). C143_partial proves that the tests with xi supplied and the pairs unpacked pass for all sizes and all draws with linearly independent rows."
  },
  {
   "property": "C144",
   "status": "proved",
   "theorems": [
    "Verif.C144_law",
    "Verif.C144_order"
   ],
   "note": "C144_law gives the exact normal law of every state, C144_order the order two of means and covariances at every grid point."
  },
  {
   "property": "C145",
   "status": "partial",
   "theorems": [
    "Verif.C145_fails",
    "Verif.C145_partial",
    "Verif.C145_order_partial",
    "Verif.C145_tests_partial",
    "Verif.C145_ibm_partial"
   ],
   "note": "False of the code: C145_fails shows that the solver of the tests raises TypeError on every input, and ekf0 without a prior too. With the increment supplied: C145_partial (exact law), C145_order_partial (orders two and one), C145_tests_partial and C145_ibm_partial (the assertions of the three tests for the exact moments, for every interval up to 1/100, and that order one of the covariances is sharp). Sampling error of the averages in the tests is not part of the claim."
  },
  {
   "property": "C146",
   "status": "proved",
   "theorems": [
    "Verif.C146_law",
    "Verif.C146_order",
    "Verif.C146_stable"
   ],
   "note": "C146_law gives the exact normal law of every state and that W is invertible, C146_order the order two of means and covariances at every grid point, C146_stable the stability of the means with EKF1 and its failure with EKF0."
  },
  {
   "property": "C147",
   "status": "partial",
   "theorems": [
    "Verif.C147_law",
    "Verif.C147_partial",
    "Verif.C147_fails"
   ],
   "note": "The property is false. C147_fails shows, for every linear problem and every coordinate driven directly by noise, that the variance of the last state converges to 19/16 times that of the solution and therefore not to that of the solution. C147_law gives the exact law of every state for every step. C147_partial gives the order two of the means and the order one of the covariances against 19/16 times the right ones. Missing: the convergence of the covariances themselves, which is false."
  },
  {
   "property": "C148",
   "status": "partial",
   "theorems": [
    "Verif.C148_fails",
    "Verif.C148_partial",
    "Verif.C148_shipped_partial"
   ],
   "note": "False of the code: the reference variance takes a thousand nodes whatever the time, so it grows at least like sig^2 t / 1998 and has no limit (C148_fails). Proved: the reference means tend to zero, the moments of the solution of the SDE tend to those of the stationary law, and the limits for the parameters of the code."
  },
  {
   "property": "C149",
   "status": "proved",
   "theorems": [
    "Verif.C149_ekf1",
    "Verif.C149_ekf0"
   ],
   "note": "Proved for multiples of the identity, in every dimension, from the exact laws of C144 and C146."
  }
 ]
}