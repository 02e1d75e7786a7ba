import Verif.Lemmas.Ekf
import Verif.Props.Kalman

/-! Helper lemmas: well-posedness of the filtering solvers, and their two modes. -/

namespace Verif

open Matrix Spec Jnp

/-- Well-posedness, step by step. -/
theorem WellPosed.get {la : LinAlg} {nx ny : ℕ} {obs : ObsFn nx ny} {A Q : Mat nx nx} {xi : Vec nx} {R : Mat ny ny}
    {x : Gauss nx} {ts : List ℝ} (h : WellPosed la obs A Q xi R x ts) (k : ℕ) (hk : k < ts.length) :
    (KF.step la obs A Q xi R false (KF.ekf la x obs A Q xi R (ts.take k) false) ts[k]).2.1.PosDef := by
  induction ts generalizing x k with
  | nil => simp at hk
  | cons t ts ih =>
    cases k with
    | zero => exact h.1
    | succ k => exact ih h.2 k (by simpa using hk)

namespace Ekf

variable {dim r : ℕ}

/-- A positive definite prior covariance makes the filtering solvers well posed, whatever the noise. -/
theorem wellPosed {la : LinAlg} (hla : la.Correct) (EKF0 : Bool) (vf : Field dim) (hf : FieldOk EKF0 vf)
    (A Q : Mat (dim * (r + 2)) (dim * (r + 2))) (xi : Vec (dim * (r + 2))) (R : Mat dim dim) (hQ : Q.PosDef)
    (hR : R.PosSemidef) (x : Gauss (dim * (r + 2))) (hP : x.cov.PosSemidef) (ts : List ℝ) :
    WellPosed la (obsFn (r := r) EKF0 vf) A Q xi R x ts := by
  induction ts generalizing x with
  | nil => trivial
  | cons t ts ih =>
    have hp : (KF.predict la x A Q xi false).cov.PosDef := PosDef.posSemidef_add (psd_mul_mul_transpose hP A) hQ
    have hS : (innovCov (KF.predict la x A Q xi false).cov
        (jac (fun z => obsFn (r := r) EKF0 vf z (KF.predict la x A Q xi false).mean t)
          (KF.predict la x A Q xi false).mean) R).PosDef :=
      innov_posDef hp hR fun y hy => obs_rank EKF0 vf hf _ t y hy
    exact ⟨hS, ih _ ((C25_steps (ny := dim) hla _ hp.posSemidef).2 _ _ R hR hS).1⟩

theorem args_some (la : LinAlg) (vf : Field dim) (h : ℝ) (N : ℕ) (sqrt EKF0 : Bool) (p : Prior (dim * (r + 2))) :
    args la (r := r) vf h N sqrt EKF0 (some ⟨_, p⟩) none =
      .ok ⟨obsFn EKF0 vf, p.A, if sqrt then la.cholesky p.Q else p.Q, p.xi, 0, linspace h (N * h) N⟩ := by
  simp [args, resolveNoise, resolvePrior, bind, Except.bind, pure, Except.pure]

theorem args_some_noise (la : LinAlg) (vf : Field dim) (h : ℝ) (N : ℕ) (sqrt EKF0 : Bool) (p : Prior (dim * (r + 2)))
    (R : Mat dim dim) :
    args la (r := r) vf h N sqrt EKF0 (some ⟨_, p⟩) (some ⟨dim, dim, R⟩) =
      .ok ⟨obsFn EKF0 vf, p.A, if sqrt then la.cholesky p.Q else p.Q, p.xi, R, linspace h (N * h) N⟩ := by
  simp [args, resolveNoise, resolvePrior, bind, Except.bind, pure, Except.pure]

theorem args_none (la : LinAlg) (vf : Field dim) (h : ℝ) (N : ℕ) (sqrt EKF0 : Bool) (noise : Option DynMat) :
    args la (r := r) vf h N sqrt EKF0 none noise =
      args la (r := r) vf h N sqrt EKF0 (some ⟨_, IOUP.transition 0 1 (r + 1) h dim⟩) noise := by
  simp [args, resolvePrior]

theorem solver_some (la : LinAlg) (init : Gauss (dim * (r + 2))) (vf : Field dim) (h : ℝ) (N : ℕ) (sqrt EKF0 : Bool)
    (p : Prior (dim * (r + 2))) :
    solver la init vf h N sqrt EKF0 (some ⟨_, p⟩) none =
      .ok (KF.ekf la init (obsFn EKF0 vf) p.A (if sqrt then la.cholesky p.Q else p.Q) p.xi 0 (linspace h (N * h) N) sqrt) := by
  rw [solver, args_some]; rfl

theorem solver_some_noise (la : LinAlg) (init : Gauss (dim * (r + 2))) (vf : Field dim) (h : ℝ) (N : ℕ) (sqrt EKF0 : Bool)
    (p : Prior (dim * (r + 2))) (R : Mat dim dim) :
    solver la init vf h N sqrt EKF0 (some ⟨_, p⟩) (some ⟨dim, dim, R⟩) =
      .ok (KF.ekf la init (obsFn EKF0 vf) p.A (if sqrt then la.cholesky p.Q else p.Q) p.xi R (linspace h (N * h) N) sqrt) := by
  rw [solver, args_some_noise]; rfl

theorem solver_none (la : LinAlg) (init : Gauss (dim * (r + 2))) (vf : Field dim) (h : ℝ) (N : ℕ) (sqrt EKF0 : Bool)
    (noise : Option DynMat) :
    solver la init vf h N sqrt EKF0 none noise =
      solver la init vf h N sqrt EKF0 (some ⟨_, IOUP.transition 0 1 (r + 1) h dim⟩) noise := by
  rw [solver, solver, args_none]

theorem solverUC_some (la : LinAlg) (init : Gauss (dim * (r + 2))) (vf : Field dim) (h : ℝ) (N : ℕ) (sqrt EKF0 : Bool)
    (p : Prior (dim * (r + 2))) :
    solverUC la init vf h N sqrt EKF0 (some ⟨_, p⟩) none =
      .ok (KF.ekfUC la init (obsFn EKF0 vf) p.A (if sqrt then la.cholesky p.Q else p.Q) p.xi 0 (linspace h (N * h) N) sqrt) := by
  rw [solverUC, args_some]; rfl

theorem solverUC_some_noise (la : LinAlg) (init : Gauss (dim * (r + 2))) (vf : Field dim) (h : ℝ) (N : ℕ)
    (sqrt EKF0 : Bool) (p : Prior (dim * (r + 2))) (R : Mat dim dim) :
    solverUC la init vf h N sqrt EKF0 (some ⟨_, p⟩) (some ⟨dim, dim, R⟩) =
      .ok (KF.ekfUC la init (obsFn EKF0 vf) p.A (if sqrt then la.cholesky p.Q else p.Q) p.xi R (linspace h (N * h) N) sqrt) := by
  rw [solverUC, args_some_noise]; rfl

theorem ibm_Q_posDef {σ : ℝ} (hσ : σ ≠ 0) (q : ℕ) {h : ℝ} (hh : 0 < h) (dim : ℕ) :
    (IOUP.transition 0 σ q h dim).Q.PosDef := kron_one_posDef (ibm_Q1_posDef hσ q hh)

/-- The square-root run represents the covariance run. -/
theorem run_represents {la : LinAlg} (hla : la.Correct) (EKF0 : Bool) (vf : Field dim) (hf : FieldOk EKF0 vf)
    (p : Prior (dim * (r + 2))) (hQ : p.Q.PosDef) (LR R : Mat dim dim) (hR : IsFactor LR R)
    (s v : Gauss (dim * (r + 2))) (hsv : Represents s v) (ts : List ℝ) :
    Represents (KF.ekf la s (obsFn EKF0 vf) p.A (la.cholesky p.Q) p.xi LR ts true)
      (KF.ekf la v (obsFn EKF0 vf) p.A p.Q p.xi R ts false) := by
  have hP : v.cov.PosSemidef := by rw [← hsv.2]; exact psd_self_mul_transpose _
  have hRp : R.PosSemidef := by rw [← hR]; exact psd_self_mul_transpose _
  have := C24_run hla (obsFn EKF0 vf) p.A (la.cholesky p.Q) p.Q p.xi LR R (hla.chol_mul _ hQ) hR s v hsv ts
    (wellPosed hla EKF0 vf hf p.A p.Q p.xi R hQ hRp v hP ts) ts.length
  rwa [List.take_length] at this

theorem run_represents_UC {la : LinAlg} (hla : la.Correct) (EKF0 : Bool) (vf : Field dim) (hf : FieldOk EKF0 vf)
    (p : Prior (dim * (r + 2))) (hQ : p.Q.PosDef) (LR R : Mat dim dim) (hR : IsFactor LR R)
    (s v : Gauss (dim * (r + 2))) (hsv : Represents s v) (ts : List ℝ) :
    Represents (KF.ekfUC la s (obsFn EKF0 vf) p.A (la.cholesky p.Q) p.xi LR ts true).1
      (KF.ekfUC la v (obsFn EKF0 vf) p.A p.Q p.xi R ts false).1 ∧
    (KF.ekfUC la s (obsFn EKF0 vf) p.A (la.cholesky p.Q) p.xi LR ts true).2 =
      (KF.ekfUC la v (obsFn EKF0 vf) p.A p.Q p.xi R ts false).2 := by
  have hP : v.cov.PosSemidef := by rw [← hsv.2]; exact psd_self_mul_transpose _
  have hRp : R.PosSemidef := by rw [← hR]; exact psd_self_mul_transpose _
  exact C24_run_UC hla (obsFn EKF0 vf) p.A (la.cholesky p.Q) p.Q p.xi LR R (hla.chol_mul _ hQ) hR s v hsv ts
    (wellPosed hla EKF0 vf hf p.A p.Q p.xi R hQ hRp v hP ts)

theorem represents_zero {n : ℕ} (m : Vec n) : Represents (⟨m, 0⟩ : Gauss n) ⟨m, 0⟩ := ⟨rfl, by simp [IsFactor]⟩

theorem isFactor_zero {n : ℕ} : IsFactor (0 : Mat n n) 0 := by simp [IsFactor]

/-! ## Algorithm 2 and 3 wrappers -/

theorem ekf0_two (la : LinAlg) (rng : Rng) (key : Option Key) (hd : 0 < dim) (x0 : Vec dim) (vf : Field dim) (h : ℝ) (N : ℕ)
    (sqrt : Bool) (p : Prior (dim * (0 + 2))) (noise : Option DynMat) :
    ekf0 la rng key x0 vf h N sqrt (some ⟨_, p⟩) noise =
      (solver la (init2 x0 vf) vf h N sqrt true (some ⟨_, p⟩) noise).map (finish la rng key sqrt) := by
  have h2 : dim * (0 + 2) / dim = 2 := Nat.mul_div_cancel_left _ hd
  simp only [ekf0, hd.ne', if_false]
  rw [h2]
  rfl

theorem ekf0_three (la : LinAlg) (rng : Rng) (key : Option Key) (hd : 0 < dim) (x0 : Vec dim) (vf : Field dim) (h : ℝ)
    (N : ℕ) (sqrt : Bool) (p : Prior (dim * (1 + 2))) (noise : Option DynMat) :
    ekf0 la rng key x0 vf h N sqrt (some ⟨_, p⟩) noise =
      (solver la (init3 x0 vf) vf h N sqrt true (some ⟨_, p⟩) noise).map (finish la rng key sqrt) := by
  have h2 : dim * (1 + 2) / dim = 3 := Nat.mul_div_cancel_left _ hd
  simp only [ekf0, hd.ne', if_false]
  rw [h2]
  rfl

theorem ekf1_two (la : LinAlg) (rng : Rng) (key : Option Key) (hd : 0 < dim) (x0 : Vec dim) (vf : Field dim) (h : ℝ) (N : ℕ)
    (sqrt : Bool) (p : Prior (dim * (0 + 2))) (noise : Option DynMat) :
    ekf1 la rng key x0 vf h N sqrt (some ⟨_, p⟩) noise =
      (solver la (init2 x0 vf) vf h N sqrt false (some ⟨_, p⟩) noise).map (finish la rng key sqrt) := by
  have h2 : dim * (0 + 2) / dim = 2 := Nat.mul_div_cancel_left _ hd
  simp only [ekf1, hd.ne', if_false]
  rw [h2]
  rfl

theorem ekf1_three (la : LinAlg) (rng : Rng) (key : Option Key) (hd : 0 < dim) (x0 : Vec dim) (vf : Field dim) (h : ℝ)
    (N : ℕ) (sqrt : Bool) (p : Prior (dim * (1 + 2))) (noise : Option DynMat) :
    ekf1 la rng key x0 vf h N sqrt (some ⟨_, p⟩) noise =
      (solver la (init3 x0 vf) vf h N sqrt false (some ⟨_, p⟩) noise).map (finish la rng key sqrt) := by
  have h2 : dim * (1 + 2) / dim = 3 := Nat.mul_div_cancel_left _ hd
  simp only [ekf1, hd.ne', if_false]
  rw [h2]
  rfl

theorem ekf1_many (la : LinAlg) (rng : Rng) (key : Option Key) (hd : 0 < dim) (x0 : Vec dim) (vf : Field dim) (h : ℝ)
    (N : ℕ) (sqrt : Bool) (p : Prior (dim * ((r + 2) + 2))) (noise : Option DynMat) :
    ekf1 la rng key x0 vf h N sqrt (some ⟨_, p⟩) noise =
      (solver la (init4 (r := r) x0 vf) vf h N sqrt false (some ⟨_, p⟩) noise).map (finish la rng key sqrt) := by
  have h2 : dim * ((r + 2) + 2) / dim = r + 4 := Nat.mul_div_cancel_left _ hd
  simp only [ekf1, hd.ne', if_false]
  rw [h2]
  rfl

theorem ekf2_eq (la : LinAlg) (rng : Rng) (EKF0 : Bool) (key : Option Key) (init : State3 dim) (vf : Field dim) (h : ℝ)
    (N : ℕ) (sqrt : Bool) (prior : Option DynPrior) (noise : Option DynMat) :
    ekf2 la rng EKF0 key init vf h N sqrt prior noise =
      (solver la (init32 la EKF0 init.2.1 init.2.2 vf sqrt) vf h N sqrt EKF0 prior noise).map
        fun f => solComponents (finish2 la rng key sqrt f) := rfl

/-- The map `y ↦ (y, H y)`, interlaced. -/
def lift (H : Mat dim dim) : Mat (dim * (0 + 2)) dim := fun p j =>
  if p.modNat = 0 then (1 : Mat dim dim) p.divNat j else H p.divNat j

theorem lift_cov (H P : Mat dim dim) :
    lift H * P * (lift H)ᵀ = interlaceMatrix P (P * Hᵀ) (H * P) (H * P * Hᵀ) := by
  have h0 : ∀ i j, (lift H * P) (flat i 0) j = P i j := fun i j => by
    simp [mul_apply, lift, Matrix.one_apply]
  have h1 : ∀ i j, (lift H * P) (flat i 1) j = (H * P) i j := fun i j => by
    simp [mul_apply, lift]
  ext p q
  rw [← flat_div_mod p, ← flat_div_mod q]
  refine Eq.trans ?_ (interlaceMatrix_flat _ _ _ _ _ _ _ _).symm
  generalize p.modNat = s
  generalize q.modNat = t
  generalize p.divNat = i
  generalize q.divNat = j
  rw [mul_apply]
  simp only [transpose_apply]
  have hs : s = 0 ∨ s = 1 := by fin_cases s <;> simp
  have ht : t = 0 ∨ t = 1 := by fin_cases t <;> simp
  rcases hs with rfl | rfl <;> rcases ht with rfl | rfl
  · simp [h0, lift, Matrix.one_apply]
  · simp [h0, lift, mul_apply]
  · simp [h1, lift, Matrix.one_apply]
  · simp [h1, lift, mul_apply]

/-- The Jacobian used by the Algorithm 3 solvers. -/
noncomputable def jac32 (EKF0 : Bool) (vf : Field dim) (m0 : Vec dim) : Mat dim dim :=
  if EKF0 then 0 else jac (fun z => vf z 0) m0

theorem init32_cov (la : LinAlg) (EKF0 : Bool) (m0 : Vec dim) (P : Mat dim dim) (vf : Field dim) :
    (init32 la EKF0 m0 P vf false).cov = lift (jac32 EKF0 vf m0) * P * (lift (jac32 EKF0 vf m0))ᵀ := by
  rw [lift_cov]; rfl

theorem init32_psd (la : LinAlg) (EKF0 : Bool) (m0 : Vec dim) {P : Mat dim dim} (hP : P.PosSemidef) (vf : Field dim) :
    (init32 la EKF0 m0 P vf false).cov.PosSemidef := by
  rw [init32_cov]; exact psd_mul_mul_transpose hP _

theorem init32_represents {la : LinAlg} (hla : la.Correct) (EKF0 : Bool) (m0 : Vec dim) {P : Mat dim dim}
    (hP : P.PosSemidef) (vf : Field dim) :
    Represents (init32 la EKF0 m0 P vf true) (init32 la EKF0 m0 P vf false) :=
  ⟨rfl, hla.sqrtm_mul_transpose (init32_psd la EKF0 m0 hP vf)⟩

theorem finish2_represents (la : LinAlg) (rng : Rng) {s v : Gauss (dim * (0 + 2))} (h : Represents s v) :
    finish2 la rng none true s = finish2 la rng none false v := by
  simp only [finish2, if_true, Bool.false_eq_true, if_false, h.1, show s.cov * s.covᵀ = v.cov from h.2]

end Ekf

end Verif
