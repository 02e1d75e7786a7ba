import Verif.Lemmas.Kalman
import Verif.Lemmas.Conditioning

/-!
# Properties C23-C25, C27-C29: the Kalman filter
-/

namespace Verif

open Matrix Spec MeasureTheory ProbabilityTheory WithLp

/-! ## Square-root and covariance modes -/

/-- C23: `predict` in square-root mode on factors represents `predict` in covariance mode, and returns a lower
triangular factor. -/
theorem C23_predict {la : LinAlg} (hla : la.Correct) {n : ℕ} (m : Vec n) (L P A LQ Q : Mat n n) (xi : Vec n)
    (hL : IsFactor L P) (hQ : IsFactor LQ Q) :
    Represents (KF.predict la ⟨m, L⟩ A LQ xi true) (KF.predict la ⟨m, P⟩ A Q xi false) ∧
    LowerTri (KF.predict la ⟨m, L⟩ A LQ xi true).cov := by
  refine ⟨⟨rfl, ?_⟩, KF.tria_lower _ _⟩
  have h := KF.predict_sqrt hla ⟨m, L⟩ A LQ xi
  rw [IsFactor, h, hL, hQ]
  rfl

/-- C23: `update` in square-root mode on factors represents `update` in covariance mode, the returned innovation factor
is a factor of the returned innovation covariance, and both factors are lower triangular. -/
theorem C23_update {la : LinAlg} (hla : la.Correct) {nx ny : ℕ} (m : Vec nx) (L P : Mat nx nx) (c : Vec ny)
    (H : Mat ny nx) (LR R : Mat ny ny) (hL : IsFactor L P) (hR : IsFactor LR R) (hS : (innovCov P H R).PosDef) :
    let s := KF.update la ⟨m, L⟩ c H LR true
    let v := KF.update la ⟨m, P⟩ c H R false
    Represents s.1 v.1 ∧ IsFactor s.2 v.2 ∧ LowerTri s.1.cov ∧ LowerTri s.2 := by
  intro s v
  have hP : Pᵀ = P := by rw [← hL]; simp
  have hv : v = _ := KF.update_cov_eq hla ⟨m, P⟩ c H R hP hS
  subst hL hR
  obtain ⟨h1, h2, h3, h4, h5⟩ := KF.update_sqrt_eq hla ⟨m, L⟩ c H LR hS
  rw [hv]
  exact ⟨⟨h1, h2⟩, h3, h4, h5⟩

/-- The innovation covariance is positive definite at every step of a run in covariance mode. -/
def WellPosed (la : LinAlg) {nx ny : ℕ} (obs : ObsFn nx ny) (A Q : Mat nx nx) (xi : Vec nx) (R : Mat ny ny) :
    Gauss nx → List ℝ → Prop
  | _, [] => True
  | x, t :: ts => (KF.step la obs A Q xi R false x t).2.1.PosDef ∧
      WellPosed la obs A Q xi R (KF.step la obs A Q xi R false x t).1 ts

theorem WellPosed.take {la : LinAlg} {nx ny : ℕ} {obs : ObsFn nx ny} {A Q : Mat nx nx} {xi : Vec nx} {R : Mat ny ny}
    {x : Gauss nx} {ts : List ℝ} (h : WellPosed la obs A Q xi R x ts) (k : ℕ) : WellPosed la obs A Q xi R x (ts.take k) := by
  induction ts generalizing x k with
  | nil => simpa using h
  | cons t ts ih =>
    cases k with
    | zero => trivial
    | succ k => exact ⟨h.1, ih h.2 k⟩

theorem step_represents {la : LinAlg} (hla : la.Correct) {nx ny : ℕ} (obs : ObsFn nx ny) (A LQ Q : Mat nx nx) (xi : Vec nx)
    (LR R : Mat ny ny) (hQ : IsFactor LQ Q) (hR : IsFactor LR R) (s v : Gauss nx) (t : ℝ) (hsv : Represents s v)
    (hS : (KF.step la obs A Q xi R false v t).2.1.PosDef) :
    let a := KF.step la obs A LQ xi LR true s t
    let b := KF.step la obs A Q xi R false v t
    Represents a.1 b.1 ∧ IsFactor a.2.1 b.2.1 ∧ a.2.2 = b.2.2 := by
  obtain ⟨sm, sc⟩ := s
  obtain ⟨vm, vc⟩ := v
  obtain ⟨hm, hc⟩ := hsv
  simp only at hm hc
  subst hm
  have hp := (C23_predict hla sm sc vc A LQ Q xi hc hQ).1
  obtain ⟨hpm, hpc⟩ := hp
  intro a b
  have hu := C23_update hla (KF.predict la ⟨sm, vc⟩ A Q xi false).mean _ _
    (obs (KF.predict la ⟨sm, vc⟩ A Q xi false).mean (KF.predict la ⟨sm, vc⟩ A Q xi false).mean t)
    (Jnp.jac (fun z => obs z (KF.predict la ⟨sm, vc⟩ A Q xi false).mean t) (KF.predict la ⟨sm, vc⟩ A Q xi false).mean)
    LR R hpc hR hS
  exact ⟨hu.1, hu.2.1, rfl⟩

/-- C24: a whole run in square-root mode represents, after every number of steps, the run in covariance mode. -/
theorem C24_run {la : LinAlg} (hla : la.Correct) {nx ny : ℕ} (obs : ObsFn nx ny) (A LQ Q : Mat nx nx) (xi : Vec nx)
    (LR R : Mat ny ny) (hQ : IsFactor LQ Q) (hR : IsFactor LR R) (s v : Gauss nx) (hsv : Represents s v) (ts : List ℝ)
    (hw : WellPosed la obs A Q xi R v ts) (k : ℕ) :
    Represents (KF.ekf la s obs A LQ xi LR (ts.take k) true) (KF.ekf la v obs A Q xi R (ts.take k) false) := by
  replace hw := hw.take k
  generalize ts.take k = us at hw ⊢
  clear ts
  induction us generalizing s v with
  | nil => exact hsv
  | cons t ts ih =>
    rw [KF.ekf_cons, KF.ekf_cons]
    exact ih _ _ (step_represents hla obs A LQ Q xi LR R hQ hR s v t hsv hw.1).1 hw.2

/-- C24: the runs with `return_UC=True` agree too, and there the innovation covariance and residual are equal. -/
theorem C24_run_UC {la : LinAlg} (hla : la.Correct) {nx ny : ℕ} (obs : ObsFn nx ny) (A LQ Q : Mat nx nx) (xi : Vec nx)
    (LR R : Mat ny ny) (hQ : IsFactor LQ Q) (hR : IsFactor LR R) (s v : Gauss nx) (hsv : Represents s v) (ts : List ℝ)
    (hw : WellPosed la obs A Q xi R v ts) :
    Represents (KF.ekfUC la s obs A LQ xi LR ts true).1 (KF.ekfUC la v obs A Q xi R ts false).1 ∧
    (KF.ekfUC la s obs A LQ xi LR ts true).2 = (KF.ekfUC la v obs A Q xi R ts false).2 := by
  rcases List.eq_nil_or_concat ts with rfl | ⟨us, t, rfl⟩
  · exact ⟨hsv, rfl⟩
  · have h1 := C24_run hla obs A LQ Q xi LR R hQ hR s v hsv _ hw us.length
    rw [List.concat_eq_append, List.take_left'] at h1
    · have h2 : (KF.step la obs A Q xi R false (KF.ekf la v obs A Q xi R us false) t).2.1.PosDef := by
        clear h1 hsv
        rw [List.concat_eq_append] at hw
        induction us generalizing v with
        | nil => exact hw.1
        | cons u us ih => exact ih _ hw.2
      obtain ⟨g1, g2, g3⟩ := step_represents hla obs A LQ Q xi LR R hQ hR _ _ t h1 h2
      rw [List.concat_eq_append, KF.ekfUC_snoc, KF.ekfUC_snoc]
      refine ⟨g1, ?_⟩
      simp only [if_true, Bool.false_eq_true, if_false]
      rw [g2, g3]
    · rfl

/-! ## Positive semi-definiteness -/

/-- C25: one prediction and one update keep the covariance positive semi-definite. -/
theorem C25_steps {la : LinAlg} (hla : la.Correct) {nx ny : ℕ} (x : Gauss nx) (hP : x.cov.PosSemidef) :
    (∀ (A Q : Mat nx nx) (xi : Vec nx), Q.PosSemidef → (KF.predict la x A Q xi false).cov.PosSemidef) ∧
    (∀ (c : Vec ny) (H : Mat ny nx) (R : Mat ny ny), R.PosSemidef → (innovCov x.cov H R).PosDef →
      (KF.update la x c H R false).1.cov.PosSemidef ∧ (KF.update la x c H R false).2.PosDef) := by
  refine ⟨fun A Q xi hQ => (psd_mul_mul_transpose hP A).add hQ, fun c H R hR hS => ?_⟩
  rw [KF.update_cov_eq hla x c H R (psd_symm hP) hS]
  exact ⟨KF.postCov_psd hP hR hS, hS⟩

/-- C25: every covariance of a run is symmetric positive semi-definite. -/
theorem C25_run {la : LinAlg} (hla : la.Correct) {nx ny : ℕ} (obs : ObsFn nx ny) (A Q : Mat nx nx) (xi : Vec nx)
    (R : Mat ny ny) (hQ : Q.PosSemidef) (hR : R.PosSemidef) (x : Gauss nx) (hP : x.cov.PosSemidef) (ts : List ℝ)
    (hw : WellPosed la obs A Q xi R x ts) (k : ℕ) :
    (KF.ekf la x obs A Q xi R (ts.take k) false).cov.PosSemidef := by
  replace hw := hw.take k
  generalize ts.take k = us at hw ⊢
  clear ts
  induction us generalizing x with
  | nil => exact hP
  | cons t ts ih =>
    rw [KF.ekf_cons]
    refine ih _ ?_ hw.2
    have hp := (C25_steps (ny := ny) hla x hP).1 A Q xi hQ
    exact ((C25_steps (ny := ny) hla _ hp).2 _ _ R hR hw.1).1

/-- Observation noise with positive definite covariance makes every run well posed. -/
theorem WellPosed.of_posDef {la : LinAlg} (hla : la.Correct) {nx ny : ℕ} (obs : ObsFn nx ny) (A Q : Mat nx nx) (xi : Vec nx)
    (R : Mat ny ny) (hQ : Q.PosSemidef) (hR : R.PosDef) (x : Gauss nx) (hP : x.cov.PosSemidef) (ts : List ℝ) :
    WellPosed la obs A Q xi R x ts := by
  induction ts generalizing x with
  | nil => trivial
  | cons t ts ih =>
    have hp := (C25_steps (ny := ny) hla x hP).1 A Q xi hQ
    have hS : ∀ H : Mat ny nx, (innovCov (KF.predict la x A Q xi false).cov H R).PosDef := fun H =>
      PosDef.posSemidef_add (psd_mul_mul_transpose hp H) hR
    exact ⟨hS _, ih _ ((C25_steps (ny := ny) hla _ hp).2 _ _ R hR.posSemidef (hS _)).1⟩

/-! ## Gaussian conditioning -/

/-- The state minus the gain times the innovation is independent of the observation, and both are normal. -/
theorem conditioning_split {Ω : Type*} [MeasurableSpace Ω] {μ : Measure Ω} {nx ny : ℕ}
    (X : Ω → Vec nx) (V : Ω → Vec ny) (m : Vec nx) (P : Mat nx nx) (c : Vec ny) (H : Mat ny nx) (R : Mat ny ny)
    (hX : IsNormal μ X m P) (hV : IsNormal μ V 0 R) (hXV : IndepFun X V μ) (hS : (innovCov P H R).PosDef) :
    let Y : Ω → Vec ny := fun ω => c + H *ᵥ (X ω - m) + V ω
    let Z : Ω → Vec nx := fun ω => X ω - gain P H R *ᵥ (Y ω - c)
    IndepFun Z Y μ ∧ IsNormal μ Z m (postCov P H R) ∧ IsNormal μ Y c (innovCov P H R) := by
  intro Y Z
  have hprob := hX.isProb
  have hP := hX.posSemidef
  set K := gain P H R with hK
  have hW := hX.sumElim hV hXV
  have hj := hW.affine (κ := Fin nx ⊕ Fin ny) (Sum.elim (K *ᵥ (H *ᵥ m)) (c - H *ᵥ m)) (fromBlocks (1 - K * H) (-K) H 1)
  have hKS : K * (H * P * Hᵀ + R) = P * Hᵀ := KF.gain_mul_innov hS
  have hSK : (H * P * Hᵀ + R) * Kᵀ = H * P := KF.innov_mul_gain (psd_symm hP) hS
  have e1 : (fun ω => Sum.elim (Z ω) (Y ω)) = fun ω => Sum.elim (K *ᵥ (H *ᵥ m)) (c - H *ᵥ m) +
      fromBlocks (1 - K * H) (-K) H 1 *ᵥ Sum.elim (X ω) (V ω) := by
    funext ω
    rw [fromBlocks_mulVec]
    funext i
    rcases i with i | i
    · have : Z ω = K *ᵥ (H *ᵥ m) + ((1 - K * H) *ᵥ X ω + -K *ᵥ V ω) := by
        simp only [Z, Y, sub_mulVec, one_mulVec, neg_mulVec, mulVec_sub, mulVec_add, ← mulVec_mulVec]
        abel
      exact congrFun this i
    · have : Y ω = c - H *ᵥ m + (H *ᵥ X ω + (1 : Mat ny ny) *ᵥ V ω) := by
        simp only [Y, one_mulVec, mulVec_sub]
        abel
      exact congrFun this i
  have e2 : Sum.elim (K *ᵥ (H *ᵥ m)) (c - H *ᵥ m) + fromBlocks (1 - K * H) (-K) H 1 *ᵥ Sum.elim m 0 =
      Sum.elim m c := by
    rw [fromBlocks_mulVec]
    funext i
    rcases i with i | i
    · have : K *ᵥ (H *ᵥ m) + ((1 - K * H) *ᵥ m + -K *ᵥ 0) = m := by
        simp [sub_mulVec, ← mulVec_mulVec]
      exact congrFun this i
    · have : c - H *ᵥ m + (H *ᵥ m + (1 : Mat ny ny) *ᵥ 0) = c := by simp
      exact congrFun this i
  have e3 : fromBlocks (1 - K * H) (-K) H 1 * fromBlocks P 0 0 R * (fromBlocks (1 - K * H) (-K) H 1)ᵀ =
      fromBlocks (postCov P H R) 0 0 (innovCov P H R) := by
    rw [fromBlocks_transpose, fromBlocks_multiply, fromBlocks_multiply]
    congr 1
    · rw [KF.postCov_joseph (psd_symm hP) hS, ← hK]
      simp [Matrix.mul_assoc]
    · have h0 : (1 - K * H) * P * Hᵀ + -K * R = 0 := by
        rw [Matrix.sub_mul, Matrix.sub_mul, Matrix.one_mul, ← hKS, Matrix.mul_add, Matrix.neg_mul]
        simp only [Matrix.mul_assoc]
        abel
      simpa using h0
    · have h0 : H * P * (1 - K * H)ᵀ + R * (-K)ᵀ = 0 := by
        rw [transpose_sub, transpose_one, transpose_mul, Matrix.mul_sub, Matrix.mul_one, transpose_neg, Matrix.mul_neg]
        have := hSK
        rw [Matrix.add_mul] at this
        calc H * P - H * P * (Hᵀ * Kᵀ) + -(R * Kᵀ) = H * P - (H * P * Hᵀ * Kᵀ + R * Kᵀ) := by
              rw [← Matrix.mul_assoc]; abel
          _ = 0 := by rw [this, sub_self]
      simpa using h0
    · simp [innovCov]
  rw [e2, e3] at hj
  have hj' : IsNormal μ (fun ω => Sum.elim (Z ω) (Y ω)) (Sum.elim m c)
      (fromBlocks (postCov P H R) 0 0 (innovCov P H R)) := by rw [e1]; exact hj
  exact hj'.indep_of_fromBlocks

/-- C27: let the state `X` be `N(m, P)`, the noise `V` be independent of it and `N(0, R)`, and the observation be
`Y = c + H (X - m) + V`. Then the conditional law of the state given `Y = y` is normal with the mean and covariance
returned by `update` for the residual `c - y`; observing `0` gives the residual `c` used by the filter. -/
theorem C27_conditioning {la : LinAlg} (hla : la.Correct) {Ω : Type*} [MeasurableSpace Ω] {μ : Measure Ω} {nx ny : ℕ}
    (X : Ω → Vec nx) (V : Ω → Vec ny) (m : Vec nx) (P : Mat nx nx) (c : Vec ny) (H : Mat ny nx) (R : Mat ny ny)
    (hX : IsNormal μ X m P) (hV : IsNormal μ V 0 R) (hXV : IndepFun X V μ) (hS : (innovCov P H R).PosDef)
    [IsFiniteMeasure μ] :
    let Y : Ω → Vec ny := fun ω => c + H *ᵥ (X ω - m) + V ω
    ∃ κ : Kernel (Vec ny) (EuclideanSpace ℝ (Fin nx)),
      (∀ y, κ y = multivariateGaussian (toLp 2 (KF.update la ⟨m, P⟩ (c - y) H R false).1.mean)
        (KF.update la ⟨m, P⟩ (c - y) H R false).1.cov) ∧
      condDistrib (fun ω => toLp 2 (X ω)) Y μ =ᵐ[μ.map Y] κ := by
  intro Y
  have hprob := hX.isProb
  have hP := hX.posSemidef
  set K := gain P H R with hK
  -- the part of the state that is independent of the observation
  let Z : Ω → Vec nx := fun ω => X ω - K *ᵥ (Y ω - c)
  obtain ⟨hind, hZ, hY⟩ : IndepFun Z Y μ ∧ IsNormal μ Z m (postCov P H R) ∧ IsNormal μ Y c (innovCov P H R) :=
    conditioning_split X V m P c H R hX hV hXV hS
  obtain ⟨κ, hκ, hcd⟩ := exists_condDistrib_of_indep (β := EuclideanSpace ℝ (Fin nx)) (Y := Y)
    (Z := fun ω => toLp 2 (Z ω)) hY.hasGaussianLaw.aemeasurable hZ.hasLaw.aemeasurable
    (hind.symm.comp measurable_id (by fun_prop : Measurable (toLp 2 : Vec nx → _)))
    (fun p => toLp 2 (K *ᵥ (p.1 - c)) + p.2) (by
      have : Continuous fun v : Vec ny => K *ᵥ v := by fun_prop
      have h2 : Continuous fun p : Vec ny × EuclideanSpace ℝ (Fin nx) => toLp 2 (K *ᵥ (p.1 - c)) + p.2 := by fun_prop
      exact h2.measurable)
  refine ⟨κ, fun y => ?_, ?_⟩
  · rw [hκ, hZ.hasLaw.map_eq]
    simp only
    rw [multivariateGaussian_map_add _ _ _ hZ.posSemidef, KF.update_cov_eq hla ⟨m, P⟩ (c - y) H R (psd_symm hP) hS]
    congr 2
    simp only [postMean, ← hK, mulVec_sub]
    abel
  · have : (fun ω => toLp 2 (X ω)) = fun ω => toLp 2 (K *ᵥ (Y ω - c)) + toLp 2 (Z ω) := by
      funext ω
      rw [← WithLp.toLp_add]
      simp [Z]
    rw [this]
    exact hcd

/-! ## Noise-free update, and monotonicity -/

/-- C28: with zero observation noise, the updated state has zero linearised residual and no variance left in the observed
directions, in both modes. -/
theorem C28_interpolates {la : LinAlg} (hla : la.Correct) {nx ny : ℕ} (m : Vec nx) (c : Vec ny) (H : Mat ny nx) :
    (∀ P : Mat nx nx, P.PosSemidef → (H * P * Hᵀ).PosDef →
      let u := (KF.update la ⟨m, P⟩ c H 0 false).1
      c + H *ᵥ (u.mean - m) = 0 ∧ H * u.cov = 0 ∧ u.cov * Hᵀ = 0) ∧
    (∀ L : Mat nx nx, (H * (L * Lᵀ) * Hᵀ).PosDef →
      let u := (KF.update la ⟨m, L⟩ c H 0 true).1
      c + H *ᵥ (u.mean - m) = 0 ∧ H * u.cov = 0) := by
  have main : ∀ P : Mat nx nx, P.PosSemidef → (H * P * Hᵀ).PosDef →
      c + H *ᵥ (postMean m P c H 0 - m) = 0 ∧ H * postCov P H 0 = 0 := by
    intro P hP hS
    have hS' : (innovCov P H (0 : Mat ny ny)).PosDef := by simpa [innovCov] using hS
    have hHK : H * gain P H (0 : Mat ny ny) = 1 := by
      have : H * P * Hᵀ = innovCov P H (0 : Mat ny ny) := by simp [innovCov]
      rw [gain, ← Matrix.mul_assoc, ← Matrix.mul_assoc, this, mul_nonsing_inv _ (pd_isUnit_det hS')]
    constructor
    · simp only [postMean, sub_sub_cancel_left, mulVec_neg, mulVec_mulVec, hHK, one_mulVec, add_neg_cancel]
    · rw [postCov, Matrix.mul_sub, ← Matrix.mul_assoc, ← Matrix.mul_assoc, hHK, Matrix.one_mul,
        KF.innov_mul_gain (psd_symm hP) hS', sub_self]
  constructor
  · intro P hP hS u
    have hS' : (innovCov P H (0 : Mat ny ny)).PosDef := by simpa [innovCov] using hS
    have hu : u = _ := congrArg Prod.fst (KF.update_cov_eq hla ⟨m, P⟩ c H 0 (psd_symm hP) hS')
    rw [hu]
    refine ⟨(main P hP hS).1, (main P hP hS).2, ?_⟩
    have h1 := congrArg transpose (main P hP hS).2
    have hsym : (postCov P H (0 : Mat ny ny))ᵀ = postCov P H 0 := psd_symm (KF.postCov_psd hP PosSemidef.zero hS')
    rwa [transpose_mul, hsym, transpose_zero] at h1
  · intro L hS u
    have hS' : (innovCov (L * Lᵀ) H ((0 : Mat ny ny) * (0 : Mat ny ny)ᵀ)).PosDef := by simpa [innovCov] using hS
    obtain ⟨h1, h2, -⟩ := KF.update_sqrt_eq hla ⟨m, L⟩ c H 0 hS'
    simp only [Matrix.zero_mul] at h1 h2
    have hm := main (L * Lᵀ) (psd_self_mul_transpose L) hS
    refine ⟨by rw [h1]; exact hm.1, ?_⟩
    have h3 : (H * u.cov) * (H * u.cov)ᴴ = 0 := by
      rw [conjTranspose_eq_transpose_of_trivial, transpose_mul]
      calc H * u.cov * (u.covᵀ * Hᵀ) = H * (u.cov * u.covᵀ) * Hᵀ := by simp only [Matrix.mul_assoc]
        _ = 0 := by rw [h2, hm.2, Matrix.zero_mul]
    exact self_mul_conjTranspose_eq_zero.mp h3

/-- C29: an update never increases the covariance, in both modes; the decrease is `K S Kᵀ`. -/
theorem C29_decreases {la : LinAlg} (hla : la.Correct) {nx ny : ℕ} (m : Vec nx) (c : Vec ny) (H : Mat ny nx) :
    (∀ (P : Mat nx nx) (R : Mat ny ny), P.PosSemidef → (innovCov P H R).PosDef →
      (P - (KF.update la ⟨m, P⟩ c H R false).1.cov).PosSemidef) ∧
    (∀ (L : Mat nx nx) (LR : Mat ny ny), (innovCov (L * Lᵀ) H (LR * LRᵀ)).PosDef →
      let u := (KF.update la ⟨m, L⟩ c H LR true).1
      (L * Lᵀ - u.cov * u.covᵀ).PosSemidef) := by
  have main : ∀ (P : Mat nx nx) (R : Mat ny ny), (innovCov P H R).PosDef → (P - postCov P H R).PosSemidef := by
    intro P R hS
    rw [postCov, sub_sub_cancel]
    exact psd_mul_mul_transpose hS.posSemidef _
  constructor
  · intro P R hP hS
    rw [KF.update_cov_eq hla ⟨m, P⟩ c H R (psd_symm hP) hS]
    exact main P R hS
  · intro L LR hS u
    obtain ⟨-, h2, -⟩ := KF.update_sqrt_eq hla ⟨m, L⟩ c H LR hS
    rw [h2]
    exact main _ _ hS

/-! ## The hypotheses can be met -/

/-- A two-dimensional state with one observed direction and a singular prior covariance meets the hypotheses of C23, C27,
C28 and C29. -/
example : (innovCov (!![1, 1; 1, 1] : Mat 2 2) (!![0, 1] : Mat 1 2) (0 : Mat 1 1)).PosDef ∧
    IsFactor (!![1, 0; 1, 0] : Mat 2 2) !![1, 1; 1, 1] ∧ IsFactor (0 : Mat 1 1) 0 := by
  refine ⟨?_, ?_, ?_⟩
  · have : innovCov (!![1, 1; 1, 1] : Mat 2 2) (!![0, 1] : Mat 1 2) (0 : Mat 1 1) = 1 := by
      ext i j; fin_cases i; fin_cases j
      simp [innovCov, Matrix.mul_apply, Fin.sum_univ_two, Matrix.vecMul, dotProduct]
    rw [this]; exact PosDef.one
  · ext i j; fin_cases i <;> fin_cases j <;> simp [Matrix.mul_apply, Fin.sum_univ_two]
  · simp [IsFactor]

/-- A run of two steps with noise meets the hypothesis of C24 and C25 for every observation function. -/
example (obs : ObsFn 2 1) : WellPosed exactLinAlg obs 1 1 0 1 ⟨0, 0⟩ [1, 2] :=
  WellPosed.of_posDef exactLinAlg_correct obs 1 1 0 1 PosSemidef.one PosDef.one _ PosSemidef.zero _

/-- States and noises as in C27 exist for all positive semi-definite `P` and `R`. -/
example {nx ny : ℕ} (m : Vec nx) (P : Mat nx nx) (R : Mat ny ny) (hP : P.PosSemidef) (hR : R.PosSemidef) :
    ∃ (μ : Measure (EuclideanSpace ℝ (Fin nx) × EuclideanSpace ℝ (Fin ny))) (X : _ → Vec nx) (V : _ → Vec ny),
      IsNormal μ X m P ∧ IsNormal μ V 0 R ∧ IndepFun X V μ := by
  refine ⟨(multivariateGaussian (toLp 2 m) P).prod (multivariateGaussian (toLp 2 0) R), fun p => ofLp p.1,
    fun p => ofLp p.2, ⟨hP, ?_⟩, ⟨hR, ?_⟩, ?_⟩
  · exact ⟨measurable_fst.aemeasurable, by
      have : (fun p : EuclideanSpace ℝ (Fin nx) × EuclideanSpace ℝ (Fin ny) => toLp 2 (ofLp p.1)) = Prod.fst := rfl
      rw [this, Measure.map_fst_prod]; simp⟩
  · exact ⟨measurable_snd.aemeasurable, by
      have : (fun p : EuclideanSpace ℝ (Fin nx) × EuclideanSpace ℝ (Fin ny) => toLp 2 (ofLp p.2)) = Prod.snd := rfl
      rw [this, Measure.map_snd_prod]; simp⟩
  · exact indepFun_prod (X := fun x : EuclideanSpace ℝ (Fin nx) => ofLp x)
      (Y := fun y : EuclideanSpace ℝ (Fin ny) => ofLp y) (by fun_prop) (by fun_prop)

end Verif
