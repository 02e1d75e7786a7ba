import Verif.Spec.Kalman
import Verif.Lemmas.LinAlg
import Verif.Lemmas.Scan

/-! Helper lemmas: `tria`, `predict`, `update` and the filter loop. -/

namespace Verif

open Matrix Spec

namespace KF

variable {la : LinAlg}

theorem tria_lower {m k : ℕ} (h : m ≤ k) (A : Mat m k) : LowerTri (tria la h A) := by
  intro i j hij
  simp [tria, hij]

theorem tria_mul_transpose (hla : la.Correct) {m k : ℕ} (h : m ≤ k) (A : Mat m k) :
    tria la h A * (tria la h A)ᵀ = A * Aᵀ := by
  have hg := hla.qr_gram Aᵀ
  rw [transpose_transpose] at hg
  rw [← hg]
  have ht : ∀ i (j : Fin m), tria la h A i j = la.qrR Aᵀ (Fin.castLE h j) i := by
    intro i j
    simp only [tria]
    split_ifs with hji
    · rfl
    · exact (hla.qr_upper Aᵀ _ _ (by simpa using hji)).symm
  ext a b
  rw [mul_apply, mul_apply]
  simp only [transpose_apply, ht]
  rw [← Finset.sum_subset (Finset.subset_univ (Finset.univ.map (Fin.castLEEmb h)))]
  · rw [Finset.sum_map]; rfl
  · intro x _ hx
    have : m ≤ x.1 := by
      by_contra hlt
      exact hx (Finset.mem_map.mpr ⟨⟨x.1, by omega⟩, Finset.mem_univ _, by ext; rfl⟩)
    rw [hla.qr_upper Aᵀ x a (by omega), zero_mul]

theorem hcat_mul_transpose {a b c : ℕ} (X : Mat a b) (Y : Mat a c) :
    hcat X Y * (hcat X Y)ᵀ = X * Xᵀ + Y * Yᵀ := by
  ext i j
  rw [Matrix.add_apply, mul_apply, mul_apply, mul_apply, Fin.sum_univ_add]
  simp [hcat]

@[simp] theorem block_11 {a b c d : ℕ} (X : Mat a c) (Y : Mat a d) (Z : Mat b c) (W : Mat b d) (i : Fin a) (j : Fin c) :
    block X Y Z W (Fin.castAdd b i) (Fin.castAdd d j) = X i j := by simp [block]
@[simp] theorem block_12 {a b c d : ℕ} (X : Mat a c) (Y : Mat a d) (Z : Mat b c) (W : Mat b d) (i : Fin a) (j : Fin d) :
    block X Y Z W (Fin.castAdd b i) (Fin.natAdd c j) = Y i j := by simp [block]
@[simp] theorem block_21 {a b c d : ℕ} (X : Mat a c) (Y : Mat a d) (Z : Mat b c) (W : Mat b d) (i : Fin b) (j : Fin c) :
    block X Y Z W (Fin.natAdd a i) (Fin.castAdd d j) = Z i j := by simp [block]
@[simp] theorem block_22 {a b c d : ℕ} (X : Mat a c) (Y : Mat a d) (Z : Mat b c) (W : Mat b d) (i : Fin b) (j : Fin d) :
    block X Y Z W (Fin.natAdd a i) (Fin.natAdd c j) = W i j := by simp [block]

theorem predict_sqrt (hla : la.Correct) {n : ℕ} (x : Gauss n) (A L : Mat n n) (xi : Vec n) :
    (predict la x A L xi true).cov * (predict la x A L xi true).covᵀ = A * (x.cov * x.covᵀ) * Aᵀ + L * Lᵀ := by
  simp only [predict, if_true]
  rw [tria_mul_transpose hla, hcat_mul_transpose, transpose_mul]
  simp only [Matrix.mul_assoc]

/-- The three blocks computed by `update` in square-root mode. -/
theorem update_blocks (hla : la.Correct) {nx ny : ℕ} (P : Mat nx nx) (H : Mat ny nx) (R : Mat ny ny) :
    let T := tria la (Nat.add_comm ny nx).le (block (H * P) R P (0 : Mat nx ny))
    let C : Mat nx nx := fun i j => T (Fin.natAdd ny i) (Fin.natAdd ny j)
    let G : Mat nx ny := fun i j => T (Fin.natAdd ny i) (Fin.castAdd nx j)
    let I : Mat ny ny := fun i j => T (Fin.castAdd nx i) (Fin.castAdd nx j)
    I * Iᵀ = innovCov (P * Pᵀ) H (R * Rᵀ) ∧ G * Iᵀ = P * Pᵀ * Hᵀ ∧ G * Gᵀ + C * Cᵀ = P * Pᵀ ∧ LowerTri I ∧ LowerTri C := by
  intro T C G I
  have hT : T * Tᵀ = block (H * P) R P (0 : Mat nx ny) * (block (H * P) R P (0 : Mat nx ny))ᵀ := tria_mul_transpose hla _ _
  have hlow : LowerTri T := tria_lower _ _
  have hz : ∀ (i : Fin ny) (j : Fin nx), T (Fin.castAdd nx i) (Fin.natAdd ny j) = 0 := fun i j =>
    hlow _ _ (by rw [Fin.lt_def]; simp; omega)
  refine ⟨?_, ?_, ?_, ?_, ?_⟩
  · ext i j
    have h := congrFun (congrFun hT (Fin.castAdd nx i)) (Fin.castAdd nx j)
    rw [mul_apply, mul_apply, Fin.sum_univ_add, Fin.sum_univ_add] at h
    simp only [transpose_apply, hz, block_11, block_12, mul_zero, Finset.sum_const_zero, add_zero] at h
    rw [innovCov, Matrix.add_apply, mul_apply, show H * (P * Pᵀ) * Hᵀ = (H * P) * (H * P)ᵀ by
      rw [transpose_mul]; simp only [Matrix.mul_assoc]]
    rw [mul_apply, mul_apply]
    simpa only [transpose_apply] using h
  · ext i j
    have h := congrFun (congrFun hT (Fin.natAdd ny i)) (Fin.castAdd nx j)
    rw [mul_apply, mul_apply, Fin.sum_univ_add, Fin.sum_univ_add] at h
    simp only [transpose_apply, hz, block_11, block_12, block_21, block_22, Matrix.zero_apply, zero_mul, mul_zero,
      Finset.sum_const_zero, add_zero] at h
    rw [mul_apply, show P * Pᵀ * Hᵀ = P * (H * P)ᵀ by rw [transpose_mul]; simp only [Matrix.mul_assoc], mul_apply]
    simpa only [transpose_apply] using h
  · ext i j
    have h := congrFun (congrFun hT (Fin.natAdd ny i)) (Fin.natAdd ny j)
    rw [mul_apply, mul_apply, Fin.sum_univ_add, Fin.sum_univ_add] at h
    simp only [transpose_apply, block_21, block_22, Matrix.zero_apply, mul_zero, Finset.sum_const_zero, add_zero] at h
    rw [Matrix.add_apply, mul_apply, mul_apply, mul_apply]
    simpa only [transpose_apply] using h
  · intro i j hij; exact hlow _ _ (by rw [Fin.lt_def] at *; simpa using hij)
  · intro i j hij; exact hlow _ _ (by rw [Fin.lt_def] at *; simpa using hij)

theorem isUnit_det_of_factor {n : ℕ} {I S : Mat n n} (h : I * Iᵀ = S) (hS : S.PosDef) : IsUnit I.det := by
  have h1 : IsUnit (I * Iᵀ).det := h ▸ pd_isUnit_det hS
  rw [det_mul] at h1
  exact isUnit_of_mul_isUnit_left h1

/-- `update` in covariance mode is the textbook formula. -/
theorem update_cov_eq (hla : la.Correct) {nx ny : ℕ} (x : Gauss nx) (c : Vec ny) (H : Mat ny nx) (R : Mat ny ny)
    (hP : x.covᵀ = x.cov) (hS : (innovCov x.cov H R).PosDef) :
    update la x c H R false =
      (⟨postMean x.mean x.cov c H R, postCov x.cov H R⟩, innovCov x.cov H R) := by
  have hK : (la.solvePos (H * x.cov * Hᵀ + R) H * x.cov)ᵀ = gain x.cov H R := by
    rw [show H * x.cov * Hᵀ + R = innovCov x.cov H R from rfl, hla.solvePos_eq hS, transpose_mul, transpose_mul, hP,
      pd_inv_symm hS, gain, Matrix.mul_assoc]
  have hKS : gain x.cov H R * innovCov x.cov H R = x.cov * Hᵀ := by
    rw [gain, Matrix.mul_assoc, nonsing_inv_mul _ (pd_isUnit_det hS), Matrix.mul_one]
  have hHP : H * x.cov = innovCov x.cov H R * (gain x.cov H R)ᵀ := by
    have := congrArg transpose hKS
    rw [transpose_mul, transpose_mul, transpose_transpose, hP, pd_symm hS] at this
    exact this.symm
  simp only [update, Bool.false_eq_true, if_false, hK, postMean, postCov]
  refine Prod.ext (Gauss.ext rfl ?_) rfl
  show x.cov - gain x.cov H R * H * x.cov = _
  rw [Matrix.mul_assoc, hHP, ← Matrix.mul_assoc]

/-- `update` in square-root mode is the textbook formula for the represented covariances. -/
theorem update_sqrt_eq (hla : la.Correct) {nx ny : ℕ} (x : Gauss nx) (c : Vec ny) (H : Mat ny nx) (L : Mat ny ny)
    (hS : (innovCov (x.cov * x.covᵀ) H (L * Lᵀ)).PosDef) :
    let P := x.cov * x.covᵀ
    let R := L * Lᵀ
    let u := update la x c H L true
    u.1.mean = postMean x.mean P c H R ∧ u.1.cov * u.1.covᵀ = postCov P H R ∧ u.2 * u.2ᵀ = innovCov P H R ∧
      LowerTri u.1.cov ∧ LowerTri u.2 := by
  intro P R u
  obtain ⟨h1, h2, h3, h4, h5⟩ := update_blocks hla x.cov H L
  set T := tria la (Nat.add_comm ny nx).le (block (H * x.cov) L x.cov (0 : Mat nx ny)) with hT
  set C : Mat nx nx := fun i j => T (Fin.natAdd ny i) (Fin.natAdd ny j)
  set G : Mat nx ny := fun i j => T (Fin.natAdd ny i) (Fin.castAdd nx j)
  set I : Mat ny ny := fun i j => T (Fin.castAdd nx i) (Fin.castAdd nx j)
  have hu : u = (⟨x.mean - G *ᵥ la.solveTri I c, C⟩, I) := by
    simp only [u, update, if_true]; rfl
  have hI : IsUnit I.det := isUnit_det_of_factor h1 hS
  have hIt : IsUnit Iᵀ.det := by rwa [det_transpose]
  have hG : G = gain P H R * I := by
    rw [gain, ← h2, ← h1, Matrix.mul_inv_rev, Matrix.mul_assoc, Matrix.mul_assoc, Matrix.mul_assoc,
      nonsing_inv_mul _ hI, Matrix.mul_one, mul_nonsing_inv _ hIt, Matrix.mul_one]
  rw [hu]
  refine ⟨?_, ?_, h1, h5, h4⟩
  · simp only [postMean]
    rw [hla.solveTri_eq h4 hI, mulVec_mulVec, hG, Matrix.mul_assoc, mul_nonsing_inv _ hI, Matrix.mul_one]
  · show C * Cᵀ = postCov P H R
    rw [postCov, ← h1]
    have : gain P H R * (I * Iᵀ) * (gain P H R)ᵀ = G * Gᵀ := by
      rw [hG, transpose_mul]; simp only [Matrix.mul_assoc]
    rw [this, eq_sub_iff_add_eq, add_comm]; exact h3

theorem gain_mul_innov {nx ny : ℕ} {P : Mat nx nx} {H : Mat ny nx} {R : Mat ny ny} (hS : (innovCov P H R).PosDef) :
    gain P H R * innovCov P H R = P * Hᵀ := by
  rw [gain, Matrix.mul_assoc, nonsing_inv_mul _ (pd_isUnit_det hS), Matrix.mul_one]

theorem innov_mul_gain {nx ny : ℕ} {P : Mat nx nx} {H : Mat ny nx} {R : Mat ny ny} (hP : Pᵀ = P)
    (hS : (innovCov P H R).PosDef) : innovCov P H R * (gain P H R)ᵀ = H * P := by
  have := congrArg transpose (gain_mul_innov hS)
  rwa [transpose_mul, transpose_mul, transpose_transpose, hP, pd_symm hS] at this

/-- Joseph form of the posterior covariance. -/
theorem postCov_joseph {nx ny : ℕ} {P : Mat nx nx} {H : Mat ny nx} {R : Mat ny ny} (hP : Pᵀ = P)
    (hS : (innovCov P H R).PosDef) :
    postCov P H R = (1 - gain P H R * H) * P * (1 - gain P H R * H)ᵀ + gain P H R * R * (gain P H R)ᵀ := by
  set K := gain P H R with hK
  have h1 : K * innovCov P H R = P * Hᵀ := gain_mul_innov hS
  have h2 : innovCov P H R * Kᵀ = H * P := innov_mul_gain hP hS
  have e1 : K * (H * P * Hᵀ + R) * Kᵀ = K * innovCov P H R * Kᵀ := rfl
  have e2 : P * (Hᵀ * Kᵀ) = K * innovCov P H R * Kᵀ := by rw [← Matrix.mul_assoc, h1]
  have e3 : K * H * P = K * innovCov P H R * Kᵀ := by rw [Matrix.mul_assoc, Matrix.mul_assoc, h2]
  have e4 : K * H * P * (Hᵀ * Kᵀ) + K * R * Kᵀ = K * innovCov P H R * Kᵀ := by
    rw [← e1, Matrix.mul_add, Matrix.add_mul]
    simp only [Matrix.mul_assoc]
  have e5 : (1 - K * H) * P * (1 - K * H)ᵀ = P - K * H * P - P * (Hᵀ * Kᵀ) + K * H * P * (Hᵀ * Kᵀ) := by
    rw [transpose_sub, transpose_one, transpose_mul, Matrix.sub_mul, Matrix.mul_sub, Matrix.one_mul, Matrix.mul_one,
      Matrix.sub_mul]
    abel
  rw [postCov, e5, add_assoc, e4, e2, e3]
  abel

theorem postCov_psd {nx ny : ℕ} {P : Mat nx nx} {H : Mat ny nx} {R : Mat ny ny} (hP : P.PosSemidef) (hR : R.PosSemidef)
    (hS : (innovCov P H R).PosDef) : (postCov P H R).PosSemidef := by
  rw [postCov_joseph (psd_symm hP) hS]
  exact (psd_mul_mul_transpose hP _).add (psd_mul_mul_transpose hR _)

theorem innovCov_psd {nx ny : ℕ} {P : Mat nx nx} {H : Mat ny nx} {R : Mat ny ny} (hP : P.PosSemidef) (hR : R.PosSemidef) :
    (innovCov P H R).PosSemidef := (psd_mul_mul_transpose hP H).add hR

theorem ekf_nil {nx ny : ℕ} (x : Gauss nx) (obs : ObsFn nx ny) (A Q : Mat nx nx) (xi : Vec nx) (R : Mat ny ny) (b : Bool) :
    ekf la x obs A Q xi R [] b = x := rfl

theorem ekf_cons {nx ny : ℕ} (x : Gauss nx) (obs : ObsFn nx ny) (A Q : Mat nx nx) (xi : Vec nx) (R : Mat ny ny) (t : ℝ)
    (ts : List ℝ) (b : Bool) :
    ekf la x obs A Q xi R (t :: ts) b = ekf la (step la obs A Q xi R b x t).1 obs A Q xi R ts b := rfl

theorem ekf_append {nx ny : ℕ} (x : Gauss nx) (obs : ObsFn nx ny) (A Q : Mat nx nx) (xi : Vec nx) (R : Mat ny ny)
    (ts ts' : List ℝ) (b : Bool) :
    ekf la x obs A Q xi R (ts ++ ts') b = ekf la (ekf la x obs A Q xi R ts b) obs A Q xi R ts' b := by
  simp [ekf, scan_append]

/-- The `return_UC` run carries the same filter state, and its last two components are those of the last step. -/
theorem ekfUC_fst {nx ny : ℕ} (x : Gauss nx) (obs : ObsFn nx ny) (A Q : Mat nx nx) (xi : Vec nx) (R : Mat ny ny)
    (ts : List ℝ) (b : Bool) : (ekfUC la x obs A Q xi R ts b).1 = ekf la x obs A Q xi R ts b := by
  have : ∀ (s : Gauss nx × Mat ny ny × Vec ny), (Jnp.scan (bodyUC la obs A Q xi R b) s ts).1.1 =
      (Jnp.scan (body la obs A Q xi R b) s.1 ts).1 := by
    induction ts with
    | nil => intro s; rfl
    | cons t ts ih => intro s; simp only [scan_cons]; rw [ih]; rfl
  exact this _

theorem ekfUC_snoc {nx ny : ℕ} (x : Gauss nx) (obs : ObsFn nx ny) (A Q : Mat nx nx) (xi : Vec nx) (R : Mat ny ny)
    (ts : List ℝ) (t : ℝ) (b : Bool) :
    ekfUC la x obs A Q xi R (ts ++ [t]) b =
      (let r := step la obs A Q xi R b (ekf la x obs A Q xi R ts b) t
       (r.1, if b then r.2.1 * r.2.1ᵀ else r.2.1, r.2.2)) := by
  rw [← ekfUC_fst]
  simp only [ekfUC, scan_append, scan_cons, scan_nil]
  rfl

end KF

end Verif
