import Verif.Lemmas.Transition

/-!
# Properties C31-C33 and C37-C39: the prior transitions
-/

namespace Verif

open Matrix Spec Jnp

/-! ## Integrated Ornstein-Uhlenbeck and Brownian motion -/

/-- C31: no offset, and every coordinate block of `A` is the exponential of the companion drift. -/
theorem C31_exp (θ σ : ℝ) (q : ℕ) (dt : ℝ) (dim : ℕ) :
    (IOUP.transition θ σ q dt dim).xi = 0 ∧
    IsBlockDiag (IOUP.transition θ σ q dt dim).A (NormedSpace.exp (dt • ioupDrift θ q)) := by
  refine ⟨rfl, ?_⟩
  have := kron_one_blockDiag (d := dim) (expm (dt • ioupDrift θ q))
  rwa [← ioup_F_eq] at this ⊢

/-- C31: for `theta = 0` the blocks are the Taylor matrices `dt^(j-i) / (j-i)!`. -/
theorem C31_ibm (σ : ℝ) (q : ℕ) (dt : ℝ) (dim : ℕ) :
    IsBlockDiag (IOUP.transition 0 σ q dt dim).A
      (Matrix.of fun i j => if i.1 ≤ j.1 then dt ^ (j.1 - i.1) / ((j.1 - i.1).factorial : ℝ) else 0) := by
  have := (C31_exp 0 σ q dt dim).2
  rwa [show NormedSpace.exp (dt • ioupDrift 0 q) = _ from expm_ibm q dt] at this

/-- C31: transitions compose. -/
theorem C31_semigroup (θ σ : ℝ) (q : ℕ) (s t : ℝ) (dim : ℕ) :
    (IOUP.transition θ σ q (s + t) dim).A = (IOUP.transition θ σ q s dim).A * (IOUP.transition θ σ q t dim).A ∧
    (IOUP.transition θ σ q 0 dim).A = 1 := by
  constructor
  · simp only [IOUP.transition]
    rw [kron_one_mul, expm_add]
  · simp only [IOUP.transition]
    rw [expm_zero_smul, kron_one_one]

/-- C32: the blocks of `Q` are the covariance integral of the integrated Brownian motion, and transitions compose
(Chapman-Kolmogorov). -/
theorem C32_exact (σ : ℝ) (q : ℕ) (dim : ℕ) :
    (∀ dt, IsBlockDiag (IOUP.transition 0 σ q dt dim).Q (transitionCov (ioupDrift 0 q) (lastNoise σ q) dt)) ∧
    (∀ s t, (IOUP.transition 0 σ q (s + t) dim).Q =
      (IOUP.transition 0 σ q t dim).A * (IOUP.transition 0 σ q s dim).Q * (IOUP.transition 0 σ q t dim).Aᵀ +
        (IOUP.transition 0 σ q t dim).Q) := by
  constructor
  · intro dt
    rw [transitionCov_ibm]
    exact kron_one_blockDiag _
  · intro s t
    simp only [IOUP.transition]
    rw [kron_one_transpose, kron_one_mul, kron_one_mul, kron_one_add, ioup_F_eq, ← transitionCov_ibm,
      ← transitionCov_ibm, ← transitionCov_ibm, transitionCov_add]

/-- C33: `Q` is positive definite, so the Cholesky factor used in square-root mode exists. -/
theorem C33_posDef (θ : ℝ) {σ : ℝ} (hσ : σ ≠ 0) (q : ℕ) {dt : ℝ} (hdt : 0 < dt) (dim : ℕ) :
    (IOUP.transition θ σ q dt dim).Q.PosDef ∧
    ∀ la : LinAlg, la.Correct →
      LowerTri (la.cholesky (IOUP.transition θ σ q dt dim).Q) ∧
      la.cholesky (IOUP.transition θ σ q dt dim).Q * (la.cholesky (IOUP.transition θ σ q dt dim).Q)ᵀ =
        (IOUP.transition θ σ q dt dim).Q := by
  have h : (IOUP.transition θ σ q dt dim).Q.PosDef := kron_one_posDef (ibm_Q1_posDef hσ q hdt)
  exact ⟨h, fun la hla => ⟨hla.chol_lower _ h, hla.chol_mul _ h⟩⟩

/-! ## Numerical transition function -/

/-- C37: `A` is the exponential, `Q` is symmetric positive semi-definite, for every number of nodes. -/
theorem C37_valid {n l : ℕ} (F : Mat n n) (u : Vec n) (L : Mat n l) (h : ℝ) (nodes : ℕ) :
    (computeTransition F u L h nodes).A = NormedSpace.exp (h • F) ∧
    (0 ≤ h → (computeTransition F u L h nodes).Q.PosSemidef) := by
  refine ⟨rfl, fun hh => ?_⟩
  by_cases hm : nodes < 2
  · rw [(computeTransition_short F u L h hm).2]; exact PosSemidef.zero
  · obtain ⟨m, rfl⟩ : ∃ m, nodes = m + 2 := ⟨nodes - 2, by omega⟩
    rw [computeTransition_Q_eq]
    refine Matrix.posSemidef_sum _ fun k _ => ?_
    refine PosSemidef.smul ?_ (by positivity)
    exact (psd_mul_mul_transpose (psd_self_mul_transpose L) _).add (psd_mul_mul_transpose (psd_self_mul_transpose L) _)

/-- C37: `xi` depends linearly on `u` only, and `Q` linearly on `L Lᵀ` only (so quadratically on `L`). -/
theorem C37_linear {n l l₁ l₂ : ℕ} (F : Mat n n) (h : ℝ) (nodes : ℕ) (a b : ℝ) :
    (∀ (u v : Vec n) (L : Mat n l) (L₁ : Mat n l₁) (L₂ : Mat n l₂),
      (computeTransition F (a • u + b • v) L h nodes).xi =
        a • (computeTransition F u L₁ h nodes).xi + b • (computeTransition F v L₂ h nodes).xi) ∧
    (∀ (u v w : Vec n) (L : Mat n l) (L₁ : Mat n l₁) (L₂ : Mat n l₂), L * Lᵀ = a • (L₁ * L₁ᵀ) + b • (L₂ * L₂ᵀ) →
      (computeTransition F u L h nodes).Q =
        a • (computeTransition F v L₁ h nodes).Q + b • (computeTransition F w L₂ h nodes).Q) := by
  by_cases hm : nodes < 2
  · simp [computeTransition_short F _ _ h hm]
  · obtain ⟨m, rfl⟩ : ∃ m, nodes = m + 2 := ⟨nodes - 2, by omega⟩
    constructor
    · intro u v L L₁ L₂
      simp only [computeTransition_xi_eq, mulVec_add, mulVec_smul, Finset.smul_sum, ← Finset.sum_add_distrib]
      refine Finset.sum_congr rfl fun k _ => ?_
      module
    · intro u v w L L₁ L₂ hL
      simp only [computeTransition_Q_eq, hL, Matrix.mul_add, Matrix.add_mul, Matrix.mul_smul, Matrix.smul_mul,
        Finset.smul_sum, ← Finset.sum_add_distrib]
      refine Finset.sum_congr rfl fun k _ => ?_
      module

/-- C37: scaling `L` by `c` scales `Q` by `c²`; and `u = 0` gives `xi = 0`. -/
theorem C37_scaling {n l : ℕ} (F : Mat n n) (u : Vec n) (L : Mat n l) (h : ℝ) (nodes : ℕ) (c : ℝ) :
    (computeTransition F u (c • L) h nodes).Q = c ^ 2 • (computeTransition F u L h nodes).Q ∧
    (computeTransition F 0 L h nodes).xi = 0 := by
  constructor
  · have := (C37_linear (l := l) (l₁ := l) (l₂ := l) F h nodes (c ^ 2) 0).2 u u u (c • L) L L (by
      rw [transpose_smul, Matrix.smul_mul, Matrix.mul_smul, smul_smul, zero_smul, add_zero, sq])
    rw [this, zero_smul, add_zero]
  · have := (C37_linear (l := l) (l₁ := l) (l₂ := l) F h nodes 0 0).1 0 0 L L L
    simpa using this

/-- C37: the returned moments converge to the exact ones at the rate of the trapezoidal rule. -/
theorem C37_converges {n l : ℕ} (F : Mat n n) (u : Vec n) (L : Mat n l) (h : ℝ) (i j : Fin n) :
    ∃ K : ℝ, ∀ nodes : ℕ, 2 ≤ nodes →
      |(computeTransition F u L h nodes).Q i j - transitionCov F L h i j| ≤ K / ((nodes : ℝ) - 1) ^ 2 ∧
      |(computeTransition F u L h nodes).xi i - ∫ s in (0 : ℝ)..h, (NormedSpace.exp (s • F) *ᵥ u) i| ≤
        K / ((nodes : ℝ) - 1) ^ 2 := by
  have hE := expm_contDiff F
  have hQ : ContDiff ℝ 2 fun s : ℝ => (expm (s • F) * L * (expm (s • F) * L)ᵀ) i j := by
    have hB : ∀ i k, ContDiff ℝ 2 fun s : ℝ => (expm (s • F) * L) i k := fun i k => by
      simp only [mul_apply]
      exact ContDiff.sum fun a _ => (hE i a).mul contDiff_const
    simp only [mul_apply (N := (_ : Matrix (Fin n) (Fin l) ℝ)ᵀ), transpose_apply]
    exact ContDiff.sum fun k _ => (hB i k).mul (hB j k)
  have hxi : ContDiff ℝ 2 fun s : ℝ => (expm (s • F) *ᵥ u) i := by
    simp only [mulVec, dotProduct]
    exact ContDiff.sum fun a _ => (hE i a).mul contDiff_const
  obtain ⟨K₁, h₁⟩ := trapezoid_error hQ h
  obtain ⟨K₂, h₂⟩ := trapezoid_error hxi h
  refine ⟨max K₁ K₂, fun nodes hn => ?_⟩
  obtain ⟨m, rfl⟩ : ∃ m, nodes = m + 2 := ⟨nodes - 2, by omega⟩
  have hm : ((m + 2 : ℕ) : ℝ) - 1 = (m : ℝ) + 1 := by push_cast; ring
  rw [hm]
  constructor
  · refine (le_of_eq ?_).trans ((h₁ m).trans (by gcongr; exact le_max_left _ _))
    congr 2
    rw [computeTransition_Q_eq, Matrix.sum_apply]
    refine Finset.sum_congr rfl fun k _ => ?_
    simp only [Matrix.smul_apply, Matrix.add_apply, transpose_mul, Matrix.mul_assoc]
  · refine (le_of_eq ?_).trans ((h₂ m).trans (by gcongr; exact le_max_right _ _))
    congr 2
    rw [computeTransition_xi_eq, Finset.sum_apply]
    rfl

/-! ## Product priors -/

/-- C38: the IOUP prior in `dim` coordinates is the factorised prior of `dim` copies of the one-dimensional one; without any
copy `get_independently_factorized_prior` raises. -/
theorem C38_ioup (θ σ : ℝ) (q : ℕ) (dt : ℝ) (dim : ℕ) :
    factorizedPrior (List.replicate dim ⟨_, IOUP.transition θ σ q dt 1⟩) =
      if dim = 0 then .error .valueError else .ok ⟨_, IOUP.transition θ σ q dt dim⟩ := by
  have hk : ∀ d, IOUP.transition θ σ q dt d =
      kronPrior d ⟨0, IOUP.Q1 σ q dt, expm (dt • IOUP.F θ q)⟩ := by
    intro d
    refine Prior.ext ?_ rfl rfl
    funext i
    simp [IOUP.transition, kronPrior, kronVec]
  rw [hk 1, kronPrior_one, factorizedPrior, factorizedPriorAux_replicate, ← hk]
  simp

/-- C38: the same for the Matérn prior. -/
theorem C38_matern (k : ℕ) (magnitude length dt : ℝ) (mc : Bool) (dim : ℕ) :
    factorizedPrior (List.replicate dim ⟨_, Matern.transition k magnitude length dt 1 mc⟩) =
      if dim = 0 then .error .valueError else .ok ⟨_, Matern.transition k magnitude length dt dim mc⟩ := by
  obtain ⟨p, hp⟩ : ∃ p : Prior (k + 1), ∀ d, Matern.transition k magnitude length dt d mc = kronPrior d p := by
    by_cases h : k = 1 ∧ mc = false
    · obtain ⟨rfl, rfl⟩ := h
      refine ⟨⟨0, Matern.Q32 magnitude (Matern.lam 1 length) dt, Matern.A32 (Matern.lam 1 length) dt⟩, fun d => ?_⟩
      refine Prior.ext ?_ rfl rfl
      funext i
      simp [Matern.transition, kronPrior, kronVec]
    · refine ⟨Matern.general k magnitude length dt, fun d => ?_⟩
      unfold Matern.transition
      split
      · simp_all
      · rfl
  rw [hp 1, kronPrior_one, factorizedPrior, factorizedPriorAux_replicate, ← hp]
  simp

/-! ## Padding -/

/-- C39: padding raises AssertionError unless the target size exceeds the size. -/
theorem C39_error {s : ℕ} (tr : Prior s) (q : ℕ) : padPrior tr q = .error .assertionError ↔ ¬ s < q + 1 := by
  unfold padPrior
  split <;> simp_all

/-- C39: the leading block is the input and the other entries are zero, so a prediction from any mean and covariance agrees
with the unpadded one on the first coordinates and is zero on the others. -/
theorem C39_padded {s : ℕ} (tr : Prior s) (q : ℕ) (hs : s < q + 1) :
    ∃ p : Prior (q + 1), padPrior tr q = .ok p ∧
      (∀ i : Fin s, p.xi (Fin.castLE hs.le i) = tr.xi i) ∧
      (∀ i j : Fin s, p.Q (Fin.castLE hs.le i) (Fin.castLE hs.le j) = tr.Q i j ∧
        p.A (Fin.castLE hs.le i) (Fin.castLE hs.le j) = tr.A i j) ∧
      (∀ i : Fin (q + 1), s ≤ i.1 → p.xi i = 0 ∧ ∀ j, p.Q i j = 0 ∧ p.Q j i = 0 ∧ p.A i j = 0 ∧ p.A j i = 0) ∧
      (∀ m : Vec (q + 1), let r := p.A *ᵥ m + p.xi
        (∀ i : Fin s, r (Fin.castLE hs.le i) = (tr.A *ᵥ (fun j => m (Fin.castLE hs.le j)) + tr.xi) i) ∧
        ∀ i : Fin (q + 1), s ≤ i.1 → r i = 0) ∧
      (∀ C : Mat (q + 1) (q + 1), let r := p.A * C * p.Aᵀ + p.Q
        (∀ i j : Fin s, r (Fin.castLE hs.le i) (Fin.castLE hs.le j) =
          (tr.A * C.submatrix (Fin.castLE hs.le) (Fin.castLE hs.le) * tr.Aᵀ + tr.Q) i j) ∧
        ∀ i : Fin (q + 1), s ≤ i.1 → ∀ j, r i j = 0 ∧ r j i = 0) := by
  obtain ⟨p, hp⟩ : ∃ p, padPrior tr q = .ok p := by rw [padPrior, if_pos hs]; exact ⟨_, rfl⟩
  have hp' := hp
  rw [padPrior, if_pos hs] at hp'
  have hpe := Except.ok.inj hp'
  have hxi : ∀ i : Fin s, p.xi (Fin.castLE hs.le i) = tr.xi i := by intro i; rw [← hpe]; simp
  have hQ : ∀ i j : Fin s, p.Q (Fin.castLE hs.le i) (Fin.castLE hs.le j) = tr.Q i j := by intro i j; rw [← hpe]; simp
  have hA : ∀ i j : Fin s, p.A (Fin.castLE hs.le i) (Fin.castLE hs.le j) = tr.A i j := by intro i j; rw [← hpe]; simp
  have h0 : ∀ i : Fin (q + 1), s ≤ i.1 → p.xi i = 0 ∧ ∀ j, p.Q i j = 0 ∧ p.Q j i = 0 ∧ p.A i j = 0 ∧ p.A j i = 0 := by
    intro i hi
    rw [← hpe]
    have : ¬ i.1 < s := by omega
    simp [this]
  have hsum : ∀ f : Fin (q + 1) → ℝ, (∀ i : Fin (q + 1), s ≤ i.1 → f i = 0) →
      ∑ i, f i = ∑ i : Fin s, f (Fin.castLE hs.le i) := by
    intro f hf
    symm
    refine (Finset.sum_map Finset.univ (Fin.castLEEmb hs.le) f).symm.trans ?_
    refine Finset.sum_subset (Finset.subset_univ _) fun i _ hi => hf i ?_
    by_contra hlt
    refine hi ?_
    simp only [Finset.mem_map, Finset.mem_univ, true_and]
    exact ⟨⟨i.1, by omega⟩, Fin.ext rfl⟩
  refine ⟨p, hp, hxi, fun i j => ⟨hQ i j, hA i j⟩, h0, fun m => ⟨fun i => ?_, fun i hi => ?_⟩,
    fun C => ⟨fun i j => ?_, fun i hi j => ?_⟩⟩
  · simp only [Pi.add_apply, mulVec, dotProduct, hxi]
    rw [hsum _ fun j hj => by rw [((h0 j hj).2 _).2.2.2]; ring]
    simp only [hA]
  · simp [mulVec, dotProduct, ((h0 i hi).2 _).2.2.1, (h0 i hi).1]
  · simp only [Matrix.add_apply, mul_apply, transpose_apply, hQ, submatrix_apply]
    rw [hsum _ fun j hj => by rw [((h0 j hj).2 _).2.2.2, mul_zero]]
    congr 1
    refine Finset.sum_congr rfl fun b _ => ?_
    rw [hsum _ fun j hj => by rw [((h0 j hj).2 _).2.2.2]; ring]
    simp only [hA]
  · simp [mul_apply, ((h0 i hi).2 _).2.2.1, ((h0 i hi).2 _).1, ((h0 i hi).2 _).2.1]

/-! ## The hypotheses can be met -/

example : (IOUP.transition 0 1 2 0.5 3).Q.PosDef := (C33_posDef 0 one_ne_zero 2 (by norm_num) 3).1

example : padPrior (IOUP.transition 0 1 1 1 1) 1 = .error .assertionError := (C39_error _ _).2 (by norm_num)

example : ∃ p, padPrior (IOUP.transition 0 1 1 1 1) 3 = .ok p :=
  let ⟨p, hp, _⟩ := C39_padded (IOUP.transition 0 1 1 1 1) 3 (by norm_num); ⟨p, hp⟩

end Verif
