import Verif.Lemmas.Kalman
import Verif.Lemmas.Prior
import Verif.Lemmas.Scan
import Verif.Model.EkfSolvers
import Mathlib.Analysis.Calculus.FDeriv.Pi
import Mathlib.Analysis.Calculus.FDeriv.Add

/-! Helper lemmas: the filtering ODE solvers. -/

namespace Verif

open Matrix Spec Jnp

namespace Ekf

variable {dim r : ℕ}

/-- The selection matrix of the states with offset `s`. -/
def E (s : Fin (r + 2)) : Mat dim (dim * (r + 2)) := fun i q => if q = flat i s then 1 else 0

theorem E_flat (s t : Fin (r + 2)) (i j : Fin dim) : E s i (flat j t) = if j = i ∧ t = s then (1 : ℝ) else 0 := by
  simp only [E, flat_inj]

theorem E_mulVec (s : Fin (r + 2)) (x : Vec (dim * (r + 2))) : E s *ᵥ x = stride s x := by
  funext i
  simp [mulVec, dotProduct, E, stride]

/-! ## Jacobians of the observation function -/

theorem pd_proj_sub {n : ℕ} (p q : Fin n) (c : ℝ) (x : Vec n) :
    pd q (fun z : Vec n => z p - c) x = if q = p then 1 else 0 := by
  rw [pd, fderiv_sub_const]
  have : fderiv ℝ (fun z : Vec n => z p) x = ContinuousLinearMap.proj p :=
    (ContinuousLinearMap.proj (R := ℝ) (φ := fun _ : Fin n => ℝ) p).fderiv
  rw [this]
  simp [Pi.single_apply, eq_comm]

theorem jac_ekf0 (vf : Field dim) (m m' : Vec (dim * (r + 2))) (t : ℝ) :
    jac (fun z => obsFn (r := r) true vf z m' t) m = E 1 := by
  ext i q
  simp only [jac, obsFn, if_true, Pi.sub_apply, stride]
  rw [pd_proj_sub]
  rfl

theorem jac_ekf1 (vf : Field dim) (m m' : Vec (dim * (r + 2))) (t : ℝ)
    (hd : DifferentiableAt ℝ (fun x => vf x t) (stride 0 m)) :
    jac (fun z => obsFn (r := r) false vf z m' t) m = E 1 - jac (fun x => vf x t) (stride 0 m) * E 0 := by
  ext i q
  simp only [jac, obsFn, Bool.false_eq_true, if_false, Pi.sub_apply]
  let sL : Vec (dim * (r + 2)) →L[ℝ] Vec dim :=
    ContinuousLinearMap.pi fun i => ContinuousLinearMap.proj (flat i 0)
  have hsL : ∀ z, sL z = stride 0 z := fun z => rfl
  have hdi : DifferentiableAt ℝ (fun x => vf x t i) (stride 0 m) := (differentiableAt_pi.1 hd) i
  have h1 : HasFDerivAt (fun z : Vec (dim * (r + 2)) => stride (1 : Fin (r + 2)) z i)
      (ContinuousLinearMap.proj (R := ℝ) (φ := fun _ : Fin (dim * (r + 2)) => ℝ) (flat i 1)) m :=
    (ContinuousLinearMap.proj (R := ℝ) (φ := fun _ : Fin (dim * (r + 2)) => ℝ) (flat i 1)).hasFDerivAt
  have h2 : HasFDerivAt (fun z : Vec (dim * (r + 2)) => vf (stride (0 : Fin (r + 2)) z) t i)
      ((fderiv ℝ (fun x => vf x t i) (stride 0 m)).comp sL) m :=
    HasFDerivAt.comp (g := fun x => vf x t i) m hdi.hasFDerivAt sL.hasFDerivAt
  rw [pd, (h1.fun_sub h2).fderiv, Matrix.sub_apply, mul_apply]
  simp only [ContinuousLinearMap.sub_apply, ContinuousLinearMap.proj_apply, ContinuousLinearMap.comp_apply, pd]
  congr 1
  · simp [E, Pi.single_apply, eq_comm]
  · have h3 : sL (Pi.single q 1) = ∑ k, (E 0 k q : ℝ) • (Pi.single k 1 : Vec dim) := by
      rw [hsL]
      funext k
      rw [Finset.sum_apply, Finset.sum_eq_single k]
      · simp [stride, E, Pi.single_apply, eq_comm]
      · intro b _ hb; simp [Pi.single_apply, Ne.symm hb]
      · simp
    rw [h3, map_sum]
    refine Finset.sum_congr rfl fun k _ => ?_
    rw [map_smul, smul_eq_mul, mul_comm]
    rfl

/-- The vector field may be linearised: nothing is needed for EKF0. -/
def FieldOk (EKF0 : Bool) (vf : Field dim) : Prop := EKF0 = false → ∀ t, Differentiable ℝ fun x => vf x t

/-- The observation matrix has full row rank. -/
theorem obs_rank (EKF0 : Bool) (vf : Field dim) (hf : FieldOk EKF0 vf) (m : Vec (dim * (r + 2))) (t : ℝ) (x : Vec dim)
    (hx : (jac (fun z => obsFn (r := r) EKF0 vf z m t) m)ᵀ *ᵥ x = 0) : x = 0 := by
  funext j
  have h := congrFun hx (flat j 1)
  cases EKF0
  · rw [jac_ekf1 vf m m t (hf rfl t _)] at h
    simpa [mulVec, dotProduct, E_flat, mul_apply, sub_mul, Finset.sum_sub_distrib] using h
  · rw [jac_ekf0] at h
    simpa [mulVec, dotProduct, E_flat] using h

theorem innov_posDef {nx ny : ℕ} {P : Mat nx nx} {H : Mat ny nx} {R : Mat ny ny} (hP : P.PosDef) (hR : R.PosSemidef)
    (hH : ∀ x : Vec ny, Hᵀ *ᵥ x = 0 → x = 0) : (innovCov P H R).PosDef := by
  have hPH := psd_mul_mul_transpose hP.posSemidef H
  refine PosDef.add_posSemidef (pd_of (psd_symm hPH) fun x hx => ?_) hR
  have h1 := pd_pos hP (x := Hᵀ *ᵥ x) (fun h => hx (hH x h))
  have : x ⬝ᵥ (H * P * Hᵀ) *ᵥ x = (Hᵀ *ᵥ x) ⬝ᵥ P *ᵥ (Hᵀ *ᵥ x) := by
    rw [← mulVec_mulVec, ← mulVec_mulVec, dotProduct_mulVec, mulVec_transpose]
  rwa [this]

/-! ## Time grid -/

theorem linspace_ts (h : ℝ) (N : ℕ) : linspace h (N * h) N = (List.range N).map fun (k : ℕ) => ((k : ℝ) + 1) * h := by
  unfold linspace
  refine List.map_congr_left fun k hk => ?_
  have hk' := List.mem_range.1 hk
  split_ifs with h1
  · have : k = 0 := by omega
    simp [this]
  · have h2 : (N : ℝ) - 1 ≠ 0 := by
      have : (2 : ℝ) ≤ N := by exact_mod_cast (by omega : 2 ≤ N)
      linarith
    field_simp
    ring

/-! ## Block diagonal states -/

theorem interlace_stride {k : ℕ} (x : Vec (dim * k)) : interlace (fun s => stride s x) = x := by
  funext p
  rw [← flat_div_mod p, interlace_flat]
  rfl

theorem kron_one_mulVec {k : ℕ} (B : Mat k k) (a : Fin k → Vec dim) :
    kron (1 : Mat dim dim) B *ᵥ interlace a = interlace fun s => ∑ t, B s t • a t := by
  funext p
  rw [← flat_div_mod p, interlace_flat]
  simp only [mulVec, dotProduct]
  rw [sum_flat, Finset.sum_eq_single p.divNat]
  · simp
  · intro b _ hb; simp [Matrix.one_apply, Ne.symm hb]
  · simp

theorem kron_mul_E (B : Mat (r + 2) (r + 2)) :
    kron (1 : Mat dim dim) B * (E 1)ᵀ = Matrix.of fun p j => if p.divNat = j then B p.modNat 1 else 0 := by
  ext p j
  rw [← flat_div_mod p, mul_apply, sum_flat, Finset.sum_eq_single j, Finset.sum_eq_single 1]
  · simp [E_flat, Matrix.one_apply]
  · intro b _ hb; simp [E_flat, hb]
  · simp
  · intro b _ hb; simp [E_flat, hb]
  · simp

section update

variable (B : Mat (r + 2) (r + 2)) (X : Mat (dim * (r + 2)) (dim * (r + 2))) (hX : X * (E (dim := dim) (r := r) 1)ᵀ = 0) (ρ : ℝ)
include hX

theorem innov_ekf0 : innovCov (kron (1 : Mat dim dim) B + X) (E 1) (ρ • (1 : Mat dim dim)) = (B 1 1 + ρ) • 1 := by
  rw [innovCov, Matrix.mul_assoc, Matrix.add_mul, hX, add_zero, kron_mul_E]
  ext i j
  rw [Matrix.add_apply, mul_apply, sum_flat, Finset.sum_eq_single i, Finset.sum_eq_single 1]
  · by_cases h : i = j <;> simp [E_flat, Matrix.one_apply, h]
  · intro b _ hb; simp [E_flat, hb]
  · simp
  · intro b _ hb; simp [E_flat, hb]
  · simp

theorem innov_ekf0_posDef (hB1 : 0 < B 1 1 + ρ) :
    (innovCov (kron (1 : Mat dim dim) B + X) (E 1) (ρ • (1 : Mat dim dim))).PosDef := by
  rw [innov_ekf0 B X hX]; exact PosDef.one.smul hB1

theorem gain_ekf0 (hB1 : 0 < B 1 1 + ρ) :
    gain (kron (1 : Mat dim dim) B + X) (E 1) (ρ • (1 : Mat dim dim)) =
      Matrix.of fun p j => if p.divNat = j then B p.modNat 1 / (B 1 1 + ρ) else 0 := by
  have h1 := KF.gain_mul_innov (innov_ekf0_posDef (dim := dim) B X hX ρ hB1)
  rw [innov_ekf0 B X hX, Matrix.add_mul, hX, add_zero, kron_mul_E, Matrix.mul_smul, Matrix.mul_one] at h1
  ext p j
  have h2 := congrFun (congrFun h1 p) j
  simp only [Matrix.smul_apply, smul_eq_mul, of_apply] at h2 ⊢
  have hne := hB1.ne'
  split_ifs at h2 ⊢ with hp
  · field_simp; linarith
  · rcases mul_eq_zero.1 h2 with h3 | h3
    · exact absurd h3 hne
    · exact h3

theorem postMean_ekf0 (hB1 : 0 < B 1 1 + ρ) (m : Fin (r + 2) → Vec dim) (c : Vec dim) :
    postMean (interlace m) (kron (1 : Mat dim dim) B + X) c (E 1) (ρ • (1 : Mat dim dim)) =
      interlace fun s => m s - (B s 1 / (B 1 1 + ρ)) • c := by
  rw [postMean, gain_ekf0 B X hX ρ hB1]
  funext p
  rw [← flat_div_mod p]
  simp [mulVec, dotProduct]

theorem postCov_ekf0 (hB : Bᵀ = B) (hB1 : 0 < B 1 1 + ρ) :
    postCov (kron (1 : Mat dim dim) B + X) (E 1) (ρ • (1 : Mat dim dim)) =
      kron (1 : Mat dim dim) (Matrix.of fun s t => B s t - B s 1 * B 1 t / (B 1 1 + ρ)) + X := by
  rw [postCov, KF.gain_mul_innov (innov_ekf0_posDef B X hX ρ hB1), Matrix.add_mul, hX, add_zero, kron_mul_E,
    gain_ekf0 B X hX ρ hB1, add_sub_right_comm]
  congr 1
  ext p q
  rw [← flat_div_mod p, ← flat_div_mod q]
  have hBs : ∀ s t, B s t = B t s := fun s t => congrFun (congrFun hB t) s
  simp only [Matrix.sub_apply, kron_flat, mul_apply, of_apply, transpose_apply, divNat_flat, modNat_flat,
    Matrix.one_apply]
  rw [Finset.sum_eq_single p.divNat]
  · rw [hBs 1 q.modNat]
    by_cases h : p.divNat = q.divNat
    · simp only [h, if_true, one_mul]; ring
    · simp [h, Ne.symm h]
  · intro b _ hb; simp [Ne.symm hb]
  · simp

/-- Update with EKF0 linearisation and isotropic noise, of a state whose covariance is the same for all coordinates up to a
part `X` not seen by the observation. -/
theorem update_ekf0 {la : LinAlg} (hla : la.Correct) (hXs : Xᵀ = X) (hB : Bᵀ = B) (hB1 : 0 < B 1 1 + ρ)
    (m : Fin (r + 2) → Vec dim) (c : Vec dim) :
    KF.update la ⟨interlace m, kron (1 : Mat dim dim) B + X⟩ c (E 1) (ρ • (1 : Mat dim dim)) false =
      (⟨interlace fun s => m s - (B s 1 / (B 1 1 + ρ)) • c,
        kron (1 : Mat dim dim) (Matrix.of fun s t => B s t - B s 1 * B 1 t / (B 1 1 + ρ)) + X⟩, (B 1 1 + ρ) • 1) := by
  have hsymm : (kron (1 : Mat dim dim) B + X)ᵀ = kron (1 : Mat dim dim) B + X := by
    rw [transpose_add, kron_one_transpose, hB, hXs]
  refine (KF.update_cov_eq hla ⟨interlace m, kron (1 : Mat dim dim) B + X⟩ c (E 1) (ρ • (1 : Mat dim dim)) hsymm
    (innov_ekf0_posDef B X hX ρ hB1)).trans ?_
  simp only
  rw [postMean_ekf0 B X hX ρ hB1, postCov_ekf0 B X hX ρ hB hB1, innov_ekf0 B X hX]

end update

/-- One step of EKF0 with a prior acting alike on all coordinates. -/
theorem step_ekf0 {la : LinAlg} (hla : la.Correct) (vf : Field dim) (a Q B : Mat (r + 2) (r + 2))
    (X : Mat (dim * (r + 2)) (dim * (r + 2))) (hX : X * (E (dim := dim) (r := r) 1)ᵀ = 0) (hXs : Xᵀ = X)
    (hXA : kron (1 : Mat dim dim) a * X * (kron (1 : Mat dim dim) a)ᵀ = X) (ρ : ℝ) (hQ : Qᵀ = Q) (hB : Bᵀ = B)
    (hB1 : 0 < (a * B * aᵀ + Q) 1 1 + ρ) (m : Fin (r + 2) → Vec dim) (t : ℝ) :
    let m' : Fin (r + 2) → Vec dim := fun s => ∑ u, a s u • m u
    let B' := a * B * aᵀ + Q
    let c := m' 1 - vf (m' 0) t
    KF.step la (obsFn true vf) (kron (1 : Mat dim dim) a) (kron (1 : Mat dim dim) Q) 0 (ρ • (1 : Mat dim dim)) false
        ⟨interlace m, kron (1 : Mat dim dim) B + X⟩ t =
      (⟨interlace fun s => m' s - (B' s 1 / (B' 1 1 + ρ)) • c,
        kron (1 : Mat dim dim) (Matrix.of fun s t => B' s t - B' s 1 * B' 1 t / (B' 1 1 + ρ)) + X⟩,
        (B' 1 1 + ρ) • 1, c) := by
  intro m' B' c
  have hB' : B'ᵀ = B' := by
    simp only [B', transpose_add, transpose_mul, transpose_transpose, hB, hQ, Matrix.mul_assoc]
  have hp : KF.predict la ⟨interlace m, kron (1 : Mat dim dim) B + X⟩ (kron (1 : Mat dim dim) a) (kron (1 : Mat dim dim) Q) 0
      false = ⟨interlace m', kron (1 : Mat dim dim) B' + X⟩ := by
    refine Gauss.ext ?_ ?_
    · simp only [KF.predict, Bool.false_eq_true, if_false, add_zero, kron_one_mulVec, m']
    · simp only [KF.predict, Bool.false_eq_true, if_false, B']
      rw [Matrix.mul_add, Matrix.add_mul, hXA, kron_one_transpose, kron_one_mul, kron_one_mul, add_right_comm, kron_one_add]
  simp only [KF.step, hp, jac_ekf0]
  have hc : obsFn (r := r) true vf (interlace m') (interlace m') t = c := by
    simp only [obsFn, if_true, stride_interlace, c]
  rw [hc, update_ekf0 B' X hX ρ hla hXs hB' hB1]

theorem stride_interlace_apply {k : ℕ} (a : Fin k → Vec dim) (s : Fin k) : stride s (interlace a) = a s := by simp

end Ekf

end Verif
