import Verif.Lemmas.EkfModes
import Verif.Spec.BlockEkf

/-! EKF0 with one filter step and a prior of independent coordinates. -/

namespace Verif

open Matrix Spec Jnp

variable {d : ℕ}

theorem Spec.HasBlocks.mulVec_flat {n : ℕ} {M : Mat (d * n) (d * n)} {B : Fin d → Mat n n} (h : HasBlocks M B) (x : Vec (d * n)) (i : Fin d)
    (s : Fin n) : (M *ᵥ x) (flat i s) = ∑ t, B i s t * x (flat i t) := by
  rw [mulVec, dotProduct, sum_flat]
  rw [Finset.sum_eq_single i]
  · exact Finset.sum_congr rfl fun t _ => by rw [h i s i t, if_pos rfl]
  · intro j _ hj
    exact Finset.sum_eq_zero fun t _ => by rw [h i s j t, if_neg (Ne.symm hj), zero_mul]
  · simp

/-- The blocks of a block diagonal matrix are positive semidefinite, hence the matrix. -/
theorem Spec.HasBlocks.posSemidef {n : ℕ} {M : Mat (d * n) (d * n)} {B : Fin d → Mat n n} (h : HasBlocks M B) (hB : ∀ i, (B i).PosSemidef) :
    M.PosSemidef := by
  refine PosSemidef.of_dotProduct_mulVec_nonneg ?_ fun x => ?_
  · ext p q
    obtain ⟨⟨i, s⟩, rfl⟩ := finProdFinEquiv.surjective p
    obtain ⟨⟨j, t⟩, rfl⟩ := finProdFinEquiv.surjective q
    change star (M (flat j t) (flat i s)) = M (flat i s) (flat j t)
    rw [h, h, star_trivial]
    by_cases e : i = j
    · subst e
      rw [if_pos rfl, if_pos rfl]
      exact congrFun (congrFun (psd_symm (hB i)) s) t
    · rw [if_neg e, if_neg (Ne.symm e)]
  · rw [star_trivial, dotProduct, sum_flat]
    refine Finset.sum_nonneg fun i _ => ?_
    have := psd_nonneg (hB i) fun s => x (flat i s)
    refine this.trans (le_of_eq ?_)
    rw [dotProduct]
    exact Finset.sum_congr rfl fun s _ => by rw [h.mulVec_flat]; rfl

namespace Ekf

/-- One filter step with a prior of independent coordinates, from a state known exactly: the value and its variance after the update. -/
theorem run_blocks {la : LinAlg} (hla : la.Correct) {A Q : Fin d → Mat 3 3} {p : Prior (d * (1 + 2))} (hA : HasBlocks p.A A)
    (hQ : HasBlocks p.Q Q) (hxi : p.xi = 0) (hpsd : ∀ i, (Q i).PosSemidef) (hpos : ∀ i, 0 < Q i 1 1) (h : ℝ) :
    (postCov p.Q (E (r := 1) 1 : Mat d _) 0).PosSemidef ∧
    (E (r := 1) 0 : Mat d _) * postCov p.Q (E (r := 1) 1 : Mat d _) 0 * (E 0)ᵀ = diagonal (fun i => Q i 0 0 - Q i 0 1 ^ 2 / Q i 1 1) ∧
    ∀ (x : Vec d) (vf : Field d), ∃ m, KF.ekf la (init3 x vf) (obsFn (r := 1) true vf) p.A p.Q p.xi 0 [h] false =
        ⟨m, postCov p.Q (E (r := 1) 1 : Mat d _) 0⟩ ∧ stride 0 m = blockStep A (fun i => Q i 0 1 / Q i 1 1) vf h x := by
  have hP := hQ.posSemidef hpsd
  have hsym : ∀ i s t, Q i s t = Q i t s := fun i s t => congrFun (congrFun (psd_symm (hpsd i)) t) s
  have hE : ∀ (s t : Fin 3) (X : Mat (d * (1 + 2)) (d * (1 + 2))), (E (r := 1) s : Mat d _) * X * (E t)ᵀ = strideMat s t X := fun s t X => by
    ext i j
    simp [mul_apply, E, strideMat]
  have hst : ∀ s t : Fin 3, strideMat s t p.Q = diagonal fun i => Q i s t := fun s t => by
    ext i j
    rw [strideMat, hQ, diagonal_apply]
  have hI : innovCov p.Q (E (r := 1) 1 : Mat d _) 0 = diagonal fun i => Q i 1 1 := by
    rw [innovCov, add_zero, hE, hst]
  have hIpd : (innovCov p.Q (E (r := 1) 1 : Mat d _) 0).PosDef := by
    rw [hI]
    exact PosDef.diagonal hpos
  have hIinv : (innovCov p.Q (E (r := 1) 1 : Mat d _) 0)⁻¹ = diagonal fun i => (Q i 1 1)⁻¹ := by
    rw [hI]
    refine inv_eq_right_inv ?_
    rw [diagonal_mul_diagonal, ← diagonal_one]
    exact congrArg _ (funext fun i => mul_inv_cancel₀ (hpos i).ne')
  have hgain : (E (r := 1) 0 : Mat d _) * gain p.Q (E (r := 1) 1 : Mat d _) 0 = diagonal fun i => Q i 0 1 / Q i 1 1 := by
    rw [gain, ← Matrix.mul_assoc, ← Matrix.mul_assoc, hE, hst, hIinv, diagonal_mul_diagonal]
    rfl
  have hcov : (E (r := 1) 0 : Mat d _) * postCov p.Q (E (r := 1) 1 : Mat d _) 0 * (E 0)ᵀ = diagonal fun i => Q i 0 0 - Q i 0 1 ^ 2 / Q i 1 1 := by
    have h1 : (E (r := 1) 0 : Mat d _) * postCov p.Q (E (r := 1) 1 : Mat d _) 0 * (E 0)ᵀ = (E (r := 1) 0 : Mat d _) * p.Q * (E 0)ᵀ -
        ((E (r := 1) 0 : Mat d _) * gain p.Q (E (r := 1) 1 : Mat d _) 0) * innovCov p.Q (E (r := 1) 1 : Mat d _) 0 *
          ((E (r := 1) 0 : Mat d _) * gain p.Q (E (r := 1) 1 : Mat d _) 0)ᵀ := by
      rw [postCov, Matrix.mul_sub, Matrix.sub_mul, transpose_mul]
      simp only [Matrix.mul_assoc]
    rw [h1, hgain, hI, hE, hst, diagonal_transpose, diagonal_mul_diagonal, diagonal_mul_diagonal, ← diagonal_sub]
    congr 1
    funext i
    have := (hpos i).ne'
    field_simp
  refine ⟨KF.postCov_psd hP PosSemidef.zero hIpd, hcov, fun x vf => ?_⟩
  rw [KF.ekf_cons, KF.ekf_nil]
  simp only [KF.step, KF.predict, Bool.false_eq_true, if_false, jac_ekf0, hxi, add_zero]
  have hc0 : p.A * (init3 x vf).cov * p.Aᵀ + p.Q = p.Q := by simp [init3]
  obtain ⟨m, hmdef⟩ : ∃ m, m = p.A *ᵥ (init3 x vf).mean := ⟨_, rfl⟩
  rw [hc0, ← hmdef]
  have hu := KF.update_cov_eq hla (⟨m, p.Q⟩ : Gauss (d * (1 + 2))) (obsFn (r := 1) true vf m m h) (E (r := 1) 1 : Mat d _) 0 (psd_symm hP) hIpd
  rw [hu]
  refine ⟨_, rfl, ?_⟩
  rw [← E_mulVec, postMean, mulVec_sub]
  simp only [mulVec_mulVec]
  rw [hgain]
  have hm : ∀ s : Fin 3, stride s m = fun i => A i s 0 * x i + A i s 1 * vf x 0 i +
      A i s 2 * (jac (fun z => vf z 0) x *ᵥ vf x 0) i := fun s => by
    funext i
    rw [hmdef, stride, hA.mulVec_flat, Fin.sum_univ_three]
    simp [init3]
  rw [E_mulVec]
  funext i
  rw [Pi.sub_apply, mulVec_diagonal]
  simp only [obsFn, if_true, Pi.sub_apply]
  have h0 := hm 0
  have h1 := hm 1
  rw [h0, h1]
  simp only [blockStep]
  ring

/-- The factor of the draw from a factor of the covariance. -/
theorem draw_factor {la : LinAlg} (hla : la.Correct) {C : Mat (d * (1 + 2)) (d * (1 + 2))} {v : Fin d → ℝ}
    (hv : (E (r := 1) 0 : Mat d _) * C * (E 0)ᵀ = diagonal v) {S : Mat (d * (1 + 2)) (d * (1 + 2))} (hS : S * Sᵀ = C) :
    ∑ i, ∑ j, ((E (r := 1) 0 : Mat d _) * S * la.cholesky (1 : Mat (d * (1 + 2)) (d * (1 + 2))) : Mat d (d * (1 + 2))) i j ^ 2 = ∑ i, v i := by
  obtain ⟨V, hV⟩ : ∃ V : Mat (d * (1 + 2)) (d * (1 + 2)), V = la.cholesky 1 := ⟨_, rfl⟩
  have hVV : V * Vᵀ = 1 := by rw [hV]; exact hla.chol_mul _ PosDef.one
  have h1 : ((E (r := 1) 0 : Mat d _) * S * V) * ((E (r := 1) 0 : Mat d _) * S * V)ᵀ = diagonal v := by
    rw [← hv, ← hS, transpose_mul, transpose_mul]
    calc _ = (E (r := 1) 0 : Mat d _) * S * (V * Vᵀ) * (Sᵀ * (E 0)ᵀ) := by simp only [Matrix.mul_assoc]
      _ = _ := by rw [hVV, Matrix.mul_one]; simp only [Matrix.mul_assoc]
  rw [← hV]
  refine Finset.sum_congr rfl fun i _ => ?_
  have := congrFun (congrFun h1 i) i
  rw [diagonal_apply_eq] at this
  rw [← this, mul_apply]
  exact Finset.sum_congr rfl fun j _ => by rw [transpose_apply, sq]

/-- One filter step with a prior of independent coordinates, from a state known exactly: the update of the value, and the factor of the
draw. -/
theorem ekf0_blocks {la : LinAlg} (hla : la.Correct) (hd : 0 < d) {A Q : Fin d → Mat 3 3} {p : Prior (d * (1 + 2))} (hA : HasBlocks p.A A)
    (hQ : HasBlocks p.Q Q) (hxi : p.xi = 0) (hpsd : ∀ i, (Q i).PosSemidef) (hpos : ∀ i, 0 < Q i 1 1) (h : ℝ) :
    ∃ U : Mat d (d * (1 + 2)), ∑ i, ∑ j, U i j ^ 2 = ∑ i, (Q i 0 0 - Q i 0 1 ^ 2 / Q i 1 1) ∧ ∀ (rng : Rng) (k : Key) (x : Vec d) (vf : Field d),
      Ekf.ekf0 la rng (some k) x vf h 1 false (some ⟨_, p⟩) none =
        .ok (blockStep A (fun i => Q i 0 1 / Q i 1 1) vf h x + U *ᵥ rng.normalVec k (d * (1 + 2))) := by
  obtain ⟨hpc, hcov, hrun⟩ := run_blocks hla hA hQ hxi hpsd hpos h
  refine ⟨_, draw_factor hla hcov (hla.sqrtm_mul_transpose hpc), fun rng k x vf => ?_⟩
  obtain ⟨m, hm1, hm2⟩ := hrun x vf
  rw [ekf0_three la rng (some k) hd x vf h 1 false p none, solver_some, linspace_ts]
  simp only [List.range_one, List.map_cons, List.map_nil, Nat.cast_zero, zero_add, one_mul, Bool.false_eq_true, if_false]
  rw [hm1]
  refine congrArg Except.ok ?_
  simp only [finish, Bool.false_eq_true, if_false, Rng.multivariateNormal, zero_add]
  rw [← E_mulVec, mulVec_add, E_mulVec, hm2]
  simp only [mulVec_mulVec]
  rw [Matrix.mul_assoc]

end Ekf

end Verif
