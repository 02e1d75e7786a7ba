import Verif.Lemmas.BlockEkf
import Verif.Props.EkfRun

/-! EKF0 with one filter step and a prior of independent coordinates, on square roots of covariances. -/

namespace Verif.Ekf

open Matrix Spec Jnp

variable {d : ℕ}

/-- The step of `ekf0_blocks` with covariances replaced by their factors. -/
theorem ekf0_blocks_sqrt {la : LinAlg} (hla : la.Correct) (hd : 0 < d) {A Q : Fin d → Mat 3 3} {p : Prior (d * (1 + 2))} (hA : HasBlocks p.A A)
    (hQ : HasBlocks p.Q Q) (hxi : p.xi = 0) (hpsd : ∀ i, (Q i).PosSemidef) (hpos : ∀ i, 0 < Q i 1 1) (hpd : p.Q.PosDef) (h : ℝ) :
    ∃ U : Mat d (d * (1 + 2)), ∑ i, ∑ j, U i j ^ 2 = ∑ i, (Q i 0 0 - Q i 0 1 ^ 2 / Q i 1 1) ∧ ∀ (rng : Rng) (k : Key) (x : Vec d) (vf : Field d),
      Ekf.ekf0 la rng (some k) x vf h 1 true (some ⟨_, p⟩) none =
        .ok (blockStep A (fun i => Q i 0 1 / Q i 1 1) vf h x + U *ᵥ rng.normalVec k (d * (1 + 2))) := by
  obtain ⟨hpc, hcov, hrun⟩ := run_blocks hla hA hQ hxi hpsd hpos h
  have hrep : ∀ x vf, Represents (KF.ekf la (init3 x vf) (obsFn (r := 1) true vf) p.A (la.cholesky p.Q) p.xi 0 [h] true)
      (KF.ekf la (init3 x vf) (obsFn (r := 1) true vf) p.A p.Q p.xi 0 [h] false) := fun x vf =>
    run_represents hla true vf (fun h => by cases h) p hpd 0 0 isFactor_zero _ _ (represents_zero _) [h]
  obtain ⟨S, hS⟩ : ∃ S, S = (KF.ekf la (init3 (0 : Vec d) 0) (obsFn (r := 1) true 0) p.A (la.cholesky p.Q) p.xi 0 [h] true).cov := ⟨_, rfl⟩
  have hSS : S * Sᵀ = postCov p.Q (E (r := 1) 1 : Mat d _) 0 := by
    obtain ⟨m, hm, -⟩ := hrun 0 0
    have := (hrep 0 0).2
    rw [hm] at this
    rw [hS]
    exact this
  refine ⟨_, draw_factor hla hcov hSS, fun rng k x vf => ?_⟩
  obtain ⟨m, hm1, hm2⟩ := hrun x vf
  have hr := hrep x vf
  rw [hm1] at hr
  have hc : (KF.ekf la (init3 x vf) (obsFn (r := 1) true vf) p.A (la.cholesky p.Q) p.xi 0 [h] true).cov = S := by
    rw [hS]
    exact ekf0_cov_congr la _ _ _ _ _ _ _ _ _ _ rfl
  rw [ekf0_three la rng (some k) hd x vf h 1 true p none, solver_some, linspace_ts]
  simp only [List.range_one, List.map_cons, List.map_nil, Nat.cast_zero, zero_add, one_mul, if_true]
  refine congrArg Except.ok ?_
  simp only [finish, if_true, Rng.multivariateNormal, zero_add]
  rw [hc, hr.1, ← E_mulVec, mulVec_add, E_mulVec, hm2]
  simp only [mulVec_mulVec]
  rw [Matrix.mul_assoc]

end Verif.Ekf
