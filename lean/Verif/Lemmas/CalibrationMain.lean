import Verif.Props.CalibratedSize

/-! Helper lemmas: the calibrated covariances from bounds on the residuals of a run. -/

namespace Verif

open Matrix Spec Jnp Scripts Set
open scoped Matrix.Norms.Operator

variable {d m : ℕ}

theorem calib_main_lower {la : LinAlg} (hla : la.Correct) (rng : Rng) (k0 : Key) (ks : List Key) {f : Vec d → ℝ → Vec d}
    (hdiff : ∀ t, Differentiable ℝ fun x => f x t) (S : Mat d m) (x0 : Vec d) {δ T θ c1 c2 C : ℝ} (hδ : 0 < δ) (hT : 0 < T) (hθ : 0 < θ) (hc1 : 0 < c1)
    (hc2 : 0 < c2) (hC : 0 ≤ C) {N : ℕ} (b5 : 0 < N) (hNδ : N * δ = T) {fine : ℕ} (hd : 0 < d) (c : ℕ → Vec m × Vec m × List (Vec m) × List (Vec m))
    (hc : c = fun (k : ℕ) => (Foster.getApproxFine m fine).coeffs rng ((k0.child N k).child 2 0) δ)
    (vf : ℕ → Field d) (hvf : vf = fun (k : ℕ) => additiveField f S (k * δ) δ (c k).1 (c k).2.1)
    (g1 : ∀ n ≤ N, ∀ v : Vec d, c1 * (n * δ ^ 3) * (v ⬝ᵥ v) ≤ v ⬝ᵥ ((alg3Path vf δ x0 n).2 *ᵥ v))
    (g2 : c2 * (∑ k ∈ Finset.range N, (S *ᵥ (c k).2.1) ⬝ᵥ (S *ᵥ (c k).2.1)) / δ ^ 2 - C * (1 + ∑ k ∈ Finset.range N, (‖(c k).1‖ + ‖(c k).2.1‖) ^ 2) ≤
      δ * ∑ k ∈ Finset.range N, alg3Z (vf k) δ (alg3Path vf δ x0 k).1 ⬝ᵥ (alg3PathS vf δ x0 k)⁻¹ *ᵥ alg3Z (vf k) δ (alg3Path vf δ x0 k).1)
    (q1 : θ * T ≤ ∑ k ∈ Finset.range N, (S *ᵥ (c k).2.1) ⬝ᵥ (S *ᵥ (c k).2.1))
    (q2 : ∑ k ∈ Finset.range N, (‖(c k).1‖ + ‖(c k).2.1‖) ^ 2 ≤ 1 / δ) (b3 : C * (δ ^ 2 + δ) < c2 * (θ * T) / 2) :
    ∃ o o', calibrationMain la rng (k0 :: ks) f (fun _ _ => S) x0 δ N 1 fine = .ok (o, o') ∧ o'.mean = o.mean ∧ o'.refs = o.refs ∧ ∀ k < N, ∃ V, o'.var[k]? = some V ∧
      ∀ u : Vec d, c1 * c2 * θ / (20 * d) * ((k + 1) * δ) * (u ⬝ᵥ u) ≤ u ⬝ᵥ (strideMat 0 0 V *ᵥ u) := by
  have hd' : (0 : ℝ) < d := by exact_mod_cast hd
  have hN' : (0 : ℝ) < N := by exact_mod_cast b5
  have hst : toStratonovich f (fun _ _ => S) = (f, fun _ _ => S) := Prod.ext (C10_additive_noise f (fun _ => S)).2 rfl
  have hdr : ∀ t, Differentiable ℝ fun x => (toStratonovich f (fun _ _ => S)).1 x t := fun t => by rw [hst]; exact hdiff t
  obtain ⟨o, h1, -, -, h2, h3⟩ := C117_estimate hla rng k0 ks f (fun _ _ => S) hdr (fun _ => differentiable_const _) x0 hδ N fine
    (show √10 ≠ 0 by positivity)
  simp only [hst] at h2 h3
  have hvf2 : vf = fun (k : ℕ) => intervalField f (fun _ _ => S) (Foster.getApproxFine m fine) δ
    ((Foster.getApproxFine m fine).coeffs rng ((k0.child N k).child 2 0) δ) (k * δ) := by rw [hvf, hc]; rfl
  rw [← hvf2] at h2 h3
  rw [Real.sq_sqrt (by norm_num : (0 : ℝ) ≤ 10)] at h2 h3
  obtain ⟨X, hX⟩ : ∃ X, X = ∑ k ∈ Finset.range N, alg3Z (vf k) δ (alg3Path vf δ x0 k).1 ⬝ᵥ (alg3PathS vf δ x0 k)⁻¹ *ᵥ
    alg3Z (vf k) δ (alg3Path vf δ x0 k).1 := ⟨_, rfl⟩
  rw [← hX] at g2
  have h3 : o.mle = X / (10 * (N * d)) := by
    rw [hX, h3]
    congr 1
    refine Finset.sum_congr rfl fun k _ => ?_
    rw [congrFun hvf2 k]
  have hXl : c2 * (θ * T) / (2 * δ ^ 3) ≤ X := by
    have q3 : c2 * (θ * T) / δ ^ 2 - C * (1 + 1 / δ) ≤ δ * X := by
      refine le_trans ?_ g2
      gcongr
    have q4 : C * (1 + 1 / δ) ≤ c2 * (θ * T) / 2 / δ ^ 2 := by
      rw [le_div_iff₀ (by positivity)]
      refine le_trans (le_of_eq ?_) b3.le
      field_simp
    have q5 : c2 * (θ * T) / (2 * δ ^ 2) ≤ δ * X := by
      have : c2 * (θ * T) / δ ^ 2 - c2 * (θ * T) / 2 / δ ^ 2 = c2 * (θ * T) / (2 * δ ^ 2) := by
        field_simp
        ring
      linarith
    rw [div_le_iff₀ (by positivity)] at q5 ⊢
    linarith
  have hX0 : 0 < X := lt_of_lt_of_le (by positivity) hXl
  obtain ⟨o2, p1, -, p2⟩ := C116_main hla rng k0 ks f (fun _ _ => S) hdr (fun _ => differentiable_const _) x0 hδ N one_pos fine
  obtain rfl : o2 = o := Except.ok.inj (p1.symm.trans h1)
  refine ⟨o2, _, p2 (by rw [h3]; positivity), rfl, rfl, fun k hk => ?_⟩
  obtain ⟨mu, V, -, a2, -, a4⟩ := h2 k hk
  refine ⟨_, by rw [List.getElem?_map, a2]; rfl, fun u => ?_⟩
  have e : strideMat 0 0 ((o2.mle / 10) • V) = (o2.mle / 10) • strideMat (n := 0 + 2) 0 0 V := rfl
  rw [e, a4, h3, smul_smul, smul_mulVec, dotProduct_smul, smul_eq_mul]
  have g := g1 (k + 1) hk u
  have hu : 0 ≤ u ⬝ᵥ u := Finset.sum_nonneg fun i _ => mul_self_nonneg _
  have e2 : X / (10 * (N * d)) / 10 * 10 = X / (10 * (N * d)) := by ring
  rw [e2]
  calc c1 * c2 * θ / (20 * d) * ((k + 1) * δ) * (u ⬝ᵥ u) = c2 * (θ * T) / (2 * δ ^ 3) / (10 * (N * d)) * (c1 * ((k + 1 : ℕ) * δ ^ 3) * (u ⬝ᵥ u)) := by
        rw [← hNδ]
        push_cast
        field_simp
        ring
    _ ≤ X / (10 * (N * d)) * (c1 * ((k + 1 : ℕ) * δ ^ 3) * (u ⬝ᵥ u)) := by gcongr
    _ ≤ _ := by gcongr

end Verif
