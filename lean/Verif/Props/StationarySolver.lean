import Verif.Props.HeunLinear
import Verif.Props.RosLinear

/-! C149: the law that `sde_solver` with single filter steps reaches on the Ornstein-Uhlenbeck problem `dx = -θ x dt + s dW`. -/

namespace Verif

open Matrix Spec Jnp Set MeasureTheory ProbabilityTheory Filter Scripts
open scoped NNReal Topology

variable {d : ℕ}

private theorem scalar_mean {e : ℝ} (he : |e| < 1) (x0 : Vec d) (j : Fin d) :
    Tendsto (fun n : ℕ => (((e • (1 : Mat d d)) ^ n *ᵥ x0 : Vec d)) j) atTop (𝓝 0) := by
  have h := (tendsto_pow_atTop_nhds_zero_of_abs_lt_one he).mul_const (x0 j)
  rw [zero_mul] at h
  refine h.congr fun n => ?_
  rw [smul_pow, one_pow, Matrix.smul_mulVec, Matrix.one_mulVec]
  rfl

private theorem scalar_cov (e v : ℝ) (n : ℕ) :
    ∑ i ∈ Finset.range n, (e • (1 : Mat d d)) ^ i * (v • (1 : Mat d d)) * ((e • (1 : Mat d d)) ^ i)ᵀ = (∑ i ∈ Finset.range n, (e ^ 2) ^ i * v) • (1 : Mat d d) := by
  rw [Finset.sum_smul]
  refine Finset.sum_congr rfl fun i _ => ?_
  rw [smul_pow, one_pow, Matrix.transpose_smul, Matrix.transpose_one, smul_mul_smul_comm, smul_mul_smul_comm, Matrix.mul_one, Matrix.mul_one]
  congr 1
  ring

private theorem scalar_cov_lim {e v L : ℝ} (he : |e| < 1) (hL : L * (1 - e ^ 2) = v) :
    Tendsto (fun n : ℕ => ∑ i ∈ Finset.range n, (e ^ 2) ^ i * v) atTop (𝓝 L) := by
  have h2 : e ^ 2 < 1 := (sq_lt_one_iff_abs_lt_one e).2 he
  have h := ((hasSum_geometric_of_lt_one (sq_nonneg e) h2).mul_right v).tendsto_sum_nat
  have hne : 1 - e ^ 2 ≠ 0 := by linarith
  have e1 : (1 - e ^ 2)⁻¹ * v = L := by rw [← hL]; field_simp
  rwa [e1] at h

/-- C149, EKF1: for every `θ > 0` and every interval `δ`, with `a = θ δ`, the means tend to zero and the covariance to
`s²/(2θ) (1 - a³/((2 + a)(12 + 6a + a²)))`. It never exceeds the stationary one, and the relative error is at most `a³/24`. -/
theorem C149_ekf1 {la : LinAlg} (hla : la.Correct) {Ω : Type*} [MeasurableSpace Ω] {P : Measure Ω} {R : Ω → Rng} (hR : IdealNormals P R) (rng : Rng) (key : Key)
    (hd : 0 < d) (x0 : Vec d) {θ s δ σ : ℝ} (hθ : 0 < θ) (hδ : 0 < δ) (hσ : σ ≠ 0) (sqrt : Bool) (ode : OdeInt (Vec d) d)
    (hode : ∀ κ x vf, Ekf.ekf1 la rng none x vf δ 1 sqrt (some ⟨_, IOUP.transition 0 σ 1 δ d⟩) none = .ok (ode κ x vf δ)) {a : ℝ} (ha : a = θ * δ) :
    ∃ (y : ℕ → Ω → Vec d) (r : ℝ),
      (∀ N ω, (sdeSolver (R ω) key (fun x _ => -θ • x) (fun _ _ => s • (1 : Mat d d)) x0 (Foster.getApprox d) δ N ode).2.1[N]? = some (y N ω)) ∧
      (∀ j, Tendsto (fun N => ∫ ω, y N ω j ∂P) atTop (𝓝 0)) ∧
      (∀ i j, Tendsto (fun N => cov[fun ω => y N ω i, fun ω => y N ω j; P]) atTop (𝓝 ((s ^ 2 / (2 * θ) * r) * (1 : Mat d d) i j))) ∧
      r = 1 - a ^ 3 / ((2 + a) * (12 + 6 * a + a ^ 2)) ∧ 0 < r ∧ r < 1 ∧ 1 - a ^ 3 / 24 ≤ r := by
  have ha0 : 0 < a := by rw [ha]; positivity
  obtain ⟨w, hw⟩ : ∃ w, w = 1 + a + a ^ 2 / 3 := ⟨_, rfl⟩
  have hw0 : 0 < w := by rw [hw]; positivity
  obtain ⟨e, he⟩ : ∃ e, e = (1 - a ^ 2 / 6) / w := ⟨_, rfl⟩
  have hF : ∀ x : Vec d, ((-θ) • (1 : Mat d d)) *ᵥ x = -θ • x := fun x => by rw [Matrix.smul_mulVec, Matrix.one_mulVec]
  have hW : w • (1 : Mat d d) = 1 - (δ / 2) • (((-θ) • (1 : Mat d d)) + ((-θ) • (1 : Mat d d))ᵀ) + (δ ^ 2 / 3) • (((-θ) • (1 : Mat d d))ᵀ * ((-θ) • (1 : Mat d d))) := by
    rw [Matrix.transpose_smul, Matrix.transpose_one, smul_mul_smul_comm, Matrix.mul_one, ← add_smul, smul_smul, smul_smul]
    nth_rewrite 2 [← one_smul ℝ (1 : Mat d d)]
    rw [← sub_smul, ← add_smul, hw, ha]
    congr 1
    ring
  have hinv : (w • (1 : Mat d d))⁻¹ = w⁻¹ • 1 := by
    refine Matrix.inv_eq_left_inv ?_
    rw [smul_mul_smul_comm, Matrix.mul_one, inv_mul_cancel₀ hw0.ne', one_smul]
  have hE : e • (1 : Mat d d) = (w • (1 : Mat d d))⁻¹ * (1 + (δ / 2) • (((-θ) • (1 : Mat d d)) - ((-θ) • (1 : Mat d d))ᵀ) -
      (δ ^ 2 / 6) • (((-θ) • (1 : Mat d d))ᵀ * ((-θ) • (1 : Mat d d)))) := by
    rw [hinv, Matrix.transpose_smul, Matrix.transpose_one, smul_mul_smul_comm, Matrix.mul_one, sub_self, smul_zero, add_zero, smul_smul]
    nth_rewrite 3 [← one_smul ℝ (1 : Mat d d)]
    rw [← sub_smul, smul_mul_smul_comm, Matrix.mul_one, he, ha]
    congr 1
    field_simp
  have hQ : (δ * s ^ 2 / w) • (1 : Mat d d) = δ • ((w • (1 : Mat d d))⁻¹ * ((s ^ 2 • (1 : Mat d d)) -
      (δ / 2) • (((-θ) • (1 : Mat d d))ᵀ * (s ^ 2 • (1 : Mat d d)) + (s ^ 2 • (1 : Mat d d)) * ((-θ) • (1 : Mat d d))) +
      (δ ^ 2 / 3) • (((-θ) • (1 : Mat d d))ᵀ * (s ^ 2 • (1 : Mat d d)) * ((-θ) • (1 : Mat d d)))) * (w • (1 : Mat d d))⁻¹) := by
    rw [hinv, Matrix.transpose_smul, Matrix.transpose_one]
    simp only [smul_mul_smul_comm, Matrix.mul_one, ← add_smul, smul_smul, ← sub_smul]
    congr 1
    have h1 : s ^ 2 - δ / 2 * (-θ * s ^ 2 + s ^ 2 * -θ) + δ ^ 2 / 3 * (-θ * s ^ 2 * -θ) = s ^ 2 * w := by rw [hw, ha]; ring
    rw [h1]
    field_simp
  have hS : s ^ 2 • (1 : Mat d d) = (s • (1 : Mat d d)) * (s • (1 : Mat d d))ᵀ := by
    rw [Matrix.transpose_smul, Matrix.transpose_one, smul_mul_smul_comm, Matrix.mul_one, sq]
  have hlaw := fun N => (C146_law hla hR rng key hd x0 ((-θ) • (1 : Mat d d)) (s • (1 : Mat d d)) hδ hσ sqrt N ode hode hW hE hS hQ N le_rfl).2
  simp only [hF, scalar_cov] at hlaw
  choose y hy hN using hlaw
  have hden : 0 < (2 + a) * (12 + 6 * a + a ^ 2) := by positivity
  have he1 : |e| < 1 := by
    rw [he, abs_div, abs_of_pos hw0, div_lt_one hw0, abs_lt, hw]
    constructor <;> nlinarith [pow_pos ha0 2]
  have hr0 : 0 < 1 - a ^ 3 / ((2 + a) * (12 + 6 * a + a ^ 2)) := by
    rw [sub_pos, div_lt_one hden]
    nlinarith [pow_pos ha0 2]
  refine ⟨y, 1 - a ^ 3 / ((2 + a) * (12 + 6 * a + a ^ 2)), hy, fun j => (scalar_mean he1 x0 j).congr fun N => ((hN N).mean j).symm, fun i j => ?_, rfl, hr0, ?_, ?_⟩
  · have hL : (s ^ 2 / (2 * θ) * (1 - a ^ 3 / ((2 + a) * (12 + 6 * a + a ^ 2)))) * (1 - e ^ 2) = δ * s ^ 2 / w := by
      have hδa : δ = a / θ := by rw [ha]; field_simp
      have hw' := hw0.ne'
      rw [he, hδa]
      have h2 : 2 + a ≠ 0 := by positivity
      have h3 : 12 + 6 * a + a ^ 2 ≠ 0 := by positivity
      field_simp
      rw [hw]
      ring
    refine ((scalar_cov_lim he1 hL).mul_const ((1 : Mat d d) i j)).congr fun N => ?_
    rw [(hN N).cov i j, Matrix.smul_apply, smul_eq_mul]
  · have : 0 < a ^ 3 / ((2 + a) * (12 + 6 * a + a ^ 2)) := by positivity
    linarith
  · have : a ^ 3 / ((2 + a) * (12 + 6 * a + a ^ 2)) ≤ a ^ 3 / 24 := by
      refine div_le_div_of_nonneg_left (by positivity) (by norm_num) ?_
      nlinarith [pow_pos ha0 2, pow_pos ha0 3]
    linarith

/-- C149, EKF0: if `a = θ δ` is below two the means tend to zero and the covariance to `s²/(2θ) (1 + a²(4 + a)/((2 - a)(4 - 2a + a²)))`, which exceeds the stationary one;
if `a` is two or more and there is noise, the variances tend to infinity. -/
theorem C149_ekf0 {la : LinAlg} (hla : la.Correct) {Ω : Type*} [MeasurableSpace Ω] {P : Measure Ω} {R : Ω → Rng} (hR : IdealNormals P R) (rng : Rng) (key : Key)
    (hd : 0 < d) (x0 : Vec d) {θ s δ σ : ℝ} (hθ : 0 < θ) (hδ : 0 < δ) (hσ : σ ≠ 0) (sqrt : Bool) (ode : OdeInt (Vec d) d)
    (hode : ∀ κ x vf, Ekf.ekf0 la rng none x vf δ 1 sqrt (some ⟨_, IOUP.transition 0 σ 1 δ d⟩) none = .ok (ode κ x vf δ)) {a : ℝ} (ha : a = θ * δ) :
    ∃ y : ℕ → Ω → Vec d,
      (∀ N ω, (sdeSolver (R ω) key (fun x _ => -θ • x) (fun _ _ => s • (1 : Mat d d)) x0 (Foster.getApprox d) δ N ode).2.1[N]? = some (y N ω)) ∧
      (a < 2 → (∀ j, Tendsto (fun N => ∫ ω, y N ω j ∂P) atTop (𝓝 0)) ∧
        ∃ r, (∀ i j, Tendsto (fun N => cov[fun ω => y N ω i, fun ω => y N ω j; P]) atTop (𝓝 ((s ^ 2 / (2 * θ) * r) * (1 : Mat d d) i j))) ∧
          r = 1 + a ^ 2 * (4 + a) / ((2 - a) * (4 - 2 * a + a ^ 2)) ∧ 1 < r) ∧
      (2 ≤ a → s ≠ 0 → ∀ j, Tendsto (fun N => cov[fun ω => y N ω j, fun ω => y N ω j; P]) atTop atTop) := by
  have ha0 : 0 < a := by rw [ha]; positivity
  obtain ⟨e, he⟩ : ∃ e, e = 1 - a + a ^ 2 / 2 := ⟨_, rfl⟩
  obtain ⟨v, hv⟩ : ∃ v, v = δ * s ^ 2 * (1 - a + a ^ 2) := ⟨_, rfl⟩
  have hF : ∀ x : Vec d, ((-θ) • (1 : Mat d d)) *ᵥ x = -θ • x := fun x => by rw [Matrix.smul_mulVec, Matrix.one_mulVec]
  have hA : (1 - a / 2) • (1 : Mat d d) = 1 + (δ / 2) • ((-θ) • (1 : Mat d d)) := by
    rw [smul_smul]
    nth_rewrite 2 [← one_smul ℝ (1 : Mat d d)]
    rw [← add_smul, ha]
    congr 1
    ring
  have hE : e • (1 : Mat d d) = 1 + δ • ((-θ) • (1 : Mat d d)) + (δ ^ 2 / 2) • (((-θ) • (1 : Mat d d)) * ((-θ) • (1 : Mat d d))) := by
    rw [smul_mul_smul_comm, Matrix.mul_one, smul_smul, smul_smul]
    nth_rewrite 2 [← one_smul ℝ (1 : Mat d d)]
    rw [← add_smul, ← add_smul, he, ha]
    congr 1
    ring
  have hV : v • (1 : Mat d d) = δ • (((1 - a / 2) • (1 : Mat d d)) * ((s • (1 : Mat d d)) * (s • (1 : Mat d d))ᵀ) * ((1 - a / 2) • (1 : Mat d d))ᵀ) +
      (3 * δ ^ 3 / 4) • (((-θ) • (1 : Mat d d)) * ((s • (1 : Mat d d)) * (s • (1 : Mat d d))ᵀ) * ((-θ) • (1 : Mat d d))ᵀ) := by
    simp only [Matrix.transpose_smul, Matrix.transpose_one, smul_mul_smul_comm, Matrix.mul_one, smul_smul, ← add_smul]
    rw [hv, ha]
    congr 1
    ring
  have hlaw := fun N => C144_law hla hR rng key hd x0 ((-θ) • (1 : Mat d d)) (s • (1 : Mat d d)) hδ hσ sqrt N ode hode hE hA hV N le_rfl
  simp only [hF, scalar_cov] at hlaw
  choose y hy hN using hlaw
  refine ⟨y, hy, fun ha2 => ?_, fun ha2 hs j => ?_⟩
  · have h2 : 0 < 2 - a := by linarith
    have h3 : 0 < 4 - 2 * a + a ^ 2 := by nlinarith [sq_nonneg (a - 1)]
    have he1 : |e| < 1 := by
      rw [he, abs_lt]
      constructor <;> nlinarith [sq_nonneg (a - 1)]
    refine ⟨fun j => (scalar_mean he1 x0 j).congr fun N => ((hN N).mean j).symm, _, fun i j => ?_, rfl, ?_⟩
    · have hL : (s ^ 2 / (2 * θ) * (1 + a ^ 2 * (4 + a) / ((2 - a) * (4 - 2 * a + a ^ 2)))) * (1 - e ^ 2) = v := by
        have hδa : δ = a / θ := by rw [ha]; field_simp
        have h2' := h2.ne'
        have h3' := h3.ne'
        rw [he, hv, hδa]
        field_simp
        ring
      refine ((scalar_cov_lim he1 hL).mul_const ((1 : Mat d d) i j)).congr fun N => ?_
      rw [(hN N).cov i j, Matrix.smul_apply, smul_eq_mul]
    · have : 0 < a ^ 2 * (4 + a) / ((2 - a) * (4 - 2 * a + a ^ 2)) := by positivity
      linarith
  · have he1 : 1 ≤ e := by rw [he]; nlinarith
    have hv0 : 0 < v := by
      rw [hv]
      have : 0 < 1 - a + a ^ 2 := by nlinarith
      positivity
    refine tendsto_atTop_mono (fun N => ?_) (tendsto_natCast_atTop_atTop.atTop_mul_const hv0)
    rw [(hN N).cov j j, Matrix.smul_apply, Matrix.one_apply_eq, smul_eq_mul, mul_one]
    calc (N : ℝ) * v = ∑ i ∈ Finset.range N, v := by simp
      _ ≤ _ := Finset.sum_le_sum fun i _ => by
        have : (1 : ℝ) ≤ (e ^ 2) ^ i := one_le_pow₀ (by nlinarith)
        nlinarith

/-- C149: the hypotheses are met by the filters themselves with the ideal generator. For the rate and the interval one the variance, stationary at `1/2`, becomes `28/57` with
EKF1 and `4/3` with EKF0. -/
example (rng : Rng) (key : Key) : ∃ la : LinAlg, la.Correct ∧ ∃ (ode0 ode1 : OdeInt (Vec 1) 1) (y z : ℕ → _ → Vec 1),
    (∀ κ x vf, Ekf.ekf1 la rng none x vf 1 1 true (some ⟨_, IOUP.transition 0 1 1 1 1⟩) none = .ok (ode1 κ x vf 1)) ∧
    (∀ κ x vf, Ekf.ekf0 la rng none x vf 1 1 true (some ⟨_, IOUP.transition 0 1 1 1 1⟩) none = .ok (ode0 κ x vf 1)) ∧
    (∀ N ω, (sdeSolver (drawsRng ω) key (fun x _ => -(1 : ℝ) • x) (fun _ _ => (1 : ℝ) • (1 : Mat 1 1)) 1 (Foster.getApprox 1) 1 N ode1).2.1[N]? = some (y N ω)) ∧
    (∀ N ω, (sdeSolver (drawsRng ω) key (fun x _ => -(1 : ℝ) • x) (fun _ _ => (1 : ℝ) • (1 : Mat 1 1)) 1 (Foster.getApprox 1) 1 N ode0).2.1[N]? = some (z N ω)) ∧
    Tendsto (fun N => cov[fun ω => y N ω 0, fun ω => y N ω 0; drawsMeasure]) atTop (𝓝 (28 / 57)) ∧
    Tendsto (fun N => cov[fun ω => z N ω 0, fun ω => z N ω 0; drawsMeasure]) atTop (𝓝 (4 / 3)) := by
  obtain ⟨la, hla⟩ := exists_correct_linAlg
  have hex1 : ∀ (_ : Key) (x : Vec 1) vf, ∃ z, Ekf.ekf1 la rng none x vf 1 1 true (some ⟨_, IOUP.transition 0 1 1 1 1⟩) none = .ok z := fun _ x vf =>
    ⟨_, (Ekf.ekf1_two la rng none one_pos x vf 1 1 true (IOUP.transition 0 1 1 1 1) none).trans
      (congrArg (Except.map _) (Ekf.solver_some (r := 0) la _ vf 1 1 true false (IOUP.transition 0 1 1 1 1)))⟩
  choose z1 hz1 using hex1
  have hex0 : ∀ (_ : Key) (x : Vec 1) vf, ∃ z, Ekf.ekf0 la rng none x vf 1 1 true (some ⟨_, IOUP.transition 0 1 1 1 1⟩) none = .ok z := fun _ x vf =>
    ⟨_, C43_heun hla rng one_pos vf one_ne_zero one_pos x true⟩
  choose z0 hz0 using hex0
  obtain ⟨y, r, h1, -, h2, h3, -⟩ := C149_ekf1 hla idealNormals_drawsRng rng key one_pos 1 (s := 1) one_pos one_pos one_ne_zero true (fun κ x vf _ => z1 κ x vf) hz1 rfl
  obtain ⟨z, g1, g2, -⟩ := C149_ekf0 hla idealNormals_drawsRng rng key one_pos 1 (s := 1) one_pos one_pos one_ne_zero true (fun κ x vf _ => z0 κ x vf) hz0 rfl
  obtain ⟨-, r', g3, g4, -⟩ := g2 (by norm_num)
  refine ⟨la, hla, fun κ x vf _ => z0 κ x vf, fun κ x vf _ => z1 κ x vf, y, z, hz1, hz0, fun N ω => ?_, fun N ω => ?_, ?_, ?_⟩
  · exact h1 N ω
  · exact g1 N ω
  · have e : (1 : ℝ) ^ 2 / (2 * 1) * r * (1 : Mat 1 1) 0 0 = 28 / 57 := by
      rw [h3, Matrix.one_apply_eq]; norm_num
    rw [← e]
    exact h2 0 0
  · have e : (1 : ℝ) ^ 2 / (2 * 1) * r' * (1 : Mat 1 1) 0 0 = 4 / 3 := by
      rw [g4, Matrix.one_apply_eq]; norm_num
    rw [← e]
    exact g3 0 0

end Verif
