import Verif.Props.Foster
import Verif.Spec.Parabola

/-!
# Property C77: the sampled parabola is the best approximation of Brownian motion given its increment and area
-/

namespace Verif

open Matrix Spec MeasureTheory ProbabilityTheory Foster

theorem integral_min_left {s dt : ℝ} (h0 : 0 ≤ s) (h1 : s ≤ dt) : ∫ t in (0 : ℝ)..dt, min s t = s * dt - s ^ 2 / 2 := by
  have hc : Continuous fun t : ℝ => min s t := by fun_prop
  rw [← intervalIntegral.integral_add_adjacent_intervals (hc.intervalIntegrable 0 s) (hc.intervalIntegrable s dt)]
  have e1 : ∫ t in (0 : ℝ)..s, min s t = ∫ t in (0 : ℝ)..s, t := by
    refine intervalIntegral.integral_congr fun t ht => ?_
    rw [Set.uIcc_of_le h0] at ht
    exact min_eq_right ht.2
  have e2 : ∫ t in s..dt, min s t = ∫ t in s..dt, s := by
    refine intervalIntegral.integral_congr fun t ht => ?_
    rw [Set.uIcc_of_le h1] at ht
    exact min_eq_left ht.1
  rw [e1, e2, integral_id, intervalIntegral.integral_const]
  simp only [smul_eq_mul]
  ring

theorem cov_add_left {Ω : Type*} [MeasurableSpace Ω] {P : Measure Ω} [IsFiniteMeasure P] {X Y Z : Ω → ℝ} (hX : MemLp X 2 P)
    (hY : MemLp Y 2 P) (hZ : MemLp Z 2 P) : cov[fun ω => X ω + Y ω, Z; P] = cov[X, Z; P] + cov[Y, Z; P] :=
  covariance_add_left hX hY hZ

theorem cov_add_right {Ω : Type*} [MeasurableSpace Ω] {P : Measure Ω} [IsFiniteMeasure P] {X Y Z : Ω → ℝ} (hX : MemLp X 2 P)
    (hY : MemLp Y 2 P) (hZ : MemLp Z 2 P) : cov[X, fun ω => Y ω + Z ω; P] = cov[X, Y; P] + cov[X, Z; P] :=
  covariance_add_right hX hY hZ

/-- Covariance of two linear forms in the coefficients of one coordinate each. -/
theorem cov_coeffs {Ω : Type*} [MeasurableSpace Ω] {P : Measure Ω} {dim : ℕ} {a b : Ω → Vec dim} {dt : ℝ}
    (h : IsNormal P (fun ω => coeffVec (a ω) (b ω)) 0 (diagonal (coeffVar dim dt))) (i j : Fin dim) (α β γ κ : ℝ) :
    cov[fun ω => α * a ω i + β * b ω i, fun ω => γ * a ω j + κ * b ω j; P] =
      if i = j then α * γ * dt + β * κ * (dt / 2) else 0 := by
  have hP := h.isProb
  have ha : ∀ i, MemLp (fun ω => a ω i) 2 P := fun i => h.memLp (0, i)
  have hb : ∀ i, MemLp (fun ω => b ω i) 2 P := fun i => h.memLp (1, i)
  have haa : cov[fun ω => a ω i, fun ω => a ω j; P] = if i = j then dt else 0 := by
    refine (h.cov (0, i) (0, j)).trans ?_
    by_cases hij : i = j <;> simp [diagonal_apply, coeffVar, hij]
  have hbb : cov[fun ω => b ω i, fun ω => b ω j; P] = if i = j then dt / 2 else 0 := by
    refine (h.cov (1, i) (1, j)).trans ?_
    by_cases hij : i = j <;> simp [diagonal_apply, coeffVar, hij]
  have hab : cov[fun ω => a ω i, fun ω => b ω j; P] = 0 := by
    refine (h.cov (0, i) (1, j)).trans ?_
    simp [diagonal_apply]
  have hba : cov[fun ω => b ω i, fun ω => a ω j; P] = 0 := by
    refine (h.cov (1, i) (0, j)).trans ?_
    simp [diagonal_apply]
  have hz : MemLp (fun ω => γ * a ω j + κ * b ω j) 2 P := ((ha j).const_mul γ).add ((hb j).const_mul κ)
  rw [cov_add_left ((ha i).const_mul α) ((hb i).const_mul β) hz,
    cov_add_right ((ha i).const_mul α) ((ha j).const_mul γ) ((hb j).const_mul κ),
    cov_add_right ((hb i).const_mul β) ((ha j).const_mul γ) ((hb j).const_mul κ)]
  simp only [covariance_const_mul_left, covariance_const_mul_right, haa, hbb, hab, hba]
  split_ifs <;> ring

theorem brownianTo_parabola {Ω : Type*} [MeasurableSpace Ω] {P : Measure Ω} {dim : ℕ} {a b : Ω → Vec dim} {dt : ℝ} (hdt : 0 < dt)
    (h : IsNormal P (fun ω => coeffVec (a ω) (b ω)) 0 (diagonal (coeffVar dim dt))) :
    BrownianTo P (fun ω t => evalParabola t dt (a ω) (b ω)) dt ∧
      ∀ s, 0 ≤ s → s ≤ dt → ∀ i, Var[fun ω => evalParabola s dt (a ω) (b ω) i; P] =
        s - s * (1 - s / dt) * (1 - 3 * (s / dt) * (1 - s / dt)) := by
  have h6 : Real.sqrt 6 * Real.sqrt 6 = 6 := sqrt6_sq
  have h60 : Real.sqrt 6 ≠ 0 := by positivity
  have hdt' := hdt.ne'
  have hp : ∀ ω s i, evalParabola s dt (a ω) (b ω) i = s / dt * a ω i + Real.sqrt 6 * (s / dt) * (1 - s / dt) * b ω i := by
    intro ω s i
    simp only [evalParabola, evalParabola1]
    ring
  have hA : ∀ ω i, ∫ t in (0 : ℝ)..dt, evalParabola t dt (a ω) (b ω) i = dt / 2 * a ω i + dt / Real.sqrt 6 * b ω i := by
    intro ω i
    simp only [evalParabola]
    rw [integral_evalParabola1 dt _ _ hdt']
    ring
  have hv : ∀ s, 0 ≤ s → s ≤ dt → ∀ i, Var[fun ω => evalParabola s dt (a ω) (b ω) i; P] =
      s - s * (1 - s / dt) * (1 - 3 * (s / dt) * (1 - s / dt)) := by
    intro s _ _ i
    have hP := h.isProb
    have hm : AEMeasurable (fun ω => s / dt * a ω i + Real.sqrt 6 * (s / dt) * (1 - s / dt) * b ω i) P :=
      (((h.memLp (0, i)).const_mul _).add ((h.memLp (1, i)).const_mul _)).aestronglyMeasurable.aemeasurable
    simp only [hp]
    rw [← covariance_self hm, cov_coeffs h, if_pos rfl]
    have e : Real.sqrt 6 * (s / dt) * (1 - s / dt) * (Real.sqrt 6 * (s / dt) * (1 - s / dt)) =
        6 * ((s / dt) * (1 - s / dt)) ^ 2 := by linear_combination ((s / dt) * (1 - s / dt)) ^ 2 * h6
    rw [e]
    field_simp
    ring
  refine ⟨⟨fun s _ h1 i j => ?_, fun s h0 h1 i j => ?_, fun s h0 h1 i => ?_⟩, hv⟩
  · simp only [hp]
    rw [cov_coeffs h, min_eq_left h1]
    congr 1
    field_simp
    ring
  · simp only [hA]
    simp only [hp]
    rw [cov_coeffs h, integral_min_left h0 h1]
    congr 1
    field_simp
    ring
  · rw [hv s h0 h1]
    have hu0 : 0 ≤ s / dt := by positivity
    have hu1 : s / dt ≤ 1 := (div_le_one hdt).mpr h1
    have h2 : 0 ≤ 1 - 3 * (s / dt) * (1 - s / dt) := by nlinarith [sq_nonneg (s / dt - 1 / 2)]
    have h3 : 0 ≤ s * (1 - s / dt) * (1 - 3 * (s / dt) * (1 - s / dt)) :=
      mul_nonneg (mul_nonneg h0 (by linarith)) h2
    linarith

/-- C77: the covariances of the sampled path with its end point and with its integral are those of Brownian motion at every
time, for the direct and for the aggregated parabola; the variance is smaller by `s (1 - u)(1 - 3 u (1 - u))`, `u = s/dt`. -/
theorem C77_covariances {Ω : Type*} [MeasurableSpace Ω] {P : Measure Ω} {R : Ω → Rng} (hR : IdealNormals P R)
    (dim : ℕ) (key : Key) (dt : ℝ) (hdt : 0 < dt) :
    let p := fun ω t => (getApprox dim).eval t dt ((getApprox dim).coeffs (R ω) key dt)
    let q := fun (N : ℕ) ω t => (getApproxFine dim N).eval t dt ((getApproxFine dim N).coeffs (R ω) key dt)
    (BrownianTo P p dt ∧ ∀ s, 0 ≤ s → s ≤ dt → ∀ i, Var[fun ω => p ω s i; P] =
      s - s * (1 - s / dt) * (1 - 3 * (s / dt) * (1 - s / dt))) ∧
    ∀ N, 1 ≤ N → BrownianTo P (q N) dt ∧ ∀ s, 0 ≤ s → s ≤ dt → ∀ i, Var[fun ω => q N ω s i; P] =
      s - s * (1 - s / dt) * (1 - 3 * (s / dt) * (1 - s / dt)) :=
  ⟨brownianTo_parabola hdt (C13_coefficients_law hR dim key dt hdt.le).1,
    fun N hN => brownianTo_parabola hdt (C15_fine_law hR dim N hN key dt hdt).1⟩

/-- C77: for random variables `X`, `W`, `A` with the second moments of `B_s`, `B_dt` and the integral of `B` over `[0, dt]`
(`B` a Brownian motion), the parabola with the end point `W` and the integral `A` predicts `X` with an error that is
uncorrelated with `W` and `A`. -/
theorem C77_best_predictor {Ω : Type*} [MeasurableSpace Ω] {P : Measure Ω} [IsProbabilityMeasure P] {X W A : Ω → ℝ}
    (hX : MemLp X 2 P) (hW : MemLp W 2 P) (hA : MemLp A 2 P) {s dt : ℝ} (hdt : 0 < dt) (h0 : 0 ≤ s) (h1 : s ≤ dt)
    (hXW : cov[X, W; P] = min s dt) (hXA : cov[X, A; P] = ∫ t in (0 : ℝ)..dt, min s t)
    (hWW : cov[W, W; P] = bmCov dt 0 0) (hWA : cov[W, A; P] = bmCov dt 0 1) (hAA : cov[A, A; P] = bmCov dt 1 1)
    (p : Ω → ℝ) (hp : ∀ ω, ∃ b, (evalParabola1 dt dt (W ω) b = W ω ∧
      ∫ t in (0 : ℝ)..dt, evalParabola1 t dt (W ω) b = A ω) ∧ p ω = evalParabola1 s dt (W ω) b) :
    cov[fun ω => X ω - p ω, W; P] = 0 ∧ cov[fun ω => X ω - p ω, A; P] = 0 := by
  have h6 : Real.sqrt 6 * Real.sqrt 6 = 6 := sqrt6_sq
  have h60 : Real.sqrt 6 ≠ 0 := by positivity
  have hdt' := hdt.ne'
  have hp' : p = fun ω => (s / dt - 3 * (s / dt) * (1 - s / dt)) * W ω + (6 * (s / dt) * (1 - s / dt) / dt) * A ω := by
    funext ω
    obtain ⟨b, ⟨-, hb⟩, hpe⟩ := hp ω
    rw [hpe]
    rw [integral_evalParabola1 dt _ _ hdt'] at hb
    simp only [evalParabola1]
    have hb' : b * Real.sqrt 6 = 6 * (A ω / dt) - 3 * W ω := by
      have e1 : b / Real.sqrt 6 = A ω / dt - W ω / 2 := by field_simp at hb ⊢; linarith
      have e2 : b * Real.sqrt 6 = b / Real.sqrt 6 * (Real.sqrt 6 * Real.sqrt 6) := by field_simp
      rw [e2, e1, h6]
      ring
    rw [hb']
    field_simp
    ring
  have hWA' : cov[A, W; P] = bmCov dt 0 1 := by rw [covariance_comm, hWA]
  have hpL : MemLp p 2 P := by rw [hp']; exact (hW.const_mul _).add (hA.const_mul _)
  rw [covariance_fun_sub_left hX hpL hW, covariance_fun_sub_left hX hpL hA, hp',
    cov_add_left (hW.const_mul _) (hA.const_mul _) hW, cov_add_left (hW.const_mul _) (hA.const_mul _) hA]
  simp only [covariance_const_mul_left, hXW, hXA, hWW, hWA, hAA, hWA', min_eq_left h1, integral_min_left h0 h1]
  constructor
  · simp [bmCov]
    field_simp
    ring
  · simp [bmCov]
    field_simp
    ring

/-- C77: ideal generators exist, and the hypotheses on `X`, `W`, `A` are met by a sampled path itself. -/
example {dt s : ℝ} (hdt : 0 < dt) (h0 : 0 ≤ s) (h1 : s ≤ dt) :
    let p := fun ω t => (getApprox 1).eval t dt ((getApprox 1).coeffs (drawsRng ω) [] dt) 0
    cov[fun ω => p ω s, fun ω => p ω dt; drawsMeasure] = min s dt ∧
    cov[fun ω => p ω s, fun ω => ∫ t in (0 : ℝ)..dt, p ω t; drawsMeasure] = ∫ t in (0 : ℝ)..dt, min s t ∧
    cov[fun ω => p ω dt, fun ω => p ω dt; drawsMeasure] = bmCov dt 0 0 ∧
    cov[fun ω => p ω dt, fun ω => ∫ t in (0 : ℝ)..dt, p ω t; drawsMeasure] = bmCov dt 0 1 := by
  have h := (C77_covariances idealNormals_drawsRng 1 [] dt hdt).1.1
  have h2 := bmCov_eq_integrals dt hdt.le
  refine ⟨by simpa using h.incr s h0 h1 0 0, by simpa using h.area s h0 h1 0 0, ?_, ?_⟩
  · rw [h2.1]
    simpa using h.incr dt hdt.le le_rfl 0 0
  · rw [h2.2.1]
    simp only [min_comm _ dt]
    simpa using h.area dt hdt.le le_rfl 0 0

end Verif
