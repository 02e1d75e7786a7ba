import Verif.Lemmas.GainLimit
import Verif.Lemmas.SolutionSpread

/-! The difference of two solutions whose diffusion matrices differ has no atom. -/

namespace Verif

open Matrix Spec Jnp Set MeasureTheory ProbabilityTheory Filter
open scoped NNReal ENNReal

variable {d m : ℕ}

/-- The drift of the difference of two solutions and of the second one. -/
def gapField (f : Field d) : Field (d + d) := fun x t => Fin.append (f (firstV x + lastV x) t - f (lastV x) t) (f (lastV x) t)

theorem firstV_append (a b : Vec d) : firstV (Fin.append a b) = a := funext fun j => by simp [firstV]

theorem lastV_append (a b : Vec d) : lastV (Fin.append a b) = b := funext fun j => by simp only [lastV, Fin.append_right]

theorem contDiff_gapField {f : Field d} (hf : ContDiff ℝ 2 (Function.uncurry f)) : ContDiff ℝ 2 (Function.uncurry (gapField f)) := by
  have h1 : ContDiff ℝ 2 fun z : Vec (d + d) × ℝ => (firstV z.1 : Vec d) := contDiff_pi.mpr fun j => by
    unfold firstV
    exact (contDiff_apply ℝ ℝ (Fin.castAdd d j)).comp contDiff_fst
  have h2 : ContDiff ℝ 2 fun z : Vec (d + d) × ℝ => (lastV z.1 : Vec d) := contDiff_pi.mpr fun j => by
    unfold lastV
    exact (contDiff_apply ℝ ℝ (Fin.natAdd d j)).comp contDiff_fst
  have h3 : ContDiff ℝ 2 fun z : Vec (d + d) × ℝ => f (lastV z.1) z.2 := hf.comp (h2.prodMk contDiff_snd)
  have h4 : ContDiff ℝ 2 fun z : Vec (d + d) × ℝ => f (firstV z.1 + lastV z.1) z.2 := hf.comp ((h1.add h2).prodMk contDiff_snd)
  refine contDiff_pi.mpr fun i => ?_
  refine Fin.addCases (fun i => ?_) (fun i => ?_) i
  · have e : (fun z : Vec (d + d) × ℝ => Function.uncurry (gapField f) z (Fin.castAdd d i)) =
        fun z => f (firstV z.1 + lastV z.1) z.2 i - f (lastV z.1) z.2 i := funext fun z => by
      simp [Function.uncurry, gapField]
    rw [e]
    exact (contDiff_pi.mp h4 i).sub (contDiff_pi.mp h3 i)
  · have e : (fun z : Vec (d + d) × ℝ => Function.uncurry (gapField f) z (Fin.natAdd d i)) = fun z => f (lastV z.1) z.2 i := funext fun z => by
      simp only [Function.uncurry, gapField, Fin.append_right]
    rw [e]
    exact contDiff_pi.mp h3 i

theorem integral_coord {n : ℕ} {φ : ℝ → Vec n} {t : ℝ} (h : IntervalIntegrable φ volume 0 t) (i : Fin n) :
    (∫ s in (0 : ℝ)..t, φ s) i = ∫ s in (0 : ℝ)..t, φ s i :=
  (ContinuousLinearMap.intervalIntegral_comp_comm (ContinuousLinearMap.proj (R := ℝ) (φ := fun _ : Fin n => ℝ) i) h).symm

/-- The diffusion matrix of the difference of two solutions and of the second one. -/
def gapNoise (S K : Mat d m) : Mat (d + d) (m + m) := Fin.append (KF.hcat (0 : Mat d m) K) (KF.hcat S (0 : Mat d m))

theorem gapNoise_left (S K : Mat d m) (i : Fin d) : gapNoise S K (Fin.castAdd d i) = KF.hcat (0 : Mat d m) K i :=
  Fin.append_left (α := Vec (m + m)) (fun i => KF.hcat (0 : Mat d m) K i) (fun i => KF.hcat S (0 : Mat d m) i) i

theorem gapNoise_right (S K : Mat d m) (i : Fin d) : gapNoise S K (Fin.natAdd d i) = KF.hcat S (0 : Mat d m) i :=
  Fin.append_right (α := Vec (m + m)) (fun i => KF.hcat (0 : Mat d m) K i) (fun i => KF.hcat S (0 : Mat d m) i) i

theorem gap_solves {f : Field d} (hf : Continuous (Function.uncurry f)) {S K : Mat d m} {w : ℝ → Vec (m + m)} {x0 : Vec d} {T : ℝ} {x x' : ℝ → Vec d}
    (hx : SolvesAdditive f S (fun t => firstV (w t)) x0 T x) (hx' : SolvesAdditive f (KF.hcat S K) w x0 T x') :
    SolvesAdditive (gapField f) (gapNoise S K) w (Fin.append 0 x0) T (fun t => Fin.append (x' t - x t) (x t)) := by
  have hc : ContinuousOn (fun t => (Fin.append (x' t - x t) (x t) : Vec (d + d))) (Icc 0 T) := continuousOn_pi.mpr fun i => by
    refine Fin.addCases (fun i => ?_) (fun i => ?_) i
    · simp only [Fin.append_left]
      exact continuousOn_pi.mp (hx'.cont.sub hx.cont) i
    · simp only [Fin.append_right]
      exact continuousOn_pi.mp hx.cont i
  refine ⟨hc, fun t ht => ?_⟩
  have hg : ∀ s, gapField f (Fin.append (x' s - x s) (x s)) s = Fin.append (f (x' s) s - f (x s) s) (f (x s) s) := fun s => by
    rw [gapField, firstV_append, lastV_append, sub_add_cancel]
  have hin : ∀ {y : ℝ → Vec d}, ContinuousOn y (Icc 0 T) → ContinuousOn (fun s => f (y s) s) (uIcc 0 t) := fun {y} hy => by
    rw [uIcc_of_le ht.1]
    exact hf.comp_continuousOn ((hy.mono (Icc_subset_Icc le_rfl ht.2)).prodMk continuousOn_id)
  have i1 := (hin hx.cont).intervalIntegrable (μ := volume)
  have i2 := (hin hx'.cont).intervalIntegrable (μ := volume)
  have i3 : IntervalIntegrable (fun s => gapField f (Fin.append (x' s - x s) (x s)) s) volume 0 t := by
    simp only [hg]
    refine ContinuousOn.intervalIntegrable (continuousOn_pi.mpr fun i => ?_)
    refine Fin.addCases (fun i => ?_) (fun i => ?_) i
    · simp only [Fin.append_left]
      exact continuousOn_pi.mp ((hin hx'.cont).sub (hin hx.cont)) i
    · simp only [Fin.append_right]
      exact continuousOn_pi.mp (hin hx.cont) i
  funext i
  rw [Pi.add_apply, Pi.add_apply, integral_coord i3]
  simp only [hg]
  have e1 := congrFun (hx.eq t ht)
  have e2 := congrFun (hx'.eq t ht)
  simp only [Pi.add_apply, hcat_mulVec_split] at e1 e2
  refine Fin.addCases (fun i => ?_) (fun i => ?_) i
  · simp only [Fin.append_left, Pi.sub_apply, Pi.zero_apply]
    have j1 : (∫ s in (0 : ℝ)..t, f (x' s) s i - f (x s) s i) = (∫ s in (0 : ℝ)..t, f (x' s) s) i - (∫ s in (0 : ℝ)..t, f (x s) s) i := by
      have := integral_coord (i2.sub i1) i
      rw [intervalIntegral.integral_sub i2 i1] at this
      exact this.symm
    rw [j1, e1 i, e2 i]
    have e3 : (gapNoise S K *ᵥ (w t - w 0)) (Fin.castAdd d i) = (KF.hcat (0 : Mat d m) K *ᵥ (w t - w 0)) i := 
      congrArg (fun v : Vec (m + m) => v ⬝ᵥ (w t - w 0)) (gapNoise_left S K i)
    rw [e3, hcat_mulVec_split, zero_mulVec, Pi.add_apply, Pi.zero_apply]
    have e4 : firstV (w t) - firstV (w 0) = firstV (w t - w 0) := rfl
    rw [e4]
    ring
  · simp only [Fin.append_right]
    rw [e1 i, integral_coord i1]
    have e3 : (gapNoise S K *ᵥ (w t - w 0)) (Fin.natAdd d i) = (KF.hcat S (0 : Mat d m) *ᵥ (w t - w 0)) i := 
      congrArg (fun v : Vec (m + m) => v ⬝ᵥ (w t - w 0)) (gapNoise_right S K i)
    rw [e3, hcat_mulVec]
    rfl

/-- The difference of the two solutions has no atom at zero: it is small with small probability. -/
theorem gap_spread {Ω : Type*} [MeasurableSpace Ω] {P : Measure Ω} {W : Fin (m + m) → ℝ≥0 → Ω → ℝ} (hW : IsBrownianVec W P)
    {f : Field d} (hf : ContDiff ℝ 2 (Function.uncurry f)) {T : ℝ} (hT : 0 < T) (S K : Mat d m) (x0 : Vec d)
    {X X' : Ω → ℝ → Vec d} (hX : ∀ᵐ ω ∂P, SolvesAdditive f S (fun t j => W (Fin.castAdd m j) t.toNNReal ω) x0 T (X ω))
    (hX' : ∀ᵐ ω ∂P, SolvesAdditive f (KF.hcat S K) (fun t j => W j t.toNNReal ω) x0 T (X' ω)) {i : Fin d} (hi : K i ≠ 0) {ε : ℝ} (hε : 0 < ε) :
    ∃ κ > 0, P {ω | ‖X' ω T - X ω T‖ ≤ κ} ≤ ENNReal.ofReal ε := by
  have hG : ∀ᵐ ω ∂P, SolvesAdditive (gapField f) (gapNoise S K) (fun t j => W j t.toNNReal ω) (Fin.append 0 x0) T
      ((fun ω t => Fin.append (X' ω t - X ω t) (X ω t)) ω) := by
    filter_upwards [hX, hX'] with ω h h'
    exact gap_solves hf.continuous h h'
  obtain ⟨κ, hκ, h⟩ := solution_spread hW (contDiff_gapField hf) hT (gapNoise S K) _ hG (i := Fin.castAdd d i) (fun h0 => hi (funext fun j => by
    have := congrFun h0 (Fin.natAdd m j)
    rw [gapNoise_left] at this
    simp only [KF.hcat, Fin.append_right] at this
    exact this)) hε
  refine ⟨κ, hκ, (measure_mono fun ω hω => ?_).trans (h 0)⟩
  have h1 : ‖X' ω T - X ω T‖ ≤ κ := hω
  have h2 := norm_le_pi_norm (X' ω T - X ω T) i
  simp only [mem_setOf_eq, Fin.append_left, sub_zero]
  exact h2.trans h1

/-- A lower bound for distances passes to laws close in the bounded Lipschitz metric. -/
theorem gap_of_weak {Ω Ω' : Type*} [MeasurableSpace Ω] [MeasurableSpace Ω'] {Q : Measure Ω} {P : Measure Ω'} [IsProbabilityMeasure Q]
    [IsProbabilityMeasure P] {y z : Ω → Vec d} {x' x : Ω' → Vec d} (hy : AEMeasurable (fun ω => (y ω, z ω)) Q)
    (hx : AEMeasurable (fun ω => (x' ω, x ω)) P) {κ ε : ℝ} (hκ : 0 < κ) (hε : 0 ≤ ε) (h : P {ω | ‖x' ω - x ω‖ ≤ κ} ≤ ENNReal.ofReal ε)
    (hw : ∀ g : Vec d × Vec d → ℝ, LipschitzWith 1 g → (∀ x, |g x| ≤ 1) →
      |∫ ω, g (y ω, z ω) ∂Q - ∫ ω, g (x' ω, x ω) ∂P| ≤ min (κ / 2) 1 / 2 * ε) :
    Q {ω | ‖y ω - z ω‖ ≤ κ / 2} ≤ ENNReal.ofReal (2 * ε) := by
  obtain ⟨k, hk⟩ : ∃ k, k = min (κ / 2) 1 := ⟨_, rfl⟩
  have hk0 : 0 < k := by rw [hk]; positivity
  have hk1 : k ≤ 1 := by rw [hk]; exact min_le_right _ _
  have hk2 : k ≤ κ / 2 := by rw [hk]; exact min_le_left _ _
  rw [← hk] at hw
  obtain ⟨g, hg⟩ : ∃ g : Vec d × Vec d → ℝ, g = fun p => 1 / 2 * max 0 (min k (κ - ‖p.1 - p.2‖)) := ⟨_, rfl⟩
  have hg0 : ∀ p, 0 ≤ g p := fun p => by rw [hg]; positivity
  have hgk : ∀ p, g p ≤ k / 2 := fun p => by
    rw [hg]
    have : max 0 (min k (κ - ‖p.1 - p.2‖)) ≤ k := max_le hk0.le (min_le_left _ _)
    simp only
    linarith
  have hgl : LipschitzWith 1 g := by
    have h2 : LipschitzWith 2 fun p : Vec d × Vec d => κ - ‖p.1 - p.2‖ := LipschitzWith.of_dist_le_mul fun p p' => by
      rw [Real.dist_eq, sub_sub_sub_cancel_left, NNReal.coe_ofNat]
      refine (abs_norm_sub_norm_le _ _).trans ?_
      rw [show p'.1 - p'.2 - (p.1 - p.2) = (p'.1 - p.1) - (p'.2 - p.2) by abel]
      refine (norm_sub_le _ _).trans ?_
      rw [Prod.dist_eq, ← dist_eq_norm, ← dist_eq_norm, dist_comm p'.1, dist_comm p'.2]
      linarith [le_max_left (dist p.1 p'.1) (dist p.2 p'.2), le_max_right (dist p.1 p'.1) (dist p.2 p'.2)]
    have h3 := (h2.const_min k).const_max 0
    refine LipschitzWith.of_dist_le_mul fun p p' => ?_
    have h4 := h3.dist_le_mul p p'
    rw [Real.dist_eq, NNReal.coe_ofNat] at h4
    rw [Real.dist_eq, NNReal.coe_one, one_mul, hg]
    simp only
    rw [← mul_sub, abs_mul, abs_of_pos (by norm_num : (0 : ℝ) < 1 / 2)]
    linarith
  have hw' := hw g hgl fun p => by
    rw [abs_of_nonneg (hg0 p)]
    linarith [hgk p]
  have hgm := hgl.continuous.measurable
  have hi : Integrable (fun ω => g (y ω, z ω)) Q := Integrable.of_bound (hgm.comp_aemeasurable hy).aestronglyMeasurable 1
    (Eventually.of_forall fun ω => by rw [Real.norm_eq_abs, abs_of_nonneg (hg0 _)]; linarith [hgk (y ω, z ω)])
  have hi' : Integrable (fun ω => g (x' ω, x ω)) P := Integrable.of_bound (hgm.comp_aemeasurable hx).aestronglyMeasurable 1
    (Eventually.of_forall fun ω => by rw [Real.norm_eq_abs, abs_of_nonneg (hg0 _)]; linarith [hgk (x' ω, x ω)])
  -- the law of the limit
  have hup : ∫ ω, g (x' ω, x ω) ∂P ≤ k / 2 * ε := by
    obtain ⟨D, hD⟩ : ∃ D, D = {ω | ‖x' ω - x ω‖ ≤ κ} := ⟨_, rfl⟩
    have hDm : NullMeasurableSet D P := by
      rw [hD]
      exact nullMeasurableSet_le (hx.fst.sub hx.snd).norm aemeasurable_const
    rw [← hD] at h
    have hreal : P.real D ≤ ε := by
      rw [Measure.real]
      exact ENNReal.toReal_le_of_le_ofReal hε h
    calc ∫ ω, g (x' ω, x ω) ∂P ≤ ∫ ω, D.indicator (fun _ => k / 2) ω ∂P := by
          refine integral_mono hi' ((integrable_const _).indicator₀ hDm) fun ω => ?_
          by_cases hω : ω ∈ D
          · simp only [indicator_of_mem hω]
            exact hgk _
          · simp only [indicator_of_notMem hω]
            rw [hD, mem_setOf_eq, not_le] at hω
            rw [hg]
            simp only
            rw [max_eq_left ((min_le_right _ _).trans (by linarith)), mul_zero]
      _ = k / 2 * P.real D := by rw [integral_indicator₀ hDm, setIntegral_const, smul_eq_mul, mul_comm]
      _ ≤ k / 2 * ε := by gcongr
  -- the law of the run
  obtain ⟨D, hD⟩ : ∃ D, D = {ω | ‖y ω - z ω‖ ≤ κ / 2} := ⟨_, rfl⟩
  have hDm : NullMeasurableSet D Q := by
    rw [hD]
    exact nullMeasurableSet_le (hy.fst.sub hy.snd).norm aemeasurable_const
  rw [← hD]
  have hlo : k / 2 * Q.real D ≤ ∫ ω, g (y ω, z ω) ∂Q := by
    calc k / 2 * Q.real D = ∫ ω, D.indicator (fun _ => k / 2) ω ∂Q := by rw [integral_indicator₀ hDm, setIntegral_const, smul_eq_mul, mul_comm]
      _ ≤ _ := by
        refine integral_mono ((integrable_const _).indicator₀ hDm) hi fun ω => ?_
        by_cases hω : ω ∈ D
        · simp only [indicator_of_mem hω]
          rw [hD, mem_setOf_eq] at hω
          rw [hg]
          simp only
          rw [min_eq_left (by linarith), max_eq_right hk0.le]
          linarith
        · simp only [indicator_of_notMem hω]
          exact hg0 _
  have h1 := (abs_le.mp hw').2
  have h2 : Q.real D ≤ 2 * ε := by
    have h3 : k / 2 * Q.real D ≤ k / 2 * (2 * ε) := by linarith
    exact le_of_mul_le_mul_left h3 (by positivity)
  rw [Measure.real] at h2
  exact (ENNReal.le_ofReal_iff_toReal_le (measure_ne_top Q D) (by positivity)).mpr h2

end Verif
