import Verif.Lemmas.Localise
import Verif.Props.WeakEkf

/-! The coordinates of a solution that noise enters are not concentrated near a point. -/

namespace Verif

open Matrix Spec Jnp Set MeasureTheory ProbabilityTheory Filter
open scoped NNReal ENNReal

variable {d m : ℕ}

/-- A normal variable is rarely near a given point. -/
theorem gaussian_small (v : ℝ) (hv : 0 < v) (a r : ℝ) :
    gaussianReal 0 v.toNNReal {z | |z - a| ≤ r} ≤ ENNReal.ofReal (2 * r / √(2 * Real.pi * v)) := by
  have hv' : v.toNNReal ≠ 0 := (Real.toNNReal_pos.2 hv).ne'
  have hs : {z : ℝ | |z - a| ≤ r} = Icc (a - r) (a + r) := by
    ext z
    rw [mem_setOf_eq, abs_le, mem_Icc]
    constructor <;> rintro ⟨h1, h2⟩ <;> constructor <;> linarith
  rw [hs, gaussianReal_apply _ hv']
  have hpdf : ∀ z, gaussianPDF 0 v.toNNReal z ≤ ENNReal.ofReal (1 / √(2 * Real.pi * v)) := fun z => by
    rw [gaussianPDF, gaussianPDFReal, Real.coe_toNNReal _ hv.le, one_div]
    refine ENNReal.ofReal_le_ofReal (mul_le_of_le_one_right (by positivity) ?_)
    rw [Real.exp_le_one_iff]
    exact div_nonpos_of_nonpos_of_nonneg (neg_nonpos.2 (sq_nonneg _)) (by positivity)
  calc ∫⁻ z in Icc (a - r) (a + r), gaussianPDF 0 v.toNNReal z ≤ ∫⁻ _ in Icc (a - r) (a + r), ENNReal.ofReal (1 / √(2 * Real.pi * v)) :=
        lintegral_mono hpdf
    _ = ENNReal.ofReal (1 / √(2 * Real.pi * v)) * ENNReal.ofReal (2 * r) := by
        rw [setLIntegral_const, Real.volume_Icc]
        congr 2
        ring
    _ = _ := by
        rw [← ENNReal.ofReal_mul (by positivity)]
        congr 1
        ring

/-- The sum of a normal variable and an independent variable is rarely near a given point. -/
theorem indep_small {Ω : Type*} [MeasurableSpace Ω] {P : Measure Ω} [IsProbabilityMeasure P] {U Z : Ω → ℝ} (hU : AEMeasurable U P) {v : ℝ}
    (hv : 0 < v) (hZ : HasLaw Z (gaussianReal 0 v.toNNReal) P) (hi : IndepFun U Z P) (r : ℝ) :
    P {ω | |U ω + Z ω| ≤ r} ≤ ENNReal.ofReal (2 * r / √(2 * Real.pi * v)) := by
  have hpair := (indepFun_iff_map_prod_eq_prod_map_map hU hZ.aemeasurable).1 hi
  have hs : MeasurableSet {p : ℝ × ℝ | |p.1 + p.2| ≤ r} := measurableSet_le (by fun_prop) measurable_const
  have h1 : P {ω | |U ω + Z ω| ≤ r} = P.map (fun ω => (U ω, Z ω)) {p : ℝ × ℝ | |p.1 + p.2| ≤ r} :=
    (Measure.map_apply_of_aemeasurable (hU.prodMk hZ.aemeasurable) hs).symm
  have : IsProbabilityMeasure (P.map U) := Measure.isProbabilityMeasure_map hU
  rw [h1, hpair, hZ.map_eq, Measure.prod_apply hs]
  calc ∫⁻ u, gaussianReal 0 v.toNNReal (Prod.mk u ⁻¹' {p : ℝ × ℝ | |p.1 + p.2| ≤ r}) ∂(P.map U) ≤
        ∫⁻ _, ENNReal.ofReal (2 * r / √(2 * Real.pi * v)) ∂(P.map U) := lintegral_mono fun u => by
        have := gaussian_small v hv (-u) r
        refine le_trans (le_of_eq (congrArg _ ?_)) this
        ext z
        simp only [mem_preimage, mem_setOf_eq, sub_neg_eq_add, add_comm]
    _ = _ := by rw [lintegral_const, measure_univ, mul_one]

/-- The law of a combination of the increments of a Brownian motion. -/
theorem comb_inc_law {Ω : Type*} [MeasurableSpace Ω] {P : Measure Ω} {B : Fin m → ℝ≥0 → Ω → ℝ} (hB : IsBrownianVec B P) (s : Vec m) {a b : ℝ}
    (ha : 0 ≤ a) (hab : a < b) :
    HasLaw (fun ω => s ⬝ᵥ fun j => B j b.toNNReal ω - B j a.toNNReal ω) (gaussianReal 0 ((b - a) * (s ⬝ᵥ s)).toNNReal) P := by
  have hh : 0 < b - a := by linarith
  obtain ⟨h, hhe⟩ : ∃ h, h = b - a := ⟨_, rfl⟩
  rw [← hhe] at hh ⊢
  have hs : Real.sqrt h ≠ 0 := (Real.sqrt_pos.mpr hh).ne'
  have hm := hB.meas
  have hl : ∀ j, HasLaw (fun ω => (Real.sqrt h)⁻¹ * (B j b.toNNReal ω - B j a.toNNReal ω)) (gaussianReal 0 1) P := fun j => by
    have h1 := (hB.brownian j).hasLaw_sub b.toNNReal a.toNNReal
    have h2 := gaussianReal_const_mul h1 (Real.sqrt h)⁻¹
    have e : (NNReal.mk ((Real.sqrt h)⁻¹ ^ 2) (sq_nonneg _) * nndist (b.toNNReal : ℝ) (a.toNNReal : ℝ) : ℝ≥0) = 1 := by
      refine NNReal.eq ?_
      rw [NNReal.coe_mul, coe_nndist, Real.dist_eq, Real.coe_toNNReal _ (by linarith), Real.coe_toNNReal _ ha, ← hhe, abs_of_pos hh]
      change (Real.sqrt h)⁻¹ ^ 2 * h = 1
      rw [inv_pow, Real.sq_sqrt hh.le]
      exact inv_mul_cancel₀ hh.ne'
    rw [mul_zero] at h2
    exact e ▸ h2
  have hi : iIndepFun (fun (j : Fin m) ω => (Real.sqrt h)⁻¹ * (B j b.toNNReal ω - B j a.toNNReal ω)) P :=
    hB.indep.comp (fun _ (p : ℝ≥0 → ℝ) => (Real.sqrt h)⁻¹ * (p b.toNNReal - p a.toNNReal)) (fun _ => by fun_prop)
  have hn := (isNormal_linear hl hi (0 : Fin 1 → ℝ) (Matrix.of fun (_ : Fin 1) j => Real.sqrt h * s j)).eval 0
  have ec : (Matrix.of (fun (_ : Fin 1) j => Real.sqrt h * s j) * (Matrix.of fun (_ : Fin 1) j => Real.sqrt h * s j)ᵀ) 0 0 = h * (s ⬝ᵥ s) := by
    rw [Matrix.mul_apply, dotProduct, Finset.mul_sum]
    refine Finset.sum_congr rfl fun j _ => ?_
    rw [Matrix.transpose_apply, Matrix.of_apply]
    linear_combination (s j * s j) * Real.mul_self_sqrt hh.le
  rw [ec] at hn
  refine hn.congr (Eventually.of_forall fun ω => ?_)
  simp only [Pi.add_apply, Pi.zero_apply, zero_add, Matrix.mulVec, dotProduct, Matrix.of_apply]
  refine Finset.sum_congr rfl fun j _ => ?_
  field_simp

/-- A coordinate of the solution that noise enters is not concentrated near any point. -/
theorem solution_spread {Ω : Type*} [MeasurableSpace Ω] {P : Measure Ω} {B : Fin m → ℝ≥0 → Ω → ℝ} (hB : IsBrownianVec B P) {f : Field d}
    (hf : ContDiff ℝ 2 (Function.uncurry f)) {T : ℝ} (hT : 0 < T) (S : Mat d m) (x0 : Vec d) {X : Ω → ℝ → Vec d}
    (hX : ∀ᵐ ω ∂P, SolvesAdditive f S (fun t j => B j t.toNNReal ω) x0 T (X ω)) {i : Fin d} (hi : S i ≠ 0) {ε : ℝ} (hε : 0 < ε) :
    ∃ κ > 0, ∀ a : ℝ, P {ω | |X ω T i - a| ≤ κ} ≤ ENNReal.ofReal ε := by
  haveI : IsProbabilityMeasure P := hB.isProb
  obtain ⟨ρ, g, Dg, L, K, F, X', hL, hF, hg, hgt, hgF, heq, hX', N1, hN1⟩ := exists_good hB hf hT S x0 hX (ε := ε / 2) (κ := 1)
    (by positivity) one_pos
  obtain ⟨G, hG, hG1⟩ := hN1 N1 le_rfl
  obtain ⟨q, hq⟩ : ∃ q, q = S i ⬝ᵥ S i := ⟨_, rfl⟩
  have hq0 : 0 < q := by
    rw [hq]
    have := dotProduct_star_self_pos_iff.2 hi
    simpa using this
  -- the last stretch
  obtain ⟨η, hη0, hηT, hη⟩ : ∃ η, 0 < η ∧ η ≤ T ∧ 2 * (η * F) / √(2 * Real.pi * (η * q)) ≤ ε / 4 := by
    obtain ⟨p, hp⟩ : ∃ p, p = √(2 * Real.pi * q) := ⟨_, rfl⟩
    have hp0 : 0 < p := by rw [hp]; positivity
    obtain ⟨c, hc⟩ : ∃ c, c = ε * p / (8 * (F + 1)) := ⟨_, rfl⟩
    have hc0 : 0 < c := by rw [hc]; positivity
    have hη0 : 0 < min T (c ^ 2) := lt_min hT (by positivity)
    refine ⟨min T (c ^ 2), hη0, min_le_left _ _, ?_⟩
    obtain ⟨η, hηe⟩ : ∃ η, η = min T (c ^ 2) := ⟨_, rfl⟩
    rw [← hηe] at hη0 ⊢
    have h1 : √η ≤ c := by
      rw [← Real.sqrt_sq hc0.le]
      exact Real.sqrt_le_sqrt (hηe ▸ min_le_right _ _)
    have h2 : √(2 * Real.pi * (η * q)) = √η * p := by
      rw [hp, ← Real.sqrt_mul hη0.le]
      congr 1
      ring
    have h3 : 0 < √η := Real.sqrt_pos.2 hη0
    have h4 : 2 * (η * F) / (√η * p) = 2 * F * √η / p := by
      rw [div_eq_div_iff (by positivity) (by positivity)]
      linear_combination (-2 * F * p) * Real.mul_self_sqrt hη0.le
    rw [h2, h4, div_le_iff₀ hp0]
    calc 2 * F * √η ≤ 2 * F * c := by gcongr
      _ = F / (F + 1) * (ε / 4 * p) := by rw [hc]; field_simp; ring
      _ ≤ 1 * (ε / 4 * p) := mul_le_mul_of_nonneg_right (by rw [div_le_one (by linarith)]; linarith) (by positivity)
      _ = ε / 4 * p := one_mul _
  obtain ⟨κ, hκ0, hκ⟩ : ∃ κ > 0, 2 * κ / √(2 * Real.pi * (η * q)) ≤ ε / 4 := by
    refine ⟨ε / 8 * √(2 * Real.pi * (η * q)), by positivity, le_of_eq ?_⟩
    have : √(2 * Real.pi * (η * q)) ≠ 0 := by positivity
    field_simp
    ring
  obtain ⟨V, hV1, hV2⟩ := solution_adapted hB hg.cont hL hg.lip hT hX' (t := T - η) (by linarith) (by linarith)
  obtain ⟨Z, hZ⟩ : ∃ Z : Ω → ℝ, ∀ ω, Z ω = S i ⬝ᵥ fun j => B j T.toNNReal ω - B j (T - η).toNNReal ω := ⟨_, fun _ => rfl⟩
  have hZl : HasLaw Z (gaussianReal 0 (η * q).toNNReal) P := by
    have := comb_inc_law hB (S i) (a := T - η) (b := T) (by linarith) (by linarith)
    rw [sub_sub_cancel, ← hq] at this
    rwa [show Z = _ from funext hZ]
  have hV3 : Measurable[pastAlg B (T - η).toNNReal] fun ω => V ω i := (measurable_pi_apply i).comp hV1
  have hZ3 : Measurable[futureAlg B (T - η).toNNReal] Z := by
    rw [show Z = _ from funext hZ]
    simp only [dotProduct]
    refine Finset.measurable_sum (m := futureAlg B (T - η).toNNReal) _ fun j _ => ?_
    exact Measurable.const_mul (measurable_futureAlg (Real.toNNReal_le_toNNReal (by linarith)) j) _
  refine ⟨κ, hκ0, fun a => ?_⟩
  have hsub : {ω | |X ω T i - a| ≤ κ} ⊆ (Gᶜ ∪ {ω | ¬ (SolvesAdditive f S (fun t j => B j t.toNNReal ω) x0 T (X ω) ∧ X' ω (T - η) = V ω)}) ∪
      {ω | |(V ω i - a) + Z ω| ≤ κ + η * F} := by
    intro ω hω
    by_contra hcon
    simp only [mem_union, mem_compl_iff, mem_setOf_eq, not_or, not_not, not_le] at hcon
    obtain ⟨⟨hωG, hsol, hXV⟩, hbig⟩ := hcon
    obtain ⟨hXX, -⟩ := hG1 ω hωG
    have e1 := hsol.eq T ⟨hT.le, le_rfl⟩
    have e2 := hsol.eq (T - η) ⟨by linarith, by linarith⟩
    have hc : ContinuousOn (fun s => f (X ω s) s) (Icc 0 T) :=
      hf.continuous.comp_continuousOn (hsol.cont.prodMk continuousOn_id)
    have hi1 : ∀ t ∈ Icc 0 T, IntervalIntegrable (fun s => f (X ω s) s) volume 0 t := fun t ht =>
      ContinuousOn.intervalIntegrable (hc.mono (by rw [uIcc_of_le ht.1]; exact Icc_subset_Icc_right ht.2))
    have hI := intervalIntegral.integral_interval_sub_left (hi1 T ⟨hT.le, le_rfl⟩) (hi1 (T - η) ⟨by linarith, by linarith⟩)
    have hb : ‖∫ s in (T - η)..T, f (X ω s) s‖ ≤ F * |T - (T - η)| := by
      refine intervalIntegral.norm_integral_le_of_norm_le_const fun s hs => ?_
      rw [uIoc_of_le (by linarith)] at hs
      have hs' : s ∈ Icc 0 T := ⟨by linarith [hs.1], hs.2⟩
      rw [← heq (X ω s) (by linarith [(hXX s hs').2]) s hs']
      exact hgF _ _
    rw [sub_sub_cancel, abs_of_pos hη0, ← hI] at hb
    have hbi := (norm_le_pi_norm _ i).trans hb
    rw [Real.norm_eq_abs, Pi.sub_apply] at hbi
    have e1i := congrFun e1 i
    have e2i := congrFun e2 i
    rw [(hXX (T - η) ⟨by linarith, by linarith⟩).1, hXV] at e2i
    simp only [Pi.add_apply, Matrix.mulVec] at e1i e2i
    have e3 : Z ω = S i ⬝ᵥ ((fun j => B j T.toNNReal ω) - fun j => B j (0 : ℝ).toNNReal ω) -
        S i ⬝ᵥ ((fun j => B j (T - η).toNNReal ω) - fun j => B j (0 : ℝ).toNNReal ω) := by
      rw [hZ, ← dotProduct_sub]
      congr 1
      funext j
      simp
    have e4 : V ω i - a + Z ω = (X ω T i - a) - ((∫ s in (0 : ℝ)..T, f (X ω s) s) i - (∫ s in (0 : ℝ)..(T - η), f (X ω s) s) i) := by
      rw [e3, e1i, e2i]
      ring
    have : |V ω i - a + Z ω| ≤ κ + F * η := by
      rw [e4]
      exact (abs_sub _ _).trans (add_le_add hω hbi)
    linarith
  refine (measure_mono hsub).trans ?_
  have h0 : P {ω | ¬ (SolvesAdditive f S (fun t j => B j t.toNNReal ω) x0 T (X ω) ∧ X' ω (T - η) = V ω)} = 0 := by
    rw [← ae_iff]
    filter_upwards [hX, hV2] with ω h1 h2
    exact ⟨h1, h2⟩
  have hV4 : Measurable fun ω => V ω i := hV3.mono (hB.pastAlg_le _) le_rfl
  have h1 := indep_small (U := fun ω => V ω i - a) (hV4.sub_const a).aemeasurable (by positivity) hZl
    (hB.indep_of (hV3.sub_const a) hZ3) (κ + η * F)
  calc P ((Gᶜ ∪ {ω | ¬ (SolvesAdditive f S (fun t j => B j t.toNNReal ω) x0 T (X ω) ∧ X' ω (T - η) = V ω)}) ∪
      {ω | |(V ω i - a) + Z ω| ≤ κ + η * F}) ≤ ENNReal.ofReal (ε / 2) + 0 + ENNReal.ofReal (ε / 2) := by
        refine (measure_union_le _ _).trans (add_le_add ((measure_union_le _ _).trans (add_le_add hG h0.le)) (h1.trans ?_))
        refine ENNReal.ofReal_le_ofReal ?_
        rw [mul_add, add_div]
        linarith
    _ = ENNReal.ofReal ε := by
        rw [add_zero, ← ENNReal.ofReal_add (by positivity) (by positivity), add_halves]

end Verif
