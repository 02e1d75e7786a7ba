import Verif.Props.Strong
import Verif.Lemmas.BrownianVec

/-! The Euler scheme along a continuous path of additive noise, and what it says about the times at which the solution is
determined. -/

namespace Verif

open Matrix Spec Jnp Set MeasureTheory ProbabilityTheory Filter
open scoped NNReal Topology

variable {d m : ℕ}

/-- Euler's scheme converges to the solution along every continuous path, uniformly over the grid. -/
theorem euler_path_tendsto {f : Vec d → ℝ → Vec d} {T L : ℝ} (hc : Continuous (Function.uncurry f)) (hL : 0 ≤ L)
    (hlip : ∀ x y, ∀ t ∈ Icc 0 T, ‖f x t - f y t‖ ≤ L * ‖x - y‖) {S : Mat d m} {w : ℝ → Vec m} {x0 : Vec d} {x : ℝ → Vec d} (hT : 0 < T)
    (hx : SolvesAdditive f S w x0 T x) {ε : ℝ} (hε : 0 < ε) : ∃ η > 0, ∀ (h : ℝ) (N : ℕ) (E : ℕ → Vec d), 0 < h → h < η →
      N * h ≤ T → E 0 = x0 → (∀ i < N, E (i + 1) = E i + h • f (E i) (i * h) + S *ᵥ (w ((i + 1 : ℕ) * h) - w (i * h))) →
      ∀ n ≤ N, ‖x (n * h) - E n‖ ≤ ε := by
  have hcf : ContinuousOn (fun s => f (x s) s) (Icc 0 T) := hc.comp_continuousOn (hx.cont.prodMk continuousOn_id)
  have huc := isCompact_Icc.uniformContinuousOn_of_continuous hcf
  rw [Metric.uniformContinuousOn_iff] at huc
  obtain ⟨r, hr⟩ : ∃ r, r = ε / (Real.exp (L * T) * T) := ⟨_, rfl⟩
  have hr0 : 0 < r := by rw [hr]; positivity
  obtain ⟨η, hη, hu⟩ := huc r hr0
  refine ⟨η, hη, fun h N E hh hhη hNT h0 hE n hn => ?_⟩
  have hnh : ∀ n ≤ N, (n : ℝ) * h ≤ T := fun n hn =>
    (mul_le_mul_of_nonneg_right (by exact_mod_cast hn) hh.le).trans hNT
  have hstep : ∀ k < N, ‖x ((k + 1 : ℕ) * h) - E (k + 1)‖ ≤ (1 + L * h) * ‖x (k * h) - E k‖ + h * r := by
    intro k hk
    have h0k : (0 : ℝ) ≤ k * h := by positivity
    have e3 : ((k + 1 : ℕ) : ℝ) * h = k * h + h := by push_cast; ring
    have hkh : (k : ℝ) * h + h ≤ T := by rw [← e3]; exact hnh _ hk
    have hmem : (k : ℝ) * h ∈ Icc 0 T := ⟨h0k, by linarith⟩
    have h1 := hx.restart hc h0k hkh (t := h) ⟨hh.le, le_rfl⟩
    have hin : ∀ {t}, t ∈ Icc 0 h → k * h + t ∈ Icc 0 T := fun ht => ⟨by linarith [ht.1], by linarith [ht.2]⟩
    have hci : ContinuousOn (fun s => f (x (k * h + s)) (s + k * h)) (Icc 0 h) := by
      have := hcf.comp (s := Icc 0 h) (f := fun s => k * h + s) (by fun_prop) fun t ht => hin ht
      refine this.congr fun s _ => ?_
      simp [add_comm]
    have hint : IntervalIntegrable (fun s => f (x (k * h + s)) (s + k * h)) volume 0 h :=
      (hci.mono (uIcc_subset_Icc ⟨le_rfl, hh.le⟩ ⟨hh.le, le_rfl⟩)).intervalIntegrable
    have e4 : x ((k + 1 : ℕ) * h) - E (k + 1) = (x (k * h) - E k) + h • (f (x (k * h)) (k * h) - f (E k) (k * h)) +
        ∫ s in (0 : ℝ)..h, (f (x (k * h + s)) (s + k * h) - f (x (k * h)) (k * h)) := by
      have i1 : IntervalIntegrable (fun _ : ℝ => f (x (k * h)) (k * h)) volume 0 h := intervalIntegrable_const
      rw [intervalIntegral.integral_sub hint i1, hE k hk, e3, h1]
      simp only [intervalIntegral.integral_const, sub_zero]
      module
    have hb : ‖∫ s in (0 : ℝ)..h, (f (x (k * h + s)) (s + k * h) - f (x (k * h)) (k * h))‖ ≤ r * h := by
      have := intervalIntegral.norm_integral_le_of_norm_le_const (a := 0) (b := h) (C := r)
        (f := fun s => f (x (k * h + s)) (s + k * h) - f (x (k * h)) (k * h)) fun s hs => by
          rw [uIoc_of_le hh.le] at hs
          have := hu (k * h + s) (hin ⟨hs.1.le, hs.2⟩) (k * h) hmem (by
            rw [Real.dist_eq, add_sub_cancel_left, abs_of_pos hs.1]
            linarith [hs.2])
          rw [dist_eq_norm] at this
          rw [add_comm s]
          exact this.le
      rwa [sub_zero, abs_of_pos hh] at this
    rw [e4]
    refine (norm_add_le _ _).trans (add_le_add ((norm_add_le _ _).trans ?_) (by rw [mul_comm h]; exact hb))
    rw [norm_smul, Real.norm_of_nonneg hh.le]
    have := mul_le_mul_of_nonneg_left (hlip (x (k * h)) (E k) _ hmem) hh.le
    linarith
  have h00 : ‖x ((0 : ℕ) * h) - E 0‖ ≤ 0 := by
    have h3 := hx.eq 0 ⟨le_rfl, hT.le⟩
    simp only [intervalIntegral.integral_same, sub_self, mulVec_zero, add_zero] at h3
    rw [Nat.cast_zero, zero_mul, h3, h0, sub_self, norm_zero]
  have := discrete_gronwall (e := fun k => ‖x (k * h) - E k‖) (l := fun _ => h * r) (q := L * h) (by positivity) N
    (fun _ _ => by positivity) h00 hstep n hn
  refine this.trans ?_
  rw [Finset.sum_const, Finset.card_range, nsmul_eq_mul]
  have h5 := hnh n hn
  calc Real.exp (L * h * n) * (n * (h * r)) = Real.exp (L * (n * h)) * (n * h) * r := by ring_nf
    _ ≤ Real.exp (L * T) * T * r := by gcongr
    _ = ε := by rw [hr]; field_simp

variable {Ω : Type*} [MeasurableSpace Ω] {P : Measure Ω} {B : Fin m → ℝ≥0 → Ω → ℝ}

/-- The events determined by the noise up to the time `a`. -/
def pastAlg (B : Fin m → ℝ≥0 → Ω → ℝ) (a : ℝ≥0) : MeasurableSpace Ω := MeasurableSpace.comap (pastOf B a) inferInstance

/-- The events determined by the increments of the noise from the time `a` on. -/
def futureAlg (B : Fin m → ℝ≥0 → Ω → ℝ) (a : ℝ≥0) : MeasurableSpace Ω := MeasurableSpace.comap (futureOf B a) inferInstance

theorem measurable_pastAlg {a t : ℝ≥0} (h : t ≤ a) (j : Fin m) : Measurable[pastAlg B a] (B j t) := by
  have h1 : Measurable[pastAlg B a] (pastOf B a) := comap_measurable _
  have h2 : B j t = (fun F : Fin m → ℝ≥0 → ℝ => F j t) ∘ pastOf B a := by
    funext ω
    simp [pastOf, min_eq_left h]
  rw [h2]
  exact Measurable.comp (by fun_prop) h1

theorem measurable_futureAlg {a t : ℝ≥0} (h : a ≤ t) (j : Fin m) : Measurable[futureAlg B a] (fun ω => B j t ω - B j a ω) := by
  have h1 : Measurable[futureAlg B a] (futureOf B a) := comap_measurable _
  have h2 : (fun ω => B j t ω - B j a ω) = (fun F : Fin m → ℝ≥0 → ℝ => F j (t - a)) ∘ futureOf B a := by
    funext ω
    simp [futureOf, add_tsub_cancel_of_le h]
  rw [h2]
  exact Measurable.comp (by fun_prop) h1

theorem pastAlg_mono {a b : ℝ≥0} (h : a ≤ b) : pastAlg B a ≤ pastAlg B b := by
  have h1 : Measurable[pastAlg B b] (pastOf B a) := by
    refine @measurable_pi_lambda _ _ _ (pastAlg B b) _ _ fun j => ?_
    refine @measurable_pi_lambda _ _ _ (pastAlg B b) _ _ fun t => ?_
    exact measurable_pastAlg ((min_le_right t a).trans h) j
  exact h1.comap_le

theorem Spec.IsBrownianVec.pastAlg_le (hB : IsBrownianVec B P) (a : ℝ≥0) : pastAlg B a ≤ ‹MeasurableSpace Ω› := by
  refine Measurable.comap_le ?_
  exact measurable_pi_lambda _ fun j => measurable_pi_lambda _ fun t => hB.meas j _

theorem Spec.IsBrownianVec.futureAlg_le (hB : IsBrownianVec B P) (a : ℝ≥0) : futureAlg B a ≤ ‹MeasurableSpace Ω› := by
  refine Measurable.comap_le ?_
  exact measurable_pi_lambda _ fun j => measurable_pi_lambda _ fun t => (hB.meas j _).sub (hB.meas j _)

/-- Variables determined by the past are independent of variables determined by the increments that follow. -/
theorem Spec.IsBrownianVec.indep_of (hB : IsBrownianVec B P) {a : ℝ≥0} {U V : Ω → ℝ} (hU : Measurable[pastAlg B a] U)
    (hV : Measurable[futureAlg B a] V) : IndepFun U V P := by
  have h := (hB.indep_past_future a)
  rw [IndepFun_iff_Indep] at h ⊢
  exact indep_of_indep_of_le_left (indep_of_indep_of_le_right h hV.comap_le) hU.comap_le

/-- Versions of limits of vectors. -/
theorem exists_measurable_version_vec {Ω : Type*} {F mΩ : MeasurableSpace Ω} {P : Measure Ω} {n : ℕ} {U : ℕ → Ω → Vec n} {V : Ω → Vec n} (hU : ∀ k, Measurable[F] (U k))
    (h : ∀ᵐ ω ∂P, Tendsto (fun k => U k ω) atTop (𝓝 (V ω))) : ∃ V', Measurable[F] V' ∧ V =ᵐ[P] V' := by
  have h1 : ∀ i, ∃ V', Measurable[F] V' ∧ (fun ω => V ω i) =ᵐ[P] V' := fun i =>
    exists_measurable_version (P := P) (U := fun k ω => U k ω i) (fun k => (measurable_pi_apply i).comp (hU k))
      (by filter_upwards [h] with ω hω; exact (tendsto_pi_nhds.mp hω) i)
  choose V' hV1 hV2 using h1
  refine ⟨fun ω i => V' i ω, @measurable_pi_lambda _ _ _ F _ _ fun i => hV1 i, ?_⟩
  filter_upwards [ae_all_iff.mpr hV2] with ω hω
  funext i
  exact hω i

/-- The solution at the time `t` is determined by the noise up to then. -/
theorem solution_adapted (hB : IsBrownianVec B P) {f : Vec d → ℝ → Vec d} {T L : ℝ} (hc : Continuous (Function.uncurry f)) (hL : 0 ≤ L)
    (hlip : ∀ x y, ∀ t ∈ Icc 0 T, ‖f x t - f y t‖ ≤ L * ‖x - y‖) {S : Mat d m} {x0 : Vec d} {X : Ω → ℝ → Vec d} (hT : 0 < T)
    (hX : ∀ᵐ ω ∂P, SolvesAdditive f S (fun t j => B j t.toNNReal ω) x0 T (X ω)) {t : ℝ} (ht0 : 0 ≤ t) (htT : t ≤ T) :
    ∃ V, Measurable[pastAlg B t.toNNReal] V ∧ (fun ω => X ω t) =ᵐ[P] V := by
  obtain ⟨h, hh⟩ : ∃ h : ℕ → ℝ, ∀ n, h n = t / (n + 1 : ℕ) := ⟨_, fun _ => rfl⟩
  have hh0 : ∀ n, 0 ≤ h n := fun n => by rw [hh]; positivity
  have hnh : ∀ n, ((n + 1 : ℕ) : ℝ) * h n = t := fun n => by
    rw [hh]
    have : ((n + 1 : ℕ) : ℝ) ≠ 0 := by positivity
    field_simp
  obtain ⟨E, hE0, hEs⟩ : ∃ E : ℕ → ℕ → Ω → Vec d, (∀ n ω, E n 0 ω = x0) ∧ ∀ n i ω, E n (i + 1) ω = E n i ω +
      h n • f (E n i ω) (i * h n) + S *ᵥ ((fun j => B j ((i + 1 : ℕ) * h n).toNNReal ω) - fun j => B j (i * h n).toNNReal ω) :=
    ⟨fun n i ω => Nat.rec x0 (fun i e => e + h n • f e (i * h n) + S *ᵥ ((fun j => B j ((i + 1 : ℕ) * h n).toNNReal ω) -
      fun j => B j (i * h n).toNNReal ω)) i, fun _ _ => rfl, fun _ _ _ => rfl⟩
  have hSm : Measurable fun v : Vec m => S *ᵥ v := ((Matrix.mulVecLin S).continuous_of_finiteDimensional).measurable
  have hfm : ∀ s, Measurable fun v => f v s := fun s => (hc.comp (by fun_prop : Continuous fun v : Vec d => (v, s))).measurable
  have hEm : ∀ n i, i ≤ n + 1 → Measurable[pastAlg B t.toNNReal] (E n i) := by
    intro n i
    induction i with
    | zero =>
      intro _
      have : E n 0 = fun _ => x0 := funext fun ω => hE0 n ω
      rw [this]
      exact measurable_const
    | succ i ih =>
      intro hi
      have h1 := ih (by omega)
      have : E n (i + 1) = fun ω => E n i ω + h n • f (E n i ω) (i * h n) +
          S *ᵥ ((fun j => B j ((i + 1 : ℕ) * h n).toNNReal ω) - fun j => B j (i * h n).toNNReal ω) := funext fun ω => hEs n i ω
      rw [this]
      have hle : ∀ k ≤ n + 1, ((k : ℝ) * h n).toNNReal ≤ t.toNNReal := fun k hk => Real.toNNReal_le_toNNReal (by
        rw [← hnh n]; exact mul_le_mul_of_nonneg_right (by exact_mod_cast hk) (hh0 n))
      letI := pastAlg B t.toNNReal
      have h2 : ∀ k ≤ n + 1, Measurable (fun ω j => B j ((k : ℝ) * h n).toNNReal ω) := fun k hk =>
        measurable_pi_lambda _ fun j => measurable_pastAlg (hle k hk) j
      exact (h1.add (((hfm _).comp h1).const_smul (h n))).add (hSm.comp ((h2 (i + 1) hi).sub (h2 i (by omega))))
  refine exists_measurable_version_vec (U := fun n => E n (n + 1)) (fun n => hEm n (n + 1) le_rfl) ?_
  filter_upwards [hX] with ω hω
  rcases ht0.eq_or_lt with rfl | htpos
  · have hz : ∀ n, h n = 0 := fun n => by rw [hh]; simp
    have hE : ∀ n i, E n i ω = x0 := fun n i => by
      induction i with
      | zero => exact hE0 n ω
      | succ i ih => rw [hEs, ih, hz]; simp
    have h3 := hω.eq 0 ⟨le_rfl, hT.le⟩
    simp only [intervalIntegral.integral_same, sub_self, mulVec_zero, add_zero] at h3
    rw [h3]
    simp only [hE]
    exact tendsto_const_nhds
  rw [Metric.tendsto_atTop]
  intro ε hε
  obtain ⟨η, hη, hu⟩ := euler_path_tendsto hc hL hlip hT hω (half_pos hε)
  obtain ⟨n0, hn0⟩ := exists_nat_gt (t / η)
  refine ⟨n0, fun n hn => ?_⟩
  have hhη : h n < η := by
    rw [hh, div_lt_iff₀ (by positivity)]
    have h1 : t / η < (n + 1 : ℕ) := hn0.trans_le (by exact_mod_cast (by omega : n0 ≤ n + 1))
    rw [div_lt_iff₀ hη] at h1
    linarith
  have hhpos : 0 < h n := by rw [hh]; positivity
  have := hu (h n) (n + 1) (fun i => E n i ω) hhpos hhη (by rw [hnh]; exact htT) (hE0 n ω) (fun i _ => hEs n i ω) (n + 1) le_rfl
  rw [hnh] at this
  rw [dist_eq_norm, norm_sub_rev]
  linarith

end Verif
