import Verif.Props.StrongRos

/-!
# Property C132: order one in probability of `sde_solver` with EKF1 and any number of filter steps per interval
-/

namespace Verif

open Matrix Spec Jnp Set MeasureTheory ProbabilityTheory Scripts Filter
open scoped NNReal

variable {d m : ℕ}

theorem jac_eventuallyEq {n k : ℕ} {f g : Vec n → Vec k} {x : Vec n} (h : f =ᶠ[nhds x] g) : jac f x = jac g x := by
  funext i j
  have : (fun z => f z i) =ᶠ[nhds x] fun z => g z i := h.mono fun z hz => congrFun hz i
  simp only [jac, pd, this.fderiv_eq]

/-- The scheme only reads the field near the predicted points. -/
theorem rosScheme_congr_ball {f g : Vec d → ℝ → Vec d} {h r : ℝ} {s0 : RosState d} {N : ℕ}
    (h1 : ∀ k < N, ∀ x, ‖x‖ < r → f x ((k + 1) * h) = g x ((k + 1) * h))
    (hz : ∀ k < N, ‖(rosScheme g h s0 k).x + h • (rosScheme g h s0 k).v‖ < r) (n : ℕ) (hn : n ≤ N) :
    rosScheme f h s0 n = rosScheme g h s0 n := by
  induction n with
  | zero => rfl
  | succ n ih =>
    have hr := hz n hn
    have e := h1 n hn _ hr
    have ej := jac_eventuallyEq (f := fun x => f x ((n + 1) * h)) (g := fun x => g x ((n + 1) * h)) (by
      filter_upwards [(isOpen_lt continuous_norm continuous_const).mem_nhds hr] with x hx
      exact h1 n hn x hx)
    simp only [rosScheme, ih (by omega), e, ej]

/-- Bounds on the coefficients of a parabola whose slope is bounded. -/
theorem matched_coeffs {δ κ : ℝ} (hδ : 0 < δ) (hκ : 0 ≤ κ) {a b : Vec m}
    (h : ∀ t ∈ Icc 0 δ, ∀ j, |(a j + Real.sqrt 6 * b j * (1 - 2 * t / δ)) / δ| ≤ 10 * κ / δ) : ‖a‖ + 4 * ‖b‖ ≤ 50 * κ := by
  have h6 : 2 ≤ Real.sqrt 6 := Real.le_sqrt_of_sq_le (by norm_num)
  have hs : ∀ t ∈ Icc 0 δ, ∀ j, |a j + Real.sqrt 6 * b j * (1 - 2 * t / δ)| ≤ 10 * κ := fun t ht j => by
    have := h t ht j
    rw [abs_div, abs_of_pos hδ] at this
    exact (div_le_div_iff_of_pos_right hδ).mp this
  have h0 : ∀ j, |a j + Real.sqrt 6 * b j| ≤ 10 * κ := fun j => by simpa using hs 0 ⟨le_rfl, hδ.le⟩ j
  have h1 : ∀ j, |a j - Real.sqrt 6 * b j| ≤ 10 * κ := fun j => by
    have := hs δ ⟨hδ.le, le_rfl⟩ j
    rw [mul_div_assoc, div_self hδ.ne'] at this
    convert this using 2
    ring
  have ha : ‖a‖ ≤ 10 * κ := (pi_norm_le_iff_of_nonneg (by positivity)).mpr fun j => by
    have i0 := abs_le.mp (h0 j)
    have i1 := abs_le.mp (h1 j)
    exact abs_le.mpr ⟨by linarith [i0.1, i1.1], by linarith [i0.2, i1.2]⟩
  have hb : ‖b‖ ≤ 10 * κ := (pi_norm_le_iff_of_nonneg (by positivity)).mpr fun j => by
    have i0 := abs_le.mp (h0 j)
    have i1 := abs_le.mp (h1 j)
    have i2 : |Real.sqrt 6 * b j| ≤ 10 * κ := abs_le.mpr ⟨by linarith [i0.1, i1.2], by linarith [i0.2, i1.1]⟩
    rw [abs_mul, abs_of_nonneg (Real.sqrt_nonneg 6)] at i2
    rw [Real.norm_eq_abs]
    nlinarith [abs_nonneg (b j)]
  linarith

set_option maxHeartbeats 1000000 in
/-- C132: order one in probability of `sde_solver` with EKF1 and any number of filter steps per interval, for a drift with two continuous
derivatives that need be neither bounded nor globally Lipschitz, as long as the solution exists up to the time `T`. -/
theorem C132_prob {la : LinAlg} (hla : la.Correct) {Ω : Type*} [MeasurableSpace Ω] {P : Measure Ω} {B : Fin m → ℝ≥0 → Ω → ℝ}
    (hB : IsBrownianVec B P) (hd : 0 < d) {f : Field d}
    (hf : ContDiff ℝ 2 (Function.uncurry f)) {T : ℝ} (hT : 0 < T) (S : Mat d m) (x0 : Vec d)
    {X : Ω → ℝ → Vec d} (hX : ∀ᵐ ω ∂P, SolvesAdditive f S (fun t j => B j t.toNNReal ω) x0 T (X ω)) {ε : ℝ} (hε : 0 < ε) :
    ∃ (A : ℝ) (N0 : ℕ), ∀ N ≥ N0, ∀ M : ℕ, 0 < M → ∀ σ : ℝ, σ ≠ 0 → ∀ (sqrt : Bool) (rng : Rng) (R : Ω → Rng) (key : Key) {C : Type}
      (bm : BmApprox C m) (a b : C → Vec m), (∀ t dt c, bm.eval t dt c = Foster.evalParabola t dt (a c) (b c)) →
      ∀ odeInt : OdeInt (Vec d) d, (∀ k x vf, Ekf.ekf1 la rng none x vf (T / N / M) M sqrt
        (some ⟨_, IOUP.transition 0 σ 1 (T / N / M) d⟩) none = .ok (odeInt k x vf (T / N))) →
      (∀ᵐ ω ∂P, ∀ k < N, ∀ c, (sdeSolver (R ω) key f (fun _ _ => S) x0 bm (T / N) N odeInt).2.2[k]? = some c →
        SameEndAndArea (fun t => bm.eval t (T / N) c) (fun t j => B j t.toNNReal ω) (k * (T / N)) (T / N)) →
      ∀ n ≤ N, ∃ y : Ω → Vec d, (∀ ω, (sdeSolver (R ω) key f (fun _ _ => S) x0 bm (T / N) N odeInt).2.1[n]? = some (y ω)) ∧
        P {ω | A * (T / N) < ‖X ω (n * (T / N)) - y ω‖} ≤ ENNReal.ofReal ε := by
  haveI : IsProbabilityMeasure P := hB.isProb
  obtain ⟨s, hs, hS⟩ := exists_mulVec_bound S
  obtain ⟨ρ, g, Dg, L, K, F, X', hL, hF, hg, hgt, hgF, heq, hX', N1, hN1⟩ := exists_good hB hf hT S x0 hX (ε := ε / 3)
    (κ := 1 / (200 * (s + 1))) (by positivity) (by positivity)
  obtain ⟨A, hA⟩ := C131_strong hla hB hd hT hg hgt S x0 hX'
  obtain ⟨A', hA', hAA, N2, hN2⟩ := exists_prob_consts hε hT A
  obtain ⟨C2, hC2, hros⟩ := ros_steps_expansion hg hL (hg.jac_const_nonneg hT) hL hT.le hgt hs hS
  obtain ⟨N3, hN3⟩ := exists_nat_ge (8 * (C2 * (|ρ| + F + 3)) * T)
  refine ⟨A', N1 + N2 + N3 + 1, ?_⟩
  intro N hN M hM σ hσ sqrt rng R key C bm a b hbm odeInt hode hm n hn
  have hN0 : 0 < N := by omega
  have hN' : (0 : ℝ) < N := by exact_mod_cast hN0
  obtain ⟨G0, hG0, hG1⟩ := hN1 N (by omega)
  have hsmall := hN2 N (by omega)
  have hA1 := hA N hN0 M hM σ hσ sqrt rng R key bm a b hbm odeInt hode (by
    filter_upwards [hm] with ω hω k hk c hc
    refine hω k hk c ?_
    rw [sdeSolver_coeffs] at hc ⊢
    exact hc)
  obtain ⟨δ, hδdef⟩ : ∃ δ, δ = T / N := ⟨_, rfl⟩
  rw [← hδdef] at hode hm hA1 hG1 hsmall ⊢
  have hδ : 0 < δ := by rw [hδdef]; positivity
  have hNδ : (N : ℝ) * δ = T := by rw [hδdef]; field_simp
  have hδF : δ * (C2 * (|ρ| + F + 3)) ≤ 1 / 8 := by
    have h1 : 8 * (C2 * (|ρ| + F + 3)) * T ≤ N := hN3.trans (by exact_mod_cast (by omega : N3 ≤ N))
    rw [← hNδ] at h1
    have h2 : 8 * (C2 * (|ρ| + F + 3)) * δ ≤ 1 := by
      by_contra hcon
      push Not at hcon
      nlinarith
    linarith
  have hkδ : ∀ k < N, (k : ℝ) * δ + δ ≤ T := fun k hk => by
    have : ((k + 1 : ℕ) : ℝ) * δ ≤ N * δ := mul_le_mul_of_nonneg_right (by exact_mod_cast hk) hδ.le
    rw [hNδ] at this
    push_cast at this
    linarith
  have hM' : (0 : ℝ) < M := by exact_mod_cast hM
  have hjI : ∀ k < N, ∀ j < M, ((j : ℝ) + 1) * (δ / M) + k * δ ∈ Icc 0 T := fun k hk j hj => by
    have h1 : ((j + 1 : ℕ) : ℝ) * (δ / M) ≤ M * (δ / M) := mul_le_mul_of_nonneg_right (by exact_mod_cast hj) (by positivity)
    have h2 : (M : ℝ) * (δ / M) = δ := by field_simp
    push_cast at h1
    exact ⟨by positivity, by linarith [hkδ k hk]⟩
  have hint : ∀ κ x, ∀ k < N, ∀ a b, odeInt κ x (additiveField f S (k * δ) δ a b) δ = (rosScheme (additiveField f S (k * δ) δ a b) (δ / M)
      ⟨x, additiveField f S (k * δ) δ a b x 0, 0, 0⟩ M).x := fun κ x k hk a b =>
    Except.ok.inj ((hode κ x _).symm.trans (ekf1_rosScheme hla rng hd _
      (fun j hj z => ((hasFDerivAt_left hf z _).add_const _).differentiableAt) hσ (by positivity) x sqrt))
  have hint' : ∀ κ x, ∀ k < N, ∀ a b, odeInt κ x (additiveField g S (k * δ) δ a b) δ = (rosScheme (additiveField g S (k * δ) δ a b) (δ / M)
      ⟨x, additiveField g S (k * δ) δ a b x 0, 0, 0⟩ M).x := fun κ x k hk a b =>
    Except.ok.inj ((hode κ x _).symm.trans (ekf1_rosScheme hla rng hd _
      (fun j hj z => ((hg.deriv z _ (hjI k hk j hj)).add_const _).differentiableAt) hσ (by positivity) x sqrt))
  have hfield : ∀ (f : Field d) (c : C) (a0 : ℝ), intervalField f (fun _ _ => S) bm δ c a0 = additiveField f S a0 δ (a c) (b c) :=
    fun f c a0 => by
      funext z t
      simp only [intervalField, additiveField]
      congr 2
      congr 1
      funext s
      exact hbm s δ c
  choose y hy1 hy0 hys using fun ω => sdeSolver_states (R ω) key f (fun _ _ => S) x0 bm δ N odeInt
  choose y' hy1' hy0' hys' using fun ω => sdeSolver_states (R ω) key g (fun _ _ => S) x0 bm δ N odeInt
  refine ⟨fun ω => y ω n, fun ω => hy1 ω n hn, ?_⟩
  have hmn : P {ω | ∀ k < N, ∀ c, (sdeSolver (R ω) key f (fun _ _ => S) x0 bm δ N odeInt).2.2[k]? = some c →
      SameEndAndArea (fun t => bm.eval t δ c) (fun t j => B j t.toNNReal ω) (k * δ) δ}ᶜ = 0 := mem_ae_iff.mp hm
  have hA2 : ∀ k ≤ N, Integrable (fun ω => ‖X' ω (k * δ) - y' ω k‖ ^ 2) P ∧ ∫ ω, ‖X' ω (k * δ) - y' ω k‖ ^ 2 ∂P ≤ A * δ ^ 2 :=
    fun k hk => by
      obtain ⟨v, hv1, hv2⟩ := hA1 k hk
      have e : v = fun ω => y' ω k := funext fun ω => Option.some.inj ((hv1 ω).symm.trans (hy1' ω k hk))
      rw [e] at hv2
      exact hv2
  refine prob_of_localised (x := fun k ω => X ω (k * δ)) (x' := fun k ω => X' ω (k * δ)) (y := fun k ω => y ω k) (y' := fun k ω => y' ω k)
    (N := N) (G := G0 ∩ {ω | ∀ k < N, ∀ c, (sdeSolver (R ω) key f (fun _ _ => S) x0 bm δ N odeInt).2.2[k]? = some c →
      SameEndAndArea (fun t => bm.eval t δ c) (fun t j => B j t.toNNReal ω) (k * δ) δ}) hδ hε ?_ (fun k hk => (hA2 k hk).1)
    (fun k hk => (hA2 k hk).2) hsmall ?_ hA' hAA hn
  · rw [compl_inter]
    refine (measure_union_le _ _).trans ?_
    rw [hmn, add_zero]
    exact hG0
  · rintro ω ⟨hω1, hω2⟩ herr
    obtain ⟨hXX, hw⟩ := hG1 ω hω1
    have hgrid : ∀ k ≤ N, (k : ℝ) * δ ∈ Icc 0 T := fun k hk => by
      refine ⟨by positivity, ?_⟩
      rw [← hNδ]
      exact mul_le_mul_of_nonneg_right (by exact_mod_cast hk) hδ.le
    have hyb : ∀ k ≤ N, ‖y' ω k‖ ≤ ρ + 1 / 2 := fun k hk => by
      have h1 := herr k hk
      obtain ⟨h2, h3⟩ := hXX _ (hgrid k hk)
      rw [h2] at h3
      have : y' ω k = X' ω (k * δ) - (X' ω (k * δ) - y' ω k) := by abel
      rw [this]
      refine (norm_sub_le _ _).trans ?_
      linarith
    have hyy : ∀ k ≤ N, y ω k = y' ω k := by
      intro k
      induction k with
      | zero => exact fun _ => by rw [hy0, hy0']
      | succ k ih =>
        intro hk
        have hkN : k < N := by omega
        obtain ⟨c, hc1, hc2⟩ := hys ω k hkN
        obtain ⟨c', hc1', hc2'⟩ := hys' ω k hkN
        have hcc : c = c' := by
          have h1 := hc1
          rw [sdeSolver_coeffs] at h1 hc1'
          exact Option.some.inj (h1.symm.trans hc1')
        subst hcc
        have hmk := hω2 k hkN c hc1
        simp only [hbm] at hmk
        have hsl := matched_slope hδ hmk (κ := 1 / (200 * (s + 1))) fun t ht j => hw k hkN t ht j
        obtain ⟨κ, hκ⟩ : ∃ κ, κ = 1 / (200 * (s + 1)) := ⟨_, rfl⟩
        have hκ0 : 0 < κ := by rw [hκ]; positivity
        rw [← hκ] at hsl
        have hab := matched_coeffs hδ hκ0.le hsl
        have hsκ : s * (50 * κ) ≤ 1 / 4 := by
          have h1 : s * (50 * κ) = s / (s + 1) * (1 / 4) := by
            rw [hκ]
            field_simp
            ring
          rw [h1]
          have h2 : s / (s + 1) ≤ 1 := (div_le_one (by positivity)).mpr (by linarith)
          linarith
        have hκ1 : 50 * κ ≤ 1 := by
          rw [hκ, mul_one_div, div_le_one (by positivity)]
          linarith
        have hz : ∀ n < M, ‖(rosScheme (additiveField g S (k * δ) δ (a c) (b c)) (δ / M)
            ⟨y' ω k, additiveField g S (k * δ) δ (a c) (b c) (y' ω k) 0, 0, 0⟩ n).x + (δ / M) •
            (rosScheme (additiveField g S (k * δ) δ (a c) (b c)) (δ / M)
              ⟨y' ω k, additiveField g S (k * δ) δ (a c) (b c) (y' ω k) 0, 0, 0⟩ n).v‖ < ρ + 1 := fun n hn => by
          have h1 := (hros hδ (by positivity) (hkδ k hkN) hM (a c) (b c) (y' ω k) (H := |ρ| + F + 2) (by
            linarith [hyb k hkN.le, hgF (y' ω k) (k * δ), le_abs_self ρ]) _ rfl).2.2 n hn
          generalize hZ : (rosScheme (additiveField g S (k * δ) δ (a c) (b c)) (δ / M)
            ⟨y' ω k, additiveField g S (k * δ) δ (a c) (b c) (y' ω k) 0, 0, 0⟩ n).x + (δ / M) •
            (rosScheme (additiveField g S (k * δ) δ (a c) (b c)) (δ / M)
              ⟨y' ω k, additiveField g S (k * δ) δ (a c) (b c) (y' ω k) 0, 0, 0⟩ n).v = Z at h1 ⊢
          have h2 : δ * (C2 * (|ρ| + F + 2 + (‖a c‖ + 4 * ‖b c‖))) ≤ δ * (C2 * (|ρ| + F + 3)) :=
            mul_le_mul_of_nonneg_left (mul_le_mul_of_nonneg_left (by linarith) hC2) hδ.le
          have h3 : s * (‖a c‖ + 4 * ‖b c‖) ≤ s * (50 * κ) := mul_le_mul_of_nonneg_left hab hs
          have h4 : ‖Z‖ ≤ ‖Z - y' ω k‖ + ‖y' ω k‖ := by
            conv_lhs => rw [← sub_add_cancel Z (y' ω k)]
            exact norm_add_le _ _
          linarith [hyb k hkN.le]
        have e0 : additiveField f S (k * δ) δ (a c) (b c) (y' ω k) 0 = additiveField g S (k * δ) δ (a c) (b c) (y' ω k) 0 := by
          simp only [additiveField]
          rw [heq _ ((hyb k hkN.le).trans (by linarith)) _ (by rw [zero_add]; exact hgrid k hkN.le)]
        have hcg := rosScheme_congr_ball (f := additiveField f S (k * δ) δ (a c) (b c)) (r := ρ + 1) (fun j hj x hx => by
          simp only [additiveField]
          rw [heq x hx.le _ (hjI k hkN j hj)]) hz M le_rfl
        rw [hc2, hc2', hfield, hfield, hint _ _ k hkN, hint' _ _ k hkN, ih hkN.le, e0, hcg]
    exact fun k hk => ⟨(hXX _ (hgrid k hk)).1, hyy k hk⟩

/-- C132: the quantity plotted by the pathwise experiments with EKF1, for a drift with two continuous derivatives whose equation has a
solution along every continuous path of the noise. -/
theorem C132_measured {la : LinAlg} (hla : la.Correct) (hd : 0 < d) {f : Field d} (hf : ContDiff ℝ 2 (Function.uncurry f)) {T : ℝ}
    (hT : 0 < T) (S : Mat d m) (x0 : Vec d) (hsol : ∀ w : ℝ → Vec m, Continuous w → ∃ x, SolvesAdditive f S w x0 T x) {ε : ℝ} (hε : 0 < ε) :
    ∃ (A : ℝ) (N0 : ℕ), ∀ {Ω : Type} [MeasurableSpace Ω] {Q : Measure Ω} {R : Ω → Rng}, IdealNormals Q R → ∀ N ≥ N0,
      ∀ M : ℕ, 0 < M → ∀ r : ℕ, 0 < r → ∀ σ : ℝ, σ ≠ 0 → ∀ (sqrt : Bool) (rng : Rng) (key : Key) (odeInt : OdeInt (Vec d) d),
      (∀ k x vf, Ekf.ekf1 la rng none x vf (T / N / M) M sqrt
        (some ⟨_, IOUP.transition 0 σ 1 (T / N / M) d⟩) none = .ok (odeInt k x vf (T / N))) →
      ∀ n ≤ N, ∃ y z : Ω → Vec d,
        (∀ ω, ∃ ts traj traj2, ramSolver (R ω) key f (fun _ _ => S) x0 x0 (T / N) N r odeInt = .ok (ts, traj, traj2) ∧
          ts[n]? = some (n * (T / N)) ∧ traj[n]? = some (y ω) ∧ traj2[n]? = some (z ω)) ∧
        Q {ω | A * (T / N) < ‖y ω - z ω‖} ≤ ENNReal.ofReal ε := by
  obtain ⟨B, hB⟩ := Levy.exists_brownianVec m
  obtain ⟨P, hP⟩ : ∃ P : Measure (Fin m → ℕ × ℕ → ℝ), P = Measure.pi fun _ => Levy.noise := ⟨_, rfl⟩
  rw [← hP] at hB
  obtain ⟨X, hX⟩ := hB.exists_solution_of_paths hsol
  obtain ⟨A1, N1, h1⟩ := C132_prob hla hB hd hf hT S x0 hX (half_pos hε)
  obtain ⟨A2, N2, h2⟩ := C103_em hB hf hT S x0 hX (half_pos hε)
  refine ⟨A1 + |A2|, N1 + N2 + 1, ?_⟩
  intro Ω _ Q R hR N hN M hM r hr σ hσ sqrt rng key odeInt hode n hn
  have hN0 : 0 < N := by omega
  have hN' : (0 : ℝ) < N := by exact_mod_cast hN0
  have hM' : (0 : ℝ) < M := by exact_mod_cast hM
  have hr' : (1 : ℝ) ≤ r := by exact_mod_cast hr
  have h1' := h1 N (by omega) M hM σ hσ sqrt rng
  obtain ⟨z0, hz1, hz2⟩ := h2 (N * r) (le_trans (by omega) (Nat.le_mul_of_pos_right N hr)) (n * r) (Nat.mul_le_mul_right r hn)
  obtain ⟨δ, hδdef⟩ : ∃ δ, δ = T / N := ⟨_, rfl⟩
  obtain ⟨η, hη⟩ : ∃ η, η = δ / r := ⟨_, rfl⟩
  have hηT : T / (N * r : ℕ) = η := by rw [hη, hδdef]; push_cast; field_simp
  have hδ : 0 < δ := by rw [hδdef]; positivity
  have hη0 : 0 < η := by rw [hη]; positivity
  have hrη : (r : ℝ) * η = δ := by rw [hη]; field_simp
  have et : ((n * r : ℕ) : ℝ) * η = n * δ := by rw [← hrη]; push_cast; ring
  rw [hηT] at hz1 hz2
  rw [et] at hz2
  rw [← hδdef] at hode h1' ⊢
  have hηδ : η ≤ δ := by rw [hη]; exact div_le_self hδ.le hr'
  obtain ⟨R0, hm, htr⟩ := ram_transfer_of hB hf.continuous S x0 hR hδ hr hη key odeInt 
    (J := fun k x a b => (rosScheme (additiveField f S (k * δ) δ a b) (δ / M) ⟨x, additiveField f S (k * δ) δ a b x 0, 0, 0⟩ M).x)
    (fun k _ => (continuous_rosScheme hf.continuous S (by positivity) (fun j _ x => hasFDerivAt_left hf x _)
      (fun j _ => continuous_fderiv_left hf _)).measurable)
    (fun κ x k hk a b => Except.ok.inj ((hode κ x _).symm.trans (ekf1_rosScheme hla rng hd _
      (fun j _ z => ((hasFDerivAt_left hf z _).add_const _).differentiableAt) hσ (by positivity) x sqrt))) hn
  obtain ⟨y0, hy1, hy2⟩ := h1' R0 key (Foster.getApproxFine m r) (fun c => c.1) (fun c => c.2.1) (fun _ _ _ => rfl) odeInt hode hm n hn
  obtain ⟨y, z, hyz, hid⟩ := htr y0 z0 hy1 hz1
  refine ⟨y, z, hyz, ?_⟩
  have hide : IdentDistrib (fun ω => ‖y0 ω - z0 ω‖) (fun ω => ‖y ω - z ω‖) P Q :=
    hid.comp (u := fun p : Vec d × Vec d => ‖p.1 - p.2‖) (measurable_fst.sub measurable_snd).norm
  have hmeas := hide.measure_mem_eq (s := Ioi ((A1 + |A2|) * δ)) measurableSet_Ioi
  have e : Q {ω | (A1 + |A2|) * δ < ‖y ω - z ω‖} = P {ω | (A1 + |A2|) * δ < ‖y0 ω - z0 ω‖} := hmeas.symm
  rw [e]
  have hsub : {ω | (A1 + |A2|) * δ < ‖y0 ω - z0 ω‖} ⊆ {ω | A1 * δ < ‖X ω (n * δ) - y0 ω‖} ∪ {ω | A2 * η < ‖X ω (n * δ) - z0 ω‖} := by
    intro ω hω
    rw [mem_setOf_eq] at hω
    by_contra hcon
    simp only [mem_union, mem_setOf_eq, not_or, not_lt] at hcon
    have h3 : ‖y0 ω - z0 ω‖ ≤ ‖X ω (n * δ) - y0 ω‖ + ‖X ω (n * δ) - z0 ω‖ := by
      rw [show y0 ω - z0 ω = (X ω (n * δ) - z0 ω) - (X ω (n * δ) - y0 ω) by abel]
      exact (norm_sub_le _ _).trans (le_of_eq (add_comm _ _))
    have h4 : A2 * η ≤ |A2| * δ := mul_le_mul (le_abs_self _) hηδ hη0.le (abs_nonneg _)
    linarith [hcon.1, hcon.2]
  refine (measure_mono hsub).trans ((measure_union_le _ _).trans ((add_le_add hy2 hz2).trans ?_))
  rw [← ENNReal.ofReal_add (by positivity) (by positivity), add_halves]

/-- C132: FitzHugh-Nagumo as `ivp.py` defines it, with its own diffusion or with the padded square one. -/
theorem C132_fhn {la : LinAlg} (hla : la.Correct) {T : ℝ} (hT : 0 < T) {ε : ℝ} (hε : 0 < ε) :
    (∃ (A : ℝ) (N0 : ℕ), ∀ {Ω : Type} [MeasurableSpace Ω] {Q : Measure Ω} {R : Ω → Rng}, IdealNormals Q R → ∀ N ≥ N0,
      ∀ M : ℕ, 0 < M → ∀ r : ℕ, 0 < r → ∀ σ : ℝ, σ ≠ 0 → ∀ (sqrt : Bool) (rng : Rng) (key : Key) (odeInt : OdeInt (Vec 2) 2),
      (∀ k x vf, Ekf.ekf1 la rng none x vf (T / N / M) M sqrt
        (some ⟨_, IOUP.transition 0 σ 1 (T / N / M) 2⟩) none = .ok (odeInt k x vf (T / N))) →
      ∀ n ≤ N, ∃ y z : Ω → Vec 2,
        (∀ ω, ∃ ts traj traj2, ramSolver (R ω) key Ivp.Fhn.drift Ivp.Fhn.sigma Ivp.Fhn.x0 Ivp.Fhn.x0 (T / N) N r odeInt =
            .ok (ts, traj, traj2) ∧
          ts[n]? = some (n * (T / N)) ∧ traj[n]? = some (y ω) ∧ traj2[n]? = some (z ω)) ∧
        Q {ω | A * (T / N) < ‖y ω - z ω‖} ≤ ENNReal.ofReal ε) ∧
    (∃ (A : ℝ) (N0 : ℕ), ∀ {Ω : Type} [MeasurableSpace Ω] {Q : Measure Ω} {R : Ω → Rng}, IdealNormals Q R → ∀ N ≥ N0,
      ∀ M : ℕ, 0 < M → ∀ r : ℕ, 0 < r → ∀ σ : ℝ, σ ≠ 0 → ∀ (sqrt : Bool) (rng : Rng) (key : Key) (odeInt : OdeInt (Vec 2) 2),
      (∀ k x vf, Ekf.ekf1 la rng none x vf (T / N / M) M sqrt
        (some ⟨_, IOUP.transition 0 σ 1 (T / N / M) 2⟩) none = .ok (odeInt k x vf (T / N))) →
      ∀ n ≤ N, ∃ y z : Ω → Vec 2,
        (∀ ω, ∃ ts traj traj2, ramSolver (R ω) key Ivp.Fhn.drift Ivp.Fhn.sigmaSquare Ivp.Fhn.x0 Ivp.Fhn.x0 (T / N) N r odeInt =
            .ok (ts, traj, traj2) ∧
          ts[n]? = some (n * (T / N)) ∧ traj[n]? = some (y ω) ∧ traj2[n]? = some (z ω)) ∧
        Q {ω | A * (T / N) < ‖y ω - z ω‖} ≤ ENNReal.ofReal ε) := by
  have e2 : Ivp.Fhn.sigmaSquare = fun _ _ => !![0, 0; Ivp.Fhn.sig, 0] := by
    funext x t
    simp [Ivp.Fhn.sigmaSquare, Ivp.Fhn.sigma]
  constructor
  · exact C132_measured hla (by norm_num) Ivp.Fhn.contDiff_drift hT (!![0; Ivp.Fhn.sig]) Ivp.Fhn.x0
      (fun w hw => Ivp.Fhn.exists_solution hT.le _ (fun j => by fin_cases j; rfl) w hw _) hε
  · rw [e2]
    exact C132_measured hla (by norm_num) Ivp.Fhn.contDiff_drift hT (!![0, 0; Ivp.Fhn.sig, 0]) Ivp.Fhn.x0
      (fun w hw => Ivp.Fhn.exists_solution hT.le _ (fun j => by fin_cases j <;> rfl) w hw _) hε

/-- C132: a generator and a filter that satisfy the hypotheses; the integrator is EKF1 itself, with as many steps as there are intervals. -/
example {la : LinAlg} (hla : la.Correct) : ∃ (A : ℝ) (N0 : ℕ), ∀ N ≥ N0, 0 < N → ∃ (odeInt : OdeInt (Vec 2) 2) (y z : _ → Vec 2),
    (∀ (k : Key) x vf, Ekf.ekf1 la ⟨fun _ _ _ => 0⟩ none x vf (1 / N / N) N true (some ⟨_, IOUP.transition 0 1 1 (1 / N / N) 2⟩) none =
      .ok (odeInt k x vf (1 / N))) ∧
    (∀ ω, ∃ ts traj traj2, ramSolver (drawsRng ω) [] Ivp.Fhn.drift Ivp.Fhn.sigma Ivp.Fhn.x0 Ivp.Fhn.x0 (1 / N) N 7 odeInt =
      .ok (ts, traj, traj2) ∧ traj[N]? = some (y ω) ∧ traj2[N]? = some (z ω)) ∧
    drawsMeasure {ω | A * (1 / N) < ‖y ω - z ω‖} ≤ ENNReal.ofReal 0.01 := by
  obtain ⟨A, N0, hA⟩ := (C132_fhn hla one_pos (by norm_num : (0 : ℝ) < 0.01)).1
  refine ⟨A, N0, fun N hN hN0 => ?_⟩
  have hex : ∀ (x : Vec 2) vf, ∃ y, Ekf.ekf1 la ⟨fun _ _ _ => 0⟩ none x vf (1 / N / N) N true
      (some ⟨_, IOUP.transition 0 1 1 (1 / (N : ℝ) / N) 2⟩) none = .ok y := fun x vf => by
    have h := Ekf.ekf1_two la ⟨fun _ _ _ => 0⟩ none (by norm_num : 0 < 2) x vf (1 / N / N) N true (IOUP.transition 0 1 1 (1 / (N : ℝ) / N) 2) none
    rw [Ekf.solver_some] at h
    exact ⟨_, h⟩
  choose F hF using hex
  obtain ⟨y, z, h1, h2⟩ := hA idealNormals_drawsRng N hN N hN0 7 (by norm_num) 1 one_ne_zero true ⟨fun _ _ _ => 0⟩ [] (fun _ x vf _ => F x vf)
    (fun _ x vf => hF x vf) N le_rfl
  refine ⟨fun _ x vf _ => F x vf, y, z, fun _ x vf => hF x vf, fun ω => ?_, h2⟩
  obtain ⟨ts, traj, traj2, g1, -, g2, g3⟩ := h1 ω
  exact ⟨ts, traj, traj2, g1, g2, g3⟩

end Verif
