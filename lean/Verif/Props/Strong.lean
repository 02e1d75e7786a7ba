import Mathlib.Analysis.SpecialFunctions.Trigonometric.Bounds
import Verif.Lemmas.StrongMoments
import Verif.Props.IbmLaw

/-!
# Property C90: strong convergence of `sde_solver` along a path of the noise, for additive noise
-/

namespace Verif

open Matrix Spec Jnp Set MeasureTheory ProbabilityTheory
open scoped NNReal

/-- Discrete Grönwall with a constant rate. -/
theorem discrete_gronwall {e l : ℕ → ℝ} {q : ℝ} (hq : 0 ≤ q) (N : ℕ) (hl : ∀ k < N, 0 ≤ l k) (h0 : e 0 ≤ 0)
    (h : ∀ k < N, e (k + 1) ≤ (1 + q) * e k + l k) : ∀ n ≤ N, e n ≤ Real.exp (q * n) * ∑ k ∈ Finset.range n, l k := by
  intro n hn
  induction n with
  | zero => simpa using h0
  | succ n ih =>
    have h1 := ih (by omega)
    have h2 := h n (by omega)
    have hS : 0 ≤ ∑ k ∈ Finset.range n, l k := Finset.sum_nonneg fun k hk => hl k (by have := Finset.mem_range.mp hk; omega)
    have hq1 : 1 + q ≤ Real.exp q := by linarith [Real.add_one_le_exp q]
    have e1 : Real.exp (q * (n + 1 : ℕ)) = Real.exp q * Real.exp (q * n) := by rw [← Real.exp_add]; push_cast; ring_nf
    have h3 : 1 ≤ Real.exp (q * (n + 1 : ℕ)) := Real.one_le_exp (by positivity)
    rw [Finset.sum_range_succ, mul_add]
    have h4 := mul_le_mul_of_nonneg_left h1 (by linarith : (0 : ℝ) ≤ 1 + q)
    have h5 : (1 + q) * (Real.exp (q * n) * ∑ k ∈ Finset.range n, l k) ≤
        Real.exp (q * (n + 1 : ℕ)) * ∑ k ∈ Finset.range n, l k := by
      rw [e1, mul_assoc]
      exact mul_le_mul_of_nonneg_right hq1 (by positivity)
    have h6 : l n ≤ Real.exp (q * (n + 1 : ℕ)) * l n := le_mul_of_one_le_left (hl n (by omega)) h3
    linarith

/-- C90: take any continuous path `w` of the noise, the exact solution `x` of `dx = f(x, t) dt + S dw` along it, and a run of
`sde_solver` whose parabolas agree with `w` in end point and integral on every interval. With an exact ODE integrator, the error
at the grid points is bounded by a sum over the intervals of terms that are quadratic in `δ` and in the oscillation `W k` of
the path over the interval. -/
theorem C90_pathwise (rng : Rng) (key : Key) {C : Type} {d m : ℕ} (bm : BmApprox C m) (a b : C → Vec m)
    (hbm : ∀ t dt c, bm.eval t dt c = Foster.evalParabola t dt (a c) (b c)) {f : Field d} {Df : Vec d → ℝ → Vec d →L[ℝ] Vec d}
    {δ L K : ℝ} (hδ : 0 < δ) (N : ℕ) (hf : SmoothField f Df (N * δ) L K) (hL : 0 ≤ L) {S : Mat d m} {s : ℝ} (hs : 0 ≤ s)
    (hS : ∀ v, ‖S *ᵥ v‖ ≤ s * ‖v‖) {w : ℝ → Vec m} (hw : ContinuousOn w (Icc 0 (N * δ))) {x0 : Vec d} {x : ℝ → Vec d}
    (hx : SolvesAdditive f S w x0 (N * δ) x) (odeInt : OdeInt (Vec d) d)
    (hode : ∀ k, ExactIntegrator δ fun x vf => odeInt k x vf δ)
    (hm : ∀ k < N, ∀ c, (sdeSolver rng key f (fun _ _ => S) x0 bm δ N odeInt).2.2[k]? = some c →
      SameEndAndArea (fun t => bm.eval t δ c) w (k * δ) δ)
    {W : ℕ → ℝ} {F : ℝ} (hW : ∀ k < N, ∀ t ∈ Icc 0 δ, ‖w (k * δ + t) - w (k * δ)‖ ≤ W k)
    (hF : ∀ t ∈ Icc 0 (N * δ), ‖f (x t) t‖ ≤ F) :
    ∀ n ≤ N, ∃ y, (sdeSolver rng key f (fun _ _ => S) x0 bm δ N odeInt).2.1[n]? = some y ∧
      ‖x (n * δ) - y‖ ≤ Real.exp (L * δ * Real.exp (L * δ) * n) * ∑ k ∈ Finset.range n,
        ((L * δ) ^ 2 * Real.exp (L * δ) + δ * K * (δ * F + 21 / 4 * (s * W k) + δ)) * (17 / 4 * (s * W k)) := by
  set out := sdeSolver rng key f (fun _ _ => S) x0 bm δ N odeInt with hout
  have hbmf : ∀ c, (fun t => bm.eval t δ c) = fun t => Foster.evalParabola t δ (a c) (b c) := fun c => by
    funext t; exact hbm t δ c
  have hex : ∀ n, ∃ y, n ≤ N → out.2.1[n]? = some y := fun n => by
    by_cases hn : n ≤ N
    · cases n with
      | zero =>
        have := (C02_trajectory_shape rng key f (fun _ _ => S) x0 bm δ N odeInt).2.1
        rw [List.head?_eq_getElem?] at this
        exact ⟨x0, fun _ => this⟩
      | succ n =>
        obtain ⟨_, _, -, -, -, h4⟩ := sdeSolver_interval rng key f (fun _ _ => S) x0 bm δ N odeInt n (by omega)
        exact ⟨_, fun _ => h4⟩
    · exact ⟨0, fun h => absurd h hn⟩
  choose y hy using hex
  have hstep : ∀ k < N, ‖x ((k + 1 : ℕ) * δ) - y (k + 1)‖ ≤ (1 + L * δ * Real.exp (L * δ)) * ‖x (k * δ) - y k‖ +
      ((L * δ) ^ 2 * Real.exp (L * δ) + δ * K * (δ * F + 21 / 4 * (s * W k) + δ)) * (17 / 4 * (s * W k)) := by
    intro k hk
    obtain ⟨x', c, h1, h2, -, h4⟩ := sdeSolver_interval rng key f (fun _ _ => S) x0 bm δ N odeInt k hk
    have e1 : x' = y k := Option.some.inj (h1.symm.trans (hy k hk.le))
    have hm' := hm k hk c h2
    have h0k : (0 : ℝ) ≤ k * δ := by positivity
    have hkδ : (k : ℝ) * δ + δ ≤ N * δ := by
      have : ((k + 1 : ℕ) : ℝ) ≤ N := by exact_mod_cast hk
      push_cast at this
      nlinarith
    have hsh := hf.shift h0k hkδ
    have hlip : ∀ u v, ∀ t ∈ Icc 0 δ, ‖intervalField f (fun _ _ => S) bm δ c (k * δ) u t -
        intervalField f (fun _ _ => S) bm δ c (k * δ) v t‖ ≤ L * ‖u - v‖ := fun u v t ht => by
      simp only [intervalField, add_sub_add_right_eq_sub]
      exact hsh.lip u v t ht
    have hfield : intervalField f (fun _ _ => S) bm δ c (k * δ) =
        fun z t => f z (t + k * δ) + S *ᵥ jacT (fun t => Foster.evalParabola t δ (a c) (b c)) t := by
      funext z t
      simp only [intervalField, hbmf]
    obtain ⟨z, hz0, hz⟩ := exists_solution_Icc (intervalField f (fun _ _ => S) bm δ c (k * δ)) hδ.le (fun v => by
      rw [hfield]
      refine Continuous.continuousOn (Continuous.add ?_ ?_)
      · exact hsh.cont.comp (by fun_prop : Continuous fun t : ℝ => (v, t))
      · simp only [jacT_evalParabola]
        refine (Matrix.mulVecLin S).continuous_of_finiteDimensional.comp (continuous_pi fun j => ?_)
        fun_prop) hlip (y k)
    have e2 : y (k + 1) = z δ := by
      have h5 := hode ((key.child N k).child 2 1) _ L hlip z hz
      have h6 := Option.some.inj ((hy (k + 1) hk).symm.trans h4)
      dsimp only at h5
      rw [h6, e1, ← hz0, h5]
    have e3 : ((k + 1 : ℕ) : ℝ) * δ = k * δ + δ := by push_cast; ring
    rw [e2, e3, ← hz0]
    rw [hbmf] at hm'
    refine strong_interval hf hL hs hS hw hx hδ h0k hkδ hm' (hW k hk) hF fun t ht => ?_
    have := hz t ht
    rwa [hfield] at this
  have hnn : ∀ k < N, 0 ≤ ((L * δ) ^ 2 * Real.exp (L * δ) + δ * K * (δ * F + 21 / 4 * (s * W k) + δ)) * (17 / 4 * (s * W k)) := by
    intro k hk
    have hNδ : (0 : ℝ) < N * δ := by
      have : (0 : ℝ) < N := by exact_mod_cast (by omega : 0 < N)
      positivity
    have hK := hf.jac_const_nonneg hNδ
    have hW0 : 0 ≤ W k := (norm_nonneg _).trans (hW k hk δ ⟨hδ.le, le_rfl⟩)
    have hF0 : 0 ≤ F := (norm_nonneg _).trans (hF 0 ⟨le_rfl, hNδ.le⟩)
    positivity
  have hy0 : ‖x ((0 : ℕ) * δ) - y 0‖ ≤ 0 := by
    have h1 := (C02_trajectory_shape rng key f (fun _ _ => S) x0 bm δ N odeInt).2.1
    rw [List.head?_eq_getElem?] at h1
    have h2 : x0 = y 0 := Option.some.inj (h1.symm.trans (hy 0 (Nat.zero_le _)))
    have h3 := hx.eq 0 ⟨le_rfl, by positivity⟩
    simp only [intervalIntegral.integral_same, sub_self, mulVec_zero, add_zero] at h3
    rw [Nat.cast_zero, zero_mul, h3, h2, sub_self, norm_zero]
  intro n hn
  exact ⟨y n, hy n hn, discrete_gronwall (e := fun k => ‖x (k * δ) - y k‖) (by positivity) N hnn hy0 hstep n hn⟩

/-- C90: strong order one. For a vector of Brownian motions, the solution of the SDE with additive noise and the states that
`sde_solver` returns when its parabolas agree with the Brownian path in end point and integral: the largest error over the
grid points is dominated by a variable whose expectation is at most a constant (independent of the number of steps) times the
step size. -/
theorem C90_strong_order {Ω : Type*} [MeasurableSpace Ω] {P : Measure Ω} [IsProbabilityMeasure P] {d m : ℕ} {B : Fin m → ℝ≥0 → Ω → ℝ}
    (hB : ∀ j, IsBrownianReal (B j) P) {f : Field d} {Df : Vec d → ℝ → Vec d →L[ℝ] Vec d} {T L K : ℝ} (hT : 0 < T)
    (hf : SmoothField f Df T L K) (S : Mat d m) (x0 : Vec d) {X : Ω → ℝ → Vec d}
    (hX : ∀ᵐ ω ∂P, SolvesAdditive f S (fun t j => B j t.toNNReal ω) x0 T (X ω)) :
    ∃ A : ℝ, ∀ (N : ℕ), 0 < N → ∀ (R : Ω → Rng) (key : Key) {C : Type} (bm : BmApprox C m) (a b : C → Vec m),
      (∀ t dt c, bm.eval t dt c = Foster.evalParabola t dt (a c) (b c)) → ∀ odeInt : OdeInt (Vec d) d,
      (∀ k, ExactIntegrator (T / N) fun x vf => odeInt k x vf (T / N)) →
      (∀ᵐ ω ∂P, ∀ k < N, ∀ c, (sdeSolver (R ω) key f (fun _ _ => S) x0 bm (T / N) N odeInt).2.2[k]? = some c →
        SameEndAndArea (fun t => bm.eval t (T / N) c) (fun t j => B j t.toNNReal ω) (k * (T / N)) (T / N)) →
      ∃ G : Ω → ℝ, Integrable G P ∧ ∫ ω, G ω ∂P ≤ A * (T / N) ∧ ∀ᵐ ω ∂P, ∀ n ≤ N, ∃ y,
        (sdeSolver (R ω) key f (fun _ _ => S) x0 bm (T / N) N odeInt).2.1[n]? = some y ∧ ‖X ω (n * (T / N)) - y‖ ≤ G ω := by
  wlog hL : 0 ≤ L generalizing L
  · refine this (L := 0) ⟨hf.cont, fun x y t ht => (hf.lip x y t ht).trans ?_, hf.deriv, hf.jac⟩ le_rfl
    exact mul_le_mul_of_nonneg_right (not_le.mp hL).le (norm_nonneg _)
  have hK := hf.jac_const_nonneg hT
  obtain ⟨s, hs, hS⟩ := exists_mulVec_bound S
  obtain ⟨α, β, hα, hβ, hαβ⟩ := field_le hT.le hf hL hs hS x0
  obtain ⟨G0, hG0i, hG00, hG0e, hG0⟩ := brownian_sup_vec hB 0 T.toNNReal
  have hc := supConst_nonneg
  set E := Real.exp (L * T) with hE
  set A0 := 17 / 4 * s * (L ^ 2 * E + K * (α + β + 1) + 21 / 4 * (K * s)) with hA0
  have hE0 : 0 < E := Real.exp_pos _
  have hA00 : 0 ≤ A0 := by positivity
  set κ := (m : ℝ) * supConst with hκ
  have hκ0 : 0 ≤ κ := by positivity
  refine ⟨Real.exp (L * T * E) * A0 * (T * (2 + κ * T ^ 2) + (1 + T) * (T * (1 + κ)) / 2), ?_⟩
  intro N hN R key C bm a b hbm odeInt hode hm
  have hN' : (0 : ℝ) < N := by exact_mod_cast hN
  set δ := T / N with hδdef
  have hδ : 0 < δ := by positivity
  have hNδ : (N : ℝ) * δ = T := by rw [hδdef]; field_simp
  have hδT : δ ≤ T := by rw [hδdef]; exact div_le_self hT.le (by exact_mod_cast hN)
  choose Gk hGki hGk0 hGke hGk using fun k : ℕ => brownian_sup_vec hB ((k * δ).toNNReal) δ.toNNReal
  have hcδ : (δ.toNNReal : ℝ) = δ := Real.coe_toNNReal _ hδ.le
  have hcT : (T.toNNReal : ℝ) = T := Real.coe_toNNReal _ hT.le
  have hki : ∀ k, Integrable (fun ω => (δ + Gk k ω / δ) / 2) P := fun k =>
    ((integrable_const δ).add ((hGki k).div_const δ)).div_const 2
  have h2i : Integrable (fun ω => T * δ * (2 + G0 ω)) P := ((integrable_const (2 : ℝ)).add hG0i).const_mul _
  have hsumi : Integrable (fun ω => ∑ k ∈ Finset.range N, (δ + Gk k ω / δ) / 2) P :=
    integrable_finsetSum _ fun k _ => hki k
  refine ⟨fun ω => Real.exp (L * T * E) * (A0 * (T * δ * (2 + G0 ω) + δ * (1 + T) * ∑ k ∈ Finset.range N, (δ + Gk k ω / δ) / 2)),
    ((h2i.add (hsumi.const_mul _)).const_mul _).const_mul _, ?_, ?_⟩
  · have e1 : ∫ ω, ∑ k ∈ Finset.range N, (δ + Gk k ω / δ) / 2 ∂P ≤ T * (1 + κ) / 2 := by
      rw [integral_finsetSum _ fun k _ => hki k]
      have : ∀ k ∈ Finset.range N, ∫ ω, (δ + Gk k ω / δ) / 2 ∂P ≤ δ * (1 + κ) / 2 := fun k _ => by
        have h0 : ∫ ω, (δ + Gk k ω / δ) / 2 ∂P = (δ + (∫ ω, Gk k ω ∂P) / δ) / 2 := by
          rw [integral_div 2, integral_add (integrable_const δ) ((hGki k).div_const δ), integral_div δ, integral_const,
            probReal_univ, one_smul]
        have h1 := hGke k
        rw [hcδ] at h1
        have h2 : (∫ ω, Gk k ω ∂P) / δ ≤ κ * δ := by
          rw [div_le_iff₀ hδ]
          refine h1.trans (le_of_eq ?_)
          ring
        rw [h0]
        linarith
      refine (Finset.sum_le_sum this).trans (le_of_eq ?_)
      rw [Finset.sum_const, Finset.card_range, nsmul_eq_mul, ← hNδ]
      ring
    rw [integral_const_mul, integral_const_mul, integral_add h2i (hsumi.const_mul _),
      integral_const_mul, integral_const_mul, integral_add (integrable_const _) hG0i, integral_const]
    simp only [probReal_univ, one_smul]
    rw [hcT] at hG0e
    have h3 : T * δ * (2 + ∫ ω, G0 ω ∂P) ≤ T * δ * (2 + κ * T ^ 2) := by gcongr
    have h4 := mul_le_mul_of_nonneg_left e1 (by positivity : 0 ≤ δ * (1 + T))
    have h5 : 0 ≤ Real.exp (L * T * E) * A0 := by positivity
    calc Real.exp (L * T * E) * (A0 * (T * δ * (2 + ∫ ω, G0 ω ∂P) +
          δ * (1 + T) * ∫ ω, ∑ k ∈ Finset.range N, (δ + Gk k ω / δ) / 2 ∂P))
        ≤ Real.exp (L * T * E) * (A0 * (T * δ * (2 + κ * T ^ 2) + δ * (1 + T) * (T * (1 + κ) / 2))) := by gcongr
      _ = _ := by ring
  · filter_upwards [hX, hm, hG0, ae_all_iff.mpr hGk, ae_all_iff.mpr fun j => (hB j).cont] with ω hXω hmω hG0ω hGkω hcω n hn
    set w : ℝ → Vec m := fun t j => B j t.toNNReal ω with hw
    have hwc : Continuous w := continuous_pi fun j => (hcω j).comp continuous_real_toNNReal
    set b0 := Real.sqrt (Real.sqrt (G0 ω)) with hb0
    set W : ℕ → ℝ := fun k => Real.sqrt (Real.sqrt (Gk k ω)) with hWdef
    have hWb : ∀ k < N, ∀ t ∈ Icc 0 δ, ‖w (k * δ + t) - w (k * δ)‖ ≤ W k := fun k _ t ht => by
      have h1 := hGkω k t.toNNReal (Real.toNNReal_le_toNNReal ht.2)
      rw [← Real.toNNReal_add (by positivity) ht.1] at h1
      exact h1
    have hb : ∀ t ∈ Icc 0 T, ‖w t - w 0‖ ≤ b0 := fun t ht => by
      have h1 := hG0ω t.toNNReal (Real.toNNReal_le_toNNReal ht.2)
      rw [zero_add] at h1
      have h2 : w 0 = fun j => B j 0 ω := by funext j; simp [hw]
      rw [h2]
      exact h1
    have hF := hαβ hwc.continuousOn hXω hb
    rw [← hNδ] at hF hXω
    obtain ⟨y, hy1, hy2⟩ := C90_pathwise (R ω) key bm a b hbm hδ N (by rw [hNδ]; exact hf) hL hs hS hwc.continuousOn hXω odeInt hode
      hmω hWb hF n hn
    refine ⟨y, hy1, hy2.trans ?_⟩
    have hb00 : 0 ≤ b0 := Real.sqrt_nonneg _
    have hW0 : ∀ k, 0 ≤ W k := fun k => Real.sqrt_nonneg _
    have hn' : (n : ℝ) ≤ N := by exact_mod_cast hn
    have hEδ : Real.exp (L * δ) ≤ E := Real.exp_le_exp.mpr (mul_le_mul_of_nonneg_left hδT hL)
    have hterm : ∀ k, ((L * δ) ^ 2 * Real.exp (L * δ) + δ * K * (δ * (α + β * b0) + 21 / 4 * (s * W k) + δ)) *
        (17 / 4 * (s * W k)) ≤ A0 * (δ ^ 2 * (1 + b0 ^ 2 + W k ^ 2) + δ * W k ^ 2) := fun k => by
      have hsW : 0 ≤ s * W k := mul_nonneg hs (hW0 k)
      have hWk := hW0 k
      refine le_trans ?_ (local_term_le hL hK hδ.le hs hE0.le hα hβ hb00 (hW0 k) le_rfl)
      gcongr
    have hb2 : b0 ^ 2 ≤ 1 + G0 ω := by
      have := sqrt_sqrt_sq_le (hG00 ω) one_pos
      have h0 := hG00 ω
      rw [div_one] at this
      linarith
    have hterm2 : ∀ k, A0 * (δ ^ 2 * (1 + b0 ^ 2 + W k ^ 2) + δ * W k ^ 2) ≤
        A0 * (δ ^ 2 * (2 + G0 ω) + δ * (1 + T) * ((δ + Gk k ω / δ) / 2)) := fun k => by
      have hW2 := sqrt_sqrt_sq_le (hGk0 k ω) hδ
      refine mul_le_mul_of_nonneg_left ?_ hA00
      have h1 : δ ^ 2 * (1 + b0 ^ 2) ≤ δ ^ 2 * (2 + G0 ω) := mul_le_mul_of_nonneg_left (by linarith) (sq_nonneg δ)
      have h2 : δ ^ 2 * W k ^ 2 ≤ δ * T * W k ^ 2 := by
        rw [sq δ]
        exact mul_le_mul_of_nonneg_right (mul_le_mul_of_nonneg_left hδT hδ.le) (sq_nonneg _)
      have h3 : δ * (1 + T) * W k ^ 2 ≤ δ * (1 + T) * ((δ + Gk k ω / δ) / 2) := mul_le_mul_of_nonneg_left hW2 (by positivity)
      nlinarith
    have hpos : ∀ k, 0 ≤ A0 * (δ ^ 2 * (2 + G0 ω) + δ * (1 + T) * ((δ + Gk k ω / δ) / 2)) := fun k => by
      have h1 := hG00 ω
      have h2 := hGk0 k ω
      positivity
    have hsum : ∑ k ∈ Finset.range n, ((L * δ) ^ 2 * Real.exp (L * δ) + δ * K * (δ * (α + β * b0) + 21 / 4 * (s * W k) + δ)) *
        (17 / 4 * (s * W k)) ≤ A0 * (T * δ * (2 + G0 ω) + δ * (1 + T) * ∑ k ∈ Finset.range N, (δ + Gk k ω / δ) / 2) := by
      calc _ ≤ ∑ k ∈ Finset.range n, A0 * (δ ^ 2 * (2 + G0 ω) + δ * (1 + T) * ((δ + Gk k ω / δ) / 2)) :=
            Finset.sum_le_sum fun k _ => (hterm k).trans (hterm2 k)
        _ ≤ ∑ k ∈ Finset.range N, A0 * (δ ^ 2 * (2 + G0 ω) + δ * (1 + T) * ((δ + Gk k ω / δ) / 2)) :=
            Finset.sum_le_sum_of_subset_of_nonneg (Finset.range_subset_range.mpr hn) fun k _ _ => hpos k
        _ = _ := by
            rw [← Finset.mul_sum, Finset.sum_add_distrib, Finset.sum_const, Finset.card_range, nsmul_eq_mul, ← Finset.mul_sum, ← hNδ]
            ring
    have hexp : Real.exp (L * δ * Real.exp (L * δ) * n) ≤ Real.exp (L * T * E) := by
      rw [Real.exp_le_exp]
      calc L * δ * Real.exp (L * δ) * n = L * Real.exp (L * δ) * (n * δ) := by ring
        _ ≤ L * E * (N * δ) := by gcongr
        _ = L * T * E := by rw [hNδ]; ring
    have hR0 : 0 ≤ A0 * (T * δ * (2 + G0 ω) + δ * (1 + T) * ∑ k ∈ Finset.range N, (δ + Gk k ω / δ) / 2) := by
      have h1 := hG00 ω
      have h2 : 0 ≤ ∑ k ∈ Finset.range N, (δ + Gk k ω / δ) / 2 := Finset.sum_nonneg fun k _ => by
        have := hGk0 k ω; positivity
      positivity
    calc _ ≤ Real.exp (L * δ * Real.exp (L * δ) * n) * (A0 * (T * δ * (2 + G0 ω) + δ * (1 + T) *
          ∑ k ∈ Finset.range N, (δ + Gk k ω / δ) / 2)) := mul_le_mul_of_nonneg_left hsum (Real.exp_pos _).le
      _ ≤ _ := mul_le_mul_of_nonneg_right hexp hR0

/-- C90: for every smooth field and every continuous path of the noise there are a solution, an exact integrator and a run of
`sde_solver` with matching parabolas, so the hypotheses of `C90_pathwise` can be met. -/
example {d m : ℕ} {f : Field d} {Df : Vec d → ℝ → Vec d →L[ℝ] Vec d} {δ L K : ℝ} (hδ : 0 < δ) (N : ℕ)
    (hf : SmoothField f Df (N * δ) L K) (S : Mat d m) {w : ℝ → Vec m} (hw : ContinuousOn w (Icc 0 (N * δ))) (x0 : Vec d) (key : Key) :
    ∃ x rng, ∃ odeInt : OdeInt (Vec d) d, SolvesAdditive f S w x0 (N * δ) x ∧ (∀ k, ExactIntegrator δ fun x vf => odeInt k x vf δ) ∧
      ∀ k < N, ∀ c, (sdeSolver rng key f (fun _ _ => S) x0 (Foster.getApprox m) δ N odeInt).2.2[k]? = some c →
        SameEndAndArea (fun t => (Foster.getApprox m).eval t δ c) w (k * δ) δ := by
  obtain ⟨x, hx⟩ := exists_solvesAdditive (by positivity) hf.cont hf.lip S hw x0
  obtain ⟨int, hint⟩ := exists_exactIntegrator d δ hδ.le
  obtain ⟨rng, hr⟩ := exists_rng_coeffs key hδ N fun k => (w (k * δ + δ) - w (k * δ),
    fun j => Real.sqrt 6 * ((∫ t in (0 : ℝ)..δ, (w (k * δ + t) j - w (k * δ) j)) / δ - (w (k * δ + δ) - w (k * δ)) j / 2))
  refine ⟨x, rng, fun _ x vf _ => int x vf, hx, fun _ => hint, fun k hk c hc => ?_⟩
  obtain ⟨_, c', -, h2, h3, -⟩ := sdeSolver_interval rng key f (fun _ _ => S) x0 (Foster.getApprox m) δ N
    (fun _ x vf _ => int x vf) k hk
  have : c = c' := Option.some.inj (hc.symm.trans h2)
  rw [this, h3, hr k hk]
  exact exists_sameEndAndArea hδ.ne' w (k * δ)

/-- C90: a smooth nonlinear field, that of a forced pendulum with friction. -/
example (T : ℝ) : ∃ Df, SmoothField (fun (x : Vec 2) t => ![x 1, Real.sin t - Real.sin (x 0) - x 1]) Df T 3 2 := by
  refine ⟨fun x _ => ContinuousLinearMap.pi ![ContinuousLinearMap.proj 1, -(Real.cos (x 0) • ContinuousLinearMap.proj 0) -
    ContinuousLinearMap.proj 1], ⟨?_, ?_, ?_, ?_⟩⟩
  · refine continuous_pi fun i => ?_
    fin_cases i <;> simp [Function.uncurry] <;> fun_prop
  · intro x y t _
    have h0 : |x 0 - y 0| ≤ ‖x - y‖ := norm_le_pi_norm (x - y) 0
    have h1 : |x 1 - y 1| ≤ ‖x - y‖ := norm_le_pi_norm (x - y) 1
    have hn := norm_nonneg (x - y)
    rw [pi_norm_le_iff_of_nonneg (by positivity)]
    intro i
    fin_cases i
    · simp only [Fin.zero_eta, Pi.sub_apply, cons_val_zero, Real.norm_eq_abs]
      linarith
    · simp only [Fin.mk_one, Pi.sub_apply, cons_val_one, cons_val_fin_one, Real.norm_eq_abs]
      have hs : |Real.sin (x 0) - Real.sin (y 0)| ≤ |x 0 - y 0| := Real.abs_sin_sub_sin_le _ _
      rw [show Real.sin t - Real.sin (x 0) - x 1 - (Real.sin t - Real.sin (y 0) - y 1) =
        -(Real.sin (x 0) - Real.sin (y 0)) + -(x 1 - y 1) by ring]
      refine (abs_add_le _ _).trans ?_
      rw [abs_neg, abs_neg]
      linarith
  · intro x t _
    refine hasFDerivAt_pi.mpr fun i => ?_
    have p0 : HasFDerivAt (fun z : Vec 2 => z 0) (ContinuousLinearMap.proj (R := ℝ) (φ := fun _ : Fin 2 => ℝ) 0) x := hasFDerivAt_apply 0 x
    have p1 : HasFDerivAt (fun z : Vec 2 => z 1) (ContinuousLinearMap.proj (R := ℝ) (φ := fun _ : Fin 2 => ℝ) 1) x := hasFDerivAt_apply 1 x
    fin_cases i
    · exact p1
    · exact (p0.sin.const_sub (Real.sin t)).fun_sub p1
  · intro x y s _ t _
    refine ContinuousLinearMap.opNorm_le_bound _ (by positivity) fun v => ?_
    have h0 : |x 0 - y 0| ≤ ‖x - y‖ := norm_le_pi_norm (x - y) 0
    have hv : |v 0| ≤ ‖v‖ := norm_le_pi_norm v 0
    have hc := Real.abs_cos_sub_cos_le (x 0) (y 0)
    have hn := norm_nonneg (x - y)
    have hst := abs_nonneg (s - t)
    rw [pi_norm_le_iff_of_nonneg (by positivity)]
    intro i
    fin_cases i
    · simp
      positivity
    · simp
      rw [show -(Real.cos (x 0) * v 0) + Real.cos (y 0) * v 0 = -((Real.cos (x 0) - Real.cos (y 0)) * v 0) by ring, abs_neg, abs_mul]
      refine mul_le_mul (by linarith) hv (abs_nonneg _) (by positivity)

end Verif
