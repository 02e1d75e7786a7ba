import Verif.Lemmas.Alg3Strong
import Verif.Props.Alg3Order

/-!
# Property C111: the errors measured by the pathwise experiments of Algorithm 3 with EKF1
-/

namespace Verif

open Matrix Spec Jnp Set MeasureTheory ProbabilityTheory Scripts Filter
open scoped NNReal ENNReal Matrix.Norms.Operator

variable {d m : ℕ}

/-- One interval of Algorithm 3 with EKF1 and one filter step, from a state with a proper covariance. -/
theorem alg3_hint1 {la : LinAlg} (hla : la.Correct) {Ω : Type} {R : Ω → Rng} {σ δ a0 : ℝ} (hσ : σ ≠ 0) (hδ : 0 < δ) {sqrt : Bool}
    {odeInt : Ω → OdeInt (Vec d × Vec d × Mat d d) d}
    (hode : ∀ ω k x vf, Ekf.ekf2 la (R ω) false (some k) x vf δ 1 sqrt (some ⟨_, IOUP.transition 0 σ 1 δ d⟩) none = .ok (odeInt ω k x vf δ))
    {f : Field d} {S : Mat d m} (hd0 : Differentiable ℝ fun z => f z a0) (hd1 : Differentiable ℝ fun z => f z (δ + a0))
    (hnoise : ∀ x v, fderiv ℝ (fun z => f z (δ + a0)) (x + S *ᵥ v) = fderiv ℝ (fun z => f z (δ + a0)) x) (ω : Ω) (κ : Key)
    (x : Vec d × Vec d × Mat d d) (hx : x.2.2.PosSemidef) (a b : Vec m) :
    (of (alg3Step f S a0 δ (x.2.1, fun i j => (σ ^ 2)⁻¹ * x.2.2 i j) a b).2 : Mat d d).PosSemidef ∧ ∃ U : Mat d (d * (0 + 2)),
      U * Uᵀ = σ ^ 2 • of (alg3Step f S a0 δ (x.2.1, fun i j => (σ ^ 2)⁻¹ * x.2.2 i j) a b).2 ∧
      odeInt ω κ x (additiveField f S a0 δ a b) δ =
        ((alg3Step f S a0 δ (x.2.1, fun i j => (σ ^ 2)⁻¹ * x.2.2 i j) a b).1 + U *ᵥ (R ω).normalVec κ (d * (0 + 2)),
          (alg3Step f S a0 δ (x.2.1, fun i j => (σ ^ 2)⁻¹ * x.2.2 i j) a b).1,
          σ ^ 2 • of (alg3Step f S a0 δ (x.2.1, fun i j => (σ ^ 2)⁻¹ * x.2.2 i j) a b).2) := by
  obtain ⟨s, y, C⟩ := x
  simp only at hx ⊢
  have hσ2 : σ ^ 2 ≠ 0 := pow_ne_zero 2 hσ
  obtain ⟨p, hp⟩ : ∃ p : Mat d d, p = of fun i j => (σ ^ 2)⁻¹ * C i j := ⟨_, rfl⟩
  have hpC : p = (σ ^ 2)⁻¹ • C := by rw [hp]; rfl
  have hCp : C = σ ^ 2 • p := by rw [hpC, smul_smul, mul_inv_cancel₀ hσ2, one_smul]
  have hpp : p.PosSemidef := by rw [hpC]; exact hx.smul (by positivity)
  have hj0 : jac (fun z => additiveField f S a0 δ a b z 0) y = alg3J0 f a0 y := by
    rw [alg3J0, jac_eq_toMatrix (hd0 y).hasFDerivAt]
    refine jac_eq_toMatrix ?_
    simp only [additiveField, zero_add]
    exact (hd0 y).hasFDerivAt.add_const _
  have hz : y + δ • additiveField f S a0 δ a b y 0 = (y + δ • f y a0) + S *ᵥ (δ • jacT (fun s => Foster.evalParabola s δ a b) 0) := by
    simp only [additiveField, zero_add]
    rw [smul_add, mulVec_smul, add_assoc]
  have hj1 : jac (fun z => additiveField f S a0 δ a b z δ) (y + δ • additiveField f S a0 δ a b y 0) = alg3J1 f a0 δ y := by
    rw [alg3J1, jac_eq_toMatrix (hd1 (y + δ • f y a0)).hasFDerivAt, ← hnoise _ (δ • jacT (fun s => Foster.evalParabola s δ a b) 0), ← hz]
    exact jac_eq_toMatrix ((hd1 _).hasFDerivAt.add_const _)
  have hdd0 : Differentiable ℝ fun z => additiveField f S a0 δ a b z 0 := by
    simp only [additiveField, zero_add]
    exact hd0.add_const _
  have hdd1 : Differentiable ℝ fun z => additiveField f S a0 δ a b z δ := hd1.add_const _
  have h := ekf2_one hla (additiveField f S a0 δ a b) hσ hδ hdd0 hdd1 hpp y sqrt
  simp only [hj0, hj1] at h
  obtain ⟨h1, U, h2, h3⟩ := h
  have e2 : (of (alg3Step f S a0 δ (y, fun i j => (σ ^ 2)⁻¹ * C i j) a b).2 : Mat d d) = alg3P δ (alg3J0 f a0 y) (alg3J1 f a0 δ y) p := by
    rw [hp]; rfl
  have e1 : (alg3Step f S a0 δ (y, fun i j => (σ ^ 2)⁻¹ * C i j) a b).1 =
      alg3Mean (additiveField f S a0 δ a b) δ (alg3J0 f a0 y) (alg3J1 f a0 δ y) p y := by rw [hp]; rfl
  rw [e1, e2]
  refine ⟨h1, U, h2, ?_⟩
  have h4 := h3 (R ω) κ s
  rw [← hCp] at h4
  exact Except.ok.inj ((hode ω κ _ _).symm.trans h4)

/-- The sample of one interval is close to its mean. -/
theorem alg3_sample {U : Mat d (d * (0 + 2))} {σ t : ℝ} {p : Mat d d} (hU : U * Uᵀ = σ ^ 2 • p) (ht : p.trace ≤ t) (ξ : Vec (d * (0 + 2))) :
    ‖U *ᵥ ξ‖ ^ 2 ≤ σ ^ 2 * t * (2 * d) * ‖ξ‖ ^ 2 := by
  have h1 : ∑ i, ∑ j, U i j ^ 2 = σ ^ 2 * p.trace := by
    have h2 : (U * Uᵀ).trace = σ ^ 2 * p.trace := by rw [hU, trace_smul, smul_eq_mul]
    rw [← h2]
    simp [Matrix.trace, mul_apply, sq]
  have h0 : 0 ≤ σ ^ 2 * t := by
    have : 0 ≤ σ ^ 2 * p.trace := by rw [← h1]; exact Finset.sum_nonneg fun _ _ => Finset.sum_nonneg fun _ _ => sq_nonneg _
    exact this.trans (mul_le_mul_of_nonneg_left ht (sq_nonneg σ))
  have h3 := mulVec_le_frobenius U (γ := σ ^ 2 * t) (h1.trans_le (mul_le_mul_of_nonneg_left ht (sq_nonneg σ))) ξ
  have h4 := pow_le_pow_left₀ (norm_nonneg _) h3 2
  rw [mul_pow, Real.sq_sqrt (by positivity)] at h4
  refine h4.trans (le_of_eq ?_)
  push_cast
  ring

theorem measurable_drop {α β γ ζ : Type*} [MeasurableSpace α] [MeasurableSpace β] [MeasurableSpace γ] [MeasurableSpace ζ] {ι : Type*} [MeasurableSpace ι]
    {g : α → β → γ → ζ} (h : Measurable fun z : α × β × γ => g z.1 z.2.1 z.2.2) : Measurable fun z : α × β × γ × ι => g z.1 z.2.1 z.2.2.1 := by
  have h2 : Measurable fun z : α × β × γ × ι => ((z.1, z.2.1, z.2.2.1) : α × β × γ) := by fun_prop
  exact h.comp h2

/-- The states of a run. -/
def Alg3Inv (d : ℕ) (σ C δ : ℝ) (init : Vec d × Vec d × Mat d d) (k : ℕ) (x : Vec d × Vec d × Mat d d) : Prop :=
  x.2.2.PosSemidef ∧ (σ ^ 2)⁻¹ * x.2.2.trace ≤ Real.exp (C * δ * k) * (k * (d * δ ^ 3 / 3)) ∧ (k = 0 → x = init)

theorem alg3_trace_of {σ : ℝ} (hσ : σ ≠ 0) (C p : Mat d d) (h : C = σ ^ 2 • p) : (σ ^ 2)⁻¹ * C.trace = p.trace := by
  rw [h, trace_smul, smul_eq_mul, inv_mul_cancel_left₀ (pow_ne_zero 2 hσ)]

theorem gronwall_step {C δ c t t' : ℝ} {k : ℕ} (hC : 0 ≤ C) (hδ : 0 ≤ δ) (hc : 0 ≤ c) (h : t' ≤ (1 + C * δ) * t + c)
    (ht : t ≤ Real.exp (C * δ * k) * (k * c)) : t' ≤ Real.exp (C * δ * (k + 1 : ℕ)) * ((k + 1 : ℕ) * c) := by
  have e1 : Real.exp (C * δ * (k + 1 : ℕ)) = Real.exp (C * δ) * Real.exp (C * δ * k) := by rw [← Real.exp_add]; push_cast; ring_nf
  have h1 : 1 + C * δ ≤ Real.exp (C * δ) := by linarith [Real.add_one_le_exp (C * δ)]
  have h2 : 1 ≤ Real.exp (C * δ * (k + 1 : ℕ)) := Real.one_le_exp (by positivity)
  have h3 : (1 + C * δ) * t ≤ Real.exp (C * δ) * (Real.exp (C * δ * k) * (k * c)) := by
    refine (mul_le_mul_of_nonneg_left ht (by positivity)).trans (mul_le_mul_of_nonneg_right h1 (by positivity))
  rw [← mul_assoc, ← e1] at h3
  push_cast at h2 h3 ⊢
  nlinarith

set_option maxHeartbeats 400000 in
/-- C111: Algorithm 3 with EKF1 and one filter step per interval, when the Jacobian of the drift does not change in the directions of the
noise, and changes at a bounded rate along the drift. The means that the low-memory solver carries stay, in mean square, within order one of
the Euler-Maruyama solution computed from the same Brownian path. So do the samples: their square distance is below an integrable function
whose mean is of order two. The covariances are of order two. Without the first hypothesis the claim is false (`C111_fails`). -/
theorem C111_measured_partial {la : LinAlg} (hla : la.Correct) {f : Field d} {Df : Vec d → ℝ → Vec d →L[ℝ] Vec d} {T L K Lt η : ℝ}
    (hT : 0 < T) (hf : SmoothField f Df T L K) (htl : TimeLipschitz f T Lt) (S : Mat d m) (x0 : Vec d)
    (hnoise : ∀ x v, ∀ t ∈ Icc 0 T, Df (x + S *ᵥ v) t = Df x t)
    (hJJ : ∀ x, ∀ s ∈ Icc 0 T, ∀ t ∈ Icc 0 T, s ≤ t → ‖Df (x + (t - s) • f x s) t - Df x s‖ ≤ η * (t - s)) :
    ∃ A : ℝ, ∀ {Ω : Type} [MeasurableSpace Ω] {Q : Measure Ω} {R : Ω → Rng}, IdealNormals Q R → ∀ N : ℕ, 0 < N →
      ∀ r : ℕ, 0 < r → ∀ σ : ℝ, σ ≠ 0 → ∀ (sqrt : Bool) (key : Key) (odeInt : Ω → OdeInt (Vec d × Vec d × Mat d d) d),
      (∀ ω k x vf, Ekf.ekf2 la (R ω) false (some k) x vf (T / N) 1 sqrt
        (some ⟨_, IOUP.transition 0 σ 1 (T / N) d⟩) none = .ok (odeInt ω k x vf (T / N))) →
      ∀ n ≤ N, ∃ (y μ z : Ω → Vec d) (C : Ω → Mat d d) (g : Ω → ℝ),
        (∀ ω, ∃ ts traj traj2, ramSolver (R ω) key f (fun _ _ => S) (x0, x0, 0) x0 (T / N) N r (odeInt ω) = .ok (ts, traj, traj2) ∧
          ts[n]? = some (n * (T / N)) ∧ traj[n]? = some (y ω, μ ω, C ω) ∧ traj2[n]? = some (z ω)) ∧
        (∀ ω, (C ω).PosSemidef ∧ (C ω).trace ≤ A * σ ^ 2 * (T / N) ^ 2) ∧
        Integrable (fun ω => ‖μ ω - z ω‖ ^ 2) Q ∧ ∫ ω, ‖μ ω - z ω‖ ^ 2 ∂Q ≤ A * (T / N) ^ 2 ∧
        (∀ ω, ‖y ω - z ω‖ ^ 2 ≤ g ω) ∧ Integrable g Q ∧ ∫ ω, g ω ∂Q ≤ A * (1 + σ ^ 2) * (T / N) ^ 2 := by
  wlog hL : 0 ≤ L generalizing L
  · refine this (L := 0) ⟨hf.cont, fun x y t ht => (hf.lip x y t ht).trans ?_, hf.deriv, hf.jac⟩ le_rfl
    exact mul_le_mul_of_nonneg_right (not_le.mp hL).le (norm_nonneg _)
  wlog hη : 0 ≤ η generalizing η
  · refine this (η := 0) (fun x s hs t ht hst => (hJJ x s hs t ht hst).trans ?_) le_rfl
    exact mul_le_mul_of_nonneg_right (not_le.mp hη).le (by linarith)
  have hkI : ∀ N k : ℕ, k < N → T / N + (k : ℝ) * (T / N) ∈ Icc 0 T ∧ (k : ℝ) * (T / N) ∈ Icc 0 T := fun N k hk => by
    have hN' : (0 : ℝ) < N := by exact_mod_cast (by omega : 0 < N)
    have h1 : ((k + 1 : ℕ) : ℝ) * (T / N) ≤ N * (T / N) := mul_le_mul_of_nonneg_right (by exact_mod_cast hk) (by positivity)
    rw [mul_div_cancel₀ T hN'.ne'] at h1
    push_cast at h1
    have h2 : 0 < T / N := by positivity
    exact ⟨⟨by positivity, by linarith⟩, ⟨by positivity, by linarith⟩⟩
  obtain ⟨J, hJd⟩ : ∃ J : ℕ → Unit → ℕ → Vec d × (Fin d → Fin d → ℝ) → Vec m → Vec m → Vec 1 → Vec d × (Fin d → Fin d → ℝ),
      ∀ N p k e a b ξ, J N p k e a b ξ = alg3Step f S (k * (T / N)) (T / N) e a b := ⟨_, fun _ _ _ _ _ _ _ => rfl⟩
  have hJm : ∀ (N : ℕ) (p : Unit), True → ∀ k < N, Measurable fun z : (Vec d × (Fin d → Fin d → ℝ)) × Vec m × Vec m × Vec 1 =>
      J N p k z.1 z.2.1 z.2.2.1 z.2.2.2 := fun N p _ k hk => by
    have h1 := measurable_alg3Step hf.cont S (fun x => hf.deriv x _ (hkI N k hk).2) (hf.continuous_jac hT (hkI N k hk).2)
      (fun x => hf.deriv x _ (hkI N k hk).1) (hf.continuous_jac hT (hkI N k hk).1)
    have e : (fun z : (Vec d × (Fin d → Fin d → ℝ)) × Vec m × Vec m × Vec 1 => J N p k z.1 z.2.1 z.2.2.1 z.2.2.2) =
        fun z => alg3Step f S (k * (T / N)) (T / N) z.1 z.2.1 z.2.2.1 := funext fun z => hJd _ _ _ _ _ _ _
    rw [e]
    exact measurable_drop h1
  obtain ⟨A, hA⟩ := measured_ms_state (q := 1) hT hf htl S x0 (ι := Unit) ((x0, 0) : Vec d × (Fin d → Fin d → ℝ)) (ρ := Prod.fst) measurable_fst
    (Adm := fun _ _ => True) (J := J) (v := fun _ => 0) hJm (fun hB X hX => by
      obtain ⟨A, -, hA⟩ := alg3_strong (hB.comp_inj (Fin.castAdd_injective m 1)) hT hf htl hη hJJ S x0 hX
      refine ⟨A, fun N hN _ _ c hc Y hY0 hYs n hn => ?_⟩
      rw [zero_pow two_ne_zero, add_zero, mul_one]
      refine hA N hN (fun ω k => firstV (c ω k).1) (fun ω k => firstV (c ω k).2) ?_ Y hY0 (fun k hk ω => (hYs k hk ω).trans (hJd _ _ _ _ _ _ _)) n hn
      filter_upwards [hc] with ω hω k hk
      exact (hω k hk).comp (Fin.castAdd 1))
  obtain ⟨C, hC, htr⟩ := alg3_trace d hL hT.le
  obtain ⟨τ, hτ⟩ : ∃ τ, τ = Real.exp (C * T) * (T * (d / 3)) := ⟨_, rfl⟩
  have hτ0 : 0 ≤ τ := by rw [hτ]; positivity
  refine ⟨2 * |A| + τ + τ * (2 * d) * (2 * (2 * d)), ?_⟩
  intro Ω _ Q R hR N hN r hr σ hσ sqrt key odeInt hode n hn
  have hN' : (0 : ℝ) < N := by exact_mod_cast hN
  have hσ2 : 0 < σ ^ 2 := by positivity
  obtain ⟨δ, hδdef⟩ : ∃ δ, δ = T / N := ⟨_, rfl⟩
  have hδ : 0 < δ := by rw [hδdef]; positivity
  have hNδ : (N : ℝ) * δ = T := by rw [hδdef]; field_simp
  have hδT : δ ≤ T := by
    have h1 : (1 : ℝ) ≤ N := by exact_mod_cast hN
    rw [← hNδ]
    nlinarith
  have hA' := hA hR N hN () trivial r hr key ((x0, x0, 0) : Vec d × Vec d × Mat d d) (fun x => (x.2.1, fun i j => (σ ^ 2)⁻¹ * x.2.2 i j))
    (Alg3Inv d σ C δ (x0, x0, 0)) odeInt
  have hkI' := hkI N
  rw [← hδdef] at hode hA' hkI' ⊢
  have hstep := fun k (hk : k < N) => alg3_hint1 hla (S := S) (a0 := k * δ) hσ hδ hode (fun x => (hf.deriv x _ (hkI' k hk).2).differentiableAt)
    (fun x => (hf.deriv x _ (hkI' k hk).1).differentiableAt) (fun x v => by
      rw [(hf.deriv _ _ (hkI' k hk).1).fderiv, (hf.deriv _ _ (hkI' k hk).1).fderiv, hnoise x v _ (hkI' k hk).1])
  obtain ⟨y, z, h1, hI, hs', hm, h2, h3⟩ := hA'
    (Prod.ext rfl (funext fun i => funext fun j => by simp)) ⟨PosSemidef.zero, by simp, fun _ => rfl⟩
    (fun ω κ x k hk hx a b => by
      obtain ⟨g1, U, g2, g3⟩ := hstep k hk ω κ x hx.1 a b
      rw [g3]
      rw [hJd, ← hδdef]
      refine ⟨⟨g1.smul hσ2.le, ?_, fun h => absurd h (Nat.succ_ne_zero k)⟩, Prod.ext rfl ?_⟩
      · rw [alg3_trace_of hσ _ _ rfl]
        refine gronwall_step hC hδ.le (by positivity) (htr hδ hδT (p := of fun i j => (σ ^ 2)⁻¹ * x.2.2 i j) ?_ ?_) ?_
        · exact hx.1.smul (by positivity : 0 ≤ (σ ^ 2)⁻¹)
        · show ‖alg3J0 f (k * δ) x.2.1‖ ≤ L
          rw [alg3J0_eq (hf.deriv _ _ (hkI' k hk).2), norm_toMatrix]
          exact hf.norm_jac_le hL (hkI' k hk).2 _
        · refine le_trans (le_of_eq ?_) hx.2.1
          show ((σ ^ 2)⁻¹ • x.2.2).trace = _
          rw [trace_smul, smul_eq_mul]
      · funext i j
        show (σ ^ 2)⁻¹ * (σ ^ 2 * _) = _
        rw [inv_mul_cancel_left₀ hσ2.ne']
        rfl) n hn
  have htn : ∀ ω, (σ ^ 2)⁻¹ * (y ω).2.2.trace ≤ τ * δ ^ 2 := fun ω => by
    have hnδ : (n : ℝ) * δ ≤ T := by
      rw [← hNδ]
      exact mul_le_mul_of_nonneg_right (by exact_mod_cast hn) hδ.le
    refine (hI ω).2.1.trans ?_
    rw [hτ]
    calc Real.exp (C * δ * n) * (n * (d * δ ^ 3 / 3)) ≤ Real.exp (C * T) * (n * (d * δ ^ 3 / 3)) := by
          refine mul_le_mul_of_nonneg_right (Real.exp_le_exp.mpr ?_) (by positivity)
          nlinarith
      _ = Real.exp (C * T) * ((n * δ) * (d / 3)) * δ ^ 2 := by ring
      _ ≤ _ := by gcongr
  obtain ⟨ξ, hξ⟩ : ∃ ξ : Ω → Vec (d * (0 + 2)), ∀ ω, ξ ω = (R ω).normalVec ((key.child N (n - 1)).child 2 1) (d * (0 + 2)) := ⟨_, fun _ => rfl⟩
  have hdraw : ∀ ω, ‖(y ω).1 - (y ω).2.1‖ ^ 2 ≤ σ ^ 2 * (τ * δ ^ 2) * (2 * d) * ‖ξ ω‖ ^ 2 := fun ω => by
    rcases n with _ | k
    · rw [(hI ω).2.2 rfl]
      simp only [sub_self, norm_zero, ne_eq, OfNat.ofNat_ne_zero, not_false_eq_true, zero_pow]
      positivity
    · obtain ⟨x, a, b, hx, hyx⟩ := hs' ω k rfl
      obtain ⟨g1, U, g2, g3⟩ := hstep k (by omega) ω ((key.child N k).child 2 1) x hx.1 a b
      have hyC := (congrArg (fun x : Vec d × Vec d × Mat d d => x.2.2) (hyx.trans g3))
      have htr' := htn ω
      rw [alg3_trace_of hσ _ _ hyC] at htr'
      have h5 := alg3_sample g2 htr' (ξ ω)
      have hyd : (y ω).1 - (y ω).2.1 = U *ᵥ ξ ω := by
        rw [hyx.trans g3, hξ]
        simp only [add_sub_cancel_left]
        rfl
      rw [hyd]
      exact h5
  have hξs := (normalVec_std hR ((key.child N (n - 1)).child 2 1) (d * (0 + 2))).norm_sq
  simp only [← hξ] at hξs
  have hξ2 : ∫ ω, ‖ξ ω‖ ^ 2 ∂Q ≤ 2 * d := by
    refine hξs.2.trans (le_of_eq ?_)
    rw [trace_one, Fintype.card_fin]
    push_cast
    ring
  simp only [zero_pow, ne_eq, OfNat.ofNat_ne_zero, not_false_eq_true, add_zero, mul_one] at h2 h3
  refine ⟨fun ω => (y ω).1, fun ω => (y ω).2.1, z, fun ω => (y ω).2.2,
    fun ω => 2 * (σ ^ 2 * (τ * δ ^ 2) * (2 * d) * ‖ξ ω‖ ^ 2) + 2 * ‖(y ω).2.1 - z ω‖ ^ 2, h1, fun ω => ⟨(hI ω).1, ?_⟩, h2, ?_, fun ω => ?_,
    ((hξs.1.const_mul _).const_mul 2).add (h2.const_mul 2), ?_⟩
  · have h5 := htn ω
    rw [inv_mul_le_iff₀ hσ2] at h5
    refine h5.trans ?_
    have h6 : τ * (σ ^ 2 * δ ^ 2) ≤ (2 * |A| + τ + τ * (2 * d) * (2 * (2 * d))) * (σ ^ 2 * δ ^ 2) := by
      refine mul_le_mul_of_nonneg_right ?_ (by positivity)
      have : 0 ≤ τ * (2 * d) * (2 * (2 * d)) := by positivity
      linarith [abs_nonneg A]
    linarith
  · refine h3.trans (mul_le_mul_of_nonneg_right ?_ (sq_nonneg δ))
    have : 0 ≤ τ * (2 * d) * (2 * (2 * d)) := by positivity
    linarith [abs_nonneg A, le_abs_self A]
  · have h5 : ‖(y ω).1 - z ω‖ ≤ ‖(y ω).1 - (y ω).2.1‖ + ‖(y ω).2.1 - z ω‖ := by
      rw [show (y ω).1 - z ω = ((y ω).1 - (y ω).2.1) + ((y ω).2.1 - z ω) by abel]
      exact norm_add_le _ _
    have h6 := hdraw ω
    show ‖(y ω).1 - z ω‖ ^ 2 ≤ _
    nlinarith [norm_nonneg ((y ω).1 - z ω), sq_nonneg (‖(y ω).1 - (y ω).2.1‖ - ‖(y ω).2.1 - z ω‖)]
  · rw [integral_add ((hξs.1.const_mul _).const_mul 2) (h2.const_mul 2), integral_const_mul, integral_const_mul, integral_const_mul]
    have h5 : σ ^ 2 * (τ * δ ^ 2) * (2 * d) * ∫ ω, ‖ξ ω‖ ^ 2 ∂Q ≤ σ ^ 2 * (τ * δ ^ 2) * (2 * d) * (2 * d) :=
      mul_le_mul_of_nonneg_left hξ2 (by positivity)
    have h6 : A * δ ^ 2 ≤ |A| * δ ^ 2 := mul_le_mul_of_nonneg_right (le_abs_self A) (sq_nonneg δ)
    have h7 : 0 ≤ 2 * |A| * σ ^ 2 * δ ^ 2 + τ * (1 + σ ^ 2) * δ ^ 2 + τ * (2 * d) * (2 * (2 * d)) * δ ^ 2 := by positivity
    have h8 : ∫ ω, ‖(y ω).2.1 - z ω‖ ^ 2 ∂Q ≤ A * δ ^ 2 := h3
    linarith

/-- Algorithm 3 with EKF1 only evaluates the field near the mean. -/
theorem alg3_local {f g : Field d} {Dg : Vec d → ℝ → Vec d →L[ℝ] Vec d} {T L K F ρ s : ℝ} (hF : 0 ≤ F) (hg : SmoothField g Dg T L K) (hs : 0 ≤ s) {S : Mat d m}
    (hS : ∀ v, ‖S *ᵥ v‖ ≤ s * ‖v‖) (hgF : ∀ x t, ‖g x t‖ ≤ F)
    (heq : ∀ x, ‖x‖ ≤ ρ + 1 → ∀ t ∈ Icc 0 T, g x t = f x t) {δ a0 : ℝ} (hδ : 0 < δ) (hδF : δ * F ≤ 1 / 8) (ha0 : 0 ≤ a0) (haT : a0 + δ ≤ T)
    {e : Vec d × (Fin d → Fin d → ℝ)} (hy : ‖e.1‖ ≤ ρ + 1 / 2) {a b : Vec m}
    (hsl : ∀ t ∈ Icc 0 δ, ‖jacT (fun s => Foster.evalParabola s δ a b) t‖ ≤ 10 * (1 / (40 * (s + 1))) / δ) :
    alg3Step f S a0 δ e a b = alg3Step g S a0 δ e a b := by
  have hsκ : s * (10 * (1 / (40 * (s + 1))) / δ) * δ ≤ 1 / 4 := by
    have h1 : s * (10 * (1 / (40 * (s + 1))) / δ) * δ = s / (s + 1) * (1 / 4) := by field_simp; ring
    rw [h1]
    have h2 : s / (s + 1) ≤ 1 := (div_le_one (by positivity)).mpr (by linarith)
    linarith
  have hI : δ + a0 ∈ Icc 0 T := ⟨by positivity, by linarith⟩
  have hI0 : a0 ∈ Icc 0 T := ⟨ha0, by linarith⟩
  have hz : ‖e.1 + δ • additiveField g S a0 δ a b e.1 0‖ < ρ + 1 := by
    have h1 : ‖additiveField g S a0 δ a b e.1 0‖ ≤ F + s * (10 * (1 / (40 * (s + 1))) / δ) :=
      (norm_add_le _ _).trans (add_le_add (hgF _ _) ((hS _).trans (mul_le_mul_of_nonneg_left (hsl 0 ⟨le_rfl, hδ.le⟩) hs)))
    have h2 : ‖δ • additiveField g S a0 δ a b e.1 0‖ ≤ 1 / 8 + 1 / 4 := by
      rw [norm_smul, Real.norm_eq_abs, abs_of_pos hδ]
      refine (mul_le_mul_of_nonneg_left h1 hδ.le).trans ?_
      rw [mul_add, mul_comm δ (s * _)]
      linarith
    refine (norm_add_le _ _).trans_lt ?_
    linarith
  have hw : ‖e.1 + δ • g e.1 a0‖ < ρ + 1 := by
    have h2 : ‖δ • g e.1 a0‖ ≤ 1 / 8 := by
      rw [norm_smul, Real.norm_eq_abs, abs_of_pos hδ]
      exact (mul_le_mul_of_nonneg_left (hgF _ _) hδ.le).trans hδF
    refine (norm_add_le _ _).trans_lt ?_
    linarith
  have h0 : g e.1 a0 = f e.1 a0 := heq e.1 (hy.trans (by linarith)) a0 hI0
  have e0 : additiveField f S a0 δ a b e.1 0 = additiveField g S a0 δ a b e.1 0 := by simp only [additiveField, zero_add, h0]
  have hev : ∀ x, ‖x‖ < ρ + 1 → ∀ t ∈ Icc 0 T, jac (fun z => f z t) x = jac (fun z => g z t) x := fun x hx t ht => by
    have h : (fun z => f z t) =ᶠ[nhds x] fun z => g z t := by
      filter_upwards [(isOpen_lt continuous_norm continuous_const).mem_nhds hx] with z hz
      exact (heq z (le_of_lt hz) t ht).symm
    exact (jac_eq_toMatrix ((hg.deriv x t ht).congr_of_eventuallyEq h)).trans (jac_eq_toMatrix (hg.deriv x t ht)).symm
  have ej0 : alg3J0 f a0 e.1 = alg3J0 g a0 e.1 := hev _ (lt_of_le_of_lt hy (by linarith)) a0 hI0
  have ej1 : alg3J1 f a0 δ e.1 = alg3J1 g a0 δ e.1 := by
    rw [alg3J1, alg3J1, ← h0]
    exact hev _ hw _ hI
  have e1 : additiveField f S a0 δ a b (e.1 + δ • additiveField g S a0 δ a b e.1 0) δ =
      additiveField g S a0 δ a b (e.1 + δ • additiveField g S a0 δ a b e.1 0) δ := by
    simp only [additiveField]
    rw [heq _ (by simpa only [additiveField] using hz.le) _ hI]
  have em : alg3Mean (additiveField f S a0 δ a b) δ (alg3J0 g a0 e.1) (alg3J1 g a0 δ e.1) (of e.2) e.1 =
      alg3Mean (additiveField g S a0 δ a b) δ (alg3J0 g a0 e.1) (alg3J1 g a0 δ e.1) (of e.2) e.1 := by
    simp only [alg3Mean, e0, e1]
  simp only [alg3Step, ej0, ej1, em]

/-- The scheme, as a function of the number of intervals. -/
noncomputable def alg3Scheme (S : Mat d m) (T : ℝ) (f : Field d) (N : ℕ) (_ : Unit) (k : ℕ) (e : Vec d × (Fin d → Fin d → ℝ)) (a b : Vec m) (_ : Vec 1) :
    Vec d × (Fin d → Fin d → ℝ) := alg3Step f S (k * (T / N)) (T / N) e a b

theorem alg3Scheme_eq (S : Mat d m) (T : ℝ) (f : Field d) (N : ℕ) (p : Unit) (k : ℕ) (e : Vec d × (Fin d → Fin d → ℝ)) (a b : Vec m) (ξ : Vec 1) :
    alg3Scheme S T f N p k e a b ξ = alg3Step f S (k * (T / N)) (T / N) e a b := rfl

/-- States whose covariance is too large. -/
def alg3Bad (d : ℕ) (T A : ℝ) (N : ℕ) : Set (Vec d × (Fin d → Fin d → ℝ)) := {e | A * (T / N) ^ 2 < ∑ i, e.2 i i}

theorem alg3_bad (S : Mat d m) {f : Field d} (hf : ContDiff ℝ 2 (Function.uncurry f)) {T : ℝ} (hT : 0 < T) (x0 : Vec d) (Λ : ℝ) : ∃ A0 : ℝ, ∀ A ≥ A0,
    ∀ N : ℕ, 0 < N → ∀ p : Unit, True → ∀ e : ℕ → Vec d × (Fin d → Fin d → ℝ), e 0 = (x0, 0) →
      (∀ k < N, ∃ a b ξ, e (k + 1) = alg3Scheme S T f N p k (e k) a b ξ) → (∀ k ≤ N, ‖(e k).1‖ ≤ Λ) → ∀ n ≤ N, e n ∉ alg3Bad d T A N := by
  have hDc : Continuous fun z : Vec d × ℝ => (fderiv ℝ (Function.uncurry f) z).comp (ContinuousLinearMap.inl ℝ (Vec d) ℝ) :=
    (hf.continuous_fderiv (by norm_num)).clm_comp continuous_const
  obtain ⟨L, hL⟩ := ((isCompact_closedBall (0 : Vec d) Λ).prod (isCompact_Icc (a := 0) (b := T))).exists_bound_of_continuousOn hDc.continuousOn
  obtain ⟨τ, hτ, hcov⟩ := alg3_cov d (abs_nonneg L) hT.le
  refine ⟨τ, fun A hA N hN p _ e he0 hes hb n hn => ?_⟩
  have hN' : (0 : ℝ) < N := by exact_mod_cast hN
  have h := (hcov hN (by positivity : 0 < T / N) (by field_simp) (p := fun k => of (e k).2) (J0 := fun k => alg3J0 f (k * (T / N)) (e k).1)
    (J1 := fun k => alg3J1 f (k * (T / N)) (T / N) (e k).1) (by rw [he0]; rfl) (fun k hk => by
      obtain ⟨a, b, ξ, h⟩ := hes k hk
      rw [h, alg3Scheme_eq]
      rfl) (fun k hk => by
      have hkI : (k : ℝ) * (T / N) ∈ Icc 0 T := by
        refine ⟨by positivity, ?_⟩
        calc (k : ℝ) * (T / N) ≤ N * (T / N) := mul_le_mul_of_nonneg_right (by exact_mod_cast hk.le) (by positivity)
          _ = T := by field_simp
      show ‖alg3J0 f (k * (T / N)) (e k).1‖ ≤ |L|
      rw [alg3J0_eq (hasFDerivAt_left hf _ _), norm_toMatrix]
      exact (hL ((e k).1, k * (T / N)) ⟨by simpa using hb k hk.le, hkI⟩).trans (le_abs_self L)) n hn).2
  simp only [alg3Bad, mem_setOf_eq, not_lt]
  exact h.trans (mul_le_mul_of_nonneg_right hA (sq_nonneg _))

set_option maxHeartbeats 1000000 in
/-- C111: the same for a drift with two continuous derivatives whose equation has a solution along every continuous path of the noise, and
whose Jacobian does not change in the directions of the noise. For every level `ε` the distances exceed `A δ`, and the covariance exceeds
`A σ² δ²`, with probability at most `ε`, with one constant for all numbers of fine steps, all sufficiently large numbers of intervals, and
all prior scales `|σ| ≤ s₀`. -/
theorem C111_prob_partial {la : LinAlg} (hla : la.Correct) {f : Field d} (hf : ContDiff ℝ 2 (Function.uncurry f)) {T : ℝ}
    (hT : 0 < T) (S : Mat d m) (x0 : Vec d) (hsol : ∀ w : ℝ → Vec m, Continuous w → ∃ x, SolvesAdditive f S w x0 T x)
    (hnoise : ∀ x v, ∀ t ∈ Icc 0 T, fderiv ℝ (fun z => f z t) (x + S *ᵥ v) = fderiv ℝ (fun z => f z t) x) (s0 : ℝ) {ε : ℝ} (hε : 0 < ε) :
    ∃ (A : ℝ) (N0 : ℕ), ∀ {Ω : Type} [MeasurableSpace Ω] {Q : Measure Ω} {R : Ω → Rng}, IdealNormals Q R → ∀ N ≥ N0,
      ∀ r : ℕ, 0 < r → ∀ σ : ℝ, σ ≠ 0 → |σ| ≤ s0 → ∀ (sqrt : Bool) (key : Key) (odeInt : Ω → OdeInt (Vec d × Vec d × Mat d d) d),
      (∀ ω k x vf, Ekf.ekf2 la (R ω) false (some k) x vf (T / N) 1 sqrt
        (some ⟨_, IOUP.transition 0 σ 1 (T / N) d⟩) none = .ok (odeInt ω k x vf (T / N))) →
      ∀ n ≤ N, ∃ (y μ z : Ω → Vec d) (C : Ω → Mat d d),
        (∀ ω, ∃ ts traj traj2, ramSolver (R ω) key f (fun _ _ => S) (x0, x0, 0) x0 (T / N) N r (odeInt ω) = .ok (ts, traj, traj2) ∧
          ts[n]? = some (n * (T / N)) ∧ traj[n]? = some (y ω, μ ω, C ω) ∧ traj2[n]? = some (z ω)) ∧
        (∀ ω, (C ω).PosSemidef) ∧ Q {ω | A * σ ^ 2 * (T / N) ^ 2 < (C ω).trace} ≤ ENNReal.ofReal ε ∧
        Q {ω | A * (T / N) < ‖μ ω - z ω‖} ≤ ENNReal.ofReal ε ∧ Q {ω | A * (T / N) < ‖y ω - z ω‖} ≤ ENNReal.ofReal ε := by
  obtain ⟨s, hs, hS⟩ := exists_mulVec_bound S
  obtain ⟨A, N0, hA⟩ := measured_prob_state_bad (q := 1) hf hT S x0 hsol (half_pos hε) (ι := Unit) ((x0, 0) : Vec d × (Fin d → Fin d → ℝ))
    (ρ := Prod.fst) measurable_fst (Adm := fun _ _ => True) (J := alg3Scheme S T f) (bad := alg3Bad d T)
    (fun A N => measurableSet_lt measurable_const (by fun_prop))
    (fun A A' N hAA e he => lt_of_le_of_lt (mul_le_mul_of_nonneg_right hAA (sq_nonneg _)) he)
    (fun N p _ k _ => measurable_drop (measurable_alg3Step hf.continuous S (fun x => hasFDerivAt_left hf x _) (continuous_fderiv_left hf _)
      (fun x => hasFDerivAt_left hf x _) (continuous_fderiv_left hf _))) (fun hB X hX =>
      prob_order_state hB hf hT S x0 hX ((x0, 0) : Vec d × (Fin d → Fin d → ℝ)) (ρ := Prod.fst) (J := alg3Scheme S T) (bad := alg3Bad d T)
        (Adm := fun _ _ => True) (κ := 1 / (40 * (s + 1))) (by positivity) (fun g Dg L K F X' hL hg hgt hgF hX' => by
          have hF : 0 ≤ F := (norm_nonneg _).trans (hgF 0 0)
          have hK := hg.jac_const_nonneg hT
          obtain ⟨A, -, hA⟩ := alg3_strong (hB.comp_inj (Fin.castAdd_injective m 1)) hT hg hgt (η := K * (F + 1)) (by positivity)
            (fun x s hs t ht hst => by
              refine (hg.jac _ _ _ ht _ hs).trans ?_
              rw [add_sub_cancel_left, norm_smul, Real.norm_eq_abs, abs_of_nonneg (by linarith : 0 ≤ t - s), mul_assoc]
              refine mul_le_mul_of_nonneg_left ?_ hK
              have := mul_le_mul_of_nonneg_left (hgF x s) (by linarith : 0 ≤ t - s)
              linarith) S x0 hX'
          refine ⟨A, fun N hN _ _ c hc Y hY0 hYs n hn => ?_⟩
          refine hA N hN (fun ω k => firstV (c ω k).1) (fun ω k => firstV (c ω k).2) ?_ Y hY0 (fun k hk ω => (hYs k hk ω).trans (alg3Scheme_eq _ _ _ _ _ _ _ _ _ _)) n hn
          filter_upwards [hc] with ω hω k hk
          exact (hω k hk).comp (Fin.castAdd 1))
        (fun g Dg L K F ρ hF hg _ _ hgF heq => by
          obtain ⟨N3, hN3⟩ := exists_small_step F hT (by norm_num : (0 : ℝ) < 1 / 8)
          refine ⟨N3, fun N hN hN0 p hp k hk y a b ξ hy hsl => ?_⟩
          have hN' : (0 : ℝ) < N := by exact_mod_cast hN0
          rw [alg3Scheme_eq, alg3Scheme_eq]
          refine alg3_local hF hg hs hS hgF heq (by positivity : 0 < T / N) (hN3 N hN hN0) (by positivity : 0 ≤ (k : ℝ) * (T / N))
            ?_ hy hsl
          have h1 : ((k + 1 : ℕ) : ℝ) * (T / N) ≤ N * (T / N) := mul_le_mul_of_nonneg_right (by exact_mod_cast hk) (by positivity)
          rw [mul_div_cancel₀ T hN'.ne'] at h1
          push_cast at h1
          linarith) (alg3_bad S hf hT x0) (half_pos (half_pos hε)))
  obtain ⟨G, hG⟩ : ∃ G : ℝ, G = Real.sqrt (2 * (2 * d + 1) / ε) := ⟨_, rfl⟩
  have hG0 : 0 < G := by rw [hG]; exact Real.sqrt_pos.mpr (by positivity)
  have hG2 : G ^ 2 = 2 * (2 * d + 1) / ε := by rw [hG]; exact Real.sq_sqrt (by positivity)
  obtain ⟨H, hH⟩ : ∃ H : ℝ, H = Real.sqrt (s0 ^ 2 * |A| * (2 * d)) * G := ⟨_, rfl⟩
  have hH0 : 0 ≤ H := by rw [hH]; positivity
  have hH2 : H ^ 2 = s0 ^ 2 * |A| * (2 * d) * G ^ 2 := by rw [hH, mul_pow, Real.sq_sqrt (by positivity)]
  refine ⟨|A| + H, N0 + 1, ?_⟩
  intro Ω _ Q R hR N hN r hr σ hσ hσ0 sqrt key odeInt hode n hn
  haveI : IsProbabilityMeasure Q := (hR.law [] [1] 0 one_pos).isProbabilityMeasure
  have hN' : (0 : ℝ) < N := by exact_mod_cast (by omega : 0 < N)
  have hσ2 : 0 < σ ^ 2 := by positivity
  have hσs : σ ^ 2 ≤ s0 ^ 2 := by
    rw [← sq_abs σ]
    exact pow_le_pow_left₀ (abs_nonneg _) hσ0 2
  have hkI : ∀ k : ℕ, k < N → T / N + (k : ℝ) * (T / N) ∈ Icc 0 T := fun k hk => by
    have h1 : ((k + 1 : ℕ) : ℝ) * (T / N) ≤ N * (T / N) := mul_le_mul_of_nonneg_right (by exact_mod_cast hk) (by positivity)
    rw [mul_div_cancel₀ T hN'.ne'] at h1
    push_cast at h1
    exact ⟨by positivity, by linarith⟩
  obtain ⟨δ, hδdef⟩ : ∃ δ, δ = T / N := ⟨_, rfl⟩
  have hδ : 0 < δ := by rw [hδdef]; positivity
  have hA' := hA hR N (by omega) () trivial r hr key ((x0, x0, 0) : Vec d × Vec d × Mat d d) (fun x => (x.2.1, fun i j => (σ ^ 2)⁻¹ * x.2.2 i j))
    (fun k x => x.2.2.PosSemidef ∧ (k = 0 → x = (x0, x0, 0))) odeInt (Prod.ext rfl (funext fun i => funext fun j => by simp))
    ⟨PosSemidef.zero, fun _ => rfl⟩
  simp only [alg3Scheme_eq] at hA'
  rw [← hδdef] at hode hA' hkI ⊢
  have hstep := fun k (hk : k < N) => alg3_hint1 hla (S := S) (a0 := k * δ) hσ hδ hode (fun x => (hasFDerivAt_left hf x _).differentiableAt)
    (fun x => (hasFDerivAt_left hf x _).differentiableAt) (fun x v => hnoise x v _ (hkI k hk))
  obtain ⟨y, z, h1, hI, hs', h2⟩ := hA' (fun ω κ x k hk hx a b => by
      obtain ⟨g1, U, g2, g3⟩ := hstep k hk ω κ x hx.1 a b
      rw [g3]
      refine ⟨⟨g1.smul hσ2.le, fun h => absurd h (Nat.succ_ne_zero k)⟩, Prod.ext rfl ?_⟩
      funext i j
      show (σ ^ 2)⁻¹ * (σ ^ 2 * _) = _
      rw [inv_mul_cancel_left₀ hσ2.ne']
      rfl) n hn
  obtain ⟨ξ, hξ⟩ : ∃ ξ : Ω → Vec (d * (0 + 2)), ∀ ω, ξ ω = (R ω).normalVec ((key.child N (n - 1)).child 2 1) (d * (0 + 2)) := ⟨_, fun _ => rfl⟩
  have hbadC : ∀ ω, (σ ^ 2)⁻¹ * (y ω).2.2.trace ≤ |A| * δ ^ 2 ∨
      ω ∈ {ω | ((y ω).2.1, fun i j => (σ ^ 2)⁻¹ * (y ω).2.2 i j) ∈ alg3Bad d T A N} := fun ω => by
    by_contra hc
    simp only [not_or, not_le, alg3Bad, mem_setOf_eq, not_lt, ← hδdef] at hc
    have e : (σ ^ 2)⁻¹ * (y ω).2.2.trace = ∑ i, (σ ^ 2)⁻¹ * (y ω).2.2 i i := by rw [Matrix.trace, Finset.mul_sum]; rfl
    have h3 : A * δ ^ 2 ≤ |A| * δ ^ 2 := mul_le_mul_of_nonneg_right (le_abs_self A) (sq_nonneg δ)
    linarith [hc.1, hc.2]
  have hdraw : ∀ ω, (σ ^ 2)⁻¹ * (y ω).2.2.trace ≤ |A| * δ ^ 2 → ‖ξ ω‖ ≤ G → ‖(y ω).1 - (y ω).2.1‖ ≤ H * δ := fun ω htr' hξG => by
    rcases n with _ | k
    · rw [(hI ω).2 rfl]
      simp only [sub_self, norm_zero]
      positivity
    · obtain ⟨x, a, b, hx, hyx⟩ := hs' ω k rfl
      obtain ⟨g1, U, g2, g3⟩ := hstep k (by omega) ω ((key.child N k).child 2 1) x hx.1 a b
      have hyC := (congrArg (fun x : Vec d × Vec d × Mat d d => x.2.2) (hyx.trans g3))
      rw [alg3_trace_of hσ _ _ hyC] at htr'
      have h5 := alg3_sample g2 htr' (ξ ω)
      have hyd : (y ω).1 - (y ω).2.1 = U *ᵥ ξ ω := by
        rw [hyx.trans g3, hξ]
        simp only [add_sub_cancel_left]
        rfl
      rw [hyd]
      refine abs_le_of_sq_le_sq' (h5.trans ?_) (by positivity) |>.2
      rw [mul_pow, hH2]
      calc σ ^ 2 * (|A| * δ ^ 2) * (2 * d) * ‖ξ ω‖ ^ 2 ≤ s0 ^ 2 * (|A| * δ ^ 2) * (2 * d) * G ^ 2 := by gcongr
        _ = _ := by ring
  have hξs := (normalVec_std hR ((key.child N (n - 1)).child 2 1) (d * (0 + 2))).norm_sq
  simp only [← hξ] at hξs
  have hξ2 : ∫ ω, ‖ξ ω‖ ^ 2 ∂Q ≤ 2 * d + 1 := by
    refine hξs.2.trans ?_
    rw [trace_one, Fintype.card_fin]
    push_cast
    linarith
  have hξp : Q {ω | G < ‖ξ ω‖} ≤ ENNReal.ofReal (ε / 2) := by
    refine (prob_of_meanSquare hG0 hξs.1 hξ2).trans (ENNReal.ofReal_le_ofReal (le_of_eq ?_))
    rw [hG2]
    field_simp
  have hle : A * δ ≤ |A| * δ := mul_le_mul_of_nonneg_right (le_abs_self A) hδ.le
  have hHδ : 0 ≤ H * δ := by positivity
  have h2' := h2.trans (ENNReal.ofReal_le_ofReal (half_le_self hε.le))
  refine ⟨fun ω => (y ω).1, fun ω => (y ω).2.1, z, fun ω => (y ω).2.2, h1, fun ω => (hI ω).1, ?_, ?_, ?_⟩
  · refine (measure_mono fun ω hω => ?_).trans h2'
    rcases hbadC ω with h | h
    · exfalso
      rw [inv_mul_le_iff₀ hσ2] at h
      have h3 : (|A| + H) * σ ^ 2 * δ ^ 2 < (y ω).2.2.trace := hω
      have h4 : 0 ≤ H * σ ^ 2 * δ ^ 2 := by positivity
      linarith
    · exact Or.inr h
  · refine (measure_mono fun ω (hω : (|A| + H) * δ < ‖(y ω).2.1 - z ω‖) => Or.inl ?_).trans h2'
    show A * δ < ‖(y ω).2.1 - z ω‖
    linarith
  · have hsub : {ω | (|A| + H) * δ < ‖(y ω).1 - z ω‖} ⊆ ({ω | A * δ < ‖(y ω).2.1 - z ω‖} ∪
        {ω | ((y ω).2.1, fun i j => (σ ^ 2)⁻¹ * (y ω).2.2 i j) ∈ alg3Bad d T A N}) ∪ {ω | G < ‖ξ ω‖} := by
      intro ω (hω : (|A| + H) * δ < ‖(y ω).1 - z ω‖)
      by_contra hc
      simp only [mem_union, not_or] at hc
      obtain ⟨⟨hc1, hc2⟩, hc3⟩ := hc
      have h3 := hdraw ω ((hbadC ω).resolve_right hc2) (not_lt.mp hc3)
      have hc1' : ‖(y ω).2.1 - z ω‖ ≤ A * δ := not_lt.mp hc1
      have h : ‖(y ω).1 - z ω‖ ≤ ‖(y ω).1 - (y ω).2.1‖ + ‖(y ω).2.1 - z ω‖ := by
        rw [show (y ω).1 - z ω = ((y ω).1 - (y ω).2.1) + ((y ω).2.1 - z ω) by abel]
        exact norm_add_le _ _
      linarith
    refine (measure_mono hsub).trans ((measure_union_le _ _).trans ((add_le_add h2 hξp).trans (le_of_eq ?_)))
    rw [← ENNReal.ofReal_add (by positivity) (by positivity), add_halves]

/-- The Jacobian of FitzHugh-Nagumo does not change in the direction of its noise, which only drives the second component. -/
theorem fhn_noise {m : ℕ} (S : Mat 2 m) (hS : ∀ j, S 0 j = 0) (x : Vec 2) (v : Vec m) (t : ℝ) :
    fderiv ℝ (fun z => Ivp.Fhn.drift z t) (x + S *ᵥ v) = fderiv ℝ (fun z => Ivp.Fhn.drift z t) x := by
  have h0 : (S *ᵥ v) 0 = 0 := by
    simp [mulVec, dotProduct, hS]
  rw [← fderiv_comp_add_right (S *ᵥ v)]
  have e : (fun z : Vec 2 => Ivp.Fhn.drift (z + S *ᵥ v) t) =
      fun z => Ivp.Fhn.drift z t + !![1 / Ivp.Fhn.eps, -1 / Ivp.Fhn.eps; Ivp.Fhn.gamma, -1] *ᵥ (S *ᵥ v) := by
    funext z
    simp only [Ivp.Fhn.drift, mulVec_add, Pi.add_apply, h0, add_zero]
    abel
  rw [e, fderiv_add_const]

/-- C111: FitzHugh-Nagumo itself, as `ivp.py` defines it, with its own diffusion or with the padded square one. -/
theorem C111_fhn_partial {la : LinAlg} (hla : la.Correct) {T : ℝ} (hT : 0 < T) (s0 : ℝ) {ε : ℝ} (hε : 0 < ε) :
    (∃ (A : ℝ) (N0 : ℕ), ∀ {Ω : Type} [MeasurableSpace Ω] {Q : Measure Ω} {R : Ω → Rng}, IdealNormals Q R → ∀ N ≥ N0,
      ∀ r : ℕ, 0 < r → ∀ σ : ℝ, σ ≠ 0 → |σ| ≤ s0 → ∀ (sqrt : Bool) (key : Key) (odeInt : Ω → OdeInt (Vec 2 × Vec 2 × Mat 2 2) 2),
      (∀ ω k x vf, Ekf.ekf2 la (R ω) false (some k) x vf (T / N) 1 sqrt
        (some ⟨_, IOUP.transition 0 σ 1 (T / N) 2⟩) none = .ok (odeInt ω k x vf (T / N))) →
      ∀ n ≤ N, ∃ (y μ z : Ω → Vec 2) (C : Ω → Mat 2 2),
        (∀ ω, ∃ ts traj traj2, ramSolver (R ω) key Ivp.Fhn.drift Ivp.Fhn.sigma (Ivp.Fhn.x0, Ivp.Fhn.x0, 0) Ivp.Fhn.x0 (T / N) N r (odeInt ω) =
            .ok (ts, traj, traj2) ∧
          ts[n]? = some (n * (T / N)) ∧ traj[n]? = some (y ω, μ ω, C ω) ∧ traj2[n]? = some (z ω)) ∧
        (∀ ω, (C ω).PosSemidef) ∧ Q {ω | A * σ ^ 2 * (T / N) ^ 2 < (C ω).trace} ≤ ENNReal.ofReal ε ∧
        Q {ω | A * (T / N) < ‖μ ω - z ω‖} ≤ ENNReal.ofReal ε ∧ Q {ω | A * (T / N) < ‖y ω - z ω‖} ≤ ENNReal.ofReal ε) ∧
    (∃ (A : ℝ) (N0 : ℕ), ∀ {Ω : Type} [MeasurableSpace Ω] {Q : Measure Ω} {R : Ω → Rng}, IdealNormals Q R → ∀ N ≥ N0,
      ∀ r : ℕ, 0 < r → ∀ σ : ℝ, σ ≠ 0 → |σ| ≤ s0 → ∀ (sqrt : Bool) (key : Key) (odeInt : Ω → OdeInt (Vec 2 × Vec 2 × Mat 2 2) 2),
      (∀ ω k x vf, Ekf.ekf2 la (R ω) false (some k) x vf (T / N) 1 sqrt
        (some ⟨_, IOUP.transition 0 σ 1 (T / N) 2⟩) none = .ok (odeInt ω k x vf (T / N))) →
      ∀ n ≤ N, ∃ (y μ z : Ω → Vec 2) (C : Ω → Mat 2 2),
        (∀ ω, ∃ ts traj traj2, ramSolver (R ω) key Ivp.Fhn.drift Ivp.Fhn.sigmaSquare (Ivp.Fhn.x0, Ivp.Fhn.x0, 0) Ivp.Fhn.x0 (T / N) N r (odeInt ω) =
            .ok (ts, traj, traj2) ∧
          ts[n]? = some (n * (T / N)) ∧ traj[n]? = some (y ω, μ ω, C ω) ∧ traj2[n]? = some (z ω)) ∧
        (∀ ω, (C ω).PosSemidef) ∧ Q {ω | A * σ ^ 2 * (T / N) ^ 2 < (C ω).trace} ≤ ENNReal.ofReal ε ∧
        Q {ω | A * (T / N) < ‖μ ω - z ω‖} ≤ ENNReal.ofReal ε ∧ Q {ω | A * (T / N) < ‖y ω - z ω‖} ≤ ENNReal.ofReal ε) := by
  have e2 : Ivp.Fhn.sigmaSquare = fun _ _ => !![0, 0; Ivp.Fhn.sig, 0] := by
    funext x t
    simp [Ivp.Fhn.sigmaSquare, Ivp.Fhn.sigma]
  constructor
  · exact C111_prob_partial hla Ivp.Fhn.contDiff_drift hT (!![0; Ivp.Fhn.sig]) Ivp.Fhn.x0
      (fun w hw => Ivp.Fhn.exists_solution hT.le _ (fun j => by fin_cases j; rfl) w hw _)
      (fun x v t _ => fhn_noise _ (fun j => by fin_cases j; rfl) x v t) s0 hε
  · rw [e2]
    exact C111_prob_partial hla Ivp.Fhn.contDiff_drift hT (!![0, 0; Ivp.Fhn.sig, 0]) Ivp.Fhn.x0
      (fun w hw => Ivp.Fhn.exists_solution hT.le _ (fun j => by fin_cases j <;> rfl) w hw _)
      (fun x v t _ => fhn_noise _ (fun j => by fin_cases j <;> rfl) x v t) s0 hε

/-- An affine drift is smooth. -/
theorem smooth_affine (A : Mat d d) (c : Vec d) (T : ℝ) : ∃ L, SmoothField (fun (x : Vec d) (_ : ℝ) => A *ᵥ x + c)
    (fun _ _ => LinearMap.toContinuousLinearMap (mulVecLin A)) T L 0 := by
  obtain ⟨L, -, hL⟩ := exists_mulVec_bound A
  refine ⟨L, ⟨?_, fun x y t _ => ?_, fun x t _ => ?_, fun x y s _ t _ => by simp⟩⟩
  · show Continuous fun z : Vec d × ℝ => A *ᵥ z.1 + c
    fun_prop
  · rw [add_sub_add_right_eq_sub, ← mulVec_sub]
    exact hL _
  · exact (LinearMap.toContinuousLinearMap (mulVecLin A)).hasFDerivAt.add_const c

/-- C111: for an affine drift and any constant diffusion, as in the experiments on the integrated Brownian motion, no other hypothesis is
needed. -/
theorem C111_affine_partial {la : LinAlg} (hla : la.Correct) {T : ℝ} (hT : 0 < T) (B : Mat d d) (c : Vec d) (S : Mat d m) (x0 : Vec d) :
    ∃ A : ℝ, ∀ {Ω : Type} [MeasurableSpace Ω] {Q : Measure Ω} {R : Ω → Rng}, IdealNormals Q R → ∀ N : ℕ, 0 < N →
      ∀ r : ℕ, 0 < r → ∀ σ : ℝ, σ ≠ 0 → ∀ (sqrt : Bool) (key : Key) (odeInt : Ω → OdeInt (Vec d × Vec d × Mat d d) d),
      (∀ ω k x vf, Ekf.ekf2 la (R ω) false (some k) x vf (T / N) 1 sqrt
        (some ⟨_, IOUP.transition 0 σ 1 (T / N) d⟩) none = .ok (odeInt ω k x vf (T / N))) →
      ∀ n ≤ N, ∃ (y μ z : Ω → Vec d) (C : Ω → Mat d d) (g : Ω → ℝ),
        (∀ ω, ∃ ts traj traj2, ramSolver (R ω) key (fun x _ => B *ᵥ x + c) (fun _ _ => S) (x0, x0, 0) x0 (T / N) N r (odeInt ω) =
            .ok (ts, traj, traj2) ∧
          ts[n]? = some (n * (T / N)) ∧ traj[n]? = some (y ω, μ ω, C ω) ∧ traj2[n]? = some (z ω)) ∧
        (∀ ω, (C ω).PosSemidef ∧ (C ω).trace ≤ A * σ ^ 2 * (T / N) ^ 2) ∧
        Integrable (fun ω => ‖μ ω - z ω‖ ^ 2) Q ∧ ∫ ω, ‖μ ω - z ω‖ ^ 2 ∂Q ≤ A * (T / N) ^ 2 ∧
        (∀ ω, ‖y ω - z ω‖ ^ 2 ≤ g ω) ∧ Integrable g Q ∧ ∫ ω, g ω ∂Q ≤ A * (1 + σ ^ 2) * (T / N) ^ 2 := by
  obtain ⟨L, hL⟩ := smooth_affine B c T
  exact C111_measured_partial hla hT hL (Lt := 0) (fun x s _ t _ => by simp) S x0 (fun _ _ _ _ => rfl) (η := 0) (fun x s _ t _ _ => by simp)

/-- C111: the integrated Brownian motion with the settings of the scripts: one filter step per interval, prior scale 1, square roots, as
many fine steps as intervals. -/
example {la : LinAlg} (hla : la.Correct) : ∃ A : ℝ, ∀ N : ℕ, 0 < N → ∃ (odeInt : _ → OdeInt (Vec 2 × Vec 2 × Mat 2 2) 2) (y μ z : _ → Vec 2),
    (∀ ω k x vf, Ekf.ekf2 la (drawsRng ω) false (some k) x vf (1 / N) 1 true (some ⟨_, IOUP.transition 0 1 1 (1 / N) 2⟩) none =
      .ok (odeInt ω k x vf (1 / N))) ∧
    (∀ ω, ∃ ts traj traj2, ramSolver (drawsRng ω) [] Ivp.Ibm.drift Ivp.Ibm.sigma (Ivp.Ibm.x0, Ivp.Ibm.x0, 0) Ivp.Ibm.x0 (1 / N) N N
      (odeInt ω) = .ok (ts, traj, traj2) ∧ (∃ C, traj[N]? = some (y ω, μ ω, C)) ∧ traj2[N]? = some (z ω)) ∧
    ∫ ω, ‖μ ω - z ω‖ ^ 2 ∂drawsMeasure ≤ A * (1 / N) ^ 2 := by
  obtain ⟨A, hA⟩ := C111_affine_partial hla one_pos !![0, 1; 0, 0] 0 !![0; 1] Ivp.Ibm.x0
  refine ⟨A, fun N hN => ?_⟩
  obtain ⟨odeInt, hode⟩ := exists_ekf2_int (d := 2) la false drawsRng (1 / N) 1 1 true
  simp only [Nat.cast_one, div_one] at hode
  obtain ⟨y, μ, z, C, g, h1, -, -, h2, -⟩ := hA idealNormals_drawsRng N hN N hN 1 one_ne_zero true [] odeInt hode N le_rfl
  refine ⟨odeInt, y, μ, z, hode, fun ω => ?_, h2⟩
  obtain ⟨ts, traj, traj2, g1, -, g2, g3⟩ := h1 ω
  simp only [add_zero] at g1
  exact ⟨ts, traj, traj2, g1, ⟨_, g2⟩, g3⟩

/-- C111: a drift that depends on time, with noise in every direction. -/
example {la : LinAlg} (hla : la.Correct) : ∃ A : ℝ, ∀ N : ℕ, 0 < N → ∃ (odeInt : _ → OdeInt (Vec 2 × Vec 2 × Mat 2 2) 2) (y μ z : _ → Vec 2),
    (∀ ω k x vf, Ekf.ekf2 la (drawsRng ω) false (some k) x vf (1 / N) 1 true (some ⟨_, IOUP.transition 0 1 1 (1 / N) 2⟩) none =
      .ok (odeInt ω k x vf (1 / N))) ∧
    (∀ ω, ∃ ts traj traj2, ramSolver (drawsRng ω) [] (fun (x : Vec 2) (t : ℝ) => -(t • x)) (fun _ _ => (1 : Mat 2 2)) (0, 0, 0) 0 (1 / N) N 7
      (odeInt ω) = .ok (ts, traj, traj2) ∧ (∃ C, traj[N]? = some (y ω, μ ω, C)) ∧ traj2[N]? = some (z ω)) ∧
    ∫ ω, ‖μ ω - z ω‖ ^ 2 ∂drawsMeasure ≤ A * (1 / N) ^ 2 := by
  obtain ⟨A, hA⟩ := C111_measured_partial hla one_pos smooth_decay timeLipschitz_decay (1 : Mat 2 2) 0 (fun _ _ _ _ => rfl) (η := 1)
    (fun x s hs t ht hst => by
      have h := (smooth_decay (d := 2)).jac 0 0 t ht s hs
      simpa [abs_of_nonneg (sub_nonneg.mpr hst)] using h)
  refine ⟨A, fun N hN => ?_⟩
  obtain ⟨odeInt, hode⟩ := exists_ekf2_int (d := 2) la false drawsRng (1 / N) 1 1 true
  simp only [Nat.cast_one, div_one] at hode
  obtain ⟨y, μ, z, C, g, h1, -, -, h2, -⟩ := hA idealNormals_drawsRng N hN 7 (by norm_num) 1 one_ne_zero true [] odeInt hode N le_rfl
  refine ⟨odeInt, y, μ, z, hode, fun ω => ?_, h2⟩
  obtain ⟨ts, traj, traj2, g1, -, g2, g3⟩ := h1 ω
  exact ⟨ts, traj, traj2, g1, ⟨_, g2⟩, g3⟩

/-- C111: FitzHugh-Nagumo with the settings of the scripts: one filter step per interval, prior scale 1, square roots. -/
example {la : LinAlg} (hla : la.Correct) : ∃ (A : ℝ) (N0 : ℕ), ∀ N ≥ N0, 0 < N → ∃ (odeInt : _ → OdeInt (Vec 2 × Vec 2 × Mat 2 2) 2)
    (y μ z : _ → Vec 2),
    (∀ ω k x vf, Ekf.ekf2 la (drawsRng ω) false (some k) x vf (1 / N) 1 true (some ⟨_, IOUP.transition 0 1 1 (1 / N) 2⟩) none =
      .ok (odeInt ω k x vf (1 / N))) ∧
    (∀ ω, ∃ ts traj traj2, ramSolver (drawsRng ω) [] Ivp.Fhn.drift Ivp.Fhn.sigma (Ivp.Fhn.x0, Ivp.Fhn.x0, 0) Ivp.Fhn.x0 (1 / N) N N
      (odeInt ω) = .ok (ts, traj, traj2) ∧ (∃ C, traj[N]? = some (y ω, μ ω, C)) ∧ traj2[N]? = some (z ω)) ∧
    drawsMeasure {ω | A * (1 / N) < ‖y ω - z ω‖} ≤ ENNReal.ofReal 0.01 := by
  obtain ⟨A, N0, hA⟩ := (C111_fhn_partial hla one_pos 1 (by norm_num : (0 : ℝ) < 0.01)).1
  refine ⟨A, N0, fun N hN hN0 => ?_⟩
  obtain ⟨odeInt, hode⟩ := exists_ekf2_int (d := 2) la false drawsRng (1 / N) 1 1 true
  simp only [Nat.cast_one, div_one] at hode
  obtain ⟨y, μ, z, C, h1, -, -, -, h2⟩ := hA idealNormals_drawsRng N hN N hN0 1 one_ne_zero (by simp) true [] odeInt hode N le_rfl
  refine ⟨odeInt, y, μ, z, hode, fun ω => ?_, h2⟩
  obtain ⟨ts, traj, traj2, g1, -, g2, g3⟩ := h1 ω
  exact ⟨ts, traj, traj2, g1, ⟨_, g2⟩, g3⟩

end Verif
