import Verif.Lemmas.Convergence
import Verif.Props.EkfSde
import Verif.Spec.Sde

/-!
# Properties C74, C75: convergence of the EKF0 solver, alone and inside `sde_solver`
-/

namespace Verif

open Matrix Spec Jnp

/-! ## C74 -/

/-- C74: the mean returned by EKF0 (once integrated Brownian motion prior of any scale, either mode) converges to the solution
of the ODE with order two. -/
theorem C74_ekf0_order2 {la : LinAlg} (hla : la.Correct) (rng : Rng) {d : ℕ} (hd : 0 < d) (vf : Field d) (L M2 M3 h σ : ℝ)
    (hL : 0 < L) (hh : 0 < h) (hσ : σ ≠ 0) (sqrt : Bool) (N : ℕ) (hlip : ∀ x x' t, ‖vf x t - vf x' t‖ ≤ L * ‖x - x'‖)
    (y y2 y3 : ℝ → Vec d)
    (hy : ∀ t ∈ Set.Icc 0 (N * h), HasDerivWithinAt y (vf (y t) t) (Set.Icc 0 (N * h)) t)
    (hy2 : ∀ t ∈ Set.Icc 0 (N * h), HasDerivWithinAt (fun s => vf (y s) s) (y2 t) (Set.Icc 0 (N * h)) t)
    (hy3 : ∀ t ∈ Set.Icc 0 (N * h), HasDerivWithinAt y2 (y3 t) (Set.Icc 0 (N * h)) t)
    (hM2 : ∀ t ∈ Set.Icc 0 (N * h), ‖y2 t‖ ≤ M2) (hM3 : ∀ t ∈ Set.Icc 0 (N * h), ‖y3 t‖ ≤ M3) :
    ∃ x, Ekf.ekf0 la rng none (y 0) vf h N sqrt (some ⟨_, IOUP.transition 0 σ 1 h d⟩) none = .ok x ∧
      ‖x - y (N * h)‖ ≤ h ^ 2 * (M2 / 2 + M3 / (18 * L)) * (Real.exp (3 * L / 2 * (N * h)) - 1) := by
  refine ⟨_, C43_trapezoidal hla rng hd vf hσ hh (y 0) N sqrt, ?_⟩
  have h0 : (0 : ℝ) ∈ Set.Icc 0 (N * h) := ⟨le_rfl, by positivity⟩
  have hM20 : 0 ≤ M2 := (norm_nonneg _).trans (hM2 0 h0)
  have hM30 : 0 ≤ M3 := (norm_nonneg _).trans (hM3 0 h0)
  have h1 := trapScheme_error vf L M2 M3 h hL hh N hlip (y 0) y y2 y3 hy hy2 hy3 hM2 hM3 N le_rfl
  have h2 : 0 ≤ h * ‖(trapScheme vf h (y 0) N).2 - vf (y (N * h)) (N * h)‖ := by positivity
  rw [sub_self, norm_zero, mul_zero, zero_add] at h1
  have h5 : (1 + 3 * L / 2 * h) ^ N ≤ Real.exp (3 * L / 2 * (N * h)) := by
    have := Real.add_one_le_exp (3 * L / 2 * h)
    calc (1 + 3 * L / 2 * h) ^ N ≤ Real.exp (3 * L / 2 * h) ^ N := pow_le_pow_left₀ (by positivity) (by linarith) N
      _ = Real.exp (3 * L / 2 * (N * h)) := by rw [← Real.exp_nat_mul]; ring_nf
  have h6 : h ^ 2 * (3 * L * M2 / 4 + M3 / 12) / (3 * L / 2) = h ^ 2 * (M2 / 2 + M3 / (18 * L)) := by
    field_simp
    ring
  rw [h6] at h1
  have h7 : h ^ 2 * (M2 / 2 + M3 / (18 * L)) * ((1 + 3 * L / 2 * h) ^ N - 1) ≤
      h ^ 2 * (M2 / 2 + M3 / (18 * L)) * (Real.exp (3 * L / 2 * (N * h)) - 1) :=
    mul_le_mul_of_nonneg_left (by linarith) (by positivity)
  linarith

/-- C74: hypotheses met by `x' = x`, whose solution is `exp`, on `[0, 3/4]`. -/
example {la : LinAlg} (hla : la.Correct) (rng : Rng) :
    ∃ x, Ekf.ekf0 la rng none (fun _ => Real.exp 0 : Vec 1) (fun x _ => x) (1 / 4) 3 true
        (some ⟨_, IOUP.transition 0 2 1 (1 / 4) 1⟩) none = .ok x ∧
      ‖x - fun _ => Real.exp ((3 : ℕ) * (1 / 4))‖ ≤
        (1 / 4) ^ 2 * (Real.exp 1 / 2 + Real.exp 1 / (18 * 1)) * (Real.exp (3 * 1 / 2 * ((3 : ℕ) * (1 / 4))) - 1) := by
  have hd : ∀ t s, HasDerivWithinAt (fun t => (fun _ => Real.exp t : Vec 1)) (fun _ => Real.exp t) s t := fun t s =>
    (hasDerivAt_pi.mpr fun _ => Real.hasDerivAt_exp t).hasDerivWithinAt
  have hb : ∀ t ∈ Set.Icc (0 : ℝ) ((3 : ℕ) * (1 / 4)), ‖(fun _ => Real.exp t : Vec 1)‖ ≤ Real.exp 1 := fun t ht => by
    rw [pi_norm_le_iff_of_nonneg (Real.exp_pos _).le]
    intro _
    rw [Real.norm_of_nonneg (Real.exp_pos _).le, Real.exp_le_exp]
    have := ht.2
    norm_num at this
    linarith
  exact C74_ekf0_order2 hla rng one_pos (fun x _ => x) 1 (Real.exp 1) (Real.exp 1) (1 / 4) 2 one_pos (by norm_num) two_ne_zero
    true 3 (fun x x' t => by simp) (fun t => fun _ => Real.exp t) (fun t => fun _ => Real.exp t)
    (fun t => fun _ => Real.exp t) (fun t _ => hd t _) (fun t _ => hd t _) (fun t _ => hd t _) hb hb

/-! ## C75 -/

/-- C75: with `M` EKF0 steps per interval (no key), the states of `sde_solver` differ from the exact solution of the random ODE
driven by the returned coefficients by at most a constant times `(δ/M)²` at all grid points. -/
theorem C75_sde_ekf0_error {la : LinAlg} (hla : la.Correct) (rng : Rng) (key : Key) {C : Type} {d m : ℕ} (hd : 0 < d)
    (drift : Field d) (sigma : Diffusion d m) (bm : BmApprox C m) {δ : ℝ} (hδ : 0 < δ) (N M : ℕ) (hM : 0 < M) {σ : ℝ}
    (hσ : σ ≠ 0) (sqrt : Bool) (odeInt : OdeInt (Vec d) d)
    (hode : ∀ k x vf, Ekf.ekf0 la rng none x vf (δ / M) M sqrt (some ⟨_, IOUP.transition 0 σ 1 (δ / M) d⟩) none =
      .ok (odeInt k x vf δ))
    {L M2 M3 : ℝ} (hL : 0 < L) (W : ℕ → ℝ → Vec m) (y y2 y3 : ℕ → ℝ → Vec d)
    (hW : ∀ k < N, ∀ c, (sdeSolver rng key drift sigma (y 0 0) bm δ N odeInt).2.2[k]? = some c →
      W k = fun t => bm.eval t δ c)
    (hy : SolvesPieces drift sigma W δ N y) (hy' : SmoothPieces drift sigma W δ N y y2 y3 L M2 M3) :
    ∀ k ≤ N, ∃ x, (sdeSolver rng key drift sigma (y 0 0) bm δ N odeInt).2.1[k]? = some x ∧
      ‖x - y k 0‖ ≤ (δ / M) ^ 2 * ((M2 / 2 + M3 / (18 * L)) * (Real.exp (3 * L / 2 * δ) - 1) *
        ∑ i ∈ Finset.range k, Real.exp (3 * L * δ) ^ i) := by
  have hM' : (0 : ℝ) < M := by exact_mod_cast hM
  have hM1 : (1 : ℝ) ≤ M := by exact_mod_cast hM
  have hh : 0 < δ / M := by positivity
  have hMh : (M : ℝ) * (δ / M) = δ := by field_simp
  have h0 : (0 : ℝ) ∈ Set.Icc 0 δ := ⟨le_rfl, hδ.le⟩
  intro k hk
  induction k with
  | zero =>
    have := (C02_trajectory_shape rng key drift sigma (y 0 0) bm δ N odeInt).2.1
    rw [List.head?_eq_getElem?] at this
    exact ⟨y 0 0, this, by simp⟩
  | succ k ih =>
    obtain ⟨x, c, h1, h2, -, h4⟩ := sdeSolver_interval rng key drift sigma (y 0 0) bm δ N odeInt k (by omega)
    obtain ⟨x', h1', hx'⟩ := ih (by omega)
    have hxx : x' = x := Option.some.inj (h1'.symm.trans h1)
    subst hxx
    refine ⟨_, h4, ?_⟩
    have hk' : k < N := by omega
    have hM20 : 0 ≤ M2 := (norm_nonneg _).trans (hy'.bound2 k hk' 0 h0)
    have hM30 : 0 ≤ M3 := (norm_nonneg _).trans (hy'.bound3 k hk' 0 h0)
    have hF : intervalField drift sigma bm δ c ((k : ℝ) * δ) = randomField drift sigma (W k) (k * δ) := by
      rw [hW k hk' c h2]
      rfl
    rw [hF]
    have e1 := hode ((key.child N k).child 2 1) x' (randomField drift sigma (W k) (k * δ))
    rw [C43_trapezoidal hla rng hd _ hσ hh] at e1
    rw [← Except.ok.inj e1, hy.joined k hk']
    have h5 := trapScheme_error (randomField drift sigma (W k) (k * δ)) L M2 M3 (δ / M) hL hh M
      (hy'.lip k hk') x' (y k) (y2 k) (y3 k) (by rw [hMh]; exact hy.solves k hk') (by rw [hMh]; exact hy'.deriv2 k hk')
      (by rw [hMh]; exact hy'.deriv3 k hk') (by rw [hMh]; exact hy'.bound2 k hk') (by rw [hMh]; exact hy'.bound3 k hk') M
      le_rfl
    rw [hMh] at h5
    have h6 : 0 ≤ δ / M * ‖(trapScheme (randomField drift sigma (W k) (k * δ)) (δ / M) x' M).2 -
      randomField drift sigma (W k) (k * δ) (y k δ) δ‖ := by positivity
    set E := (1 + 3 * L / 2 * (δ / M)) with hE
    have hE0 : 0 < E := by positivity
    have hEx : E ≤ Real.exp (3 * L / 2 * (δ / M)) := by
      have := Real.add_one_le_exp (3 * L / 2 * (δ / M)); linarith
    have hA : E ^ M ≤ Real.exp (3 * L / 2 * δ) := by
      calc E ^ M ≤ Real.exp (3 * L / 2 * (δ / M)) ^ M := pow_le_pow_left₀ hE0.le hEx M
        _ = Real.exp (3 * L / 2 * δ) := by rw [← Real.exp_nat_mul]; congr 1; field_simp
    have hB : E ^ (M + 1) ≤ Real.exp (3 * L * δ) := by
      have hE1 : E ≤ Real.exp (3 * L / 2 * δ) := hEx.trans (by
        rw [Real.exp_le_exp]
        have : δ / M ≤ δ := div_le_self hδ.le hM1
        have : 0 < 3 * L / 2 := by positivity
        nlinarith)
      calc E ^ (M + 1) = E ^ M * E := pow_succ _ _
        _ ≤ Real.exp (3 * L / 2 * δ) * Real.exp (3 * L / 2 * δ) := mul_le_mul hA hE1 hE0.le (Real.exp_pos _).le
        _ = Real.exp (3 * L * δ) := by rw [← Real.exp_add]; congr 1; ring
    have h7 : (δ / M) ^ 2 * (3 * L * M2 / 4 + M3 / 12) / (3 * L / 2) = (δ / M) ^ 2 * (M2 / 2 + M3 / (18 * L)) := by
      field_simp
      ring
    rw [h7] at h5
    set K := M2 / 2 + M3 / (18 * L) with hK
    have hK0 : 0 ≤ K := by positivity
    have h8 : (δ / M) ^ 2 * K * (E ^ M - 1) ≤ (δ / M) ^ 2 * K * (Real.exp (3 * L / 2 * δ) - 1) :=
      mul_le_mul_of_nonneg_left (by linarith) (by positivity)
    have h9 : E ^ (M + 1) * ‖x' - y k 0‖ ≤ Real.exp (3 * L * δ) * ((δ / M) ^ 2 * (K * (Real.exp (3 * L / 2 * δ) - 1) *
        ∑ i ∈ Finset.range k, Real.exp (3 * L * δ) ^ i)) :=
      mul_le_mul hB hx' (norm_nonneg _) (Real.exp_pos _).le
    have h10 : ∑ i ∈ Finset.range (k + 1), Real.exp (3 * L * δ) ^ i =
        Real.exp (3 * L * δ) * (∑ i ∈ Finset.range k, Real.exp (3 * L * δ) ^ i) + 1 := by
      rw [Finset.sum_range_succ', Finset.mul_sum, pow_zero]
      simp only [pow_succ']
    rw [h10]
    have h11 : (δ / M) ^ 2 * (K * (Real.exp (3 * L / 2 * δ) - 1) *
        (Real.exp (3 * L * δ) * (∑ i ∈ Finset.range k, Real.exp (3 * L * δ) ^ i) + 1)) =
        Real.exp (3 * L * δ) * ((δ / M) ^ 2 * (K * (Real.exp (3 * L / 2 * δ) - 1) *
          ∑ i ∈ Finset.range k, Real.exp (3 * L * δ) ^ i)) + (δ / M) ^ 2 * K * (Real.exp (3 * L / 2 * δ) - 1) := by ring
    rw [h11]
    linarith

/-- C75: with zero drift and unit diffusion the pieces of every run of `sde_solver` (parabola coefficients `a k`, `b k`) exist
and are smooth. -/
example (a b : ℕ → Vec 1) {δ : ℝ} (hδ : 0 < δ) (N : ℕ) :
    ∃ y y2 y3 M2 M3, SolvesPieces (fun _ _ => 0) (fun _ _ => (1 : Mat 1 1)) (fun k t => Foster.evalParabola t δ (a k) (b k)) δ N y ∧
      SmoothPieces (fun _ _ => 0) (fun _ _ => (1 : Mat 1 1)) (fun k t => Foster.evalParabola t δ (a k) (b k)) δ N y y2 y3 1 M2 M3 := by
  have hF : ∀ k z t, randomField (fun _ _ => 0) (fun _ _ => (1 : Mat 1 1)) (fun t => Foster.evalParabola t δ (a k) (b k))
      (k * δ) z t = fun j => (a k j + Real.sqrt 6 * b k j * (1 - 2 * t / δ)) / δ := fun k z t => by
    rw [randomField, zero_add, one_mulVec]
    exact jacT_evalParabola δ (a k) (b k) t
  have hd1 : ∀ (k : ℕ) (t : ℝ) s, HasDerivWithinAt (fun t => Foster.evalParabola t δ (a k) (b k))
      (fun j => (a k j + Real.sqrt 6 * b k j * (1 - 2 * t / δ)) / δ) s t := fun k t s =>
    (hasDerivAt_pi.mpr fun j => Foster.hasDerivAt_evalParabola1 t δ (a k j) (b k j)).hasDerivWithinAt
  have hd2 : ∀ (k : ℕ) (t : ℝ) s, HasDerivWithinAt (fun t => (fun j => (a k j + Real.sqrt 6 * b k j * (1 - 2 * t / δ)) / δ : Vec 1))
      (fun j => -(2 * Real.sqrt 6 * b k j) / δ ^ 2) s t := fun k t s =>
    (hasDerivAt_pi.mpr fun j => by
      have := ((((hasDerivAt_id t).const_mul 2).div_const δ).const_sub 1).const_mul (Real.sqrt 6 * b k j)
      refine ((this.const_add (a k j)).div_const δ).congr_deriv ?_
      field_simp).hasDerivWithinAt
  refine ⟨fun k t => (∑ i ∈ Finset.range k, a i) + Foster.evalParabola t δ (a k) (b k),
    fun k _ j => -(2 * Real.sqrt 6 * b k j) / δ ^ 2, fun _ _ => 0,
    ∑ k ∈ Finset.range N, ‖(fun j => -(2 * Real.sqrt 6 * b k j) / δ ^ 2 : Vec 1)‖, 0, ⟨fun k _ => ?_, fun k _ t _ => ?_⟩,
    ⟨fun k _ x x' t => ?_, fun k _ t _ => ?_, fun k _ t _ => hasDerivWithinAt_const _ _ _, fun k hk t _ => ?_, fun k _ t _ => by simp⟩⟩
  · rw [Finset.sum_range_succ]
    funext j
    have : δ / δ = 1 := div_self hδ.ne'
    simp [Foster.evalParabola, Foster.evalParabola1, this]
  · rw [hF]
    exact (hd1 k t _).const_add _
  · rw [hF, hF]
    simp
  · simp only [hF]
    exact hd2 k t _
  · exact Finset.single_le_sum (f := fun k => ‖(fun j => -(2 * Real.sqrt 6 * b k j) / δ ^ 2 : Vec 1)‖)
      (fun _ _ => norm_nonneg _) (Finset.mem_range.mpr hk)

end Verif
