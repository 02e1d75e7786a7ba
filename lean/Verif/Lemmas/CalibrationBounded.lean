import Verif.Props.Alg3Order1
import Verif.Lemmas.CalibrationStep

/-! Helper lemmas: the means of a run of Algorithm 3 with EKF1 stay in a ball with a large probability. -/

namespace Verif

open Matrix Spec Jnp Set MeasureTheory ProbabilityTheory Scripts Filter
open scoped NNReal ENNReal Matrix.Norms.Operator

variable {d m : ℕ}

/-- The state of Algorithm 3 together with the largest norm of the means so far. -/
noncomputable def maxScheme (S : Mat d m) (T : ℝ) (f : Field d) (N : ℕ) (p : Unit) (k : ℕ) (e : (Vec d × (Fin d → Fin d → ℝ)) × ℝ) (a b : Vec m) (ξ : Vec 1) :
    (Vec d × (Fin d → Fin d → ℝ)) × ℝ := (alg3Scheme S T f N p k e.1 a b ξ, max e.2 ‖(alg3Scheme S T f N p k e.1 a b ξ).1‖)

/-- The integrator with these states. -/
noncomputable def maxInt (d : ℕ) : OdeInt ((Vec d × (Fin d → Fin d → ℝ)) × ℝ) d := fun _ x vf h =>
  let J0 := jac (fun z => vf z 0) x.1.1
  let J1 := jac (fun z => vf z h) (x.1.1 + h • vf x.1.1 0)
  ((alg3Mean vf h J0 J1 (of x.1.2) x.1.1, fun i j => alg3P h J0 J1 (of x.1.2) i j), max x.2 ‖alg3Mean vf h J0 J1 (of x.1.2) x.1.1‖)

theorem maxInt_eq {f : Field d} {S : Mat d m} {T : ℝ} {N k : ℕ} (hd0 : Differentiable ℝ fun z => f z (k * (T / N)))
    (hd1 : Differentiable ℝ fun z => f z (T / N + k * (T / N)))
    (hnoise : ∀ x v, fderiv ℝ (fun z => f z (T / N + k * (T / N))) (x + S *ᵥ v) = fderiv ℝ (fun z => f z (T / N + k * (T / N))) x) (κ : Key)
    (x : (Vec d × (Fin d → Fin d → ℝ)) × ℝ) (a b : Vec m) (ξ : Vec 1) :
    maxInt d κ x (additiveField f S (k * (T / N)) (T / N) a b) (T / N) = maxScheme S T f N () k x a b ξ := by
  obtain ⟨⟨y, p⟩, M⟩ := x
  obtain ⟨δ, hδ⟩ : ∃ δ, δ = T / N := ⟨_, rfl⟩
  obtain ⟨a0, ha0⟩ : ∃ a0, a0 = k * δ := ⟨_, rfl⟩
  rw [← hδ, ← ha0] at hd0 hd1 hnoise
  have hj0 : jac (fun z => additiveField f S a0 δ a b z 0) y = alg3J0 f a0 y := by
    rw [alg3J0, jac_eq_toMatrix (hd0 y).hasFDerivAt]
    refine jac_eq_toMatrix ?_
    simp only [additiveField, zero_add]
    exact (hd0 y).hasFDerivAt.add_const _
  have hz : y + δ • additiveField f S a0 δ a b y 0 = (y + δ • f y a0) + S *ᵥ (δ • jacT (fun s => Foster.evalParabola s δ a b) 0) := by
    simp only [additiveField, zero_add]
    rw [smul_add, mulVec_smul, add_assoc]
  have hj1 : jac (fun z => additiveField f S a0 δ a b z δ) (y + δ • additiveField f S a0 δ a b y 0) = alg3J1 f a0 δ y := by
    rw [alg3J1, jac_eq_toMatrix (hd1 (y + δ • f y a0)).hasFDerivAt, ← hnoise _ (δ • jacT (fun s => Foster.evalParabola s δ a b) 0), ← hz]
    exact jac_eq_toMatrix ((hd1 _).hasFDerivAt.add_const _)
  rw [maxScheme, alg3Scheme_eq, ← hδ, ← ha0, maxInt]
  simp only [hj0, hj1]
  rfl

theorem maxScheme_run {vf : ℕ → Field d} {δ : ℝ} {x0 : Vec d} {N : ℕ} {κ : ℕ → Key} {Y : ℕ → (Vec d × (Fin d → Fin d → ℝ)) × ℝ} (h0 : Y 0 = ((x0, 0), ‖x0‖))
    (hs : ∀ k < N, Y (k + 1) = maxInt d (κ k) (Y k) (vf k) δ) : ∀ n ≤ N, (Y n).1.1 = (alg3Path vf δ x0 n).1 ∧ of (Y n).1.2 = (alg3Path vf δ x0 n).2 ∧
      ∀ k ≤ n, ‖(alg3Path vf δ x0 k).1‖ ≤ (Y n).2 := by
  intro n
  induction n with
  | zero =>
    intro _
    rw [h0]
    refine ⟨rfl, rfl, fun k hk => ?_⟩
    rw [Nat.le_zero.mp hk]
    exact le_rfl
  | succ n ih =>
    intro hn
    obtain ⟨h1, h2, h3⟩ := ih (by omega)
    have e : (Y (n + 1)).1.1 = (alg3Path vf δ x0 (n + 1)).1 := by
      rw [hs n hn, alg3Path, maxInt]
      simp only [h1, h2]
    refine ⟨e, ?_, fun k hk => ?_⟩
    · rw [hs n hn, alg3Path, maxInt]
      simp only [h1, h2]
      rfl
    · rcases Nat.lt_or_ge k (n + 1) with hk' | hk'
      · refine (h3 k (by omega)).trans ?_
        rw [hs n hn, maxInt]
        exact le_max_left _ _
      · obtain rfl : k = n + 1 := by omega
        rw [← e, hs n hn, maxInt]
        exact le_max_right _ _

/-- Large means. -/
def maxBad (d : ℕ) (A : ℝ) : Set ((Vec d × (Fin d → Fin d → ℝ)) × ℝ) := {e | A < e.2}

set_option maxHeartbeats 1000000 in
/-- The means of Algorithm 3 with EKF1 and one filter step per interval stay in a ball with a probability close to one, for a drift whose
equation has a solution along every continuous path and whose Jacobian does not change in the directions of the noise. -/
theorem alg3_run_bounded {f : Field d} (hf : ContDiff ℝ 2 (Function.uncurry f)) {T : ℝ}
    (hT : 0 < T) (S : Mat d m) (x0 : Vec d) (hsol : ∀ w : ℝ → Vec m, Continuous w → ∃ x, SolvesAdditive f S w x0 T x)
    (hnoise : ∀ x v, ∀ t ∈ Icc 0 T, fderiv ℝ (fun z => f z t) (x + S *ᵥ v) = fderiv ℝ (fun z => f z t) x) {ε : ℝ} (hε : 0 < ε) :
    ∃ (A : ℝ) (N0 : ℕ), ∀ {Ω : Type} [MeasurableSpace Ω] {Q : Measure Ω} {R : Ω → Rng}, IdealNormals Q R → ∀ N ≥ N0, 0 < N → ∀ r : ℕ, 0 < r → ∀ key : Key,
      Q {ω | ∃ k ≤ N, A < ‖(alg3Path (fun (k : ℕ) => additiveField f S (k * (T / N)) (T / N)
        ((Foster.getApproxFine m r).coeffs (R ω) ((key.child N k).child 2 0) (T / N)).1
        ((Foster.getApproxFine m r).coeffs (R ω) ((key.child N k).child 2 0) (T / N)).2.1) (T / N) x0 k).1‖} ≤ ENNReal.ofReal ε := by
  obtain ⟨s, hs, hS⟩ := exists_mulVec_bound S
  obtain ⟨A, N0, hA⟩ := measured_prob_state_bad (q := 1) hf hT S x0 hsol hε (ι := Unit) (((x0, 0), ‖x0‖) : (Vec d × (Fin d → Fin d → ℝ)) × ℝ)
    (ρ := fun e => e.1.1) (measurable_fst.comp measurable_fst) (Adm := fun _ _ => True) (J := maxScheme S T f) (bad := fun A _ => maxBad d A)
    (fun A N => measurableSet_lt measurable_const measurable_snd)
    (fun A A' N hAA e he => lt_of_le_of_lt hAA he)
    (fun N p _ k _ => by
      have h : Measurable fun z : (Vec d × (Fin d → Fin d → ℝ)) × Vec m × Vec m × Vec 1 => alg3Scheme S T f N p k z.1 z.2.1 z.2.2.1 z.2.2.2 :=
        measurable_drop (measurable_alg3Step hf.continuous S (fun x => hasFDerivAt_left hf x _) (continuous_fderiv_left hf _)
          (fun x => hasFDerivAt_left hf x _) (continuous_fderiv_left hf _))
      have h2 : Measurable fun z : ((Vec d × (Fin d → Fin d → ℝ)) × ℝ) × Vec m × Vec m × Vec 1 => alg3Scheme S T f N p k z.1.1 z.2.1 z.2.2.1 z.2.2.2 :=
        h.comp (g := fun z : (Vec d × (Fin d → Fin d → ℝ)) × Vec m × Vec m × Vec 1 => alg3Scheme S T f N p k z.1 z.2.1 z.2.2.1 z.2.2.2)
          (f := fun z : ((Vec d × (Fin d → Fin d → ℝ)) × ℝ) × Vec m × Vec m × Vec 1 => (z.1.1, z.2.1, z.2.2.1, z.2.2.2)) (by fun_prop)
      exact h2.prodMk ((measurable_snd.comp measurable_fst).max (measurable_fst.comp h2).norm)) (fun hB X hX =>
      prob_order_state hB hf hT S x0 hX (((x0, 0), ‖x0‖) : (Vec d × (Fin d → Fin d → ℝ)) × ℝ) (ρ := fun e => e.1.1) (J := maxScheme S T)
        (bad := fun A _ => maxBad d A) (Adm := fun _ _ => True) (κ := 1 / (40 * (s + 1))) (by positivity) (fun g Dg L K F X' hL hg hgt hgF hX' => by
          have hF : 0 ≤ F := (norm_nonneg _).trans (hgF 0 0)
          have hK := hg.jac_const_nonneg hT
          obtain ⟨A, -, hA⟩ := alg3_strong (hB.comp_inj (Fin.castAdd_injective m 1)) hT hg hgt (η := K * (F + 1)) (by positivity)
            (fun x s hs t ht hst => by
              refine (hg.jac _ _ _ ht _ hs).trans ?_
              rw [add_sub_cancel_left, norm_smul, Real.norm_eq_abs, abs_of_nonneg (by linarith : 0 ≤ t - s), mul_assoc]
              refine mul_le_mul_of_nonneg_left ?_ hK
              have := mul_le_mul_of_nonneg_left (hgF x s) (by linarith : 0 ≤ t - s)
              linarith) S x0 hX'
          refine ⟨A, fun N hN p _ c hc Y hY0 hYs n hn => ?_⟩
          refine hA N hN (fun ω k => firstV (c ω k).1) (fun ω k => firstV (c ω k).2) ?_ (fun k ω => (Y k ω).1) (fun ω => by rw [hY0])
            (fun k hk ω => (congrArg Prod.fst (hYs k hk ω)).trans (alg3Scheme_eq S T g N p k (Y k ω).1 _ _ ((1 / √(T / N)) • lastV (c ω k).1))) n hn
          filter_upwards [hc] with ω hω k hk
          exact (hω k hk).comp (Fin.castAdd 1))
        (fun g Dg L K F ρ hF hg _ _ hgF heq => by
          obtain ⟨N3, hN3⟩ := exists_small_step F hT (by norm_num : (0 : ℝ) < 1 / 8)
          refine ⟨N3, fun N hN hN0 p hp k hk y a b ξ hy hsl => ?_⟩
          have hN' : (0 : ℝ) < N := by exact_mod_cast hN0
          have h : alg3Scheme S T f N p k y.1 a b ξ = alg3Scheme S T g N p k y.1 a b ξ := by
            rw [alg3Scheme_eq, alg3Scheme_eq]
            refine alg3_local hF hg hs hS hgF heq (by positivity : 0 < T / N) (hN3 N hN hN0) (by positivity : 0 ≤ (k : ℝ) * (T / N))
              ?_ hy hsl
            have h1 : ((k + 1 : ℕ) : ℝ) * (T / N) ≤ N * (T / N) := mul_le_mul_of_nonneg_right (by exact_mod_cast hk) (by positivity)
            rw [mul_div_cancel₀ T hN'.ne'] at h1
            push_cast at h1
            linarith
          rw [maxScheme, maxScheme, h]) (fun Λ => ⟨Λ, fun A hA N hN p _ e he0 hes hb => by
          have : ∀ n ≤ N, (e n).2 ≤ A := by
            intro n
            induction n with
            | zero =>
              intro _
              have := hb 0 (Nat.zero_le _)
              rw [he0] at this ⊢
              exact this.trans hA
            | succ n ih =>
              intro hn
              obtain ⟨a, b, ξ, h⟩ := hes n hn
              have h1 := hb (n + 1) hn
              rw [h] at h1 ⊢
              exact max_le (ih (by omega)) (h1.trans hA)
          exact fun n hn => not_lt.mpr (this n hn)⟩) (half_pos hε))
  refine ⟨A, N0, ?_⟩
  intro Ω _ Q R hR N hN hN0 r hr key
  have hN' : (0 : ℝ) < N := by exact_mod_cast hN0
  have hkI : ∀ k : ℕ, k < N → T / N + (k : ℝ) * (T / N) ∈ Icc 0 T := fun k hk => by
    have h1 : ((k + 1 : ℕ) : ℝ) * (T / N) ≤ N * (T / N) := mul_le_mul_of_nonneg_right (by exact_mod_cast hk) (by positivity)
    rw [mul_div_cancel₀ T hN'.ne'] at h1
    push_cast at h1
    exact ⟨by positivity, by linarith⟩
  obtain ⟨y, z, h1, -, -, h2⟩ := hA hR N hN () trivial r hr key (((x0, 0), ‖x0‖) : (Vec d × (Fin d → Fin d → ℝ)) × ℝ) id (fun _ _ => True) (fun _ => maxInt d) rfl trivial
    (fun ω κ x k hk _ a b => ⟨trivial, maxInt_eq (fun x => (hasFDerivAt_left hf x _).differentiableAt)
      (fun x => (hasFDerivAt_left hf x _).differentiableAt) (fun x v => hnoise x v _ (hkI k hk)) κ x a b _⟩) N le_rfl
  refine le_trans (measure_mono ?_) h2
  rintro ω ⟨k, hk, hkA⟩
  refine Or.inr ?_
  show A < (y ω).2
  refine hkA.trans_le ?_
  obtain ⟨ts, traj, traj2, g1, -, g2, -⟩ := h1 ω
  obtain ⟨t2, ts2, xs, g3, -⟩ := C99_low_memory (R ω) key f (fun _ _ => S) (((x0, 0), ‖x0‖) : (Vec d × (Fin d → Fin d → ℝ)) × ℝ) x0 (T / N) N r hr (maxInt d)
  have e := Except.ok.inj (g1.symm.trans g3)
  obtain ⟨Y, hY, hY0, hYs⟩ := sdeSolver_states (R ω) key f (fun _ _ => S) (((x0, 0), ‖x0‖) : (Vec d × (Fin d → Fin d → ℝ)) × ℝ) (Foster.getApproxFine m r) (T / N) N (maxInt d)
  have e2 : traj = _ := (Prod.ext_iff.mp (Prod.ext_iff.mp e).2).1
  have e3 : y ω = Y N := by
    rw [e2, hY N le_rfl] at g2
    exact (Option.some.inj g2).symm
  rw [e3]
  refine (maxScheme_run (κ := fun k => (key.child N k).child 2 1) hY0 (fun j hj => ?_) N le_rfl).2.2 k hk
  obtain ⟨c, hc, hs2⟩ := hYs j hj
  rw [sdeSolver_coeffs, List.getElem?_map, List.getElem?_range hj] at hc
  obtain rfl := Option.some.inj hc
  exact hs2

end Verif
