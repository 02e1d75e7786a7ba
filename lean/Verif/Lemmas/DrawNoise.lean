import Verif.Lemmas.DrawTransfer

/-! Sums of draws whose factors depend on earlier draws. -/

namespace Verif

open Matrix Spec Jnp Set MeasureTheory ProbabilityTheory Filter
open scoped NNReal

variable {d m q : ℕ} {Ω : Type*} [MeasurableSpace Ω] {P : Measure Ω}

/-- Orthogonal terms: the second moments add up. -/
theorem orthogonal_sum [IsProbabilityMeasure P] {Z : ℕ → Ω → Vec d} {N : ℕ} {γ : ℝ} (hi : ∀ k < N, ∀ i, MemLp (fun ω => Z k ω i) 2 P)
    (h0 : ∀ k < N, ∀ l < k, ∀ i, ∫ ω, Z l ω i * Z k ω i ∂P = 0) (hv : ∀ k < N, ∫ ω, Z k ω ⬝ᵥ Z k ω ∂P ≤ γ) {n : ℕ} (hn : n ≤ N) :
    Integrable (fun ω => ‖∑ k ∈ Finset.range n, Z k ω‖ ^ 2) P ∧ ∫ ω, ‖∑ k ∈ Finset.range n, Z k ω‖ ^ 2 ∂P ≤ n * γ := by
  have hs : ∀ n ≤ N, ∀ i, MemLp (fun ω => (∑ k ∈ Finset.range n, Z k ω) i) 2 P := fun n hn i => by
    simp only [Finset.sum_apply]
    exact memLp_finsetSum _ fun k hk => hi k (by have := Finset.mem_range.mp hk; omega) i
  have hdot : ∀ v : Ω → Vec d, (∀ i, MemLp (fun ω => v ω i) 2 P) → Integrable (fun ω => v ω ⬝ᵥ v ω) P := fun v hv =>
    integrable_finsetSum _ fun i _ => (hv i).integrable_mul (hv i)
  have hle : ∀ n ≤ N, ∫ ω, (∑ k ∈ Finset.range n, Z k ω) ⬝ᵥ (∑ k ∈ Finset.range n, Z k ω) ∂P ≤ n * γ := by
    intro n
    induction n with
    | zero => intro _; simp
    | succ n ih =>
      intro hn
      have hc : Integrable (fun ω => (∑ k ∈ Finset.range n, Z k ω) ⬝ᵥ Z n ω) P :=
        integrable_finsetSum _ fun i _ => (hs n (by omega) i).integrable_mul (hi n (by omega) i)
      have hcross : ∫ ω, (∑ k ∈ Finset.range n, Z k ω) ⬝ᵥ Z n ω ∂P = 0 := by
        have e : ∀ ω, (∑ k ∈ Finset.range n, Z k ω) ⬝ᵥ Z n ω = ∑ i, ∑ k ∈ Finset.range n, Z k ω i * Z n ω i := fun ω => by
          simp only [dotProduct, Finset.sum_apply, Finset.sum_mul]
        simp only [e]
        have hint : ∀ i, ∀ k ∈ Finset.range n, Integrable (fun ω => Z k ω i * Z n ω i) P := fun i k hk =>
          (hi k (by have := Finset.mem_range.mp hk; omega) i).integrable_mul (hi n (by omega) i)
        rw [integral_finsetSum _ fun i _ => integrable_finsetSum _ (hint i)]
        refine Finset.sum_eq_zero fun i _ => ?_
        rw [integral_finsetSum _ (hint i)]
        exact Finset.sum_eq_zero fun k hk => h0 n (by omega) k (Finset.mem_range.mp hk) i
      have e : ∀ ω, (∑ k ∈ Finset.range (n + 1), Z k ω) ⬝ᵥ (∑ k ∈ Finset.range (n + 1), Z k ω) =
          ((∑ k ∈ Finset.range n, Z k ω) ⬝ᵥ (∑ k ∈ Finset.range n, Z k ω) + 2 * ((∑ k ∈ Finset.range n, Z k ω) ⬝ᵥ Z n ω)) + Z n ω ⬝ᵥ Z n ω :=
        fun ω => by
          rw [Finset.sum_range_succ, add_dotProduct, dotProduct_add, dotProduct_add, dotProduct_comm (Z n ω)]
          ring
      simp only [e]
      have i1 : Integrable (fun ω => (∑ k ∈ Finset.range n, Z k ω) ⬝ᵥ (∑ k ∈ Finset.range n, Z k ω)) P := hdot _ (hs n (by omega))
      have i2 : Integrable (fun ω => 2 * ((∑ k ∈ Finset.range n, Z k ω) ⬝ᵥ Z n ω)) P := hc.const_mul 2
      have i12 : Integrable (fun ω => (∑ k ∈ Finset.range n, Z k ω) ⬝ᵥ (∑ k ∈ Finset.range n, Z k ω) +
        2 * ((∑ k ∈ Finset.range n, Z k ω) ⬝ᵥ Z n ω)) P := i1.add i2
      rw [integral_add i12 (hdot _ (hi n (by omega))), integral_add i1 i2, integral_const_mul, hcross]
      have h1 := ih (by omega)
      have h2 := hv n (by omega)
      push_cast
      linarith
  have hd := hdot _ (hs n hn)
  have hi' : Integrable (fun ω => ‖∑ k ∈ Finset.range n, Z k ω‖ ^ 2) P := hd.mono'
    ((aemeasurable_pi_lambda _ fun i => (hs n hn i).1.aemeasurable).norm.pow_const 2).aestronglyMeasurable (Eventually.of_forall fun ω => by
      rw [Real.norm_of_nonneg (sq_nonneg _)]
      exact sq_norm_le_dot _)
  exact ⟨hi', (integral_mono hi' hd fun ω => sq_norm_le_dot _).trans (hle n hn)⟩

/-- A bounded factor times an independent standard normal vector. -/
theorem factor_noise [IsProbabilityMeasure P] {E : Type*} [MeasurableSpace E] {W : Ω → E} {ξ : Ω → Vec q} (hW : AEMeasurable W P)
    (hi : IndepFun W ξ P) (hξ : IsNormal P ξ 0 1) {H : E → Mat d q} (hH : ∀ i j, Measurable fun w => H w i j) {γ : ℝ}
    (hγ : ∀ w, ∑ i, ∑ j, H w i j ^ 2 ≤ γ) :
    (∀ i, MemLp (fun ω => (H (W ω) *ᵥ ξ ω) i) 2 P) ∧ (∫ ω, (H (W ω) *ᵥ ξ ω) ⬝ᵥ (H (W ω) *ᵥ ξ ω) ∂P ≤ γ) ∧
      ∀ A : E → ℝ, Measurable A → MemLp (fun ω => A (W ω)) 2 P → ∀ i, ∫ ω, A (W ω) * (H (W ω) *ᵥ ξ ω) i ∂P = 0 := by
  have hHb : ∀ w i j, |H w i j| ≤ Real.sqrt γ := fun w i j => by
    rw [← Real.sqrt_sq_eq_abs]
    refine Real.sqrt_le_sqrt (le_trans ?_ (hγ w))
    calc H w i j ^ 2 ≤ ∑ j, H w i j ^ 2 := Finset.single_le_sum (f := fun j => H w i j ^ 2) (fun _ _ => sq_nonneg _) (Finset.mem_univ j)
      _ ≤ _ := Finset.single_le_sum (f := fun i => ∑ j, H w i j ^ 2) (fun _ _ => Finset.sum_nonneg fun _ _ => sq_nonneg _) (Finset.mem_univ i)
  have hHm : ∀ i j, AEStronglyMeasurable (fun ω => H (W ω) i j) P := fun i j => ((hH i j).comp_aemeasurable hW).aestronglyMeasurable
  have hξm : ∀ j, AEStronglyMeasurable (fun ω => ξ ω j) P := fun j => (hξ.memLp j).1
  have hij : ∀ i j, MemLp (fun ω => H (W ω) i j * ξ ω j) 2 P := fun i j =>
    (hξ.memLp j).of_le_mul ((hHm i j).mul (hξm j)) (c := Real.sqrt γ) (Eventually.of_forall fun ω => by
      rw [norm_mul]
      exact mul_le_mul_of_nonneg_right (hHb _ i j) (norm_nonneg _))
  have hL : ∀ i, MemLp (fun ω => (H (W ω) *ᵥ ξ ω) i) 2 P := fun i => by
    simp only [mulVec, dotProduct]
    exact memLp_finsetSum _ fun j _ => hij i j
  have hIξ : ∀ j j', ∫ ω, ξ ω j * ξ ω j' ∂P = (1 : Mat q q) j j' := fun j j' => by
    have h := hξ.cov j j'
    rw [covariance_eq_sub (hξ.memLp j) (hξ.memLp j'), hξ.mean] at h
    simpa using h
  refine ⟨hL, ?_, fun A hA hA2 i => ?_⟩
  · have hpair : ∀ i j j', Integrable (fun ω => (H (W ω) i j * ξ ω j) * (H (W ω) i j' * ξ ω j')) P := fun i j j' =>
      (hij i j).integrable_mul (hij i j')
    have e : ∀ ω, (H (W ω) *ᵥ ξ ω) ⬝ᵥ (H (W ω) *ᵥ ξ ω) = ∑ i, ∑ j, ∑ j', (H (W ω) i j * ξ ω j) * (H (W ω) i j' * ξ ω j') := fun ω => by
      simp only [dotProduct, mulVec, Finset.sum_mul_sum]
    simp only [e]
    rw [integral_finsetSum _ fun i _ => integrable_finsetSum _ fun j _ => integrable_finsetSum _ fun j' _ => hpair i j j']
    simp only [integral_finsetSum _ fun j _ => integrable_finsetSum _ fun j' _ => hpair _ j j',
      integral_finsetSum _ fun j' _ => hpair _ _ j']
    have hval : ∀ i j j', ∫ ω, (H (W ω) i j * ξ ω j) * (H (W ω) i j' * ξ ω j') ∂P = (∫ ω, H (W ω) i j * H (W ω) i j' ∂P) * (1 : Mat q q) j j' :=
      fun i j j' => by
        have h := hi.comp (φ := fun w => H w i j * H w i j') (ψ := fun v : Vec q => v j * v j') ((hH i j).mul (hH i j'))
          (show Measurable (fun v : Vec q => v j * v j') by fun_prop)
        have h2 := h.integral_fun_mul_eq_mul_integral ((hHm i j).mul (hHm i j')) ((hξm j).mul (hξm j'))
        rw [← hIξ]
        refine Eq.trans (integral_congr_ae (Eventually.of_forall fun ω => ?_)) h2
        simp only [Function.comp_def]
        ring
    simp only [hval, Matrix.one_apply, mul_ite, mul_one, mul_zero, Finset.sum_ite_eq, Finset.mem_univ, if_true]
    have hsq : ∀ i j, Integrable (fun ω => H (W ω) i j * H (W ω) i j) P := fun i j =>
      (Integrable.of_bound ((hHm i j).mul (hHm i j)) (Real.sqrt γ * Real.sqrt γ) (Eventually.of_forall fun ω => by
        rw [Real.norm_eq_abs, abs_mul]
        exact mul_le_mul (hHb _ i j) (hHb _ i j) (abs_nonneg _) (Real.sqrt_nonneg _)))
    simp only [← integral_finsetSum _ fun j _ => hsq _ j]
    rw [← integral_finsetSum _ fun i _ => integrable_finsetSum _ fun j _ => hsq i j]
    refine (integral_mono (integrable_finsetSum _ fun i _ => integrable_finsetSum _ fun j _ => hsq i j) (integrable_const γ) fun ω => ?_).trans
      (by simp)
    refine le_trans (le_of_eq ?_) (hγ (W ω))
    exact Finset.sum_congr rfl fun i _ => Finset.sum_congr rfl fun j _ => (sq _).symm
  · simp only [mulVec, dotProduct, Finset.mul_sum]
    have hAH : ∀ j, MemLp (fun ω => A (W ω) * H (W ω) i j) 2 P := fun j => 
      hA2.of_le_mul (hA2.1.mul (hHm i j)) (c := Real.sqrt γ) (Eventually.of_forall fun ω => by
        rw [norm_mul, mul_comm]
        exact mul_le_mul_of_nonneg_right (hHb _ i j) (norm_nonneg _))
    have hint : ∀ j, Integrable (fun ω => A (W ω) * (H (W ω) i j * ξ ω j)) P := fun j => hA2.integrable_mul (hij i j)
    rw [integral_finsetSum _ fun j _ => hint j]
    refine Finset.sum_eq_zero fun j _ => ?_
    have h := hi.comp (φ := fun w => A w * H w i j) (ψ := fun v : Vec q => v j) (hA.mul (hH i j)) (show Measurable (fun v : Vec q => v j) by fun_prop)
    have h2 := h.integral_fun_mul_eq_mul_integral (hAH j).1 (hξm j)
    have h3 : ∫ ω, ((fun v : Vec q => v j) ∘ ξ) ω ∂P = 0 := hξ.mean j
    rw [h3, mul_zero] at h2
    refine Eq.trans (integral_congr_ae (Eventually.of_forall fun ω => ?_)) h2
    simp only [Function.comp_def]
    ring

set_option maxHeartbeats 1000000 in
/-- A scheme that reads parabolas of a Brownian motion, perturbed by multiples of the normalised increments of its last components. The
factors depend on the state and on the parabolas of the first components only, and have Frobenius norm at most `√γ`: the sum of `n`
such perturbations has second moment at most `n γ`. -/
theorem draw_sum {B : Fin (m + q) → ℝ≥0 → Ω → ℝ} (hB : IsBrownianVec B P) {δ : ℝ} (hδ : 0 < δ) {N : ℕ} {c : Ω → ℕ → Vec (m + q) × Vec (m + q)}
    (hc : ∀ᵐ ω ∂P, ∀ k < N, SameEndAndArea (fun t => Foster.evalParabola t δ (c ω k).1 (c ω k).2) (fun t j => B j t.toNNReal ω) (k * δ) δ)
    {Θ : ℕ → Vec d → Vec (m + q) → Vec (m + q) → Vec d}
    (hΘ : ∀ k < N, Measurable fun p : Vec d × Vec (m + q) × Vec (m + q) => Θ k p.1 p.2.1 p.2.2) {x0 : Vec d} {Y : ℕ → Ω → Vec d}
    (hY0 : ∀ ω, Y 0 ω = x0) (hYs : ∀ k < N, ∀ ω, Y (k + 1) ω = Θ k (Y k ω) (c ω k).1 (c ω k).2)
    {G : ℕ → Vec d → Vec m → Vec m → Mat d q}
    (hG : ∀ k < N, ∀ i j, Measurable fun p : Vec d × Vec m × Vec m => G k p.1 p.2.1 p.2.2 i j) {γ : ℝ}
    (hγ : ∀ k < N, ∀ y a b, ∑ i, ∑ j, G k y a b i j ^ 2 ≤ γ) :
    (∀ n ≤ N, AEMeasurable (Y n) P) ∧ ∀ n ≤ N,
      Integrable (fun ω => ‖∑ k ∈ Finset.range n, G k (Y k ω) (firstV (c ω k).1) (firstV (c ω k).2) *ᵥ
        ((1 / Real.sqrt δ) • lastV (c ω k).1)‖ ^ 2) P ∧
      ∫ ω, ‖∑ k ∈ Finset.range n, G k (Y k ω) (firstV (c ω k).1) (firstV (c ω k).2) *ᵥ
        ((1 / Real.sqrt δ) • lastV (c ω k).1)‖ ^ 2 ∂P ≤ n * γ := by
  have hP := hB.isProb
  have hsδ : Real.sqrt δ ≠ 0 := by positivity
  have hl := C91_matched_law hB hδ N (fun ω k => (c ω k).1) (fun ω k => (c ω k).2) hc
  obtain ⟨U, hU⟩ : ∃ U : Ω → Fin N × Fin (m + q) × Fin 2 → ℝ, U = fun ω p => ![(c ω p.1).1 p.2.1, (c ω p.1).2 p.2.1] p.2.2 := ⟨_, rfl⟩
  rw [← hU] at hl
  have hU0 : ∀ ω k (hk : k < N) j, U ω (⟨k, hk⟩, j, 0) = (c ω k).1 j := fun ω k hk j => by subst hU; rfl
  have hU1 : ∀ ω k (hk : k < N) j, U ω (⟨k, hk⟩, j, 1) = (c ω k).2 j := fun ω k hk j => by subst hU; rfl
  have hUm : AEMeasurable U P := aemeasurable_pi_lambda _ fun p => (hl.memLp p).1.aemeasurable
  obtain ⟨Ψ, hΨ⟩ : ∃ Ψ : ℕ → Vec d → (Fin N × Fin (m + q) × Fin 2 → ℝ) → Vec d, ∀ k y z, Ψ k y z =
      if h : k < N then Θ k y (fun j => z (⟨k, h⟩, j, 0)) (fun j => z (⟨k, h⟩, j, 1)) else y := ⟨_, fun _ _ _ => rfl⟩
  have hΨm : ∀ k, Measurable fun p : Vec d × (Fin N × Fin (m + q) × Fin 2 → ℝ) => Ψ k p.1 p.2 := fun k => by
    simp only [hΨ]
    by_cases h : k < N
    · simp only [h, dite_true]
      exact (hΘ k h).comp (g := fun p : Vec d × Vec (m + q) × Vec (m + q) => Θ k p.1 p.2.1 p.2.2)
        (measurable_fst.prodMk ((by fun_prop : Measurable fun p : Vec d × (Fin N × Fin (m + q) × Fin 2 → ℝ) => fun j => p.2 (⟨k, h⟩, j, 0)).prodMk
          (by fun_prop : Measurable fun p : Vec d × (Fin N × Fin (m + q) × Fin 2 → ℝ) => fun j => p.2 (⟨k, h⟩, j, 1))))
    · simp only [h, dite_false]
      exact measurable_fst
  -- the state is a function of the inputs read so far
  have hstate : ∀ k ≤ N, ∃ F : ℕ → (Fin N × Fin (m + q) × Fin 2 → ℝ) → Vec d, (∀ n, Measurable (F n)) ∧
      ∀ ω z, (∀ l (hl : l < N), l < k → ∀ j s, z (⟨l, hl⟩, j, s) = U ω (⟨l, hl⟩, j, s)) → ∀ n ≤ k, Y n ω = F n z := fun k hk => by
    obtain ⟨F, hF1, hF2⟩ := exists_scheme_map (N := k) hΨm x0
    refine ⟨F, hF1, fun ω z hz n hn => hF2 (fun n => Y n ω) z (hY0 ω) (fun l hl => ?_) n hn⟩
    have hlN : l < N := by omega
    show Y (l + 1) ω = _
    rw [hΨ, dif_pos hlN, hYs l hlN]
    congr 1 <;> funext j
    · rw [hz l hlN hl, hU0]
    · rw [hz l hlN hl, hU1]
  refine ⟨fun n hn => ?_, fun n hn => ?_⟩
  · obtain ⟨F, hF1, hF2⟩ := hstate n hn
    rw [show Y n = fun ω => F n (U ω) from funext fun ω => hF2 ω (U ω) (fun _ _ _ _ _ => rfl) n le_rfl]
    exact (hF1 n).comp_aemeasurable hUm
  -- split of the inputs at one step
  obtain ⟨Z, hZ⟩ : ∃ Z : ℕ → Ω → Vec d, ∀ k ω, Z k ω = G k (Y k ω) (firstV (c ω k).1) (firstV (c ω k).2) *ᵥ
    ((1 / Real.sqrt δ) • lastV (c ω k).1) := ⟨_, fun _ _ => rfl⟩
  have hsplit : ∀ k (hk : k < N), (∀ i, MemLp (fun ω => Z k ω i) 2 P) ∧ (∫ ω, Z k ω ⬝ᵥ Z k ω ∂P ≤ γ) ∧
      ∀ l < k, ∀ i, MemLp (fun ω => Z l ω i) 2 P → ∫ ω, Z l ω i * Z k ω i ∂P = 0 := fun k hk => by
    obtain ⟨κ, hκ⟩ : ∃ κ : Fin N × Fin (m + q) × Fin 2 → Prop, ∀ p, κ p ↔ ∀ j : Fin q, p ≠ (⟨k, hk⟩, Fin.natAdd m j, 0) := ⟨_, fun _ => Iff.rfl⟩
    classical
    obtain ⟨W, hW⟩ : ∃ W : Ω → {p // κ p} → ℝ, W = fun ω p => U ω p.1 := ⟨_, rfl⟩
    obtain ⟨ext, hext⟩ : ∃ ext : ({p // κ p} → ℝ) → Fin N × Fin (m + q) × Fin 2 → ℝ, ∀ w p, ext w p = if h : κ p then w ⟨p, h⟩ else 0 :=
      ⟨_, fun _ _ => rfl⟩
    have hextm : Measurable ext := measurable_pi_lambda _ fun p => by
      simp only [hext]
      by_cases h : κ p
      · simp only [h, dite_true]; fun_prop
      · simp only [h, dite_false]; fun_prop
    have hextW : ∀ ω p, κ p → ext (W ω) p = U ω p := fun ω p h => by rw [hext, dif_pos h, hW]
    have hκl : ∀ l (hl : l < N) j s, l < k → κ (⟨l, hl⟩, j, s) := fun l hl j s hlk => (hκ _).mpr fun j' e => by
      have := congrArg (fun p : Fin N × Fin (m + q) × Fin 2 => (p.1 : ℕ)) e
      simp only at this
      omega
    have hκf : ∀ j : Fin m, κ (⟨k, hk⟩, Fin.castAdd q j, 0) := fun j => (hκ _).mpr fun j' e => by
      have := congrArg (fun p : Fin N × Fin (m + q) × Fin 2 => (p.2.1 : ℕ)) e
      simp only [Fin.val_castAdd, Fin.val_natAdd] at this
      omega
    have hκb : ∀ j, κ (⟨k, hk⟩, j, 1) := fun j => (hκ _).mpr fun j' e => by
      have := congrArg (fun p : Fin N × Fin (m + q) × Fin 2 => p.2.2) e
      simp at this
    have hind : IndepFun W (fun ω (j : Fin q) => U ω (⟨k, hk⟩, Fin.natAdd m j, 0)) P := by
      rw [hW]
      exact hl.indep_coords (fun p : {p // κ p} => p.1) (fun j : Fin q => (⟨k, hk⟩, Fin.natAdd m j, 0)) fun a b => (hκ _).mp a.2 b
    obtain ⟨ξ, hξ⟩ : ∃ ξ : Ω → Vec q, ξ = fun ω => (1 / Real.sqrt δ) • lastV (c ω k).1 := ⟨_, rfl⟩
    have hindξ : IndepFun W ξ P := by
      have h := hind.comp (φ := id) (ψ := fun v : Vec q => (1 / Real.sqrt δ) • v) measurable_id (by fun_prop)
      have e : ξ = (fun v : Vec q => (1 / Real.sqrt δ) • v) ∘ fun ω (j : Fin q) => U ω (⟨k, hk⟩, Fin.natAdd m j, 0) := by
        rw [hξ]; funext ω; simp only [Function.comp_def, hU0]; rfl
      rw [e]
      exact h
    have hξl : IsNormal P ξ 0 1 := by
      have h := (hl.reindex (fun j : Fin q => ((⟨k, hk⟩ : Fin N), Fin.natAdd m j, (0 : Fin 2)))).affine 0 (diagonal fun _ : Fin q => 1 / Real.sqrt δ)
      refine (congrArg₂ (fun (μ : Fin q → ℝ) C => IsNormal P ξ μ C) ?_ ?_).mp (h.congr_ae (Eventually.of_forall fun ω => ?_))
      · funext p
        simp [mulVec_diagonal]
      · rw [submatrix_diagonal _ _ (fun p p' hp => by
            simp only [Prod.mk.injEq, Fin.natAdd_inj, and_true, true_and] at hp
            exact hp), diagonal_transpose, diagonal_mul_diagonal, diagonal_mul_diagonal, ← diagonal_one]
        congr 1
        funext p
        have := Real.mul_self_sqrt hδ.le
        simp only [Function.comp_def, Matrix.cons_val_zero]
        field_simp
        rw [sq, this]
      · funext j
        simp only [hξ, zero_add, mulVec_diagonal, hU0]
        rfl
    obtain ⟨F, hF1, hF2⟩ := hstate k hk.le
    have hYF : ∀ ω, ∀ l ≤ k, Y l ω = F l (ext (W ω)) := fun ω l hlk =>
      hF2 ω (ext (W ω)) (fun l hl hlk j s => hextW ω _ (hκl l hl j s hlk)) l hlk
    have hWm : AEMeasurable W P := by rw [hW]; exact aemeasurable_pi_lambda _ fun p => (aemeasurable_pi_iff.mp hUm p.1)
    obtain ⟨H, hH⟩ : ∃ H : ({p // κ p} → ℝ) → Mat d q, ∀ w, H w = G k (F k (ext w)) (fun j => ext w (⟨k, hk⟩, Fin.castAdd q j, 0))
      (fun j => ext w (⟨k, hk⟩, Fin.castAdd q j, 1)) := ⟨_, fun _ => rfl⟩
    have hHm : ∀ i j, Measurable fun w => H w i j := fun i j => by
      simp only [hH]
      exact (hG k hk i j).comp (g := fun p : Vec d × Vec m × Vec m => G k p.1 p.2.1 p.2.2 i j) (((hF1 k).comp hextm).prodMk
        ((measurable_pi_lambda _ fun j => (measurable_pi_apply _).comp hextm).prodMk
          (measurable_pi_lambda _ fun j => (measurable_pi_apply _).comp hextm)))
    obtain ⟨f1, f2, f3⟩ := factor_noise hWm hindξ hξl hHm (γ := γ) fun w => by rw [hH]; exact hγ k hk _ _ _
    have hZk : ∀ ω, Z k ω = H (W ω) *ᵥ ξ ω := fun ω => by
      rw [hZ, hH, hξ, hYF ω k le_rfl]
      congr 2
      · funext j; rw [hextW ω _ (hκf j), hU0]; rfl
      · funext j; rw [hextW ω _ (hκb _), hU1]; rfl
    refine ⟨fun i => by simpa only [hZk] using f1 i, by simpa only [hZk] using f2, fun l hlk i hi => ?_⟩
    have hlN : l < N := by omega
    obtain ⟨A, hA⟩ : ∃ A : ({p // κ p} → ℝ) → ℝ, ∀ w, A w = ∑ j, G l (F l (ext w)) (fun j => ext w (⟨l, hlN⟩, Fin.castAdd q j, 0))
      (fun j => ext w (⟨l, hlN⟩, Fin.castAdd q j, 1)) i j * (1 / Real.sqrt δ * ext w (⟨l, hlN⟩, Fin.natAdd m j, 0)) := ⟨_, fun _ => rfl⟩
    have hAm : Measurable A := by
      rw [show A = fun w => A w from rfl]
      simp only [hA]
      refine Finset.measurable_fun_sum _ fun j _ => Measurable.mul ?_ (Measurable.const_mul ((measurable_pi_apply _).comp hextm) _)
      exact (hG l hlN i j).comp (g := fun p : Vec d × Vec m × Vec m => G l p.1 p.2.1 p.2.2 i j) (((hF1 l).comp hextm).prodMk
        ((measurable_pi_lambda _ fun j => (measurable_pi_apply _).comp hextm).prodMk
          (measurable_pi_lambda _ fun j => (measurable_pi_apply _).comp hextm)))
    have hZl : ∀ ω, Z l ω i = A (W ω) := fun ω => by
      rw [hZ, hA, hYF ω l hlk.le]
      have e0 : ∀ j, ext (W ω) (⟨l, hlN⟩, j, 0) = (c ω l).1 j := fun j => by rw [hextW ω _ (hκl l hlN j 0 hlk), hU0]
      have e1 : ∀ j, ext (W ω) (⟨l, hlN⟩, j, 1) = (c ω l).2 j := fun j => by rw [hextW ω _ (hκl l hlN j 1 hlk), hU1]
      simp only [e0, e1]
      rfl
    have h := f3 A hAm (by simpa only [hZl] using hi) i
    simpa only [hZl, hZk] using h
  have h := orthogonal_sum (fun k hk => (hsplit k hk).1) (fun k hk l hl i => (hsplit k hk).2.2 l hl i ((hsplit l (hl.trans hk)).1 i))
    (fun k hk => (hsplit k hk).2.1) hn
  simpa only [hZ] using h

end Verif
