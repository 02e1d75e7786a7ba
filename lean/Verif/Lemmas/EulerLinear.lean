import Verif.Lemmas.Lin15
import Verif.Lemmas.EulerMaruyama
import Verif.Props.Matched
import Verif.Props.StrongEkf
import Verif.Model.ScriptsPathwise

/-! `sde_solver` with Euler steps on linear problems: the recursion and its moments. -/

namespace Verif

open Matrix Spec Jnp Set MeasureTheory ProbabilityTheory Filter Scripts
open scoped NNReal Topology

variable {d m : ℕ}

/-- One Euler step on a linear problem. -/
noncomputable def eulerOne (F : Mat d d) (δ : ℝ) (M : ℕ) : Mat d d := 1 + (δ / M) • F

/-- Mean of the powers of the Euler step, weighted by `w`. -/
noncomputable def eulerMeanPow (F : Mat d d) (δ : ℝ) (M : ℕ) (w : ℕ → ℝ) : Mat d d := (1 / M : ℝ) • ∑ i ∈ Finset.range M, w i • eulerOne F δ M ^ (M - 1 - i)

/-- The weights of the area coefficient. -/
noncomputable def areaWeight (M : ℕ) (i : ℕ) : ℝ := 1 - 2 * i / M

/-- The covariance added by one interval. -/
noncomputable def eulerCov (F : Mat d d) (V : Mat d d) (δ : ℝ) (M : ℕ) : Mat d d :=
  δ • (eulerMeanPow F δ M (fun _ => 1) * V * (eulerMeanPow F δ M fun _ => 1)ᵀ) + (3 * δ) • (eulerMeanPow F δ M (areaWeight M) * V * (eulerMeanPow F δ M (areaWeight M))ᵀ)

theorem eulerOne_transpose (F : Mat d d) (δ : ℝ) (M : ℕ) : (eulerOne F δ M)ᵀ = eulerOne Fᵀ δ M := by
  simp [eulerOne, transpose_add, transpose_smul]

theorem eulerMeanPow_transpose (F : Mat d d) (δ : ℝ) (M : ℕ) (w : ℕ → ℝ) : (eulerMeanPow F δ M w)ᵀ = eulerMeanPow Fᵀ δ M w := by
  simp [eulerMeanPow, transpose_smul, transpose_sum, transpose_pow, eulerOne_transpose]

/-- The Euler steps inside one interval. -/
theorem euler_interval (F : Mat d d) (S : Mat d m) {δ : ℝ} (hδ : 0 < δ) {M : ℕ} (hM : 0 < M) (a b : Vec m) (tk : ℝ) (κ : Key) (x : Vec d) :
    eulerInt M κ x (intervalField (fun z _ => F *ᵥ z) (fun _ _ => S) (Foster.getApprox m) δ (a, b) tk) δ =
      eulerOne F δ M ^ M *ᵥ x + (eulerMeanPow F δ M (fun _ => 1) *ᵥ (S *ᵥ a) + Real.sqrt 6 • (eulerMeanPow F δ M (areaWeight M) *ᵥ (S *ᵥ b))) := by
  have hM' : (0 : ℝ) < M := by exact_mod_cast hM
  have hf : intervalField (fun z _ => F *ᵥ z) (fun _ _ => S) (Foster.getApprox m) δ (a, b) tk =
      fun z t => F *ᵥ z + ((1 / δ) • (S *ᵥ a) + (Real.sqrt 6 * (1 - 2 * t / δ) / δ) • (S *ᵥ b)) := by
    funext z t
    have e := jacT_evalParabola δ a b t
    simp only [intervalField, Foster.getApprox, e]
    have e2 : (fun j => (a j + Real.sqrt 6 * b j * (1 - 2 * t / δ)) / δ) = (1 / δ) • a + (Real.sqrt 6 * (1 - 2 * t / δ) / δ) • b := by
      funext j
      simp only [Pi.add_apply, Pi.smul_apply, smul_eq_mul]
      ring
    rw [e2, mulVec_add, mulVec_smul, mulVec_smul]
  have key : ∀ n, eulerSolver x (fun z t => F *ᵥ z + ((1 / δ) • (S *ᵥ a) + (Real.sqrt 6 * (1 - 2 * t / δ) / δ) • (S *ᵥ b))) (δ / M) n =
      eulerOne F δ M ^ n *ᵥ x + ∑ i ∈ Finset.range n, eulerOne F δ M ^ (n - 1 - i) *ᵥ ((1 / M : ℝ) • (S *ᵥ a) + (1 / M * Real.sqrt 6 * areaWeight M i) • (S *ᵥ b)) := by
    intro n
    induction n with
    | zero => rw [eulerSolver_zero]; simp
    | succ n ih =>
      have e3 : ∀ z, z + (δ / M) • (F *ᵥ z) = eulerOne F δ M *ᵥ z := fun z => by rw [eulerOne, add_mulVec, one_mulVec, smul_mulVec]
      have e4 : (δ / M) • ((1 / δ) • (S *ᵥ a) + (Real.sqrt 6 * (1 - 2 * (n * (δ / M)) / δ) / δ) • (S *ᵥ b)) =
          (1 / M : ℝ) • (S *ᵥ a) + (1 / M * Real.sqrt 6 * areaWeight M n) • (S *ᵥ b) := by
        rw [smul_add, smul_smul, smul_smul, areaWeight]
        congr 2 <;> field_simp
      rw [eulerSolver_succ, smul_add, ← add_assoc, e3, e4, ih, mulVec_add, mulVec_mulVec, ← pow_succ', mulVec_sum, Finset.sum_range_succ, add_assoc]
      congr 1
      have e5 : n + 1 - 1 - n = 0 := by omega
      rw [e5, pow_zero, one_mulVec]
      congr 1
      refine Finset.sum_congr rfl fun i hi => ?_
      have hi' := Finset.mem_range.mp hi
      rw [mulVec_mulVec, ← pow_succ']
      congr 2
      omega
  show eulerSolver _ _ _ _ = _
  rw [hf, key M]
  congr 1
  simp only [eulerMeanPow, smul_mulVec, sum_mulVec, mulVec_add, mulVec_smul, Finset.sum_add_distrib, Finset.smul_sum, smul_smul, one_smul]
  congr 1
  refine Finset.sum_congr rfl fun i _ => ?_
  congr 1
  ring

/-- The loading of the coefficients of one interval. -/
noncomputable def eulerLoad (F : Mat d d) (S : Mat d m) (δ : ℝ) (M : ℕ) : Matrix (Fin d) (Fin m × Fin 2) ℝ :=
  Matrix.of fun i p => ![(eulerMeanPow F δ M (fun _ => 1) * S) i p.1, Real.sqrt 6 * (eulerMeanPow F δ M (areaWeight M) * S) i p.1] p.2

theorem eulerLoad_mulVec (F : Mat d d) (S : Mat d m) (δ : ℝ) (M : ℕ) (a b : Vec m) :
    eulerLoad F S δ M *ᵥ (fun p => ![a p.1, b p.1] p.2) = eulerMeanPow F δ M (fun _ => 1) *ᵥ (S *ᵥ a) + Real.sqrt 6 • (eulerMeanPow F δ M (areaWeight M) *ᵥ (S *ᵥ b)) := by
  funext i
  rw [mulVec_mulVec, mulVec_mulVec]
  simp only [eulerLoad, mulVec, dotProduct, Fintype.sum_prod_type, Fin.sum_univ_two, Matrix.of_apply, cons_val_zero, cons_val_one, Finset.sum_add_distrib, Pi.add_apply,
    Pi.smul_apply, smul_eq_mul, Finset.mul_sum]
  congr 1
  exact Finset.sum_congr rfl fun j _ => by ring

theorem eulerLoad_cov (F : Mat d d) (S : Mat d m) (δ : ℝ) (M : ℕ) :
    eulerLoad F S δ M * diagonal (fun p => ![δ, δ / 2] p.2) * (eulerLoad F S δ M)ᵀ = eulerCov F (S * Sᵀ) δ M := by
  obtain ⟨A, hA⟩ : ∃ A, A = eulerMeanPow F δ M (fun _ => 1) * S := ⟨_, rfl⟩
  obtain ⟨B, hB⟩ : ∃ B, B = eulerMeanPow F δ M (areaWeight M) * S := ⟨_, rfl⟩
  have e : eulerCov F (S * Sᵀ) δ M = δ • (A * Aᵀ) + (3 * δ) • (B * Bᵀ) := by
    rw [eulerCov, hA, hB, transpose_mul, transpose_mul]
    simp only [Matrix.mul_assoc]
  have h6 : Real.sqrt 6 * Real.sqrt 6 = 6 := Real.mul_self_sqrt (by norm_num)
  rw [e]
  ext i j
  rw [mul_apply, Matrix.add_apply, Matrix.smul_apply, Matrix.smul_apply, mul_apply, mul_apply, Fintype.sum_prod_type]
  simp only [mul_diagonal, transpose_apply, eulerLoad, Matrix.of_apply, Fin.sum_univ_two, cons_val_zero, cons_val_one, Finset.sum_add_distrib, smul_eq_mul, Finset.mul_sum, ← hA, ← hB]
  congr 1
  · exact Finset.sum_congr rfl fun k _ => by ring
  · refine Finset.sum_congr rfl fun k _ => ?_
    calc Real.sqrt 6 * B i k * (δ / 2) * (Real.sqrt 6 * B j k) = Real.sqrt 6 * Real.sqrt 6 * (δ / 2) * (B i k * B j k) := by ring
      _ = _ := by rw [h6]; ring

/-- The law of every state. -/
theorem euler_linear_law {Ω : Type*} [MeasurableSpace Ω] {P : Measure Ω} {R : Ω → Rng} (hR : IdealNormals P R) (key : Key) (x0 : Vec d) (F : Mat d d) (S : Mat d m)
    {δ : ℝ} (hδ : 0 < δ) (N : ℕ) {M : ℕ} (hM : 0 < M) (n : ℕ) (hn : n ≤ N) : ∃ y : Ω → Vec d,
      (∀ ω, (sdeSolver (R ω) key (fun x _ => F *ᵥ x) (fun _ _ => S) x0 (Foster.getApprox m) δ N (eulerInt M)).2.1[n]? = some (y ω)) ∧
      IsNormal P y ((eulerOne F δ M ^ M) ^ n *ᵥ x0) (∑ i ∈ Finset.range n, (eulerOne F δ M ^ M) ^ i * eulerCov F (S * Sᵀ) δ M * ((eulerOne F δ M ^ M) ^ i)ᵀ) := by
  choose y h1 h2 h3 using fun ω => sdeSolver_states (R ω) key (fun x _ => F *ᵥ x) (fun _ _ => S) x0 (Foster.getApprox m) δ N (eulerInt M)
  have h4 : ∀ ω k, ∃ c : Vec m × Vec m, k < N → (sdeSolver (R ω) key (fun x _ => F *ᵥ x) (fun _ _ => S) x0 (Foster.getApprox m) δ N (eulerInt M)).2.2[k]? = some c ∧
      y ω (k + 1) = eulerInt M ((key.child N k).child 2 1) (y ω k) (intervalField (fun x _ => F *ᵥ x) (fun _ _ => S) (Foster.getApprox m) δ c (k * δ)) δ := fun ω k => by
    by_cases hk : k < N
    · obtain ⟨c, hc⟩ := h3 ω k hk
      exact ⟨c, fun _ => hc⟩
    · exact ⟨(0, 0), fun h => absurd h hk⟩
  choose c hc using h4
  refine ⟨fun ω => y ω n, fun ω => h1 ω n hn, ?_⟩
  have hlaw := C91_code_law hR key (fun x _ => F *ᵥ x) (fun _ _ => S) x0 hδ N (eulerInt M) (fun ω k => (c ω k).1) (fun ω k => (c ω k).2) (fun ω k hk => (hc ω k hk).1)
  have hD : (diagonal fun q : Fin N × Fin m × Fin 2 => ![δ, δ / 2] q.2.2) =
      fun p q => if p.1 = q.1 then (diagonal (fun p : Fin m × Fin 2 => ![δ, δ / 2] p.2)) p.2 q.2 else 0 := by
    ext ⟨i, p⟩ ⟨j, q⟩
    by_cases hij : i = j
    · subst hij
      by_cases hpq : p = q
      · subst hpq; simp
      · rw [diagonal_apply_ne _ (by simpa using hpq)]
        simp [hpq]
    · rw [diagonal_apply_ne _ (by simp [hij])]
      simp [hij]
  rw [hD] at hlaw
  have h5 := isNormal_steps hlaw (u := fun k ω p => ![(c ω k).1 p.1, (c ω k).2 p.1] p.2) (eulerOne F δ M ^ M) (eulerLoad F S δ M) x0 (fun n ω => y ω n) h2
    (fun k hk ω => by rw [(hc ω k hk).2, euler_interval F S hδ hM, eulerLoad_mulVec]) n hn
  rw [eulerLoad_cov] at h5
  exact h5


section Norm

open scoped Matrix.Norms.Operator

/-- The covariance after `k` steps, for any transition and noise close to those of the solution. -/
theorem cov_recursion_near [Nonempty (Fin d)] (F : Mat d d) (S : Mat d m) {T L h a b B : ℝ} (hL1 : ‖F‖ ≤ L) (hh0 : 0 < h) (hB0 : 0 ≤ B) (ha : 0 ≤ a) (hb : 0 ≤ b)
    {N : ℕ} (hNh : (N : ℝ) * h ≤ T) (hhT : h ≤ T) (hB : ∀ t ∈ Icc 0 T, ‖transitionCov F S t‖ ≤ B) {Q R : Mat d d} (hq1 : ‖Q‖ ≤ Real.exp (h * L)) (hq2 : ‖Qᵀ‖ ≤ Real.exp (h * L))
    (hd1 : ‖Q - expm (h • F)‖ ≤ a) (hd2 : ‖Qᵀ - (expm (h • F))ᵀ‖ ≤ a) (hR : ‖R - transitionCov F S h‖ ≤ b) :
    ∀ k ≤ N, ‖∑ i ∈ Finset.range k, Q ^ i * R * (Q ^ i)ᵀ - transitionCov F S (k * h)‖ ≤ k * (2 * a * B * Real.exp (T * L) + b) * Real.exp (2 * T * L) := by
  have hL0 : 0 ≤ L := (norm_nonneg F).trans hL1
  have hkh : ∀ k : ℕ, k ≤ N → (k : ℝ) * h ≤ T := fun k hk =>
    (mul_le_mul_of_nonneg_right (by exact_mod_cast hk) hh0.le).trans hNh
  obtain ⟨e, he⟩ : ∃ e, e = expm (h • F) := ⟨_, rfl⟩
  rw [← he] at hd1 hd2
  have he1 : ‖e‖ ≤ Real.exp (h * L) := he ▸ exp_norm_le F hL1 hh0.le
  have hET : Real.exp (h * L) ≤ Real.exp (T * L) := Real.exp_le_exp.mpr (by gcongr)
  obtain ⟨D, hD⟩ : ∃ D, D = 2 * a * B * Real.exp (T * L) + b := ⟨_, rfl⟩
  have hD0 : 0 ≤ D := by rw [hD]; positivity
  rw [← hD]
  have main : ∀ k ≤ N, ‖∑ i ∈ Finset.range k, Q ^ i * R * (Q ^ i)ᵀ - transitionCov F S (k * h)‖ ≤ k * D * Real.exp (k * (2 * (h * L))) := by
    intro k
    induction k with
    | zero => intro _; simp [transitionCov_zero]
    | succ k ih =>
      intro hk
      have ih := ih (by omega)
      obtain ⟨E, hE⟩ : ∃ E, E = ∑ i ∈ Finset.range k, Q ^ i * R * (Q ^ i)ᵀ - transitionCov F S (k * h) := ⟨_, rfl⟩
      rw [← hE] at ih
      have hs : ∑ i ∈ Finset.range (k + 1), Q ^ i * R * (Q ^ i)ᵀ = Q * (E + transitionCov F S (k * h)) * Qᵀ + R := by
        rw [hE, sub_add_cancel, Finset.sum_range_succ', Finset.mul_sum, Finset.sum_mul]
        simp only [pow_zero, transpose_one, Matrix.one_mul, Matrix.mul_one]
        congr 1
        refine Finset.sum_congr rfl fun i _ => ?_
        rw [pow_succ', transpose_mul]
        noncomm_ring
      have hv : transitionCov F S ((k + 1 : ℕ) * h) = e * transitionCov F S (k * h) * eᵀ + transitionCov F S h := by
        rw [he, ← transitionCov_add]
        congr 1
        push_cast; ring
      obtain ⟨V, hV⟩ : ∃ V, V = transitionCov F S (k * h) := ⟨_, rfl⟩
      have hVB : ‖V‖ ≤ B := by rw [hV]; exact hB _ ⟨by positivity, hkh k (by omega)⟩
      rw [hs, hv, ← hV]
      have e1 : Q * (E + V) * Qᵀ + R - (e * V * eᵀ + transitionCov F S h) =
          Q * E * Qᵀ + ((Q - e) * V * Qᵀ + e * V * (Qᵀ - eᵀ) + (R - transitionCov F S h)) := by noncomm_ring
      rw [e1]
      have b1 : ‖Q * E * Qᵀ‖ ≤ Real.exp (h * L) * ‖E‖ * Real.exp (h * L) :=
        (norm_mul_le _ _).trans (by gcongr; exact (norm_mul_le _ _).trans (by gcongr))
      have b2 : ‖(Q - e) * V * Qᵀ‖ ≤ a * B * Real.exp (T * L) :=
        (norm_mul_le _ _).trans (mul_le_mul ((norm_mul_le _ _).trans (by gcongr)) (hq2.trans hET) (norm_nonneg _) (by positivity))
      have b3 : ‖e * V * (Qᵀ - eᵀ)‖ ≤ Real.exp (T * L) * B * a :=
        (norm_mul_le _ _).trans (mul_le_mul ((norm_mul_le _ _).trans (mul_le_mul (he1.trans hET) hVB (norm_nonneg _) (by positivity))) hd2 (norm_nonneg _) (by positivity))
      have b5 : ‖(Q - e) * V * Qᵀ + e * V * (Qᵀ - eᵀ) + (R - transitionCov F S h)‖ ≤ D := by
        refine (norm_add_le _ _).trans ((add_le_add ((norm_add_le _ _).trans (add_le_add b2 b3)) hR).trans ?_)
        rw [hD]
        linarith only
      have hE2 : Real.exp ((k + 1 : ℕ) * (2 * (h * L))) = Real.exp (h * L) * Real.exp (h * L) * Real.exp (k * (2 * (h * L))) := by
        rw [← Real.exp_add, ← Real.exp_add]; congr 1; push_cast; ring
      have hE3 : 1 ≤ Real.exp ((k + 1 : ℕ) * (2 * (h * L))) := Real.one_le_exp (by positivity)
      refine (norm_add_le _ _).trans ((add_le_add b1 b5).trans ?_)
      have h1 : Real.exp (h * L) * ‖E‖ * Real.exp (h * L) ≤ k * D * Real.exp ((k + 1 : ℕ) * (2 * (h * L))) := by
        rw [hE2]
        calc Real.exp (h * L) * ‖E‖ * Real.exp (h * L) ≤ Real.exp (h * L) * (k * D * Real.exp (k * (2 * (h * L)))) * Real.exp (h * L) := by gcongr
          _ = _ := by ring
      have h2 : D ≤ D * Real.exp ((k + 1 : ℕ) * (2 * (h * L))) := le_mul_of_one_le_right hD0 hE3
      have h3 : ((k + 1 : ℕ) : ℝ) * D * Real.exp ((k + 1 : ℕ) * (2 * (h * L))) =
          k * D * Real.exp ((k + 1 : ℕ) * (2 * (h * L))) + D * Real.exp ((k + 1 : ℕ) * (2 * (h * L))) := by
        push_cast; ring
      rw [h3]
      exact add_le_add h1 h2
  intro k hk
  refine (main k hk).trans ?_
  have hk' := hkh k hk
  have : Real.exp (k * (2 * (h * L))) ≤ Real.exp (2 * T * L) := Real.exp_le_exp.mpr (by
    calc (k : ℝ) * (2 * (h * L)) = 2 * (k * h) * L := by ring
      _ ≤ _ := by gcongr)
  gcongr

section Local

variable [Nonempty (Fin d)] {F : Mat d d} {L T δ : ℝ} {M : ℕ}

theorem eulerOne_norm (hL : ‖F‖ ≤ L) (hδ : 0 < δ) : ‖eulerOne F δ M‖ ≤ Real.exp (δ / M * L) := by
  rw [eulerOne]
  refine (norm_add_le _ _).trans ?_
  rw [norm_one, norm_smul, Real.norm_of_nonneg (by positivity)]
  have h1 : δ / M * ‖F‖ ≤ δ / M * L := by gcongr
  have h2 := Real.add_one_le_exp (δ / M * L)
  linarith only [h1, h2]

theorem eulerOne_exp (hL0 : 0 ≤ L) (hδ : 0 < δ) (hδT : δ ≤ T) (hM : 0 < M) {k : ℕ} (hk : k ≤ M) : Real.exp (k * (δ / M * L)) ≤ Real.exp (T * L) := by
  have hM' : (0 : ℝ) < M := by exact_mod_cast hM
  refine Real.exp_le_exp.mpr ?_
  have h1 : (k : ℝ) * (δ / M) ≤ δ := by
    have : (k : ℝ) ≤ M := by exact_mod_cast hk
    calc (k : ℝ) * (δ / M) ≤ M * (δ / M) := by gcongr
      _ = δ := by field_simp
  calc (k : ℝ) * (δ / M * L) = k * (δ / M) * L := by ring
    _ ≤ T * L := by gcongr; exact h1.trans hδT

theorem eulerOne_pow_norm (hL : ‖F‖ ≤ L) (hδ : 0 < δ) (hδT : δ ≤ T) (hM : 0 < M) {k : ℕ} (hk : k ≤ M) : ‖eulerOne F δ M ^ k‖ ≤ Real.exp (T * L) := by
  refine (norm_pow_le _ k).trans ?_
  refine (pow_le_pow_left₀ (norm_nonneg _) (eulerOne_norm hL hδ) k).trans ?_
  rw [← Real.exp_nat_mul]
  exact eulerOne_exp ((norm_nonneg F).trans hL) hδ hδT hM hk

theorem eulerOne_pow_sub_one (hL : ‖F‖ ≤ L) (hδ : 0 < δ) (hδT : δ ≤ T) (hM : 0 < M) {k : ℕ} (hk : k ≤ M) : ‖eulerOne F δ M ^ k - 1‖ ≤ L * Real.exp (T * L) * δ := by
  have hM' : (0 : ℝ) < M := by exact_mod_cast hM
  have hL0 : 0 ≤ L := (norm_nonneg F).trans hL
  have h1 := pow_sub_pow_le (eulerOne F δ M) 1 (x := δ / M * L) (by positivity) (eulerOne_norm hL hδ) (by rw [norm_one]; exact Real.one_le_exp (by positivity)) k
  rw [one_pow] at h1
  refine h1.trans ?_
  have h2 : ‖eulerOne F δ M - 1‖ ≤ δ / M * L := by
    rw [eulerOne, add_sub_cancel_left, norm_smul, Real.norm_of_nonneg (by positivity)]
    gcongr
  have h3 : (k : ℝ) * (δ / M) ≤ δ := by
    have : (k : ℝ) ≤ M := by exact_mod_cast hk
    calc (k : ℝ) * (δ / M) ≤ M * (δ / M) := by gcongr
      _ = δ := by field_simp
  calc (k : ℝ) * ‖eulerOne F δ M - 1‖ * Real.exp (k * (δ / M * L)) ≤ k * (δ / M * L) * Real.exp (T * L) := by
        have := eulerOne_exp hL0 hδ hδT hM hk
        gcongr
    _ = k * (δ / M) * L * Real.exp (T * L) := by ring
    _ ≤ δ * L * Real.exp (T * L) := by gcongr
    _ = _ := by ring

theorem eulerOne_pow_linear (hL : ‖F‖ ≤ L) (hδ : 0 < δ) (hδT : δ ≤ T) (hM : 0 < M) {k : ℕ} (hk : k ≤ M) :
    ‖eulerOne F δ M ^ k - 1 - (k * (δ / M)) • F‖ ≤ L ^ 2 * Real.exp (T * L) * δ ^ 2 := by
  have hM' : (0 : ℝ) < M := by exact_mod_cast hM
  have hL0 : 0 ≤ L := (norm_nonneg F).trans hL
  have main : ∀ k ≤ M, ‖eulerOne F δ M ^ k - 1 - (k * (δ / M)) • F‖ ≤ k * (δ / M) * (L ^ 2 * Real.exp (T * L) * δ) := by
    intro k
    induction k with
    | zero => intro _; simp
    | succ k ih =>
      intro hk
      have e : eulerOne F δ M ^ (k + 1) - 1 - ((k + 1 : ℕ) * (δ / M)) • F = (eulerOne F δ M ^ k - 1 - (k * (δ / M)) • F) + (δ / M) • ((eulerOne F δ M ^ k - 1) * F) := by
        have e1 : eulerOne F δ M ^ (k + 1) = eulerOne F δ M ^ k + (δ / M) • (eulerOne F δ M ^ k * F) := by
          rw [pow_succ]
          nth_rewrite 2 [eulerOne]
          rw [mul_add, mul_one, mul_smul_comm]
        rw [e1, sub_mul, one_mul, smul_sub]
        push_cast
        rw [add_mul, one_mul, add_smul]
        abel
      rw [e]
      refine (norm_add_le _ _).trans ?_
      have h1 := ih (by omega)
      have h2 : ‖(δ / M) • ((eulerOne F δ M ^ k - 1) * F)‖ ≤ δ / M * (L * Real.exp (T * L) * δ * L) := by
        rw [norm_smul, Real.norm_of_nonneg (by positivity)]
        have h3 := eulerOne_pow_sub_one hL hδ hδT hM (k := k) (by omega)
        have : ‖(eulerOne F δ M ^ k - 1) * F‖ ≤ L * Real.exp (T * L) * δ * L := (norm_mul_le _ _).trans (mul_le_mul h3 hL (norm_nonneg _) (by positivity))
        gcongr
      refine (add_le_add h1 h2).trans (le_of_eq ?_)
      push_cast
      ring
  refine (main k hk).trans ?_
  have h3 : (k : ℝ) * (δ / M) ≤ δ := by
    have : (k : ℝ) ≤ M := by exact_mod_cast hk
    calc (k : ℝ) * (δ / M) ≤ M * (δ / M) := by gcongr
      _ = δ := by field_simp
  calc (k : ℝ) * (δ / M) * (L ^ 2 * Real.exp (T * L) * δ) ≤ δ * (L ^ 2 * Real.exp (T * L) * δ) := by gcongr
    _ = _ := by ring

theorem eulerOne_pow_exp (hL : ‖F‖ ≤ L) (hδ : 0 < δ) (hδT : δ ≤ T) (hM : 0 < M) :
    ‖eulerOne F δ M ^ M - expm (δ • F)‖ ≤ (L ^ 2 + L ^ 3 * Real.exp (T * L) * T) * Real.exp (T * L) * (δ ^ 2 / M) := by
  have hM' : (0 : ℝ) < M := by exact_mod_cast hM
  have hM1 : (1 : ℝ) ≤ M := by exact_mod_cast hM
  have hL0 : 0 ≤ L := (norm_nonneg F).trans hL
  obtain ⟨h, hh⟩ : ∃ h, h = δ / M := ⟨_, rfl⟩
  have hh0 : 0 < h := by rw [hh]; positivity
  have hMh : (M : ℝ) * h = δ := by rw [hh]; field_simp
  have hhT : h ≤ T := le_trans (by rw [← hMh]; nlinarith) hδT
  have e1 : expm (δ • F) = expm (h • F) ^ M := by rw [expm_pow, hMh]
  rw [e1]
  have hn1 := eulerOne_norm (M := M) hL hδ
  rw [← hh] at hn1
  refine (pow_sub_pow_le _ _ (x := h * L) (by positivity) hn1 (exp_norm_le F hL hh0.le) M).trans ?_
  have h1 : ‖eulerOne F δ M - expm (h • F)‖ ≤ (L ^ 2 + L ^ 3 * Real.exp (T * L) * T) * h ^ 2 := by
    have e2 : eulerOne F δ M - expm (h • F) = (trans15 F h - expm (h • F)) - (h ^ 2 / 2) • (F * F) := by
      rw [eulerOne, trans15, ← hh]; abel
    rw [e2]
    refine (norm_sub_le _ _).trans ?_
    have h2 := trans15_sub F hL hh0.le hhT
    have h3 : ‖(h ^ 2 / 2) • (F * F)‖ ≤ h ^ 2 / 2 * (L * L) := by
      rw [norm_smul, Real.norm_of_nonneg (by positivity)]
      have : ‖F * F‖ ≤ L * L := (norm_mul_le _ _).trans (by gcongr)
      gcongr
    have h4 : L ^ 3 * Real.exp (T * L) * h ^ 3 ≤ L ^ 3 * Real.exp (T * L) * (T * h ^ 2) := by
      have : h ^ 3 ≤ T * h ^ 2 := by rw [pow_succ']; gcongr
      gcongr
    have h5 : 0 ≤ h ^ 2 * (L * L) := by positivity
    refine (add_le_add (h2.trans h4) h3).trans ?_
    linarith only [h5]
  have h6 := eulerOne_exp hL0 hδ hδT hM le_rfl
  rw [← hh] at h6
  calc (M : ℝ) * ‖eulerOne F δ M - expm (h • F)‖ * Real.exp (M * (h * L)) ≤ M * ((L ^ 2 + L ^ 3 * Real.exp (T * L) * T) * h ^ 2) * Real.exp (T * L) := by
        have hT0 : 0 ≤ T := hδ.le.trans hδT
        gcongr
    _ = _ := by rw [hh]; field_simp

theorem eulerMeanPow_one (hL : ‖F‖ ≤ L) (hδ : 0 < δ) (hδT : δ ≤ T) (hM : 0 < M) :
    ‖eulerMeanPow F δ M (fun _ => 1) - (1 + (δ / 2) • F)‖ ≤ L ^ 2 * Real.exp (T * L) * δ ^ 2 + L * (δ / M) := by
  have hM' : (0 : ℝ) < M := by exact_mod_cast hM
  have hL0 : 0 ≤ L := (norm_nonneg F).trans hL
  have e0 : eulerMeanPow F δ M (fun _ => 1) = (1 / M : ℝ) • ∑ k ∈ Finset.range M, eulerOne F δ M ^ k := by
    rw [eulerMeanPow]
    simp only [one_smul]
    rw [Finset.sum_range_reflect (fun k => eulerOne F δ M ^ k)]
  have hsum : ∑ k ∈ Finset.range M, (k : ℝ) = M * (M - 1) / 2 := by
    have := Finset.sum_range_id_mul_two M
    have h2 : ((∑ k ∈ Finset.range M, k : ℕ) : ℝ) * 2 = M * (M - 1) := by
      have h3 := congrArg (Nat.cast (R := ℝ)) this
      rw [Nat.cast_mul, Nat.cast_mul, Nat.cast_sub hM] at h3
      simpa using h3
    push_cast at h2
    linarith only [h2]
  have e1 : eulerMeanPow F δ M (fun _ => 1) - (1 + (δ / 2) • F) = (1 / M : ℝ) • ∑ k ∈ Finset.range M, (eulerOne F δ M ^ k - 1 - (k * (δ / M)) • F) - (δ / (2 * M)) • F := by
    rw [e0, Finset.sum_sub_distrib, Finset.sum_sub_distrib, ← Finset.sum_smul, ← Finset.sum_mul, hsum, Finset.sum_const, Finset.card_range, smul_sub, smul_sub, smul_smul,
      ← Nat.cast_smul_eq_nsmul ℝ, smul_smul]
    have c1 : (1 / M : ℝ) * M = 1 := by field_simp
    have c2 : (1 / M : ℝ) * (M * (M - 1) / 2 * (δ / M)) = δ / 2 - δ / (2 * M) := by field_simp
    rw [c1, c2, one_smul, sub_smul]
    abel
  rw [e1]
  refine (norm_sub_le _ _).trans (add_le_add ?_ ?_)
  · rw [norm_smul, Real.norm_of_nonneg (by positivity)]
    have h1 : ‖∑ k ∈ Finset.range M, (eulerOne F δ M ^ k - 1 - (k * (δ / M)) • F)‖ ≤ M * (L ^ 2 * Real.exp (T * L) * δ ^ 2) := by
      refine (norm_sum_le _ _).trans ((Finset.sum_le_sum fun k hk => eulerOne_pow_linear hL hδ hδT hM (Finset.mem_range.mp hk).le).trans ?_)
      rw [Finset.sum_const, Finset.card_range, nsmul_eq_mul]
    calc (1 / M : ℝ) * _ ≤ 1 / M * (M * (L ^ 2 * Real.exp (T * L) * δ ^ 2)) := by gcongr
      _ = _ := by field_simp
  · rw [norm_smul, Real.norm_of_nonneg (by positivity)]
    calc δ / (2 * M) * ‖F‖ ≤ δ / (2 * M) * L := by gcongr
      _ = L * (δ / M) / 2 := by field_simp
      _ ≤ L * (δ / M) := half_le_self (by positivity)

theorem eulerMeanPow_norm (hL : ‖F‖ ≤ L) (hδ : 0 < δ) (hδT : δ ≤ T) (hM : 0 < M) : ‖eulerMeanPow F δ M (fun _ => 1)‖ ≤ Real.exp (T * L) := by
  have hM' : (0 : ℝ) < M := by exact_mod_cast hM
  rw [eulerMeanPow, norm_smul, Real.norm_of_nonneg (by positivity)]
  have h1 : ‖∑ i ∈ Finset.range M, (1 : ℝ) • eulerOne F δ M ^ (M - 1 - i)‖ ≤ M * Real.exp (T * L) := by
    refine (norm_sum_le _ _).trans ((Finset.sum_le_sum fun k hk => ?_).trans (b := ∑ _k ∈ Finset.range M, Real.exp (T * L)) ?_)
    · rw [one_smul]
      exact eulerOne_pow_norm hL hδ hδT hM (by omega)
    · rw [Finset.sum_const, Finset.card_range, nsmul_eq_mul]
  calc (1 / M : ℝ) * _ ≤ 1 / M * (M * Real.exp (T * L)) := by gcongr
    _ = _ := by field_simp

theorem eulerMeanPow_area (hL : ‖F‖ ≤ L) (hδ : 0 < δ) (hδT : δ ≤ T) (hM : 0 < M) : ‖eulerMeanPow F δ M (areaWeight M)‖ ≤ 1 / M + L * Real.exp (T * L) * δ := by
  have hM' : (0 : ℝ) < M := by exact_mod_cast hM
  have hL0 : 0 ≤ L := (norm_nonneg F).trans hL
  have hw : ∀ i ∈ Finset.range M, |areaWeight M i| ≤ 1 := fun i hi => by
    have h1 : (i : ℝ) / M ≤ 1 := by
      rw [div_le_one hM']
      exact_mod_cast (Finset.mem_range.mp hi).le
    have h2 : 0 ≤ (i : ℝ) / M := by positivity
    rw [areaWeight, mul_div_assoc, abs_le]
    constructor <;> linarith only [h1, h2]
  have hsum : ∑ i ∈ Finset.range M, areaWeight M i = 1 := by
    have h2 : (∑ k ∈ Finset.range M, (k : ℝ)) * 2 = M * (M - 1) := by
      have h3 := congrArg (Nat.cast (R := ℝ)) (Finset.sum_range_id_mul_two M)
      rw [Nat.cast_mul, Nat.cast_mul, Nat.cast_sub hM] at h3
      simpa using h3
    simp only [areaWeight, Finset.sum_sub_distrib, Finset.sum_const, Finset.card_range, nsmul_eq_mul, mul_one, mul_div_assoc, ← Finset.mul_sum]
    rw [← Finset.sum_div]
    field_simp
    linarith only [h2]
  have e1 : eulerMeanPow F δ M (areaWeight M) = (1 / M : ℝ) • 1 + (1 / M : ℝ) • ∑ i ∈ Finset.range M, areaWeight M i • (eulerOne F δ M ^ (M - 1 - i) - 1) := by
    simp only [smul_sub, Finset.sum_sub_distrib]
    rw [← Finset.sum_smul, hsum, one_smul, eulerMeanPow]
    abel
  rw [e1]
  refine (norm_add_le _ _).trans (add_le_add ?_ ?_)
  · rw [norm_smul, norm_one, Real.norm_of_nonneg (by positivity), mul_one]
  · rw [norm_smul, Real.norm_of_nonneg (by positivity)]
    have h1 : ‖∑ i ∈ Finset.range M, areaWeight M i • (eulerOne F δ M ^ (M - 1 - i) - 1)‖ ≤ M * (L * Real.exp (T * L) * δ) := by
      refine (norm_sum_le _ _).trans ((Finset.sum_le_sum fun i hi => ?_).trans (b := ∑ _k ∈ Finset.range M, L * Real.exp (T * L) * δ) ?_)
      · rw [norm_smul, Real.norm_eq_abs]
        calc |areaWeight M i| * ‖eulerOne F δ M ^ (M - 1 - i) - 1‖ ≤ 1 * (L * Real.exp (T * L) * δ) :=
              mul_le_mul (hw i hi) (eulerOne_pow_sub_one hL hδ hδT hM (by omega)) (norm_nonneg _) zero_le_one
          _ = _ := one_mul _
      · rw [Finset.sum_const, Finset.card_range, nsmul_eq_mul]
    calc (1 / M : ℝ) * _ ≤ 1 / M * (M * (L * Real.exp (T * L) * δ)) := by gcongr
      _ = _ := by field_simp

end Local

/-- The covariance added by one interval, against that of the solution. -/
theorem eulerCov_local (F : Mat d d) (S : Mat d m) {T : ℝ} (hT : 0 < T) : ∃ c : ℝ, 0 ≤ c ∧ ∀ δ, 0 < δ → δ ≤ T → ∀ M : ℕ, 0 < M →
    ‖eulerCov F (S * Sᵀ) δ M - transitionCov F S δ‖ ≤ c * δ * (δ ^ 2 + (1 / M) ^ 2) := by
  rcases isEmpty_or_nonempty (Fin d) with he | hne
  · refine ⟨0, le_rfl, fun δ _ _ M _ => ?_⟩
    rw [Subsingleton.elim (eulerCov F (S * Sᵀ) δ M - transitionCov F S δ) 0, norm_zero]
    simp
  obtain ⟨V, hV⟩ : ∃ V, V = S * Sᵀ := ⟨_, rfl⟩
  obtain ⟨L, hL⟩ : ∃ L, L = max ‖F‖ ‖Fᵀ‖ := ⟨_, rfl⟩
  have hL1 : ‖F‖ ≤ L := hL ▸ le_max_left _ _
  have hL2 : ‖Fᵀ‖ ≤ L := hL ▸ le_max_right _ _
  have hL0 : 0 ≤ L := (norm_nonneg F).trans hL1
  obtain ⟨c1, hc1⟩ := cov15_local F S hT
  obtain ⟨X, hX⟩ : ∃ X, X = Real.exp (T * L) := ⟨_, rfl⟩
  have hX0 : 1 ≤ X := by rw [hX]; exact Real.one_le_exp (by positivity)
  obtain ⟨K, hK⟩ : ∃ K, K = L ^ 2 * X + L := ⟨_, rfl⟩
  have hK0 : 0 ≤ K := by rw [hK]; positivity
  obtain ⟨v, hv⟩ : ∃ v, v = ‖V‖ := ⟨_, rfl⟩
  have hv0 : 0 ≤ v := hv ▸ norm_nonneg _
  refine ⟨|c1| + L * v * L + 2 * K * v * (X + (1 + T * L)) + 6 * v * (1 + (L * X) ^ 2), by positivity, fun δ hδ hδT M hM => ?_⟩
  have hM' : (0 : ℝ) < M := by exact_mod_cast hM
  obtain ⟨u, hu⟩ : ∃ u : ℝ, u = 1 / M := ⟨_, rfl⟩
  have hu0 : 0 ≤ u := by rw [hu]; positivity
  have hδu : δ / M = δ * u := by rw [hu]; ring
  have hδu2 : δ * u ≤ δ ^ 2 + u ^ 2 := by nlinarith [sq_nonneg (δ - u), sq_nonneg (δ + u)]
  rw [← hV, ← hu]
  obtain ⟨P0, hP0⟩ : ∃ P0, P0 = eulerMeanPow F δ M fun _ => 1 := ⟨_, rfl⟩
  obtain ⟨P1, hP1⟩ : ∃ P1, P1 = eulerMeanPow F δ M (areaWeight M) := ⟨_, rfl⟩
  obtain ⟨A, hA⟩ : ∃ A : Mat d d, A = 1 + (δ / 2) • F := ⟨_, rfl⟩
  have hAT : Aᵀ = 1 + (δ / 2) • Fᵀ := by rw [hA]; simp [transpose_add, transpose_smul]
  have hK' : L ^ 2 * X * δ ^ 2 + L * (δ * u) ≤ K * (2 * (δ ^ 2 + u ^ 2)) := by
    have h1 : L * (δ * u) ≤ L * (δ ^ 2 + u ^ 2) := by gcongr
    have h2 : L ^ 2 * X * δ ^ 2 ≤ L ^ 2 * X * (δ ^ 2 + u ^ 2) := by gcongr; exact le_add_of_nonneg_right (sq_nonneg u)
    have h3 : 0 ≤ K * (δ ^ 2 + u ^ 2) := by positivity
    have h4 : K * (δ ^ 2 + u ^ 2) = L ^ 2 * X * (δ ^ 2 + u ^ 2) + L * (δ ^ 2 + u ^ 2) := by rw [hK]; ring
    linarith only [h1, h2, h3, h4]
  have n1 : ‖P0 - A‖ ≤ K * (2 * (δ ^ 2 + u ^ 2)) := by
    have := eulerMeanPow_one hL1 hδ hδT hM
    rw [← hP0, ← hA, hδu, ← hX] at this
    exact this.trans hK'
  have n2 : ‖P0ᵀ - Aᵀ‖ ≤ K * (2 * (δ ^ 2 + u ^ 2)) := by
    have := eulerMeanPow_one hL2 hδ hδT hM
    rw [← eulerMeanPow_transpose, ← hP0, ← hAT, hδu, ← hX] at this
    exact this.trans hK'
  have n3 : ‖P0ᵀ‖ ≤ X := by
    have := eulerMeanPow_norm hL2 hδ hδT hM
    rwa [← eulerMeanPow_transpose, ← hP0, ← hX] at this
  have n4 : ‖A‖ ≤ 1 + T * L := by
    rw [hA]
    refine (norm_add_le _ _).trans ?_
    rw [norm_one, norm_smul, Real.norm_of_nonneg (by positivity)]
    have : δ / 2 * ‖F‖ ≤ T * L := mul_le_mul (by linarith) hL1 (norm_nonneg _) hT.le
    linarith only [this]
  have hsq : (u + L * X * δ) ^ 2 ≤ 2 * ((1 + (L * X) ^ 2) * (δ ^ 2 + u ^ 2)) := by
    nlinarith [sq_nonneg (u - L * X * δ), sq_nonneg (L * X * u), sq_nonneg δ]
  have n5 : ‖P1‖ ≤ u + L * X * δ := by
    have := eulerMeanPow_area hL1 hδ hδT hM
    rwa [← hP1, ← hX, ← hu] at this
  have n6 : ‖P1ᵀ‖ ≤ u + L * X * δ := by
    have := eulerMeanPow_area hL2 hδ hδT hM
    rwa [← eulerMeanPow_transpose, ← hP1, ← hX, ← hu] at this
  have e : eulerCov F V δ M - transitionCov F S δ = (cov15 F V δ - transitionCov F S δ) + (δ • ((P0 - A) * V * P0ᵀ + A * V * (P0ᵀ - Aᵀ)) + (3 * δ) • (P1 * V * P1ᵀ) -
      (δ ^ 3 / 12) • (F * V * Fᵀ)) := by
    have e1 : δ • (P0 * V * P0ᵀ) = δ • ((P0 - A) * V * P0ᵀ + A * V * (P0ᵀ - Aᵀ)) + δ • (A * V * Aᵀ) := by
      rw [← smul_add]
      congr 1
      noncomm_ring
    have e2 : δ • (A * V * Aᵀ) = cov15 F V δ - (δ ^ 3 / 12) • (F * V * Fᵀ) := by
      rw [hAT, hA, cov15]
      simp only [Matrix.add_mul, Matrix.mul_add, Matrix.one_mul, Matrix.mul_one, Matrix.smul_mul, Matrix.mul_smul, smul_add, smul_smul]
      have c1 : δ ^ 3 / 3 = δ ^ 3 / 12 + δ * (δ / 2 * (δ / 2)) := by ring
      have c2 : δ ^ 2 / 2 = δ * (δ / 2) := by ring
      rw [c1, c2, add_smul]
      abel
    rw [eulerCov, ← hP0, ← hP1, e1, e2]
    abel
  rw [e]
  have b0 : ‖cov15 F V δ - transitionCov F S δ‖ ≤ |c1| * δ * (δ ^ 2 + u ^ 2) := by
    rw [hV]
    refine (hc1 δ hδ hδT).trans ?_
    calc c1 * δ ^ (2 + 1) ≤ |c1| * δ ^ (2 + 1) := by gcongr; exact le_abs_self c1
      _ = |c1| * δ * δ ^ 2 := by ring
      _ ≤ _ := by gcongr; exact le_add_of_nonneg_right (sq_nonneg u)
  have b1 : ‖(P0 - A) * V * P0ᵀ‖ ≤ K * (2 * (δ ^ 2 + u ^ 2)) * v * X :=
    (norm_mul_le _ _).trans (mul_le_mul ((norm_mul_le _ _).trans (by rw [hv]; gcongr)) n3 (norm_nonneg _) (by positivity))
  have b2 : ‖A * V * (P0ᵀ - Aᵀ)‖ ≤ (1 + T * L) * v * (K * (2 * (δ ^ 2 + u ^ 2))) :=
    (norm_mul_le _ _).trans (mul_le_mul ((norm_mul_le _ _).trans (by rw [hv]; gcongr)) n2 (norm_nonneg _) (by positivity))
  have b3 : ‖P1 * V * P1ᵀ‖ ≤ (u + L * X * δ) * v * (u + L * X * δ) :=
    (norm_mul_le _ _).trans (mul_le_mul ((norm_mul_le _ _).trans (by rw [hv]; gcongr)) n6 (norm_nonneg _) (by positivity))
  have b4 : ‖F * V * Fᵀ‖ ≤ L * v * L := (norm_mul_le _ _).trans (mul_le_mul ((norm_mul_le _ _).trans (by rw [hv]; gcongr)) hL2 (norm_nonneg _) (by positivity))
  have b5 : ‖δ • ((P0 - A) * V * P0ᵀ + A * V * (P0ᵀ - Aᵀ))‖ ≤ δ * (K * (2 * (δ ^ 2 + u ^ 2)) * v * X + (1 + T * L) * v * (K * (2 * (δ ^ 2 + u ^ 2)))) := by
    rw [norm_smul, Real.norm_of_nonneg hδ.le]
    have := (norm_add_le _ _).trans (add_le_add b1 b2)
    gcongr
  have b6 : ‖(3 * δ) • (P1 * V * P1ᵀ)‖ ≤ 3 * δ * (v * (2 * ((1 + (L * X) ^ 2) * (δ ^ 2 + u ^ 2)))) := by
    rw [norm_smul, Real.norm_of_nonneg (by positivity)]
    have : ‖P1 * V * P1ᵀ‖ ≤ v * (2 * ((1 + (L * X) ^ 2) * (δ ^ 2 + u ^ 2))) :=
      b3.trans (by
        calc (u + L * X * δ) * v * (u + L * X * δ) = v * (u + L * X * δ) ^ 2 := by ring
          _ ≤ _ := by gcongr)
    gcongr
  have b7 : ‖(δ ^ 3 / 12) • (F * V * Fᵀ)‖ ≤ L * v * L * (δ * (δ ^ 2 + u ^ 2)) := by
    rw [norm_smul, Real.norm_of_nonneg (by positivity)]
    calc δ ^ 3 / 12 * ‖F * V * Fᵀ‖ ≤ δ ^ 3 / 12 * (L * v * L) := by gcongr
      _ ≤ δ * (δ ^ 2 + u ^ 2) * (L * v * L) := by
          have : δ ^ 3 / 12 ≤ δ * (δ ^ 2 + u ^ 2) := by
            have h1 : 0 ≤ δ ^ 3 := by positivity
            have h2 : 0 ≤ δ * u ^ 2 := by positivity
            nlinarith
          gcongr
      _ = _ := by ring
  refine (norm_add_le _ _).trans ((add_le_add b0 ((norm_sub_le _ _).trans (add_le_add ((norm_add_le _ _).trans (add_le_add b5 b6)) b7))).trans (le_of_eq ?_))
  ring

/-- The moments after `k` intervals, against those of the solution. -/
theorem euler_linear_moments (F : Mat d d) (S : Mat d m) {T : ℝ} (hT : 0 < T) : ∃ C : ℝ, 0 ≤ C ∧ ∀ N : ℕ, 0 < N → ∀ M : ℕ, 0 < M → ∀ k ≤ N,
    ‖(eulerOne F (T / N) M ^ M) ^ k - expm ((k * (T / N)) • F)‖ ≤ C * ((T / N) / M) ∧
    ‖∑ i ∈ Finset.range k, (eulerOne F (T / N) M ^ M) ^ i * eulerCov F (S * Sᵀ) (T / N) M * ((eulerOne F (T / N) M ^ M) ^ i)ᵀ - transitionCov F S (k * (T / N))‖ ≤
      C * ((T / N) ^ 2 + (1 / M) ^ 2) := by
  rcases isEmpty_or_nonempty (Fin d) with he | hne
  · refine ⟨0, le_rfl, fun N _ M _ k _ => ⟨?_, ?_⟩⟩
    · rw [Subsingleton.elim ((eulerOne F (T / N) M ^ M) ^ k - expm ((k * (T / N)) • F)) 0, norm_zero]
      simp
    · rw [Subsingleton.elim (∑ i ∈ Finset.range k, (eulerOne F (T / N) M ^ M) ^ i * eulerCov F (S * Sᵀ) (T / N) M * ((eulerOne F (T / N) M ^ M) ^ i)ᵀ - transitionCov F S (k * (T / N))) 0, norm_zero]
      simp
  obtain ⟨L, hL⟩ : ∃ L, L = max ‖F‖ ‖Fᵀ‖ := ⟨_, rfl⟩
  have hL1 : ‖F‖ ≤ L := hL ▸ le_max_left _ _
  have hL2 : ‖Fᵀ‖ ≤ L := hL ▸ le_max_right _ _
  have hL0 : 0 ≤ L := (norm_nonneg F).trans hL1
  have hVc : ContinuousOn (fun t => ‖transitionCov F S t‖) (Icc 0 T) := by
    refine (Continuous.norm ?_).continuousOn
    refine continuous_pi fun i => continuous_pi fun j => ?_
    exact intervalIntegral.continuous_primitive (fun a b => (transitionCov_integrand_continuous F S i j).intervalIntegrable a b) 0
  obtain ⟨B, hB⟩ := isCompact_Icc.bddAbove_image hVc
  have hB' : ∀ t ∈ Icc 0 T, ‖transitionCov F S t‖ ≤ B := fun t ht => hB ⟨t, ht, rfl⟩
  have hB0 : 0 ≤ B := (norm_nonneg _).trans (hB' 0 ⟨le_rfl, hT.le⟩)
  obtain ⟨c, hc0, hc⟩ := eulerCov_local F S hT
  obtain ⟨X, hX⟩ : ∃ X, X = Real.exp (T * L) := ⟨_, rfl⟩
  have hX0 : 0 ≤ X := by rw [hX]; positivity
  obtain ⟨K, hK⟩ : ∃ K, K = (L ^ 2 + L ^ 3 * X * T) * X := ⟨_, rfl⟩
  have hK0 : 0 ≤ K := by rw [hK]; positivity
  obtain ⟨Y, hY⟩ : ∃ Y, Y = Real.exp (2 * T * L) := ⟨_, rfl⟩
  have hY0 : 0 ≤ Y := by rw [hY]; positivity
  refine ⟨T * K * X + T * (2 * K * B * X + c) * Y, by positivity, fun N hN M hM k hk => ?_⟩
  have hN' : (0 : ℝ) < N := by exact_mod_cast hN
  have hM' : (0 : ℝ) < M := by exact_mod_cast hM
  obtain ⟨δ, hδ⟩ : ∃ δ, δ = T / N := ⟨_, rfl⟩
  rw [← hδ]
  have hδ0 : 0 < δ := by rw [hδ]; positivity
  have hNδ : (N : ℝ) * δ = T := by rw [hδ]; field_simp
  have hδT : δ ≤ T := by
    rw [← hNδ]
    have : (1 : ℝ) ≤ N := by exact_mod_cast hN
    nlinarith
  have hkδ : (k : ℝ) * δ ≤ T := by rw [← hNδ]; exact mul_le_mul_of_nonneg_right (by exact_mod_cast hk) hδ0.le
  have hpow : ∀ {G : Mat d d}, ‖G‖ ≤ L → ‖eulerOne G δ M ^ M‖ ≤ Real.exp (δ * L) := fun {G} hG => by
    refine (norm_pow_le _ M).trans ((pow_le_pow_left₀ (norm_nonneg _) (eulerOne_norm hG hδ0) M).trans (le_of_eq ?_))
    rw [← Real.exp_nat_mul]
    congr 1
    field_simp
  have ha1 : ‖eulerOne F δ M ^ M - expm (δ • F)‖ ≤ K * (δ ^ 2 / M) := by rw [hK, hX]; exact eulerOne_pow_exp hL1 hδ0 hδT hM
  have hTr : (eulerOne F δ M ^ M)ᵀ = eulerOne Fᵀ δ M ^ M := by rw [transpose_pow, eulerOne_transpose]
  have hTe : (expm (δ • F))ᵀ = expm (δ • Fᵀ) := by rw [← transpose_smul]; exact (Matrix.exp_transpose _).symm
  have ha2 : ‖(eulerOne F δ M ^ M)ᵀ - (expm (δ • F))ᵀ‖ ≤ K * (δ ^ 2 / M) := by rw [hTr, hTe, hK, hX]; exact eulerOne_pow_exp hL2 hδ0 hδT hM
  have s1 : 0 ≤ T * (2 * K * B * X + c) * Y := by positivity
  have s2 : 0 ≤ T * K * X := by positivity
  constructor
  · rw [← expm_pow]
    refine (pow_sub_pow_le _ _ (x := δ * L) (by positivity) (hpow hL1) (exp_norm_le F hL1 hδ0.le) k).trans ?_
    have h1 : Real.exp (k * (δ * L)) ≤ X := by
      rw [hX]
      refine Real.exp_le_exp.mpr ?_
      rw [← mul_assoc]
      gcongr
    calc (k : ℝ) * ‖eulerOne F δ M ^ M - expm (δ • F)‖ * Real.exp (k * (δ * L)) ≤ k * (K * (δ ^ 2 / M)) * X := by gcongr
      _ = (k * δ) * K * X * (δ / M) := by ring
      _ ≤ T * K * X * (δ / M) := by gcongr
      _ ≤ _ := by gcongr; linarith only [s1]
  · have h1 := cov_recursion_near F S hL1 hδ0 hB0 (a := K * (δ ^ 2 / M)) (b := c * δ * (δ ^ 2 + (1 / M) ^ 2)) (by positivity) (by positivity) hNδ.le hδT hB' (hpow hL1)
      (by rw [hTr]; exact hpow hL2) ha1 ha2 (hc δ hδ0 hδT M hM) k hk
    refine h1.trans ?_
    rw [← hX, ← hY]
    have h2 : δ / M ≤ δ ^ 2 + (1 / M : ℝ) ^ 2 := by
      have : δ / M = δ * (1 / M) := by ring
      rw [this]
      nlinarith [sq_nonneg (δ - 1 / M), sq_nonneg (δ + 1 / M)]
    have h3 : 2 * (K * (δ ^ 2 / M)) * B * X ≤ δ * (2 * K * B * X) * (δ ^ 2 + (1 / M) ^ 2) := by
      calc 2 * (K * (δ ^ 2 / M)) * B * X = δ * (2 * K * B * X) * (δ / M) := by ring
        _ ≤ _ := by gcongr
    calc (k : ℝ) * (2 * (K * (δ ^ 2 / M)) * B * X + c * δ * (δ ^ 2 + (1 / M) ^ 2)) * Y ≤
          k * (δ * (2 * K * B * X) * (δ ^ 2 + (1 / M) ^ 2) + c * δ * (δ ^ 2 + (1 / M) ^ 2)) * Y := by gcongr
      _ = (k * δ) * (2 * K * B * X + c) * Y * (δ ^ 2 + (1 / M) ^ 2) := by ring
      _ ≤ T * (2 * K * B * X + c) * Y * (δ ^ 2 + (1 / M) ^ 2) := by gcongr
      _ ≤ _ := by gcongr; linarith only [s2]

end Norm

end Verif
