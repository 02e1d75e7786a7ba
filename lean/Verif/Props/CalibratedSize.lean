import Verif.Props.SanityCheck
import Verif.Props.Foster
import Verif.Lemmas.Perturbed
import Verif.Lemmas.WeakLaw

/-!
# Property C118: the calibrated covariances of the calibration experiment do not shrink with the step
-/

namespace Verif

open Matrix Spec Jnp Scripts MeasureTheory ProbabilityTheory

variable {d m : ℕ}

theorem emFold_const (h : ℝ) (μ : Vec d) (S : Mat d m) (x0 : Vec d) (t : ℕ) (l : List (Vec m)) :
    emFold h (fun _ _ => μ) (fun _ _ => S) x0 t l = x0 + (l.length * h) • μ + S *ᵥ l.sum := by
  induction l generalizing x0 t with
  | nil => simp [emFold]
  | cons a l ih =>
    rw [emFold, ih]
    simp only [List.length_cons, List.sum_cons, mulVec_add, Nat.cast_add, Nat.cast_one, add_mul, one_mul, add_smul]
    abel

theorem alg3_const {h : ℝ} (hh : h ≠ 0) (p : Mat d d) :
    alg3S h (0 : Mat d d) 0 p = h • 1 ∧ alg3K h (0 : Mat d d) 0 p = (h / 2) • 1 ∧ alg3P h (0 : Mat d d) 0 p = p + (h ^ 3 / 12) • 1 := by
  have hS : alg3S h (0 : Mat d d) 0 p = h • 1 := by simp [alg3S, alg3E, alg3F]
  have hi : (h • (1 : Mat d d))⁻¹ = h⁻¹ • 1 := by
    refine inv_eq_right_inv ?_
    rw [Matrix.smul_mul, Matrix.mul_smul, smul_smul, mul_inv_cancel₀ hh, one_smul, Matrix.one_mul]
  have hK : alg3K h (0 : Mat d d) 0 p = (h / 2) • 1 := by
    rw [alg3K, hS, hi]
    simp only [alg3G, alg3E, alg3F, smul_zero, add_zero, mul_one, sub_zero, transpose_zero, mul_zero, zero_add, Matrix.smul_mul,
      Matrix.mul_smul, smul_smul]
    congr 1
    field_simp
  refine ⟨hS, hK, ?_⟩
  rw [alg3P, hS, hK]
  simp only [alg3F, smul_zero, add_zero, one_mul, transpose_one, mul_one, transpose_smul, Matrix.smul_mul, Matrix.mul_smul, smul_smul]
  rw [add_sub_assoc, ← sub_smul]
  congr 2
  ring

/-- The run of the calibration experiment when the drift and the diffusion matrix are constant. -/
theorem alg3Path_const (μ : Vec d) (S : Mat d m) {δ : ℝ} (hδ : 0 < δ) (a b : ℕ → Vec m) (x0 : Vec d) :
    let vf := fun (k : ℕ) => additiveField (fun _ _ => μ) S (k * δ) δ (a k) (b k)
    (∀ k, alg3Path vf δ x0 k = (x0 + (k * δ) • μ + S *ᵥ ∑ j ∈ Finset.range k, a j, (k * δ ^ 3 / 12) • 1)) ∧
      (∀ k, alg3PathS vf δ x0 k = δ • 1) ∧ ∀ k y, alg3Z (vf k) δ y = (2 * √6 / δ) • S *ᵥ b k := by
  intro vf
  have hj : ∀ k t y, jac (fun x => vf k x t) y = 0 := by
    intro k t y
    have : (fun x => vf k x t) = fun _ => vf k 0 t := rfl
    rw [this]
    ext i j
    simp [jac, pd]
  have hv : ∀ k y t, vf k y t = μ + S *ᵥ jacT (fun s => Foster.evalParabola s δ (a k) (b k)) t := fun _ _ _ => rfl
  have hz : ∀ k y, alg3Z (vf k) δ y = (2 * √6 / δ) • S *ᵥ b k := by
    intro k y
    rw [alg3Z, hv, hv, add_sub_add_left_eq_sub, ← mulVec_sub, ← mulVec_smul]
    congr 1
    rw [jacT_evalParabola, jacT_evalParabola]
    funext j
    simp only [Pi.sub_apply, Pi.smul_apply, smul_eq_mul]
    field_simp
    ring
  refine ⟨fun k => ?_, fun k => ?_, hz⟩
  · induction k with
    | zero => simp [alg3Path]
    | succ k ih =>
      rw [alg3Path]
      simp only [hj]
      rw [(alg3_const hδ.ne' _).2.2, alg3Mean, (alg3_const hδ.ne' _).2.1, ih]
      refine Prod.ext ?_ ?_
      · simp only [hv, Finset.sum_range_succ, mulVec_add, smul_mulVec, one_mulVec]
        rw [jacT_evalParabola, jacT_evalParabola]
        have e : S *ᵥ a k = (δ / 2) • (S *ᵥ (fun j => (a k j + √6 * b k j * (1 - 2 * 0 / δ)) / δ)) +
            (δ / 2) • (S *ᵥ fun j => (a k j + √6 * b k j * (1 - 2 * δ / δ)) / δ) := by
          rw [← mulVec_smul, ← mulVec_smul, ← mulVec_add]
          congr 1
          funext j
          simp only [Pi.add_apply, Pi.smul_apply, smul_eq_mul]
          field_simp
          ring
        rw [e]
        push_cast
        module
      · show _ + _ = _
        rw [← add_smul]
        congr 1
        push_cast
        ring
  · rw [alg3PathS]
    simp only [hj]
    exact (alg3_const hδ.ne' _).1

/-- C118: the calibration experiment, one filter step per interval, when the drift and the diffusion matrix are constant. The filter makes
no error: its means are the values of the solution for the increments drawn, which is what the Euler-Maruyama reference computes. The
covariances of the run with scale `√10` are of the order of the squared step. The estimate is proportional to the squares of the second
parabola coefficients divided by the cube of the step, so in the covariances of the calibrated run the step cancels. -/
theorem C118_exact {la : LinAlg} (hla : la.Correct) (rng : Rng) (k0 : Key) (ks : List Key) (μ : Vec d) (S : Mat d m) (x0 : Vec d) {δ : ℝ}
    (hδ : 0 < δ) (N fine : ℕ) :
    let c := fun (k : ℕ) => (Foster.getApproxFine m fine).coeffs rng ((k0.child N k).child 2 0) δ
    let q := ∑ k ∈ Finset.range N, ∑ i, (S *ᵥ (c k).2.1) i ^ 2
    ∃ o, calibrationExperiment la rng (k0 :: ks) (fun _ _ => μ) (fun _ _ => S) x0 δ N 1 fine (√10) = .ok o ∧
      o.mle = 12 * q / (5 * δ ^ 3 * (N * d)) ∧
      (∀ k < N, ∃ mu V, o.mean[k]? = some mu ∧ o.var[k]? = some V ∧
        stride 0 mu = x0 + ((k + 1) * δ) • μ + S *ᵥ ∑ j ∈ Finset.range (k + 1), (c j).1 ∧
        o.refs.sols3[k + 1]? = some (stride 0 mu) ∧ strideMat 0 0 V = (5 / 6 * ((k + 1) * δ) * δ ^ 2) • 1) ∧
      (q ≠ 0 → ∃ o', calibrationMain la rng (k0 :: ks) (fun _ _ => μ) (fun _ _ => S) x0 δ N 1 fine = .ok (o, o') ∧ o'.mean = o.mean ∧ o'.refs = o.refs ∧
        ∀ k < N, ∃ V, o'.var[k]? = some V ∧ strideMat 0 0 V = ((k + 1) * q / (5 * (N * d))) • 1) := by
  intro c q
  have hst : toStratonovich (fun _ _ => μ) (fun _ _ => S) = (fun _ _ => μ, fun _ _ => S) :=
    Prod.ext (C10_additive_noise (fun _ _ => μ) (fun _ => S)).2 rfl
  have hdr : ∀ t, Differentiable ℝ fun x => (toStratonovich (fun (_ : Vec d) _ => μ) (fun _ _ => S)).1 x t := fun t => by
    rw [hst]; exact differentiable_const _
  obtain ⟨o, h1, -, -, h2, h3⟩ := C117_estimate hla rng k0 ks (fun _ _ => μ) (fun _ _ => S) hdr (fun _ => differentiable_const _) x0 hδ N fine
    (show √10 ≠ 0 by positivity)
  simp only [hst] at h2 h3
  obtain ⟨g1, g2, g3⟩ := alg3Path_const μ S hδ (fun k => (c k).1) (fun k => (c k).2.1) x0
  obtain ⟨vf, hvf⟩ : ∃ vf : ℕ → Field d, vf = fun (k : ℕ) => additiveField (fun _ _ => μ) S (k * δ) δ (c k).1 (c k).2.1 := ⟨_, rfl⟩
  rw [← hvf] at g1 g2 g3
  change (∀ k < N, ∃ mu V, _ ∧ _ ∧ stride 0 mu = (alg3Path (fun (k : ℕ) => additiveField (fun _ _ => μ) S (k * δ) δ (c k).1 (c k).2.1)
    δ x0 (k + 1)).1 ∧ strideMat 0 0 V = √10 ^ 2 • (alg3Path (fun (k : ℕ) => additiveField (fun _ _ => μ) S (k * δ) δ (c k).1 (c k).2.1)
    δ x0 (k + 1)).2) at h2
  change o.mle = (∑ k ∈ Finset.range N, alg3Z ((fun (k : ℕ) => additiveField (fun _ _ => μ) S (k * δ) δ (c k).1 (c k).2.1) k) δ
    (alg3Path (fun (k : ℕ) => additiveField (fun _ _ => μ) S (k * δ) δ (c k).1 (c k).2.1) δ x0 k).1 ⬝ᵥ
    (alg3PathS (fun (k : ℕ) => additiveField (fun _ _ => μ) S (k * δ) δ (c k).1 (c k).2.1) δ x0 k)⁻¹ *ᵥ
    alg3Z ((fun (k : ℕ) => additiveField (fun _ _ => μ) S (k * δ) δ (c k).1 (c k).2.1) k) δ
    (alg3Path (fun (k : ℕ) => additiveField (fun _ _ => μ) S (k * δ) δ (c k).1 (c k).2.1) δ x0 k).1) / _ at h3
  rw [← hvf] at h2 h3
  have h10 : √10 ^ 2 = (10 : ℝ) := Real.sq_sqrt (by norm_num)
  have hi : (δ • (1 : Mat d d))⁻¹ = δ⁻¹ • 1 := by
    refine inv_eq_right_inv ?_
    rw [Matrix.smul_mul, Matrix.mul_smul, smul_smul, mul_inv_cancel₀ hδ.ne', one_smul, Matrix.one_mul]
  have hmle : o.mle = 12 * q / (5 * δ ^ 3 * (N * d)) := by
    rw [h3, h10]
    have e : ∀ k, alg3Z (vf k) δ (alg3Path vf δ x0 k).1 ⬝ᵥ (alg3PathS vf δ x0 k)⁻¹ *ᵥ alg3Z (vf k) δ (alg3Path vf δ x0 k).1 =
        24 / δ ^ 3 * ∑ i, (S *ᵥ (c k).2.1) i ^ 2 := by
      intro k
      rw [g3, g2, hi, smul_mulVec, one_mulVec, dotProduct_smul, dotProduct_smul, smul_dotProduct, smul_eq_mul, smul_eq_mul, smul_eq_mul]
      have e2 : (S *ᵥ (c k).2.1) ⬝ᵥ (S *ᵥ (c k).2.1) = ∑ i, (S *ᵥ (c k).2.1) i ^ 2 := Finset.sum_congr rfl fun i _ => (sq _).symm
      rw [e2]
      have h6 : √6 * √6 = 6 := Real.mul_self_sqrt (by norm_num)
      have : δ⁻¹ * (2 * √6 / δ * (2 * √6 / δ)) = 24 / δ ^ 3 := by
        rw [div_mul_div_comm, show 2 * √6 * (2 * √6) = 4 * (√6 * √6) by ring, h6]
        field_simp
        norm_num
      rw [← this]
      ring
    simp only [e, ← Finset.mul_sum]
    show 24 / δ ^ 3 * q / _ = _
    rcases eq_or_ne ((N : ℝ) * d) 0 with h0 | h0
    · simp [h0]
    · field_simp
      ring
  have hvar : ∀ k < N, ∃ mu V, o.mean[k]? = some mu ∧ o.var[k]? = some V ∧
        stride 0 mu = x0 + ((k + 1) * δ) • μ + S *ᵥ ∑ j ∈ Finset.range (k + 1), (c j).1 ∧
        strideMat 0 0 V = (5 / 6 * ((k + 1) * δ) * δ ^ 2) • 1 := by
    intro k hk
    obtain ⟨mu, V, a1, a2, a3, a4⟩ := h2 k hk
    refine ⟨mu, V, a1, a2, ?_, ?_⟩
    · rw [a3, g1]
      push_cast
      rfl
    · rw [a4, g1, h10]
      show (10 : ℝ) • _ = _
      rw [smul_smul]
      congr 1
      push_cast
      ring
  refine ⟨o, h1, hmle, fun k hk => ?_, fun hq => ?_⟩
  · obtain ⟨mu, V, a1, a2, a3, a4⟩ := hvar k hk
    refine ⟨mu, V, a1, a2, a3, ?_, a4⟩
    obtain ⟨odeInt, hode⟩ := exists_ekf2Int (d := d) la rng 1 δ (IOUP.transition 0 (√10) 1 (δ / (1 : ℕ)) d)
    obtain ⟨o2, -, b1, b2, -⟩ := C116_filter la rng k0 ks (fun _ _ => μ) (fun _ _ => S) x0 δ N 1 fine (√10) odeInt hode
    obtain rfl : o2 = o := Except.ok.inj (b1.symm.trans h1)
    obtain ⟨r, -, ts3, q1, -, -, -, -, -, -, -, q2, -⟩ := C116_references rng k0 ks (fun _ _ => μ) (fun _ _ => S) x0 δ N fine
    obtain rfl : r = o2.refs := Except.ok.inj (q1.symm.trans b2)
    rw [hst, sdeSolver_coeffs, emPathwise_eq _ _ _ _ _ _ _ (by simp)] at q2
    have q3 := congrArg Prod.snd (Except.ok.inj q2)
    simp only [Bool.false_eq_true, if_false] at q3
    rw [← q3, List.getElem?_map, List.getElem?_range (by omega), Option.map_some, emFold_const, a3, List.map_map]
    rw [← List.map_take, List.take_range, min_eq_left (by omega)]
    simp only [List.length_map, List.length_range]
    rw [Finset.sum_range, ← List.sum_ofFn, List.ofFn_eq_map, ← List.map_coe_finRange_eq_range, List.map_map]
    push_cast
    rfl
  · obtain ⟨o2, b1, -, b2⟩ := C116_main hla rng k0 ks (fun _ _ => μ) (fun _ _ => S) hdr (fun _ => differentiable_const _) x0 hδ N one_pos fine
    obtain rfl : o2 = o := Except.ok.inj (b1.symm.trans h1)
    have hN : 0 < N := Nat.pos_of_ne_zero fun h => hq (by simp [q, h])
    have hd : 0 < d := Nat.pos_of_ne_zero fun h => hq (by subst h; simp [q])
    have hN' : (0 : ℝ) < N := by exact_mod_cast hN
    have hd' : (0 : ℝ) < d := by exact_mod_cast hd
    refine ⟨_, b2 ?_, rfl, rfl, fun k hk => ?_⟩
    · rw [hmle]
      positivity
    · obtain ⟨mu, V, -, a2, -, a4⟩ := hvar k hk
      refine ⟨_, by rw [List.getElem?_map, a2]; rfl, ?_⟩
      have e : strideMat 0 0 ((o2.mle / 10) • V) = (o2.mle / 10) • strideMat (n := 0 + 2) 0 0 V := rfl
      rw [e, a4, smul_smul, hmle]
      congr 1
      field_simp
      norm_num

/-- C118: under ideal normals, and for a constant diffusion matrix that is not zero, the calibrated covariance at a time `t` of the grid is
`t v 1` with one random number `v` whose expectation, `tr (S Sᵀ) / (10 d)`, does not depend on the step, although the means
are exact. -/
theorem C118_expected {Ω : Type*} [MeasurableSpace Ω] {P : Measure Ω} {R : Ω → Rng} (hR : IdealNormals P R) {la : LinAlg} (hla : la.Correct)
    (k0 : Key) (ks : List Key) (μ : Vec d) (S : Mat d m) (hS : S ≠ 0) (x0 : Vec d) {δ : ℝ} (hδ : 0 < δ) {N fine : ℕ} (hN : 0 < N)
    (hfine : 0 < fine) :
    ∃ v : Ω → ℝ, Integrable v P ∧ ∫ ω, v ω ∂P = (S * Sᵀ).trace / (10 * d) ∧ ∀ᵐ ω ∂P, 0 < v ω ∧ ∃ o o',
      calibrationMain la (R ω) (k0 :: ks) (fun _ _ => μ) (fun _ _ => S) x0 δ N 1 fine = .ok (o, o') ∧ ∀ k < N, ∃ mu V,
        o'.mean[k]? = some mu ∧ o'.refs.sols3[k + 1]? = some (stride 0 mu) ∧ o'.var[k]? = some V ∧
        strideMat 0 0 V = ((k + 1) * δ * v ω) • 1 := by
  obtain ⟨i0, j0, hij⟩ : ∃ i j, S i j ≠ 0 := by
    by_contra h
    push Not at h
    exact hS (by ext i j; exact h i j)
  have hd : 0 < d := i0.pos
  have hN' : (0 : ℝ) < N := by exact_mod_cast hN
  have hd' : (0 : ℝ) < d := by exact_mod_cast hd
  have hb : ∀ k : ℕ, IsNormal P (fun ω => S *ᵥ ((Foster.getApproxFine m fine).coeffs (R ω) ((k0.child N k).child 2 0) δ).2.1) 0 ((δ / 2) • (S * Sᵀ)) := by
    intro k
    have h := ((C15_fine_law hR m fine hfine ((k0.child N k).child 2 0) δ hδ).1.reindex (fun j : Fin m => ((1 : Fin 2), j))).affine 0 S
    rw [show (fun k : Fin m => (0 : Fin 2 × Fin m → ℝ) (1, k)) = 0 from rfl, mulVec_zero, add_zero] at h
    refine (congrArg₂ (fun (X : Ω → Vec d) C => IsNormal P X 0 C) ?_ ?_).mp h
    · funext ω
      rw [zero_add]
      rfl
    · rw [submatrix_diagonal _ _ (fun a b hab => (Prod.ext_iff.mp hab).2)]
      have : (coeffVar m δ ∘ fun j : Fin m => ((1 : Fin 2), j)) = fun _ => δ / 2 := by
        funext j
        simp [coeffVar]
      rw [this, ← smul_one_eq_diagonal, Matrix.mul_smul, Matrix.mul_one, Matrix.smul_mul]
  obtain ⟨q, hq⟩ : ∃ q : Ω → ℝ, ∀ ω, q ω = ∑ k ∈ Finset.range N, ∑ i,
      (S *ᵥ ((Foster.getApproxFine m fine).coeffs (R ω) ((k0.child N k).child 2 0) δ).2.1) i ^ 2 := ⟨_, fun _ => rfl⟩
  have hqi : Integrable q P := by
    have : q = fun ω => _ := funext hq
    rw [this]
    exact integrable_finsetSum _ fun k _ => integrable_finsetSum _ fun i _ => ((hb k).second_moment i).1
  have hqE : ∫ ω, q ω ∂P = N * (δ / 2 * (S * Sᵀ).trace) := by
    simp only [hq]
    rw [integral_finsetSum _ fun k _ => integrable_finsetSum _ fun i _ => ((hb k).second_moment i).1]
    have : ∀ k : ℕ, ∫ ω, ∑ i, (S *ᵥ ((Foster.getApproxFine m fine).coeffs (R ω) ((k0.child N k).child 2 0) δ).2.1) i ^ 2 ∂P =
        δ / 2 * (S * Sᵀ).trace := by
      intro k
      rw [integral_finsetSum _ fun i _ => ((hb k).second_moment i).1, Matrix.trace, Finset.mul_sum]
      refine Finset.sum_congr rfl fun i _ => ?_
      rw [((hb k).second_moment i).2]
      rfl
    simp only [this, Finset.sum_const, Finset.card_range, nsmul_eq_mul]
  have hs : 0 < (S * Sᵀ) i0 i0 := by
    rw [Matrix.mul_apply]
    refine Finset.sum_pos' (fun j _ => by rw [transpose_apply]; exact mul_self_nonneg _) ⟨j0, Finset.mem_univ _, ?_⟩
    rw [transpose_apply]
    exact mul_self_pos.mpr hij
  have hq0 : ∀ᵐ ω ∂P, 0 < q ω := by
    have hl := (hb 0).eval i0
    have hv : (((δ / 2) • (S * Sᵀ)) i0 i0).toNNReal ≠ 0 := by
      have : 0 < ((δ / 2) • (S * Sᵀ)) i0 i0 := mul_pos (by positivity) hs
      simpa using this
    have hna := nullSingletonClass_gaussianReal (μ := 0) hv
    have : ∀ᵐ ω ∂P, (S *ᵥ ((Foster.getApproxFine m fine).coeffs (R ω) ((k0.child N 0).child 2 0) δ).2.1) i0 ≠ 0 :=
      hl.ae_iff (p := fun x => x ≠ 0) (by measurability) |>.mpr (by simp [ae_iff])
    filter_upwards [this] with ω hω
    rw [hq]
    refine Finset.sum_pos' (fun k _ => Finset.sum_nonneg fun i _ => sq_nonneg _) ⟨0, Finset.mem_range.mpr hN, ?_⟩
    exact Finset.sum_pos' (fun i _ => sq_nonneg _) ⟨i0, Finset.mem_univ _, by positivity⟩
  refine ⟨fun ω => q ω / (5 * (N * d) * δ), hqi.div_const _, ?_, ?_⟩
  · rw [integral_div, hqE]
    field_simp
    ring
  · filter_upwards [hq0] with ω hω
    refine ⟨by positivity, ?_⟩
    obtain ⟨o, -, -, h2, h3⟩ := C118_exact hla (R ω) k0 ks μ S x0 hδ N fine
    obtain ⟨o', h4, h5, h7, h6⟩ := h3 (by rw [← hq]; exact hω.ne')
    refine ⟨o, o', h4, fun k hk => ?_⟩
    obtain ⟨mu, V, a1, a2, a3, a4, a5⟩ := h2 k hk
    obtain ⟨V', b1, b2⟩ := h6 k hk
    refine ⟨mu, V', by rw [h5, a1], by rw [h7, a4], b1, ?_⟩
    rw [b2, ← hq]
    congr 1
    field_simp

/-- C118: on `dX = dW` with the sizes of the calibration script the expected calibrated variance at time one is `1/10` for every number of
intervals, here 50 and 5000. -/
example {la : LinAlg} (hla : la.Correct) (key : Key) (N : ℕ) (hN : N = 50 ∨ N = 5000) :
    ∃ v : Draws → ℝ, Integrable v drawsMeasure ∧ ∫ ω, v ω ∂drawsMeasure = 1 / 10 ∧ ∀ᵐ ω ∂drawsMeasure, 0 < v ω ∧ ∃ o o',
      calibrationMain la (drawsRng ω) [key] (fun _ _ => (0 : Vec 1)) (fun _ _ => (1 : Mat 1 1)) 0 (1 / N) N 1 50 = .ok (o, o') ∧ ∀ k < N,
        ∃ mu V, o'.mean[k]? = some mu ∧ o'.refs.sols3[k + 1]? = some (stride 0 mu) ∧ o'.var[k]? = some V ∧
        strideMat 0 0 V = ((k + 1) * (1 / N) * v ω) • 1 := by
  have h0 : 0 < N := by omega
  have h := C118_expected idealNormals_drawsRng hla key [] (0 : Vec 1) (1 : Mat 1 1) one_ne_zero 0
    (show (0 : ℝ) < 1 / N by positivity) h0 (show 0 < 50 by norm_num)
  simpa using h

end Verif
