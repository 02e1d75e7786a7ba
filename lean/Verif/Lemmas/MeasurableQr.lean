import Verif.Spec.MeasurableQr
import Verif.Lemmas.LinAlg
import Mathlib.Analysis.SpecialFunctions.Pow.Real
import Mathlib.MeasureTheory.Constructions.BorelSpace.Real
import Mathlib.MeasureTheory.Constructions.BorelSpace.Metrizable
import Mathlib.MeasureTheory.Function.SpecialFunctions.Basic

/-! Measurable factorisations: a QR factorisation by reflections, and the continuity of the root of a positive semidefinite matrix. -/

namespace Verif

open Matrix Filter Topology

/-! ## QR by reflections -/

/-- The reflection that maps the first column to a multiple of the first unit vector, applied to the matrix. -/
noncomputable def reflect {k m : ℕ} (B : Fin (k + 1) → Fin (m + 1) → ℝ) (i : Fin (k + 1)) (j : Fin (m + 1)) : ℝ :=
  let n := Real.sqrt (∑ l, B l 0 ^ 2)
  let v : Fin (k + 1) → ℝ := fun l => B l 0 - if l = 0 then n else 0
  B i j - 2 / (∑ l, v l ^ 2) * v i * ∑ l, v l * B l j

theorem reflect_measurable {k m : ℕ} (i : Fin (k + 1)) (j : Fin (m + 1)) :
    Measurable fun B : Fin (k + 1) → Fin (m + 1) → ℝ => reflect B i j := by
  have hn : Measurable fun B : Fin (k + 1) → Fin (m + 1) → ℝ => Real.sqrt (∑ l, B l 0 ^ 2) := by fun_prop
  have hv : ∀ l : Fin (k + 1), Measurable fun B : Fin (k + 1) → Fin (m + 1) → ℝ =>
      B l 0 - if l = 0 then Real.sqrt (∑ l, B l 0 ^ 2) else 0 := fun l => by
    by_cases h : l = 0
    · simp only [h, if_true]
      fun_prop
    · simp only [h, if_false]
      fun_prop
  unfold reflect
  refine Measurable.sub (by fun_prop) ((Measurable.mul ?_ (hv i)).mul ?_)
  · exact measurable_const.div (Finset.measurable_fun_sum _ fun l _ => (hv l).pow_const 2)
  · exact Finset.measurable_fun_sum _ fun l _ => (hv l).mul (by fun_prop)

theorem reflect_gram {k m : ℕ} (B : Fin (k + 1) → Fin (m + 1) → ℝ) (a b : Fin (m + 1)) :
    ∑ i, reflect B i a * reflect B i b = ∑ i, B i a * B i b := by
  obtain ⟨v, hv⟩ : ∃ v : Fin (k + 1) → ℝ, v = fun l => B l 0 - if l = 0 then Real.sqrt (∑ l, B l 0 ^ 2) else 0 := ⟨_, rfl⟩
  obtain ⟨s, hs⟩ : ∃ s, s = ∑ l, v l ^ 2 := ⟨_, rfl⟩
  obtain ⟨p, hp⟩ : ∃ p : Fin (m + 1) → ℝ, p = fun j => ∑ l, v l * B l j := ⟨_, rfl⟩
  have hr : ∀ i j, reflect B i j = B i j - 2 / s * v i * p j := fun i j => by rw [hs, hp, hv]; rfl
  have h1 : ∀ i, reflect B i a * reflect B i b = B i a * B i b - 2 / s * p b * (v i * B i a) - 2 / s * p a * (v i * B i b) +
      (2 / s) ^ 2 * (p a * p b) * v i ^ 2 := fun i => by rw [hr, hr]; ring
  simp only [h1, Finset.sum_add_distrib, Finset.sum_sub_distrib, ← Finset.mul_sum]
  have e1 : ∑ i, v i * B i a = p a := by rw [hp]
  have e2 : ∑ i, v i * B i b = p b := by rw [hp]
  rw [e1, e2, ← hs]
  by_cases h0 : s = 0
  · simp [h0]
  · field_simp
    ring

theorem reflect_zero {k m : ℕ} (B : Fin (k + 1) → Fin (m + 1) → ℝ) (i : Fin k) : reflect B i.succ 0 = 0 := by
  obtain ⟨n, hn⟩ : ∃ n, n = Real.sqrt (∑ l, B l 0 ^ 2) := ⟨_, rfl⟩
  obtain ⟨v, hv⟩ : ∃ v : Fin (k + 1) → ℝ, v = fun l => B l 0 - if l = 0 then n else 0 := ⟨_, rfl⟩
  obtain ⟨s, hs⟩ : ∃ s, s = ∑ l, v l ^ 2 := ⟨_, rfl⟩
  have hr : reflect B i.succ 0 = B i.succ 0 - 2 / s * v i.succ * ∑ l, v l * B l 0 := by rw [hs, hv, hn]; rfl
  have hvi : v i.succ = B i.succ 0 := by rw [hv]; simp [Fin.succ_ne_zero]
  have hn2 : n ^ 2 = ∑ l, B l 0 ^ 2 := by rw [hn]; exact Real.sq_sqrt (Finset.sum_nonneg fun _ _ => sq_nonneg _)
  have hite : ∀ g : Fin (k + 1) → ℝ, ∑ l, (if l = 0 then n else 0) * g l = n * g 0 := fun g => by simp
  have h1 : ∑ l, v l * B l 0 = n ^ 2 - n * B 0 0 := by
    rw [hn2, ← hite fun l => B l 0, ← Finset.sum_sub_distrib]
    exact Finset.sum_congr rfl fun l _ => by rw [hv]; ring
  have h2 : s = 2 * (n ^ 2 - n * B 0 0) := by
    have h3 : s = ∑ l, v l * B l 0 - ∑ l, (if l = 0 then n else 0) * v l := by
      rw [hs, ← Finset.sum_sub_distrib]
      exact Finset.sum_congr rfl fun l _ => by rw [hv]; ring
    rw [h3, h1, hite, hv]
    simp only [if_true]
    ring
  rw [hr, h1, hvi]
  by_cases h0 : s = 0
  · have h4 : v i.succ ^ 2 = 0 := by
      rw [hs] at h0
      exact (Finset.sum_eq_zero_iff_of_nonneg fun _ _ => sq_nonneg _).mp h0 _ (Finset.mem_univ _)
    rw [hvi] at h4
    rw [pow_eq_zero_iff (by norm_num)] at h4
    rw [h4]
    ring
  · have h5 : n ^ 2 - n * B 0 0 ≠ 0 := fun h => h0 (by rw [h2, h, mul_zero])
    rw [h2]
    generalize n ^ 2 - n * B 0 0 = q at h5
    field_simp
    ring

/-- `R` of a QR factorisation, by reflections. -/
noncomputable def reflectQr : ∀ {k m : ℕ}, (Fin k → Fin m → ℝ) → Fin k → Fin m → ℝ
  | 0, _, B => B
  | _ + 1, 0, B => B
  | k + 1, m + 1, B => fun i j => Fin.cases (motive := fun _ => ℝ) (reflect B 0 j)
      (fun i' => Fin.cases (motive := fun _ => ℝ) 0 (fun j' => reflectQr (k := k) (m := m) (fun a b => reflect B a.succ b.succ) i' j') j) i

theorem reflectQr_measurable : ∀ {k m : ℕ} (i : Fin k) (j : Fin m), Measurable fun B : Fin k → Fin m → ℝ => reflectQr B i j := by
  intro k
  induction k with
  | zero => intro m i; exact i.elim0
  | succ k ih =>
    intro m i j
    match m, j with
    | 0, j => exact j.elim0
    | m + 1, j =>
      simp only [reflectQr]
      refine Fin.cases ?_ (fun i' => ?_) i
      · exact reflect_measurable 0 j
      · refine Fin.cases ?_ (fun j' => ?_) j
        · exact measurable_const
        · have h : Measurable fun B : Fin (k + 1) → Fin (m + 1) → ℝ => fun (a : Fin k) (b : Fin m) => reflect B a.succ b.succ :=
            measurable_pi_lambda _ fun a => measurable_pi_lambda _ fun b => reflect_measurable _ _
          exact (ih i' j').comp h

theorem reflectQr_gram : ∀ {k m : ℕ} (B : Fin k → Fin m → ℝ) (a b : Fin m), ∑ i, reflectQr B i a * reflectQr B i b = ∑ i, B i a * B i b := by
  intro k
  induction k with
  | zero => intro m B a b; simp
  | succ k ih =>
    intro m B a b
    match m, B, a, b with
    | 0, _, a, _ => exact a.elim0
    | m + 1, B, a, b =>
      rw [← reflect_gram B, Fin.sum_univ_succ, Fin.sum_univ_succ (f := fun i => reflect B i a * reflect B i b)]
      congr 1
      simp only [reflectQr, Fin.cases_succ]
      refine Fin.cases ?_ (fun a' => ?_) a
      · simp [reflect_zero]
      · refine Fin.cases ?_ (fun b' => ?_) b
        · simp [reflect_zero]
        · exact ih _ a' b'

theorem reflectQr_upper : ∀ {k m : ℕ} (B : Fin k → Fin m → ℝ) (i : Fin k) (j : Fin m), j.1 < i.1 → reflectQr B i j = 0 := by
  intro k
  induction k with
  | zero => intro m B i; exact i.elim0
  | succ k ih =>
    intro m B i j
    match m, B, j with
    | 0, _, j => exact j.elim0
    | m + 1, B, j =>
      simp only [reflectQr]
      refine Fin.cases ?_ (fun i' => ?_) i
      · intro h; simp at h
      · refine Fin.cases ?_ (fun j' => ?_) j
        · intro _; rfl
        · intro h
          exact ih _ i' j' (by simpa using h)

/-- Correct routines with a measurable QR factorisation. -/
noncomputable def measurableLinAlg : LinAlg := { exactLinAlg with qrR := fun B => reflectQr B }

theorem measurableLinAlg_correct : measurableLinAlg.Correct where
  qr_gram B := by
    ext a b
    rw [mul_apply, mul_apply]
    exact reflectQr_gram B a b
  qr_upper B i j h := reflectQr_upper B i j h
  chol_lower := exactLinAlg_correct.chol_lower
  chol_mul := exactLinAlg_correct.chol_mul
  sqrtm_psd := exactLinAlg_correct.sqrtm_psd
  sqrtm_mul := exactLinAlg_correct.sqrtm_mul
  solvePos_spec := exactLinAlg_correct.solvePos_spec
  solve_spec := exactLinAlg_correct.solve_spec
  solveTri_spec := exactLinAlg_correct.solveTri_spec

theorem measurableLinAlg_measurable : measurableLinAlg.MeasurableQr := fun _ _ i j => reflectQr_measurable i j

/-! ## The root of a positive semidefinite matrix -/

open scoped MatrixOrder in
theorem psd_root_unique {n : ℕ} {X Y : Mat n n} (hX : X.PosSemidef) (hY : Y.PosSemidef) (h : X * X = Y * Y) : X = Y := by
  have h1 := CFC.sqrt_mul_self X hX.nonneg
  have h2 := CFC.sqrt_mul_self Y hY.nonneg
  rw [← h1, ← h2, h]

theorem isClosed_posSemidef (n : ℕ) : IsClosed {P : Mat n n | P.PosSemidef} := by
  have h : {P : Mat n n | P.PosSemidef} = {P : Mat n n | Pᵀ = P} ∩ ⋂ x : Vec n, {P : Mat n n | 0 ≤ x ⬝ᵥ P *ᵥ x} := by
    ext P
    simp only [Set.mem_setOf_eq, Set.mem_inter_iff, Set.mem_iInter]
    constructor
    · intro hP
      exact ⟨psd_symm hP, fun x => by simpa using hP.dotProduct_mulVec_nonneg x⟩
    · rintro ⟨h1, h2⟩
      exact PosSemidef.of_dotProduct_mulVec_nonneg (by rw [IsHermitian, conjTranspose_eq_transpose_of_trivial, h1]) fun x => by simpa using h2 x
  rw [h]
  refine (isClosed_eq (by fun_prop) continuous_id).inter (isClosed_iInter fun x => isClosed_le continuous_const ?_)
  exact continuous_const.dotProduct (continuous_id.matrix_mulVec continuous_const)

/-- A routine that returns the positive semidefinite root is continuous on positive semidefinite matrices. -/
theorem continuousOn_psd_root {n : ℕ} {ρ : Mat n n → Mat n n} (h1 : ∀ P : Mat n n, P.PosSemidef → (ρ P).PosSemidef)
    (h2 : ∀ P : Mat n n, P.PosSemidef → ρ P * ρ P = P) : ContinuousOn ρ {P | P.PosSemidef} := by
  intro P hP
  haveI : FirstCountableTopology (Mat n n) := inferInstanceAs (FirstCountableTopology (Fin n → Fin n → ℝ))
  refine tendsto_of_seq_tendsto fun u hu => ?_
  obtain ⟨hu1, hu2⟩ := tendsto_nhdsWithin_iff.mp hu
  refine tendsto_of_subseq_tendsto fun ns hns => ?_
  have hu3 : Tendsto (fun k => u (ns k)) atTop (𝓝 P) := hu1.comp hns
  have hu4 : ∀ᶠ k in atTop, (u (ns k)).PosSemidef := hns.eventually hu2
  have htr : ∀ᶠ k in atTop, trace (u (ns k)) < trace P + 1 :=
    ((Continuous.matrix_trace continuous_id).continuousAt.tendsto.comp hu3).eventually (gt_mem_nhds (by simp))
  obtain ⟨C, hC⟩ : ∃ C, C = Real.sqrt (trace P + 1) := ⟨_, rfl⟩
  have hK0 : IsCompact (Set.pi Set.univ fun _ : Fin n => Set.pi Set.univ fun _ : Fin n => Set.Icc (-C) C) :=
    isCompact_univ_pi fun _ => isCompact_univ_pi fun _ => isCompact_Icc
  have hK : IsCompact {A : Mat n n | ∀ i j, A i j ∈ Set.Icc (-C) C} := by
    refine (congrArg IsCompact (Set.ext fun A => ?_)).mp hK0
    exact ⟨fun h i j => h i trivial j trivial, fun h i _ j _ => h i j⟩
  have hmem : ∀ᶠ k in atTop, ρ (u (ns k)) ∈ {A : Mat n n | ∀ i j, A i j ∈ Set.Icc (-C) C} := by
    filter_upwards [hu4, htr] with k hk1 hk2
    intro i j
    have hs := psd_symm (h1 _ hk1)
    have e : trace (u (ns k)) = ∑ i, ∑ j, ρ (u (ns k)) i j ^ 2 := by
      conv_lhs => rw [← h2 _ hk1]
      simp only [trace, diag, mul_apply]
      refine Finset.sum_congr rfl fun i _ => Finset.sum_congr rfl fun j _ => ?_
      have : ρ (u (ns k)) j i = ρ (u (ns k)) i j := congrFun (congrFun hs i) j
      rw [this, sq]
    have h3 : ρ (u (ns k)) i j ^ 2 ≤ trace (u (ns k)) := by
      rw [e]
      exact (Finset.single_le_sum (f := fun j => ρ (u (ns k)) i j ^ 2) (fun _ _ => sq_nonneg _) (Finset.mem_univ j)).trans
        (Finset.single_le_sum (f := fun i => ∑ j, ρ (u (ns k)) i j ^ 2) (fun _ _ => Finset.sum_nonneg fun _ _ => sq_nonneg _)
          (Finset.mem_univ i))
    rw [hC]
    exact abs_le.mp (Real.abs_le_sqrt (h3.trans hk2.le))
  obtain ⟨k0, hk0⟩ := (hmem.and hu4).exists_forall_of_atTop
  obtain ⟨X, -, ms, hms, hX⟩ := hK.tendsto_subseq (x := fun k => ρ (u (ns (k + k0)))) fun k => (hk0 (k + k0) (by omega)).1
  refine ⟨fun k => ms k + k0, ?_⟩
  have hX' : Tendsto (fun k => ρ (u (ns (ms k + k0)))) atTop (𝓝 X) := hX
  have hXp : X.PosSemidef := (isClosed_posSemidef n).mem_of_tendsto hX' (Eventually.of_forall fun k =>
    h1 _ (hk0 (ms k + k0) (by omega)).2)
  have hlim : Tendsto (fun k => u (ns (ms k + k0))) atTop (𝓝 P) :=
    hu3.comp (tendsto_atTop_mono (fun k => Nat.le_add_right (ms k) k0) hms.tendsto_atTop)
  have hmul : Tendsto (fun k => ρ (u (ns (ms k + k0))) * ρ (u (ns (ms k + k0)))) atTop (𝓝 (X * X)) :=
    ((continuous_fst.matrix_mul continuous_snd).tendsto (X, X)).comp (hX'.prodMk_nhds hX')
  have hXX : X * X = P := by
    refine tendsto_nhds_unique hmul (hlim.congr fun k => ?_)
    exact (h2 _ (hk0 (ms k + k0) (by omega)).2).symm
  have : X = ρ P := psd_root_unique hXp (h1 P hP) (hXX.trans (h2 P hP).symm)
  rw [← this]
  exact hX'

end Verif
