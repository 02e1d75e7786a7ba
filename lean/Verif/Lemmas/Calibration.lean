import Verif.Props.Ekf
import Verif.Model.Scripts

/-! Helper lemmas: rescaling the prior of the Algorithm 3 solvers, and the diffusion estimate. -/

namespace Verif

open Matrix Spec Jnp

namespace Ekf

variable {dim : ℕ}

/-- Algorithm 3 with `return_all`, in both modes, in terms of the covariance filter. -/
theorem ekf2All_eq {la : LinAlg} (hla : la.Correct) (rng : Rng) (EKF0 : Bool) (key : Option Key) (init : State3 dim)
    (hi : init.2.2.PosSemidef) (vf : Field dim) (hf : FieldOk EKF0 vf) (h : ℝ) (N : ℕ) (sqrt : Bool)
    (p : Prior (dim * (0 + 2))) (hQ : p.Q.PosDef) :
    ∃ o, ekf2All la rng EKF0 key init vf h N sqrt (some ⟨_, p⟩) none = .ok o ∧
      (let u := KF.ekfUC la (init32 la EKF0 init.2.1 init.2.2 vf false) (obsFn EKF0 vf) p.A p.Q p.xi 0
        (linspace h (N * h) N) false
       o.1.2.1 = stride 0 u.1.mean ∧ o.1.2.2 = strideMat 0 0 u.1.cov ∧ o.2.pos3 = u.2.1 ∧ o.2.pos4 = u.2.2) := by
  refine ⟨(fun q => (solComponents (finish2 la rng key sqrt q.1), ⟨(finish2 la rng key sqrt q.1).1,
    (finish2 la rng key sqrt q.1).2.1, (finish2 la rng key sqrt q.1).2.2, q.2.1, q.2.2⟩))
    (KF.ekfUC la (init32 la EKF0 init.2.1 init.2.2 vf sqrt) (obsFn EKF0 vf) p.A
    (if sqrt then la.cholesky p.Q else p.Q) p.xi 0 (linspace h (N * h) N) sqrt), ?_, ?_⟩
  · rw [ekf2All, solverUC_some]; rfl
  · cases sqrt
    · exact ⟨rfl, rfl, rfl, rfl⟩
    · obtain ⟨⟨h1, h2⟩, h3⟩ := run_represents_UC hla EKF0 vf hf p hQ 0 0 isFactor_zero _ _
        (init32_represents hla EKF0 init.2.1 hi vf) (linspace h (N * h) N)
      refine ⟨congrArg (stride 0) h1, congrArg (strideMat 0 0) h2, congrArg Prod.fst h3, congrArg Prod.snd h3⟩

theorem strideMat_psd {r : ℕ} {C : Mat (dim * (r + 2)) (dim * (r + 2))} (hC : C.PosSemidef) (s : Fin (r + 2)) :
    (strideMat s s C).PosSemidef := hC.submatrix fun i => flat i s

theorem init32_smul (la : LinAlg) (EKF0 : Bool) (m0 : Vec dim) (P : Mat dim dim) (vf : Field dim) (c : ℝ) :
    init32 la EKF0 m0 (c • P) vf false = ⟨(init32 la EKF0 m0 P vf false).mean, c • (init32 la EKF0 m0 P vf false).cov⟩ := by
  refine Gauss.ext rfl ?_
  rw [init32_cov, init32_cov, Matrix.mul_smul, Matrix.smul_mul]

/-- Scaling the prior and the initial covariance in a call of an Algorithm 3 solver. -/
theorem ekf2All_scale {la : LinAlg} (hla : la.Correct) (rng : Rng) (EKF0 : Bool) (key : Option Key) (init init' : State3 dim)
    (hi : init.2.2.PosSemidef) {c : ℝ} (hc : 0 < c) (hm : init'.2.1 = init.2.1) (hC : init'.2.2 = c • init.2.2)
    (vf : Field dim) (hf : FieldOk EKF0 vf) (h : ℝ) (N : ℕ) (sqrt : Bool) (p : Prior (dim * (0 + 2))) (hQ : p.Q.PosDef) :
    ∃ o o', ekf2All la rng EKF0 key init vf h N sqrt (some ⟨_, p⟩) none = .ok o ∧
      ekf2All la rng EKF0 key init' vf h N sqrt (some ⟨_, ⟨p.xi, c • p.Q, p.A⟩⟩) none = .ok o' ∧
      o'.1.2.1 = o.1.2.1 ∧ o'.1.2.2 = c • o.1.2.2 ∧ o'.2.pos3 = c • o.2.pos3 ∧ o'.2.pos4 = o.2.pos4 ∧
      o.1.2.2.PosSemidef ∧ (0 < N → o.2.pos3.PosDef) := by
  obtain ⟨o, h1, h2, h3, h4, h5⟩ := ekf2All_eq hla rng EKF0 key init hi vf hf h N sqrt p hQ
  obtain ⟨o', h1', h2', h3', h4', h5'⟩ := ekf2All_eq hla rng EKF0 key init' (hC ▸ hi.smul hc.le) vf hf h N sqrt
    ⟨p.xi, c • p.Q, p.A⟩ (hQ.smul hc)
  have hp := init32_psd la EKF0 init.2.1 hi vf
  have hw := wellPosed hla EKF0 vf hf p.A p.Q p.xi 0 hQ PosSemidef.zero (init32 la EKF0 init.2.1 init.2.2 vf false) hp
    (linspace h (N * h) N)
  have hs := C45_filter hla (obsFn EKF0 vf) p.A p.Q p.xi 0 hc (init32 la EKF0 init.2.1 init.2.2 vf false) _ hw
  rw [smul_zero, ← init32_smul] at hs
  simp only at h2' h3' h4' h5'
  rw [hm, hC, hs] at h2' h3' h4' h5'
  refine ⟨o, o', h1, h1', h2'.trans h2.symm, ?_, ?_, h5'.trans h5.symm, ?_, fun hN => ?_⟩
  · rw [h3, h3']; rfl
  · rw [h4, h4']
  · rw [h3, KF.ekfUC_fst]
    have := C25_run hla (obsFn EKF0 vf) p.A p.Q p.xi 0 hQ.posSemidef PosSemidef.zero _ hp _ hw N
    rw [List.take_of_length_le (by simp)] at this
    exact strideMat_psd this 0
  · obtain ⟨n, rfl⟩ : ∃ n, N = n + 1 := ⟨N - 1, by omega⟩
    have hts : linspace h ((n + 1 : ℕ) * h) (n + 1) = linspace h (n * h) n ++ [((n + 1 : ℕ) : ℝ) * h] := by
      rw [linspace_ts, linspace_ts, List.range_succ, List.map_append]
      simp
    have hg := hw.get n (by simp)
    rw [h4]
    simp only [hts] at hg ⊢
    rw [KF.ekfUC_snoc]
    rw [List.take_left' (by simp), List.getElem_append_right (by simp)] at hg
    simpa using hg

end Ekf

theorem ibm_scale (σ c : ℝ) (q : ℕ) (h : ℝ) (dim : ℕ) {σ' : ℝ} (hσ : σ' ^ 2 = c * σ ^ 2) :
    IOUP.transition 0 σ' q h dim =
      ⟨(IOUP.transition 0 σ q h dim).xi, c • (IOUP.transition 0 σ q h dim).Q, (IOUP.transition 0 σ q h dim).A⟩ := by
  refine Prior.ext rfl ?_ rfl
  ext i j
  simp only [IOUP.transition, kron, IOUP.Q1, hσ, Matrix.smul_apply, smul_eq_mul]
  ring

/-! ## The estimate -/

theorem quad_nonneg {la : LinAlg} (hla : la.Correct) {n : ℕ} (z : Vec n) {S : Mat n n} (hS : S.PosDef) :
    0 ≤ z ⬝ᵥ la.solve S z ∧ (z ⬝ᵥ la.solve S z = 0 ↔ z = 0) := by
  rw [hla.solve_eq (pd_isUnit_det hS)]
  have hi := hS.inv
  constructor
  · simpa using hi.posSemidef.dotProduct_mulVec_nonneg z
  · constructor
    · intro h0
      by_contra hz
      have := hi.dotProduct_mulVec_pos hz
      simp only [star_trivial] at this
      exact this.ne' h0
    · rintro rfl; simp

theorem solve_smul {la : LinAlg} (hla : la.Correct) {n : ℕ} (z : Vec n) {S : Mat n n} (hS : S.PosDef) {c : ℝ} (hc : 0 < c) :
    la.solve (c • S) z = c⁻¹ • la.solve S z := by
  have hu := pd_isUnit_det hS
  have hi : (c • S)⁻¹ = c⁻¹ • S⁻¹ := by
    refine inv_eq_right_inv ?_
    rw [Matrix.smul_mul, Matrix.mul_smul, smul_smul, mul_nonsing_inv _ hu, mul_inv_cancel₀ hc.ne', one_smul]
  rw [hla.solve_eq (pd_isUnit_det (hS.smul hc)), hla.solve_eq hu, hi, smul_mulVec]

theorem mle_scale {la : LinAlg} (hla : la.Correct) {N dim : ℕ} (zs : Fin N → Vec dim) (Ss : Fin N → Mat dim dim)
    (hS : ∀ i, (Ss i).PosDef) {c : ℝ} (hc : 0 < c) :
    mleDiffusion la zs (fun i => c • Ss i) = mleDiffusion la zs Ss / c := by
  simp only [mleDiffusion, solve_smul hla _ (hS _) hc, dotProduct_smul, smul_eq_mul, ← Finset.mul_sum]
  field_simp

theorem mle_nonneg {la : LinAlg} (hla : la.Correct) {N dim : ℕ} (zs : Fin N → Vec dim) (Ss : Fin N → Mat dim dim)
    (hS : ∀ i, (Ss i).PosDef) : 0 ≤ mleDiffusion la zs Ss :=
  div_nonneg (Finset.sum_nonneg fun i _ => (quad_nonneg hla _ (hS i)).1) (by positivity)

namespace Scripts

theorem estimate_map {la : LinAlg} (hla : la.Correct) {dim : ℕ} (l : List (Vec dim × Mat dim dim))
    (hS : ∀ o ∈ l, o.2.PosDef) {c : ℝ} (hc : 0 < c) :
    estimate la (l.map fun o => (o.1, c • o.2)) = estimate la l / c := by
  have key : ∀ (l' : List (Vec dim × Mat dim dim)) (hl : l'.length = l.length)
      (h : ∀ i : Fin l'.length, l'.get i = ((l.get (i.cast hl)).1, c • (l.get (i.cast hl)).2)),
      estimate la l' = estimate la l / c := by
    intro l' hl h
    rw [estimate, estimate, ← mle_scale hla (fun i => (l.get i).1) (fun i => (l.get i).2) (fun i => hS _ (l.get_mem i)) hc]
    simp only [mleDiffusion, h, hl]
    congr 1
    exact Fintype.sum_equiv (finCongr hl) _ _ fun i => rfl
  exact key _ (by simp) fun i => by simp

/-- Rescaling the prior in a run of the calibration script. -/
theorem go_scale {la : LinAlg} (hla : la.Correct) (rng : Rng) {dim : ℕ} (h : ℝ) {M : ℕ} (hM : 0 < M)
    (p : Prior (dim * (0 + 2))) (hQ : p.Q.PosDef) {c : ℝ} (hc : 0 < c) (inps : List (Key × Field dim))
    (hf : ∀ i ∈ inps, ∀ t, Differentiable ℝ fun x => i.2 x t) (x x' : Ekf.State3 dim) (hx : x.2.2.PosSemidef)
    (hm : x'.2.1 = x.2.1) (hC : x'.2.2 = c • x.2.2) :
    ∃ l, calibrationRun.go la rng h M ⟨_, p⟩ x inps = .ok l ∧
      calibrationRun.go la rng h M ⟨_, ⟨p.xi, c • p.Q, p.A⟩⟩ x' inps = .ok (l.map fun o => (o.1, c • o.2)) ∧
      l.length = inps.length ∧ ∀ o ∈ l, o.2.PosDef := by
  induction inps generalizing x x' with
  | nil => exact ⟨[], rfl, rfl, rfl, by simp⟩
  | cons i is ih =>
    obtain ⟨o, o', h1, h2, h3, h4, h5, h6, h7, h8⟩ := Ekf.ekf2All_scale hla rng false (some i.1) x x' hx hc hm hC i.2
      (fun _ => hf i (by simp)) h M true p hQ
    obtain ⟨l, g1, g2, g3, g4⟩ := ih (fun j hj => hf j (by simp [hj])) o.1 o'.1 h7 h3 h4
    refine ⟨(o.2.pos4, o.2.pos3) :: l, ?_, ?_, by simp [g3], ?_⟩
    · rw [calibrationRun.go, h1]
      simp only [bind, Except.bind, g1]
      rfl
    · rw [calibrationRun.go, h2]
      simp only [bind, Except.bind, g2]
      rw [h5, h6]
      rfl
    · intro q hq
      rcases List.mem_cons.1 hq with rfl | hq
      · exact h8 hM
      · exact g4 q hq

end Scripts

end Verif
