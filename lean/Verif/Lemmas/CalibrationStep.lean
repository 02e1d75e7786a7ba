import Verif.Lemmas.Alg3Step
import Verif.Props.PosteriorScripts
import Verif.Props.StrongEkf

/-! Helper lemmas: the calibration experiment with one filter step per interval. -/

namespace Verif

open Matrix Spec Jnp Scripts

variable {d m : ℕ}

/-- The residual of one step: the derivative at the start minus the field at the prediction. -/
def alg3Z (vf : Vec d → ℝ → Vec d) (h : ℝ) (y : Vec d) : Vec d := vf y 0 - vf (y + h • vf y 0) h

/-- One interval of Algorithm 3 with EKF1, one filter step and `return_all`. -/
theorem ekf2All_one {la : LinAlg} (hla : la.Correct) (vf : Field d) {σ h : ℝ} (hσ : σ ≠ 0) (hh : 0 < h)
    (hd : ∀ t, Differentiable ℝ fun x => vf x t) {p : Mat d d} (hp : p.PosSemidef) (y : Vec d) :
    let J0 := jac (fun x => vf x 0) y
    let J1 := jac (fun x => vf x h) (y + h • vf y 0)
    (alg3P h J0 J1 p).PosSemidef ∧ ∀ (rng : Rng) (k : Key) (s : Vec d), ∃ o,
      Ekf.ekf2All la rng false (some k) (s, y, σ ^ 2 • p) vf h 1 true (some ⟨_, IOUP.transition 0 σ 1 h d⟩) none = .ok o ∧
      o.1.2 = (alg3Mean vf h J0 J1 p y, σ ^ 2 • alg3P h J0 J1 p) ∧ stride 0 o.2.mean = alg3Mean vf h J0 J1 p y ∧
      strideMat 0 0 o.2.cov = σ ^ 2 • alg3P h J0 J1 p ∧ o.2.pos3 = σ ^ 2 • alg3S h J0 J1 p ∧ o.2.pos4 = alg3Z vf h y := by
  intro J0 J1
  obtain ⟨h1, U, -, h2⟩ := ekf2_one hla vf hσ hh (hd 0) (hd h) hp y true
  refine ⟨h1, fun rng k s => ?_⟩
  obtain ⟨o, ho, hm, hc⟩ := ekf2All_of_ekf2 (h2 rng k s)
  refine ⟨_, ho, rfl, hm.symm, hc.symm, ?_⟩
  have hQ := Ekf.ibm_Q_posDef hσ 1 hh d
  obtain ⟨f, out, e1, e2, e3⟩ := C50_order hla rng false (some k) (s, y, σ ^ 2 • p) vf (fun _ => hd) h 0 true
    (some ⟨_, IOUP.transition 0 σ 1 h d⟩) (IOUP.transition 0 σ 1 h d) (Or.inl rfl) hQ none 0 (Or.inr ⟨rfl, rfl⟩)
  obtain rfl : out = _ := Except.ok.inj (e2.symm.trans ho)
  have hf : f = Ekf.init32 la false y (σ ^ 2 • p) vf true := by
    have h0 := e1.symm.trans (Ekf.solver_some (r := 0) la _ vf h 0 true false (IOUP.transition 0 σ 1 h d))
    exact Except.ok.inj h0
  have hA : (IOUP.transition 0 σ 1 h d).A = kron (1 : Mat d d) (!![1, h; 0, 1] : Mat (0 + 2) (0 + 2)) := by
    rw [← Ekf.ibm1_A]; rfl
  have hQ' : (IOUP.transition 0 σ 1 h d).Q = kron (1 : Mat d d)
      (!![σ ^ 2 * (h ^ 3 / 3), σ ^ 2 * (h ^ 2 / 2); σ ^ 2 * (h ^ 2 / 2), σ ^ 2 * h] : Mat (0 + 2) (0 + 2)) := by
    rw [← Ekf.ibm1_Q]; rfl
  have hcov : covOf true f = Ekf.lift J0 * (σ ^ 2 • p) * (Ekf.lift J0)ᵀ := by
    rw [hf]
    have h3 := (Ekf.init32_represents hla false y (hp.smul (by positivity : 0 ≤ σ ^ 2)) vf).2
    have h4 := Ekf.init32_cov la false y (σ ^ 2 • p) vf
    have hj : Ekf.jac32 false vf y = J0 := by simp [Ekf.jac32, J0]
    rw [hj] at h4
    exact h3.trans h4
  have hmean : (IOUP.transition 0 σ 1 h d).A *ᵥ f.mean + (IOUP.transition 0 σ 1 h d).xi = interlace ![y + h • vf y 0, vf y 0] := by
    have h0 : (IOUP.transition 0 σ 1 h d).xi = 0 := rfl
    have hm0 : f.mean = interlace ![y, vf y 0] := by rw [hf]; rfl
    rw [h0, add_zero, hm0, hA]
    refine (Ekf.kron_one_mulVec _ _).trans ?_
    congr 1
    funext s
    refine (Fin.sum_univ_two _).trans ?_
    fin_cases s <;> simp
  have hst0 : stride (n := 0 + 2) 0 (interlace ![y + h • vf y 0, vf y 0]) = y + h • vf y 0 := stride_interlace ![y + h • vf y 0, vf y 0] 0
  have hst1 : stride (n := 0 + 2) 1 (interlace ![y + h • vf y 0, vf y 0]) = vf y 0 := stride_interlace ![y + h • vf y 0, vf y 0] 1
  obtain ⟨e4, e5⟩ := e3
  rw [hmean, hst0, hst1] at e5
  rw [hmean, hst0, hcov] at e4
  simp only [zero_add, Nat.cast_one, one_mul, Bool.false_eq_true, if_false, if_true, Matrix.zero_mul, add_zero] at e4 e5
  refine ⟨e4.trans ?_, e5⟩
  exact (alg3_pred (σ := σ) (h := h) J0 J1 p hA hQ' rfl).2.2

/-- Means and covariances, in units of the prior scale, of a run of Algorithm 3 with one filter step per interval. -/
noncomputable def alg3Path (vf : ℕ → Vec d → ℝ → Vec d) (h : ℝ) (x0 : Vec d) : ℕ → Vec d × Mat d d
  | 0 => (x0, 0)
  | k + 1 =>
    let y := (alg3Path vf h x0 k).1
    let p := (alg3Path vf h x0 k).2
    let J0 := jac (fun x => vf k x 0) y
    let J1 := jac (fun x => vf k x h) (y + h • vf k y 0)
    (alg3Mean (vf k) h J0 J1 p y, alg3P h J0 J1 p)

/-- The covariance of the residual of step `k`. -/
noncomputable def alg3PathS (vf : ℕ → Vec d → ℝ → Vec d) (h : ℝ) (x0 : Vec d) (k : ℕ) : Mat d d :=
  let y := (alg3Path vf h x0 k).1
  alg3S h (jac (fun x => vf k x 0) y) (jac (fun x => vf k x h) (y + h • vf k y 0)) (alg3Path vf h x0 k).2

theorem alg3Path_psd {vf : ℕ → Field d} {h : ℝ} (hh : 0 < h) (hd : ∀ k t, Differentiable ℝ fun x => vf k x t) (x0 : Vec d) (k : ℕ) :
    (alg3Path vf h x0 k).2.PosSemidef := by
  obtain ⟨la, hla⟩ : ∃ la : LinAlg, la.Correct := exists_correct_linAlg
  induction k with
  | zero => exact PosSemidef.zero
  | succ k ih => exact (ekf2All_one hla (vf k) one_ne_zero hh (hd k) ih _).1

theorem estimate_range (la : LinAlg) {dim : ℕ} (N : ℕ) (g : ℕ → Vec dim × Mat dim dim) :
    estimate la ((List.range N).map g) = (∑ k ∈ Finset.range N, (g k).1 ⬝ᵥ la.solve (g k).2 (g k).1) / (N * dim) := by
  have key : ∀ (l : List (Vec dim × Mat dim dim)) (hl : l.length = N) (_ : ∀ i : Fin l.length, l.get i = g i),
      estimate la l = (∑ k ∈ Finset.range N, (g k).1 ⬝ᵥ la.solve (g k).2 (g k).1) / (N * dim) := by
    intro l hl h
    subst hl
    simp only [estimate, mleDiffusion, h]
    rw [Finset.sum_range]
  exact key _ (by simp) fun i => by simp

theorem calibrationRun_one {la : LinAlg} (hla : la.Correct) (rng : Rng) {σ h : ℝ} (hσ : σ ≠ 0) (hh : 0 < h) {vf : ℕ → Field d}
    (hd : ∀ k t, Differentiable ℝ fun x => vf k x t) (x0 : Vec d) (κ : ℕ → Key) (n j : ℕ) (s : Vec d) :
    calibrationRun.go la rng h 1 ⟨_, IOUP.transition 0 σ 1 h d⟩ (s, (alg3Path vf h x0 j).1, σ ^ 2 • (alg3Path vf h x0 j).2)
        ((List.range n).map fun i => (κ (j + i), vf (j + i))) =
      .ok ((List.range n).map fun i => (alg3Z (vf (j + i)) h (alg3Path vf h x0 (j + i)).1, σ ^ 2 • alg3PathS vf h x0 (j + i))) := by
  induction n generalizing j s with
  | zero => rfl
  | succ n ih =>
    obtain ⟨o, h1, h2, -, -, h3, h4⟩ := (ekf2All_one hla (vf j) hσ hh (hd j) (alg3Path_psd hh hd x0 j) (alg3Path vf h x0 j).1).2 rng (κ j) s
    have e : ∀ {β : Type} (g : ℕ → β), (List.range (n + 1)).map (fun i => g (j + i)) = g j :: (List.range n).map fun i => g (j + 1 + i) := by
      intro β g
      rw [List.range_succ_eq_map, List.map_cons, List.map_map]
      refine congrArg _ (List.map_congr_left fun i _ => congrArg g ?_)
      simp only [Nat.succ_eq_add_one]
      ring
    rw [e fun i => (κ i, vf i), e fun i => (alg3Z (vf i) h (alg3Path vf h x0 i).1, σ ^ 2 • alg3PathS vf h x0 i)]
    have ho : o.1 = (o.1.1, (alg3Path vf h x0 (j + 1)).1, σ ^ 2 • (alg3Path vf h x0 (j + 1)).2) := by
      rw [← Prod.mk.eta (p := o.1), h2]; rfl
    rw [calibrationRun.go]
    refine (except_bind h1 _).trans ?_
    have h5 := ih (j + 1) o.1.1
    rw [← ho] at h5
    refine (except_bind h5 _).trans ?_
    rw [h3, h4]
    rfl

end Verif
