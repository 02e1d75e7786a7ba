import Verif.Props.Bayes

/-! Helper lemmas: the posterior over consecutive intervals of a piecewise Gauss-Markov prior. -/

namespace Verif

open Matrix Spec Jnp MeasureTheory ProbabilityTheory WithLp

section

variable {Ω : Type*} [MeasurableSpace Ω] {μ : Measure Ω}

/-- The states of a chain started from `x` and driven by `w`. -/
def chainFrom {n : ℕ} (A : Mat n n) (xi x : Vec n) (w : ℕ → Vec n) : ℕ → Vec n
  | 0 => x
  | k + 1 => A *ᵥ chainFrom A xi x w k + xi + w k

theorem chainFrom_add {n : ℕ} (A : Mat n n) (xi x u : Vec n) (w : ℕ → Vec n) (k : ℕ) :
    chainFrom A xi (x + u) w k = chainFrom A xi x w k + (A ^ k) *ᵥ u := by
  induction k with
  | zero => simp [chainFrom]
  | succ k ih =>
    rw [chainFrom, chainFrom, ih, mulVec_add, mulVec_mulVec, ← pow_succ']
    abel

theorem chainFrom_congr {n : ℕ} (A : Mat n n) (xi x : Vec n) {v w : ℕ → Vec n} (k : ℕ) (h : ∀ j < k, v j = w j) :
    chainFrom A xi x v k = chainFrom A xi x w k := by
  induction k with
  | zero => rfl
  | succ k ih => rw [chainFrom, chainFrom, ih fun j hj => h j (hj.trans (Nat.lt_succ_self k)), h k (Nat.lt_succ_self k)]

theorem continuous_chainFrom {n : ℕ} (A : Mat n n) (xi : Vec n) (k : ℕ) :
    Continuous fun p : Vec n × (ℕ → Vec n) => chainFrom A xi p.1 p.2 k := by
  induction k with
  | zero => exact continuous_fst
  | succ k ih =>
    exact ((Continuous.matrix_mulVec continuous_const ih).add continuous_const).add ((continuous_apply k).comp continuous_snd)

/-- A noise sequence, each element independent of the past and of `U`, is jointly independent of `U`. -/
theorem indep_block {α β : Type*} [MeasurableSpace α] [MeasurableSpace β] [IsProbabilityMeasure μ] {U : Ω → α} (hU : AEMeasurable U μ)
    {ε : ℕ → Ω → β} (hε : ∀ j, AEMeasurable (ε j) μ) (h : ∀ j, IndepFun (fun ω => (U ω, fun l : Fin j => ε l ω)) (ε j) μ) (N : ℕ) :
    IndepFun U (fun ω (l : Fin N) => ε l ω) μ := by
  induction N with
  | zero =>
    have : (fun ω (l : Fin 0) => ε l ω) = fun _ => (fun l => l.elim0 : Fin 0 → β) := by funext ω l; exact l.elim0
    rw [this]
    exact indepFun_const_right _ _
  | succ N ih =>
    have h1 := indepFun_assoc hU (aemeasurable_pi_lambda _ fun l : Fin N => hε l) (hε N) ih (h N)
    have h2 : Measurable fun (p : (Fin N → β) × β) (l : Fin (N + 1)) => if hl : l.1 < N then p.1 ⟨l.1, hl⟩ else p.2 := by
      refine measurable_pi_lambda _ fun l => ?_
      by_cases hl : l.1 < N
      · simp only [hl, dif_pos]
        exact (measurable_pi_apply _).comp measurable_fst
      · simp only [hl, dif_neg, not_false_eq_true]
        exact measurable_snd
    have h3 := h1.comp (φ := id) (ψ := fun (p : (Fin N → β) × β) (l : Fin (N + 1)) => if hl : l.1 < N then p.1 ⟨l.1, hl⟩ else p.2)
      measurable_id h2
    have e : (fun ω (l : Fin (N + 1)) => ε l ω) = (fun (p : (Fin N → β) × β) (l : Fin (N + 1)) => if hl : l.1 < N then p.1 ⟨l.1, hl⟩ else p.2) ∘
        fun ω => (fun l : Fin N => ε l ω, ε N ω) := by
      funext ω l
      simp only [Function.comp]
      split_ifs with hl
      · rfl
      · rw [show l.1 = N by omega]
    rw [e]
    exact h3

/-- One step of a sequential posterior: the state `y` with posterior `N(m, P)` given `Z = 0` is mapped, with fresh noise `W`, to a new
state and a new observation, both affine in `y`; if for a start from `N(m, P)` the new state has posterior `N(m', C)` given the new
observation, then also given both. -/
theorem posterior_step [IsProbabilityMeasure μ] {nx ny : ℕ} {E G β : Type*} [NormedAddCommGroup E] [NormedSpace ℝ E] [FiniteDimensional ℝ E]
    [MeasurableSpace E] [BorelSpace E] [NormedAddCommGroup G] [NormedSpace ℝ G] [FiniteDimensional ℝ G] [MeasurableSpace G] [BorelSpace G]
    [MeasurableSpace β] {Z : Ω → E} {y : Ω → Vec nx} {W : Ω → β} (hZ : AEMeasurable Z μ) (hW : AEMeasurable W μ) {m : Vec nx} {P : Mat nx nx}
    (B : E →ₗ[ℝ] Vec nx) (hi : IndepFun Z (fun ω => y ω - (m + B (Z ω))) μ) (hn : IsNormal μ (fun ω => y ω - (m + B (Z ω))) 0 P)
    (hU : IndepFun (fun ω => (Z ω, y ω)) W μ) {φ : Vec nx × β → Vec ny} {ρ : Vec nx × β → G} (hφ : Measurable φ) (hρ : Measurable ρ)
    (D : Vec nx →ₗ[ℝ] Vec ny) (F : Vec nx →ₗ[ℝ] G) (hD : ∀ x u w, φ (x + u, w) = φ (x, w) + D u) (hF : ∀ x u w, ρ (x + u, w) = ρ (x, w) + F u)
    {m' : Vec ny} {C : Mat ny ny}
    (hone : ∀ yt : Ω → Vec nx, IsNormal μ yt m P → (∃ g : E × Vec nx → Vec nx, Measurable g ∧ ∀ ω, yt ω = g (Z ω, y ω)) →
      ∃ B' : G →ₗ[ℝ] Vec ny, IndepFun (fun ω => ρ (yt ω, W ω)) (fun ω => φ (yt ω, W ω) - (m' + B' (ρ (yt ω, W ω)))) μ ∧
        IsNormal μ (fun ω => φ (yt ω, W ω) - (m' + B' (ρ (yt ω, W ω)))) 0 C) :
    ∃ B' : (E × G) →ₗ[ℝ] Vec ny, IndepFun (fun ω => (Z ω, ρ (y ω, W ω))) (fun ω => φ (y ω, W ω) - (m' + B' (Z ω, ρ (y ω, W ω)))) μ ∧
      IsNormal μ (fun ω => φ (y ω, W ω) - (m' + B' (Z ω, ρ (y ω, W ω)))) 0 C := by
  have hBm : Measurable B := B.continuous_of_finiteDimensional.measurable
  obtain ⟨yt, hyt⟩ : ∃ yt : Ω → Vec nx, ∀ ω, yt ω = y ω - B (Z ω) := ⟨_, fun _ => rfl⟩
  have hytn : IsNormal μ yt m P := by
    have := hn.affine m 1
    simp only [one_mulVec, Matrix.one_mul, transpose_one, Matrix.mul_one, add_zero] at this
    have e : yt = fun ω => m + (y ω - (m + B (Z ω))) := by funext ω; rw [hyt]; abel
    rw [e]
    exact this
  obtain ⟨B', hi', hn'⟩ := hone yt hytn ⟨fun q => q.2 - B q.1, measurable_snd.sub (hBm.comp measurable_fst), hyt⟩
  have hB'm : Measurable B' := B'.continuous_of_finiteDimensional.measurable
  have hFm : Measurable F := F.continuous_of_finiteDimensional.measurable
  have hy : ∀ ω, y ω = yt ω + B (Z ω) := fun ω => by rw [hyt]; abel
  refine ⟨B' ∘ₗ LinearMap.snd ℝ E G + (D - B' ∘ₗ F) ∘ₗ B ∘ₗ LinearMap.fst ℝ E G, ?_⟩
  have hζ : (fun ω => φ (y ω, W ω) - (m' + (B' ∘ₗ LinearMap.snd ℝ E G + (D - B' ∘ₗ F) ∘ₗ B ∘ₗ LinearMap.fst ℝ E G)
      (Z ω, ρ (y ω, W ω)))) = fun ω => φ (yt ω, W ω) - (m' + B' (ρ (yt ω, W ω))) := by
    funext ω
    rw [hy ω, hD, hF]
    simp only [LinearMap.add_apply, LinearMap.comp_apply, LinearMap.sub_apply, LinearMap.fst_apply, LinearMap.snd_apply, map_add]
    abel
  rw [hζ]
  refine ⟨?_, hn'⟩
  have hytm : AEMeasurable yt μ := hytn.aemeas
  have h1 : IndepFun Z yt μ := by
    have := hi.comp (φ := id) (ψ := fun v => m + v) measurable_id (measurable_const.add measurable_id)
    have e : yt = (fun v => m + v) ∘ fun ω => y ω - (m + B (Z ω)) := by funext ω; simp only [Function.comp, hyt]; abel
    rw [e]
    exact this
  have h2 : IndepFun (fun ω => (Z ω, yt ω)) W μ := by
    have := hU.comp (φ := fun q : E × Vec nx => (q.1, q.2 - B q.1)) (ψ := id)
      (measurable_fst.prodMk (measurable_snd.sub (hBm.comp measurable_fst))) measurable_id
    have e : (fun ω => (Z ω, yt ω)) = (fun q : E × Vec nx => (q.1, q.2 - B q.1)) ∘ fun ω => (Z ω, y ω) := by
      funext ω; simp only [Function.comp, hyt]
    rw [e]
    exact this
  have h3 : IndepFun Z (fun ω => (yt ω, W ω)) μ := indepFun_assoc hZ hytm hW h1 h2
  have hζm : Measurable fun q : Vec nx × β => (φ q - (m' + B' (ρ q)), ρ q) :=
    (hφ.sub (measurable_const.add (hB'm.comp hρ))).prodMk hρ
  have h4 : IndepFun (fun ω => (φ (yt ω, W ω) - (m' + B' (ρ (yt ω, W ω))), ρ (yt ω, W ω))) Z μ :=
    (h3.comp (φ := id) (ψ := fun q : Vec nx × β => (φ q - (m' + B' (ρ q)), ρ q)) measurable_id hζm).symm
  have h5 := indepFun_assoc hn'.aemeas (hρ.comp_aemeasurable (hytm.prodMk hW)) hZ hi'.symm h4
  have h6 := h5.symm.comp (φ := fun q : G × E => (q.2, q.1 + F (B q.2))) (ψ := id)
    (measurable_snd.prodMk (measurable_fst.add (hFm.comp (hBm.comp measurable_snd)))) measurable_id
  have e : (fun ω => (Z ω, ρ (y ω, W ω))) = (fun q : G × E => (q.2, q.1 + F (B q.2))) ∘ fun ω => (ρ (yt ω, W ω), Z ω) := by
    funext ω
    simp only [Function.comp]
    rw [hy ω, hF]
  rw [e]
  exact h6

end

end Verif
