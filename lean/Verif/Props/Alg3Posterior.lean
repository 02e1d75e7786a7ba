import Verif.Lemmas.Alg3Chain
import Verif.Props.EkfWrappers
import Verif.Props.StrongEkf

/-!
# Property C98: the posterior Algorithm 3 computes over a run
-/

namespace Verif

open Matrix Spec Jnp MeasureTheory ProbabilityTheory WithLp

variable {dim : ℕ}

/-- The state in which an interval starts. -/
def startState (vf : Field dim) (y : Vec dim) : Vec (dim * (0 + 2)) := interlace ![y, vf y 0]

theorem startState_add (M : Mat dim dim) (b : Vec dim) (vf : Field dim) (hvf : ∀ x, vf x 0 = M *ᵥ x + b) (y u : Vec dim) :
    startState vf (y + u) = startState vf y + Ekf.lift M *ᵥ u := by
  funext p
  rw [← flat_div_mod p]
  generalize p.divNat = i
  generalize p.modNat = s
  rw [Pi.add_apply, startState, startState, interlace_flat, interlace_flat]
  have hs : s = 0 ∨ s = 1 := by fin_cases s <;> simp
  rcases hs with rfl | rfl
  · simp [mulVec, dotProduct, Ekf.lift, Matrix.one_apply]
  · simp [hvf, mulVec_add, mulVec, dotProduct, Ekf.lift]
    ring

theorem eq_startState (vf : Field dim) (y : Vec dim) {x : Vec (dim * (0 + 2))} (h0 : stride 0 x = y) (h1 : stride 1 x = vf y 0) :
    x = startState vf y := by
  rw [← Ekf.interlace_stride x, startState]
  congr 1
  funext s
  have hs : s = 0 ∨ s = 1 := by fin_cases s <;> simp
  rcases hs with rfl | rfl
  · exact h0
  · exact h1

theorem continuous_startState (M : Mat dim dim) (b : Vec dim) (vf : Field dim) (hvf : ∀ x, vf x 0 = M *ᵥ x + b) :
    Continuous (startState vf) := by
  have : startState vf = fun y => startState vf 0 + Ekf.lift M *ᵥ y := by
    funext y
    have := startState_add M b vf hvf 0 y
    rwa [zero_add y] at this
  rw [this]
  exact continuous_const.add (Continuous.matrix_mulVec continuous_const continuous_id)

/-- For fields that do not depend on the state, EKF0 and EKF1 agree. -/
theorem ekf2_const_field (la : LinAlg) (rng : Rng) (key : Option Key) (init : Ekf.State3 dim) (b : ℝ → Vec dim) (h : ℝ) (N : ℕ) (sqrt : Bool)
    (p : Prior (dim * (0 + 2))) :
    Ekf.ekf2 la rng true key init (fun _ t => b t) h N sqrt (some ⟨_, p⟩) none =
      Ekf.ekf2 la rng false key init (fun _ t => b t) h N sqrt (some ⟨_, p⟩) none := by
  have hj : jac (fun _ : Vec dim => b 0) init.2.1 = 0 := by
    have := jac_affine (0 : Mat dim dim) (b 0) init.2.1
    simpa using this
  rw [Ekf.ekf2_eq, Ekf.ekf2_eq, Ekf.solver_some, Ekf.solver_some]
  congr 3
  simp [Ekf.init32, hj]

set_option maxHeartbeats 1000000 in
/-- C98: on fields affine in the state, the mean and covariance that EKF1 with Algorithm 3 carries from interval to interval are, after
any number `n` of intervals, those of the exact posterior of the solution under the piecewise prior: the conditional law of the
solution given that the derivative equals the vector field at all grid points of all `n` intervals. -/
theorem C98_run {la : LinAlg} (hla : la.Correct) {Ω : Type*} [MeasurableSpace Ω] {μ : Measure Ω} [IsFiniteMeasure μ]
    (M : ℕ → ℝ → Mat dim dim) (b : ℕ → ℝ → Vec dim) (h : ℝ) (N : ℕ) (sqrt : Bool) (p : Prior (dim * (0 + 2))) (hQ : p.Q.PosDef)
    (m : Vec dim) (P : Mat dim dim) {Y : ℕ → Ω → Vec dim} {X ε : ℕ → ℕ → Ω → Vec (dim * (0 + 2))}
    (hX : PiecewisePrior μ p.A p.Q p.xi (fun k x t => M k t *ᵥ x + b k t) N m P Y X ε) (rng : Rng) (key : ℕ → Option Key) (n : ℕ)
    (s : ℕ → Ekf.State3 dim) (hs0 : (s 0).2 = (m, P))
    (hs : ∀ k < n, Ekf.ekf2 la rng false (key k) (s k) (fun x t => M k t *ᵥ x + b k t) h N sqrt (some ⟨_, p⟩) none = .ok (s (k + 1))) :
    IsPosterior μ (Y n) (fun ω (k : Fin n) (j : Fin N) => stride 1 (X k (j + 1) ω) -
      (M k ((j + 1 : ℕ) * h) *ᵥ stride 0 (X k (j + 1) ω) + b k ((j + 1 : ℕ) * h))) (s n).2.1 (s n).2.2 := by
  have hP := hX.init.isProb
  obtain ⟨vf, hvf⟩ : ∃ vf : ℕ → Field dim, ∀ k x t, vf k x t = M k t *ᵥ x + b k t := ⟨_, fun _ _ _ => rfl⟩
  have hvf' : ∀ k, (fun x t => M k t *ᵥ x + b k t) = vf k := fun k => by funext x t; rw [hvf]
  simp only [hvf'] at hs
  have hX0 : ∀ k ω, X k 0 ω = startState (vf k) (Y k ω) := fun k ω => by
    have h1 := hX.start k ω
    simp only [← hvf] at h1
    exact eq_startState _ _ h1.1 h1.2
  have hXj : ∀ k j ω, X k j ω = chainFrom p.A p.xi (startState (vf k) (Y k ω)) (fun l => ε k l ω) j := by
    intro k j ω
    induction j with
    | zero => exact hX0 k ω
    | succ j ih => rw [hX.trans, ih, chainFrom]
  -- one interval as a function of its start and its noise
  obtain ⟨st, hst⟩ : ∃ st : ℕ → ℕ → Vec dim × (Fin N → Vec (dim * (0 + 2))) → Vec (dim * (0 + 2)), ∀ k j q, st k j q =
      chainFrom p.A p.xi (startState (vf k) q.1) (ext0 q.2) j := ⟨_, fun _ _ _ => rfl⟩
  have hstm : ∀ k j, Measurable (st k j) := fun k j => by
    have h1 : Continuous (st k j) := by
      rw [show st k j = fun q => _ from funext (hst k j)]
      refine (continuous_chainFrom p.A p.xi j).comp (((continuous_startState (M k 0) (b k 0) (vf k) fun x => hvf k x 0).comp
        continuous_fst).prodMk ((continuous_ext0 N).comp continuous_snd))
    exact h1.measurable
  have hsta : ∀ k j x u w, st k j (x + u, w) = st k j (x, w) + (p.A ^ j * Ekf.lift (M k 0)) *ᵥ u := fun k j x u w => by
    rw [hst, hst, startState_add (M k 0) (b k 0) (vf k) fun x => hvf k x 0, chainFrom_add, mulVec_mulVec]
  have hstX : ∀ k j ω, j ≤ N → st k j (Y k ω, fun l : Fin N => ε k l ω) = X k j ω := fun k j ω hj => by
    rw [hst, hXj]
    exact chainFrom_congr _ _ _ _ fun l hl => by simp [ext0, show l < N by omega]
  obtain ⟨res, hres⟩ : ∃ res : ℕ → Fin N → Vec (dim * (0 + 2)) → Vec dim, ∀ k j x, res k j x =
      stride 1 x - (M k ((j + 1 : ℕ) * h) *ᵥ stride 0 x + b k ((j + 1 : ℕ) * h)) := ⟨_, fun _ _ _ => rfl⟩
  have hrese : ∀ k j x, res k j x = (Ekf.E 1 - M k ((j + 1 : ℕ) * h) * Ekf.E 0) *ᵥ x - b k ((j + 1 : ℕ) * h) := fun k j x => by
    rw [hres, sub_mulVec, ← mulVec_mulVec, Ekf.E_mulVec, Ekf.E_mulVec]
    abel
  have hresm : ∀ k j, Measurable (res k j) := fun k j => by
    rw [show res k j = fun x => _ from funext (hrese k j)]
    exact ((Continuous.matrix_mulVec continuous_const continuous_id).sub continuous_const).measurable
  obtain ⟨Z, hZ⟩ : ∃ Z : (n : ℕ) → Ω → Fin n → Fin N → Vec dim, ∀ n ω k j, Z n ω k j = res k j (X k (j + 1) ω) := ⟨_, fun _ _ _ _ => rfl⟩
  have hZ' : (fun ω (k : Fin n) (j : Fin N) => stride 1 (X k (j + 1) ω) -
      (M k ((j + 1 : ℕ) * h) *ᵥ stride 0 (X k (j + 1) ω) + b k ((j + 1 : ℕ) * h))) = Z n := by
    funext ω k j
    rw [hZ, hres]
  rw [hZ']
  -- everything before interval `n` is a function of the first value and the earlier noises
  have hεm : ∀ k j, AEMeasurable (ε k j) μ := fun k j => (hX.noise k j).aemeas
  have hpast : ∀ n, ∃ g : Vec dim × (Fin n → Fin N → Vec (dim * (0 + 2))) → (Fin n → Fin N → Vec dim) × Vec dim, Measurable g ∧
      ∀ ω, (Z n ω, Y n ω) = g (Y 0 ω, fun i l => ε i l ω) := by
    intro n
    induction n with
    | zero => exact ⟨fun q => (fun i => i.elim0, q.1), measurable_const.prodMk measurable_fst, fun ω => by
        refine Prod.ext ?_ rfl
        funext i
        exact i.elim0⟩
    | succ n ih =>
      obtain ⟨g, hg, hgω⟩ := ih
      have hi : Measurable fun q : Vec dim × (Fin (n + 1) → Fin N → Vec (dim * (0 + 2))) => g (q.1, fun i : Fin n => q.2 i.castSucc) :=
        hg.comp (measurable_fst.prodMk (measurable_pi_lambda _ fun i =>
          (measurable_pi_apply (X := fun _ => Fin N → Vec (dim * (0 + 2))) i.castSucc).comp measurable_snd))
      have hl : Measurable fun q : Vec dim × (Fin (n + 1) → Fin N → Vec (dim * (0 + 2))) =>
          ((g (q.1, fun i : Fin n => q.2 i.castSucc)).2, q.2 (Fin.last n)) :=
        (measurable_snd.comp hi).prodMk ((measurable_pi_apply (X := fun _ => Fin N → Vec (dim * (0 + 2))) (Fin.last n)).comp measurable_snd)
      refine ⟨fun q => (fun k => if hk : k.1 < n then (g (q.1, fun i : Fin n => q.2 i.castSucc)).1 ⟨k, hk⟩ else
          fun j => res n j (st n (j + 1) ((g (q.1, fun i : Fin n => q.2 i.castSucc)).2, q.2 (Fin.last n))),
        stride 0 (st n N ((g (q.1, fun i : Fin n => q.2 i.castSucc)).2, q.2 (Fin.last n)))), ?_, fun ω => ?_⟩
      · refine (measurable_pi_lambda _ fun k => ?_).prodMk ?_
        · by_cases hk : k.1 < n
          · simp only [hk, dif_pos]
            exact (measurable_pi_apply (X := fun _ => Fin N → Vec dim) ⟨k.1, hk⟩).comp (measurable_fst.comp hi)
          · simp only [hk, dif_neg, not_false_eq_true]
            exact measurable_pi_lambda _ fun j => (hresm n j).comp ((hstm n (j + 1)).comp hl)
        · have h1 : Measurable fun x : Vec (dim * (0 + 2)) => (stride 0 x : Vec dim) := measurable_pi_lambda _ fun i => measurable_pi_apply _
          exact h1.comp ((hstm n N).comp hl)
      · have h1 := hgω ω
        have hY : (g (Y 0 ω, fun (i : Fin n) (l : Fin N) => ε i l ω)).2 = Y n ω := by rw [← h1]
        have hZn : (g (Y 0 ω, fun (i : Fin n) (l : Fin N) => ε i l ω)).1 = Z n ω := by rw [← h1]
        refine Prod.ext ?_ ?_
        · funext k j
          simp only [Fin.val_castSucc, Fin.val_last, hY, hZn]
          by_cases hk : k.1 < n
          · simp only [hk, dif_pos]
            rw [hZ, hZ]
          · simp only [hk, dif_neg, not_false_eq_true]
            rw [hZ, hstX n _ ω (by omega), show k.1 = n by omega]
        · simp only [Fin.val_castSucc, Fin.val_last, hY]
          rw [hX.next, hstX n N ω le_rfl]
  have hinN : ∀ n j, IndepFun (fun ω => ((Z n ω, Y n ω), fun l : Fin j => ε n l ω)) (ε n j) μ := fun n j => by
    obtain ⟨g, hg, hgω⟩ := hpast n
    simp only [hgω]
    exact (hX.indep n j).comp (φ := fun q : (Vec dim × (Fin n → Fin N → Vec (dim * (0 + 2)))) × (Fin j → Vec (dim * (0 + 2))) => (g q.1, q.2))
      (ψ := id) ((hg.comp measurable_fst).prodMk measurable_snd) measurable_id
  have hUm : ∀ n, AEMeasurable (fun ω => (Z n ω, Y n ω)) μ := fun n => by
    obtain ⟨g, hg, hgω⟩ := hpast n
    simp only [hgω]
    exact hg.comp_aemeasurable (hX.init.aemeas.prodMk (aemeasurable_pi_lambda _ fun i => aemeasurable_pi_lambda _ fun l => hεm _ _))
  -- induction over the intervals
  have main : ∀ k ≤ n, ∃ B : (Fin k → Fin N → Vec dim) →ₗ[ℝ] Vec dim,
      IndepFun (Z k) (fun ω => Y k ω - ((s k).2.1 + B (Z k ω))) μ ∧ IsNormal μ (fun ω => Y k ω - ((s k).2.1 + B (Z k ω))) 0 (s k).2.2 := by
    intro k
    induction k with
    | zero =>
      intro _
      refine ⟨0, ?_, ?_⟩
      · have : Z 0 = fun _ => (fun i => i.elim0 : Fin 0 → Fin N → Vec dim) := by funext ω i; exact i.elim0
        rw [this]
        exact indepFun_const_left _ _
      · have := hX.init.affine (-m) 1
        simp only [one_mulVec, Matrix.one_mul, transpose_one, Matrix.mul_one, neg_add_cancel] at this
        rw [hs0]
        simpa [sub_eq_neg_add] using this
    | succ k ih =>
      intro hk
      obtain ⟨B, hB1, hB2⟩ := ih (by omega)
      have hW := indep_block (hUm k) (hεm k) (hinN k) N
      have hZm : AEMeasurable (Z k) μ := measurable_fst.comp_aemeasurable (hUm k)
      have hs1 := hs k (by omega)
      have hstr : ∀ s : Fin (0 + 2), Measurable fun x : Vec (dim * (0 + 2)) => (stride s x : Vec dim) :=
        fun s => measurable_pi_lambda _ fun i => measurable_pi_apply _
      obtain ⟨B', hB1', hB2'⟩ := posterior_step (φ := fun q => stride 0 (st k N q)) (ρ := fun q (j : Fin N) => res k j (st k (j + 1) q)) hZm
        (aemeasurable_pi_lambda _ fun l : Fin N => hεm k l) B hB1 hB2 hW ((hstr 0).comp (hstm k N))
        (measurable_pi_lambda _ fun j => (hresm k j).comp (hstm k (j + 1)))
        (Ekf.E (r := 0) 0 * (p.A ^ N * Ekf.lift (M k 0))).mulVecLin
        (LinearMap.pi fun j : Fin N => ((Ekf.E (r := 0) 1 - M k ((j.1 + 1 : ℕ) * h) * Ekf.E 0) * (p.A ^ (j.1 + 1) * Ekf.lift (M k 0))).mulVecLin)
        (fun x u w => by
          rw [hsta, mulVecLin_apply, ← Ekf.E_mulVec, ← Ekf.E_mulVec, mulVec_add, mulVec_mulVec])
        (fun x u w => by
          funext j
          simp only [Pi.add_apply, LinearMap.pi_apply, mulVecLin_apply]
          rw [hsta, hrese, hrese, mulVec_add, mulVec_mulVec]
          funext i
          simp only [Pi.add_apply, Pi.sub_apply]
          ring)
        (m' := (s (k + 1)).2.1) (C := (s (k + 1)).2.2)
        (by
          rintro yt hyt ⟨g, hg, hgy⟩
          obtain ⟨Xt, hXt⟩ : ∃ Xt : ℕ → Ω → Vec (dim * (0 + 2)), ∀ j ω, Xt j ω =
            chainFrom p.A p.xi (startState (vf k) (yt ω)) (fun l => ε k l ω) j := ⟨_, fun _ _ => rfl⟩
          have hjac : jac (fun z => vf k z 0) (s k).2.1 = M k 0 := by
            simp only [hvf]
            exact jac_affine _ _ _
          have hgm : GaussMarkov μ Xt (Ekf.init32 la false (s k).2.1 (s k).2.2 (vf k) sqrt).mean
              (covOf sqrt (Ekf.init32 la false (s k).2.1 (s k).2.2 (vf k) sqrt)) p.A p.Q p.xi (ε k) := by
            refine ⟨?_, hX.noise k, fun j ω => by rw [hXt, hXt, chainFrom], fun j => ?_⟩
            · have h1 := (C49_law hla yt (s k).2.1 (s k).2.2 hyt (vf k) sqrt).1
              rw [hjac] at h1
              have e : Xt 0 = fun ω => interlace ![yt ω, vf k (s k).2.1 0 + M k 0 *ᵥ (yt ω - (s k).2.1)] := by
                funext ω
                rw [hXt, chainFrom, startState]
                congr 2
                rw [hvf, hvf, mulVec_sub]
                congr 1
                abel
              rw [e]
              exact h1
            · have hmeas : Measurable fun (q : ((Fin k → Fin N → Vec dim) × Vec dim) × (Fin j → Vec (dim * (0 + 2)))) (i : Fin (j + 1)) =>
                  chainFrom p.A p.xi (startState (vf k) (g q.1)) (ext0 q.2) i := by
                refine measurable_pi_lambda _ fun i => ?_
                refine (continuous_chainFrom p.A p.xi i).measurable.comp
                  (((continuous_startState (M k 0) (b k 0) (vf k) fun x => hvf k x 0).measurable.comp (hg.comp measurable_fst)).prodMk
                  ((continuous_ext0 j).measurable.comp measurable_snd))
              have h1 := (hinN k j).comp (φ := fun (q : ((Fin k → Fin N → Vec dim) × Vec dim) × (Fin j → Vec (dim * (0 + 2)))) (i : Fin (j + 1)) =>
                  chainFrom p.A p.xi (startState (vf k) (g q.1)) (ext0 q.2) i) (ψ := id) hmeas measurable_id
              have e : (fun ω (i : Fin (j + 1)) => Xt i ω) = (fun (q : ((Fin k → Fin N → Vec dim) × Vec dim) × (Fin j → Vec (dim * (0 + 2))))
                  (i : Fin (j + 1)) => chainFrom p.A p.xi (startState (vf k) (g q.1)) (ext0 q.2) i) ∘
                  fun ω => ((Z k ω, Y k ω), fun l : Fin j => ε k l ω) := by
                funext ω i
                simp only [Function.comp]
                rw [hXt, hgy]
                exact chainFrom_congr _ _ _ _ fun l hl => by simp [ext0, show l < j by omega]
              rw [e]
              exact h1
          obtain ⟨f, hf1, Bf, hf2, hf3, -⟩ := C95_ekf1 hla (M k) (b k) h N sqrt p hQ _ hgm
          rw [hvf'] at hf1
          rw [Ekf.ekf2_eq, hf1] at hs1
          have hs2 : s (k + 1) = Ekf.solComponents (Ekf.finish2 la rng (key k) sqrt f) := (Except.ok.inj hs1).symm
          have hm' : (s (k + 1)).2.1 = stride 0 f.mean := by rw [hs2]; rfl
          have hC' : (s (k + 1)).2.2 = strideMat 0 0 (covOf sqrt f) := by rw [hs2]; cases sqrt <;> rfl
          have hρ : (fun ω (j : Fin N) => stride 1 (Xt (j + 1) ω) - (M k ((j + 1 : ℕ) * h) *ᵥ stride 0 (Xt (j + 1) ω) + b k ((j + 1 : ℕ) * h))) =
              fun ω (j : Fin N) => res k j (st k (j + 1) (yt ω, fun l : Fin N => ε k l ω)) := by
            funext ω j
            rw [hres, hst, hXt]
            rw [chainFrom_congr p.A p.xi (startState (vf k) (yt ω)) (v := fun l => ε k l ω) (w := ext0 fun l : Fin N => ε k l ω) (j + 1)
              fun l hl => by simp [ext0, show l < N by omega]]
          have hφ : ∀ ω, Xt N ω = st k N (yt ω, fun l : Fin N => ε k l ω) := fun ω => by
            rw [hst, hXt]
            exact chainFrom_congr _ _ _ _ fun l hl => by simp [ext0, hl]
          have hρω := fun ω => congrFun hρ ω
          rw [hρ] at hf2
          simp only [hρω, hφ] at hf2 hf3
          refine ⟨(Ekf.E (r := 0) 0).mulVecLin ∘ₗ Bf, ?_⟩
          have e : (fun ω => stride 0 (st k N (yt ω, fun l : Fin N => ε k l ω)) - ((s (k + 1)).2.1 + ((Ekf.E (r := 0) 0).mulVecLin ∘ₗ Bf)
              fun j => res k j (st k (j + 1) (yt ω, fun l : Fin N => ε k l ω)))) = fun ω => stride 0 (st k N (yt ω, fun l : Fin N => ε k l ω) -
              (f.mean + Bf fun j => res k j (st k (j + 1) (yt ω, fun l : Fin N => ε k l ω)))) := by
            funext ω
            rw [hm', LinearMap.comp_apply, mulVecLin_apply, ← Ekf.E_mulVec, ← Ekf.E_mulVec, ← Ekf.E_mulVec, mulVec_sub, mulVec_add]
          rw [e, hC']
          refine ⟨hf2.comp (φ := id) (ψ := fun x => stride 0 x) measurable_id (hstr 0), ?_⟩
          exact stride_normal hf3 0)
      refine ⟨B' ∘ₗ (LinearMap.prod (LinearMap.pi fun i : Fin k => LinearMap.proj i.castSucc) (LinearMap.proj (Fin.last k))), ?_⟩
      have hsplit : ∀ ω, (LinearMap.prod (LinearMap.pi fun i : Fin k => LinearMap.proj (R := ℝ) i.castSucc) (LinearMap.proj (Fin.last k)))
          (Z (k + 1) ω) = (Z k ω, fun j : Fin N => res k j (st k (j + 1) (Y k ω, fun l : Fin N => ε k l ω))) := fun ω => by
        refine Prod.ext ?_ ?_
        · funext i j
          simp [hZ]
        · funext j
          refine (hZ (k + 1) ω (Fin.last k) j).trans ?_
          rw [Fin.val_last, ← hstX k _ ω (by omega)]
      have e : (fun ω => Y (k + 1) ω - ((s (k + 1)).2.1 + (B' ∘ₗ (LinearMap.prod (LinearMap.pi fun i : Fin k => LinearMap.proj i.castSucc)
          (LinearMap.proj (Fin.last k)))) (Z (k + 1) ω))) = fun ω => stride 0 (st k N (Y k ω, fun l : Fin N => ε k l ω)) - ((s (k + 1)).2.1 +
          B' (Z k ω, fun j : Fin N => res k j (st k (j + 1) (Y k ω, fun l : Fin N => ε k l ω)))) := by
        funext ω
        rw [LinearMap.comp_apply, hsplit, hX.next, hstX k N ω le_rfl]
      rw [e]
      refine ⟨?_, hB2'⟩
      have hsn : Measurable fun (q : (Fin k → Fin N → Vec dim) × (Fin N → Vec dim)) (i : Fin (k + 1)) =>
          if hi : i.1 < k then q.1 ⟨i.1, hi⟩ else q.2 := by
        refine measurable_pi_lambda _ fun i => ?_
        by_cases hi : i.1 < k
        · simp only [hi, dif_pos]
          exact (measurable_pi_apply (X := fun _ : Fin k => Fin N → Vec dim) ⟨i.1, hi⟩).comp measurable_fst
        · simp only [hi, dif_neg, not_false_eq_true]
          exact measurable_snd
      have h1 := hB1'.comp (φ := fun (q : (Fin k → Fin N → Vec dim) × (Fin N → Vec dim)) (i : Fin (k + 1)) =>
          if hi : i.1 < k then q.1 ⟨i.1, hi⟩ else q.2) (ψ := id) hsn measurable_id
      have e2 : Z (k + 1) = (fun (q : (Fin k → Fin N → Vec dim) × (Fin N → Vec dim)) (i : Fin (k + 1)) =>
          if hi : i.1 < k then q.1 ⟨i.1, hi⟩ else q.2) ∘ fun ω => (Z k ω, fun j : Fin N => res k j (st k (j + 1) (Y k ω, fun l : Fin N => ε k l ω))) := by
        funext ω i j
        simp only [Function.comp]
        by_cases hi : i.1 < k
        · simp only [hi, dif_pos]
          rw [hZ, hZ]
        · simp only [hi, dif_neg, not_false_eq_true]
          rw [hZ, hstX k _ ω (by omega), show i.1 = k by omega]
      rw [e2]
      exact h1
  obtain ⟨B, h1, h2⟩ := main n le_rfl
  exact .of_split (measurable_fst.comp_aemeasurable (hUm n)) B h1 h2

/-- C98 for EKF0, on fields that do not depend on the state. -/
theorem C98_ekf0 {la : LinAlg} (hla : la.Correct) {Ω : Type*} [MeasurableSpace Ω] {μ : Measure Ω} [IsFiniteMeasure μ]
    (b : ℕ → ℝ → Vec dim) (h : ℝ) (N : ℕ) (sqrt : Bool) (p : Prior (dim * (0 + 2))) (hQ : p.Q.PosDef)
    (m : Vec dim) (P : Mat dim dim) {Y : ℕ → Ω → Vec dim} {X ε : ℕ → ℕ → Ω → Vec (dim * (0 + 2))}
    (hX : PiecewisePrior μ p.A p.Q p.xi (fun k _ t => b k t) N m P Y X ε) (rng : Rng) (key : ℕ → Option Key) (n : ℕ)
    (s : ℕ → Ekf.State3 dim) (hs0 : (s 0).2 = (m, P))
    (hs : ∀ k < n, Ekf.ekf2 la rng true (key k) (s k) (fun _ t => b k t) h N sqrt (some ⟨_, p⟩) none = .ok (s (k + 1))) :
    IsPosterior μ (Y n) (fun ω (k : Fin n) (j : Fin N) => stride 1 (X k (j + 1) ω) - b k ((j + 1 : ℕ) * h)) (s n).2.1 (s n).2.2 := by
  have := C98_run hla (fun _ _ => (0 : Mat dim dim)) b h N sqrt p hQ m P (Y := Y) (X := X) (ε := ε) (by simpa using hX) rng key n s hs0
    (fun k hk => by
      simp only [zero_mulVec, zero_add]
      rw [← ekf2_const_field]
      exact hs k hk)
  simpa only [zero_mulVec, zero_add] using this

/-- C98 for `sde_solver` itself, on an SDE with drift `M(t) x + b(t)` and diffusion `S(t)`: the mean and covariance at every grid point
are the exact posterior of the solution of the sequence of random ODEs, given the Brownian coefficients that were drawn. -/
theorem C98_sde_solver {la : LinAlg} (hla : la.Correct) {Ω : Type*} [MeasurableSpace Ω] {μ : Measure Ω} [IsFiniteMeasure μ] {q : ℕ} {C : Type}
    (M : ℝ → Mat dim dim) (b : ℝ → Vec dim) (S : ℝ → Mat dim q) (bm : BmApprox C q) (rng : Rng) (key : Key) (δ : ℝ) (n N : ℕ) (h : ℝ)
    (sqrt : Bool) (p : Prior (dim * (0 + 2))) (hQ : p.Q.PosDef) (x0 : Ekf.State3 dim) (odeInt : OdeInt (Ekf.State3 dim) dim)
    (hode : ∀ k x vf, Ekf.ekf2 la rng false (some k) x vf h N sqrt (some ⟨_, p⟩) none = .ok (odeInt k x vf δ))
    {Y : ℕ → Ω → Vec dim} {X ε : ℕ → ℕ → Ω → Vec (dim * (0 + 2))} (vf : ℕ → Field dim)
    (hvf : ∀ k < n, ∃ c, (sdeSolver rng key (fun x t => M t *ᵥ x + b t) (fun _ t => S t) x0 bm δ n odeInt).2.2[k]? = some c ∧
      vf k = fun x t => M (t + k * δ) *ᵥ x + b (t + k * δ) + S (t + k * δ) *ᵥ jacT (fun t => bm.eval t δ c) t)
    (hvf' : ∀ k, n ≤ k → vf k = 0)
    (hX : PiecewisePrior μ p.A p.Q p.xi vf N x0.2.1 x0.2.2 Y X ε) (k : ℕ) (hk : k ≤ n) :
    ∃ s, (sdeSolver rng key (fun x t => M t *ᵥ x + b t) (fun _ t => S t) x0 bm δ n odeInt).2.1[k]? = some s ∧
      IsPosterior μ (Y k) (fun ω (i : Fin k) (j : Fin N) => stride 1 (X i (j + 1) ω) - vf i (stride 0 (X i (j + 1) ω)) ((j + 1 : ℕ) * h))
        s.2.1 s.2.2 := by
  obtain ⟨s, hs1, hs0, hs⟩ := sdeSolver_states rng key (fun x t => M t *ᵥ x + b t) (fun _ t => S t) x0 bm δ n odeInt
  refine ⟨s k, hs1 k hk, ?_⟩
  have hform : ∀ i, ∃ (Mi : ℝ → Mat dim dim) (bi : ℝ → Vec dim), ∀ x t, vf i x t = Mi t *ᵥ x + bi t := fun i => by
    by_cases hi : i < n
    · obtain ⟨c, -, h2⟩ := hvf i hi
      exact ⟨fun t => M (t + i * δ), fun t => b (t + i * δ) + S (t + i * δ) *ᵥ jacT (fun t => bm.eval t δ c) t, fun x t => by
        rw [h2]; exact add_assoc _ _ _⟩
    · exact ⟨0, 0, fun x t => by simp [hvf' i (by omega)]⟩
  choose Mi bi hMb using hform
  have hvfe : ∀ i, vf i = fun x t => Mi i t *ᵥ x + bi i t := fun i => by funext x t; exact hMb i x t
  have := C98_run hla Mi bi h N sqrt p hQ x0.2.1 x0.2.2 (Y := Y) (X := X) (ε := ε) (μ := μ)
    (by have hvv : vf = fun k x t => Mi k t *ᵥ x + bi k t := funext hvfe
        rw [← hvv]; exact hX) rng
    (fun i => some ((key.child n i).child 2 1)) k s (by rw [hs0]) (fun i hi => by
      obtain ⟨c, h1, h2⟩ := hs i (by omega)
      obtain ⟨c', h3, h4⟩ := hvf i (by omega)
      have hc : c' = c := Option.some.inj (h3.symm.trans h1)
      rw [h2, ← hode, ← hvfe, h4, hc]
      rfl)
  simpa only [← hMb] using this

/-- The dimensions of the random vectors behind a piecewise prior: the first value, then one noise per interval and step. -/
def priorDim (dim : ℕ) : Option (ℕ × ℕ) → ℕ
  | none => dim
  | some _ => dim * (0 + 2)

/-- The values at the starts of the intervals. -/
noncomputable def priorStart (A : Mat (dim * (0 + 2)) (dim * (0 + 2))) (xi : Vec (dim * (0 + 2))) (vf : ℕ → Field dim) (N : ℕ) (y : Vec dim)
    (w : ℕ → ℕ → Vec (dim * (0 + 2))) : ℕ → Vec dim
  | 0 => y
  | k + 1 => stride 0 (chainFrom A xi (startState (vf k) (priorStart A xi vf N y w k)) (w k) N)

/-- Piecewise priors as in C98 exist for all vector fields and all positive semi-definite covariances. -/
theorem exists_piecewisePrior (A Q : Mat (dim * (0 + 2)) (dim * (0 + 2))) (xi : Vec (dim * (0 + 2))) (vf : ℕ → Field dim) (N : ℕ) (m : Vec dim)
    (P : Mat dim dim) (hP : P.PosSemidef) (hQ : Q.PosSemidef) :
    ∃ (μ : Measure ((i : Option (ℕ × ℕ)) → EuclideanSpace ℝ (Fin (priorDim dim i)))) (Y : _) (X ε : _),
      PiecewisePrior μ A Q xi vf N m P Y X ε := by
  let ν : (i : Option (ℕ × ℕ)) → Measure (EuclideanSpace ℝ (Fin (priorDim dim i))) := fun i => match i with
    | none => multivariateGaussian (toLp 2 m) P
    | some _ => multivariateGaussian (toLp 2 0) Q
  have hν : ∀ i, IsProbabilityMeasure (ν i) := fun i => by
    cases i with
    | none => exact inferInstanceAs (IsProbabilityMeasure (multivariateGaussian (toLp 2 m) P))
    | some i => exact inferInstanceAs (IsProbabilityMeasure (multivariateGaussian (toLp 2 0) Q))
  have hlaw : ∀ i, HasLaw (fun ω : (i : Option (ℕ × ℕ)) → EuclideanSpace ℝ (Fin (priorDim dim i)) => ω i) (ν i) (Measure.infinitePi ν) := fun i =>
    ⟨(measurable_pi_apply i).aemeasurable, (measurePreserving_eval_infinitePi ν i).map_eq⟩
  have hind : iIndepFun (fun i (ω : (i : Option (ℕ × ℕ)) → EuclideanSpace ℝ (Fin (priorDim dim i))) => ofLp (ω i)) (Measure.infinitePi ν) :=
    iIndepFun_infinitePi (P := ν) (X := fun _ z => ofLp z) fun i => by fun_prop
  let w : ((i : Option (ℕ × ℕ)) → EuclideanSpace ℝ (Fin (priorDim dim i))) → ℕ → ℕ → Vec (dim * (0 + 2)) := fun ω k j => ofLp (ω (some (k, j)))
  let y : ((i : Option (ℕ × ℕ)) → EuclideanSpace ℝ (Fin (priorDim dim i))) → Vec dim := fun ω => ofLp (ω none)
  refine ⟨Measure.infinitePi ν, fun k ω => priorStart A xi vf N (y ω) (w ω) k,
    fun k j ω => chainFrom A xi (startState (vf k) (priorStart A xi vf N (y ω) (w ω) k)) (w ω k) j, fun k j ω => w ω k j,
    ⟨hP, hlaw none⟩, fun k j => ⟨hQ, hlaw (some (k, j))⟩, fun k ω => ?_, fun k j ω => rfl, fun k ω => rfl, fun k j => ?_⟩
  · simp only [chainFrom, startState, stride_interlace]
    exact ⟨rfl, rfl⟩
  · let S : Finset (Option (ℕ × ℕ)) := insert none ((((Finset.range (k + 1)) ×ˢ (Finset.range (N + j + 1))).erase (k, j)).map Function.Embedding.some)
    have hS0 : none ∈ S := Finset.mem_insert_self _ _
    have hS1 : ∀ i l, i < k → l < N → some (i, l) ∈ S := fun i l hi hl => by simp [S]; omega
    have hS2 : ∀ l, l < j → some (k, l) ∈ S := fun l hl => by simp [S]; omega
    have h1 := hind.indepFun_finset S {some (k, j)} (by simp [S]) (fun i => by fun_prop)
    have hψ : Measurable fun v : (i : ({some (k, j)} : Finset (Option (ℕ × ℕ)))) → Vec (priorDim dim i) =>
        v ⟨some (k, j), Finset.mem_singleton_self _⟩ := measurable_pi_apply _
    have hφ : Measurable fun v : (i : S) → Vec (priorDim dim i) => (((v ⟨none, hS0⟩ : Vec (priorDim dim none)),
        fun (i : Fin k) (l : Fin N) => (v ⟨some (i.1, l.1), hS1 _ _ i.2 l.2⟩ : Vec (priorDim dim (some (i.1, l.1))))),
        fun l : Fin j => (v ⟨some (k, l.1), hS2 _ l.2⟩ : Vec (priorDim dim (some (k, l.1))))) :=
      ((measurable_pi_apply (X := fun i : S => Vec (priorDim dim i)) ⟨none, hS0⟩).prodMk
        (measurable_pi_lambda _ fun i : Fin k => measurable_pi_lambda _ fun l : Fin N =>
          measurable_pi_apply (X := fun i : S => Vec (priorDim dim i)) ⟨some (i.1, l.1), hS1 _ _ i.2 l.2⟩)).prodMk
        (measurable_pi_lambda _ fun l : Fin j => measurable_pi_apply (X := fun i : S => Vec (priorDim dim i)) ⟨some (k, l.1), hS2 _ l.2⟩)
    exact h1.comp hφ hψ

/-- C98 applies to `sde_solver` with the default prior on a two-dimensional linear SDE driven by parabolas, started from an exact value. -/
example (rng : Rng) (key : Key) (n N : ℕ) (δ : ℝ) (hN : 0 < N) (hδ : 0 < δ) (sqrt : Bool) (x : Vec 2) :
    ∃ (Ω : Type) (_ : MeasurableSpace Ω) (μ : Measure Ω) (_ : IsFiniteMeasure μ) (Y : ℕ → Ω → Vec 2) (X : ℕ → ℕ → Ω → Vec (2 * (0 + 2))) (vf : ℕ → Field 2)
      (odeInt : OdeInt (Ekf.State3 2) 2),
      (∀ k x v, Ekf.ekf2 exactLinAlg rng false (some k) x v (δ / N) N sqrt (some ⟨_, IOUP.transition 0 1 1 (δ / N) 2⟩) none = .ok (odeInt k x v δ)) ∧
      ∀ k ≤ n, ∃ s, (sdeSolver rng key (fun x t => !![-1, t; 0, -2] *ᵥ x + ![t, 1]) (fun _ t => !![1, 0; t, 2]) (x, x, 0) (Foster.getApprox 2) δ n
          odeInt).2.1[k]? = some s ∧
        IsPosterior μ (Y k) (fun ω (i : Fin k) (j : Fin N) => stride 1 (X i (j + 1) ω) -
          vf i (stride 0 (X i (j + 1) ω)) ((j + 1 : ℕ) * (δ / N))) s.2.1 s.2.2 := by
  have hQ := Ekf.ibm_Q_posDef one_ne_zero 1 (div_pos hδ (Nat.cast_pos.2 hN)) 2
  have hok : ∀ (k : Key) (x : Ekf.State3 2) (v : Field 2), ∃ y,
      Ekf.ekf2 exactLinAlg rng false (some k) x v (δ / N) N sqrt (some ⟨_, IOUP.transition 0 1 1 (δ / N) 2⟩) none = .ok y := fun k x v => by
    rw [Ekf.ekf2_eq]
    erw [Ekf.solver_some]
    exact ⟨_, rfl⟩
  choose f hf using hok
  let vf : ℕ → Field 2 := fun k => if k < n then fun x t => !![-1, t + k * δ; 0, -2] *ᵥ x + ![t + k * δ, 1] + !![1, 0; t + k * δ, 2] *ᵥ
    jacT (fun t => (Foster.getApprox 2).eval t δ ((Foster.getApprox 2).coeffs rng ((key.child n k).child 2 0) δ)) t else 0
  obtain ⟨μ, Y, X, ε, hX⟩ := exists_piecewisePrior (IOUP.transition 0 1 1 (δ / N) 2).A (IOUP.transition 0 1 1 (δ / N) 2).Q
    (IOUP.transition 0 1 1 (δ / N) 2).xi vf N x 0 PosSemidef.zero hQ.posSemidef
  have := hX.init.isProb
  refine ⟨_, _, μ, inferInstance, Y, X, vf, fun k x v _ => f k x v, hf, fun k hk => ?_⟩
  exact C98_sde_solver exactLinAlg_correct (fun t => !![-1, t; 0, -2]) (fun t => ![t, 1]) (fun t => !![1, 0; t, 2]) (Foster.getApprox 2) rng key δ n N
    (δ / N) sqrt (IOUP.transition 0 1 1 (δ / N) 2) hQ (x, x, 0) (fun k x v _ => f k x v) hf vf
    (fun k hk => ⟨_, by rw [sdeSolver_coeffs, List.getElem?_map, List.getElem?_range hk]; rfl, by simp only [vf, hk, if_true]⟩)
    (fun k hk => by simp only [vf, Nat.not_lt.2 hk, if_false]) hX k hk

end Verif
