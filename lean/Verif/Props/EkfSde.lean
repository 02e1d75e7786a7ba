import Verif.Props.Ekf
import Verif.Props.SdeSolver
import Verif.Props.Foster

/-!
# Properties C46, C48: the filtering ODE solvers inside `sde_solver`
-/

namespace Verif

open Matrix Spec Jnp

/-! ## Pure noise -/

theorem jacT_evalParabola {m : ℕ} (dt : ℝ) (a b : Vec m) (t : ℝ) :
    jacT (fun s => Foster.evalParabola s dt a b) t = fun j => (a j + Real.sqrt 6 * b j * (1 - 2 * t / dt)) / dt := by
  funext j
  exact (Foster.hasDerivAt_evalParabola1 t dt (a j) (b j)).deriv

/-- The trapezoidal scheme integrates the derivative of a parabola exactly. -/
theorem trapScheme_parabola {d m : ℕ} (S : Mat d m) (dt h : ℝ) (a b : Vec m) (x : Vec d) (n : ℕ) :
    trapScheme (fun _ t => S *ᵥ jacT (fun s => Foster.evalParabola s dt a b) t) h x n =
      (x + S *ᵥ Foster.evalParabola (n * h) dt a b, S *ᵥ jacT (fun s => Foster.evalParabola s dt a b) (n * h)) := by
  induction n with
  | zero =>
    have h0 : Foster.evalParabola (0 * h) dt a b = 0 := by funext j; simp [Foster.evalParabola, Foster.evalParabola1]
    simp only [trapScheme, Nat.cast_zero, zero_mul] at h0 ⊢
    rw [h0, mulVec_zero, add_zero]
  | succ n ih =>
    simp only [trapScheme, ih]
    refine Prod.ext ?_ (by push_cast; rfl)
    simp only
    rw [← mulVec_add, ← mulVec_smul, add_assoc, ← mulVec_add]
    congr 2
    funext j
    simp only [jacT_evalParabola, Pi.add_apply, Pi.smul_apply, smul_eq_mul, Foster.evalParabola, Foster.evalParabola1]
    push_cast
    rcases eq_or_ne dt 0 with rfl | hdt
    · simp
    · field_simp
      ring

/-- C46: for zero drift and constant diffusion, `sde_solver` with EKF0 (once integrated Brownian motion prior, `M` inner
steps, no key) returns at grid point `k` the initial value plus the diffusion applied to the sum of the first `k`
Brownian increments. `bm` is any of the parabola approximations: `a` is the increment among its coefficients. -/
theorem C46_pure_noise {la : LinAlg} (hla : la.Correct) (rng : Rng) (key : Key) {C : Type} {d m : ℕ} (hd : 0 < d)
    (S : Mat d m) (bm : BmApprox C m) (a b : C → Vec m) (hbm : ∀ t dt c, bm.eval t dt c = Foster.evalParabola t dt (a c) (b c))
    (x0 : Vec d) {δ : ℝ} (hδ : 0 < δ) (N M : ℕ) (hM : 0 < M) {σ : ℝ} (hσ : σ ≠ 0) (sqrt : Bool) (odeInt : OdeInt (Vec d) d)
    (hode : ∀ k x vf, Ekf.ekf0 la rng none x vf (δ / M) M sqrt (some ⟨_, IOUP.transition 0 σ 1 (δ / M) d⟩) none =
      .ok (odeInt k x vf δ)) :
    let out := sdeSolver rng key (fun _ _ => 0) (fun _ _ => S) x0 bm δ N odeInt
    ∀ k ≤ N, out.2.1[k]? = some (x0 + S *ᵥ ((out.2.2.take k).map a).sum) := by
  intro out k hk
  have hM' : (M : ℝ) ≠ 0 := by exact_mod_cast hM.ne'
  have hh : 0 < δ / M := by positivity
  induction k with
  | zero =>
    have := (C02_trajectory_shape rng key (fun _ _ => 0) (fun _ _ => S) x0 bm δ N odeInt).2.1
    rw [List.head?_eq_getElem?] at this
    simpa using this
  | succ k ih =>
    obtain ⟨x, c, h1, h2, -, h4⟩ := sdeSolver_interval rng key (fun _ _ => 0) (fun _ _ => S) x0 bm δ N odeInt k (by omega)
    have h1' := ih (by omega)
    have hx : x = x0 + S *ᵥ ((out.2.2.take k).map a).sum := Option.some.inj (h1.symm.trans h1')
    have hf : intervalField (fun _ _ => (0 : Vec d)) (fun _ _ => S) bm δ c ((k : ℝ) * δ) =
        fun _ t => S *ᵥ jacT (fun s => Foster.evalParabola s δ (a c) (b c)) t := by
      funext z t
      simp only [intervalField, zero_add, hbm]
    have hval : odeInt ((key.child N k).child 2 1) x
        (intervalField (fun _ _ => (0 : Vec d)) (fun _ _ => S) bm δ c ((k : ℝ) * δ)) δ = x + S *ᵥ a c := by
      have e1 := hode ((key.child N k).child 2 1) x
        (intervalField (fun _ _ => (0 : Vec d)) (fun _ _ => S) bm δ c ((k : ℝ) * δ))
      rw [C43_trapezoidal hla rng hd _ hσ hh] at e1
      rw [← Except.ok.inj e1, hf, trapScheme_parabola]
      simp only
      congr 2
      funext j
      have : (M : ℝ) * (δ / M) / δ = 1 := by field_simp
      simp [Foster.evalParabola, Foster.evalParabola1, this]
    rw [h4, hval, hx, List.take_succ, h2]
    simp only [Option.toList_some, List.map_append, List.map_cons, List.map_nil, List.sum_append, List.sum_cons,
      List.sum_nil, add_zero, mulVec_add, add_assoc]

/-- The three Brownian approximations of the package satisfy the hypothesis of C46, and an integrator as in C46 exists. -/
example {la : LinAlg} (hla : la.Correct) (rng : Rng) (d m n M : ℕ) (hd : 0 < d) (hM : 0 < M) (δ : ℝ) (hδ : 0 < δ) :
    (∀ t dt c, (Foster.getApprox m).eval t dt c = Foster.evalParabola t dt c.1 c.2) ∧
    (∀ t dt c, (Foster.getApproxAndBrownian m n).eval t dt c = Foster.evalParabola t dt c.1 c.2.1) ∧
    (∀ t dt c, (Foster.getApproxFine m n).eval t dt c = Foster.evalParabola t dt c.1 c.2.1) ∧
    ∃ odeInt : OdeInt (Vec d) d, ∀ k x vf,
      Ekf.ekf0 la rng none x vf (δ / M) M true (some ⟨_, IOUP.transition 0 1 1 (δ / M) d⟩) none = .ok (odeInt k x vf δ) := by
  refine ⟨fun _ _ _ => rfl, fun _ _ _ => rfl, fun _ _ _ => rfl, fun _ x vf T => (trapScheme vf (T / M) x M).1,
    fun k x vf => ?_⟩
  have : (0 : ℝ) < M := by exact_mod_cast hM
  exact C43_trapezoidal hla rng hd vf one_ne_zero (by positivity) x M true

/-! ## Algorithm 3 -/

/-- C48: the mean and covariance returned by the Algorithm 3 solvers do not depend on the key, the generator or the sample
in the initial state. -/
theorem C48_call (la : LinAlg) (rng rng' : Rng) {dim : ℕ} (EKF0 : Bool) (key key' : Option Key) (s s' m : Vec dim)
    (P : Mat dim dim) (vf : Field dim) (h : ℝ) (N : ℕ) (sqrt : Bool) (prior : Option DynPrior) (noise : Option DynMat) :
    (Ekf.ekf2 la rng EKF0 key (s, m, P) vf h N sqrt prior noise).map (·.2) =
      (Ekf.ekf2 la rng' EKF0 key' (s', m, P) vf h N sqrt prior noise).map (·.2) := by
  rw [Ekf.ekf2_eq, Ekf.ekf2_eq]
  cases Ekf.solver la (Ekf.init32 la EKF0 m P vf sqrt) vf h N sqrt EKF0 prior noise <;> rfl

/-- An integrator of `sde_solver` that calls an Algorithm 3 solver with `M` inner steps, a prior made for the step size, and
a key computed from the one it gets (or none). -/
def IsAlg3 (la : LinAlg) (rng : Rng) {dim : ℕ} (EKF0 : Bool) (useKey : Key → Option Key) (δ : ℝ) (M : ℕ) (sqrt : Bool)
    (prior : Option DynPrior) (noise : Option DynMat) (odeInt : OdeInt (Ekf.State3 dim) dim) : Prop :=
  ∀ k x vf, Ekf.ekf2 la rng EKF0 (useKey k) x vf (δ / M) M sqrt prior noise = .ok (odeInt k x vf δ)

/-- C48, along a whole run: two runs of `sde_solver` with Algorithm 3 from the same initial mean and covariance, which consume
the same Brownian coefficients, have the same means and covariances at all grid points, whatever the keys, the generators,
the samples and the initial samples. -/
theorem C48_run (la : LinAlg) {C : Type} {d m : ℕ} (rng rng' rs rs' : Rng) (key key' : Key) (EKF0 : Bool) (drift : Field d)
    (sigma : Diffusion d m) (bm : BmApprox C m) (x0 x0' : Ekf.State3 d) (hx : x0.2 = x0'.2) (δ : ℝ) (N M : ℕ) (sqrt : Bool)
    (prior : Option DynPrior) (noise : Option DynMat) (useKey useKey' : Key → Option Key)
    (odeInt odeInt' : OdeInt (Ekf.State3 d) d) (hode : IsAlg3 la rs EKF0 useKey δ M sqrt prior noise odeInt)
    (hode' : IsAlg3 la rs' EKF0 useKey' δ M sqrt prior noise odeInt') :
    let out := sdeSolver rng key drift sigma x0 bm δ N odeInt
    let out' := sdeSolver rng' key' drift sigma x0' bm δ N odeInt'
    out.2.2 = out'.2.2 → out.2.1.map (·.2) = out'.2.1.map (·.2) := by
  intro out out' hc
  have hlen := (C02_trajectory_shape rng key drift sigma x0 bm δ N odeInt)
  have hlen' := (C02_trajectory_shape rng' key' drift sigma x0' bm δ N odeInt')
  have main : ∀ k ≤ N, (out.2.1[k]?).map (·.2) = (out'.2.1[k]?).map (·.2) := by
    intro k hk
    induction k with
    | zero =>
      have h1 := hlen.2.1
      have h2 := hlen'.2.1
      rw [List.head?_eq_getElem?] at h1 h2
      rw [h1, h2]
      simp [hx]
    | succ k ih =>
      obtain ⟨x, c, h1, h2, -, h4⟩ := sdeSolver_interval rng key drift sigma x0 bm δ N odeInt k (by omega)
      obtain ⟨x', c', h1', h2', -, h4'⟩ := sdeSolver_interval rng' key' drift sigma x0' bm δ N odeInt' k (by omega)
      have hcc : c = c' := by
        have := h2.symm.trans ((congrArg (·[k]?) hc).trans h2')
        exact Option.some.inj this
      subst hcc
      have hxx : x.2 = x'.2 := by
        have := ih (by omega)
        rw [h1, h1'] at this
        exact Option.some.inj this
      rw [h4, h4']
      simp only [Option.map_some]
      congr 1
      have e1 := hode ((key.child N k).child 2 1) x (intervalField drift sigma bm δ c ((k : ℝ) * δ))
      have e2 := hode' ((key'.child N k).child 2 1) x' (intervalField drift sigma bm δ c ((k : ℝ) * δ))
      have e3 := C48_call la rs rs' EKF0 (useKey ((key.child N k).child 2 1)) (useKey' ((key'.child N k).child 2 1)) x.1 x'.1
        x.2.1 x.2.2 (intervalField drift sigma bm δ c ((k : ℝ) * δ)) (δ / M) M sqrt prior noise
      rw [show (x.1, x.2.1, x.2.2) = x from rfl, show (x'.1, x.2.1, x.2.2) = x' by rw [hxx], e1, e2] at e3
      exact Except.ok.inj e3
  refine List.ext_getElem? fun k => ?_
  rw [List.getElem?_map, List.getElem?_map]
  by_cases hk : k ≤ N
  · exact main k hk
  · rw [List.getElem?_eq_none (by rw [hlen.1]; omega), List.getElem?_eq_none (by rw [hlen'.1]; omega)]

/-- Integrators as in C48 exist, with and without keys, here EKF1 in square-root mode with the default prior. -/
example (la : LinAlg) (rng : Rng) (d M : ℕ) (δ : ℝ) : ∃ odeInt odeInt' : OdeInt (Ekf.State3 d) d,
    IsAlg3 la rng false some δ M true none none odeInt ∧ IsAlg3 la rng false (fun _ => none) δ M true none none odeInt' := by
  have : ∀ (k : Option Key) x vf T, ∃ y,
      Ekf.ekf2 (dim := d) la rng false k x vf (T / M) M true none none = .ok y := by
    intro k x vf T
    rw [Ekf.ekf2_eq, Ekf.solver_none, Ekf.solver_some]
    exact ⟨_, rfl⟩
  choose f hf using this
  exact ⟨fun k x vf T => f (some k) x vf T, fun _ x vf T => f none x vf T, fun k x vf => hf _ _ _ _, fun k x vf => hf _ _ _ _⟩

end Verif
