import Verif.Jnp
import Verif.Rng

/-!
# Model of `bayesian_sde_solver/foster_polynomial.py`
-/

namespace Verif

open Matrix

/-- The pair `(get_coeffs, eval_fn)` returned by the functions of `foster_polynomial.py` and consumed by
`sde_solver.py:26`. `C` is the type of the coefficient tuple. -/
structure BmApprox (C : Type) (m : ℕ) where
  coeffs : Rng → Key → ℝ → C
  eval : ℝ → ℝ → C → Vec m

namespace Foster

/-- `get_approx.parabolas(key, dt)`, `foster_polynomial.py:12-19`. -/
noncomputable def parabolas (dim : ℕ) (rng : Rng) (key : Key) (dt : ℝ) : Vec dim × Vec dim :=
  let e := rng.normalMat key 2 dim
  (fun j => e 0 j * Real.sqrt dt, fun j => e 1 j * Real.sqrt (0.5 * dt))

/-- `get_approx.eval_parabola(t, dt, a, b)`, `foster_polynomial.py:21-25`, on one coordinate. -/
noncomputable def evalParabola1 (t dt a b : ℝ) : ℝ :=
  let u := t / dt
  a * u + b * Real.sqrt 6 * u * (1 - u)

/-- `eval_parabola` vectorised over coordinates (`jnp.vectorize`, line 21). -/
noncomputable def evalParabola {dim : ℕ} (t dt : ℝ) (a b : Vec dim) : Vec dim :=
  fun j => evalParabola1 t dt (a j) (b j)

/-- `get_approx(dim)`, `foster_polynomial.py:7-27`. -/
noncomputable def getApprox (dim : ℕ) : BmApprox (Vec dim × Vec dim) dim where
  coeffs := parabolas dim
  eval t dt c := evalParabola t dt c.1 c.2

/-- `get_approx_and_brownian.parabolas(key, dt)`, `foster_polynomial.py:35-51`. `bm.at[-1].get()` is the
last row; `bm.at[i].get()` is clamped for `i = N`. The code needs `N ≥ 1`. -/
noncomputable def parabolasAndBrownian (dim N : ℕ) (rng : Rng) (key : Key) (dt : ℝ) :
    Vec dim × Vec dim × List (Vec dim) :=
  let incs : List (Vec dim) := List.ofFn (rng.normalMat key N dim)
  let bm := Jnp.cumsum incs
  let bm := bm.map (Real.sqrt (dt / N) • ·)
  let is := (List.range N).map (· + 1)
  let eps0 := Jnp.clampGet bm (bm.length - 1)
  let integrand (i : ℕ) : Vec dim := Real.sqrt 6 • Jnp.clampGet bm i
  let eps1 := Jnp.trapzDx (1 / N) (is.map integrand) - (0.5 * Real.sqrt 6) • eps0
  (eps0, eps1, incs)

/-- `get_approx_and_brownian(dim, N)`, `foster_polynomial.py:30-57`. -/
noncomputable def getApproxAndBrownian (dim N : ℕ) :
    BmApprox (Vec dim × Vec dim × List (Vec dim)) dim where
  coeffs := parabolasAndBrownian dim N
  eval t dt c := evalParabola t dt c.1 c.2.1

/-- `update_eps(carry, inps)`, `foster_polynomial.py:76-81`. -/
noncomputable def updateEps {dim : ℕ} (fineDt : ℝ) (carry inps : Vec dim × Vec dim) :
    (Vec dim × Vec dim) × Unit :=
  let (eps0, eps1) := carry
  let (f0, f1) := inps
  ((eps0 + f0, eps1 + fineDt • (eps0 + (0.5 : ℝ) • f0 + f1)), ())

/-- `get_approx_fine.parabolas(key, dt)`, `foster_polynomial.py:67-87`. The returned second list is already
rescaled by `1/sqrt(6)` (line 72). -/
noncomputable def parabolasFine (dim N : ℕ) (rng : Rng) (key : Key) (dt : ℝ) :
    Vec dim × Vec dim × List (Vec dim) × List (Vec dim) :=
  let fineDt := dt / N
  let keys := key.split N
  let fine := keys.map fun k => parabolas dim rng k fineDt
  let f0s := fine.map (·.1)
  let f1s := fine.map fun c => (1 / Real.sqrt 6) • c.2
  let res := Jnp.scan (updateEps fineDt) (0, 0) (f0s.zip f1s)
  let eps0 := res.1.1
  let eps1 := res.1.2
  let eps1 := (1 / dt) • eps1 - (0.5 : ℝ) • eps0
  let eps1 := Real.sqrt 6 • eps1
  (eps0, eps1, f0s, f1s)

/-- `get_approx_fine(dim, N)`, `foster_polynomial.py:60-92`. -/
noncomputable def getApproxFine (dim N : ℕ) :
    BmApprox (Vec dim × Vec dim × List (Vec dim) × List (Vec dim)) dim where
  coeffs := parabolasFine dim N
  eval t dt c := evalParabola t dt c.1 c.2.1

end Foster

end Verif
