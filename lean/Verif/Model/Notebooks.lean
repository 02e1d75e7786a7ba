import Verif.Model.ScriptsPosterior
import Mathlib.Analysis.SpecialFunctions.Log.ENNRealLog

/-!
# Model of the notebooks in `scripts/`

`special_plots.ipynb`, `sampling_from_posterior_alg3/main.ipynb` and `Untitled.ipynb` (with its copy in `EKF0_Mat_vs_IBM_FHN`, which
evaluates the same expressions for a third array). They read what the scripts saved. Line numbers are those of the `.ipynb` files. The plots
and the files written are the returned values; `EKF1_FHN/main.ipynb` only plots arrays as they are.
-/

namespace Verif.Notebooks

open Matrix

/-! ## `special_plots.ipynb` -/

/-- `jnp.insert(jnp.cumsum(incs, axis=1), 0, jnp.zeros((1,)), axis=1)` for one key, `special_plots.ipynb:108-109,111-112`. -/
def brownianPath {m : ℕ} (incs : List (Vec m)) : List (Vec m) := insertArr (Jnp.cumsum incs) 0

/-- `parabola(t)`, `special_plots.ipynb:35-47`, with the arrays of the first key as arguments. `int(t/delta)` truncates; here `t ≥ 0`.
`np.vectorize` needs scalar values, so the notebook is limited to `m = 1`. -/
noncomputable def parabola {m : ℕ} (brownian incs parabolaCoeffs : List (Vec m)) (delta t : ℝ) : Vec m × Vec m :=
  let k := ⌊t / delta⌋₊
  let u := t / delta - k
  let a := Jnp.clampGet incs k
  let b := Jnp.clampGet parabolaCoeffs k
  let c := Jnp.clampGet brownian k
  let para := c + u • a + (Real.sqrt 6 * u * (1 - u)) • b
  let dpara := a + (Real.sqrt 6 * (1 / delta - 2 * u / delta)) • b
  (para, dpara)

/-- The curves of `special_plots.ipynb:107-151` for what `pathwise_sampling_from_posterior.py` saved: the path on the fine grid, the path on the coarse
grid, and the parabolas with their plotted slopes. -/
structure PathPlot (m : ℕ) where
  brownianFine : List (Vec m)
  brownian : List (Vec m)
  paraTraj : List (Vec m)
  dparaTraj : List (Vec m)

/-- `special_plots.ipynb:107-151`. `fine_incs`, `incs` and `parabola_coeffs` are the arrays `inc`, `coeffs[0]` and `coeffs[1]` of the
script (`pathwise_sampling_from_posterior.py:116-117,139-147`); `[0]` is the first key. -/
noncomputable def pathPlot {d m : ℕ} (refs : Scripts.References d m) (delta T : ℝ) (N fineN : ℕ) : PathPlot m :=
  let fineIncs := refs.inc.headD []
  let incs := refs.coeffs0.headD []
  let parabolaCoeffs := refs.coeffs1.headD []
  let brownian := brownianPath incs
  let fineTs := Jnp.linspace 0 T (N * fineN + 1)
  let traj := fineTs.map (parabola brownian incs parabolaCoeffs delta)
  { brownianFine := brownianPath fineIncs, brownian := brownian, paraTraj := traj.map (·.1), dparaTraj := traj.map (·.2) }

/-! ## `sampling_from_posterior_alg3/main.ipynb` -/

/-- `z_scores(x, mean, std)`, `main.ipynb:50-51`, at one time. `none` stands for the `nan` or `inf` of a division by zero. -/
noncomputable def zScore (x mean std : ℝ) : Option ℝ := if std = 0 then none else some ((x - mean) / std)

/-- `xs[::n]` along the leading axis, for a step `n ≥ 1`. -/
def everyNth {V : Type} [Zero V] (n : ℕ) (xs : List V) : List V :=
  (List.range ((xs.length + n - 1) / n)).map fun i => xs.getD (i * n) 0

/-- What the first plotting cell of `main.ipynb` shows and saves. -/
structure BandPlot where
  t : List ℝ
  xMean : List ℝ
  xStd : List ℝ
  fine : List ℝ
  zScores : List (Option ℝ)

/-- `main.ipynb:73-85` for what `uncertainty_calibration.py` saved, coordinate `idx`. `mean` and `var` are interlaced, so that position
`idx * 2` is the value of coordinate `idx`. The step of the slice (line 79) is `N`. `plt.plot(t, fine)` (line 81) raises a `ValueError` if the lengths differ. -/
noncomputable def bandPlot {d m : ℕ} (o : Scripts.CalibrationOut d m) (T : ℝ) (N : ℕ) (idx : Fin d) : Except PyErr BandPlot := do
  let t := Jnp.linspace 0 T (N + 1)
  let xMean := insertArr (o.mean.map fun mu => mu (Jnp.flat idx 0)) 0
  let xStd := insertArr (o.var.map fun V => Real.sqrt (V (Jnp.flat idx 0) (Jnp.flat idx 0))) 0
  if ¬ (t.length = xMean.length ∧ t.length = xStd.length) then .error .valueError
  let fine := (everyNth N o.refs.sols2).map fun x => x idx
  if t.length ≠ fine.length then .error .valueError
  let z := (fine.zip (xMean.zip xStd)).map fun p => zScore p.1 p.2.1 p.2.2
  return { t := t, xMean := xMean, xStd := xStd, fine := fine, zScores := z }

/-! ## `Untitled.ipynb` -/

/-- A saved array of sample paths, of shape `(samples, N + 1, d)`. -/
abbrev Paths (S N d : ℕ) := Fin S → Fin (N + 1) → Vec d

/-- `jnp.linalg.norm(x, axis=-1)`. -/
noncomputable def norm2 {d : ℕ} (x : Vec d) : ℝ := Real.sqrt (∑ i, x i ^ 2)

/-- `jnp.mean(jnp.linalg.norm(paths_1 - paths_2, axis=-1), axis=0)`, `Untitled.ipynb:63,102`: one value per time. -/
noncomputable def meanDist {S N d : ℕ} (p1 p2 : Paths S N d) (k : Fin (N + 1)) : ℝ := (∑ s, norm2 (p1 s k - p2 s k)) / S

/-- The strong order proxy, `Untitled.ipynb:63`: `jnp.log(…) / jnp.log(delta)`. The logarithm of `0` is `-inf`. -/
noncomputable def orderProxy {S N d : ℕ} (delta : ℝ) (p1 p2 : Paths S N d) (k : Fin (N + 1)) : EReal :=
  ENNReal.log (ENNReal.ofReal (meanDist p1 p2 k)) / (Real.log delta : EReal)

/-- `STRONG_GLOBAL_ERROR_P1P2`, `Untitled.ipynb:102`. -/
noncomputable def strongGlobal {S N d : ℕ} (p1 p2 : Paths S N d) : ℝ := meanDist p2 p1 (Fin.last N)

/-- `STRONG_LOCAL_ERROR_P1P2`, `Untitled.ipynb:103`, for `N ≥ 1` (index 1 is clamped otherwise). -/
noncomputable def strongLocal {S N d : ℕ} (p1 p2 : Paths S N d) : ℝ := meanDist p2 p1 ⟨min 1 N, by omega⟩

/-- `WEAK_POLYNOMIAL(x)` of a column, `Untitled.ipynb:90-92`. -/
def weakPolynomial {d : ℕ} (x : Vec d) : Mat d d := replicateCol (Fin 1) x * (replicateCol (Fin 1) x)ᵀ

/-- `jnp.mean(MOMENT, axis=0)`, `Untitled.ipynb:105-108`. -/
noncomputable def meanMoment {S N d : ℕ} (p : Paths S N d) (k : Fin (N + 1)) : Mat d d := (1 / (S : ℝ)) • ∑ s, weakPolynomial (p s k)

/-- `jnp.linalg.norm(jnp.linalg.norm(mean_2 - mean_1, axis=-1), axis=-1)` at one time, `Untitled.ipynb:108`. -/
noncomputable def weakError {S N d : ℕ} (p1 p2 : Paths S N d) (k : Fin (N + 1)) : ℝ :=
  norm2 fun i => norm2 ((meanMoment p2 k - meanMoment p1 k) i)

/-- `WEAK_GLOBAL_ERROR_P1P2`, `Untitled.ipynb:108`: the maximum over the times. -/
noncomputable def weakGlobal {S N d : ℕ} (p1 p2 : Paths S N d) : ℝ :=
  Finset.univ.sup' (Finset.univ_nonempty) (weakError p1 p2)

/-- The average of an array. -/
noncomputable def avg (x : List ℝ) : ℝ := x.sum / x.length

/-- `coef_` of scikit-learn's `LinearRegression().fit(x, y)` with one regressor and an intercept: the ratio of the centred sums. (For a constant
regressor the library returns the solution of least norm, which is `0`, as here.) -/
noncomputable def slope (x y : List ℝ) : ℝ :=
  ((x.zip y).map fun p => (p.1 - avg x) * (p.2 - avg y)).sum / (x.map fun a => (a - avg x) ^ 2).sum

/-- `intercept_` of the same fit. -/
noncomputable def intercept (x y : List ℝ) : ℝ := avg y - slope x y * avg x

open Classical in
/-- `LinearRegression().fit(X, Y)` for `X = c * jnp.log(deltas)` and `Y = c * jnp.log(errors)`: `coef_` and `intercept_`. The library raises a
`ValueError` for entries that are not finite, which the logarithms of values `≤ 0` are, for arrays of different lengths, and for empty arrays. -/
noncomputable def fit (c : ℝ) (deltas errors : List ℝ) : Except PyErr (ℝ × ℝ) :=
  if (∃ v ∈ deltas ++ errors, v ≤ 0) ∨ deltas.length ≠ errors.length ∨ deltas.length = 0 then .error .valueError
  else
    let X := deltas.map fun d => c * Real.log d
    let Y := errors.map fun e => c * Real.log e
    .ok (slope X Y, intercept X Y)

/-- `LinearRegression().fit(-jnp.log(deltas).reshape(-1, 1), -jnp.log(ERRORS)).coef_`, `Untitled.ipynb:121-126`. -/
noncomputable def orderFit (deltas errors : List ℝ) : Except PyErr ℝ := do
  let r ← fit (-1) deltas errors
  return r.1

/-- `deltas`, `Untitled.ipynb:43`. -/
noncomputable def deltas : List ℝ := [1 / 16, 1 / 32, 1 / 64]

/-- What `summary` returns: `coef_`, `intercept_`, `var_` and the coefficient of determination. -/
structure Summary where
  coef : ℝ
  intercept : ℝ
  var : ℝ
  score : ℝ

open Classical in
/-- `r2_score`: `1 - rss / tss`, and for constant values `1` if the fit is exact and `0` otherwise. -/
noncomputable def r2 (rss tss : ℝ) : ℝ := if tss ≠ 0 then 1 - rss / tss else if rss = 0 then 1 else 0

/-- `summary(df)`, `Untitled.ipynb:299-305`. `reshape(6, 1)` raises a `TypeError` unless there are six values. -/
noncomputable def summary (deltas errors : List ℝ) : Except PyErr Summary := do
  if deltas.length ≠ 6 then .error .typeError
  if errors.length ≠ 6 then .error .typeError
  let r ← fit 1 deltas errors
  let X := deltas.map Real.log
  let Y := errors.map Real.log
  let predict (x : ℝ) : ℝ := r.2 + r.1 * x
  let rss := ((X.zip Y).map fun p => (predict p.1 - p.2) ^ 2).sum
  let tss := (Y.map fun y => (y - avg Y) ^ 2).sum
  return { coef := r.1, intercept := r.2, var := Real.sqrt (1 / 4 * rss), score := r2 rss tss }

/-- `jnp.array([ts, jnp.mean(paths[:, :, i], axis=0)]).T` with `ts = jnp.insert(jnp.linspace(1/1024, 1, 1024), 0, 0)`,
`Untitled.ipynb:230-234`. `jnp.array` raises a `ValueError` on arrays of different shapes. -/
noncomputable def meanTable {S N d : ℕ} (p : Paths S N d) (i : Fin d) : Except PyErr (List (ℝ × ℝ)) :=
  let ts := insertArr (Jnp.linspace (1 / 1024) 1 1024) 0
  let mean := List.ofFn fun k => (∑ s, p s k i) / S
  if ts.length ≠ mean.length then .error .valueError else .ok (ts.zip mean)

end Verif.Notebooks
