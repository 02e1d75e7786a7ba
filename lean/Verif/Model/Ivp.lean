import Verif.Model.Prior
import Verif.Rng
import Verif.Model.ItoStratonovich

/-!
# Model of `bayesian_sde_solver/utils/ivp.py`

`square_matrix_fhn` and `square_matrix_ibm` only pad the diffusion with a zero column.
-/

namespace Verif.Ivp

open Matrix

namespace Fhn

/-- Parameters, `ivp.py:25-29`. -/
noncomputable def gamma : ℝ := 1.5
/-- `ivp.py:26`. -/
noncomputable def sig : ℝ := 0.3
/-- `ivp.py:27`. -/
noncomputable def eps : ℝ := 0.1
/-- `ivp.py:28`. -/
noncomputable def alpha : ℝ := 0.8
/-- `ivp.py:29`. -/
def s : ℝ := 0
/-- `ivp.py:30`. -/
def x0 : Vec 2 := 0

/-- `drift(x, t)`, `ivp.py:32-34`. -/
noncomputable def drift : Field 2 := fun x _ =>
  !![1 / eps, -1 / eps; gamma, -1] *ᵥ x + ![s / eps - x 0 ^ 3 / eps, alpha]

/-- `sigma(x, t)`, `ivp.py:36-37`. -/
noncomputable def sigma : Diffusion 2 1 := fun _ _ => !![0; sig]

/-- `sigma(x, t)` of `square_matrix_fhn`, `ivp.py:65-66`. -/
noncomputable def sigmaSquare : Diffusion 2 2 := fun x t => !![0, 0; sigma x t 1 0, 0]

/-- `theoretical_mean_up_to_order_2(t)`, `ivp.py:39-45`. -/
noncomputable def mean2 (t : ℝ) : Vec 2 :=
  x0 + t • ![1 / eps * (x0 0 - x0 0 ^ 3 - x0 1 + s) + t / 2 * 1 / eps * (
      1 / eps * (1 - 3 * x0 0 ^ 2) * (x0 0 - x0 0 ^ 3 - x0 1 + s) - (gamma * x0 0 - x0 1 - alpha)),
    gamma * x0 0 - x0 1 + alpha + t / 2 * (
      gamma / eps * (x0 0 - x0 0 ^ 3 - x0 1 + s) - (gamma * x0 0 - x0 1 + alpha))]

/-- `theoretical_variance_up_to_order3(t)`, `ivp.py:47-52`. -/
noncomputable def var3 (t : ℝ) : Mat 2 2 :=
  sig ^ 2 • !![1 / 3 * t ^ 3 * 1 / eps ^ 2, -1 / 2 * t ^ 2 * 1 / eps;
    -1 / 2 * t ^ 2 * 1 / eps, t - t ^ 2]

end Fhn

namespace Ibm

/-- `x0`, `ivp.py:76`. -/
def x0 : Vec 2 := 1
/-- `drift(x, t)`, `ivp.py:78-79`. -/
noncomputable def drift : Field 2 := fun x _ => !![0, 1; 0, 0] *ᵥ x
/-- `sigma(x, t)`, `ivp.py:75,81-82`. -/
def sigma : Diffusion 2 1 := fun _ _ => !![0; 1]
/-- `sigma(x, t)` of `square_matrix_ibm`, `ivp.py:115-116`. -/
def sigmaSquare : Diffusion 2 2 := fun x t => !![0, 0; sigma x t 1 0, 0]
/-- `var(t)`, `ivp.py:84-86`. -/
noncomputable def var (t : ℝ) : Mat 2 2 :=
  (1 : ℝ) ^ 2 • !![t ^ 3 / 3, t ^ 2 / 2; t ^ 2 / 2, t]

end Ibm

namespace DoubleIbm

/-- `x0`, `ivp.py:96`. -/
def x0 : Vec 3 := ![0, 0, 1]
/-- `drift(x, t)`, `ivp.py:98-99`. -/
noncomputable def drift : Field 3 := fun x _ => !![0, 1, 0; 0, 0, 1; 0, 0, 0] *ᵥ x
/-- `sigma(x, t)`, `ivp.py:95,101-102`. -/
def sigma : Diffusion 3 1 := fun _ _ => !![0; 0; 1]
/-- `var(t)`, `ivp.py:104-107`. -/
noncomputable def var (t : ℝ) : Mat 3 3 :=
  (1 : ℝ) ^ 2 • !![t ^ 5 / 20, t ^ 4 / 8, t ^ 3 / 6; t ^ 4 / 8, t ^ 3 / 3, t ^ 2 / 2;
    t ^ 3 / 6, t ^ 2 / 2, t]

end DoubleIbm

namespace RandomLinear

/-- `random_linear_sde(key, dim, std1, std2)`, `ivp.py:121-144`: initial state, drift and diffusion matrices
`drift_matrix` and `sigma_matrix` (lines 134, 136), drift and diffusion. -/
def driftMatrix (rng : Rng) (key : Key) (dim : ℕ) : Mat dim dim := rng.normalMat key dim dim
/-- `sigma_matrix`, `ivp.py:136`. -/
def sigmaMatrix (rng : Rng) (key : Key) (dim : ℕ) : Mat dim dim := rng.normalMat key dim dim
/-- `x0`, `ivp.py:132`. -/
def x0 (dim : ℕ) : Vec dim := 1
/-- `drift(x, t)`, `ivp.py:138-139`. -/
def drift (rng : Rng) (key : Key) (dim : ℕ) (std1 : Mat dim dim := 1) : Field dim :=
  fun x _ => (std1 * driftMatrix rng key dim) *ᵥ x
/-- `sigma(x, t)`, `ivp.py:141-142`. -/
def sigma (rng : Rng) (key : Key) (dim : ℕ) (std2 : Mat dim dim := 1) : Diffusion dim dim :=
  fun _ _ => std2 * sigmaMatrix rng key dim

end RandomLinear

namespace SynReduced

/-- Clamped static read `x[i]` of a length-2 array (DESIGN.md, decision 6). -/
def get2 (x : Vec 2) (i : ℕ) : ℝ := x ⟨min i 1, by omega⟩

/-- `ivp.py:153`. -/
noncomputable def tauE : ℝ := 0.5
/-- `ivp.py:154`. -/
def tauI : ℝ := 1
/-- `ivp.py:155`. -/
noncomputable def gbarE : ℝ := 17.8
/-- `ivp.py:156`. -/
noncomputable def gbarI : ℝ := 9.4
/-- `ivp.py:157-158`. -/
noncomputable def sigIE : ℝ := 0.1
/-- `ivp.py:159-162`. -/
def x0 : Vec 2 := ![10, 10]

/-- `drift(x)`, `ivp.py:164-167`. -/
noncomputable def drift (x : Vec 2) : Vec 2 :=
  ![-1 / tauE * (get2 x 1 - gbarE), -1 / tauI * (get2 x 2 - gbarI)]

/-- `sigma(x)`, `ivp.py:169-172`. -/
noncomputable def sigma (x : Vec 2) : Mat 2 2 :=
  !![sigIE * (get2 x 1) ^ (0.5 : ℝ), 0; 0, sigIE * (get2 x 2) ^ (0.5 : ℝ)]

/-- `theoretical_mean_up_to_order_2(t)`, `ivp.py:174-175`. -/
noncomputable def mean2 (t : ℝ) : Vec 2 :=
  x0 + t • drift x0 + (t ^ 2 / 2) • ![-1 / tauE * get2 (drift x0) 1, -1 / tauI * get2 (drift x0) 2]

end SynReduced

namespace Harmonic

/-- `M`, `ivp.py:192` and `ivp.py:234`. -/
def M (D gamma : ℝ) : Mat 2 2 := !![0, 1; -D, -gamma]
/-- `drift`, `ivp.py:194` and `ivp.py:237-238`. -/
noncomputable def drift (D gamma : ℝ) : Field 2 := fun x _ => M D gamma *ᵥ x
/-- `C` of `harmonic_oscillator`, `ivp.py:235`. -/
def C (sig : ℝ) : Mat 2 1 := !![0; sig]
/-- `C` of `harmonic_oscillator_square`, `ivp.py:191`. -/
def Csquare (sig : ℝ) : Mat 2 2 := !![0, 0; sig, 0]
/-- `x0`, `ivp.py:197,243`. -/
def x0 : Vec 2 := 1
/-- `theoretical_mean(t)`, `ivp.py:206-208` and `ivp.py:245-247`. -/
noncomputable def mean (D gamma t : ℝ) : Vec 2 := expm (t • M D gamma) *ᵥ x0
/-- `theoretical_variance(t)`, `ivp.py:210-218` and `ivp.py:249-257`. -/
noncomputable def variance {l : ℕ} (D gamma : ℝ) (C : Mat 2 l) (t : ℝ) : Mat 2 2 :=
  let ls := Jnp.linspace 0 t 1000
  let f (s : ℝ) : Mat 2 2 := let B := expm (s • M D gamma) * C; B * Bᵀ
  Jnp.trapezoid (ls.map f) ls
/-- `theoretical_variance_up_to_order3(t)`, `ivp.py:199-204`. -/
noncomputable def var3 (D gamma sig t : ℝ) : Mat 2 2 :=
  sig ^ 2 • !![1 / 3 * t ^ 3, 1 / 2 * t ^ 2 - 1 / 2 * t ^ 3 * gamma;
    1 / 2 * t ^ 2 - 1 / 2 * t ^ 3 * gamma, t - gamma * t ^ 2 + 1 / 3 * t ^ 3 * (2 * gamma ^ 2 - D)]

/-- `D`, `gamma`, `sig` of `harmonic_oscillator_square`, `ivp.py:187-189`. -/
def paramsSquare : ℝ × ℝ × ℝ := (1, 1, 2)
/-- `D`, `gamma`, `sig` of `harmonic_oscillator`, `ivp.py:230-232`. -/
noncomputable def params : ℝ × ℝ × ℝ := (0.1, 0.1, 1)

end Harmonic

namespace Gbm

/-- `a`, `ivp.py:267`. -/
def a : ℝ := 1
/-- `b`, `ivp.py:268`. -/
def b : ℝ := 1
/-- `drift(x, t)`, `ivp.py:270-271`. -/
def drift : Field 1 := fun x _ => a • x
/-- `sigma(x, t)`, `ivp.py:273-274`. -/
def sigma : Diffusion 1 1 := fun x _ => b • Matrix.diagonal x
/-- `x0`, `ivp.py:276`. -/
def x0 : Vec 1 := 1
/-- `theoretical_mean(t)`, `ivp.py:278-279`. -/
noncomputable def mean (t : ℝ) : Vec 1 := Real.exp (a * t) • x0
/-- `theoretical_variance(t)`, `ivp.py:281-282`. -/
noncomputable def variance (t : ℝ) : Vec 1 := ((Real.exp (b ^ 2 * t) - 1) * Real.exp (2 * a * t)) • x0 ^ 2

end Gbm

namespace Synaptic

/-- `ivp.py:292`. -/
noncomputable def tauE : ℝ := 0.5
/-- `ivp.py:293`. -/
def tauI : ℝ := 1
/-- `ivp.py:294`. -/
noncomputable def gbarE : ℝ := 17.8
/-- `ivp.py:295`. -/
noncomputable def gbarI : ℝ := 9.4
/-- `ivp.py:296-297`. -/
noncomputable def sigIE : ℝ := 0.1
/-- `ivp.py:298`. -/
def VL : ℝ := -70
/-- `ivp.py:299`. -/
def VE : ℝ := 0
/-- `ivp.py:300`. -/
def VI : ℝ := -80
/-- `ivp.py:301`. -/
noncomputable def Iinj : ℝ := -0.6
/-- `ivp.py:305`. -/
def C : ℝ := 10 + 10
/-- `ivp.py:306`. -/
def gLeak : ℝ := 50
/-- `ivp.py:302-304,308`. -/
def x0 : Vec 3 := ![-60, 10, 10]

/-- `drift(x)`, `ivp.py:310-319`. -/
noncomputable def drift (x : Vec 3) : Vec 3 :=
  ![1 / C * (-gLeak * (x 0 - VL) - x 1 * (x 0 - VE) - x 2 * (x 0 - VI) + Iinj),
    -1 / tauE * (x 1 - gbarE), -1 / tauI * (x 2 - gbarI)]

/-- `sigma(x)`, `ivp.py:321-328`. -/
noncomputable def sigma (x : Vec 3) : Mat 3 3 :=
  !![0, 0, 0; sigIE * (x 1) ^ (0.5 : ℝ), 0, 0; 0, sigIE * (x 2) ^ (0.5 : ℝ), 0]

/-- `theoretical_mean_up_to_order_2(t)`, `ivp.py:330-336`. -/
noncomputable def mean2 (t : ℝ) : Vec 3 :=
  x0 + t • drift x0 + (t ^ 2 / 2) •
    ![-1 / C * (drift x0 0 * (gLeak + x0 1 + x0 2) + drift x0 1 * (x0 1 - VE) + drift x0 2 * (x0 0 - VI)),
      -1 / tauE * drift x0 1, -1 / tauI * drift x0 2]

/-- `theoretical_variance_up_to_order_3_first_coordinate(t)`, `ivp.py:338-341`. -/
noncomputable def var3 (t : ℝ) : ℝ :=
  t ^ 3 / (3 * C ^ 2) * ((x0 0 - VE) ^ 2 * sigIE ^ 2 * x0 2 + (x0 0 - VI) ^ 2 * sigIE ^ 2 * x0 2)

end Synaptic

end Verif.Ivp
