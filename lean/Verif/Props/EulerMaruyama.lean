import Verif.Lemmas.EulerMaruyama
import Verif.Lemmas.Gaussian
import Verif.Model.Scripts
import Verif.Model.Ivp
import Verif.Props.SdeSolver

/-!
# Properties C18-C22 and C69: Euler-Maruyama and Euler
-/

namespace Verif

open Jnp Matrix Spec MeasureTheory ProbabilityTheory

variable {d m : ℕ}

/-! ## C18 -/

/-- C18: the pathwise solver returns exactly when one increment per step is given, and then the trajectory starts at `init` and
follows the Euler-Maruyama recursion (increments scaled by `sqrt(h)` when `standard`). -/
theorem C18_pathwise_recursion (incs : List (Vec m)) (init : Vec d) (drift : Field d) (sigma : Diffusion d m) (h : ℝ)
    (N : ℕ) (standard : Bool) :
    (incs.length ≠ N → emPathwise incs init drift sigma h N standard = .error .valueError) ∧
    (incs.length = N → ∃ ts xs, emPathwise incs init drift sigma h N standard = .ok (ts, xs) ∧
      xs.length = N + 1 ∧ xs[0]? = some init ∧
      ∀ (k : ℕ) x dW, xs[k]? = some x → incs[k]? = some dW → xs[k + 1]? =
        some (x + h • drift x (k * h) + sigma x (k * h) *ᵥ ((if standard then Real.sqrt h else 1) • dW))) := by
  refine ⟨fun hl => emPathwise_error _ _ _ _ _ _ _ hl, fun hl => ⟨_, _, emPathwise_eq _ _ _ _ _ _ _ hl, by simp, ?_, ?_⟩⟩
  · rw [List.getElem?_map, List.getElem?_range (by omega)]; simp [emFold]
  · intro k x dW hx hw
    have hk : k < incs.length := by
      by_contra hc
      rw [List.getElem?_eq_none (by omega)] at hw
      cases hw
    set ws := if standard = true then incs.map (Real.sqrt h • ·) else incs with hws
    have hwk : ws[k]? = some ((if standard then Real.sqrt h else 1) • dW) := by
      rw [hws]
      cases standard <;> simp [hw]
    have hlen : (ws.take k).length = k := by
      have : ws.length = incs.length := by rw [hws]; split <;> simp
      rw [List.length_take, this, min_eq_left hk.le]
    rw [List.getElem?_map, List.getElem?_range (by omega)] at hx
    rw [List.getElem?_map, List.getElem?_range (by omega)]
    simp only [Option.map_some, Option.some.injEq] at hx ⊢
    rw [List.take_add_one, hwk, emFold_append, hx]
    simp [emFold, hlen]

/-- C18: the keyed solver is the pathwise solver run with `standard=True` on the draws made with the first child of
each interval key. -/
theorem C18_keyed_is_pathwise (rng : Rng) (key : Key) (init : Vec d) (drift : Field d) (sigma : Diffusion d m) (h : ℝ)
    (N : ℕ) :
    emPathwise ((List.range N).map fun k => rng.normalVec ((key.child N k).child 2 0) m) init drift sigma h N true =
      .ok (emSolver rng key init drift sigma h N) :=
  emSolver_eq rng key init drift sigma h N

/-- C18, concrete run: drift `1`, diffusion `2`, two steps of size `1/4` with unit-variance increments 1, 3. -/
example : ∃ ts xs, emPathwise [fun _ => 1, fun _ => 3] (0 : Vec 1) (fun _ _ => 1) (fun _ _ => (2 : ℝ) • (1 : Mat 1 1))
    (1 / 4) 2 true = .ok (ts, xs) ∧ xs.length = 3 := by
  obtain ⟨ts, xs, h, hl, _⟩ := (C18_pathwise_recursion [fun _ => 1, fun _ => 3] (0 : Vec 1) (fun _ _ => 1)
    (fun _ _ => (2 : ℝ) • (1 : Mat 1 1)) (1 / 4) 2 true).2 rfl
  exact ⟨ts, xs, h, hl⟩

/-! ## C19 -/

theorem ramEm_go (drift : Field d) (sigma : Diffusion d m) (delta : ℝ) (fine : ℕ) (hf : 1 ≤ fine) (N : ℕ)
    (blocks : List (List (Vec m))) (hb : ∀ b ∈ blocks, b.length = fine) (x : Vec d) (i : ℕ) :
    Scripts.ramEm.go drift sigma delta fine x
      (blocks.zip ((List.range blocks.length).map fun (j : ℕ) => ((i + j : ℕ) : ℝ) * delta)) =
    .ok ((List.range blocks.length).map fun k =>
      emFold (delta / fine) drift sigma x (i * fine) (blocks.take (k + 1)).flatten) := by
  have hf0 : (fine : ℝ) ≠ 0 := by exact_mod_cast (by omega : fine ≠ 0)
  induction blocks generalizing x i with
  | nil => rfl
  | cons b bs ih =>
    have hb1 : b.length = fine := hb b (by simp)
    rw [List.length_cons, List.range_succ_eq_map, List.map_cons, List.map_map, List.zip_cons_cons, Scripts.ramEm.go]
    have hbody : Scripts.ramEmBody drift sigma delta fine x (b, ((i + 0 : ℕ) : ℝ) * delta) =
        .ok (emFold (delta / fine) drift sigma x (i * fine) b) := by
      unfold Scripts.ramEmBody
      simp only [add_zero]
      have hshift : (i : ℝ) * delta = ((i * fine : ℕ) : ℝ) * (delta / fine) := by
        push_cast; field_simp
      rw [hshift, emPathwise_eq _ _ _ _ _ _ _ hb1]
      simp only [Bool.false_eq_true, if_false]
      have hlast : ((List.range (fine + 1)).map fun k => emFold (delta / fine)
          (fun z t => drift z (t + ((i * fine : ℕ) : ℝ) * (delta / fine)))
          (fun z t => sigma z (t + ((i * fine : ℕ) : ℝ) * (delta / fine))) x 0 (b.take k)).getLastD x =
          emFold (delta / fine) drift sigma x (i * fine) b := by
        rw [List.range_succ, List.map_append]
        simp only [List.map_cons, List.map_nil]
        rw [← hb1, List.take_length, hb1, emFold_shift]
        simp
      exact congrArg Except.ok hlast
    rw [hbody]
    have ih' := ih (fun b' hb' => hb b' (by simp [hb'])) (emFold (delta / fine) drift sigma x (i * fine) b) (i + 1)
    have hcomp : (List.range bs.length).map ((fun (j : ℕ) => ((i + j : ℕ) : ℝ) * delta) ∘ Nat.succ) =
        (List.range bs.length).map fun (j : ℕ) => ((i + 1 + j : ℕ) : ℝ) * delta := by
      refine List.map_congr_left fun j _ => ?_
      simp only [Function.comp, Nat.succ_eq_add_one]
      congr 2; omega
    rw [hcomp]
    show (do let rest ← Scripts.ramEm.go drift sigma delta fine _ _; pure (_ :: rest)) = _
    rw [ih']
    show Except.ok _ = _
    congr 1
    rw [List.map_cons, List.map_map]
    congr 1
    · simp
    · refine List.map_congr_left fun k _ => ?_
      simp only [Function.comp, Nat.succ_eq_add_one, List.take_succ_cons, List.flatten_cons]
      rw [emFold_append, hb1, Nat.add_mul, one_mul]

/-- C19: the low-memory loop, which restarts the pathwise solver on every block of `fine` increments with time-shifted
coefficients, returns exactly every `fine`-th state of the single run over all increments. -/
theorem C19_block_restart (blocks : List (List (Vec m))) (N fine : ℕ) (hN : blocks.length = N) (hf : 1 ≤ fine)
    (hb : ∀ b ∈ blocks, b.length = fine) (init : Vec d) (drift : Field d) (sigma : Diffusion d m) (delta : ℝ) :
    ∃ ts xs ys, emPathwise blocks.flatten init drift sigma (delta / fine) (N * fine) = .ok (ts, xs) ∧
      Scripts.ramEm blocks init drift sigma delta N fine = .ok ys ∧
      ys.length = N + 1 ∧ ∀ k ≤ N, ys[k]? = xs[k * fine]? ∧ (ys[k]?).isSome := by
  have hlen : ∀ (bs : List (List (Vec m))), (∀ b ∈ bs, b.length = fine) → bs.flatten.length = bs.length * fine := by
    intro bs hbs
    induction bs with
    | nil => simp
    | cons b bs ih =>
      rw [List.flatten_cons, List.length_append, hbs b (by simp), ih (fun b' hb' => hbs b' (by simp [hb'])),
        List.length_cons]
      ring
  have hr : Scripts.ramEm blocks init drift sigma delta N fine = .ok (init :: (List.range N).map fun k =>
      emFold (delta / fine) drift sigma init 0 (blocks.take (k + 1)).flatten) := by
    unfold Scripts.ramEm
    simp only [linspace_grid_dropLast]
    have := ramEm_go drift sigma delta fine hf N blocks hb init 0
    rw [hN] at this
    simp only [zero_add, zero_mul] at this
    rw [this]
    rfl
  refine ⟨_, _, _, emPathwise_eq _ _ _ _ _ _ _ (by rw [hlen _ hb, hN]), hr, by simp, fun k hk => ?_⟩
  have h1 : ((List.range (N * fine + 1)).map fun k => emFold (delta / fine) drift sigma init 0
      ((if false = true then blocks.flatten.map (Real.sqrt (delta / fine) • ·) else blocks.flatten).take k))[k * fine]? =
      some (emFold (delta / fine) drift sigma init 0 (blocks.flatten.take (k * fine))) := by
    rw [List.getElem?_map, List.getElem?_range (by have := Nat.mul_le_mul_right fine hk; omega)]
    rfl
  have h2 : blocks.flatten.take (k * fine) = (blocks.take k).flatten := by
    conv_lhs => rw [← List.take_append_drop k blocks, List.flatten_append]
    have hl := hlen (blocks.take k) (fun b hb' => hb b (List.mem_of_mem_take hb'))
    rw [List.length_take, hN, min_eq_left hk] at hl
    rw [← hl, List.take_left']
    rfl
  rw [h1, h2]
  cases k with
  | zero => simp [emFold]
  | succ k =>
    rw [List.getElem?_cons_succ, List.getElem?_map, List.getElem?_range (by omega)]
    simp

/-- C19: two blocks of two increments. -/
example : ∀ b ∈ ([[0, 1], [1, 0]] : List (List (Vec 1))), b.length = 2 := by simp

/-! ## C20 -/

/-- C20: unit-variance increments with the flag are the same as pre-scaled increments without it. -/
theorem C20_standard_flag (incs : List (Vec m)) (init : Vec d) (drift : Field d) (sigma : Diffusion d m) (h : ℝ)
    (N : ℕ) :
    emPathwise incs init drift sigma h N true =
      emPathwise (incs.map fun w => Real.sqrt h • w) init drift sigma h N false := by
  by_cases hl : incs.length = N
  · rw [emPathwise_eq _ _ _ _ _ _ _ hl, emPathwise_eq _ _ _ _ _ _ _ (by simpa using hl)]
    simp
  · rw [emPathwise_error _ _ _ _ _ _ _ hl, emPathwise_error _ _ _ _ _ _ _ (by simpa using hl)]

/-! ## C21 -/

/-- C21: with zero diffusion the last pathwise Euler-Maruyama state is the result of the Euler ODE solver. -/
theorem C21_zero_noise_pathwise (incs : List (Vec m)) (init : Vec d) (drift : Field d) (sigma : Diffusion d m)
    (hs : ∀ x t, sigma x t = 0) (h : ℝ) (N : ℕ) (hl : incs.length = N) (standard : Bool) :
    ∃ ts xs, emPathwise incs init drift sigma h N standard = .ok (ts, xs) ∧
      xs.getLast? = some (eulerSolver init drift h N) := by
  refine ⟨_, _, emPathwise_eq _ _ _ _ _ _ _ hl, ?_⟩
  set ws := if standard = true then incs.map (Real.sqrt h • ·) else incs with hws
  have hlen : ws.length = N := by rw [← hl, hws]; split <;> simp
  rw [List.range_succ, List.map_append]
  simp only [List.map_cons, List.map_nil, List.getLast?_append, List.getLast?_singleton, Option.some_or]
  rw [← hlen, List.take_length, emFold_zero_noise h drift sigma hs, eulerSolver_eq]
  simp

/-- C21 for the keyed solver, whatever the key and the generator. -/
theorem C21_zero_noise_keyed (rng : Rng) (key : Key) (init : Vec d) (drift : Field d) (sigma : Diffusion d m)
    (hs : ∀ x t, sigma x t = 0) (h : ℝ) (N : ℕ) :
    (emSolver rng key init drift sigma h N).2.getLast? = some (eulerSolver init drift h N) := by
  obtain ⟨ts, xs, h1, h2⟩ := C21_zero_noise_pathwise
    ((List.range N).map fun k => rng.normalVec ((key.child N k).child 2 0) m) init drift sigma hs h N (by simp) true
  rw [emSolver_eq] at h1
  rw [Except.ok.inj h1]
  exact h2

/-- C21: a diffusion that vanishes everywhere. -/
example : ∀ (x : Vec 2) (t : ℝ), (fun _ _ => 0 : Diffusion 2 1) x t = 0 := fun _ _ => rfl

/-! ## C22 -/

/-- C22: global error of the Euler solver. -/
theorem C22_euler_error (vf : Field d) (L M h : ℝ) (hL : 0 < L) (hh : 0 < h) (N : ℕ)
    (hlip : ∀ x x' t, ‖vf x t - vf x' t‖ ≤ L * ‖x - x'‖) (y y2 : ℝ → Vec d)
    (hy : ∀ t ∈ Set.Icc 0 (N * h), HasDerivWithinAt y (vf (y t) t) (Set.Icc 0 (N * h)) t)
    (hy2 : ∀ t ∈ Set.Icc 0 (N * h), HasDerivWithinAt (fun s => vf (y s) s) (y2 t) (Set.Icc 0 (N * h)) t)
    (hM : ∀ t ∈ Set.Icc 0 (N * h), ‖y2 t‖ ≤ M) :
    ‖eulerSolver (y 0) vf h N - y (N * h)‖ ≤ h * M / (2 * L) * (Real.exp (L * (N * h)) - 1) := by
  have hM0 : 0 ≤ M := (norm_nonneg _).trans (hM 0 ⟨le_rfl, by positivity⟩)
  have key : ∀ n ≤ N, ‖eulerSolver (y 0) vf h n - y (n * h)‖ ≤ h * M / (2 * L) * ((1 + h * L) ^ n - 1) := by
    intro n
    induction n with
    | zero => intro _; simp [eulerSolver_zero]
    | succ n ih =>
      intro hn
      have ih' := ih (by omega)
      set e := eulerSolver (y 0) vf h n
      have hsub : Set.Icc (n * h) ((n + 1 : ℕ) * h) ⊆ Set.Icc 0 (N * h) := by
        refine Set.Icc_subset_Icc (by positivity) ?_
        exact mul_le_mul_of_nonneg_right (by exact_mod_cast hn) hh.le
      have hle : (n : ℝ) * h ≤ (n + 1 : ℕ) * h := by push_cast; linarith
      have hT := taylor1_bound (y := y) (y' := fun t => vf (y t) t) (M := M) hle
        (fun t ht => (hy t (hsub ht)).mono hsub) (fun t ht => by
          have := Convex.norm_image_sub_le_of_norm_hasDerivWithin_le (f := fun s => vf (y s) s) (f' := y2) (C := M)
            (s := Set.Icc 0 (N * h)) hy2 hM (convex_Icc _ _) (hsub (Set.left_mem_Icc.mpr hle)) (hsub ht)
          rwa [Real.norm_of_nonneg (by linarith [ht.1] : 0 ≤ t - n * h)] at this)
      have hd : ((n + 1 : ℕ) : ℝ) * h - n * h = h := by push_cast; ring
      rw [hd] at hT
      rw [eulerSolver_succ]
      have hsplit : e + h • vf e (n * h) - y ((n + 1 : ℕ) * h) =
          (e - y (n * h)) + h • (vf e (n * h) - vf (y (n * h)) (n * h)) -
            (y ((n + 1 : ℕ) * h) - y (n * h) - h • vf (y (n * h)) (n * h)) := by
        rw [smul_sub]; abel
      rw [hsplit]
      have h1 : ‖h • (vf e (n * h) - vf (y (n * h)) (n * h))‖ ≤ h * (L * ‖e - y (n * h)‖) := by
        rw [norm_smul, Real.norm_of_nonneg hh.le]
        exact mul_le_mul_of_nonneg_left (hlip _ _ _) hh.le
      have h2 := (norm_sub_le ((e - y (n * h)) + h • (vf e (n * h) - vf (y (n * h)) (n * h)))
        (y ((n + 1 : ℕ) * h) - y (n * h) - h • vf (y (n * h)) (n * h))).trans
        (add_le_add ((norm_add_le _ _).trans (add_le_add_right h1 _)) hT)
      refine h2.trans ?_
      have h3 : ‖e - y (n * h)‖ + h * (L * ‖e - y (n * h)‖) = (1 + h * L) * ‖e - y (n * h)‖ := by ring
      rw [h3]
      have h4 : (1 + h * L) * ‖e - y (n * h)‖ ≤ (1 + h * L) * (h * M / (2 * L) * ((1 + h * L) ^ n - 1)) :=
        mul_le_mul_of_nonneg_left ih' (by positivity)
      refine (add_le_add_left h4 _).trans (le_of_eq ?_)
      rw [pow_succ]
      field_simp
      ring
  refine (key N le_rfl).trans ?_
  have h5 : (1 + h * L) ^ N ≤ Real.exp (L * (N * h)) := by
    have := Real.add_one_le_exp (h * L)
    calc (1 + h * L) ^ N ≤ Real.exp (h * L) ^ N := pow_le_pow_left₀ (by positivity) (by linarith) N
      _ = Real.exp (L * (N * h)) := by rw [← Real.exp_nat_mul]; ring_nf
  exact mul_le_mul_of_nonneg_left (by linarith) (by positivity)

/-- C22: hypotheses met by `x' = x`, whose solution is `exp`, on `[0, 3/4]`. -/
example : ‖eulerSolver (fun _ => Real.exp 0 : Vec 1) (fun x _ => x) (1 / 4) 3 - fun _ => Real.exp ((3 : ℕ) * (1 / 4))‖ ≤
    1 / 4 * Real.exp 1 / (2 * 1) * (Real.exp (1 * ((3 : ℕ) * (1 / 4))) - 1) := by
  have hd : ∀ t s, HasDerivWithinAt (fun t => (fun _ => Real.exp t : Vec 1)) (fun _ => Real.exp t) s t := fun t s =>
    (hasDerivAt_pi.mpr fun _ => Real.hasDerivAt_exp t).hasDerivWithinAt
  refine C22_euler_error (fun x _ => x) 1 (Real.exp 1) (1 / 4) (by norm_num) (by norm_num) 3 (fun x x' t => by simp)
    (fun t => fun _ => Real.exp t) (fun t => fun _ => Real.exp t) (fun t _ => hd t _) (fun t _ => hd t _) (fun t ht => ?_)
  rw [pi_norm_le_iff_of_nonneg (Real.exp_pos _).le]
  intro _
  rw [Real.norm_of_nonneg (Real.exp_pos _).le, Real.exp_le_exp]
  have := ht.2
  norm_num at this
  linarith

/-! ## C69 -/

theorem emFold_gbm (h : ℝ) (x : Vec 1) (k : ℕ) (ws : List (Vec 1)) :
    emFold h Ivp.Gbm.drift Ivp.Gbm.sigma x k ws = fun _ => x 0 * (ws.map fun w => 1 + h + w 0).prod := by
  induction ws generalizing x k with
  | nil => funext i; fin_cases i; simp [emFold]
  | cons w ws ih =>
    rw [emFold, ih]
    funext i
    simp [Ivp.Gbm.drift, Ivp.Gbm.sigma, Ivp.Gbm.a, Ivp.Gbm.b, mulVec_diagonal]
    ring

/-- C69: the mean of the Euler-Maruyama solution of geometric Brownian motion after `k` steps. -/
theorem C69_em_gbm_mean {Ω : Type*} [MeasurableSpace Ω] {P : Measure Ω} {R : Ω → Rng} (hR : IdealNormals P R) (key : Key)
    (x0 : Vec 1) (h : ℝ) (N k : ℕ) (hk : k ≤ N) :
    ∃ X : Ω → Vec 1, (∀ ω, (emSolver (R ω) key x0 Ivp.Gbm.drift Ivp.Gbm.sigma h N).2[k]? = some (X ω)) ∧
      Integrable (fun ω => X ω 0) P ∧ ∫ ω, X ω 0 ∂P = x0 0 * (1 + h) ^ k := by
  set K : Fin k → Key := fun i => (key.child N i).child 2 0 with hK
  have hdiv : Pairwise fun a b : Fin k => (K a).Diverge (K b) := fun a b hab =>
    ((Key.diverge_child key N a b (fun he => hab (Fin.ext he))).child_left 2 0).child_right 2 0
  have hi := hR.indep K (fun _ => [1]) hdiv
  set Z : Fin k → Ω → ℝ := fun i ω => (R ω).normal (K i) [1] 0 with hZ
  have hZi : iIndepFun Z P := hi.precomp (g := fun i : Fin k => (⟨i, ⟨0, by simp⟩⟩ : Σ a : Fin k, Fin ([1] : List ℕ).prod))
    (fun a b hab => congrArg Sigma.fst hab)
  have hP := hZi.isProbabilityMeasure
  have hZl : ∀ i, HasLaw (Z i) (gaussianReal 0 1) P := fun i => hR.law (K i) [1] 0 (by simp)
  have hZint : ∀ i, Integrable (Z i) P := fun i => (hZl i).hasGaussianLaw.integrable
  have hYi : iIndepFun (fun i ω => 1 + h + Real.sqrt h * Z i ω) P :=
    hZi.comp (fun _ z => 1 + h + Real.sqrt h * z) (fun _ => by fun_prop)
  have hYint : ∀ i, Integrable (fun ω => 1 + h + Real.sqrt h * Z i ω) P := fun i =>
    (integrable_const _).add ((hZint i).const_mul _)
  refine ⟨fun ω _ => x0 0 * ∏ i : Fin k, (1 + h + Real.sqrt h * Z i ω), ?_, ?_, ?_⟩
  · intro ω
    have h1 := emPathwise_eq ((List.range N).map fun k => (R ω).normalVec ((key.child N k).child 2 0) 1) x0
      Ivp.Gbm.drift Ivp.Gbm.sigma h N true (by simp)
    rw [emSolver_eq] at h1
    rw [Except.ok.inj h1]
    simp only [if_true]
    rw [List.getElem?_map, List.getElem?_range (by omega)]
    simp only [Option.map_some, Option.some.injEq]
    rw [emFold_gbm]
    funext j
    congr 1
    rw [List.map_map, ← List.map_take, List.take_range, min_eq_left hk, List.map_map, ← List.prod_ofFn]
    congr 1
    apply List.ext_getElem <;> simp [hZ, hK, Rng.normalVec]
  · refine Integrable.const_mul ?_ _
    have hm := hYi.map_fun_eq_pi_map (fun i => (hYint i).aemeasurable)
    have hpi : Integrable (fun y : Fin k → ℝ => ∏ i, y i)
        (Measure.pi fun i => P.map fun ω => 1 + h + Real.sqrt h * Z i ω) := by
      have : ∀ i, IsProbabilityMeasure (P.map fun ω => 1 + h + Real.sqrt h * Z i ω) := fun i =>
        Measure.isProbabilityMeasure_map (hYint i).aemeasurable
      refine Integrable.fintype_prod (f := fun _ z => z) fun i => ?_
      exact (integrable_map_measure aestronglyMeasurable_id (hYint i).aemeasurable).mpr (hYint i)
    rw [← hm] at hpi
    exact (integrable_map_measure hpi.aestronglyMeasurable
      (aemeasurable_pi_lambda _ fun i => (hYint i).aemeasurable)).mp hpi
  · rw [integral_const_mul, hYi.integral_fun_prod_eq_prod_integral (fun i => (hYint i).aestronglyMeasurable)]
    congr 1
    have : ∀ i, ∫ ω, (1 + h + Real.sqrt h * Z i ω) ∂P = 1 + h := by
      intro i
      rw [integral_add (integrable_const _) ((hZint i).const_mul _), integral_const_mul, (hZl i).integral_eq]
      simp
    simp [this]

end Verif
