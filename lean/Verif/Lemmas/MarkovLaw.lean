import Verif.Spec.Gaussian
import Verif.Jnp
import Mathlib.Probability.IdentDistrib
import Mathlib.Probability.Independence.Basic

/-! The law of Markov chains: states computed from independent inputs have the same law as soon as the single steps do. -/

namespace Verif

open MeasureTheory ProbabilityTheory Filter

variable {d : ℕ} {Ω Ω' : Type*} [MeasurableSpace Ω] [MeasurableSpace Ω'] {P : Measure Ω} {Q : Measure Ω'}

theorem step_identDistrib [IsProbabilityMeasure P] [IsProbabilityMeasure Q] {β γ : Type*} [MeasurableSpace β] [MeasurableSpace γ]
    {Y : Ω → Vec d} {ξ : Ω → β} {Z : Ω' → Vec d} {z : Ω' → γ} {Φ : Vec d → β → Vec d} {Ψ : Vec d → γ → Vec d}
    (hΦ : Measurable (Function.uncurry Φ)) (hΨ : Measurable (Function.uncurry Ψ)) (hξ : AEMeasurable ξ P) (hz : AEMeasurable z Q)
    (hY : IndepFun Y ξ P) (hZ : IndepFun Z z Q) (hYZ : IdentDistrib Y Z P Q)
    (h : ∀ y, IdentDistrib (fun ω => Φ y (ξ ω)) (fun ω => Ψ y (z ω)) P Q) :
    IdentDistrib (fun ω => Φ (Y ω) (ξ ω)) (fun ω => Ψ (Z ω) (z ω)) P Q := by
  have hYm := hYZ.aemeasurable_fst
  have hZm := hYZ.aemeasurable_snd
  have h1 := (indepFun_iff_map_prod_eq_prod_map_map hYm hξ).mp hY
  have h2 := (indepFun_iff_map_prod_eq_prod_map_map hZm hz).mp hZ
  have hm1 : AEMeasurable (fun ω => (Y ω, ξ ω)) P := hYm.prodMk hξ
  have hm2 : AEMeasurable (fun ω => (Z ω, z ω)) Q := hZm.prodMk hz
  refine ⟨hΦ.comp_aemeasurable hm1, hΨ.comp_aemeasurable hm2, ?_⟩
  have e1 : Measure.map (fun ω => Φ (Y ω) (ξ ω)) P = ((P.map Y).prod (P.map ξ)).map (Function.uncurry Φ) := by
    rw [← h1, AEMeasurable.map_map_of_aemeasurable hΦ.aemeasurable hm1]; rfl
  have e2 : Measure.map (fun ω => Ψ (Z ω) (z ω)) Q = ((Q.map Z).prod (Q.map z)).map (Function.uncurry Ψ) := by
    rw [← h2, AEMeasurable.map_map_of_aemeasurable hΨ.aemeasurable hm2]; rfl
  have := Measure.isProbabilityMeasure_map hξ
  have := Measure.isProbabilityMeasure_map hz
  rw [e1, e2]
  ext s hs
  rw [Measure.map_apply hΦ hs, Measure.map_apply hΨ hs, Measure.prod_apply (hΦ hs), Measure.prod_apply (hΨ hs), hYZ.map_eq]
  refine lintegral_congr fun y => ?_
  have k1 : Measurable (Φ y) := hΦ.comp measurable_prodMk_left
  have k2 : Measurable (Ψ y) := hΨ.comp measurable_prodMk_left
  have h3 := congrArg (fun μ : Measure (Vec d) => μ s) (h y).map_eq
  have e3 : P.map (fun ω => Φ y (ξ ω)) = (P.map ξ).map (Φ y) := by
    rw [AEMeasurable.map_map_of_aemeasurable k1.aemeasurable hξ]; rfl
  have e4 : Q.map (fun ω => Ψ y (z ω)) = (Q.map z).map (Ψ y) := by
    rw [AEMeasurable.map_map_of_aemeasurable k2.aemeasurable hz]; rfl
  rw [e3, e4, Measure.map_apply k1 hs, Measure.map_apply k2 hs] at h3
  exact h3

/-- A state is independent of the next input. -/
theorem state_indep {N : ℕ} {κ : Type*} [Fintype κ] [DecidableEq κ] {X : Fin N × κ → Ω → ℝ} (hX : iIndepFun X P) (hm : ∀ p, AEMeasurable (X p) P)
    {Ψ : Vec d → (κ → ℝ) → Vec d} (hΨ : Measurable (Function.uncurry Ψ)) {x0 : Vec d} {Z : ℕ → Ω → Vec d} (h0 : ∀ ω, Z 0 ω = x0)
    (hs : ∀ k (hk : k < N) ω, Z (k + 1) ω = Ψ (Z k ω) fun i => X (⟨k, hk⟩, i) ω) (k : ℕ) (hk : k < N) :
    IndepFun (Z k) (fun ω i => X (⟨k, hk⟩, i) ω) P := by
  obtain ⟨S, hS⟩ : ∃ S : ℕ → Finset (Fin N × κ), ∀ k p, p ∈ S k ↔ p.1.1 < k :=
    ⟨fun k => Finset.univ.filter fun p => p.1.1 < k, fun k p => by simp⟩
  have hG : ∀ k ≤ N, ∃ G : (S k → ℝ) → Vec d, Measurable G ∧ ∀ ω, Z k ω = G fun i => X i ω := by
    intro k
    induction k with
    | zero => exact fun _ => ⟨fun _ => x0, measurable_const, h0⟩
    | succ k ih =>
      intro hk
      obtain ⟨G, hGm, hG⟩ := ih (by omega)
      refine ⟨fun z => Ψ (G fun i => z ⟨i.1, (hS _ _).mpr (by have := (hS _ _).mp i.2; omega)⟩)
        (fun i => z ⟨(⟨k, hk⟩, i), (hS _ _).mpr (by simp)⟩), ?_, fun ω => ?_⟩
      · refine hΨ.comp (Measurable.prodMk (hGm.comp ?_) ?_)
        · exact measurable_pi_lambda _ fun i => measurable_pi_apply _
        · exact measurable_pi_lambda _ fun i => measurable_pi_apply _
      · rw [hs k hk ω, hG ω]
  obtain ⟨G, hGm, hG⟩ := hG k hk.le
  obtain ⟨T, hT⟩ : ∃ T : Finset (Fin N × κ), ∀ p, p ∈ T ↔ p.1.1 = k := ⟨Finset.univ.filter fun p => p.1.1 = k, fun p => by simp⟩
  have hd : Disjoint (S k) T := Finset.disjoint_left.mpr fun p h1 h2 => by
    have := (hS _ _).mp h1
    have := (hT _).mp h2
    omega
  have h1 := hX.indepFun_finset₀ (S k) T hd hm
  have h2 := h1.comp (φ := G) (ψ := fun (z : T → ℝ) (i : κ) => z ⟨(⟨k, hk⟩, i), (hT _).mpr rfl⟩) hGm
    (measurable_pi_lambda _ fun i => measurable_pi_apply _)
  have e : Z k = G ∘ fun a (i : S k) => X i a := funext fun ω => hG ω
  rw [e]
  exact h2

/-- Two chains with the same steps in law have the same laws. -/
theorem markov_identDistrib [IsProbabilityMeasure P] [IsProbabilityMeasure Q] {N : ℕ} {κ κ' : Type*} [Fintype κ] [DecidableEq κ] [Fintype κ'] [DecidableEq κ']
    {X : Fin N × κ → Ω → ℝ} (hX : iIndepFun X P) (hm : ∀ p, AEMeasurable (X p) P)
    {X' : Fin N × κ' → Ω' → ℝ} (hX' : iIndepFun X' Q) (hm' : ∀ p, AEMeasurable (X' p) Q)
    {Φ : Vec d → (κ → ℝ) → Vec d} (hΦ : Measurable (Function.uncurry Φ)) {Ψ : Vec d → (κ' → ℝ) → Vec d} (hΨ : Measurable (Function.uncurry Ψ))
    {x0 : Vec d} {Y : ℕ → Ω → Vec d} (hY0 : ∀ ω, Y 0 ω = x0) (hY : ∀ k (hk : k < N) ω, Y (k + 1) ω = Φ (Y k ω) fun i => X (⟨k, hk⟩, i) ω)
    {Z : ℕ → Ω' → Vec d} (hZ0 : ∀ ω, Z 0 ω = x0) (hZ : ∀ k (hk : k < N) ω, Z (k + 1) ω = Ψ (Z k ω) fun i => X' (⟨k, hk⟩, i) ω)
    (h : ∀ k (hk : k < N) y, IdentDistrib (fun ω => Φ y fun i => X (⟨k, hk⟩, i) ω) (fun ω => Ψ y fun i => X' (⟨k, hk⟩, i) ω) P Q)
    (n : ℕ) (hn : n ≤ N) : IdentDistrib (Y n) (Z n) P Q := by
  induction n with
  | zero =>
    rw [show Y 0 = fun _ => x0 from funext hY0, show Z 0 = fun _ => x0 from funext hZ0]
    refine ⟨aemeasurable_const, aemeasurable_const, ?_⟩
    rw [Measure.map_const, Measure.map_const]
    simp
  | succ n ih =>
    rw [show Y (n + 1) = _ from funext (hY n hn), show Z (n + 1) = _ from funext (hZ n hn)]
    exact step_identDistrib hΦ hΨ (aemeasurable_pi_lambda _ fun i => hm _) (aemeasurable_pi_lambda _ fun i => hm' _)
      (state_indep hX hm hΦ hY0 hY n hn) (state_indep hX' hm' hΨ hZ0 hZ n hn) (ih (by omega)) (h n hn)

end Verif
