import Verif.Lemmas.BlockStep
import Verif.Lemmas.ExpTaylor
import Verif.Props.Prior

/-! Priors that integrate the last state twice in a noiseless coordinate and once in a noisy one satisfy the conditions of the block filter. -/

namespace Verif

open Matrix Spec Jnp
open scoped Matrix.Norms.Operator

variable {m : ℕ}

/-- A two by two block padded with zeros. -/
def pad3 (M : Mat 2 2) : Mat 3 3 := fun i j => if h : i.1 < 2 ∧ j.1 < 2 then M ⟨i.1, h.1⟩ ⟨j.1, h.2⟩ else 0

theorem pad3_posSemidef {M : Mat 2 2} (hM : M.PosSemidef) : (pad3 M).PosSemidef := by
  have e : pad3 M = (!![1, 0, 0; 0, 1, 0] : Mat 2 3)ᵀ * M * (!![1, 0, 0; 0, 1, 0] : Mat 2 3) := by
    ext i j
    fin_cases i <;> fin_cases j <;> simp [pad3, mul_apply]
  rw [e]
  have := hM.conjTranspose_mul_mul_same (!![1, 0, 0; 0, 1, 0] : Mat 2 3)
  rwa [conjTranspose_eq_transpose_of_trivial] at this

/-- The constant of the conditions. -/
noncomputable def chainK (M T c : ℝ) : ℝ := (2 * chainC M T + M) * (1 + T) + c * (1 + M + T * chainC M T)

theorem chainK_nonneg {M T c : ℝ} (hM : 0 ≤ M) (hT : 0 ≤ T) (hc : 0 ≤ c) : 0 ≤ chainK M T c := by
  have := chainC_nonneg (T := T) hM
  unfold chainK
  positivity

theorem blockOk_chain {S : Mat 2 m} (hS : ∀ j, S 0 j = 0) {F3 : Mat 3 3} (h3 : IsChain3 F3) {F2 : Mat 2 2} (h2 : IsChain2 F2) {M T δ c g0 g1 : ℝ}
    (hM3 : ‖F3‖ ≤ M) (hM2 : ‖F2‖ ≤ M) (hδ : 0 < δ) (hδT : δ ≤ T) (hc : 0 ≤ c) (hg0 : |g0| ≤ c * δ) (hg1 : |g1 - δ / 2| ≤ c * δ ^ 2) :
    BlockOk S (chainK M T c) δ ![expm (δ • F3), pad3 (expm (δ • F2))] ![g0, g1] := by
  have hM : 0 ≤ M := (norm_nonneg _).trans hM3
  have hT : 0 ≤ T := hδ.le.trans hδT
  obtain ⟨u00, u10, u01, u11, u02, u12⟩ := chain3_expm h3 hM3 hδ.le hδT
  obtain ⟨v00, v10, v01, v11, v01'⟩ := chain2_expm h2 hM2 hδ.le hδT
  have hr : |F2 1 1| ≤ M := (abs_entry_le _ _ _).trans hM2
  have hr0 : |F2 1 0| ≤ M := (abs_entry_le _ _ _).trans hM2
  have hC : 0 ≤ chainC M T := chainC_nonneg hM
  generalize hCC : chainC M T = C at *
  have hK : chainK M T c = (2 * C + M) * (1 + T) + c * (1 + M + T * C) := by rw [chainK, hCC]
  have hCT : 0 ≤ C * T := by positivity
  have hcM : 0 ≤ c * M := by positivity
  have hcTC : 0 ≤ c * (T * C) := by positivity
  have hMT : 0 ≤ M * T := by positivity
  have hδ2 : C * δ ^ 2 ≤ C * T * δ := by
    calc _ = C * δ * δ := by ring
      _ ≤ C * T * δ := by gcongr
  have k1 : C ≤ chainK M T c := by rw [hK]; linarith
  have k2 : C * T ≤ chainK M T c := by rw [hK]; linarith
  have k3 : M + C * T ≤ chainK M T c := by rw [hK]; linarith
  have k4 : c ≤ chainK M T c := by rw [hK]; linarith
  have k5 : C + c * M + (C / 2 + c * T * C) ≤ chainK M T c := by rw [hK]; linarith
  have q2 : C * δ ^ 2 ≤ chainK M T c * δ ^ 2 := by gcongr
  have q1 : C * δ ^ 2 ≤ chainK M T c * δ := hδ2.trans (by gcongr)
  have q3 : C * δ ^ 3 ≤ chainK M T c * δ ^ 3 := by gcongr
  have w : ∀ {r e : ℝ}, |r| ≤ M → |e| ≤ C * δ ^ 2 → |e + δ * r| ≤ chainK M T c * δ := fun {r e} h1 h2 => by
    have h3 : |δ * r| ≤ δ * M := by rw [abs_mul, abs_of_pos hδ]; gcongr
    refine (abs_add_le _ _).trans ((add_le_add h2 h3).trans ?_)
    have h4 : (M + C * T) * δ ≤ chainK M T c * δ := by gcongr
    linarith
  refine ⟨fun i => ?_, fun i => ?_, fun i => ?_, fun i => ?_, fun i => ?_⟩
  · fin_cases i
    · exact u00.trans q2
    · exact v00.trans q2
  · fin_cases i
    · exact u10.trans q1
    · have := w hr0 v10
      rw [sub_add_cancel] at this
      exact this
  · fin_cases i
    · exact u01.trans q2
    · exact v01.trans q2
  · fin_cases i
    · exact u11.trans q1
    · have := w hr v11
      rw [show expm (δ • F2) 1 1 - (1 + δ * F2 1 1) + δ * F2 1 1 = expm (δ • F2) 1 1 - 1 by ring] at this
      exact this
  · fin_cases i
    · exact Or.inl ⟨hS, u02.trans q3, u12.trans q2, hg0.trans (by gcongr)⟩
    · refine Or.inr ⟨rfl, rfl, ?_, hg1.trans (by gcongr)⟩
      change |expm (δ • F2) 0 1 - g1 * expm (δ • F2) 1 1 + g1 - δ| ≤ _
      generalize expm (δ • F2) 0 1 = a at *
      generalize expm (δ • F2) 1 1 = b at *
      generalize F2 1 1 = r at *
      rw [show a - g1 * b + g1 - δ = (a - (δ + δ ^ 2 / 2 * r)) + ((-δ * r) * (g1 - δ / 2) + -g1 * (b - (1 + δ * r))) by ring]
      have hg : |-g1| ≤ δ / 2 + c * T * δ := by
        rw [abs_neg, show g1 = (g1 - δ / 2) + δ / 2 by ring]
        refine (abs_add_le _ _).trans ?_
        rw [abs_of_pos (by positivity : 0 < δ / 2)]
        have : c * δ ^ 2 ≤ c * T * δ := by
          calc _ = c * δ * δ := by ring
            _ ≤ c * T * δ := by gcongr
        linarith
      have hd : |-δ * r| ≤ δ * M := by rw [abs_mul, abs_neg, abs_of_pos hδ]; gcongr
      have t1 := abs_mul_le' hd hg1
      have t2 := abs_mul_le' hg v11
      refine (abs_add_le _ _).trans ((add_le_add v01' ((abs_add_le _ _).trans (add_le_add t1 t2))).trans ?_)
      have t3 : (C + c * M + (C / 2 + c * T * C)) * δ ^ 3 ≤ chainK M T c * δ ^ 3 := by gcongr
      refine le_trans (le_of_eq ?_) t3
      ring

end Verif
