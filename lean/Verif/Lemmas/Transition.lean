import Verif.Lemmas.Prior
import Verif.Lemmas.Trapezoid

/-! Helper lemmas: the numerical transition function and products of priors. -/

namespace Verif

open Matrix Spec Jnp

theorem computeTransition_Q_eq {n l : ℕ} (F : Mat n n) (u : Vec n) (L : Mat n l) (h : ℝ) (m : ℕ) :
    (computeTransition F u L h (m + 2)).Q = ∑ k ∈ Finset.range (m + 1), (h / ((m : ℝ) + 1) / 2) •
      (expm (((k : ℝ) * (h / ((m : ℝ) + 1))) • F) * (L * Lᵀ) * (expm (((k : ℝ) * (h / ((m : ℝ) + 1))) • F))ᵀ +
        expm ((((k : ℝ) + 1) * (h / ((m : ℝ) + 1))) • F) * (L * Lᵀ) *
          (expm ((((k : ℝ) + 1) * (h / ((m : ℝ) + 1))) • F))ᵀ) := by
  simp only [computeTransition]
  rw [trapezoid_linspace]
  simp only [transpose_mul, Matrix.mul_assoc]

theorem computeTransition_xi_eq {n l : ℕ} (F : Mat n n) (u : Vec n) (L : Mat n l) (h : ℝ) (m : ℕ) :
    (computeTransition F u L h (m + 2)).xi = ∑ k ∈ Finset.range (m + 1), (h / ((m : ℝ) + 1) / 2) •
      (expm (((k : ℝ) * (h / ((m : ℝ) + 1))) • F) *ᵥ u +
        expm ((((k : ℝ) + 1) * (h / ((m : ℝ) + 1))) • F) *ᵥ u) := by
  simp only [computeTransition]
  rw [trapezoid_linspace]

theorem computeTransition_short {n l : ℕ} (F : Mat n n) (u : Vec n) (L : Mat n l) (h : ℝ) {m : ℕ} (hm : m < 2) :
    (computeTransition F u L h m).xi = 0 ∧ (computeTransition F u L h m).Q = 0 := by
  have : m = 0 ∨ m = 1 := by omega
  rcases this with rfl | rfl <;> simp [computeTransition, linspace, trapezoid]

/-- Transitions of equal size with equal entries are equal. -/
theorem sigma_prior_ext {a b : ℕ} (h : a = b) {p : Prior a} {r : Prior b} (hxi : ∀ i, p.xi i = r.xi (Fin.cast h i))
    (hQ : ∀ i j, p.Q i j = r.Q (Fin.cast h i) (Fin.cast h j)) (hA : ∀ i j, p.A i j = r.A (Fin.cast h i) (Fin.cast h j)) :
    (⟨a, p⟩ : (s : ℕ) × Prior s) = ⟨b, r⟩ := by
  subst h
  have : p = r := Prior.ext (funext hxi) (Matrix.ext hQ) (Matrix.ext hA)
  rw [this]

/-- The product of `d` copies of a transition. -/
def kronPrior (d : ℕ) {n : ℕ} (p : Prior n) : Prior (d * n) where
  xi := kronVec (fun _ => 1) p.xi
  Q := kron (1 : Mat d d) p.Q
  A := kron (1 : Mat d d) p.A

theorem kronPrior_one {n : ℕ} (p : Prior n) : (⟨1 * n, kronPrior 1 p⟩ : (s : ℕ) × Prior s) = ⟨n, p⟩ := by
  have hm : ∀ i : Fin (1 * n), i.modNat = Fin.cast (Nat.one_mul n) i := by
    intro i
    refine Fin.ext ?_
    have : i.1 < n := lt_of_lt_of_eq i.2 (Nat.one_mul n)
    simp [Fin.modNat, Nat.mod_eq_of_lt this]
  have hk : ∀ (M : Mat n n) (i j : Fin (1 * n)), kron (1 : Mat 1 1) M i j =
      M (Fin.cast (Nat.one_mul n) i) (Fin.cast (Nat.one_mul n) j) := by
    intro M i j
    rw [kron, hm, hm, Subsingleton.elim i.divNat j.divNat, Matrix.one_apply_eq, one_mul]
  exact sigma_prior_ext (Nat.one_mul n) (fun i => by simp [kronPrior, kronVec, hm]) (hk p.Q) (hk p.A)

theorem blockDiag2_kron {n d : ℕ} (M : Mat n n) (h : n + d * n = (d + 1) * n) (i j : Fin (n + d * n)) :
    blockDiag2 M (kron (1 : Mat d d) M) i j = kron (1 : Mat (d + 1) (d + 1)) M (Fin.cast h i) (Fin.cast h j) := by
  have hn : 0 < n := by
    rcases Nat.eq_zero_or_pos n with rfl | hn
    · exact absurd i.2 (by simp)
    · exact hn
  simp only [blockDiag2, reindex_apply, submatrix_apply]
  refine Fin.addCases (fun a => ?_) (fun a => ?_) i <;> refine Fin.addCases (fun b => ?_) (fun b => ?_) j
  · simp only [finSumFinEquiv_symm_apply_castAdd, fromBlocks_apply₁₁, kron]
    have h1 : (Fin.cast h (Fin.castAdd (d * n) a)).divNat = 0 := Fin.ext (by simp [Fin.divNat, Nat.div_eq_of_lt a.2])
    have h2 : (Fin.cast h (Fin.castAdd (d * n) b)).divNat = 0 := Fin.ext (by simp [Fin.divNat, Nat.div_eq_of_lt b.2])
    have h3 : (Fin.cast h (Fin.castAdd (d * n) a)).modNat = a := Fin.ext (by simp [Fin.modNat, Nat.mod_eq_of_lt a.2])
    have h4 : (Fin.cast h (Fin.castAdd (d * n) b)).modNat = b := Fin.ext (by simp [Fin.modNat, Nat.mod_eq_of_lt b.2])
    rw [h1, h2, h3, h4]
    simp
  · simp only [finSumFinEquiv_symm_apply_castAdd, finSumFinEquiv_symm_apply_natAdd, fromBlocks_apply₁₂, kron]
    have h1 : (Fin.cast h (Fin.castAdd (d * n) a)).divNat = 0 := Fin.ext (by simp [Fin.divNat, Nat.div_eq_of_lt a.2])
    have h2 : (Fin.cast h (Fin.natAdd n b)).divNat ≠ 0 := by
      intro h0
      have := congrArg Fin.val h0
      simp [Fin.divNat, hn] at this
    rw [h1, Matrix.one_apply_ne (Ne.symm h2)]
    simp
  · simp only [finSumFinEquiv_symm_apply_castAdd, finSumFinEquiv_symm_apply_natAdd, fromBlocks_apply₂₁, kron]
    have h1 : (Fin.cast h (Fin.castAdd (d * n) b)).divNat = 0 := Fin.ext (by simp [Fin.divNat, Nat.div_eq_of_lt b.2])
    have h2 : (Fin.cast h (Fin.natAdd n a)).divNat ≠ 0 := by
      intro h0
      have := congrArg Fin.val h0
      simp [Fin.divNat, hn] at this
    rw [h1, Matrix.one_apply_ne h2]
    simp
  · simp only [finSumFinEquiv_symm_apply_natAdd, fromBlocks_apply₂₂, kron]
    have h1 : ∀ c : Fin (d * n), (Fin.cast h (Fin.natAdd n c)).divNat = c.divNat.succ := fun c => Fin.ext (by
      simp [Fin.divNat, hn])
    have h2 : ∀ c : Fin (d * n), (Fin.cast h (Fin.natAdd n c)).modNat = c.modNat := fun c => Fin.ext (by
      simp [Fin.modNat])
    simp only [h1, h2, Matrix.one_apply, Fin.succ_inj]

theorem factorizedPriorAux_replicate {n : ℕ} (p : Prior n) (d : ℕ) :
    factorizedPriorAux (List.replicate d ⟨n, p⟩) = ⟨d * n, kronPrior d p⟩ := by
  induction d with
  | zero =>
    refine sigma_prior_ext (Nat.zero_mul n).symm ?_ ?_ ?_ <;> intro i <;> exact i.elim0
  | succ d ih =>
    have h : n + d * n = (d + 1) * n := by ring
    rw [List.replicate_succ, factorizedPriorAux, ih]
    refine sigma_prior_ext h ?_ ?_ ?_
    · intro i
      have hn : 0 < n := by
        rcases Nat.eq_zero_or_pos n with rfl | hn
        · exact absurd i.2 (by simp)
        · exact hn
      refine Fin.addCases (fun a => ?_) (fun a => ?_) i
      · have h3 : (Fin.cast h (Fin.castAdd (d * n) a)).modNat = a :=
          Fin.ext (by simp [Fin.modNat, Nat.mod_eq_of_lt a.2])
        simp [Prior.append, kronPrior, kronVec, h3]
      · have h2 : (Fin.cast h (Fin.natAdd n a)).modNat = a.modNat := Fin.ext (by simp [Fin.modNat])
        simp [Prior.append, kronPrior, kronVec, h2]
    · exact blockDiag2_kron p.Q h
    · exact blockDiag2_kron p.A h

end Verif
