import Mathlib.LinearAlgebra.Matrix.Charpoly.Coeff
import Mathlib.LinearAlgebra.Matrix.Adjugate
import Mathlib.Algebra.Polynomial.Derivative

/-!
# Newton's identities for the traces of the powers of a matrix

Mathlib has them for symmetric polynomials only. Here they are found from the adjugate of the characteristic matrix.
-/

namespace Hila

open Polynomial Matrix

variable {R : Type*} [CommRing R] {ι : Type*} [Fintype ι] [DecidableEq ι]

/-- The derivative of the characteristic polynomial is the trace of the adjugate of the characteristic matrix. -/
theorem derivative_charpoly (M : Matrix ι ι R) : derivative M.charpoly = trace (adjugate (charmatrix M)) := by
  have h1 : ∀ i : ι, adjugate (charmatrix M) i i =
      ∑ σ : Equiv.Perm ι, Equiv.Perm.sign σ • ((∏ j ∈ Finset.univ.erase i, (charmatrix M) j (σ j)) *
        derivative ((charmatrix M) i (σ i))) := by
    intro i
    rw [adjugate_apply, ← det_transpose, det_apply]
    refine Finset.sum_congr rfl fun σ _ => congrArg _ ?_
    simp only [transpose_apply]
    rw [← Finset.prod_erase_mul _ _ (Finset.mem_univ i)]
    congr 1
    · refine Finset.prod_congr rfl fun j hj => ?_
      rw [updateRow_ne (Finset.ne_of_mem_erase hj)]
    · rw [updateRow_self, charmatrix_apply, derivative_sub, derivative_C, sub_zero]
      by_cases h : σ i = i
      · rw [h]; simp
      · rw [Pi.single_eq_of_ne h, diagonal_apply_ne _ (Ne.symm h), derivative_zero]
  unfold Matrix.charpoly
  rw [← det_transpose, Matrix.det_apply, derivative_sum, Matrix.trace]
  simp only [diag_apply, h1]
  rw [Finset.sum_comm]
  refine Finset.sum_congr rfl fun σ _ => ?_
  rw [← Finset.smul_sum]
  simp only [transpose_apply]
  have h2 : ∀ p : R[X], derivative (Equiv.Perm.sign σ • p) = Equiv.Perm.sign σ • derivative p := by
    intro p
    rcases Int.units_eq_one_or (Equiv.Perm.sign σ) with h | h <;> simp [h]
  rw [h2, derivative_prod_finset]

/-- The coefficients of the adjugate of the characteristic matrix, as a polynomial with matrix coefficients. -/
noncomputable def adjCoeff (M : Matrix ι ι R) (k : ℕ) : Matrix ι ι R := (matPolyEquiv (adjugate (charmatrix M))).coeff k

theorem adjCoeff_step (M : Matrix ι ι R) (k : ℕ) :
    adjCoeff M k = M * adjCoeff M (k + 1) + M.charpoly.coeff (k + 1) • 1 := by
  have h : matPolyEquiv (charmatrix M) * matPolyEquiv (adjugate (charmatrix M)) =
      matPolyEquiv (M.charpoly • (1 : Matrix ι ι R[X])) := by
    rw [← map_mul, mul_adjugate]
    rfl
  rw [matPolyEquiv_charmatrix, matPolyEquiv_smul_one] at h
  have := congrArg (fun q => Polynomial.coeff q (k + 1)) h
  simp only [sub_mul, coeff_sub, coeff_X_mul, coeff_C_mul, coeff_map] at this
  unfold adjCoeff
  rw [Algebra.algebraMap_eq_smul_one] at this
  rw [← this]
  abel

theorem adjCoeff_high [Nontrivial R] (M : Matrix ι ι R) (k : ℕ) (hk : Fintype.card ι ≤ k) : adjCoeff M k = 0 := by
  have h1 : ∀ r : ℕ, adjCoeff M k = M ^ r * adjCoeff M (k + r) := by
    intro r
    induction r with
    | zero => simp
    | succ r ih =>
      rw [ih, adjCoeff_step M (k + r), coeff_eq_zero_of_natDegree_lt (p := M.charpoly)
        (by rw [charpoly_natDegree_eq_dim]; omega), zero_smul, add_zero, pow_succ, mul_assoc]
      rfl
  rw [h1 ((matPolyEquiv (adjugate (charmatrix M))).natDegree + 1)]
  unfold adjCoeff
  rw [coeff_eq_zero_of_natDegree_lt (by omega), mul_zero]

theorem adjCoeff_eq [Nontrivial R] (M : Matrix ι ι R) (m : ℕ) (hm : m < Fintype.card ι) :
    adjCoeff M (Fintype.card ι - 1 - m) =
      ∑ i ∈ Finset.range (m + 1), M.charpoly.coeff (Fintype.card ι - m + i) • M ^ i := by
  induction m with
  | zero =>
    rw [adjCoeff_step, show Fintype.card ι - 1 - 0 + 1 = Fintype.card ι by omega, adjCoeff_high M _ le_rfl]
    simp
  | succ m ih =>
    rw [adjCoeff_step, show Fintype.card ι - 1 - (m + 1) + 1 = Fintype.card ι - 1 - m by omega, ih (by omega),
      Finset.sum_range_succ' _ (m + 1), Finset.mul_sum]
    congr 1
    · refine Finset.sum_congr rfl fun i _ => ?_
      rw [mul_smul_comm, ← pow_succ', show Fintype.card ι - (m + 1) + (i + 1) = Fintype.card ι - m + i by omega]
    · rw [pow_zero, show Fintype.card ι - (m + 1) + 0 = Fintype.card ι - 1 - m by omega]

/-- Newton's identities: with `c` the coefficients of the characteristic polynomial of a matrix of size `n`,
`-m c_{n-m} = Σ_{i=1}^m c_{n-m+i} tr M^i`. -/
theorem newton_trace [Nontrivial R] (M : Matrix ι ι R) (m : ℕ) (hm : m ≤ Fintype.card ι) :
    -(m : R) * M.charpoly.coeff (Fintype.card ι - m) =
      ∑ i ∈ Finset.Icc 1 m, M.charpoly.coeff (Fintype.card ι - m + i) * trace (M ^ i) := by
  have h0 : ∀ k, trace (adjCoeff M k) = ((k : R) + 1) * M.charpoly.coeff (k + 1) := by
    intro k
    have h := congrArg (fun q => Polynomial.coeff q k) (derivative_charpoly M)
    simp only [coeff_derivative] at h
    rw [mul_comm, h, trace, trace, finsetSum_coeff]
    refine Finset.sum_congr rfl fun i _ => ?_
    rw [diag_apply, diag_apply, adjCoeff, matPolyEquiv_coeff_apply]
  have key : ∑ i ∈ Finset.range (m + 1), M.charpoly.coeff (Fintype.card ι - m + i) * trace (M ^ i) =
      ((Fintype.card ι : R) - m) * M.charpoly.coeff (Fintype.card ι - m) := by
    rcases Nat.lt_or_ge m (Fintype.card ι) with h | h
    · have := congrArg trace (adjCoeff_eq M m h)
      rw [h0, trace_sum] at this
      simp only [trace_smul, smul_eq_mul] at this
      rw [← this, show Fintype.card ι - 1 - m + 1 = Fintype.card ι - m by omega]
      congr 1
      rw [← Nat.cast_sub hm, show Fintype.card ι - m = Fintype.card ι - 1 - m + 1 by omega]
      push_cast
      ring
    · obtain rfl : m = Fintype.card ι := le_antisymm hm h
      rw [sub_self, zero_mul]
      have h1 : ∑ i ∈ Finset.range (Fintype.card ι + 1), M.charpoly.coeff i • M ^ i = 0 := by
        have := aeval_self_charpoly M
        rw [aeval_eq_sum_range, charpoly_natDegree_eq_dim] at this
        exact this
      have := congrArg trace h1
      rw [trace_sum, trace_zero] at this
      simpa [trace_smul] using this
  rw [Finset.sum_range_succ', pow_zero, trace_one, add_zero] at key
  have h2 : ∑ i ∈ Finset.Icc 1 m, M.charpoly.coeff (Fintype.card ι - m + i) * trace (M ^ i) =
      ∑ i ∈ Finset.range m, M.charpoly.coeff (Fintype.card ι - m + (i + 1)) * trace (M ^ (i + 1)) := by
    rw [Finset.range_eq_Ico, Finset.sum_Ico_add' (fun i => M.charpoly.coeff (Fintype.card ι - m + i) * trace (M ^ i)) 0 m 1]
    rfl
  rw [h2]
  linear_combination -key

end Hila
