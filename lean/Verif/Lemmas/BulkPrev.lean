import Verif.Model.BulkPrev
import Verif.Props.Clover
import Verif.Lemmas.NewtonTrace
import Verif.Lemmas.Stout
import Mathlib.Analysis.Calculus.FDeriv.Mul
import Mathlib.LinearAlgebra.Matrix.NonsingularInverse
import Mathlib.Analysis.Matrix.Normed
import Mathlib.Analysis.Matrix.Spectrum

/-!
# Inverse by the Faddeev-LeVerrier algorithm, derivatives of the bulk-preventing action
-/

set_option linter.unusedSectionVars false

namespace Hila

open Matrix Polynomial

variable {n : ℕ} {L : Fin n → ℕ} {N : ℕ}

theorem adjCoeff_trace {R : Type*} [CommRing R] {ι : Type*} [Fintype ι] [DecidableEq ι] (M : Matrix ι ι R) (k : ℕ) :
    trace (adjCoeff M k) = ((k : R) + 1) * M.charpoly.coeff (k + 1) := by
  have h := congrArg (fun q => Polynomial.coeff q k) (derivative_charpoly M)
  simp only [coeff_derivative] at h
  rw [mul_comm, h, trace, trace, finsetSum_coeff]
  refine Finset.sum_congr rfl fun i _ => ?_
  rw [diag_apply, diag_apply, adjCoeff, matPolyEquiv_coeff_apply]

theorem adjCoeff_last {R : Type*} [CommRing R] {ι : Type*} [Fintype ι] [DecidableEq ι] (M : Matrix ι ι R) :
    M * adjCoeff M 0 = -(M.charpoly.coeff 0 • 1) := by
  have h : matPolyEquiv (charmatrix M) * matPolyEquiv (adjugate (charmatrix M)) =
      matPolyEquiv (M.charpoly • (1 : Matrix ι ι R[X])) := by
    rw [← map_mul, mul_adjugate]
    rfl
  rw [matPolyEquiv_charmatrix, matPolyEquiv_smul_one] at h
  have := congrArg (fun q => Polynomial.coeff q 0) h
  simp only [sub_mul, coeff_sub, coeff_X_mul_zero, coeff_C_mul, coeff_map] at this
  unfold adjCoeff
  rw [Algebra.algebraMap_eq_smul_one] at this
  rw [← this]
  abel

/-- The trace that is computed in pass `m`. -/
theorem leverrier_trace (U : Mat N) (m : ℕ) (h1 : 1 ≤ m) (h2 : m ≤ N) :
    (U * adjCoeff U (N - m)).trace = -((m : ℂ) * U.charpoly.coeff (N - m)) := by
  rcases Nat.lt_or_ge m N with h | h
  · have e := adjCoeff_step U (N - m - 1)
    rw [show N - m - 1 + 1 = N - m by omega] at e
    have e2 : U * adjCoeff U (N - m) = adjCoeff U (N - m - 1) - U.charpoly.coeff (N - m) • 1 := by rw [e]; abel
    rw [e2, Matrix.trace_sub, adjCoeff_trace, show N - m - 1 + 1 = N - m by omega, Matrix.trace_smul, Matrix.trace_one, Fintype.card_fin,
      Nat.cast_sub (by omega), Nat.cast_sub (by omega), smul_eq_mul]
    push_cast
    ring
  · obtain rfl : m = N := le_antisymm h2 h
    rw [Nat.sub_self, adjCoeff_last, Matrix.trace_neg, Matrix.trace_smul, Matrix.trace_one, Fintype.card_fin, smul_eq_mul]
    ring

theorem chInv_fold (U : Mat N) (m : ℕ) (hm : m + 1 ≤ N) :
    ∃ ip : Bool, ∃ tB : Bool → Mat N, (List.range' 2 m).foldl (chInvStep U) (fun b => if b then U else 1, false, U.trace) =
      (tB, ip, -U.charpoly.coeff (N - (m + 1))) ∧ tB ip = adjCoeff U (N - (m + 1)) ∧ tB (!ip) = U * adjCoeff U (N - (m + 1)) := by
  have hN : 0 < N := by omega
  have : NeZero N := ⟨by omega⟩
  induction m with
  | zero =>
    have h1 : adjCoeff U (N - 1) = 1 := by
      have := adjCoeff_eq U 0 (by rw [Fintype.card_fin]; exact hN)
      rw [Fintype.card_fin] at this
      simp only [Nat.sub_zero, zero_add, Finset.range_one, Finset.sum_singleton, add_zero, pow_zero] at this
      rw [this]
      have : U.charpoly.coeff N = 1 := by
        have h := U.charpoly_monic
        unfold Monic leadingCoeff at h
        rwa [charpoly_natDegree_eq_dim, Fintype.card_fin] at h
      rw [this, one_smul]
    refine ⟨false, fun b => if b then U else 1, ?_, ?_, ?_⟩
    · have := leverrier_trace U 1 le_rfl hN
      rw [h1, Matrix.mul_one] at this
      simp only [List.range'_zero, List.foldl_nil, zero_add]
      rw [this]
      simp
    · rw [zero_add, h1]; rfl
    · rw [zero_add, h1, Matrix.mul_one]; rfl
  | succ m ih =>
    obtain ⟨ip, tB, h1, h2, h3⟩ := ih (by omega)
    rw [List.range'_1_concat, List.foldl_append, h1, List.foldl_cons, List.foldl_nil]
    have e := adjCoeff_step U (N - (m + 1 + 1))
    rw [show N - (m + 1 + 1) + 1 = N - (m + 1) by omega] at e
    have e1 : tB (!ip) - (-U.charpoly.coeff (N - (m + 1))) • (1 : Mat N) = adjCoeff U (N - (m + 1 + 1)) := by
      rw [h3, e, neg_smul, sub_neg_eq_add]
    have hne : ip ≠ !ip := by cases ip <;> decide
    have hne' : (!ip) ≠ ip := hne.symm
    refine ⟨!ip, Function.update (Function.update tB (!ip) (tB (!ip) - (-U.charpoly.coeff (N - (m + 1))) • (1 : Mat N))) ip
      (U * (Function.update tB (!ip) (tB (!ip) - (-U.charpoly.coeff (N - (m + 1))) • (1 : Mat N))) (!ip)), ?_, ?_, ?_⟩
    · unfold chInvStep
      dsimp only
      rw [Function.update_self, Function.update_self, e1, leverrier_trace U (m + 1 + 1) (by omega) hm]
      congr 2
      have : ((2 + m : ℕ) : ℂ) ≠ 0 := Nat.cast_ne_zero.2 (by omega)
      rw [show ((m + 1 + 1 : ℕ) : ℂ) = ((2 + m : ℕ) : ℂ) by congr 1; omega]
      field_simp
    · rw [Function.update_of_ne hne', Function.update_self, e1]
    · rw [Bool.not_not, Function.update_self, Function.update_self, e1]

theorem chInv_eq (hN : 0 < N) (U : Mat N) : chInv U = if U.det = 0 then none else some U⁻¹ := by
  obtain ⟨ip, tB, h1, h2, -⟩ := chInv_fold U (N - 1) (by omega)
  rw [show N - 1 + 1 = N by omega, Nat.sub_self] at h1 h2
  unfold chInv
  dsimp only
  rw [h1]
  dsimp only
  have hdet : U.det = (-1) ^ N * U.charpoly.coeff 0 := by
    have := U.det_eq_sign_charpoly_coeff
    rwa [Fintype.card_fin] at this
  have hs : ((-1 : ℂ)) ^ N ≠ 0 := pow_ne_zero _ (by norm_num)
  by_cases h : U.det = 0
  · rw [if_pos h, if_pos]
    rw [hdet] at h
    rw [neg_eq_zero]
    exact (mul_eq_zero.1 h).resolve_left hs
  · have h0 : U.charpoly.coeff 0 ≠ 0 := fun h' => h (by rw [hdet, h', mul_zero])
    rw [if_neg h, if_neg (neg_ne_zero.2 h0), h2]
    congr 1
    symm
    apply Matrix.inv_eq_right_inv
    rw [Matrix.mul_smul, adjCoeff_last, smul_neg, smul_smul, ← neg_smul, ← neg_mul, inv_neg, neg_neg, inv_mul_cancel₀ h0, one_smul]

/-! ### Derivative of the inverse -/

theorem MDeriv.hasDerivAt {C : ℝ → Mat N} {Z : Mat N} (hZ : MDeriv C Z) :
    letI : NormedRing (Mat N) := Matrix.linftyOpNormedRing
    letI : NormedAlgebra ℝ (Mat N) := Matrix.linftyOpNormedAlgebra
    HasDerivAt C Z 0 := by
  let : NormedRing (Mat N) := Matrix.linftyOpNormedRing
  let : NormedAlgebra ℝ (Mat N) := Matrix.linftyOpNormedAlgebra
  let : NormedAlgebra ℂ (Mat N) := Matrix.linftyOpNormedAlgebra
  have h2 : HasDerivAt (fun t => ∑ i, ∑ j, C t i j • Matrix.single i j (1 : ℂ)) (∑ i, ∑ j, Z i j • Matrix.single i j (1 : ℂ)) (0 : ℝ) :=
    HasDerivAt.fun_sum fun i _ => HasDerivAt.fun_sum fun j _ => (hZ i j).smul_const _
  have e : ∀ M : Mat N, ∑ i, ∑ j, M i j • Matrix.single i j (1 : ℂ) = M := by
    intro M
    conv_rhs => rw [Matrix.matrix_eq_sum_single M]
    simp
  simp only [e] at h2
  exact h2

theorem MDeriv.inv {M : ℝ → Mat N} {Z : Mat N} (h : MDeriv M Z) (h0 : (M 0).det ≠ 0) :
    MDeriv (fun t => (M t)⁻¹) (-((M 0)⁻¹ * Z * (M 0)⁻¹)) := by
  let : NormedRing (Mat N) := Matrix.linftyOpNormedRing
  let : NormedAlgebra ℝ (Mat N) := Matrix.linftyOpNormedAlgebra
  have h1 := h.hasDerivAt
  obtain ⟨u, hu⟩ : IsUnit (M 0) := (Matrix.isUnit_iff_isUnit_det _).2 (isUnit_iff_ne_zero.2 h0)
  have h2 := hasFDerivAt_ringInverse (𝕜 := ℝ) u
  rw [hu] at h2
  have h3 := h2.comp_hasDerivAt (0 : ℝ) h1
  have h4 : HasDerivAt (fun t => (M t)⁻¹) (-((M 0)⁻¹ * Z * (M 0)⁻¹)) (0 : ℝ) := by
    have e : (fun t => (M t)⁻¹) = Ring.inverse ∘ M := funext fun t => Matrix.nonsing_inv_eq_ringInverse (M t)
    rw [e]
    refine h3.congr_deriv ?_
    have e2 : (↑u⁻¹ : Mat N) = (M 0)⁻¹ := by rw [← hu, Matrix.coe_units_inv]
    simp [e2]
  intro i j
  exact (LinearMap.toContinuousLinearMap (Matrix.entryLinearMap ℝ ℂ i j)).hasFDerivAt.comp_hasDerivAt (0 : ℝ) h4

theorem MDeriv.det_continuous {M : ℝ → Mat N} {Z : Mat N} (h : MDeriv M Z) : ContinuousAt (fun t => (M t).det) 0 := by
  simp only [Matrix.det_apply']
  refine tendsto_finsetSum _ fun σ _ => ?_
  refine Filter.Tendsto.const_mul _ ?_
  exact tendsto_finsetProd _ fun i _ => (h (σ i) i).continuousAt

/-- The inverse of `(1 + P)/2`. -/
noncomputable def bpA (P : Mat N) : Mat N := ((1 / 2 : ℂ) • (1 + P))⁻¹

/-- `Re tr ((A A†)²)`. -/
noncomputable def bpTr (P : Mat N) : ℝ := (bpA P * (bpA P)ᴴ * (bpA P * (bpA P)ᴴ)).trace.re

theorem half_det (P : Mat N) : ((1 / 2 : ℂ) • (1 + P)).det = 0 ↔ (1 + P).det = 0 := by
  rw [Matrix.det_smul]
  have : ((1 / 2 : ℂ)) ^ Fintype.card (Fin N) ≠ 0 := pow_ne_zero _ (by norm_num)
  constructor
  · intro h; exact (mul_eq_zero.1 h).resolve_left this
  · intro h; rw [h, mul_zero]

theorem bpA_deriv {P : ℝ → Mat N} {Z : Mat N} (h : MDeriv P Z) (h0 : (1 + P 0).det ≠ 0) :
    MDeriv (fun t => bpA (P t)) (-((1 / 2 : ℂ) • (bpA (P 0) * Z * bpA (P 0)))) := by
  have h1 : MDeriv (fun t => (1 / 2 : ℂ) • (1 + P t)) ((1 / 2 : ℂ) • (0 + Z)) := ((MDeriv.const 1).add h).smul _
  have h2 := h1.inv (fun h' => h0 ((half_det _).1 h'))
  rw [zero_add, Matrix.mul_smul, Matrix.smul_mul] at h2
  exact h2

/-- Derivative of the term of a plaquette. -/
theorem bpTr_deriv {P : ℝ → Mat N} {Z : Mat N} (h : MDeriv P Z) (h0 : (1 + P 0).det ≠ 0) :
    HasDerivAt (fun t => bpTr (P t))
      (-2 * (Z * (bpA (P 0) * (bpA (P 0))ᴴ * (bpA (P 0) * (bpA (P 0))ᴴ) * bpA (P 0))).trace.re) 0 := by
  have hA := bpA_deriv h h0
  have hH := hA.mul hA.star
  have hT := (hH.mul hH).trace
  unfold bpTr
  refine hT.congr_deriv ?_
  generalize bpA (P 0) = A
  simp only [Matrix.mul_neg, Matrix.neg_mul, Matrix.conjTranspose_neg, Matrix.conjTranspose_smul, Matrix.mul_add, Matrix.add_mul, Matrix.smul_mul,
    Matrix.mul_smul, Matrix.trace_add, Matrix.trace_neg, Matrix.trace_smul, smul_eq_mul, Complex.add_re, Complex.neg_re]
  have hh : star (1 / 2 : ℂ) = ((1 / 2 : ℝ) : ℂ) := by apply Complex.ext <;> simp
  have hh' : (1 / 2 : ℂ) = ((1 / 2 : ℝ) : ℂ) := by push_cast; rfl
  rw [hh]
  rw [hh']
  simp only [Complex.re_ofReal_mul]
  have c1 : (A * Z * A * Aᴴ * (A * Aᴴ)).trace.re = (Z * (A * Aᴴ * (A * Aᴴ) * A)).trace.re := by
    have t := Matrix.trace_mul_comm A (Z * A * Aᴴ * A * Aᴴ)
    simp only [Matrix.mul_assoc] at t ⊢
    rw [t]
  have c2 : (A * Aᴴ * (A * Z * A * Aᴴ)).trace.re = (Z * (A * Aᴴ * (A * Aᴴ) * A)).trace.re := by
    have t := Matrix.trace_mul_comm (A * Aᴴ * A) (Z * A * Aᴴ)
    simp only [Matrix.mul_assoc] at t ⊢
    rw [t]
  have c3 : (A * (A * Z * A)ᴴ * (A * Aᴴ)).trace.re = (Z * (A * Aᴴ * (A * Aᴴ) * A)).trace.re := by
    rw [← trace_conj_re, ← c1]
    simp only [Matrix.conjTranspose_mul, Matrix.conjTranspose_conjTranspose, Matrix.mul_assoc]
    have t := Matrix.trace_mul_comm (A * Aᴴ) (A * Z * A * Aᴴ)
    simp only [Matrix.mul_assoc] at t
    rw [t]
  have c4 : (A * Aᴴ * (A * (A * Z * A)ᴴ)).trace.re = (Z * (A * Aᴴ * (A * Aᴴ) * A)).trace.re := by
    rw [← trace_conj_re, ← c1]
    simp only [Matrix.conjTranspose_mul, Matrix.conjTranspose_conjTranspose, Matrix.mul_assoc]
  rw [c1, c2, c3, c4]
  ring

end Hila
