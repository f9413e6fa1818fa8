import Verif.Lemmas.Stout
import Verif.Props.GradFlowInt
import Mathlib.LinearAlgebra.Matrix.Determinant.Basic
import Mathlib.Analysis.Calculus.Deriv.Mul

/-!
# Derivative of the exponential along curves
-/

set_option linter.unusedSectionVars false

namespace Hila

open Matrix

variable {n : ℕ} {L : Fin n → ℕ} {N : ℕ}

/-- `D` is the derivative of the exponential function at `X` in the direction `Z`: along every curve through `X` with the
derivative `Z`. -/
def DexpAt (X Z D : Mat N) : Prop := ∀ C : ℝ → Mat N, C 0 = X → MDeriv C Z → MDeriv (fun t => NormedSpace.exp (C t)) D

theorem MDeriv.unique {f : ℝ → Mat N} {f' f'' : Mat N} (h : MDeriv f f') (h' : MDeriv f f'') : f' = f'' := by
  ext i j
  exact (h i j).unique (h' i j)

theorem line_deriv (X Z : Mat N) : MDeriv (fun t : ℝ => X + (t : ℂ) • Z) Z := by
  intro i j
  have h := ((hasDerivAt_id (0 : ℝ)).ofReal_comp.mul_const (Z i j)).const_add (X i j)
  simpa using h

/-- The derivative exists and is linear. -/
theorem dexp_linear (X : Mat N) : ∃ f : Mat N →ₗ[ℂ] Mat N, ∀ Z, DexpAt X Z (f Z) := by
  let : NormedRing (Mat N) := Matrix.linftyOpNormedRing
  let : NormedAlgebra ℝ (Mat N) := Matrix.linftyOpNormedAlgebra
  let : NormedAlgebra ℂ (Mat N) := Matrix.linftyOpNormedAlgebra
  let : NormedAlgebra ℚ (Mat N) := Matrix.linftyOpNormedAlgebra
  have hd : DifferentiableAt ℂ (NormedSpace.exp : Mat N → Mat N) X := (NormedSpace.exp_analytic (𝕂 := ℂ) X).differentiableAt
  refine ⟨(fderiv ℂ (NormedSpace.exp : Mat N → Mat N) X).toLinearMap, fun Z C hC hZ => ?_⟩
  have h1 : HasDerivAt C Z 0 := by
    have h2 : HasDerivAt (fun t => ∑ i, ∑ j, C t i j • Matrix.single i j (1 : ℂ)) (∑ i, ∑ j, Z i j • Matrix.single i j (1 : ℂ)) (0 : ℝ) :=
      HasDerivAt.fun_sum fun i _ => HasDerivAt.fun_sum fun j _ => (hZ i j).smul_const _
    have e : ∀ M : Mat N, ∑ i, ∑ j, M i j • Matrix.single i j (1 : ℂ) = M := by
      intro M
      conv_rhs => rw [Matrix.matrix_eq_sum_single M]
      simp
    simp only [e] at h2
    exact h2
  have h3 : HasFDerivAt (NormedSpace.exp : Mat N → Mat N) ((fderiv ℂ (NormedSpace.exp : Mat N → Mat N) X).restrictScalars ℝ) (C 0) := by
    rw [hC]
    exact hd.hasFDerivAt.restrictScalars ℝ
  have h4 := h3.comp_hasDerivAt (0 : ℝ) h1
  intro i j
  exact (LinearMap.toContinuousLinearMap (Matrix.entryLinearMap ℝ ℂ i j)).hasFDerivAt.comp_hasDerivAt (0 : ℝ) h4

/-- The derivative of the determinant at the unit matrix. -/
theorem det_deriv_one {G : ℝ → Mat N} {T : Mat N} (h0 : G 0 = 1) (h : MDeriv G T) : HasDerivAt (fun t => (G t).det) T.trace 0 := by
  have h1 : HasDerivAt (fun t => (G t).det) (∑ σ : Equiv.Perm (Fin N), ((Equiv.Perm.sign σ : ℤ) : ℂ) *
      ∑ i, (∏ j ∈ Finset.univ.erase i, G 0 (σ j) j) • T (σ i) i) 0 := by
    simp only [Matrix.det_apply']
    refine HasDerivAt.fun_sum fun σ _ => HasDerivAt.const_mul _ ?_
    exact HasDerivAt.fun_finset_prod fun i _ => h (σ i) i
  refine h1.congr_deriv ?_
  rw [Finset.sum_eq_single 1]
  · rw [Equiv.Perm.sign_one, h0]
    rw [Units.val_one, Int.cast_one, one_mul]
    unfold Matrix.trace
    refine Finset.sum_congr rfl fun i _ => ?_
    rw [Finset.prod_eq_one fun j _ => show (1 : Mat N) ((1 : Equiv.Perm (Fin N)) j) j = 1 from Matrix.one_apply_eq j, one_smul]
    rfl
  · intro σ _ hσ
    rw [h0, mul_eq_zero]
    right
    refine Finset.sum_eq_zero fun i _ => ?_
    obtain ⟨j, hj⟩ : ∃ j, σ j ≠ j := by
      by_contra hc
      push Not at hc
      exact hσ (Equiv.ext hc)
    have : ∃ k ∈ Finset.univ.erase i, σ k ≠ k := by
      by_cases hji : j = i
      · refine ⟨σ j, Finset.mem_erase.2 ⟨fun h => hj (by rw [h, hji]), Finset.mem_univ _⟩, fun h => hj (σ.injective h)⟩
      · exact ⟨j, Finset.mem_erase.2 ⟨hji, Finset.mem_univ _⟩, hj⟩
    obtain ⟨k, hk, hk'⟩ := this
    rw [Finset.prod_eq_zero (f := fun j => (1 : Mat N) (σ j) j) hk (Matrix.one_apply_ne hk'), zero_smul]
  · intro h; exact absurd (Finset.mem_univ _) h

theorem exp_antiherm_unitary {X : Mat N} (h : Xᴴ = -X) : NormedSpace.exp X * (NormedSpace.exp X)ᴴ = 1 := by
  rw [← Matrix.exp_conjTranspose, h,
    ← Matrix.exp_add_of_commute _ _ (show _ * _ = _ * _ by rw [Matrix.mul_neg, Matrix.neg_mul]), add_neg_cancel, NormedSpace.exp_zero]

/-- Along a curve in the algebra `D exp(X)†` is in the algebra. -/
theorem dexp_alg {C : ℝ → Mat N} (hc : ∀ t, (C t)ᴴ = -C t) (ht : ∀ t, (C t).trace = 0) {D : Mat N} (h : MDeriv (fun t => NormedSpace.exp (C t)) D) :
    (D * (NormedSpace.exp (C 0))ᴴ)ᴴ = -(D * (NormedSpace.exp (C 0))ᴴ) ∧ (D * (NormedSpace.exp (C 0))ᴴ).trace = 0 := by
  constructor
  · have h1 := h.mul h.star
    simp only [fun t => exp_antiherm_unitary (hc t)] at h1
    have h2 := h1.unique (MDeriv.const 1)
    rw [Matrix.conjTranspose_mul, Matrix.conjTranspose_conjTranspose]
    exact eq_neg_of_add_eq_zero_right h2
  · have h1 : MDeriv (fun t => NormedSpace.exp (C t) * (NormedSpace.exp (C 0))ᴴ) (D * (NormedSpace.exp (C 0))ᴴ) := by
      have := h.mul (MDeriv.const ((NormedSpace.exp (C 0))ᴴ))
      rwa [Matrix.mul_zero, add_zero] at this
    have h2 := det_deriv_one (exp_antiherm_unitary (hc 0)) h1
    have h3 : (fun t => (NormedSpace.exp (C t) * (NormedSpace.exp (C 0))ᴴ).det) = fun _ => 1 := by
      funext t
      rw [Matrix.det_mul, exp_antiherm_det (hc t) (ht t), Matrix.det_conjTranspose, exp_antiherm_det (hc 0) (ht 0)]
      simp
    rw [h3] at h2
    exact h2.unique (hasDerivAt_const _ _)

/-! ### The argument of the exponential -/

theorem algPart_deriv {P : ℝ → Mat N} {P' : Mat N} (h : MDeriv P P') : MDeriv (fun t => algPart (P t)) (algPart P') := by
  unfold algPart
  have h1 := (h.sub h.star).smul (1 / 2)
  refine h1.sub ?_
  intro i j
  have h2 : HasDerivAt (fun t => ((1 / 2 : ℂ) • (P t - (P t)ᴴ)).trace) ((1 / 2 : ℂ) • (P' - P'ᴴ)).trace 0 := by
    unfold Matrix.trace
    exact HasDerivAt.fun_sum fun k _ => h1 k k
  exact (h2.div_const _).mul_const _

theorem expand_projectScaled (hN : 0 < N) (F : Mat N) (c : ℝ) : expand (projectScaled F c) = (c : ℂ) • algPart F := by
  rw [← algMat_coef hN, expand_eq hN, projectScaled_eq hN, ← algMat_smul]
  rfl

theorem stoutArg_eq (hN : 0 < N) (c : ℝ) (u s : Mat N) : stoutArg c u s = ((-c : ℝ) : ℂ) • algPart (u * s) := by
  unfold stoutArg
  rw [expand_projectScaled hN]

theorem stoutArg_conj (hN : 0 < N) (c : ℝ) (u s : Mat N) : (stoutArg c u s)ᴴ = -stoutArg c u s := by
  rw [stoutArg_eq hN, Matrix.conjTranspose_smul, algPart_conj, smul_neg]
  simp

theorem stoutArg_trace (hN : 0 < N) (c : ℝ) (u s : Mat N) : (stoutArg c u s).trace = 0 := by
  rw [stoutArg_eq hN, Matrix.trace_smul, algPart_trace hN, smul_zero]

/-- The projection is orthogonal. -/
theorem algPart_adj (hN : 0 < N) (A B : Mat N) : (A * algPart B).trace.re = (algPart A * B).trace.re := by
  have h : ∀ A B : Mat N, (algPart A * algPart B).trace.re = (algPart A * B).trace.re := by
    intro A B
    have h1 := sum_coef_project hN (project A) B
    have h2 := sum_coef_project hN (project A) (algPart B)
    rw [← expand_project hN B, project_expand hN] at h2
    rw [← expand_eq hN, expand_project hN] at h1 h2
    rw [expand_project hN] at h2
    linarith
  rw [← h, Matrix.trace_mul_comm, ← h, Matrix.trace_mul_comm]

end Hila
