import Verif.Props.LogSU
import Verif.Lemmas.Force
import Mathlib.Analysis.Calculus.InverseFunctionTheorem.FDeriv
import Mathlib.Analysis.Calculus.FDeriv.Analytic

/-!
# The logarithm of SU(N) as a function: uniqueness and derivative
-/

namespace Hila

open Matrix
open scoped Matrix.Norms.L2Operator

variable {N : ℕ}

theorem exp_I_inj {a b : ℝ} (ha : |a| < Real.pi) (hb : |b| < Real.pi) (h : Complex.exp (Complex.I * (a : ℂ)) = Complex.exp (Complex.I * (b : ℂ))) : a = b := by
  rw [Complex.exp_eq_exp_iff_exists_int] at h
  obtain ⟨k, hk⟩ := h
  have h1 : (a : ℂ) = b + k * (2 * Real.pi) := by
    have : Complex.I * (a : ℂ) = Complex.I * (b + k * (2 * Real.pi)) := by rw [hk]; ring
    exact mul_left_cancel₀ Complex.I_ne_zero this
  have h2 : a = b + k * (2 * Real.pi) := by exact_mod_cast h1
  rw [abs_lt] at ha hb
  have hp := Real.pi_pos
  have h3 : (k : ℝ) < 1 := by
    by_contra hc
    push Not at hc
    nlinarith
  have h4 : (-1 : ℝ) < k := by
    by_contra hc
    push Not at hc
    nlinarith
  have h5 : k = 0 := by
    have a1 : k < 1 := by exact_mod_cast h3
    have a2 : -1 < k := by exact_mod_cast h4
    omega
  rw [h5] at h2
  simpa using h2

/-- The exponential is injective on the algebra elements with angles below π. -/
theorem exp_expand_inj (hN : 0 < N) {x y : Alg N} (hx : ‖expand x‖ < Real.pi) (hy : ‖expand y‖ < Real.pi)
    (h : NormedSpace.exp (expand x) = NormedSpace.exp (expand y)) : x = y := by
  obtain ⟨V, hV, w, hw, -⟩ := expand_diag hN x
  obtain ⟨V', hV', w', hw', -⟩ := expand_diag hN y
  rw [hw, norm_antiOf hV] at hx
  rw [hw', norm_antiOf hV'] at hy
  rw [hw, hw', exp_antiOf hV, exp_antiOf hV'] at h
  have a1 : Vᴴ * V = 1 := mem_unitaryGroup_iff'.1 hV
  have a2 : V * Vᴴ = 1 := mem_unitaryGroup_iff.1 hV
  have b1 : V'ᴴ * V' = 1 := mem_unitaryGroup_iff'.1 hV'
  have b2 : V' * V'ᴴ = 1 := mem_unitaryGroup_iff.1 hV'
  have hT : V'ᴴ * V * diagonal (fun j => Complex.exp (Complex.I * (w j : ℂ))) = diagonal (fun j => Complex.exp (Complex.I * (w' j : ℂ))) * (V'ᴴ * V) := by
    unfold expOf at h
    have := congrArg (fun M => V'ᴴ * M * V) h
    beta_reduce at this
    rw [show V'ᴴ * (V * diagonal (fun j => Complex.exp (Complex.I * (w j : ℂ))) * Vᴴ) * V =
        V'ᴴ * V * diagonal (fun j => Complex.exp (Complex.I * (w j : ℂ))) * (Vᴴ * V) by simp only [Matrix.mul_assoc], a1, Matrix.mul_one] at this
    rw [this, show V'ᴴ * (V' * diagonal (fun j => Complex.exp (Complex.I * (w' j : ℂ))) * V'ᴴ) * V =
        V'ᴴ * V' * diagonal (fun j => Complex.exp (Complex.I * (w' j : ℂ))) * (V'ᴴ * V) by simp only [Matrix.mul_assoc], b1, Matrix.one_mul]
  have hT' : V'ᴴ * V * diagonal (fun j => Complex.I * (w j : ℂ)) = diagonal (fun j => Complex.I * (w' j : ℂ)) * (V'ᴴ * V) := by
    ext i j
    have := congrFun (congrFun hT i) j
    rw [mul_diagonal, diagonal_mul] at this ⊢
    by_cases h0 : (V'ᴴ * V) i j = 0
    · rw [h0, zero_mul, mul_zero]
    · rw [mul_comm] at this
      have he := mul_right_cancel₀ h0 this
      rw [exp_I_inj ((norm_le_pi_norm w j).trans_lt hx) ((norm_le_pi_norm w' i).trans_lt hy) he, mul_comm]
  have hA : antiOf V w = antiOf V' w' := by
    unfold antiOf
    have := congrArg (fun M => V' * M * Vᴴ) hT'
    beta_reduce at this
    rw [show V' * (V'ᴴ * V * diagonal (fun j => Complex.I * (w j : ℂ))) * Vᴴ = V' * V'ᴴ * (V * diagonal (fun j => Complex.I * (w j : ℂ)) * Vᴴ) by
        simp only [Matrix.mul_assoc], b2, Matrix.one_mul] at this
    rw [this, show V' * (diagonal (fun j => Complex.I * (w' j : ℂ)) * (V'ᴴ * V)) * Vᴴ = V' * diagonal (fun j => Complex.I * (w' j : ℂ)) * V'ᴴ * (V * Vᴴ) by
        simp only [Matrix.mul_assoc], a2, Matrix.mul_one]
  rw [← project_expand hN x, ← project_expand hN y, hw, hw', hA]

/-! ### Derivative of the exponential in the basis of eigenvectors -/

/-- Divided differences of the exponential. -/
noncomputable def mexp (w : Fin N → ℝ) (i j : Fin N) : ℂ :=
  if w i = w j then Complex.exp (Complex.I * (w i : ℂ))
  else (Complex.exp (Complex.I * (w i : ℂ)) - Complex.exp (Complex.I * (w j : ℂ))) / (Complex.I * (w i : ℂ) - Complex.I * (w j : ℂ))

theorem mexp_self (w : Fin N → ℝ) (i : Fin N) : mexp w i i = Complex.exp (Complex.I * (w i : ℂ)) := if_pos rfl

theorem mexp_ne {w : Fin N → ℝ} (hw : ‖w‖ < Real.pi) (i j : Fin N) : mexp w i j ≠ 0 := by
  unfold mexp
  split_ifs with h
  · exact Complex.exp_ne_zero _
  · refine div_ne_zero ?_ ?_
    · intro h0
      exact h (exp_I_inj ((norm_le_pi_norm w i).trans_lt hw) ((norm_le_pi_norm w j).trans_lt hw) (sub_eq_zero.1 h0))
    · intro h0
      have := mul_left_cancel₀ Complex.I_ne_zero (sub_eq_zero.1 h0)
      exact h (by exact_mod_cast this)

/-- The exponential on the line through a diagonal matrix in the direction of an off-diagonal unit. -/
theorem exp_diag_line (v : Fin N → ℂ) (i j : Fin N) (hij : i ≠ j) (hv : v i ≠ v j) (s : ℂ) :
    NormedSpace.exp (diagonal v + s • single i j (1 : ℂ)) =
      diagonal (fun k => Complex.exp (v k)) + (s * ((Complex.exp (v i) - Complex.exp (v j)) / (v i - v j))) • single i j (1 : ℂ) := by
  obtain ⟨E, hE⟩ : ∃ E : Mat N, E = single i j (1 : ℂ) := ⟨_, rfl⟩
  have hEE : E * E = 0 := by rw [hE, single_mul_single_of_ne _ _ _ _ hij.symm]
  have hDE : ∀ u : Fin N → ℂ, diagonal u * E = u i • E := by
    intro u; rw [hE]; ext a b
    rw [diagonal_mul, Matrix.smul_apply, single_apply]
    by_cases h : i = a ∧ j = b
    · rw [if_pos h, h.1]; rfl
    · rw [if_neg h]; simp
  have hED : ∀ u : Fin N → ℂ, E * diagonal u = u j • E := by
    intro u; rw [hE]; ext a b
    rw [mul_diagonal, Matrix.smul_apply, single_apply]
    by_cases h : i = a ∧ j = b
    · rw [if_pos h, h.2]; simp
    · rw [if_neg h]; simp
  obtain ⟨r, hr⟩ : ∃ r, r = s / (v j - v i) := ⟨_, rfl⟩
  have hne : v j - v i ≠ 0 := sub_ne_zero.2 hv.symm
  have hinv : (1 + r • E) * (1 - r • E) = 1 := by
    rw [Matrix.add_mul, Matrix.mul_sub, Matrix.mul_sub, Matrix.one_mul, Matrix.one_mul, Matrix.mul_one, Matrix.smul_mul, Matrix.mul_smul, hEE]
    simp
  have hU : IsUnit (1 + r • E) := by rw [isUnit_iff_isUnit_det]; exact isUnit_det_of_right_inverse hinv
  have hI : (1 + r • E)⁻¹ = 1 - r • E := inv_eq_right_inv hinv
  have hconj : ∀ u : Fin N → ℂ, (1 + r • E) * diagonal u * (1 + r • E)⁻¹ = diagonal u + (r * (u j - u i)) • E := by
    intro u
    rw [hI, Matrix.add_mul, Matrix.one_mul, Matrix.mul_sub, Matrix.mul_one, Matrix.add_mul, Matrix.smul_mul, Matrix.mul_smul, hDE, hED, Matrix.smul_mul,
      Matrix.smul_mul, Matrix.mul_smul, hEE]
    simp only [smul_smul, smul_zero, add_zero, mul_sub, sub_smul]
    abel
  have e1 : diagonal v + s • E = (1 + r • E) * diagonal v * (1 + r • E)⁻¹ := by
    rw [hconj, hr, div_mul_cancel₀ _ hne]
  rw [← hE, e1, exp_conj _ _ hU, exp_diagonal]
  have e2 : NormedSpace.exp v = fun k => Complex.exp (v k) := by
    funext k
    rw [Pi.coe_exp, Complex.exp_eq_exp_ℂ]
  rw [e2, hconj, hr]
  congr 2
  have hne' : v i - v j ≠ 0 := sub_ne_zero.2 hv
  field_simp
  ring

theorem exp_conj_unitary {V : Mat N} (hV : V ∈ unitaryGroup (Fin N) ℂ) (A : Mat N) : NormedSpace.exp (V * A * Vᴴ) = V * NormedSpace.exp A * Vᴴ := by
  have h1 : V * Vᴴ = 1 := mem_unitaryGroup_iff.1 hV
  have hi : V⁻¹ = Vᴴ := inv_eq_right_inv h1
  have hu : IsUnit V := by rw [isUnit_iff_isUnit_det]; exact isUnit_det_of_right_inverse h1
  rw [← hi, exp_conj _ _ hu]

theorem exp_strict (X : Mat N) : HasStrictFDerivAt (NormedSpace.exp : Mat N → Mat N) (fderiv ℂ NormedSpace.exp X) X :=
  (NormedSpace.exp_analytic X).hasStrictFDerivAt

/-- Directional derivative from the values on a line. -/
theorem fderiv_line (X Z Y : Mat N) (h : HasDerivAt (fun s : ℂ => NormedSpace.exp (X + s • Z)) Y 0) : fderiv ℂ (NormedSpace.exp : Mat N → Mat N) X Z = Y := by
  have h1 : HasDerivAt (fun s : ℂ => X + s • Z) Z 0 := by
    have := ((hasDerivAt_id (0 : ℂ)).smul_const Z).const_add X
    simpa using this
  have h2 : HasFDerivAt (NormedSpace.exp : Mat N → Mat N) (fderiv ℂ NormedSpace.exp X) ((fun s : ℂ => X + s • Z) 0) := by
    simpa using (exp_strict X).hasFDerivAt
  exact (h2.comp_hasDerivAt (0 : ℂ) h1).unique h

theorem dexp_unit {V : Mat N} (hV : V ∈ unitaryGroup (Fin N) ℂ) (w : Fin N → ℝ) (i j : Fin N) :
    fderiv ℂ (NormedSpace.exp : Mat N → Mat N) (antiOf V w) (V * single i j 1 * Vᴴ) = mexp w i j • (V * single i j 1 * Vᴴ) := by
  have e0 : ∀ s : ℂ, antiOf V w + s • (V * single i j 1 * Vᴴ) = V * (diagonal (fun k => Complex.I * (w k : ℂ)) + s • single i j 1) * Vᴴ := by
    intro s
    unfold antiOf
    rw [Matrix.mul_add, Matrix.add_mul, Matrix.mul_smul, Matrix.smul_mul]
  apply fderiv_line
  by_cases h : w i = w j
  · unfold mexp
    rw [if_pos h]
    have hc : Commute (diagonal fun k => Complex.I * (w k : ℂ)) (single i j (1 : ℂ)) := by
      show _ * _ = _ * _
      ext a b
      rw [diagonal_mul, mul_diagonal, single_apply]
      by_cases hab : i = a ∧ j = b
      · rw [if_pos hab, ← hab.1, ← hab.2, h]; ring
      · rw [if_neg hab]; simp
    have e1 : ∀ s : ℂ, NormedSpace.exp (antiOf V w + s • (V * single i j 1 * Vᴴ)) =
        V * (diagonal (fun k => Complex.exp (Complex.I * (w k : ℂ))) * NormedSpace.exp (s • single i j (1 : ℂ))) * Vᴴ := by
      intro s
      rw [e0, exp_conj_unitary hV, Matrix.exp_add_of_commute _ _ (hc.smul_right s), exp_diagonal]
      congr 4
      funext k
      rw [Pi.coe_exp, Complex.exp_eq_exp_ℂ]
    simp only [e1]
    have h1 := hasDerivAt_exp_smul_const (𝕂 := ℂ) (single i j (1 : ℂ) : Mat N) 0
    rw [zero_smul, NormedSpace.exp_zero, Matrix.one_mul] at h1
    have h2 := ((h1.const_mul (V * diagonal fun k => Complex.exp (Complex.I * (w k : ℂ)))).mul_const Vᴴ)
    simp only [Matrix.mul_assoc] at h2 ⊢
    refine h2.congr_deriv ?_
    rw [← Matrix.mul_assoc (diagonal _), show diagonal (fun k => Complex.exp (Complex.I * (w k : ℂ))) * single i j (1 : ℂ) =
      Complex.exp (Complex.I * (w i : ℂ)) • single i j (1 : ℂ) from ?_, Matrix.smul_mul, Matrix.mul_smul]
    ext a b
    rw [diagonal_mul, Matrix.smul_apply, single_apply]
    by_cases hab : i = a ∧ j = b
    · rw [if_pos hab, hab.1]; rfl
    · rw [if_neg hab]; simp
  · unfold mexp
    rw [if_neg h]
    have hij : i ≠ j := fun h0 => h (by rw [h0])
    have hv : Complex.I * (w i : ℂ) ≠ Complex.I * (w j : ℂ) := fun h0 => h (by
      have := mul_left_cancel₀ Complex.I_ne_zero h0
      exact_mod_cast this)
    have e1 : ∀ s : ℂ, NormedSpace.exp (antiOf V w + s • (V * single i j 1 * Vᴴ)) = expOf V w +
        s • (((Complex.exp (Complex.I * (w i : ℂ)) - Complex.exp (Complex.I * (w j : ℂ))) / (Complex.I * (w i : ℂ) - Complex.I * (w j : ℂ))) •
          (V * single i j 1 * Vᴴ)) := by
      intro s
      rw [e0, exp_conj_unitary hV, exp_diag_line _ i j hij hv s, Matrix.mul_add, Matrix.add_mul, Matrix.mul_smul, Matrix.smul_mul, smul_smul]
      rfl
    simp only [e1]
    have := ((hasDerivAt_id (0 : ℂ)).smul_const (((Complex.exp (Complex.I * (w i : ℂ)) - Complex.exp (Complex.I * (w j : ℂ))) /
      (Complex.I * (w i : ℂ) - Complex.I * (w j : ℂ))) • (V * single i j 1 * Vᴴ))).const_add (expOf V w)
    simpa using this

/-- The derivative multiplies every matrix element in the basis of eigenvectors with a divided difference. -/
theorem dexp_eig {V : Mat N} (hV : V ∈ unitaryGroup (Fin N) ℂ) (w : Fin N → ℝ) (Z : Mat N) :
    Vᴴ * fderiv ℂ (NormedSpace.exp : Mat N → Mat N) (antiOf V w) Z * V = Matrix.of fun i j => mexp w i j * (Vᴴ * Z * V) i j := by
  have a1 : Vᴴ * V = 1 := mem_unitaryGroup_iff'.1 hV
  have a2 : V * Vᴴ = 1 := mem_unitaryGroup_iff.1 hV
  obtain ⟨Y, hY⟩ : ∃ Y, Y = Vᴴ * Z * V := ⟨_, rfl⟩
  have hZ : Z = ∑ i, ∑ j, Y i j • (V * single i j 1 * Vᴴ) := by
    have h1 : Z = V * Y * Vᴴ := by
      rw [hY, show V * (Vᴴ * Z * V) * Vᴴ = V * Vᴴ * Z * (V * Vᴴ) by simp only [Matrix.mul_assoc], a2, Matrix.one_mul, Matrix.mul_one]
    rw [h1]
    conv_lhs => rw [matrix_eq_sum_single Y]
    rw [Matrix.mul_sum, Matrix.sum_mul]
    refine Finset.sum_congr rfl fun i _ => ?_
    rw [Matrix.mul_sum, Matrix.sum_mul]
    refine Finset.sum_congr rfl fun j _ => ?_
    rw [← Matrix.smul_mul, ← Matrix.mul_smul, smul_single, smul_eq_mul, mul_one]
  rw [← hY]
  conv_lhs => rw [hZ]
  rw [map_sum]
  simp only [map_sum, map_smul, dexp_unit hV]
  conv_rhs => rw [matrix_eq_sum_single (Matrix.of fun i j => mexp w i j * Y i j)]
  rw [Matrix.mul_sum, Matrix.sum_mul]
  refine Finset.sum_congr rfl fun i _ => ?_
  rw [Matrix.mul_sum, Matrix.sum_mul]
  refine Finset.sum_congr rfl fun j _ => ?_
  rw [smul_smul, Matrix.mul_smul, Matrix.smul_mul, show Vᴴ * (V * single i j (1 : ℂ) * Vᴴ) * V = Vᴴ * V * single i j 1 * (Vᴴ * V) by simp only [Matrix.mul_assoc],
    a1, Matrix.one_mul, Matrix.mul_one, smul_single, smul_eq_mul, mul_one, of_apply, mul_comm]

theorem dexp_inj {V : Mat N} (hV : V ∈ unitaryGroup (Fin N) ℂ) {w : Fin N → ℝ} (hw : ‖w‖ < Real.pi) :
    Function.Injective (fderiv ℂ (NormedSpace.exp : Mat N → Mat N) (antiOf V w)) := by
  have a2 : V * Vᴴ = 1 := mem_unitaryGroup_iff.1 hV
  rw [injective_iff_map_eq_zero]
  intro Z hZ
  have h1 := dexp_eig hV w Z
  rw [hZ, Matrix.mul_zero, Matrix.zero_mul] at h1
  have h2 : Vᴴ * Z * V = 0 := by
    ext i j
    have := congrFun (congrFun h1 i) j
    rw [of_apply, Matrix.zero_apply] at this
    exact (mul_eq_zero.1 this.symm).resolve_left (mexp_ne hw i j)
  have h3 : Z = V * (Vᴴ * Z * V) * Vᴴ := by
    rw [show V * (Vᴴ * Z * V) * Vᴴ = V * Vᴴ * Z * (V * Vᴴ) by simp only [Matrix.mul_assoc], a2, Matrix.one_mul, Matrix.mul_one]
  rw [h3, h2, Matrix.mul_zero, Matrix.zero_mul]

theorem trace_eigen {V : Mat N} (hV : V ∈ unitaryGroup (Fin N) ℂ) (A B : Mat N) : (A * B).trace = (Vᴴ * A * V * (Vᴴ * B * V)).trace := by
  have a2 : V * Vᴴ = 1 := mem_unitaryGroup_iff.1 hV
  have t := trace_mul_comm (Vᴴ * A * B) V
  rw [show Vᴴ * A * V * (Vᴴ * B * V) = Vᴴ * A * (V * Vᴴ) * B * V by simp only [Matrix.mul_assoc], a2, Matrix.mul_one, t,
    show V * (Vᴴ * A * B) = V * Vᴴ * (A * B) by simp only [Matrix.mul_assoc], a2, Matrix.one_mul]

/-- The trace of the derivative with a matrix that commutes with the logarithm. -/
theorem dexp_trace {V : Mat N} (hV : V ∈ unitaryGroup (Fin N) ℂ) (w : Fin N → ℝ) (C Z : Mat N) (hc : C * antiOf V w = antiOf V w * C) :
    (C * (fderiv ℂ (NormedSpace.exp : Mat N → Mat N) (antiOf V w) Z * (expOf V w)ᴴ)).trace = (C * Z).trace := by
  have a1 : Vᴴ * V = 1 := mem_unitaryGroup_iff'.1 hV
  have a2 : V * Vᴴ = 1 := mem_unitaryGroup_iff.1 hV
  have h1 := dexp_eig hV w Z
  obtain ⟨D, hD⟩ : ∃ D, D = fderiv ℂ (NormedSpace.exp : Mat N → Mat N) (antiOf V w) Z := ⟨_, rfl⟩
  rw [← hD] at h1 ⊢
  obtain ⟨B, hB⟩ : ∃ B, B = Vᴴ * C * V := ⟨_, rfl⟩
  have hBw : ∀ i j, B i j ≠ 0 → w i = w j := by
    intro i j h
    have e1 : B * diagonal (fun j => Complex.I * (w j : ℂ)) = diagonal (fun j => Complex.I * (w j : ℂ)) * B := by
      have := congrArg (fun M => Vᴴ * M * V) hc
      beta_reduce at this
      unfold antiOf at this
      rw [show Vᴴ * (C * (V * diagonal (fun j => Complex.I * (w j : ℂ)) * Vᴴ)) * V = Vᴴ * C * V * diagonal (fun j => Complex.I * (w j : ℂ)) * (Vᴴ * V) by
        simp only [Matrix.mul_assoc], show Vᴴ * (V * diagonal (fun j => Complex.I * (w j : ℂ)) * Vᴴ * C) * V =
        Vᴴ * V * diagonal (fun j => Complex.I * (w j : ℂ)) * (Vᴴ * C * V) by simp only [Matrix.mul_assoc], a1, Matrix.mul_one, Matrix.one_mul, ← hB] at this
      exact this
    have e2 := congrFun (congrFun e1 i) j
    rw [mul_diagonal, diagonal_mul, mul_comm (B i j)] at e2
    have e3 := mul_left_cancel₀ Complex.I_ne_zero (mul_right_cancel₀ h e2)
    exact_mod_cast e3.symm
  have e2 : Vᴴ * (D * (expOf V w)ᴴ) * V = Vᴴ * D * V * diagonal (star fun j => Complex.exp (Complex.I * (w j : ℂ))) := by
    unfold expOf
    rw [conjTranspose_mul, conjTranspose_mul, conjTranspose_conjTranspose, diagonal_conjTranspose]
    rw [show Vᴴ * (D * (V * (diagonal (star fun j => Complex.exp (Complex.I * (w j : ℂ))) * Vᴴ))) * V =
      Vᴴ * D * V * diagonal (star fun j => Complex.exp (Complex.I * (w j : ℂ))) * (Vᴴ * V) by simp only [Matrix.mul_assoc], a1, Matrix.mul_one]
  rw [trace_eigen hV C, trace_eigen hV C Z, e2, h1, ← hB]
  unfold trace
  refine Finset.sum_congr rfl fun i _ => ?_
  rw [diag_apply, diag_apply, mul_apply, mul_apply]
  refine Finset.sum_congr rfl fun j _ => ?_
  rw [mul_diagonal, of_apply, Pi.star_apply]
  by_cases h : B i j = 0
  · rw [h, zero_mul, zero_mul]
  · have hw := hBw i j h
    have : star (Complex.exp (Complex.I * (w i : ℂ))) * Complex.exp (Complex.I * (w i : ℂ)) = 1 := by
      rw [Complex.star_def, ← Complex.exp_conj, ← Complex.exp_add]
      simp
    unfold mexp
    rw [if_pos hw.symm, ← hw]
    linear_combination (B i j * (Vᴴ * Z * V) j i) * this

/-! ### The logarithm -/

/-- `lg` is the inverse of the exponential for the algebra elements whose eigenvalues have absolute values below θ. -/
def IsLog (θ : ℝ) (lg : Mat N → Alg N) : Prop := ∀ x : Alg N, ‖expand x‖ < θ → lg (NormedSpace.exp (expand x)) = x

/-- The matrix has a logarithm with eigenvalues of absolute values below θ. -/
def HasLog (θ : ℝ) (P : Mat N) : Prop := ∃ x : Alg N, ‖expand x‖ < θ ∧ NormedSpace.exp (expand x) = P

theorem mderiv_hasDerivAt {f : ℝ → Mat N} {f' : Mat N} (h : MDeriv f f') : HasDerivAt f f' 0 := by
  have e : ∀ M : Mat N, M = ∑ i, ∑ j, M i j • single i j (1 : ℂ) := by
    intro M
    conv_lhs => rw [matrix_eq_sum_single M]
    refine Finset.sum_congr rfl fun i _ => Finset.sum_congr rfl fun j _ => ?_
    rw [smul_single, smul_eq_mul, mul_one]
  have e1 : f = fun t => ∑ i, ∑ j, f t i j • single i j (1 : ℂ) := funext fun t => e (f t)
  rw [e1, e f']
  exact HasDerivAt.fun_sum fun i _ => HasDerivAt.fun_sum fun j _ => (h i j).smul_const _

theorem hasDerivAt_mderiv {f : ℝ → Mat N} {f' : Mat N} (h : HasDerivAt f f' 0) : MDeriv f f' := by
  intro i j
  let l : Mat N →ₗ[ℝ] ℂ := { toFun := fun M => M i j, map_add' := fun _ _ => rfl, map_smul' := fun _ _ => rfl }
  exact (LinearMap.toContinuousLinearMap l).hasFDerivAt.comp_hasDerivAt 0 h

theorem det_expOf {V : Mat N} (hV : V ∈ unitaryGroup (Fin N) ℂ) (w : Fin N → ℝ) : (expOf V w).det = Complex.exp (Complex.I * ((∑ j, w j : ℝ) : ℂ)) := by
  have a2 : V * Vᴴ = 1 := mem_unitaryGroup_iff.1 hV
  have hd : V.det * Vᴴ.det = 1 := by rw [← det_mul, a2, det_one]
  unfold expOf
  rw [det_mul, det_mul, det_diagonal, ← Complex.exp_sum, mul_right_comm, hd, one_mul]
  push_cast
  rw [Finset.mul_sum]

theorem det_exp_expand (hN : 0 < N) (x : Alg N) : (NormedSpace.exp (expand x)).det = 1 := by
  obtain ⟨V, hV, w, hw, h0⟩ := expand_diag hN x
  rw [hw, exp_antiOf hV, det_expOf hV, h0]
  simp

theorem exp_scalar_add (hN : 0 < N) (x : Alg N) (c : ℂ) : (NormedSpace.exp (expand x + c • (1 : Mat N))).det = Complex.exp (N * c) := by
  have hc : Commute (expand x) (c • (1 : Mat N)) := (Commute.one_right _).smul_right c
  have e1 : (c • (1 : Mat N)) = diagonal (fun _ => c) := by rw [smul_one_eq_diagonal]
  rw [Matrix.exp_add_of_commute _ _ hc, det_mul, det_exp_expand hN, one_mul, e1, exp_diagonal, det_diagonal]
  have e2 : NormedSpace.exp (fun _ : Fin N => c) = fun _ => Complex.exp c := by
    funext k
    rw [Pi.coe_exp, Complex.exp_eq_exp_ℂ]
  rw [e2, Finset.prod_const, Finset.card_univ, Fintype.card_fin, ← Complex.exp_nat_mul]

/-- The derivative of the logarithm along a curve in SU(N): it exists, and its product with the logarithm has the trace that one would
get if the matrices commuted. The same holds for every matrix that commutes with the logarithm. -/
theorem log_curve (hN : 0 < N) {θ : ℝ} (hθ : θ ≤ Real.pi) {lg : Mat N → Alg N} (hlg : IsLog θ lg) {P : ℝ → Mat N} {P' : Mat N} (hP : MDeriv P P')
    (hSU : ∀ t, P t ∈ specialUnitaryGroup (Fin N) ℂ) (h0 : HasLog θ (P 0)) :
    (∀ᶠ t in nhds (0 : ℝ), HasLog θ (P t)) ∧ ∃ C', MDeriv (fun t => expand (lg (P t))) C' ∧ ∀ Y, Y * expand (lg (P 0)) = expand (lg (P 0)) * Y → (Y * C').trace = (Y * (P' * (P 0)ᴴ)).trace := by
  obtain ⟨x, hx, hx0⟩ := h0
  have hl0 : lg (P 0) = x := by rw [← hx0]; exact hlg x hx
  rw [hl0]
  obtain ⟨V, hV, w, hw, -⟩ := expand_diag hN x
  obtain ⟨X, hX⟩ : ∃ X, X = expand x := ⟨_, rfl⟩
  have hwn : ‖w‖ < Real.pi := by rw [← norm_antiOf hV, ← hw]; exact hx.trans_le hθ
  have hXw : X = antiOf V w := by rw [hX, hw]
  have hinj := dexp_inj hV hwn
  rw [← hXw] at hinj
  let el : Mat N ≃ₗ[ℂ] Mat N := LinearEquiv.ofInjectiveEndo (fderiv ℂ (NormedSpace.exp : Mat N → Mat N) X).toLinearMap hinj
  let e : Mat N ≃L[ℂ] Mat N := el.toContinuousLinearEquiv
  have he : (e : Mat N →L[ℂ] Mat N) = fderiv ℂ (NormedSpace.exp : Mat N → Mat N) X := by
    ext Z : 1
    rfl
  have hs : HasStrictFDerivAt (NormedSpace.exp : Mat N → Mat N) (e : Mat N →L[ℂ] Mat N) X := by rw [he]; exact exp_strict X
  obtain ⟨G, hG⟩ : ∃ G, G = hs.localInverse NormedSpace.exp e X := ⟨_, rfl⟩
  have hPX : P 0 = NormedSpace.exp X := by rw [hX, hx0]
  have hPd := mderiv_hasDerivAt hP
  have hGd : HasFDerivAt G (e.symm : Mat N →L[ℂ] Mat N) (P 0) := by rw [hPX, hG]; exact hs.to_localInverse.hasFDerivAt
  have hC : HasDerivAt (fun t => G (P t)) (e.symm P') 0 := (hGd.restrictScalars ℝ).comp_hasDerivAt 0 hPd
  have hG0 : G (P 0) = X := by rw [hPX, hG]; exact hs.localInverse_apply_image
  have hPc : Filter.Tendsto P (nhds 0) (nhds (NormedSpace.exp X)) := by rw [← hPX]; exact hPd.continuousAt
  have hGc : Filter.Tendsto (fun t => G (P t)) (nhds 0) (nhds X) := by
    have := hC.continuousAt.tendsto
    rwa [hG0] at this
  have hr : ∀ᶠ t in nhds (0 : ℝ), NormedSpace.exp (G (P t)) = P t := by
    rw [hG]
    exact hPc.eventually hs.eventually_right_inverse
  have hXs : -Xᴴ = X := by rw [hX, expand_eq hN, algMat_star, neg_neg]
  have hGs : Filter.Tendsto (fun t => -(G (P t))ᴴ) (nhds 0) (nhds X) := by
    have h1 : Filter.Tendsto (fun M : Mat N => -Mᴴ) (nhds X) (nhds (-Xᴴ)) := (continuous_id.matrix_conjTranspose.neg).tendsto X
    rw [hXs] at h1
    exact h1.comp hGc
  have hl : ∀ᶠ t in nhds (0 : ℝ), G (NormedSpace.exp (-(G (P t))ᴴ)) = -(G (P t))ᴴ := by
    have := hGs.eventually hs.eventually_left_inverse
    rw [← hG] at this
    exact this
  have hanti : ∀ᶠ t in nhds (0 : ℝ), -(G (P t))ᴴ = G (P t) := by
    filter_upwards [hr, hl] with t h1 h2
    rw [← h2]
    congr 1
    rw [exp_neg, exp_conjTranspose, h1]
    have hu : P t ∈ unitaryGroup (Fin N) ℂ := (mem_specialUnitaryGroup_iff.1 (hSU t)).1
    exact inv_eq_right_inv (mem_unitaryGroup_iff'.1 hu)
  have htr : ∀ᶠ t in nhds (0 : ℝ), ‖(G (P t)).trace‖ < 1 := by
    have h1 : Filter.Tendsto (fun M : Mat N => ‖M.trace‖) (nhds X) (nhds ‖X.trace‖) := (continuous_id.matrix_trace.norm).tendsto X
    rw [show X.trace = 0 by rw [hX, expand_eq hN]; exact algMat_trace hN x, norm_zero] at h1
    exact (h1.comp hGc).eventually (gt_mem_nhds one_pos)
  have hnorm : ∀ᶠ t in nhds (0 : ℝ), ‖G (P t)‖ < θ := by
    have h1 : Filter.Tendsto (fun t => ‖G (P t)‖) (nhds 0) (nhds ‖X‖) := hGc.norm
    exact h1.eventually (gt_mem_nhds (by rw [hX]; exact hx))
  have hfin : ∀ᶠ t in nhds (0 : ℝ), expand (lg (P t)) = G (P t) ∧ HasLog θ (P t) := by
    filter_upwards [hr, hanti, htr, hnorm] with t h1 h2 h3 h4
    obtain ⟨C, hC⟩ : ∃ C, C = G (P t) := ⟨_, rfl⟩
    rw [← hC] at h1 h2 h3 h4 ⊢
    have hdec : C = expand (project C) + (C.trace / N) • (1 : Mat N) := by
      rw [expand_project hN]
      unfold algPart
      have h5 : (1 / 2 : ℂ) • (C - Cᴴ) = C := by
        rw [show Cᴴ = -C by rw [← neg_neg Cᴴ, h2], sub_neg_eq_add, ← two_smul ℂ, smul_smul]
        norm_num
      rw [h5, sub_add_cancel]
    have hdet := exp_scalar_add hN (project C) (C.trace / N)
    rw [← hdec, h1, (mem_specialUnitaryGroup_iff.1 (hSU t)).2, mul_div_cancel₀ _ (Nat.cast_ne_zero.2 (by omega))] at hdet
    have hz : C.trace = 0 := by
      obtain ⟨k, hk⟩ := Complex.exp_eq_one_iff.1 hdet.symm
      rw [hk] at h3 ⊢
      have h5 : ‖(k : ℂ) * (2 * Real.pi * Complex.I)‖ = |(k : ℝ)| * (2 * Real.pi) := by
        rw [norm_mul, norm_mul, norm_mul, Complex.norm_I, Complex.norm_real, Complex.norm_intCast, Real.norm_eq_abs, abs_of_pos Real.pi_pos]
        norm_num
      rw [h5] at h3
      have h6 : k = 0 := by
        by_contra hk0
        have h7 : (1 : ℝ) ≤ |(k : ℝ)| := by exact_mod_cast Int.one_le_abs hk0
        nlinarith [Real.two_le_pi]
      rw [h6]
      simp
    rw [hz, zero_div, zero_smul, add_zero] at hdec
    have := hlg (project C) (by rw [← hdec]; exact h4)
    rw [← hdec, h1] at this
    refine ⟨by rw [this, ← hdec], project C, by rw [← hdec]; exact h4, by rw [← hdec, h1]⟩
  refine ⟨hfin.mono fun t h => h.2, e.symm P', hasDerivAt_mderiv (hC.congr_of_eventuallyEq (hfin.mono fun t h => h.1)), ?_⟩
  have hD : fderiv ℂ (NormedSpace.exp : Mat N → Mat N) X (e.symm P') = P' := by
    rw [← he]
    exact e.apply_symm_apply P'
  intro Y hY
  have := dexp_trace hV w Y (e.symm P') (by rw [← hw, hY])
  rw [← hXw, hD] at this
  rw [← this, hPX, hXw, exp_antiOf hV]

end Hila
