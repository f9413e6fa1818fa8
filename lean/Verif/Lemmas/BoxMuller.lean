import Verif.Model.SampleSpec
import Mathlib.Analysis.SpecialFunctions.PolarCoord
import Mathlib.MeasureTheory.Function.JacobianOneDim
import Mathlib.Probability.Distributions.Gaussian.Real

/-!
# Two uniform numbers to two normal numbers
-/

namespace Hila

open MeasureTheory ProbabilityTheory Set

/-- Radius and angle of the Box-Muller transform. -/
noncomputable def bmPair (x : ℝ × ℝ) : ℝ × ℝ :=
  (Real.sqrt (-Real.log (1 - x.2) * 2) * Real.sin (2 * Real.pi * x.1),
    Real.sqrt (-Real.log (1 - x.2) * 2) * Real.cos (2 * Real.pi * x.1))

theorem bmPair_measurable : Measurable bmPair := by
  unfold bmPair; fun_prop

theorem bm_angle (g : ℝ → ENNReal) :
    ∫⁻ x, g x ∂unif01 = ∫⁻ t in Ioo (-Real.pi) Real.pi, ENNReal.ofReal (1 / (2 * Real.pi)) * g ((t + Real.pi) / (2 * Real.pi)) := by
  have hpi := Real.pi_pos
  have himg : (fun t : ℝ => (t + Real.pi) / (2 * Real.pi)) '' Ioo (-Real.pi) Real.pi = Ioo 0 1 := by
    ext y
    simp only [mem_image, mem_Ioo]
    constructor
    · rintro ⟨t, ⟨h1, h2⟩, rfl⟩
      exact ⟨div_pos (by linarith) (by linarith), by rw [div_lt_one (by linarith)]; linarith⟩
    · rintro ⟨h1, h2⟩
      refine ⟨2 * Real.pi * y - Real.pi, ⟨by nlinarith, by nlinarith⟩, ?_⟩
      field_simp; ring
  have h := lintegral_image_eq_lintegral_abs_deriv_mul (s := Ioo (-Real.pi) Real.pi)
    (f := fun t : ℝ => (t + Real.pi) / (2 * Real.pi)) (f' := fun _ => 1 / (2 * Real.pi)) measurableSet_Ioo
    (fun x _ => (((hasDerivAt_id x).add_const Real.pi).div_const (2 * Real.pi)).hasDerivWithinAt)
    (fun a _ b _ hab => by
      have : a + Real.pi = b + Real.pi := by
        have h2 : (2 * Real.pi) ≠ 0 := by positivity
        simpa [div_left_inj' h2] using hab
      linarith) g
  rw [himg] at h
  rw [unif01, Measure.restrict_congr_set Ioo_ae_eq_Ico.symm, h]
  simp only [abs_of_pos (show (0 : ℝ) < 1 / (2 * Real.pi) by positivity)]

theorem bm_radius (g : ℝ → ENNReal) :
    ∫⁻ x, g x ∂unif01 = ∫⁻ r in Ioi (0 : ℝ), ENNReal.ofReal (r * Real.exp (-(r ^ 2 / 2))) * g (1 - Real.exp (-(r ^ 2 / 2))) := by
  have himg : (fun r : ℝ => 1 - Real.exp (-(r ^ 2 / 2))) '' Ioi 0 = Ioo 0 1 := by
    ext y
    simp only [mem_image, mem_Ioo, mem_Ioi]
    constructor
    · rintro ⟨r, h, rfl⟩
      refine ⟨?_, by linarith [Real.exp_pos (-(r ^ 2 / 2))]⟩
      have : Real.exp (-(r ^ 2 / 2)) < 1 := by
        rw [Real.exp_lt_one_iff]; have : 0 < r ^ 2 := by positivity
        linarith
      linarith
    · rintro ⟨h1, h2⟩
      have hl : Real.log (1 - y) < 0 := Real.log_neg (by linarith) (by linarith)
      refine ⟨Real.sqrt (-Real.log (1 - y) * 2), Real.sqrt_pos.2 (by linarith), ?_⟩
      rw [Real.sq_sqrt (by linarith), show -(-Real.log (1 - y) * 2 / 2) = Real.log (1 - y) by ring, Real.exp_log (by linarith)]
      ring
  have h := lintegral_image_eq_lintegral_abs_deriv_mul (s := Ioi (0 : ℝ))
    (f := fun r : ℝ => 1 - Real.exp (-(r ^ 2 / 2))) (f' := fun r => r * Real.exp (-(r ^ 2 / 2))) measurableSet_Ioi
    (fun x _ => by
      have h1 : HasDerivAt (fun r : ℝ => -(r ^ 2 / 2)) (-x) x := by
        have := ((hasDerivAt_pow 2 x).div_const 2).neg
        refine this.congr_deriv ?_
        simp
      exact ((h1.exp.const_sub 1).congr_deriv (by ring)).hasDerivWithinAt)
    (fun a ha b hb hab => by
      simp only [mem_Ioi] at ha hb
      have h1 : Real.exp (-(a ^ 2 / 2)) = Real.exp (-(b ^ 2 / 2)) := by simpa using hab
      have h2 := Real.exp_injective h1
      have h3 : a ^ 2 = b ^ 2 := by linarith
      exact (pow_left_inj₀ ha.le hb.le two_ne_zero).1 h3) g
  rw [himg] at h
  rw [unif01, Measure.restrict_congr_set Ioo_ae_eq_Ico.symm, h]
  refine setLIntegral_congr_fun measurableSet_Ioi fun r hr => ?_
  simp only [mem_Ioi] at hr
  rw [abs_of_pos (by positivity)]

/-- The pair of normal numbers in terms of the plane. -/
theorem normal_pair (f : ℝ × ℝ → ENNReal) (hf : Measurable f) :
    ∫⁻ p, f p ∂((gaussianReal 0 1).prod (gaussianReal 0 1))
      = ∫⁻ p : ℝ × ℝ, ENNReal.ofReal (1 / (2 * Real.pi) * Real.exp (-((p.1 ^ 2 + p.2 ^ 2) / 2))) * f p := by
  rw [gaussianReal_of_var_ne_zero 0 one_ne_zero, prod_withDensity (by fun_prop) (by fun_prop),
    lintegral_withDensity_eq_lintegral_mul _ (by fun_prop) hf]
  refine lintegral_congr fun p => ?_
  simp only [Pi.mul_apply, gaussianPDF]
  rw [← ENNReal.ofReal_mul (gaussianPDFReal_nonneg _ _ _)]
  congr 2
  simp only [gaussianPDFReal, NNReal.coe_one, mul_one, sub_zero]
  rw [mul_mul_mul_comm, ← Real.exp_add, ← mul_inv, Real.mul_self_sqrt (by positivity), one_div]
  congr 2
  ring

theorem normal_pair_turn : ((gaussianReal 0 1).prod (gaussianReal 0 1)).map (fun p : ℝ × ℝ => (-p.2, -p.1))
    = (gaussianReal 0 1).prod (gaussianReal 0 1) := by
  have h1 : MeasurePreserving (fun x : ℝ => -x) (gaussianReal 0 1) (gaussianReal 0 1) :=
    ⟨measurable_neg, by simpa using gaussianReal_map_neg (μ := 0) (v := 1)⟩
  have h2 := h1.prod h1
  have h3 := h2.comp (Measure.measurePreserving_swap (μ := gaussianReal 0 1) (ν := gaussianReal 0 1))
  exact h3.map_eq

/-- Two uniform numbers give two independent normal numbers. -/
theorem bmPair_law : (unif01.prod unif01).map bmPair = (gaussianReal 0 1).prod (gaussianReal 0 1) := by
  refine Measure.ext_of_lintegral _ fun f hf => ?_
  rw [lintegral_map hf bmPair_measurable]
  set g : ℝ × ℝ → ENNReal := fun p => f (-p.2, -p.1) with hg
  have hgm : Measurable g := by rw [hg]; fun_prop
  have e1 : ∫⁻ p, f p ∂((gaussianReal 0 1).prod (gaussianReal 0 1)) = ∫⁻ p, g p ∂((gaussianReal 0 1).prod (gaussianReal 0 1)) := by
    conv_lhs => rw [← normal_pair_turn]
    rw [lintegral_map hf (by fun_prop)]
  rw [e1, normal_pair g hgm, ← lintegral_comp_polarCoord_symm]
  have htgt : polarCoord.target = Ioi (0 : ℝ) ×ˢ Ioo (-Real.pi) Real.pi := rfl
  have hsymm : ∀ p : ℝ × ℝ, polarCoord.symm p = (p.1 * Real.cos p.2, p.1 * Real.sin p.2) := fun p => rfl
  have e2 : ∫⁻ a, f (bmPair a) ∂(unif01.prod unif01) = ∫⁻ x, ∫⁻ y, f (bmPair (x, y)) ∂unif01 ∂unif01 :=
    lintegral_prod _ (hf.comp bmPair_measurable).aemeasurable
  rw [e2, bm_angle, htgt, Measure.volume_eq_prod, ← Measure.prod_restrict, lintegral_prod_symm _ (by
    simp only [hsymm, smul_eq_mul]
    exact Measurable.aemeasurable (by fun_prop))]
  refine setLIntegral_congr_fun measurableSet_Ioo fun t _ => ?_
  rw [bm_radius, ← lintegral_const_mul _ (by
    unfold bmPair
    fun_prop)]
  refine setLIntegral_congr_fun measurableSet_Ioi fun r hr => ?_
  simp only [mem_Ioi] at hr
  have hpi := Real.pi_pos
  have hang : 2 * Real.pi * ((t + Real.pi) / (2 * Real.pi)) = t + Real.pi := by field_simp
  have hrad : Real.sqrt (-Real.log (1 - (1 - Real.exp (-(r ^ 2 / 2)))) * 2) = r := by
    rw [sub_sub_cancel, Real.log_exp, neg_neg, div_mul_cancel₀ _ two_ne_zero, Real.sqrt_sq hr.le]
  simp only [bmPair, hang, hrad, hsymm, smul_eq_mul, hg, Real.sin_add_pi, Real.cos_add_pi, mul_neg]
  rw [← mul_assoc, ← mul_assoc, ← ENNReal.ofReal_mul (by positivity), ← ENNReal.ofReal_mul hr.le]
  congr 2
  have hsq : (r * Real.cos t) ^ 2 + (r * Real.sin t) ^ 2 = r ^ 2 := by
    rw [mul_pow, mul_pow, ← mul_add, Real.cos_sq_add_sin_sq, mul_one]
  rw [hsq]; ring

end Hila
