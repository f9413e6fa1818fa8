import Verif.Props.HeatBath
import Mathlib.Analysis.Convex.Deriv
import Mathlib.Analysis.SpecialFunctions.Trigonometric.DerivHyp
import Mathlib.Analysis.Convex.SpecificFunctions.Basic
import Mathlib.Analysis.SpecialFunctions.Integrals.Basic
import Mathlib.Analysis.Complex.ExponentialBounds

/-!
# How often the trials of the heat bath fail
-/

namespace Hila

open MeasureTheory ProbabilityTheory Set Matrix
open scoped ENNReal

variable {N : ℕ}

/-! ### Probability that one trial fails -/

theorem unif_ge (c : ℝ) : unif01 (Ici c) ≤ ENNReal.ofReal (1 - c) := by
  unfold unif01
  rw [Measure.restrict_apply measurableSet_Ici, ← Real.volume_Ico]
  exact measure_mono fun x hx => ⟨hx.1, hx.2.2⟩

theorem unif_log : ∫⁻ x, ENNReal.ofReal (-Real.log (1 - x)) ∂unif01 = 1 := by
  rw [unif_exp fun y => ENNReal.ofReal y]
  have h1 : ∫ x in Ioi (0 : ℝ), Real.exp (-x) * x ^ ((2 : ℝ) - 1) = 1 := by
    rw [← Real.Gamma_eq_integral (by norm_num), show (2 : ℝ) = (1 : ℕ) + 1 by norm_num, Real.Gamma_nat_eq_factorial]; simp
  have h2 := Real.GammaIntegral_convergent (s := 2) (by norm_num)
  rw [← ENNReal.ofReal_one, ← h1, ofReal_integral_eq_lintegral_ofReal h2
    ((ae_restrict_iff' measurableSet_Ioi).2 (Filter.Eventually.of_forall fun x hx => mul_nonneg (Real.exp_pos _).le (Real.rpow_nonneg (le_of_lt hx) _)))]
  refine setLIntegral_congr_fun measurableSet_Ioi fun x hx => ?_
  rw [← ENNReal.ofReal_mul (Real.exp_pos _).le]
  norm_num

open Classical in
theorem kp_reject {α : ℝ} (hα : 2 ≤ α) : ∫⁻ u, (if kpAcc α u then 0 else 1) ∂uniformStream ≤ (2⁻¹ : ℝ≥0∞) := by
  have hm : Measurable fun x : ℝ × ℝ × ℝ × ℝ × (ℕ → ℝ) => if 1 - 0.5 * kpValue α x.1 x.2.1 x.2.2.1 > x.2.2.2.1 * x.2.2.2.1 then (0 : ℝ≥0∞) else 1 := by
    have : Measurable fun x : ℝ × ℝ × ℝ × ℝ × (ℕ → ℝ) => kpValue α x.1 x.2.1 x.2.2.1 := kpValue_measurable (by fun_prop) (by fun_prop) (by fun_prop) (by fun_prop)
    exact Measurable.ite (measurableSet_lt (by fun_prop) (by fun_prop)) measurable_const measurable_const
  have e := stream_four (fun x0 x1 x2 x3 _ => if 1 - 0.5 * kpValue α x0 x1 x2 > x3 * x3 then (0 : ℝ≥0∞) else 1) hm
  refine le_trans (le_of_eq e) ?_
  simp only [lintegral_const, measure_univ, mul_one]
  have hi : ∀ d : ℝ, ∫⁻ x3, (if 1 - 0.5 * d > x3 * x3 then (0 : ℝ≥0∞) else 1) ∂unif01 ≤ ENNReal.ofReal (d / 2) := by
    intro d
    calc ∫⁻ x3, (if 1 - 0.5 * d > x3 * x3 then (0 : ℝ≥0∞) else 1) ∂unif01
        ≤ ∫⁻ x3, (Ici (1 - 0.5 * d)).indicator 1 x3 ∂unif01 := by
          refine lintegral_mono_ae ?_
          filter_upwards [unif_ae] with x hx
          split
          · exact bot_le
          · rename_i hn
            rw [indicator_of_mem (mem_Ici.2 (by nlinarith [not_lt.1 hn]))]
            rfl
      _ ≤ ENNReal.ofReal (d / 2) := by
          rw [lintegral_indicator_one measurableSet_Ici]
          refine le_trans (unif_ge _) (le_of_eq ?_)
          congr 1; ring
  have hlog : ∀ x : ℝ, 0 ≤ x → x < 1 → 0 ≤ -Real.log (1 - x) := fun x h0 h1 => neg_nonneg.2 (Real.log_nonpos (by linarith) (by linarith))
  calc ∫⁻ x0, ∫⁻ x1, ∫⁻ x2, ∫⁻ x3, (if 1 - 0.5 * kpValue α x0 x1 x2 > x3 * x3 then (0 : ℝ≥0∞) else 1) ∂unif01 ∂unif01 ∂unif01 ∂unif01
      ≤ ∫⁻ x0, ∫⁻ x1, ∫⁻ _, ENNReal.ofReal (1 / 4) * (ENNReal.ofReal (-Real.log (1 - x0)) + ENNReal.ofReal (-Real.log (1 - x1))) ∂unif01 ∂unif01 ∂unif01 := by
        refine lintegral_mono_ae ?_
        filter_upwards [unif_ae] with x0 h0
        refine lintegral_mono_ae ?_
        filter_upwards [unif_ae] with x1 h1
        refine lintegral_mono fun x2 => ?_
        refine le_trans (hi _) ?_
        rw [← ENNReal.ofReal_add (hlog _ h0.1 h0.2) (hlog _ h1.1 h1.2), ← ENNReal.ofReal_mul (by norm_num)]
        refine ENNReal.ofReal_le_ofReal ?_
        have hc : Real.cos (2 * Real.pi * x2) * Real.cos (2 * Real.pi * x2) ≤ 1 := by
          have := Real.cos_sq_le_one (2 * Real.pi * x2); nlinarith
        have l0 := hlog _ h0.1 h0.2
        have l1 := hlog _ h1.1 h1.2
        have hn : -(Real.log (1 - x1) + Real.log (1 - x0) * Real.cos (2 * Real.pi * x2) * Real.cos (2 * Real.pi * x2)) ≤ -Real.log (1 - x0) + -Real.log (1 - x1) := by
          nlinarith
        unfold kpValue
        rw [div_div, div_le_iff₀ (by linarith)]
        nlinarith
    _ = ∫⁻ x0, ∫⁻ x1, ENNReal.ofReal (1 / 4) * (ENNReal.ofReal (-Real.log (1 - x0)) + ENNReal.ofReal (-Real.log (1 - x1))) ∂unif01 ∂unif01 := by
        simp only [lintegral_const, measure_univ, mul_one]
    _ = 2⁻¹ := by
        have e1 : ∀ x0 : ℝ, ∫⁻ x1, ENNReal.ofReal (1 / 4) * (ENNReal.ofReal (-Real.log (1 - x0)) + ENNReal.ofReal (-Real.log (1 - x1))) ∂unif01 =
            ENNReal.ofReal (1 / 4) * (ENNReal.ofReal (-Real.log (1 - x0)) + 1) := by
          intro x0
          rw [lintegral_const_mul _ (by fun_prop), lintegral_add_left measurable_const, unif_log, lintegral_const, measure_univ, mul_one]
        simp only [e1]
        rw [lintegral_const_mul _ (by fun_prop), lintegral_add_right _ measurable_const, unif_log, lintegral_const, measure_univ, mul_one]
        rw [show (1 + 1 : ℝ≥0∞) = ENNReal.ofReal 2 by norm_num, ← ENNReal.ofReal_mul (by norm_num),
          show (2⁻¹ : ℝ≥0∞) = ENNReal.ofReal (2⁻¹) by rw [ENNReal.ofReal_inv_of_pos (by norm_num)]; norm_num]
        norm_num

theorem sinh_le {α : ℝ} (h0 : 0 < α) (h2 : α ≤ 2) : 1 - Real.exp (-2 * α) ≤ 3.63 * (α * Real.exp (-α)) := by
  have hc : ConvexOn ℝ (Ici (0 : ℝ)) Real.sinh := by
    refine convexOn_of_deriv2_nonneg' (convex_Ici 0) Real.differentiable_sinh.differentiableOn ?_ ?_
    · rw [Real.deriv_sinh]; exact Real.differentiable_cosh.differentiableOn
    · intro x hx
      simp only [Function.iterate_succ, Function.iterate_zero, Function.comp_apply, id_eq, Real.deriv_sinh, Real.deriv_cosh]
      exact Real.sinh_nonneg_iff.2 hx
  have h := hc.2 (mem_Ici.2 (le_refl (0 : ℝ))) (mem_Ici.2 (by norm_num : (0 : ℝ) ≤ 2)) (show 0 ≤ 1 - α / 2 by linarith) (show 0 ≤ α / 2 by linarith) (by ring)
  simp only [smul_eq_mul, mul_zero, zero_add, Real.sinh_zero] at h
  rw [show α / 2 * 2 = α by ring] at h
  have hs2 : Real.sinh 2 ≤ 3.63 := by
    rw [Real.sinh_eq]
    have he := Real.exp_one_lt_d9
    have hg := Real.exp_one_gt_d9
    have e2 : Real.exp 2 = Real.exp 1 * Real.exp 1 := by rw [← Real.exp_add]; norm_num
    have en : Real.exp (-2) * Real.exp 2 = 1 := by rw [← Real.exp_add]; norm_num
    have hl : Real.exp 2 ≤ 7.38906 := by rw [e2]; nlinarith
    have hp := Real.exp_pos (-2)
    nlinarith
  have e1 : 1 - Real.exp (-2 * α) = 2 * Real.exp (-α) * Real.sinh α := by
    rw [Real.sinh_eq, show (-2 * α) = -α + -α by ring, Real.exp_add]
    have : Real.exp (-α) * Real.exp α = 1 := by rw [← Real.exp_add]; simp
    linear_combination -this
  rw [e1]
  have hp := Real.exp_pos (-α)
  have : Real.sinh α ≤ α / 2 * 3.63 := le_trans h (mul_le_mul_of_nonneg_left hs2 (by linarith))
  nlinarith

theorem heatW_mass {α : ℝ} : ENNReal.ofReal (4 / 3) ≤ ∫⁻ t in Ioo (-1 : ℝ) 1, heatW α t := by
  have hcont : Continuous fun t : ℝ => Real.sqrt (1 - t ^ 2) * Real.exp (α * t) := by fun_prop
  have hint : IntegrableOn (fun t : ℝ => Real.sqrt (1 - t ^ 2) * Real.exp (α * t)) (Ioc (-1) 1) :=
    (hcont.integrableOn_Icc (a := -1) (b := 1)).mono_set Ioc_subset_Icc_self
  have hpol : IntegrableOn (fun t : ℝ => (1 + α * t) * (1 - t ^ 2)) (Ioc (-1) 1) :=
    ((by fun_prop : Continuous fun t : ℝ => (1 + α * t) * (1 - t ^ 2)).integrableOn_Icc (a := -1) (b := 1)).mono_set Ioc_subset_Icc_self
  unfold heatW
  rw [Measure.restrict_congr_set Ioo_ae_eq_Ioc, ← ofReal_integral_eq_lintegral_ofReal hint
    (Filter.Eventually.of_forall fun x => mul_nonneg (Real.sqrt_nonneg _) (Real.exp_pos _).le)]
  refine ENNReal.ofReal_le_ofReal ?_
  have h43 : ∫ t in Ioc (-1 : ℝ) 1, (1 + α * t) * (1 - t ^ 2) = 4 / 3 := by
    rw [← intervalIntegral.integral_of_le (by norm_num)]
    have : ∀ t ∈ uIcc (-1 : ℝ) 1, HasDerivAt (fun t => t + α * t ^ 2 / 2 - t ^ 3 / 3 - α * t ^ 4 / 4) ((1 + α * t) * (1 - t ^ 2)) t := by
      intro t _
      have h := ((((hasDerivAt_id t).add (((hasDerivAt_pow 2 t).const_mul α).div_const 2)).sub ((hasDerivAt_pow 3 t).div_const 3)).sub
        (((hasDerivAt_pow 4 t).const_mul α).div_const 4))
      refine h.congr_deriv ?_
      norm_num
      ring
    rw [intervalIntegral.integral_eq_sub_of_hasDerivAt this ((by fun_prop : Continuous fun t : ℝ => (1 + α * t) * (1 - t ^ 2)).intervalIntegrable _ _)]
    norm_num
    ring
  rw [← h43]
  refine setIntegral_mono_on hpol hint measurableSet_Ioc fun t ht => ?_
  have h1 : 0 ≤ 1 - t ^ 2 := by nlinarith [ht.1, ht.2]
  have h2 : 1 - t ^ 2 ≤ Real.sqrt (1 - t ^ 2) := Real.le_sqrt_of_sq_le (by nlinarith [sq_nonneg t])
  calc (1 + α * t) * (1 - t ^ 2) ≤ Real.exp (α * t) * (1 - t ^ 2) := mul_le_mul_of_nonneg_right (by linarith [Real.add_one_le_exp (α * t)]) h1
    _ ≤ Real.sqrt (1 - t ^ 2) * Real.exp (α * t) := by
      rw [mul_comm (Real.sqrt _)]
      exact mul_le_mul_of_nonneg_left h2 (Real.exp_pos _).le

open Classical in
theorem cr_reject {α : ℝ} (h0 : 0 < α) (h2 : α ≤ 2) : ∫⁻ u, (if crAcc α u then (0 : ℝ≥0∞) else 1) ∂uniformStream ≤ ENNReal.ofReal 0.64 := by
  have hu : Measurable fun u : ℕ → ℝ => (α, u) := measurable_const.prodMk measurable_id
  have a2 : MeasurableSet {u : ℕ → ℝ | crAcc α u} := crAcc_measurable.preimage hu
  have hsum : ∫⁻ u, (if crAcc α u then (1 : ℝ≥0∞) else 0) ∂uniformStream + ∫⁻ u, (if crAcc α u then (0 : ℝ≥0∞) else 1) ∂uniformStream = 1 := by
    rw [← lintegral_add_left (Measurable.ite a2 measurable_const measurable_const)]
    have : ∀ u : ℕ → ℝ, (if crAcc α u then (1 : ℝ≥0∞) else 0) + (if crAcc α u then (0 : ℝ≥0∞) else 1) = 1 := fun u => by split <;> simp
    simp only [this, lintegral_const, measure_univ, mul_one]
  have hacc : ENNReal.ofReal 0.36 ≤ ∫⁻ u, (if crAcc α u then (1 : ℝ≥0∞) else 0) ∂uniformStream := by
    have hm : Measurable fun x : ℝ × ℝ × (ℕ → ℝ) => if 1 - creutzValue α x.1 * creutzValue α x.1 > x.2.1 * x.2.1 then (1 : ℝ≥0∞) else 0 := by
      have mv : Measurable fun x : ℝ => creutzValue α x := by unfold creutzValue; fun_prop
      exact Measurable.ite (measurableSet_lt (by fun_prop) (by fun_prop)) measurable_const measurable_const
    have e := stream_two (fun x0 x1 _ => if 1 - creutzValue α x0 * creutzValue α x0 > x1 * x1 then (1 : ℝ≥0∞) else 0) hm
    refine le_trans ?_ (le_of_eq e.symm)
    simp only [lintegral_const, measure_univ, mul_one]
    have e2 := creutz_accept h0 (fun _ => 1) measurable_const
    refine le_trans ?_ (le_of_eq e2.symm)
    simp only [mul_one]
    refine le_trans ?_ (mul_le_mul' le_rfl heatW_mass)
    have hlt : Real.exp (-2 * α) < 1 := by rw [Real.exp_lt_one_iff]; linarith
    have hk : 0 ≤ α * Real.exp (-α) / (1 - Real.exp (-2 * α)) := div_nonneg (by positivity) (by linarith)
    rw [← ENNReal.ofReal_mul hk]
    refine ENNReal.ofReal_le_ofReal ?_
    rw [div_mul_eq_mul_div, le_div_iff₀ (by linarith)]
    have := sinh_le h0 h2
    have : 0 < α * Real.exp (-α) := by positivity
    nlinarith
  have ht : ∫⁻ u, (if crAcc α u then (1 : ℝ≥0∞) else 0) ∂uniformStream ≠ ∞ := by
    intro e; rw [e] at hsum; simp at hsum
  have : ENNReal.ofReal 0.36 + ∫⁻ u, (if crAcc α u then (0 : ℝ≥0∞) else 1) ∂uniformStream ≤ ENNReal.ofReal 0.36 + ENNReal.ofReal 0.64 := by
    rw [← ENNReal.ofReal_add (by norm_num) (by norm_num), show (0.36 : ℝ) + 0.64 = 1 by norm_num, ENNReal.ofReal_one]
    exact le_trans (add_le_add hacc le_rfl) (le_of_eq hsum)
  exact (ENNReal.add_le_add_iff_left ENNReal.ofReal_ne_top).1 this

end Hila
