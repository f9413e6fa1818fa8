import Mathlib.MeasureTheory.Measure.Prod
import Mathlib.MeasureTheory.Group.Measure
import Mathlib.MeasureTheory.Measure.Haar.OfBasis
import Mathlib.MeasureTheory.Measure.Lebesgue.Basic
import Mathlib.MeasureTheory.Measure.WithDensity
import Mathlib.Analysis.SpecialFunctions.Exp
import Mathlib.MeasureTheory.Function.SpecialFunctions.Basic

/-!
# Proposals that undo themselves, accepted with the ratio of the weights
-/

namespace Hila

open MeasureTheory ENNReal

/-- Integral over the uniform number of the decision. -/
theorem accept_lintegral (a : ℝ) (ha : 0 ≤ a) (y n : ℝ≥0∞) :
    ∫⁻ r in Set.Ico (0 : ℝ) 1, (if r < a then y else n) =
      ENNReal.ofReal (min 1 a) * y + ENNReal.ofReal (1 - min 1 a) * n := by
  have hm : MeasurableSet {r : ℝ | r < a} := measurableSet_Iio
  have e : ∀ r : ℝ, (if r < a then y else n) =
      (Set.Iio a).indicator (fun _ => y) r + (Set.Ici a).indicator (fun _ => n) r := by
    intro r
    by_cases h : r < a
    · simp [h]
    · simp [h, not_lt.1 h]
  simp only [e]
  rw [lintegral_add_left (measurable_const.indicator measurableSet_Iio), lintegral_indicator measurableSet_Iio,
    lintegral_indicator measurableSet_Ici, setLIntegral_const, setLIntegral_const,
    Measure.restrict_apply measurableSet_Iio, Measure.restrict_apply measurableSet_Ici]
  have h1 : Set.Iio a ∩ Set.Ico (0 : ℝ) 1 = Set.Ico 0 (min 1 a) := by
    ext r; simp only [Set.mem_inter_iff, Set.mem_Iio, Set.mem_Ico, lt_min_iff]; tauto
  have h2 : Set.Ici a ∩ Set.Ico (0 : ℝ) 1 = Set.Ico (min 1 a) 1 := by
    ext r
    simp only [Set.mem_inter_iff, Set.mem_Ici, Set.mem_Ico, min_le_iff]
    constructor
    · rintro ⟨h1, h2, h3⟩; exact ⟨Or.inr h1, h3⟩
    · rintro ⟨h1 | h1, h2⟩
      · linarith
      · exact ⟨h1, ha.trans h1, h2⟩
  rw [h1, h2, Real.volume_Ico, Real.volume_Ico, sub_zero, mul_comm y, mul_comm n]

/-- The weights of going and of staying. -/
theorem weights_add (h h' : ℝ) :
    ENNReal.ofReal (Real.exp (-h)) * ENNReal.ofReal (min 1 (Real.exp (-(h' - h)))) +
      ENNReal.ofReal (Real.exp (-h)) * ENNReal.ofReal (1 - min 1 (Real.exp (-(h' - h)))) = ENNReal.ofReal (Real.exp (-h)) := by
  rw [← mul_add, ← ENNReal.ofReal_add (le_min zero_le_one (Real.exp_pos _).le) (by linarith [min_le_left 1 (Real.exp (-(h' - h)))])]
  simp

theorem weights_symm (h h' : ℝ) :
    ENNReal.ofReal (Real.exp (-h)) * ENNReal.ofReal (min 1 (Real.exp (-(h' - h)))) =
      ENNReal.ofReal (Real.exp (-h')) * ENNReal.ofReal (min 1 (Real.exp (-(h - h')))) := by
  rw [← ENNReal.ofReal_mul (Real.exp_pos _).le, ← ENNReal.ofReal_mul (Real.exp_pos _).le,
    mul_min_of_nonneg _ _ (Real.exp_pos _).le, mul_min_of_nonneg _ _ (Real.exp_pos _).le, ← Real.exp_add, ← Real.exp_add, mul_one, mul_one,
    min_comm]
  congr 2 <;> ring_nf

/-- A proposal `R` that keeps the measure and undoes itself, accepted if a uniform number is below the ratio of the weights, keeps the weighted
measure. -/
theorem metropolis_lintegral {Z : Type*} [MeasurableSpace Z] (m : Measure Z) {R : Z → Z} (hR : MeasurePreserving R m m) (hinv : ∀ z, R (R z) = z)
    {H : Z → ℝ} (hH : Measurable H) {f : Z → ℝ≥0∞} (hf : Measurable f) :
    ∫⁻ z, ENNReal.ofReal (Real.exp (-H z)) *
        (∫⁻ r in Set.Ico (0 : ℝ) 1, (if r < Real.exp (-(H (R z) - H z)) then f (R z) else f z)) ∂m =
      ∫⁻ z, ENNReal.ofReal (Real.exp (-H z)) * f z ∂m := by
  simp only [accept_lintegral _ (Real.exp_pos _).le, mul_add, ← mul_assoc]
  have hRm : Measurable R := hR.measurable
  have w1 : Measurable fun z => ENNReal.ofReal (Real.exp (-H z)) * ENNReal.ofReal (min 1 (Real.exp (-(H (R z) - H z)))) := by fun_prop
  have w1f : Measurable fun z => ENNReal.ofReal (Real.exp (-H z)) * ENNReal.ofReal (min 1 (Real.exp (-(H (R z) - H z)))) * f z := w1.mul hf
  have w1R : Measurable fun z => ENNReal.ofReal (Real.exp (-H z)) * ENNReal.ofReal (min 1 (Real.exp (-(H (R z) - H z)))) * f (R z) :=
    w1.mul (hf.comp hRm)
  rw [lintegral_add_left w1R]
  have e := hR.lintegral_comp w1f
  simp only [hinv] at e
  have e2 : ∀ z, ENNReal.ofReal (Real.exp (-H z)) * ENNReal.ofReal (min 1 (Real.exp (-(H (R z) - H z)))) * f (R z) =
      ENNReal.ofReal (Real.exp (-H (R z))) * ENNReal.ofReal (min 1 (Real.exp (-(H z - H (R z))))) * f (R z) := fun z => by
    rw [weights_symm]
  rw [lintegral_congr e2, e, ← lintegral_add_left w1f]
  refine lintegral_congr fun z => ?_
  rw [← add_mul, weights_add]

end Hila
