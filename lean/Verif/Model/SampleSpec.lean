import Mathlib.MeasureTheory.Measure.Lebesgue.Basic
import Mathlib.MeasureTheory.Measure.WithDensity
import Mathlib.MeasureTheory.Measure.Prod
import Mathlib.Analysis.SpecialFunctions.Exp

/-!
# Specification: distributions of fields
-/

namespace Hila

open MeasureTheory

/-- The distribution of `hila::random()`. -/
noncomputable def unif01 : Measure ℝ := volume.restrict (Set.Ico (0 : ℝ) 1)

instance : IsProbabilityMeasure unif01 := ⟨by simp [unif01]⟩

/-- The distribution with weight `exp(-S)`. -/
noncomputable def boltzmann {C : Type} [MeasurableSpace C] (μ : Measure C) (S : C → ℝ) : Measure C :=
  μ.withDensity fun U => ENNReal.ofReal (Real.exp (-S U))

/-- A random update, which takes its random numbers from `rnd`, keeps the distribution `π`: if the fields before the update have this
distribution, so have the fields after it. -/
def KeepsDistribution {C R : Type} [MeasurableSpace C] [MeasurableSpace R] (rnd : Measure R) (π : Measure C) (upd : C × R → C) : Prop :=
  Measurable upd ∧ (π.prod rnd).map upd = π

end Hila
