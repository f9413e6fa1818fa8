import Verif.Model.Gauge
import Verif.Model.GaussSpec
import Mathlib.Analysis.SpecialFunctions.Trigonometric.Basic
import Mathlib.MeasureTheory.Constructions.Pi

/-!
# Specification: spin models and their distributions
-/

namespace Hila

open MeasureTheory

variable {L : Fin 2 → ℕ} [∀ d, NeZero (L d)]

/-- The action of the Ising model: minus `beta` times the sum of the products over all links. -/
noncomputable def isingAction (beta : ℝ) (s : PSite L → ℝ) : ℝ := ∑ x, ∑ d, -beta * (s x * s (x + unitStep d))

/-- The action of the xy model: minus `beta` times the sum of the cosines of the differences over all links. -/
noncomputable def xyAction (beta : ℝ) (s : PSite L → ℝ) : ℝ := ∑ x, ∑ d, -beta * Real.cos (s x - s (x + unitStep d))

/-- All configurations of spins with values 1 and -1, each with measure 1. -/
noncomputable def isingSpins (L : Fin 2 → ℕ) [∀ d, NeZero (L d)] : Measure (PSite L → ℝ) := Measure.pi fun _ => Measure.dirac 1 + Measure.dirac (-1)

/-- Angles between -π and π. -/
noncomputable def xyAngles (L : Fin 2 → ℕ) [∀ d, NeZero (L d)] : Measure (PSite L → ℝ) := Measure.pi fun _ => volume.restrict (Set.Icc (-Real.pi) Real.pi)

/-- Independent streams of independent uniform numbers for all ranks. -/
noncomputable def rankStreams (R : Type) [Fintype R] : Measure (R → ℕ → ℝ) := Measure.pi fun _ => uniformStream

end Hila
