import Verif.Model.MucaExample
import Verif.Model.SampleSpec
import Mathlib.Probability.Distributions.Gaussian.Real

/-!
# Specification: the multicanonical distribution of a scalar field
-/

namespace Hila

open MeasureTheory
open scoped ENNReal

variable {n : ℕ} {L : Fin n → ℕ} [∀ d, NeZero (L d)]

/-- The action: the potential `-phi^2 + phi^4` at every site and the square of the difference on every link. -/
def phi4Action (phi : PSite L → ℝ) : ℝ := ∑ x, (-phi x ^ 2 + phi x ^ 4) + ∑ d, ∑ x, (phi (x + unitStep d) - phi x) ^ 2

/-- `exp(-W)` for the weight at the order parameter `x`, zero behind a hard wall. -/
noncomputable def mucaFactor (hard : Bool) (centers weights : List ℝ) (x : ℝ) : ℝ≥0∞ :=
  match weightFunction hard centers weights x with
  | some (.fin w) => ENNReal.ofReal (Real.exp (-w))
  | _ => 0

/-- The multicanonical distribution: weight `exp(-S - W)`, with `W` at the mean value of the field. -/
noncomputable def mucaDist (hard : Bool) (centers weights : List ℝ) : Measure (PSite L → ℝ) :=
  (boltzmann volume phi4Action).withDensity fun phi => mucaFactor hard centers weights ((∑ x, phi x) / (Fintype.card (PSite L)))

/-- The random numbers of an update: for every site one with the normal distribution and one uniform, and one uniform number for the last decision. -/
noncomputable def mucaNoise (L : Fin n → ℕ) [∀ d, NeZero (L d)] : Measure ((PSite L → ℝ × ℝ) × ℝ) :=
  (Measure.pi fun _ => (ProbabilityTheory.gaussianReal 0 1).prod unif01).prod unif01

/-- The random numbers at the sites only. -/
noncomputable def siteNoise (L : Fin n → ℕ) [∀ d, NeZero (L d)] : Measure (PSite L → ℝ × ℝ) :=
  Measure.pi fun _ => (ProbabilityTheory.gaussianReal 0 1).prod unif01

end Hila
