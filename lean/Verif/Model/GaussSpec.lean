import Verif.Model.GaussRand
import Verif.Model.SampleSpec
import Mathlib.Probability.ProductMeasure

/-!
# Specification: gaussian random numbers
-/

namespace Hila

open MeasureTheory

/-- The distribution of a stream of independent numbers, uniform in `[0, 1)`. -/
noncomputable def uniformStream : Measure (ℕ → ℝ) := Measure.infinitePi fun _ => unif01

instance : IsProbabilityMeasure uniformStream := by unfold uniformStream; infer_instance

/-- The widths of the components that a call fills: one for a real number, real and imaginary part of every complex number, four for SU2 and three for its
algebra. -/
def GReq.widths : GReq → List ℝ
  | .real w => [w]
  | .cplx w => [w, w]
  | .rmat w k _ => List.replicate k w
  | .cmat w k _ => List.replicate (2 * k) w
  | .su2 w => List.replicate 4 w
  | .su2alg w => List.replicate 3 w

/-- The widths of all components that a sequence of calls fills. -/
def allWidths (rs : List GReq) : List ℝ := rs.flatMap GReq.widths

/-- The result of a program with random numbers, `d` if there is none. -/
def resultOr {α : Type} (d : α) (r : Option (α × GRng)) : α := (r.map Prod.fst).getD d

end Hila
