import Verif.Model.LinkUpdate
import Verif.Model.GaussSpec

/-!
# Specification: the distribution of the heat bath
-/

namespace Hila

open MeasureTheory

/-- A trial of the Kennedy-Pendleton method in `suN_heatbath` passes its test (sun_heatbath.h:82, 122). -/
def KpAccepts (rnd : ℕ → ℝ) (al : ℝ) (k : ℕ) : Prop :=
  1 - 0.5 * (kpTrial rnd al k).1 > (kpTrial rnd al k).2 * (kpTrial rnd al k).2

/-- The value `a0` of a trial of the Creutz method. -/
noncomputable def creutzTrial (rnd : ℕ → ℝ) (al : ℝ) (k : ℕ) : ℝ :=
  1 + Real.log (Real.exp (-2 * al) + (1 - Real.exp (-2 * al)) * rnd k) / al

/-- A trial of the Creutz method passes its test (sun_heatbath.h:147). -/
def CreutzAccepts (rnd : ℕ → ℝ) (al : ℝ) (k : ℕ) : Prop :=
  1 - creutzTrial rnd al k * creutzTrial rnd al k > rnd (k + 1) * rnd (k + 1)

/-- In the hit that starts at position `k` of the stream some trial passes its test: the first one, or one of at most 40 further ones, of the Kennedy-Pendleton
method for `al > 2`, of the Creutz method otherwise. -/
def HeatAccepts (rnd : ℕ → ℝ) (al : ℝ) (k : ℕ) : Prop :=
  KpAccepts rnd al k ∨ (al > 2 ∧ ∃ j < 40, KpAccepts rnd al (k + 4 + 4 * j)) ∨ (¬ al > 2 ∧ ∃ j < 40, CreutzAccepts rnd al (k + 4 + 2 * j))

/-- Twice the length of the projection to SU(2) of the block of rows and columns `pq` of a matrix, which the heat bath multiplies with `beta / N`. -/
noncomputable def hitLength {N : ℕ} (A : Matrix (Fin N) (Fin N) ℂ) (pq : Fin N × Fin N) : ℝ :=
  Real.sqrt (((A pq.1 pq.2).im + (A pq.2 pq.1).im) ^ 2 + ((A pq.1 pq.2).re - (A pq.2 pq.1).re) ^ 2 + ((A pq.1 pq.1).im - (A pq.2 pq.2).im) ^ 2 +
    ((A pq.1 pq.1).re + (A pq.2 pq.2).re) ^ 2)

/-- In every hit of a list of hits some trial passes its test. -/
def HitsAccept {N : ℕ} (rnd : ℕ → ℝ) (b3 : ℝ) : List (Fin N × Fin N) → (Matrix (Fin N) (Fin N) ℂ × Matrix (Fin N) (Fin N) ℂ) × ℕ → Prop
  | [], _ => True
  | pq :: l, s => HeatAccepts rnd (b3 * hitLength s.1.2 pq) s.2 ∧ ∀ s', heatbathHit rnd b3 s pq = some s' → HitsAccept rnd b3 l s'

/-- In every hit of a heat bath update of the link `U` some trial passes its test. -/
def UpdateAccepts {N : ℕ} (rnd : ℕ → ℝ) (beta : ℝ) (U staple : Matrix (Fin N) (Fin N) ℂ) : Prop :=
  HitsAccept rnd (beta / N) (subgroups N) ((U, U * staple.conjTranspose), 0)

/-- Some of the first 99 trials in `KennedyPendleton` passes its test. -/
def KennedyAccepts (rnd : ℕ → ℝ) (alpha : ℝ) : Prop :=
  ∃ j < 99, (kpTrial rnd alpha (4 * j)).2 * (kpTrial rnd alpha (4 * j)).2 ≤ 1 - 0.5 * (kpTrial rnd alpha (4 * j)).1

/-- A measure divided by its total mass. -/
noncomputable def normalised {C : Type} [MeasurableSpace C] (μ : Measure C) : Measure C := (μ Set.univ)⁻¹ • μ

end Hila
