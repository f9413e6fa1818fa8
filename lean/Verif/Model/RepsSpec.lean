import Verif.Model.Reps
import Verif.Lemmas.Force
import Mathlib.LinearAlgebra.UnitaryGroup

/-!
# What representations of SU(N) have to satisfy
-/

namespace Hila

open Matrix

variable {N : ℕ}

/-- `T a`, `a` below N² - 1, are hermitean, traceless and normalised to `tr (T a T b) = δ / 2`. -/
structure IsSuBasis (T : ℕ → Mat N) : Prop where
  herm : ∀ a < N * N - 1, (T a)ᴴ = T a
  traceless : ∀ a < N * N - 1, (T a).trace = 0
  orthonormal : ∀ a < N * N - 1, ∀ b < N * N - 1, (T a * T b).trace = if a = b then 1 / 2 else 0

/-- The coordinate of a matrix in the direction `i T a`. -/
noncomputable def suCoord (T : ℕ → Mat N) (a : ℕ) (A : Mat N) : ℝ := 2 * ((Complex.I • T a)ᴴ * A).trace.re

/-- Traceless antihermitean matrices, the Lie algebra of SU(N). -/
def IsSuAlg (A : Mat N) : Prop := Aᴴ = -A ∧ A.trace = 0

/-- A curve in SU(N) that leaves `U 0` in the direction `A`. -/
def SuCurve (U : ℝ → Mat N) (A : Mat N) : Prop := (∀ t, U t ∈ specialUnitaryGroup (Fin N) ℂ) ∧ MDeriv U (A * U 0)

/-- `P` turns the force on a represented link into the force on the link, as far as the direction `A` is concerned: the derivative of `Re tr (ρ(U) F)` along a
curve that leaves `U` in the direction `A` is `Re tr (A P(ρ(U) F))`. -/
def IsForceAlong {k : ℕ} (ρ : Mat N → Matrix (Fin k) (Fin k) ℂ) (P : Matrix (Fin k) (Fin k) ℂ → Mat N) (A : Mat N) : Prop :=
  ∀ U, SuCurve U A → ∀ F, HasDerivAt (fun t => (ρ (U t) * F).trace.re) (A * P (ρ (U 0) * F)).trace.re 0

/-- `G` represents the direction `A`: it is the derivative of `ρ` at 1. -/
def IsRepresented {k : ℕ} (ρ : Mat N → Matrix (Fin k) (Fin k) ℂ) (A : Mat N) (G : Matrix (Fin k) (Fin k) ℂ) : Prop :=
  ∀ U, SuCurve U A → U 0 = 1 → MDeriv (fun t => ρ (U t)) G

end Hila
