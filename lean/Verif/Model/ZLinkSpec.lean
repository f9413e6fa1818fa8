import Verif.Model.ZLink
import Verif.Model.SpinSpec
import Verif.Model.SampleSpec
import Mathlib.MeasureTheory.Measure.Count

/-!
# Specification: the model with integer links
-/

namespace Hila

open MeasureTheory

variable {n : ℕ} {L : Fin n → ℕ}

/-- The shifts change their sign when the directions are exchanged. -/
def AntiShift (sw : ZShift L) : Prop := ∀ d1 d2 x, sw d2 d1 x = -sw d1 d2 x

/-- The action: `beta / 2` times the sum over all plaquettes of the square of the plaquette with its shift. -/
noncomputable def zAction [∀ d, NeZero (L d)] (beta : ℝ) (H : ZField L) (sw : ZShift L) : ℝ :=
  beta / 2 * ∑ d1, ∑ d2, if d1 < d2 then
    ∑ x, (((H d1 x + H d2 (x + unitStep d1) - H d1 (x + unitStep d2) - H d2 x : ℤ) : ℝ) + sw d1 d2 x) ^ 2 else 0

/-- What is summed over: the integers on all links, and a sign for all plaquettes. -/
abbrev ZIdx (L : Fin n → ℕ) := (Fin n × PSite L) ⊕ (Fin n × Fin n × PSite L)

/-- The links of a configuration. -/
def zLinks (c : ZIdx L → ℤ) : ZField L := fun d x => c (.inl (d, x))

/-- The shifts of a configuration: the shifts `s0` of the start with the signs. -/
def zShifts (s0 : ZShift L) (c : ZIdx L → ℤ) : ZShift L := fun d1 d2 x =>
  (if d1 < d2 then (c (.inr (d1, d2, x)) : ℝ) else (c (.inr (d2, d1, x)) : ℝ)) * s0 d1 d2 x

/-- Every integer counts once; if the shifts are dynamic so do both signs, otherwise the shifts are `s0`. -/
noncomputable def zCount (dynamic : Bool) : ZIdx L → Measure ℤ
  | .inl _ => Measure.count
  | .inr _ => if dynamic then Measure.dirac 1 + Measure.dirac (-1) else Measure.dirac 1

/-- All configurations with weight `exp(-action)`. The total weight is infinite, because the action does not change under gauge transformations. -/
noncomputable def zWeights [∀ d, NeZero (L d)] (dynamic : Bool) (beta : ℝ) (s0 : ZShift L) : Measure (ZIdx L → ℤ) :=
  boltzmann (Measure.pi (zCount dynamic)) fun c => zAction beta (zLinks c) (zShifts s0 c)

/-- The shifts of the program for `PLAQ_SHIFT` 2 (z_link_model.cpp:1524-1538): 1/2 and -1/2 on the plaquettes with the last direction. -/
noncomputable def staggered (et : Fin n) : ZShift L := fun d1 d2 x =>
  if d1 = d2 then 0 else if d2 = et then (if uEven et x then 1 / 2 else -1 / 2) else if d1 = et then (if uEven et x then -1 / 2 else 1 / 2) else 0

/-- What the parameters must satisfy: shifts are updated only if they are dynamic, and the move is made only with the shifts for which it was written. -/
def ZSound (p : ZPars) (dynamic : Bool) (et : Fin n) (s0 : ZShift L) : Prop :=
  (p.nPs = 0 ∨ dynamic = true) ∧ (p.shiftOn = false ∨ p.nSs = 0 ∨ (dynamic = false ∧ s0 = staggered et))

end Hila
