import Verif.Model.Coord
import Mathlib.Data.ZMod.Basic
import Mathlib.LinearAlgebra.Matrix.Trace
import Mathlib.LinearAlgebra.Matrix.ConjTranspose
import Mathlib.Data.Complex.Basic

/-!
# Links on a periodic lattice: plaquettes, staples, Polyakov loops

Libraries/gauge/staples.h, polyakov.h, wilson_plaquette_action.h, libraries/plumbing/gaugefield.h and
libraries/hmc/gauge_field.h.

The lattice is the torus of the given size: site loops visit every site of it once and `X + d` is the periodic
neighbour, which is what C01-C08 show of the distributed lattice. Numbers are real, so that sums do not depend on
their order. A site loop assigns a whole new field; none of the loops here reads a neighbour of the field it writes,
except the loop of `measure_polyakov`, which reads another plane than it writes.
-/

namespace Hila

/-- Sites of the periodic lattice of size `L`. -/
abbrev PSite {n : ℕ} (L : Fin n → ℕ) := ∀ d, ZMod (L d)

/-- The step `X + d`. -/
def unitStep {n : ℕ} {L : Fin n → ℕ} (d : Fin n) : PSite L := Pi.single d 1

/-- `N x N` complex matrices. -/
abbrev Mat (N : ℕ) := Matrix (Fin N) (Fin N) ℂ

/-- `GaugeField` (gaugefield.h): one matrix for each site and direction. -/
abbrev GField {n : ℕ} (L : Fin n → ℕ) (N : ℕ) := Fin n → PSite L → Mat N

variable {n : ℕ} {L : Fin n → ℕ} {N : ℕ}

/-- `measure_plaq` (gaugefield.h:141-158). -/
noncomputable def measurePlaq [∀ d, NeZero (L d)] (U : GField L N) : ℝ :=
  ∑ d1, ∑ d2, if d1 < d2 then
    ∑ x, (1 - (U d1 x * U d2 (x + unitStep d1) * (U d1 (x + unitStep d2)).conjTranspose *
      (U d2 x).conjTranspose).trace.re / N) else 0

/-- `measure_s_wplaq` (wilson_plaquette_action.h:48-62). -/
noncomputable def measureSWplaq [∀ d, NeZero (L d)] (U : GField L N) : ℝ :=
  ∑ d1, ∑ d2, if d1 < d2 then
    ∑ x, (1 - (U d1 x * U d2 (x + unitStep d1) *
      (U d2 x * U d1 (x + unitStep d2)).conjTranspose).trace.re / N) else 0

/-- `plaquette_sum` (hmc/gauge_field.h:160-173). -/
noncomputable def plaquetteSum [∀ d, NeZero (L d)] (U : GField L N) : ℝ :=
  ∑ d1, ∑ d2, if d2 < d1 then
    ∑ x, (1 - (U d1 x * U d2 (x + unitStep d1) * (U d1 (x + unitStep d2)).conjTranspose *
      (U d2 x).conjTranspose).trace.re / N) else 0

/-- Sites of a loop `onsites(par)`: parity of the sum of the coordinates. -/
def VisitsPar (par : Parity) (x : PSite L) : Prop :=
  match par with
  | .all => True
  | .even => (∑ d, (x d).val) % 2 = 0
  | .odd => (∑ d, (x d).val) % 2 = 1
  | .none => False

instance (par : Parity) (x : PSite L) : Decidable (VisitsPar par x) := by
  unfold VisitsPar; cases par <;> infer_instance

/-- A loop `onsites(par) f[X] = v`. -/
def assignOn {T : Type} (par : Parity) (f v : PSite L → T) : PSite L → T := fun x => if VisitsPar par x then v x else f x

/-- Variables of the loop over `d2` in `staplesum`; `none` is an element that has not been assigned. -/
structure StapleState (L : Fin n → ℕ) (N : ℕ) where
  lower : PSite L → Option (Mat N)
  first : Bool
  staples : PSite L → Option (Mat N)

/-- One direction `d2 != d1` of `staplesum` (staples.h:32-55); `lo` and `up` are the expressions of the two loops. The
sum with an element that has not been assigned counts as not assigned. `opp_parity` is `oppParity`. -/
def stapleStep (par : Parity) (lo up : Fin n → PSite L → Mat N) (s : StapleState L N) (d2 : Fin n) : StapleState L N :=
  let lower := assignOn (oppParity par) s.lower fun x => some (lo d2 x)
  let term : PSite L → Option (Mat N) := fun x => (lower (x - unitStep d2)).map fun l => up d2 x + l
  if s.first then ⟨lower, false, assignOn par s.staples term⟩
  else ⟨lower, false, assignOn par s.staples fun x => (s.staples x).bind fun a => (term x).map fun t => a + t⟩

/-- `staplesum(U, staples, d1, par)` (staples.h:26-58). -/
def staplesum (U : GField L N) (staples : PSite L → Option (Mat N)) (d1 : Fin n) (par : Parity) :
    PSite L → Option (Mat N) :=
  (((List.finRange n).filter (· ≠ d1)).foldl (stapleStep par
    (fun d2 x => (U d2 x).conjTranspose * U d1 x * U d2 (x + unitStep d1))
    (fun d2 x => U d2 x * U d1 (x + unitStep d2) * (U d2 (x + unitStep d1)).conjTranspose))
    ⟨fun _ => none, true, staples⟩).staples

/-- `staplesum(U, staples, d1, plaqw, par)` (staples.h:83-113). -/
def staplesumW (U : GField L N) (staples : PSite L → Option (Mat N)) (d1 : Fin n)
    (plaqw : Fin n → Fin n → PSite L → ℝ) (par : Parity) : PSite L → Option (Mat N) :=
  (((List.finRange n).filter (· ≠ d1)).foldl (stapleStep par
    (fun d2 x => (plaqw d1 d2 x : ℂ) • (U d2 x).conjTranspose * U d1 x * U d2 (x + unitStep d1))
    (fun d2 x => (plaqw d1 d2 x : ℂ) • U d2 x * U d1 (x + unitStep d2) * (U d2 (x + unitStep d1)).conjTranspose))
    ⟨fun _ => none, true, staples⟩).staples

/-- One direction of `rstaplesum` (wilson_plaquette_action.h:13-44). -/
def rstapleStep (U : GField L N) (d1 : Fin n) (s : Bool × (PSite L → Option (Mat N))) (d2 : Fin n) :
    Bool × (PSite L → Option (Mat N)) :=
  let lower : PSite L → Mat N := fun x => (U d1 x * U d2 (x + unitStep d1)).conjTranspose * U d2 x
  let up : PSite L → Mat N := fun x => U d2 (x + unitStep d1) * (U d2 x * U d1 (x + unitStep d2)).conjTranspose
  let staples := if s.1 then fun x => some (up x) else fun x => (s.2 x).map fun a => a + up x
  (false, fun x => (staples x).map fun a => a + lower (x - unitStep d2))

/-- `rstaplesum` (wilson_plaquette_action.h:10-45). -/
def rstaplesum (U : GField L N) (staples : PSite L → Option (Mat N)) (d1 : Fin n) : PSite L → Option (Mat N) :=
  (((List.finRange n).filter (· ≠ d1)).foldl (rstapleStep U d1) (true, staples)).2

/-- `calc_staples` (hmc/gauge_field.h:139-157). -/
def calcStaples (U : GField L N) (d1 : Fin n) : PSite L → Mat N :=
  ((List.finRange n).filter (· ≠ d1)).foldl (fun s d2 =>
    let down : PSite L → Mat N := fun x => (U d2 (x + unitStep d1)).conjTranspose * (U d1 x).conjTranspose * U d2 x
    fun x => s x + U d2 (x + unitStep d1) * (U d1 (x + unitStep d2)).conjTranspose * (U d2 x).conjTranspose +
      down (x - unitStep d2)) fun _ => 0

/-- The loop over one plane in `measure_polyakov` (polyakov.h:28-32). -/
def polyakovPlane (U : GField L N) (dir : Fin n) (p : PSite L → Mat N) (plane : ℕ) : PSite L → Mat N :=
  fun x => if (x dir).val = plane then U dir x * p (x + unitStep dir) else p x

/-- `polyakov` after the loop over the planes (polyakov.h:18-33): planes `size - 2` down to 0. -/
def polyakovLines (U : GField L N) (dir : Fin n) : PSite L → Mat N :=
  (List.range (L dir - 1)).reverse.foldl (polyakovPlane U dir) (U dir)

/-- `measure_polyakov` (polyakov.h:16-43). `volume / size` is an exact integer division. -/
noncomputable def measurePolyakov [∀ d, NeZero (L d)] (U : GField L N) (dir : Fin n) : ℂ :=
  (∑ x : PSite L, if (x dir).val = 0 then (polyakovLines U dir x).trace else 0) / (((∏ d, L d) / L dir : ℕ) : ℂ)

/-- The loop over `t` in `polyakov_loop` (hmc/gauge_field.h:101-107). -/
def hmcPolyakovStep (U : GField L N) (dir : Fin n) (p : PSite L → Mat N) (t : ℕ) : PSite L → Mat N :=
  fun x => if (x dir).val = (t + 1) % L dir then p x * U dir (x - unitStep dir) else p x

/-- `polyakov_loop` (hmc/gauge_field.h:94-118). -/
noncomputable def hmcPolyakovLoop [∀ d, NeZero (L d)] (U : GField L N) (dir : Fin n) : ℝ :=
  (∑ x : PSite L, if (x dir).val = 0 then
    ((List.range (L dir)).foldl (hmcPolyakovStep U dir) (fun _ => 1) x).trace.re else 0) /
      (N * (((∏ d, L d) / L dir : ℕ) : ℝ))

end Hila
