import Verif.Model.Clover

/-!
# The bulk-preventing action (libraries/gauge/bulk_prevention_action.h)

Lattice, fields and numbers as in `Model/Force`. A division by zero, which gives values that are not finite, is `none`.
-/

namespace Hila

variable {n : ℕ} {L : Fin n → ℕ} {N : ℕ}

/-- One pass of the loop of `ch_inv` (bulk_prevention_action.h:18-23). The state is the array `tB`, the index `ip` (`true` is
1) and `tc`. A number is subtracted from the diagonal. -/
noncomputable def chInvStep (U : Mat N) (s : (Bool → Mat N) × Bool × ℂ) (k : ℕ) : (Bool → Mat N) × Bool × ℂ :=
  let ip := s.2.1
  let tB := Function.update s.1 (!ip) (s.1 (!ip) - s.2.2 • (1 : Mat N))
  let tB := Function.update tB ip (U * tB (!ip))
  (tB, !ip, (tB ip).trace / (k : ℂ))

/-- `ch_inv` (bulk_prevention_action.h:10-25). -/
noncomputable def chInv (U : Mat N) : Option (Mat N) :=
  let s := (List.range' 2 (N - 1)).foldl (chInvStep U) (fun b => if b then U else 1, false, U.trace)
  if s.2.2 = 0 then none else some (s.2.2⁻¹ • s.1 s.2.1)

/-- `bp_UAmat` (bulk_prevention_action.h:27-36). -/
noncomputable def bpUA (U : Mat N) : Option (Mat N) :=
  (chInv ((0.5 : ℂ) • (U + 1))).map fun tA2 =>
    let tA1 := tA2 * tA2.conjTranspose
    U * tA1 * tA1 * tA2

/-- `bp_iOsqmat` (bulk_prevention_action.h:38-48). -/
noncomputable def bpOsq (U : Mat N) : Option (Mat N) :=
  (chInv ((0.5 : ℂ) • (U + 1))).map fun tA2 =>
    let tA1 := tA2 * tA2.conjTranspose
    tA1 * tA1

/-- The plaquette as it is multiplied here (bulk_prevention_action.h:59-60, 80). -/
def bpPlaq (U : GField L N) (d1 d2 : Fin n) (x : PSite L) : Mat N :=
  U d1 x * U d2 (x + unitStep d1) * (U d2 x * U d1 (x + unitStep d2)).conjTranspose

open Classical in
/-- `measure_s_bp` (bulk_prevention_action.h:50-66). The result is finite if all terms are. -/
noncomputable def measureSBp [∀ d, NeZero (L d)] (U : GField L N) : Option ℝ :=
  if ∀ d1 d2, d1 < d2 → ∀ x, bpOsq (bpPlaq U d1 d2 x) ≠ none then
    some (∑ d1, ∑ d2, if d1 < d2 then ∑ x, (((bpOsq (bpPlaq U d1 d2 x)).getD 0).trace.re / N - 1.0) else 0)
  else none

open Classical in
/-- One plane of `get_force_bp_add` (bulk_prevention_action.h:75-92). -/
noncomputable def bpPlane (U : GField L N) (teps : ℝ) (K : AlgField L N) (p : Fin n × Fin n) : Option (AlgField L N) :=
  let d1 := p.1
  let d2 := p.2
  if ∀ x, bpUA (bpPlaq U d1 d2 x) ≠ none then
    let fmatp : PSite L → Mat N := fun x => (bpUA (bpPlaq U d1 d2 x)).getD 0
    let fmatmd1 : PSite L → Mat N := fun x => (fmatp x * U d2 x).conjTranspose * U d2 x
    let fmatmd2 : PSite L → Mat N := fun x => (U d1 x).conjTranspose * fmatp x * U d1 x
    let K : AlgField L N := fun d x => if d = d1 then K d x - projectScaled (fmatmd1 (x - unitStep d2) + fmatp x) teps else K d x
    some fun d x => if d = d2 then K d x - projectScaled (fmatmd2 (x - unitStep d1) - fmatp x) teps else K d x
  else none

/-- `get_force_bp_add` (bulk_prevention_action.h:68-94). -/
noncomputable def forceBpAdd (U : GField L N) (K : AlgField L N) (eps : ℝ) : Option (AlgField L N) :=
  (planes n).foldlM (bpPlane U (2.0 * eps)) K

/-- `get_force_bp` (bulk_prevention_action.h:96-105). -/
noncomputable def forceBp (U : GField L N) (eps : ℝ) : Option (AlgField L N) := forceBpAdd U (fun _ _ => 0) eps

end Hila
