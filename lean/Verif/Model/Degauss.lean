import Verif.Model.Force

/-!
# Removal of Gauss' law violation (libraries/gauge/degauss.h)

Lattice, fields and numbers as in `Model/Force`.
-/

namespace Hila

variable {n : ℕ} {L : Fin n → ℕ} {N : ℕ}

/-- `Field<Algebra<group>>`. -/
abbrev AlgSite {n : ℕ} (L : Fin n → ℕ) (N : ℕ) := PSite L → Alg N

/-- `get_gauss_violation` (degauss.h:20-33). -/
noncomputable def gaussViolation (U : GField L N) (E : AlgField L N) : AlgSite L N := fun x =>
  ∑ d, (E d x - project ((U d (x - unitStep d)).conjTranspose * expand (E d (x - unitStep d)) * U d (x - unitStep d)))

/-- `gauss_fix_step` (degauss.h:36-49). The loop over directions changes only `E[dir]`. -/
noncomputable def gaussFixStep (U : GField L N) (E : AlgField L N) (violation : AlgSite L N) (mag : ℝ) : AlgField L N := fun d x =>
  E d x - mag • (violation x - project (U d x * expand (violation (x + unitStep d)) * (U d x).conjTranspose))

/-- `violation.squarenorm()` of a field (field.h, reduction over the lattice). -/
noncomputable def AlgSite.squarenorm [∀ d, NeZero (L d)] (G : AlgSite L N) : ℝ := ∑ x, (G x).squarenorm

/-- `degauss_step` (degauss.h:52-79): the new field and the returned value. -/
noncomputable def degaussStep [∀ d, NeZero (L d)] (U : GField L N) (E : AlgField L N) : AlgField L N × ℝ :=
  let onealeph : ℝ := 1.25 / 12
  let twoaleph : ℝ := 2 * onealeph
  let E := gaussFixStep U E (gaussViolation U E) onealeph
  let violation := gaussViolation U E
  (gaussFixStep U E violation twoaleph, violation.squarenorm / Fintype.card (PSite L))

/-- The loop of `degauss` (degauss.h:99-102), `left` is the number of passes that may still follow, `loop` the number
before the pass. -/
noncomputable def degaussLoop [∀ d, NeZero (L d)] (U : GField L N) (quality : ℝ) : ℕ → ℕ → AlgField L N → AlgField L N × ℕ × ℝ
  | left, loop, E =>
    let r := degaussStep U E
    open Classical in
    if r.2 > quality ∧ loop + 1 ≤ 10000 then
      match left with
      | 0 => (r.1, loop + 1, r.2)
      | left + 1 => degaussLoop U quality left (loop + 1) r.1
    else (r.1, loop + 1, r.2)

/-- `degauss` (degauss.h:85-111): the field, the returned number of passes and the value of `viol`. At most 10001 passes
are possible, the case `left = 0` is not reached with a condition that holds. -/
noncomputable def degauss [∀ d, NeZero (L d)] (U : GField L N) (E : AlgField L N) (quality : ℝ) : AlgField L N × ℕ × ℝ :=
  degaussLoop U quality 10000 0 E

end Hila
