import Verif.Model.Stagg

/-!
# Pseudofermion actions

libraries/hmc/fermion_field.h and the gauge action of libraries/hmc/gauge_field.h. The solution of the linear system is a parameter
`solve`: it stands for `initial_guess` followed by `CG::apply` (`Model/CG`, `Model/MRE`), whose accuracy is the subject of C27. The
function `project_antihermitean` is not in the repository; it is modelled as the projection to antihermitean matrices without trace.
-/

namespace Hila

variable {n : ℕ} {L : Fin n → ℕ} {N : ℕ}

/-- The sum of `chi[X].rdot(psi[X])` in a loop `onsites(par)`. -/
noncomputable def rdotOn [∀ d, NeZero (L d)] (par : Parity) (chi psi : CField L N) : ℝ :=
  ∑ x, if VisitsPar par x then (∑ i, star (chi x i) * psi x i).re else 0

/-- The sum of `squarenorm(psi[X])` in a loop `onsites(par)`. -/
noncomputable def sqOn [∀ d, NeZero (L d)] (par : Parity) (psi : CField L N) : ℝ :=
  ∑ x, if VisitsPar par x then ∑ i, Complex.normSq (psi x i) else 0

/-- The projection of `add_momentum` (gauge_field.h:253): antihermitean part without trace. -/
noncomputable def projAnti (F : Mat N) : Mat N :=
  let G := (1 / 2 : ℂ) • (F - F.conjTranspose)
  G - (G.trace / N) • (1 : Mat N)

/-- `add_momentum` (gauge_field.h:249-257). -/
noncomputable def addMomentum (U P F : GField L N) : GField L N := fun d x => P d x + projAnti (U d x * F d x)

/-- `fermion_action::action()` (fermion_field.h:90-103); `solve` gives the solution for the operator with these links. -/
noncomputable def fermionAction [∀ d, NeZero (L d)] (D : DiracOp L N) (solve : GField L N → CField L N → CField L N) (U : GField L N)
    (chi : CField L N) : ℝ := rdotOn D.par chi (solve U chi)

/-- `fermion_action::draw_gaussian_fields()` (fermion_field.h:123-132); `psi` are the random numbers. -/
def fermionDraw (D : DiracOp L N) (U : GField L N) (psi : CField L N) : CField L N := D.dagger U psi

/-- `fermion_action::force_step` (fermion_field.h:146-167): the new momentum. -/
noncomputable def fermionForceStep (D : DiracOp L N) (solve : GField L N → CField L N → CField L N) (U P : GField L N) (chi : CField L N)
    (eps : ℝ) : GField L N :=
  let psi := solve U chi
  let Mpsi := D.apply U psi
  let force := D.force U Mpsi psi 1
  let force2 := D.force U psi Mpsi (-1)
  addMomentum U P fun d x => ((-eps : ℝ) : ℂ) • (force d x + force2 d x)

/-- `Hasenbusch_action_2::action()` (fermion_field.h:253-272). -/
noncomputable def hasen2Action [∀ d, NeZero (L d)] (D : DiracOp L N) (mh : ℝ) (solve : GField L N → CField L N → CField L N) (U : GField L N)
    (chi : CField L N) : ℝ :=
  let psi := (hasenbuschOp D mh).dagger U chi
  let v := solve U psi
  sqOn D.par (D.apply U v)

/-- `Hasenbusch_action_2::action(Field<double> &S)` (fermion_field.h:275-289): what is added to `S`. -/
noncomputable def hasen2ActionField (D : DiracOp L N) (solve : GField L N → CField L N → CField L N) (U : GField L N)
    (chi : CField L N) : PSite L → ℝ :=
  let psi := D.dagger U chi
  let v := solve U psi
  let psi := D.apply U v
  fun x => if VisitsPar .even x then ∑ i, Complex.normSq (psi x i) else 0

/-- `fermion_action::action(Field<double> &S)` (fermion_field.h:106-119): what is added to `S`. -/
noncomputable def fermionActionField (D : DiracOp L N) (solve : GField L N → CField L N → CField L N) (U : GField L N) (chi : CField L N) :
    PSite L → ℝ := fun x => if VisitsPar D.par x then (∑ i, star (chi x i) * solve U chi x i).re else 0

/-- `Hasenbusch_action_2::draw_gaussian_fields()` (fermion_field.h:293-309); `solveH` is the solution for `D_h`. -/
noncomputable def hasen2Draw (D : DiracOp L N) (mh : ℝ) (solveH : GField L N → CField L N → CField L N) (U : GField L N) (psi : CField L N) :
    CField L N :=
  let v := D.dagger U (fun x => if VisitsPar D.par x then psi x else 0)
  let psi := solveH U v
  (hasenbuschOp D mh).apply U psi

/-- `Hasenbusch_action_2::force_step` (fermion_field.h:349-375). -/
noncomputable def hasen2ForceStep (D : DiracOp L N) (mh : ℝ) (solve : GField L N → CField L N → CField L N) (U P : GField L N)
    (chi : CField L N) (eps : ℝ) : GField L N :=
  let Dhchi := (hasenbuschOp D mh).dagger U chi
  let psi := solve U Dhchi
  let Mpsi := D.apply U psi
  let Mpsi := assignOn D.par Mpsi fun x => Mpsi x - chi x
  let force := D.force U Mpsi psi 1
  let force2 := D.force U psi Mpsi (-1)
  addMomentum U P fun d x => ((-eps : ℝ) : ℂ) • (force d x + force2 d x)

/-- `gauge_action::action()` (gauge_field.h:470-473). -/
noncomputable def gaugeActionVal [∀ d, NeZero (L d)] (beta : ℝ) (U : GField L N) : ℝ := beta * plaquetteSum U

/-- `gauge_action::force_step` (gauge_field.h:476-484). -/
noncomputable def gaugeActionForceStep (beta : ℝ) (U P : GField L N) (eps : ℝ) : GField L N :=
  addMomentum U P fun d x => ((-beta * eps / N : ℝ) : ℂ) • calcStaples U d x

end Hila
