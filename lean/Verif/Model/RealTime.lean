import Verif.Model.GradFlow
import Verif.Model.Degauss

/-!
# Evolution in real time (applications/sun_realtime/src/sun_realtime.cpp)

Lattice, fields and numbers as in `Model/Force`. The exponential function of the algebra is a parameter `ex`. The
directions of the loops over `foralldir` do not influence each other. Random numbers, the removal of the violation of Gauss'
law (`Model/Degauss`), `reunitarize` and output are left out.
-/

namespace Hila

variable {n : ℕ} {L : Fin n → ℕ} {N : ℕ}

/-- The fields `U` and `E`. -/
structure RtState {n : ℕ} (L : Fin n → ℕ) (N : ℕ) where
  U : GField L N
  E : AlgField L N

/-- `update_E` (sun_realtime.cpp:17-29). The field `staple` has no value before the first call of `staplesum`. -/
noncomputable def rtUpdateE (delta : ℝ) (s : RtState L N) : Option (RtState L N) :=
  (allSome fun d x => (staplesum s.U (fun _ => none) d .all x).map fun st =>
    s.E d x - delta • project (s.U d x * st.conjTranspose)).map fun E => ⟨s.U, E⟩

/-- `update_U` (sun_realtime.cpp:32-39). -/
noncomputable def rtUpdateU (ex : Alg N → Mat N) (delta : ℝ) (s : RtState L N) : RtState L N :=
  ⟨fun d x => ex (delta • s.E d x) * s.U d x, s.E⟩

/-- The inner loop of `thermalize` and `do_trajectory` with `k` turns (sun_realtime.cpp:212-215, 248-251). -/
noncomputable def rtSteps (ex : Alg N → Mat N) (dt : ℝ) : ℕ → RtState L N → Option (RtState L N)
  | 0, s => some s
  | k + 1, s => (rtUpdateE dt s).bind fun s => rtSteps ex dt k (rtUpdateU ex dt s)

/-- One turn of the loop in `do_trajectory` without the measurement (sun_realtime.cpp:246-254); the number of turns of the
inner loop is zero if `interval - 1` is negative. -/
noncomputable def rtLeap (ex : Alg N → Mat N) (dt : ℝ) (interval : ℤ) (s : RtState L N) : Option (RtState L N) :=
  (rtSteps ex dt (interval - 1).toNat (rtUpdateU ex (dt / 2) s)).bind fun s =>
    (rtUpdateE dt s).map fun s => rtUpdateU ex (dt / 2) s

/-- The loop over `n` in `do_trajectory` (sun_realtime.cpp:245-258): the times and fields of the measurements. `none`: the
loop does not end after `fuel` turns, or the fields are not defined. `n` is assumed not to overflow. -/
noncomputable def rtLoop (ex : Alg N → Mat N) (dt : ℝ) (trajlen interval : ℤ) :
    ℕ → ℤ → ℝ → RtState L N → Option (List (ℝ × RtState L N))
  | 0, i, _, _ => if i < trajlen then none else some []
  | fuel + 1, i, t, s =>
    if i < trajlen then (rtLeap ex dt interval s).bind fun s' =>
      (rtLoop ex dt trajlen interval fuel (i + interval) (t + dt * interval) s').map fun l =>
        (t + dt * interval, s') :: l
    else some []

/-- `do_trajectory` (sun_realtime.cpp:237-259). -/
noncomputable def rtTrajectory (ex : Alg N → Mat N) (dt : ℝ) (trajlen interval : ℤ) (fuel : ℕ) (s : RtState L N) :
    Option (List (ℝ × RtState L N)) :=
  (rtLoop ex dt trajlen interval fuel 0 0 s).map fun l => (0, s) :: l

/-- The number of turns of the loop `for (steps = 0; steps < 1.0 / dt - 1; steps++)` in `thermalize`
(sun_realtime.cpp:212). -/
noncomputable def rtThermSteps (dt : ℝ) : ℕ := ⌈1 / dt - 1⌉₊

/-- The evolution between two drawings of `E` in `thermalize` (sun_realtime.cpp:209-218). -/
noncomputable def rtTherm (ex : Alg N → Mat N) (dt : ℝ) (s : RtState L N) : Option (RtState L N) :=
  (rtSteps ex dt (rtThermSteps dt) (rtUpdateU ex (dt / 2) s)).bind fun s =>
    (rtUpdateE dt s).map fun s => rtUpdateU ex (dt / 2) s

/-! ### Measurements -/

/-- `measure_plaq` (sun_realtime.cpp:53-68). -/
noncomputable def rtPlaq [∀ d, NeZero (L d)] (U : GField L N) : ℝ :=
  ∑ d1, ∑ d2, if d1 < d2 then
    ∑ x, (N - (U d1 x * U d2 (x + unitStep d1) * (U d1 (x + unitStep d2)).conjTranspose *
      (U d2 x).conjTranspose).trace.re) else 0

/-- `energy` in `measure_stuff` (sun_realtime.cpp:152-160). -/
noncomputable def rtEnergy [∀ d, NeZero (L d)] (s : RtState L N) : ℝ :=
  let e2 := ∑ d, ∑ x, (s.E d x).squarenorm
  let e2 := e2 / 2
  e2 + 2.0 * rtPlaq s.U

/-- The sum `Q` of the clovers of a plane (sun_realtime.cpp:93-100). -/
def rtClover (U : GField L N) (d2 d3 : Fin n) (x : PSite L) : Mat N :=
  let P1 := U d2 x * U d3 (x + unitStep d2) * (U d2 (x + unitStep d3)).conjTranspose * (U d3 x).conjTranspose
  let P2 := U d3 x * (U d2 (x + unitStep d3 - unitStep d2)).conjTranspose * (U d3 (x - unitStep d2)).conjTranspose *
    U d2 (x - unitStep d2)
  let P3 := (U d2 (x - unitStep d2)).conjTranspose * (U d3 (x - unitStep d2 - unitStep d3)).conjTranspose *
    U d2 (x - unitStep d3 - unitStep d2) * U d3 (x - unitStep d3)
  let P4 := (U d3 (x - unitStep d3)).conjTranspose * U d2 (x - unitStep d3) * U d3 (x + unitStep d2 - unitStep d3) *
    (U d2 x).conjTranspose
  P1 + P2 + P3 + P4

/-- `sign` (sun_realtime.cpp:103-111). -/
def rtSign (d1 d2 d3 : Fin n) : ℤ := if d2 > d1 then 1 else if d3 > d1 then -1 else 1

/-- `get_magnetic_field` (sun_realtime.cpp:81-122). -/
noncomputable def rtMagnetic (U : GField L N) : GField L N := fun d1 x =>
  ∑ d2, ∑ d3, if d1 ≠ d2 ∧ d1 ≠ d3 ∧ d2 < d3 then
    (-(1.0 / 8.0) * (rtSign d1 d2 d3 : ℂ)) • (rtClover U d2 d3 x - (rtClover U d2 d3 x).conjTranspose) else 0

/-- `calc_topoCharge` (sun_realtime.cpp:127-143). -/
noncomputable def rtCharge (U : GField L N) (E : AlgField L N) (x : PSite L) : ℝ :=
  let cChi : ℝ := 1.0 / (64.0 * Real.pi * Real.pi)
  ∑ d, 16.0 * cChi * (expand (E d x) * rtMagnetic U d x).trace.re

/-- `E_imp` (sun_realtime.cpp:170-174). -/
noncomputable def rtImproved (s : RtState L N) : AlgField L N := fun d x =>
  (0.5 : ℝ) • (s.E d x + project ((s.U d (x - unitStep d)).conjTranspose * expand (s.E d (x - unitStep d)) *
    s.U d (x - unitStep d)))

/-- `chi_avg` (sun_realtime.cpp:175-181). -/
noncomputable def rtChi [∀ d, NeZero (L d)] (s : RtState L N) : ℝ :=
  (∑ x, rtCharge s.U (rtImproved s) x) / Fintype.card (PSite L)

end Hila
