import Verif.Model.HMC
import Verif.Model.RealTime
import Verif.Model.Reunit
import Mathlib.Analysis.SpecialFunctions.Exp

/-!
# Hybrid Monte Carlo as a random update

Two programs: `update_hmc` of the library (`Model/HMC`) with its random numbers made explicit, and the turns of the main loop of
applications/suN_hmc/src/suN_hmc.cpp. Numbers are real; a value that is not a number is `none`.
-/

namespace Hila

/-! ### The library -/

/-- One level of a hierarchy (integrator.h:104-208): the kind of integrator, the number of steps of the level below, the action and the force of the
action term, and how the term draws its fields (`draw_gaussian_fields`) from random numbers `Ω`. -/
structure HmcLevel (ι G A X Ω : Type) where
  second : Bool
  n : ℤ
  S : (ι → G) → X → ℝ
  F : (ι → G) → X → ι → A
  draw : (ι → G) → X → Ω → X

/-- The hierarchy of integrators made of the levels, with the random numbers `ω` of the action terms and the momenta `p` that are drawn
(gauge_field.h:389-436, integrator.h:104-208). -/
def hmcBuild {ι G A X Ω : Type} [SMul ℝ A] [Add A] [Mul G] (ex : A → G) (norm2 : (ι → A) → ℝ) (p : ι → A) (ω : Ω) :
    List (HmcLevel ι G A X Ω) → Integrator ℝ (GaugeState ι G A X)
  | [] => .momentum (gaugeMomentum ex norm2 fun _ => p)
  | l :: ls =>
    if l.second then .o2 (gaugeTerm l.S l.F fun s => l.draw s.gauge s.extra ω) (hmcBuild ex norm2 p ω ls) l.n
    else .leapfrog (gaugeTerm l.S l.F fun s => l.draw s.gauge s.extra ω) (hmcBuild ex norm2 p ω ls) l.n

/-! ### The application -/

section
variable {n : ℕ} {L : Fin n → ℕ} {N : ℕ}

/-- `update_U` (suN_hmc.cpp:163-169); `ex` is `chexp` of the expanded momentum. -/
def appUpdateU (ex : Alg N → Mat N) (delta : ℝ) (s : RtState L N) : RtState L N :=
  ⟨fun d x => ex (delta • s.E d x) * s.U d x, s.E⟩

/-- `update_E` without smearing (suN_hmc.cpp:105-161); `force` is the function of the action that was compiled in. -/
noncomputable def appUpdateE (force : GField L N → AlgField L N → ℝ → Option (AlgField L N)) (delta : ℝ) (s : RtState L N) :
    Option (RtState L N) :=
  let eps := delta / N
  (force s.U s.E eps).map fun E => ⟨s.U, E⟩

/-- `k` turns of the loop in `do_trajectory` (suN_hmc.cpp:207-210). -/
noncomputable def appSteps (force : GField L N → AlgField L N → ℝ → Option (AlgField L N)) (ex : Alg N → Mat N) (beta dt : ℝ) :
    ℕ → RtState L N → Option (RtState L N)
  | 0, s => some s
  | k + 1, s => (appUpdateE force (beta * dt) s).bind fun s => appSteps force ex beta dt k (appUpdateU ex dt s)

/-- `do_trajectory` (suN_hmc.cpp:200-216). -/
noncomputable def appTrajectory (force : GField L N → AlgField L N → ℝ → Option (AlgField L N)) (ex : Alg N → Mat N) (beta dt : ℝ)
    (trajlen : ℤ) (s : RtState L N) : Option (RtState L N) :=
  (appSteps force ex beta dt (trajlen - 1).toNat (appUpdateU ex (dt / 2) s)).bind fun s =>
    (appUpdateE force (beta * dt) s).bind fun s =>
      let s := appUpdateU ex (dt / 2) s
      (allSome fun d x => reunitarize (s.U d x)).map fun U => ⟨U, s.E⟩

/-- `measure_e2` (suN_hmc.cpp:171-180). -/
noncomputable def appE2 [∀ d, NeZero (L d)] (E : AlgField L N) : ℝ := (∑ d, ∑ x, (E d x).squarenorm) / 2

/-- Variables of the main loop that survive a turn: `U` and `g_act_old` (suN_hmc.cpp:435-441). -/
structure AppState {n : ℕ} (L : Fin n → ℕ) (N : ℕ) where
  U : GField L N
  g : Option ℝ

/-- `a < r` for floating point numbers: false if `a` is not a number. -/
noncomputable def nanLt (a : Option ℝ) (r : ℝ) : Bool := match a with
  | some a => decide (a < r)
  | none => false

/-- One turn of the main loop (suN_hmc.cpp:476-513): `E` are the momenta drawn and `r` the value of `hila::random()` on rank 0. `act` is `measure_s`,
which may give a value that is not a number. `none` if the trajectory is not defined. -/
noncomputable def appTurn [∀ d, NeZero (L d)] (act : GField L N → Option ℝ)
    (force : GField L N → AlgField L N → ℝ → Option (AlgField L N)) (ex : Alg N → Mat N) (beta dt : ℝ) (trajlen : ℤ)
    (E : AlgField L N) (r : ℝ) (s : AppState L N) : Option (AppState L N) :=
  let actOld := s.g.map fun g => g + appE2 E / 2
  (appTrajectory force ex beta dt trajlen ⟨s.U, E⟩).map fun t =>
    let gNew := (act t.U).map fun a => beta * a
    let actNew := gNew.map fun g => g + appE2 t.E / 2
    let e := actOld.bind fun a => actNew.map fun b => Real.exp (a - b)
    let reject := nanLt e r
    if reject then s else ⟨t.U, gNew⟩

/-- The first value of `g_act_old` (suN_hmc.cpp:441). -/
noncomputable def appStart (act : GField L N → Option ℝ) (beta : ℝ) (U : GField L N) : AppState L N := ⟨U, (act U).map fun a => beta * a⟩

/-- `force` with Wilson's action, `get_force_wplaq_add` (suN_hmc.cpp:147, wilson_plaquette_action.h:90-100). -/
noncomputable def wilsonForce (U : GField L N) (E : AlgField L N) (eps : ℝ) : Option (AlgField L N) := allSome (forceWplaqAdd U E eps)

end
end Hila
