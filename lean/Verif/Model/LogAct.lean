import Verif.Model.Clover
import Verif.Model.SUN

/-!
# Actions with the logarithm of the plaquette

libraries/gauge/log_plaquette_action.h, log_clover_action.h, log_topo_supp_action.h, energy_and_topo_charge_log.h. The function `log` of
SU(N) (sun_matrix.h:612-639, `Model/LogSU`) is the parameter `lg`, so that the formulas are seen apart from the accuracy of the logarithm.
The lattice, the fields and the numbers are those of `Model/Gauge` and `Model/Force`.
-/

namespace Hila

variable {n : ℕ} {L : Fin n → ℕ} {N : ℕ}

/-- `get_log_plaq_mat` (log_plaquette_action.h:11-24, the same text in log_topo_supp_action.h:52-65). -/
noncomputable def logPlaqMat (lg : Mat N → Alg N) (U : GField L N) (d1 d2 : Fin n) : PSite L → Mat N := fun x =>
  expand (lg (U d1 x * U d2 (x + unitStep d1) * (U d2 x * U d1 (x + unitStep d2)).conjTranspose))

/-- `measure_s_log_plaq` (log_plaquette_action.h:26-40). -/
noncomputable def measureSLogPlaq [∀ d, NeZero (L d)] (lg : Mat N → Alg N) (U : GField L N) : ℝ :=
  (∑ d1, ∑ d2, if d1 < d2 then ∑ x, 0.5 * sqNorm (logPlaqMat lg U d1 d2 x) else 0) / N

/-- The path around the plaquette (log_plaquette_action.h:53, log_topo_supp_action.h:146). -/
def logPlaqPath (d1 d2 : Fin n) : List (PStep n) := [(d1, true), (d2, true), (d1, false), (d2, false)]

/-- The force of one plane (log_plaquette_action.h:48-67). -/
noncomputable def logPlaqPlane (lg : Mat N → Alg N) (U : GField L N) (eps : ℝ) (K : AlgField L N) (p : Fin n × Fin n) : AlgField L N :=
  wloopForceFromWl U (logPlaqPath p.1 p.2) (logPlaqMat lg U p.1 p.2) eps K

/-- `get_force_log_plaq_add` (log_plaquette_action.h:42-68). -/
noncomputable def forceLogPlaqAdd (lg : Mat N → Alg N) (U : GField L N) (K : AlgField L N) (eps : ℝ) : AlgField L N :=
  (planes n).foldl (logPlaqPlane lg U eps) K

/-- `get_force_log_plaq` (log_plaquette_action.h:70-78). -/
noncomputable def forceLogPlaq (lg : Mat N → Alg N) (U : GField L N) (eps : ℝ) : AlgField L N := forceLogPlaqAdd lg U (fun _ _ => 0) eps

/-- `get_log_clover_mat` (log_clover_action.h:11-46; `Csum` of `get_log_p_and_c_mat`, log_topo_supp_action.h:11-50, is computed in the
same way). -/
noncomputable def logCloverMat (lg : Mat N → Alg N) (U : GField L N) (d1 d2 : Fin n) : PSite L → Mat N :=
  let C : PSite L → Mat N := fun x => expand (lg (U d1 x * U d2 (x + unitStep d1) * (U d2 x * U d1 (x + unitStep d2)).conjTranspose))
  let tF : PSite L → Mat N := fun x => (U d1 x).conjTranspose * C x * U d1 x
  let C : PSite L → Mat N := fun x => C x + tF (x - unitStep d1)
  let tF : PSite L → Mat N := fun x => (U d2 x).conjTranspose * C x * U d2 x
  fun x => (0.25 : ℂ) • (C x + tF (x - unitStep d2))

/-- `measure_s_log` (log_clover_action.h:48-62). -/
noncomputable def measureSLog [∀ d, NeZero (L d)] (lg : Mat N → Alg N) (U : GField L N) : ℝ :=
  (∑ d1, ∑ d2, if d1 < d2 then ∑ x, 0.5 * sqNorm (logCloverMat lg U d1 d2 x) else 0) / N

/-- The force of one plane (log_clover_action.h:70-100). The paths of the leaves are those of the clover action. -/
noncomputable def logCloverPlane (lg : Mat N → Alg N) (U : GField L N) (eps : ℝ) (K : AlgField L N) (p : Fin n × Fin n) : AlgField L N :=
  let Csum := logCloverMat lg U p.1 p.2
  (List.finRange 4).foldl (fun K k => wloopForceFromWl U (leafPath p.1 p.2 k) Csum (0.25 * eps) K) K

/-- `get_force_log_add` (log_clover_action.h:64-101). -/
noncomputable def forceLogAdd (lg : Mat N → Alg N) (U : GField L N) (K : AlgField L N) (eps : ℝ) : AlgField L N :=
  (planes n).foldl (logCloverPlane lg U eps) K

/-- `get_force_log` (log_clover_action.h:103-111). -/
noncomputable def forceLog (lg : Mat N → Alg N) (U : GField L N) (eps : ℝ) : AlgField L N := forceLogAdd lg U (fun _ _ => 0) eps

/-- `measure_s_topo_supp` (log_topo_supp_action.h:68-100). The array `F` has six elements: with another number of planes it is written
beyond its end, or elements without values are read (`none`). -/
noncomputable def measureSTopoSupp [∀ d, NeZero (L d)] (lg : Mat N → Alg N) (U : GField L N) : Option ℝ :=
  match (planes n).map fun p => logPlaqMat lg U p.1 p.2 with
  | [F0, F1, F2, F3, F4, F5] =>
    let term (A B : PSite L → Mat N) : ℝ := ∑ x, (-(A x * B x).trace.re) * (-(A x * B x).trace.re)
    some ((term F0 F5 + term F1 F4 + term F2 F3) / N)
  | _ => none

/-- `get_force_topo_supp_add` (log_topo_supp_action.h:102-164). -/
noncomputable def forceTopoSuppAdd (lg : Mat N → Alg N) (U : GField L N) (K : AlgField L N) (eps : ℝ) : Option (AlgField L N) :=
  let teps := 2.0 * eps
  match (planes n).map fun p => logPlaqMat lg U p.1 p.2 with
  | [F0, F1, F2, F3, F4, F5] =>
    let dens (A B : PSite L → Mat N) : PSite L → ℂ := fun x => ((-(A x * B x).trace.re : ℝ) : ℂ)
    let Q0 := dens F0 F5
    let Q1 := dens F1 F4
    let Q2 := dens F2 F3
    some (((planes n).zip [fun x => Q0 x • F5 x, fun x => Q1 x • F4 x, fun x => Q2 x • F3 x, fun x => Q2 x • F2 x, fun x => Q1 x • F1 x,
      fun x => Q0 x • F0 x]).foldl (fun K q => wloopForceFromWl U (logPlaqPath q.1.1 q.1.2) q.2 teps K) K)
  | _ => none

/-- `get_force_topo_supp` (log_topo_supp_action.h:166-174). -/
noncomputable def forceTopoSupp (lg : Mat N → Alg N) (U : GField L N) (eps : ℝ) : Option (AlgField L N) :=
  forceTopoSuppAdd lg U (fun _ _ => 0) eps

/-- The field strength of one plane (energy_and_topo_charge_log.h:28-55). -/
noncomputable def chargeFLog (lg : Mat N → Alg N) (U : GField L N) (d1 d2 : Fin n) : PSite L → Mat N :=
  let tF0 : PSite L → Mat N := fun x => expand (lg (U d1 x * U d2 (x + unitStep d1) * (U d2 x * U d1 (x + unitStep d2)).conjTranspose))
  let tF1 : PSite L → Mat N := fun x => (U d1 x).conjTranspose * tF0 x * U d1 x
  let tF0' : PSite L → Mat N := fun x => tF0 x + tF1 (x - unitStep d1)
  fun x => (0.25 : ℂ) • (tF0' x + (U d2 (x - unitStep d2)).conjTranspose * tF0' (x - unitStep d2) * U d2 (x - unitStep d2))

/-- `measure_topo_charge_and_energy_log` (energy_and_topo_charge_log.h:8-72): the charge and the energy. The text between `#if NDIM == 4` and
`#endif` is there in four dimensions only. -/
noncomputable def chargeEnergyLog [∀ d, NeZero (L d)] (lg : Mat N → Alg N) (U : GField L N) : Option (ℝ × ℝ) :=
  if n = 4 then
    match (planes n).map fun p => chargeFLog lg U p.1 p.2 with
    | [F0, F1, F2, F3, F4, F5] =>
      some ((∑ x, ((F0 x * F5 x).trace.re + -(F1 x * F4 x).trace.re + (F2 x * F3 x).trace.re)) / (4.0 * Real.pi * Real.pi),
        ∑ x, (sqNorm (F0 x) + sqNorm (F1 x) + sqNorm (F2 x) + sqNorm (F3 x) + sqNorm (F4 x) + sqNorm (F5 x)))
    | _ => none
  else some (0 / (4.0 * Real.pi * Real.pi), 0)

end Hila
