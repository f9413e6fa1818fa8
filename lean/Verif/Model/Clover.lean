import Verif.Model.Force
import Mathlib.Analysis.Real.Pi.Bounds

/-!
# Clover action, energy and topological charge

libraries/gauge/clover_action.h, energy_and_topo_charge_clover.h. The lattice, the fields and the numbers are those of
`Model/Gauge` and `Model/Force`.
-/

namespace Hila

variable {n : ℕ} {L : Fin n → ℕ} {N : ℕ}

/-- The lines `F -= F.dagger(); F *= 0.5; F -= trace(F) / group::size();` (clover_action.h:63-65,
energy_and_topo_charge_clover.h:53-55). A number is subtracted from the diagonal. -/
noncomputable def lieProject (F : Mat N) : Mat N :=
  let F := F - F.conjTranspose
  let F := (0.5 : ℂ) • F
  F - (F.trace / (N : ℂ)) • (1 : Mat N)

/-- `squarenorm` (matrix.h:1233-1240). -/
noncomputable def sqNorm (F : Mat N) : ℝ := ∑ i, ∑ j, Complex.normSq (F i j)

/-- `get_clover_leaves` (clover_action.h:10-67). -/
noncomputable def cloverLeaves (U : GField L N) (d1 d2 : Fin n) : (Fin 4 → PSite L → Mat N) × (PSite L → Mat N) :=
  let tF : PSite L → Mat N := fun x => (0.25 : ℂ) • (U d2 (x + unitStep d1) * (U d2 x * U d1 (x + unitStep d2)).conjTranspose)
  let C0 : PSite L → Mat N := fun x => U d1 x * tF x
  let C2 : PSite L → Mat N := fun x => tF x * U d1 x
  let Csum : PSite L → Mat N := fun x => (U d2 x).conjTranspose * C0 x * U d2 x
  let C1 : PSite L → Mat N := fun x => C2 (x - unitStep d1)
  let tF' : PSite L → Mat N := fun x => (U d2 x).conjTranspose * C1 x * U d2 x
  let C3 : PSite L → Mat N := fun x => Csum (x - unitStep d2)
  let C2' : PSite L → Mat N := fun x => tF' (x - unitStep d2)
  (![C0, C1, C2', C3], fun x => lieProject (C0 x + C1 x + C2' x + C3 x))

/-- `measure_s_clover` (clover_action.h:69-84). -/
noncomputable def measureSClover [∀ d, NeZero (L d)] (U : GField L N) : ℝ :=
  (∑ d1, ∑ d2, if d1 < d2 then ∑ x, 0.5 * sqNorm ((cloverLeaves U d1 d2).2 x) else 0) / N

/-- The paths of the leaves (clover_action.h:101-104). -/
def leafPath (d1 d2 : Fin n) : Fin 4 → List (PStep n) :=
  ![[(d1, true), (d2, true), (d1, false), (d2, false)], [(d2, true), (d1, false), (d2, false), (d1, true)],
    [(d1, false), (d2, false), (d1, true), (d2, true)], [(d2, false), (d1, true), (d2, true), (d1, false)]]

/-- The force of one plane (clover_action.h:96-126). -/
noncomputable def cloverPlane (U : GField L N) (eps : ℝ) (K : AlgField L N) (p : Fin n × Fin n) : AlgField L N :=
  let C := cloverLeaves U p.1 p.2
  (List.finRange 4).foldl (fun K k => wloopForceFromWl U (leafPath p.1 p.2 k) (fun x => C.1 k x * C.2 x) eps K) K

/-- The planes in the order of the loops `foralldir(dir1) foralldir(dir2) if (dir1 < dir2)`. -/
def planes (n : ℕ) : List (Fin n × Fin n) :=
  (List.finRange n).flatMap fun d1 => ((List.finRange n).filter (d1 < ·)).map fun d2 => (d1, d2)

/-- `get_force_clover_add` (clover_action.h:86-128). -/
noncomputable def forceCloverAdd (U : GField L N) (K : AlgField L N) (eps : ℝ) : AlgField L N :=
  (planes n).foldl (cloverPlane U eps) K

/-- `get_force_clover` (clover_action.h:130-138). -/
noncomputable def forceClover (U : GField L N) (eps : ℝ) : AlgField L N := forceCloverAdd U (fun _ _ => 0) eps

/-- The field strength of one plane (energy_and_topo_charge_clover.h:44-75). -/
noncomputable def chargeF (U : GField L N) (d1 d2 : Fin n) : PSite L → Mat N :=
  let tF0 : PSite L → Mat N := fun x => lieProject (U d1 x * U d2 (x + unitStep d1) * (U d2 x * U d1 (x + unitStep d2)).conjTranspose)
  let tF1 : PSite L → Mat N := fun x => (U d1 x).conjTranspose * tF0 x * U d1 x
  let tF0' : PSite L → Mat N := fun x => tF0 x + tF1 (x - unitStep d1)
  fun x => (0.25 : ℂ) • (tF0' x + (U d2 (x - unitStep d2)).conjTranspose * tF0' (x - unitStep d2) * U d2 (x - unitStep d2))

/-- `measure_topo_charge_and_energy_clover` in four dimensions (energy_and_topo_charge_clover.h:9-94): the charge and the
energy. The array `F` has six elements. -/
noncomputable def chargeEnergy {L : Fin 4 → ℕ} [∀ d, NeZero (L d)] (U : GField L N) : Option (ℝ × ℝ) :=
  match (planes 4).map fun p => chargeF U p.1 p.2 with
  | [F0, F1, F2, F3, F4, F5] =>
    some ((∑ x, ((F0 x * F5 x).trace.re + -(F1 x * F4 x).trace.re + (F2 x * F3 x).trace.re)) / (4.0 * Real.pi * Real.pi),
      ∑ x, (sqNorm (F0 x) + sqNorm (F1 x) + sqNorm (F2 x) + sqNorm (F3 x) + sqNorm (F4 x) + sqNorm (F5 x)))
  | _ => none

end Hila
