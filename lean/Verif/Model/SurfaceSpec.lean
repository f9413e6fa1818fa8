import Verif.Model.Surface
import Verif.Model.GaugeUpdSpec

/-!
# Specification: the action with two couplings, and what has to go well in the updates of suN_gauge_surface.cpp
-/

namespace Hila

variable {R : Type} [DecidableEq R] {n : ℕ} {L : Fin n → ℕ} {N : ℕ}

/-- The sum over all plaquettes of a weight, that of the site at their corner, times 1 minus the real part of the trace divided by the number of colours. -/
noncomputable def plaqWeighted [∀ d, NeZero (L d)] (w : PSite L → ℝ) (U : GField L N) : ℝ :=
  ∑ d1, ∑ d2 ∈ Finset.univ.filter (d1 < ·), ∑ x, w x *
    (1 - (U d1 x * U d2 (x + Pi.single d1 1) * (U d1 (x + Pi.single d2 1)).conjTranspose * (U d2 x).conjTranspose).trace.re / N)

/-- The weights: 1 - `db` in the half of the lattice with small coordinate `ez`, 1 + `db` in the other half. -/
noncomputable def surfWeight (ez : Fin n) (db : ℝ) (x : PSite L) : ℝ := 1 + if L ez ≤ 2 * (x ez).val then db else -db

/-- The distance of a number from an interval. -/
noncomputable def outside (lo hi v : ℝ) : ℝ := max 0 (max (lo - v) (v - hi))

/-- In the loop over the sites of a parity every hit of the heat bath accepts one of its trials. -/
def DirAccepts (st : GField L N → Fin n → Parity → PSite L → Option (Mat N)) (beta : ℝ) (own : PSite L → R) (relax : Bool) (vis : Fin n × Bool → List (PSite L))
    (s : LinkState L N R) (dp : Fin n × Bool) : Prop :=
  let staples := st s.1 dp.1 (parityOf dp.2)
  AllSteps (linkStep beta own relax dp.1 staples) (LinkAccepts beta own relax dp.1 staples) (vis dp) s

/-- The same for all directions and parities. -/
def SurfSweepAccepts (st : GField L N → Fin n → Parity → PSite L → Option (Mat N)) (beta : ℝ) (own : PSite L → R) (root : R) (vis : Fin n × Bool → List (PSite L))
    (relax : Bool) (s : LinkState L N R) : Prop :=
  ∀ order, shuffledDirs n (s.2 root) = some order →
    AllSteps (dirUpdate st beta own relax vis) (DirAccepts st beta own relax vis) order (s.1, fun r k => s.2 r (2 * n - 1 + k))

/-- The same for all updates of a trajectory. -/
def SurfTrajectoryAccepts (ez : Fin n) (deltab beta : ℝ) (own : PSite L → R) (root : R) (vis : ℕ → Fin n × Bool → List (PSite L)) (nUpdate nRelax : ℕ)
    (s : LinkState L N R) : Prop :=
  AllSteps (fun s op => surfUpdate (surfStaples ez deltab) beta own root (vis op.2) op.1 s)
    (fun s op => SurfSweepAccepts (surfStaples ez deltab) beta own root (vis op.2) op.1 s) (trajectoryOps nUpdate nRelax).zipIdx s

end Hila
