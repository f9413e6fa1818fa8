import Verif.Model.GaugeUpdate
import Verif.Model.HeatSpec

/-!
# Specification: what has to go well in the updates of suN_gauge.cpp
-/

namespace Hila

variable {R : Type} [DecidableEq R] {n : ℕ} {L : Fin n → ℕ} {N : ℕ}

/-- Before each step of a list of steps the condition `ok` holds, as long as there are results. -/
def AllSteps {S A : Type} (step : S → A → Option S) (ok : S → A → Prop) : List A → S → Prop
  | [], _ => True
  | a :: l, s => ok s a ∧ ∀ s', step s a = some s' → AllSteps step ok l s'

/-- In a heat bath update of the link at `x` every hit accepts one of its trials. -/
def LinkAccepts (beta : ℝ) (own : PSite L → R) (relax : Bool) (d : Fin n) (staples : PSite L → Option (Mat N)) (s : LinkState L N R) (x : PSite L) : Prop :=
  relax = false → ∀ S, staples x = some S → UpdateAccepts (s.2 (own x)) beta (s.1 d x) S

/-- The same for all sites of a parity and direction. -/
def ParityDirAccepts (beta : ℝ) (own : PSite L → R) (relax : Bool) (vis : Fin n × Bool → List (PSite L)) (s : LinkState L N R) (dp : Fin n × Bool) : Prop :=
  let staples := staplesum s.1 (fun _ => none) dp.1 (parityOf dp.2)
  AllSteps (linkStep beta own relax dp.1 staples) (LinkAccepts beta own relax dp.1 staples) (vis dp) s

/-- The same for all directions and parities. -/
def SweepAccepts (beta : ℝ) (own : PSite L → R) (root : R) (vis : Fin n × Bool → List (PSite L)) (relax : Bool) (s : LinkState L N R) : Prop :=
  ∀ order, shuffledDirs n (s.2 root) = some order →
    AllSteps (updateParityDir beta own relax vis) (ParityDirAccepts beta own relax vis) order (s.1, fun r k => s.2 r (2 * n - 1 + k))

/-- The same for all updates of a trajectory. -/
def TrajectoryAccepts (beta : ℝ) (own : PSite L → R) (root : R) (vis : ℕ → Fin n × Bool → List (PSite L)) (nUpdate nRelax : ℕ) (s : LinkState L N R) : Prop :=
  AllSteps (fun s op => sweepUpdate beta own root (vis op.2) op.1 s) (fun s op => SweepAccepts beta own root (vis op.2) op.1 s)
    (trajectoryOps nUpdate nRelax).zipIdx s

/-- The update of one link as the textbook has it: the staple is that of the present links. -/
noncomputable def linkFresh [∀ d, NeZero (L d)] (beta : ℝ) (own : PSite L → R) (relax : Bool) (s : LinkState L N R) (l : Fin n × PSite L) : Option (LinkState L N R) :=
  let S := ∑ e ∈ Finset.univ.erase l.1, (s.1 e l.2 * s.1 l.1 (l.2 + Pi.single e 1) * (s.1 e (l.2 + Pi.single l.1 1)).conjTranspose +
    (s.1 e (l.2 - Pi.single e 1)).conjTranspose * s.1 l.1 (l.2 - Pi.single e 1) * s.1 e (l.2 - Pi.single e 1 + Pi.single l.1 1))
  if relax then (suNOverrelax (s.1 l.1 l.2) S).map fun V => (fun d x => if d = l.1 ∧ x = l.2 then V else s.1 d x, s.2)
  else (suNHeatbathRun (s.2 (own l.2)) beta (s.1 l.1 l.2) S).map fun y =>
    (fun d x => if d = l.1 ∧ x = l.2 then y.1 else s.1 d x, fun r k => if r = own l.2 then s.2 r (y.2 + k) else s.2 r k)

end Hila
