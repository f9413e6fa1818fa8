import Verif.Model.Gauge
import Verif.Model.GradFlow
import Verif.Model.LinkUpdate
import Verif.Model.Reunit
import Verif.Model.Shuffle

/-!
# The updates of suN_gauge.cpp

applications/suN_gauge/src/suN_gauge.cpp:72-156, without `SUN_OVERRELAX_dFJ`. The fields are the same for all ranks (see C02-C05 for halos); every rank has its
own stream of random numbers. Numbers are real, a division by zero is `none`. Timers are left out.
-/

namespace Hila

open Function

variable {R : Type} [DecidableEq R] {n : ℕ} {L : Fin n → ℕ} {N : ℕ}

/-- The links and for every rank the numbers that `hila::random()` will give. -/
abbrev LinkState {n : ℕ} (L : Fin n → ℕ) (N : ℕ) (R : Type) := GField L N × (R → ℕ → ℝ)

/-- sun_heatbath.h:28-202 `suN_heatbath` like `suNHeatbath`, with the number of random numbers used. -/
noncomputable def suNHeatbathRun (rnd : ℕ → ℝ) (beta : ℝ) (U staple : Mat N) : Option (Mat N × ℕ) :=
  ((subgroups N).foldlM (heatbathHit rnd (beta / N)) ((U, U * staple.conjTranspose), 0)).map fun s => (s.1.1, s.2)

/-- An assignment to `U[d][X]`. -/
def setLink (U : GField L N) (d : Fin n) (x : PSite L) (V : Mat N) : GField L N := update U d (update (U d) x V)

/-- The bodies of the two site loops of `update_parity_dir` (suN_gauge.cpp:118-124 for `relax`, 130-132 otherwise) at the site `x`, which belongs to the rank
`own x`. -/
noncomputable def linkStep (beta : ℝ) (own : PSite L → R) (relax : Bool) (d : Fin n) (staples : PSite L → Option (Mat N)) (s : LinkState L N R) (x : PSite L) :
    Option (LinkState L N R) :=
  (staples x).bind fun S =>
    if relax then (suNOverrelax (s.1 d x) S).map fun V => (setLink s.1 d x V, s.2)
    else (suNHeatbathRun (s.2 (own x)) beta (s.1 d x) S).map fun y =>
      (setLink s.1 d x y.1, update s.2 (own x) fun k => s.2 (own x) (y.2 + k))

/-- The parity that the array of `shuffle_directions_and_parities` holds. -/
def parityOf (b : Bool) : Parity := if b then .odd else .even

/-- `update_parity_dir` (suN_gauge.cpp:99-135) for the direction and parity `dp`; `vis` are the sites of the parity in the order in which the loop visits them. -/
noncomputable def updateParityDir (beta : ℝ) (own : PSite L → R) (relax : Bool) (vis : Fin n × Bool → List (PSite L)) (s : LinkState L N R) (dp : Fin n × Bool) :
    Option (LinkState L N R) :=
  (vis dp).foldlM (linkStep beta own relax dp.1 (staplesum s.1 (fun _ => none) dp.1 (parityOf dp.2))) s

/-- The array of `shuffle_directions_and_parities` before the shuffle (shuffle.h:50-58). -/
def dirParities (n : ℕ) : List (Fin n × Bool) := (List.finRange n).flatMap fun d => [(d, false), (d, true)]

/-- The array after the shuffle with the numbers `u` (shuffle.h:23-30): the turn with index `j`, from `2 n - 1` down to 1, takes the number with index
`2 n - 1 - j`; the conversion to `int` truncates. -/
noncomputable def shuffledDirs (n : ℕ) (u : ℕ → ℝ) : Option (List (Fin n × Bool)) := shuffle (fun j => ⌊((j : ℝ) + 1) * u (2 * n - 1 - j)⌋₊) (dirParities n)

/-- `update` (suN_gauge.cpp:72-85). Every rank shuffles with its own numbers, `2 n - 1` of them, and then takes the array of the rank `root` (shuffle.h:59-61). -/
noncomputable def sweepUpdate (beta : ℝ) (own : PSite L → R) (root : R) (vis : Fin n × Bool → List (PSite L)) (relax : Bool) (s : LinkState L N R) :
    Option (LinkState L N R) :=
  (shuffledDirs n (s.2 root)).bind fun order =>
    order.foldlM (updateParityDir beta own relax vis) (s.1, fun r k => s.2 r (2 * n - 1 + k))

/-- The calls of `update` in `do_trajectory` (suN_gauge.cpp:149-154): for each of the `n_update` turns `nRelax` times overrelaxation, then heat bath. -/
def trajectoryOps (nUpdate nRelax : ℕ) : List Bool := (List.replicate nUpdate (List.replicate nRelax true ++ [false])).flatten

/-- `do_trajectory` (suN_gauge.cpp:146-156) with `reunitarize_gauge` (gaugefield.h:126-131). `vis k` are the orders in which the loops of the `k`-th call of
`update` visit the sites. -/
noncomputable def gaugeTrajectory (beta : ℝ) (own : PSite L → R) (root : R) (vis : ℕ → Fin n × Bool → List (PSite L)) (nUpdate nRelax : ℕ)
    (s : LinkState L N R) : Option (LinkState L N R) :=
  ((trajectoryOps nUpdate nRelax).zipIdx.foldlM (fun s op => sweepUpdate beta own root (vis op.2) op.1 s) s).bind fun s =>
    (allSome fun d x => reunitarize (s.1 d x)).map fun U => (U, s.2)

end Hila
