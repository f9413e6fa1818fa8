import Mathlib.Analysis.SpecialFunctions.Exp

/-!
# The main loop of the HMC programs

applications/suN_hmc/src/suN_hmc.cpp:435-571 (the same text in suN_hmc_stout_comp.cpp:498-629): the step size during thermalisation, the number of
the trajectory, the Metropolis test with the remembered action, and the checkpoints in two alternating configuration files. What a trajectory
does with the fields is in `Model/HmcSample`.

Simplifications. Real numbers without rounding. The fields are abstract: `evolve` is `do_trajectory`. `int` values other than `p.trajlen` do not
overflow. As in `Model/Checkpoint` a configuration file is a list of words that arrive in order; the status file is written at once when it is
closed, so that between its truncation and that moment it is empty (`torn`). Measurements, gradient flow and output are left out: they change nothing
of this state. A configuration under the plain name, read when there is no status file (suN_hmc.cpp:287-297), is the argument of `hmcStart`.
-/

namespace Hila

/-- The file `run_status`: missing, truncated, or trajectory number, seed and the suffix of the configuration's name (suN_hmc.cpp:255-264). -/
inductive AltStatus
  | none
  | torn
  | ok (traj seed : ℤ) (idx : Bool)

/-- The two configuration files (suffix `_0` is `false`, `_1` is `true`) and the status file. -/
structure AltFiles (W : Type) where
  cfg : Bool → Option (List W)
  status : AltStatus

/-- `abs((trajectory + 1) / p.n_save) % 2` (suN_hmc.cpp:251), as a function of `trajectory + 1`. -/
def altIndex (nSave t : ℤ) : Bool := decide ((Int.tdiv t nSave).natAbs % 2 = 1)

/-- Opening the configuration file truncates it (suN_hmc.cpp:253, field_io.h:41-45). -/
def altOpen {W : Type} (b : Bool) (fs : AltFiles W) : AltFiles W :=
  { fs with cfg := fun i => if i = b then some [] else fs.cfg i }

/-- One word is written to the configuration file. -/
def altWord {W : Type} (b : Bool) (w : W) (fs : AltFiles W) : AltFiles W :=
  { fs with cfg := fun i => if i = b then (fs.cfg i).map (· ++ [w]) else fs.cfg i }

/-- Opening the status file with `trunc` (suN_hmc.cpp:257). -/
def altTrunc {W : Type} (fs : AltFiles W) : AltFiles W := { fs with status := .torn }

/-- The status file is complete (suN_hmc.cpp:258-263). -/
def altStatus {W : Type} (t seed : ℤ) (b : Bool) (fs : AltFiles W) : AltFiles W := { fs with status := .ok t seed b }

/-- The file operations of `checkpoint(U, trajectory, p)` in their order (suN_hmc.cpp:246-268); `t` is `trajectory + 1`. -/
def altOps {C W : Type} (enc : C → List W) (nSave t seed : ℤ) (c : C) : List (AltFiles W → AltFiles W) :=
  altOpen (altIndex nSave t) :: ((enc c).map (altWord (altIndex nSave t)) ++ [altTrunc, altStatus t seed (altIndex nSave t)])

/-- The first `k` operations of a list are executed; all of them if it is shorter. -/
def altRun {W : Type} (k : ℕ) (ops : List (AltFiles W → AltFiles W)) (fs : AltFiles W) : AltFiles W :=
  (ops.take k).foldl (fun f op => op f) fs

/-- What `restore_checkpoint` (suN_hmc.cpp:270-300) finds: no status file, a status file without its lines, a configuration that cannot be read
(both end the program), or configuration, trajectory number and seed. -/
inductive AltRestore (C : Type)
  | fresh
  | noStatus
  | noConfig
  | restored (c : C) (traj seed : ℤ)

/-- `restore_checkpoint` (suN_hmc.cpp:270-300). -/
def altRestore {C W : Type} (load : List W → Option C) (fs : AltFiles W) : AltRestore C :=
  match fs.status with
  | .none => .fresh
  | .torn => .noStatus
  | .ok t seed b =>
    match (fs.cfg b).bind load with
    | some c => .restored c t seed
    | none => .noConfig

/-- The parameters that matter here (suN_hmc.cpp:48-61). -/
structure HmcPars where
  dt : ℝ
  len : ℤ
  nTraj : ℤ
  nTherm : ℤ
  nSave : ℤ

/-- The physics: `p.beta * measure_s(U)`, `measure_e2(E)` and `do_trajectory` with step size and number of steps. -/
structure HmcPhys (C E : Type) where
  S : C → ℝ
  kin : E → ℝ
  evolve : ℝ → ℤ → C × E → C × E

/-- Random numbers of one turn: the momenta (suN_hmc.cpp:480), the number of the Metropolis test (489) and the seed for a status file (259). -/
structure HmcIn (E : Type) where
  mom : E
  u : ℝ
  seed : ℤ

/-- The variables of the loop: `trajectory` when the turn begins, `p.dt`, `p.trajlen`, `nreject`, `U`, `g_act_old`, and the files. -/
structure HmcLoop (C W : Type) where
  traj : ℤ
  dt : ℝ
  len : ℤ
  nrej : ℕ
  U : C
  gact : ℝ
  fs : AltFiles W

/-- What a turn did: number at its beginning, step size and number of steps used, actions before and after, rejection, the number that is printed
(`trajectory` after the test) and the field it leaves. -/
structure HmcTurn (C : Type) where
  num : ℤ
  dt : ℝ
  len : ℤ
  actOld : ℝ
  actNew : ℝ
  reject : Bool
  out : ℤ
  U : C

/-- The loop that halves the step (suN_hmc.cpp:459-462); `none`: `p.trajlen *= 2` overflows. -/
noncomputable def hmcReduce : ℕ → ℝ → ℤ → Option (ℝ × ℤ)
  | 0, d, l => some (d, l)
  | k + 1, d, l => if -2 ^ 31 ≤ 2 * l ∧ 2 * l < 2 ^ 31 then hmcReduce k (d * (1 / 2)) (2 * l) else none

/-- Step size and number of steps of the turn (suN_hmc.cpp:444-473). -/
noncomputable def hmcStepSize (P : HmcPars) (traj : ℤ) (dt : ℝ) (len : ℤ) (nrej : ℕ) : Option (ℝ × ℤ) :=
  if traj < P.nTherm then
    let d := if (traj : ℝ) < P.nTherm * 3 / 4 then P.dt * (1 / 10 + 9 / 10 * 4 / 3 * traj / P.nTherm) else P.dt
    if 1 < nrej then hmcReduce (nrej - 1) d P.len else some (d, P.len)
  else if traj = P.nTherm then some (P.dt, P.len)
  else some (dt, len)

/-- Trajectory and Metropolis test with given step size (suN_hmc.cpp:477-512). -/
noncomputable def hmcTest {C E W : Type} (P : HmcPars) (Φ : HmcPhys C E) (x : HmcIn E) (s : HmcLoop C W) (dt : ℝ) (len : ℤ) :
    HmcTurn C × HmcLoop C W :=
  let actOld := s.gact + Φ.kin x.mom / 2
  let q := Φ.evolve dt len (s.U, x.mom)
  let gNew := Φ.S q.1
  let actNew := gNew + Φ.kin q.2 / 2
  if Real.exp (actOld - actNew) < x.u then
    let out := if s.traj < P.nTherm then s.traj - 1 else s.traj
    (⟨s.traj, dt, len, actOld, actNew, true, out, s.U⟩,
      { s with traj := out + 1, dt := dt, len := len, nrej := if s.traj < P.nTherm then s.nrej + 1 else s.nrej })
  else
    (⟨s.traj, dt, len, actOld, actNew, false, s.traj, q.1⟩,
      { s with
        traj := s.traj + 1, dt := dt, len := len, nrej := if s.traj < P.nTherm then s.nrej - 1 else s.nrej, U := q.1, gact := gNew })

/-- The turn up to the checkpoint (suN_hmc.cpp:444-565); `none`: overflow. -/
noncomputable def hmcUpdate {C E W : Type} (P : HmcPars) (Φ : HmcPhys C E) (x : HmcIn E) (s : HmcLoop C W) :
    Option (HmcTurn C × HmcLoop C W) :=
  (hmcStepSize P s.traj s.dt s.len s.nrej).map fun z => hmcTest P Φ x s z.1 z.2

/-- The file operations at the end of a turn (suN_hmc.cpp:567-569). -/
def hmcSave {C E W : Type} (P : HmcPars) (enc : C → List W) (x : HmcIn E) (r : HmcTurn C) : List (AltFiles W → AltFiles W) :=
  if 0 < P.nSave ∧ 0 ≤ r.out ∧ Int.tmod (r.out + 1) P.nSave = 0 then altOps enc P.nSave (r.out + 1) x.seed r.U else []

/-- A whole turn (suN_hmc.cpp:443-570) in which the process dies after `k` file operations of its checkpoint. -/
noncomputable def hmcCut {C E W : Type} (P : HmcPars) (Φ : HmcPhys C E) (enc : C → List W) (k : ℕ) (x : HmcIn E) (s : HmcLoop C W) :
    Option (HmcTurn C × HmcLoop C W) :=
  (hmcUpdate P Φ x s).map fun z => (z.1, { z.2 with fs := altRun k (hmcSave P enc x z.1) z.2.fs })

/-- A whole turn (suN_hmc.cpp:443-570). -/
noncomputable def hmcTurn {C E W : Type} (P : HmcPars) (Φ : HmcPhys C E) (enc : C → List W) (x : HmcIn E) (s : HmcLoop C W) :
    Option (HmcTurn C × HmcLoop C W) :=
  (hmcUpdate P Φ x s).map fun z => (z.1, { z.2 with fs := altRun (hmcSave P enc x z.1).length (hmcSave P enc x z.1) z.2.fs })

/-- The turns of the loop for a list of random numbers (suN_hmc.cpp:443-570); it ends when `trajectory` reaches `p.n_traj`. -/
noncomputable def hmcLoop {C E W : Type} (P : HmcPars) (Φ : HmcPhys C E) (enc : C → List W) :
    List (HmcIn E) → HmcLoop C W → Option (List (HmcTurn C) × HmcLoop C W)
  | [], s => some ([], s)
  | x :: xs, s =>
    if s.traj < P.nTraj then
      (hmcTurn P Φ enc x s).bind fun z => (hmcLoop P Φ enc xs z.2).map fun y => (z.1 :: y.1, y.2)
    else some ([], s)

/-- The variables before the loop (suN_hmc.cpp:425-441): the run begins at trajectory `t` with the field `c`. -/
def hmcStart {C E W : Type} (P : HmcPars) (Φ : HmcPhys C E) (fs : AltFiles W) (c : C) (t : ℤ) : HmcLoop C W :=
  ⟨t, P.dt, P.len, 0, c, Φ.S c, fs⟩

end Hila
