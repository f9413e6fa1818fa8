import Mathlib.Data.Int.Init
import Mathlib.Data.List.Basic

/-!
# Model of tools/checkpoint.h

The file system of a run (three files) and the sequence of primitive file operations performed by
`checkpoint`, so that the process can be stopped between any two of them. Only rank 0 touches files.

Simplifications. A configuration file is a list of words (`enc c` the complete file of configuration
`c`, `load` the result of `config_read`, see `Model/Config` for the real ones); `ofstream` delivers the
words in order, so a stopped process leaves a prefix. The status file is a list of labelled numbers;
a line cut in its number is a number with an arbitrary value, a line cut earlier is absent (both make
`hila::input::get` of that label fail or, for the number, return something else).
-/

namespace Hila

/-- Labels in the file `run_status` (checkpoint.h:52-56). -/
inductive StatusLabel
  | trajectories | trajectory | seed | time
deriving DecidableEq

/-- The files: the configuration, its previous version (`.prev`) and `run_status`. -/
structure RunFiles (W : Type) where
  config : Option (List W)
  prev : Option (List W)
  status : Option (List (StatusLabel × ℤ))

/-- `filesys_ns::rename(config_file, config_file + ".prev")` (checkpoint.h:25). -/
def opRename {W : Type} (fs : RunFiles W) : RunFiles W := { fs with config := none, prev := fs.config }

/-- Opening the configuration for output, which truncates it (gaugefield.h:198, field_io.h:41-45). -/
def opOpenConfig {W : Type} (fs : RunFiles W) : RunFiles W := { fs with config := some [] }

/-- Writing one word of the configuration. -/
def opWord {W : Type} (w : W) (fs : RunFiles W) : RunFiles W :=
  { fs with config := fs.config.map (· ++ [w]) }

/-- Opening `run_status` with `trunc` (checkpoint.h:51). -/
def opOpenStatus {W : Type} (fs : RunFiles W) : RunFiles W := { fs with status := some [] }

/-- Part of a line is written: its number is not yet complete. -/
def opTorn {W : Type} (l : StatusLabel) (junk : ℤ) (fs : RunFiles W) : RunFiles W :=
  { fs with status := fs.status.map (· ++ [(l, junk)]) }

/-- The rest of the line is written. -/
def opLine {W : Type} (l : StatusLabel) (v : ℤ) (fs : RunFiles W) : RunFiles W :=
  { fs with status := fs.status.map (fun s => s.dropLast ++ [(l, v)]) }

/-- `status.get("trajectories")` (checkpoint.h:37-39, 72): the first entry, which must have this label;
`none`: the input routine stops the program. -/
def getTrajectories (s : List (StatusLabel × ℤ)) : Option ℤ :=
  match s with
  | (.trajectories, n) :: _ => some n
  | _ => none

/-- Arguments of a call of `checkpoint`: configuration, trajectory number, and the values that go into
the status file besides them (random seed, time). -/
structure Save (C : Type) where
  cfg : C
  traj : ℤ
  seed : ℤ
  time : ℤ
  saveOld : Bool

/-- `n_trajectories` after the look at the status file (checkpoint.h:35-44); `none`: the program is
stopped by the input routine. -/
def newTrajectories {W : Type} (fs : RunFiles W) (ntraj : ℤ) : Option ℤ :=
  match fs.status with
  | none => some ntraj
  | some s => getTrajectories s

/-- The operations up to the end of `config_write` (checkpoint.h:23-30). -/
def configOps {C W : Type} (enc : C → List W) (fs : RunFiles W) (a : Save C) :
    List (RunFiles W → RunFiles W) :=
  (if a.saveOld && fs.config.isSome then [opRename] else []) ++ [opOpenConfig] ++ (enc a.cfg).map opWord

/-- The operations on the status file (checkpoint.h:46-57). `junk` gives the number seen when a line
is cut. -/
def statusOps {C W : Type} (junk : StatusLabel → ℤ) (ntraj : ℤ) (a : Save C) :
    List (RunFiles W → RunFiles W) :=
  [opOpenStatus,
   opTorn .trajectories (junk .trajectories), opLine .trajectories ntraj,
   opTorn .trajectory (junk .trajectory), opLine .trajectory (a.traj + 1),
   opTorn .seed (junk .seed), opLine .seed a.seed,
   opTorn .time (junk .time), opLine .time a.time]

/-- All operations of `checkpoint` (checkpoint.h:18-64). If the status file cannot be read the program
stops after the configuration has been written. -/
def checkpointOps {C W : Type} (enc : C → List W) (junk : StatusLabel → ℤ) (fs : RunFiles W) (ntraj : ℤ)
    (a : Save C) : List (RunFiles W → RunFiles W) :=
  configOps enc fs a ++
    match newTrajectories fs ntraj with
    | some n => statusOps junk n a
    | none => []

/-- Executing operations. -/
def runOps {W : Type} (ops : List (RunFiles W → RunFiles W)) (fs : RunFiles W) : RunFiles W :=
  ops.foldl (fun f op => op f) fs

/-- Result of `restore_checkpoint` (checkpoint.h:67-103): the program is terminated by an error, there
is nothing to restore (`false`), only a configuration is there (`initial`), or a configuration with its
trajectory number, number of trajectories and seed. -/
inductive Restore (C : Type)
  | terminated
  | nothing
  | initial (c : C)
  | restored (c : C) (traj ntraj seed : ℤ)

/-- `config_read`: the file must exist (field_io.h:19-34) and be accepted. -/
def readConfig {C W : Type} (load : List W → Option C) (fs : RunFiles W) : Option C :=
  fs.config.bind load

/-- `restore_checkpoint` (checkpoint.h:67-103). -/
def restoreCheckpoint {C W : Type} (load : List W → Option C) (fs : RunFiles W) : Restore C :=
  match fs.status with
  | some ((.trajectories, n) :: (.trajectory, t) :: (.seed, s) :: _) =>
    match readConfig load fs with
    | some c => .restored c t n s
    | none => .terminated
  | some _ => .terminated
  | none =>
    if fs.config.isSome then
      match readConfig load fs with
      | some c => .initial c
      | none => .terminated
    else .nothing

/-- What can happen to a run. `edit`: the user changes the number of trajectories in the status file
("CHANGE TO ADJUST NUMBER OF TRAJECTORIES"). `crash k a`: the process dies after `k` operations of a
`checkpoint` call (after the last one if `k` is larger); `die`: it dies elsewhere. `start n`: it is
started again with `n` trajectories in the parameter file. -/
inductive RunEvent (C : Type)
  | save (a : Save C)
  | crash (k : ℕ) (a : Save C)
  | die
  | start (n : ℤ)
  | edit (n : ℤ)

/-- Files and, while the process is alive, its `n_trajectories`; results of the restarts so far. -/
structure RunState (C W : Type) where
  fs : RunFiles W
  proc : Option ℤ
  log : List (Restore C)

/-- The user's edit of `run_status`, effective on a file whose first line is complete. -/
def editStatus {W : Type} (n : ℤ) (fs : RunFiles W) : RunFiles W :=
  { fs with status := fs.status.map fun s =>
      match s with
      | (.trajectories, _) :: r => (.trajectories, n) :: r
      | s => s }

/-- One event. Checkpoint calls happen only while the process lives, starts only when it does not. -/
def runStep {C W : Type} (enc : C → List W) (load : List W → Option C) (junk : StatusLabel → ℤ)
    (st : RunState C W) (e : RunEvent C) : RunState C W :=
  match e, st.proc with
  | .save a, some n =>
    { st with fs := runOps (checkpointOps enc junk st.fs n a) st.fs, proc := newTrajectories st.fs n }
  | .crash k a, some n =>
    { st with fs := runOps ((checkpointOps enc junk st.fs n a).take k) st.fs, proc := none }
  | .die, some _ => { st with proc := none }
  | .start n, none =>
    { st with
      log := restoreCheckpoint load st.fs :: st.log
      proc := match restoreCheckpoint load st.fs with
        | .terminated => none
        | .nothing => some n
        | .initial _ => some n
        | .restored _ _ n' _ => some n' }
  | .edit n, _ => { st with fs := editStatus n st.fs }
  | _, _ => st

/-- A history. -/
def runHistory {C W : Type} (enc : C → List W) (load : List W → Option C) (junk : StatusLabel → ℤ)
    (fs : RunFiles W) (es : List (RunEvent C)) : RunState C W :=
  es.foldl (runStep enc load junk) ⟨fs, none, []⟩

end Hila
