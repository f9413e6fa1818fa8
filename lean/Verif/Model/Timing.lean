import Verif.Model.Coord
import Mathlib.Data.Real.Basic
import Mathlib.Data.Nat.Notation

/-!
# Model of timing.cpp: time limits, the check of the remaining time, timers

Times are real numbers; the clock is an argument. `hila::broadcast` gives all ranks the values of rank 0 (C05), so only rank 0 is modelled.
-/

namespace Hila

/-! ### `sscanf` -/

/-- An item of a format of `sscanf`: `%u` or a character. -/
inductive ScanItem
  | u
  | lit (c : Char)

/-- `isspace` in the C locale. -/
def cSpace (c : Char) : Bool := c == ' ' || (9 ≤ c.toNat && c.toNat ≤ 13)

/-- A decimal digit. -/
def cDigit (c : Char) : Bool := '0' ≤ c && c ≤ '9'

/-- The number of a string of digits. -/
def timeDigits (ds : List Char) : ℕ := ds.foldl (fun a c => 10 * a + (c.toNat - '0'.toNat)) 0

/-- The digits of `%u` after spaces and the sign; `none` if there are none. -/
def scanDigits (neg : Bool) (s : List Char) : Option (Bool × ℕ × List Char) :=
  if s.takeWhile cDigit = [] then none else some (neg, timeDigits (s.takeWhile cDigit), s.dropWhile cDigit)

/-- `%u`: spaces are skipped, a sign is allowed, then digits. Result: minus sign, number, rest of the input. -/
def scanNum (s : List Char) : Option (Bool × ℕ × List Char) :=
  match s.dropWhile cSpace with
  | '+' :: r => scanDigits false r
  | '-' :: r => scanDigits true r
  | r => scanDigits false r

/-- `sscanf`: the values that are assigned, and whether the behaviour is undefined (a number that does not fit into `unsigned`, C11 7.21.6.2). A number with a
minus sign is negated modulo `2^32`. The result of `sscanf` is the number of values; it is EOF instead of 0 if the input is empty, which makes no difference
below. -/
def sscanf : List ScanItem → List Char → List ℕ × Bool
  | [], _ => ([], false)
  | .lit c :: f, s =>
    match s with
    | x :: xs => if x = c then sscanf f xs else ([], false)
    | [] => ([], false)
  | .u :: f, s =>
    match scanNum s with
    | none => ([], false)
    | some (neg, v, rest) =>
      if 2 ^ 32 ≤ v then ([], true)
      else ((if neg then (2 ^ 32 - v) % 2 ^ 32 else v) :: (sscanf f rest).1, (sscanf f rest).2)

/-! ### The time limit -/

/-- The variables `d, h, m, s` of `setup_timelimit`. -/
structure TimeVars where
  d : ℕ
  h : ℕ
  m : ℕ
  s : ℕ

/-- Assignment to one of the variables, counted from `d`. -/
def TimeVars.set (v : TimeVars) : ℕ → ℕ → TimeVars
  | 0, x => { v with d := x }
  | 1, x => { v with h := x }
  | 2, x => { v with m := x }
  | _, x => { v with s := x }

/-- What a scan assigns: the values to the variables from number `i` on. -/
def TimeVars.assign (v : TimeVars) (i : ℕ) : List ℕ → TimeVars
  | [] => v
  | x :: xs => (v.set i x).assign (i + 1) xs

/-- Result of `setup_timelimit`: undefined behaviour, exit with an error message, or the limit in seconds. -/
inductive TimeLimit
  | undefined
  | invalid
  | secs (t : ℕ)

/-- timing.cpp:240-243: the four formats, with the first variable each one assigns. -/
def timeFormats : List (List ScanItem × ℕ) :=
  [([.u, .lit '-', .u, .lit ':', .u, .lit ':', .u], 0), ([.u, .lit ':', .u, .lit ':', .u], 1), ([.u, .lit ':', .u], 2), ([.u], 3)]

/-- timing.cpp:245-249 -/
def timeSecs (nargs : ℕ) (v : TimeVars) : ℕ :=
  let d := if nargs < 4 then 0 else v.d
  let h := if nargs < 3 then 0 else v.h
  let m := if nargs < 2 then 0 else v.m
  v.s + 60 * (m + 60 * (h + 24 * d))

/-- timing.cpp:240-256: the chain of scans; `nargs` is its value before the next `--nargs`. -/
def timeChain (str : List Char) : List (List ScanItem × ℕ) → ℕ → TimeVars → TimeLimit
  | [], _, _ => .invalid
  | (f, i) :: fs, nargs, v =>
    if (sscanf f str).2 then .undefined
    else if (sscanf f str).1.length = nargs - 1 then .secs (timeSecs (nargs - 1) (v.assign i (sscanf f str).1))
    else timeChain str fs (nargs - 1) (v.assign i (sscanf f str).1)

/-- timing.cpp:236-256: the limit from a string that is not "slurm". -/
def parseLimit (str : List Char) : TimeLimit := timeChain str timeFormats 5 ⟨0, 0, 0, 0⟩

/-- What `popen` and `fgets` give: no process, no output, or a line. -/
inductive SlurmAnswer
  | noProcess
  | noOutput
  | line (s : List Char)

/-- timing.cpp:207-261 `setup_timelimit(string)`. Without a process `pclose` gets a null pointer. -/
def setupLimit (slurm : SlurmAnswer) (str : List Char) : TimeLimit :=
  if str = "slurm".toList then
    match slurm with
    | .noProcess => .undefined
    | .noOutput => .invalid
    | .line s => parseLimit (s.reverse.dropWhile cSpace).reverse
  else parseLimit str

/-! ### The check of the remaining time -/

/-- The static variables of `time_to_finish` (timing.cpp:328-329). -/
structure FinishVars where
  maxInterval : ℝ
  previous : ℝ

/-- The static variables at the start of the program. -/
noncomputable def FinishVars.start : FinishVars := ⟨0, 0⟩

open Classical in
/-- timing.cpp:327-366 `time_to_finish` at the time `now`. -/
noncomputable def timeToFinish (limit : ℝ) (signal : Bool) (now : ℝ) (v : FinishVars) : Bool × FinishVars :=
  if signal then (true, v)
  else if limit = 0 then (false, v)
  else
    let m := if now - v.previous > v.maxInterval then now - v.previous else v.maxInterval
    (decide (limit - now < m + 2 * 60), ⟨m, now⟩)

/-- The answers of calls at several times, without a signal. -/
noncomputable def finishCalls (limit : ℝ) : List ℝ → FinishVars → List Bool
  | [], _ => []
  | t :: ts, v => (timeToFinish limit false t v).1 :: finishCalls limit ts (timeToFinish limit false t v).2

/-! ### Timers -/

/-- A timer (timing.h:56-61) without its label. -/
structure TimerVars where
  tStart : ℝ
  tTotal : ℝ
  count : ℕ
  isOn : Bool
  isError : Bool

/-- timing.cpp:47-51 `reset`, also called by the constructors. -/
noncomputable def TimerVars.zero : TimerVars := ⟨0, 0, 0, false, false⟩

/-- All timers by their address (`none`: there is no timer at this address) and `timer_list`. -/
structure TimerWorld where
  tm : ℕ → Option TimerVars
  list : List ℕ

/-- What a program does with timers; the clock is an argument of `start` and `stop`. -/
inductive TimerOp
  | make (i : ℕ)
  | start (i : ℕ) (t : ℝ)
  | stop (i : ℕ) (t : ℝ)
  | reset (i : ℕ)
  | destroy (i : ℕ)

/-- The timer after `start` (timing.cpp:61-81). -/
def TimerVars.start (s : TimerVars) (t : ℝ) : TimerVars := { s with tStart := t, isOn := true, isError := s.isError || s.isOn }

/-- The timer after `stop` (timing.cpp:83-97). -/
noncomputable def TimerVars.stop (s : TimerVars) (t : ℝ) : TimerVars :=
  { s with tTotal := s.tTotal + (t - s.tStart), count := s.count + 1, isOn := false, isError := s.isError || !s.isOn }

/-- One operation. `none`: a member function of a timer that does not exist, or a second timer at the address of a living one. `remove` (timing.cpp:38-45) erases
the first entry. -/
noncomputable def TimerWorld.step (w : TimerWorld) : TimerOp → Option TimerWorld
  | .make i => if (w.tm i).isSome then none else some ⟨Function.update w.tm i (some .zero), w.list⟩
  | .start i t => (w.tm i).map fun s => ⟨Function.update w.tm i (some (s.start t)), if s.count = 0 then w.list ++ [i] else w.list⟩
  | .stop i t => (w.tm i).map fun s => ⟨Function.update w.tm i (some (s.stop t)), w.list⟩
  | .reset i => (w.tm i).map fun _ => ⟨Function.update w.tm i (some .zero), w.list⟩
  | .destroy i => (w.tm i).map fun _ => ⟨Function.update w.tm i none, w.list.erase i⟩

/-- A line of the report: total and number of calls, or the message about an error (timing.cpp:106-136). -/
inductive TimerLine
  | value (i : ℕ) (total : ℝ) (count : ℕ)
  | unbalanced (i : ℕ)

/-- timing.cpp:106-136 `timer::report()`, without the unit of the time for one call. -/
def TimerVars.report (i : ℕ) (s : TimerVars) : List TimerLine :=
  if s.count > 0 ∧ s.isError = false then [.value i s.tTotal s.count] else if s.isError then [.unbalanced i] else []

/-- timing.cpp:138-167 `report_timers`; `none` if the list has an entry without a timer. -/
def TimerWorld.report (w : TimerWorld) : Option (List TimerLine) :=
  (w.list.mapM fun i => (w.tm i).map (TimerVars.report i)).map List.flatten

/-- A sequence of operations from the start of the program. -/
noncomputable def timerRun (ops : List TimerOp) : Option TimerWorld := ops.foldlM TimerWorld.step ⟨fun _ => none, []⟩

end Hila
