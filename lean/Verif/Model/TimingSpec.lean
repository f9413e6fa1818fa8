import Verif.Model.Timing
import Mathlib.Data.Nat.Digits.Defs

/-!
# Specification: timers and the remaining time
-/

namespace Hila

/-- A string of digits, perhaps with leading zeros, that denotes the number `v`, which fits into 32 bits. -/
def IsNumber (ds : List Char) (v : ℕ) : Prop :=
  ds ≠ [] ∧ (∀ c ∈ ds, c.isDigit = true) ∧ v = Nat.ofDigits 10 (ds.reverse.map fun c => c.toNat - 48) ∧ v < 2 ^ 32

/-- The longest time between two checks, the first one counted from the start of the program. -/
noncomputable def longestGap (ts : List ℝ) : ℝ := (List.zipWith (fun t p => t - p) ts (0 :: ts)).foldl max 0

/-- The life of a timer as the manual describes it: it is made, then started and stopped alternately, and may be destroyed at any time. -/
inductive TimerPhase
  | absent
  | unused
  | running
  | stopped

/-- The phases of all timers after an operation; `none` if the operation is not allowed in the phase of its timer. A reset is allowed only before the first start. -/
def phaseStep (ph : ℕ → TimerPhase) : TimerOp → Option (ℕ → TimerPhase)
  | .make i => match ph i with
    | .absent => some (Function.update ph i .unused)
    | _ => none
  | .start i _ => match ph i with
    | .unused => some (Function.update ph i .running)
    | .stopped => some (Function.update ph i .running)
    | _ => none
  | .stop i _ => match ph i with
    | .running => some (Function.update ph i .stopped)
    | _ => none
  | .reset i => match ph i with
    | .unused => some ph
    | _ => none
  | .destroy i => match ph i with
    | .absent => none
    | _ => some (Function.update ph i .absent)

/-- The phases after a sequence of operations. -/
def phaseRun (ops : List TimerOp) : Option (ℕ → TimerPhase) := ops.foldlM phaseStep fun _ => .absent

/-- The timer of an operation. -/
def TimerOp.timer : TimerOp → ℕ
  | .make i => i
  | .start i _ => i
  | .stop i _ => i
  | .reset i => i
  | .destroy i => i

/-- Starts and stops of timer `i` at the ends of the given intervals. -/
def timedAt (i : ℕ) (ivs : List (ℝ × ℝ)) : List TimerOp := ivs.flatMap fun v => [.start i v.1, .stop i v.2]

end Hila
