import Verif.Model.Gather
import Verif.Model.HaloState

/-!
# Shifting a field by an arbitrary displacement

Models `Field::shift` (`/repo/libraries/plumbing/field_comm.h` 175-275) and the buffered version
used for `f[X + v]` in site loops (`field_comm.h` 277-381, `hilapp/src/codegen.cpp` 329-407).

A field is a function from sites to `Option V`; `none` is an element that was never assigned
(freshly allocated temporaries are not initialised). The single-step neighbour copy
`shift_from` is the site loop justified by C03 and C05.
-/

namespace Hila

/-- `shift_from(f, d, par)` (field.h:518-520): `(*this)[par] = f[X + d]`. -/
def shiftFrom {n : ℕ} {V : Type} (lay : Layout n) (dst src : Site n → Option V) (d : Dir n)
    (par : Parity) : Site n → Option V :=
  fun c => if par.visits c.parity then src (lay.neighbour c d) else dst c

/-- The two `foralldir` loops choosing the first move (field_comm.h:205-230): the first component
whose direction satisfies `ready`, if any. -/
def firstMove {n : ℕ} (ready : Dir n → Bool) (rem : CV n) : Option (Dir n) :=
  (List.finRange n).findSome? fun d =>
    if 0 < rem d ∧ ready (upDir d) then some (upDir d)
    else if rem d < 0 ∧ ready (oppDir (upDir d)) then some (oppDir (upDir d))
    else none

/-- The first move (field_comm.h:202-230): a direction already gathered or being gathered if there
is one, otherwise the first available. -/
def chooseMove {n : ℕ} (ready : Dir n → Bool) (rem : CV n) : Option (Dir n) :=
  match firstMove ready rem with
  | some d => some d
  | none => firstMove (fun _ => true) rem

/-- Variables of the loop in `shift` (field_comm.h:236-272). `toRes` tells that the pointer `to`
is `&res` and `from` is `&r1`; otherwise the other way round. -/
structure ShiftState (n : ℕ) (V : Type) where
  res : Site n → Option V
  r1 : Site n → Option V
  toRes : Bool
  par : Parity
  rem : CV n

/-- `*from`. -/
def ShiftState.from {n : ℕ} {V : Type} (s : ShiftState n V) : Site n → Option V :=
  if s.toRes then s.r1 else s.res

/-- Body of the `while` loop (field_comm.h:263-269). -/
def shiftStep {n : ℕ} {V : Type} (lay : Layout n) (mdir : Dir n) (s : ShiftState n V) :
    ShiftState n V :=
  { res := if s.toRes then shiftFrom lay s.res s.r1 mdir s.par else s.res
    r1 := if s.toRes then s.r1 else shiftFrom lay s.r1 s.res mdir s.par
    toRes := !s.toRes
    par := oppParity s.par
    rem := s.rem.subDir mdir }

/-- `while (rem[d] != 0)` (field_comm.h:262-270) with a bound on the number of turns; the bound
used in `shiftAxis` suffices (theorem `C06_shift` shows that nothing is left to do). -/
def shiftWhile {n : ℕ} {V : Type} (lay : Layout n) (d : Fin n) (mdir : Dir n) :
    ℕ → ShiftState n V → ShiftState n V
  | 0, s => s
  | k + 1, s => if s.rem d ≠ 0 then shiftWhile lay d mdir k (shiftStep lay mdir s) else s

/-- Body of the `foralldir` loop (field_comm.h:258-272). -/
def shiftAxis {n : ℕ} {V : Type} (lay : Layout n) (s : ShiftState n V) (d : Fin n) :
    ShiftState n V :=
  if s.rem d ≠ 0 then
    shiftWhile lay d (if 0 < s.rem d then upDir d else oppDir (upDir d)) (s.rem d).natAbs s
  else s

/-- `Field::shift(v, res, par)` (field_comm.h:178-275). `ready d` is
`gather_status(par_s, d) != NOT_DONE`. The outer `none` stands for the use of an uninitialised
`mdir`. -/
def shift {n : ℕ} {V : Type} (lay : Layout n) (ready : Dir n → Bool) (f : Site n → V) (v : CV n)
    (res : Site n → Option V) (par : Parity) : Option (Site n → Option V) :=
  let len := v.normL1
  if len = 0 then some (fun c => if par.visits c.parity then some (f c) else res c)
  else
    let parS := if len.tmod 2 = 0 then oppParity par else par
    (chooseMove ready v).map fun mdir =>
      if len = 1 then shiftFrom lay res (fun c => some (f c)) mdir parS
      else
        let first := fun t => shiftFrom lay t (fun c => some (f c)) mdir parS
        let toRes := decide (len.tmod 2 = 0)
        let s : ShiftState n V :=
          { res := if toRes then res else first res
            r1 := if toRes then first (fun _ => none) else fun _ => none
            toRes := toRes
            par := oppParity parS
            rem := v.subDir mdir }
        ((List.finRange n).foldl (shiftAxis lay) s).res

/-! ### The buffered version -/

/-- `shift_buffer_struct` (field.h:114-118). -/
structure ShiftEntry (n : ℕ) (V : Type) where
  offset : CV n
  par : Parity
  f : Site n → Option V

/-- `buffered_shift_offsets(v)` (field_comm.h:280-304): the new buffer. -/
def addOffset {n : ℕ} {V : Type} (B : List (ShiftEntry n V)) (v : CV n) : List (ShiftEntry n V) :=
  if v.normL1 = 0 then B
  else if B.any (fun e => decide (e.offset = v)) then B
  else B ++ [⟨v, .none, fun _ => none⟩]

/-- `v.abs().max(dir)` (matrix.h:1303-1313): index of the first largest absolute value. -/
def maxAxis {n : ℕ} (v : CV n) : Option (Fin n) :=
  (List.finRange n).foldl (fun acc i => match acc with
    | none => some i
    | some j => if |v j| < |v i| then some i else some j) none

/-- Outcomes of `do_buffered_shift`: a reference to the field itself, to buffer entry `i`, the
"SHIFT ERROR" exit, a reference into a buffer that has been reallocated, or recursion bound
exceeded (never happens, see the theorems). -/
inductive BufRef where
  | self | entry (i : ℕ) | shiftError | dangling | fuel
  deriving DecidableEq, Repr

/-- First buffer entry one step nearer than `v` (field_comm.h:328-337), with the step. -/
def findNearer {n : ℕ} {V : Type} (B : List (ShiftEntry n V)) (v : CV n) : Option (ℕ × Dir n) :=
  (List.range B.length).findSome? fun j =>
    match B[j]? with
    | none => none
    | some e =>
      match CV.isDirection (v - e.offset) with
      | some d => if e.offset.normL1 < v.normL1 then some (j, d) else none
      | none => none

/-- The copy at the end of `do_buffered_shift` (field_comm.h:362-368): entry `i` gets the values of
`src` one step away on the sites of `par`, and its parity flags are extended. -/
def finishShift {n : ℕ} {V : Type} (lay : Layout n) (B : List (ShiftEntry n V)) (i : ℕ)
    (src : Site n → Option V) (d : Dir n) (par : Parity) : List (ShiftEntry n V) :=
  B.modify i fun e =>
    { e with f := shiftFrom lay e.f src d par, par := Parity.ofBits (e.par.bits ||| par.bits) }

/-- The field a reference points to. -/
def BufRef.field {n : ℕ} {V : Type} (f : Site n → V) (B : List (ShiftEntry n V)) :
    BufRef → Option (Site n → Option V)
  | .self => some fun c => some (f c)
  | .entry i => (B[i]?).map (·.f)
  | _ => none

/-- `do_buffered_shift(v, par)` (field_comm.h:307-375). `cap` is the capacity of the vector
`shift_buffer`; appending beyond it reallocates the elements while the callers' references `r` and
`n` are in use: outcome `dangling`. The recursion is bounded by `fuel`. -/
def doShift {n : ℕ} {V : Type} (lay : Layout n) (f : Site n → V) (cap : ℕ) :
    ℕ → List (ShiftEntry n V) → CV n → Parity → List (ShiftEntry n V) × BufRef
  | 0, B, _, _ => (B, .fuel)
  | fuel + 1, B, v, par =>
    if v.normL1 = 0 then (B, .self)
    else
      match B.findIdx? (fun e => decide (e.offset = v)) with
      | none => (B, .shiftError)
      | some i =>
        match B[i]? with
        | none => (B, .shiftError)
        | some r =>
          if r.par = par ∨ r.par = .all then (B, .entry i)
          else match v.isDirection with
            | some d => (finishShift lay B i (fun c => some (f c)) d par, .entry i)
            | none =>
              match findNearer B v with
              | some (j, d) =>
                match B[j]? with
                | none => (B, .shiftError)
                | some e =>
                  match doShift lay f cap fuel B e.offset (oppParity par) with
                  | (B', .dangling) => (B', .dangling)
                  | (B', .fuel) => (B', .fuel)
                  | (B', _) =>
                    match B'[j]? with
                    | none => (B', .shiftError)
                    | some e' => (finishShift lay B' i e'.f d par, .entry i)
              | none =>
                match maxAxis v with
                | none => (B, .shiftError)
                | some a =>
                  let d := if 0 < v a then upDir a else oppDir (upDir a)
                  let nv := v.subDir d
                  let B1 := addOffset B nv
                  if cap < B1.length then (B1, .dangling)
                  else match doShift lay f cap fuel B1 nv (oppParity par) with
                    | (B', .dangling) => (B', .dangling)
                    | (B', .fuel) => (B', .fuel)
                    | (B', ref) =>
                      match ref.field f B' with
                      | none => (B', .shiftError)
                      | some src => (finishShift lay B' i src d par, .entry i)

/-- What the code generated for a loop over `par` reading `f[X + v]` for several offsets does
before the loop (codegen.cpp:344-375): announce all offsets, then fetch each and keep the
references. `cap0` is the capacity of the buffer vector (it was cleared by the previous loop or
`mark_changed`; the first use reserves 100, field_comm.h:288-289); announcing more offsets than that
reallocates when no reference is held, to some capacity at least as large (`max`). -/
def fetchOffsets {n : ℕ} {V : Type} (lay : Layout n) (f : Site n → V) (cap0 fuel : ℕ)
    (vs : List (CV n)) (par : Parity) : List (ShiftEntry n V) × List BufRef :=
  let B := vs.foldl addOffset []
  let cap := max cap0 B.length
  vs.foldl (fun (acc : List (ShiftEntry n V) × List BufRef) v =>
    let (B', r) := doShift lay f cap fuel acc.1 v par
    (B', acc.2 ++ [r])) (B, [])

end Hila
