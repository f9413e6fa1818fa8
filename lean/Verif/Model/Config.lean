import Verif.Model.Elements

/-!
# Gauge field files and the configuration header

Models `GaugeField::write/read` (`/repo/libraries/plumbing/gaugefield.h` 162-192), `config_write`
(196-217) and `config_read` (219-272).

A configuration file is modelled as the 64-bit integers of the header followed by the elements.
Simplification: when the header is cut short no elements follow it.
-/

namespace Hila

/-- File contents: header words, then elements of `sizeof(T)` bytes. -/
structure ConfigFile (V : Type) where
  header : List ℤ
  data : List V

/-- `GaugeField::write`: the direction fields one after the other (gaugefield.h:162-166). -/
def writeGauge {n : ℕ} {V : Type} (lay : Layout n) (dflt : V) (per : ℕ) (mems : Fin n → ℕ → Mem V) :
    List (Fin n) → Option (List V)
  | [] => some []
  | d :: rest => do
    let l ← writeField lay dflt per (mems d)
    let r ← writeGauge lay dflt per mems rest
    some (l ++ r)

/-- `config_write` (gaugefield.h:196-217). `flag` is `config_flag`, `esize` is `sizeof(T)`. -/
def configWrite {n : ℕ} {V : Type} (lay : Layout n) (dflt : V) (per : ℕ) (flag esize : ℤ)
    (mems : Fin n → ℕ → Mem V) : Option (ConfigFile V) := do
  let data ← writeGauge lay dflt per mems (List.finRange n)
  some ⟨flag :: n :: esize :: (List.finRange n).map fun d => (lay.L d : ℤ), data⟩

/-- `inputfile.read(&f, 8)`: the next header word; at the end of the file `f` keeps its value and
the stream fails. -/
def readWord (f : ℤ) (st : InStream ℤ) : ℤ × InStream ℤ :=
  ((st.read 1).1.headD f, (st.read 1).2)

/-- Conversion of a 64-bit integer to `int` (two's complement truncation). -/
def toInt32 (f : ℤ) : ℤ := Int.bmod f 4294967296

/-- Outcome of checking the header. `divZero`: `lattice.size(d) % insize[d]` with `insize[d] = 0`
is undefined behaviour. -/
inductive HeaderResult (n : ℕ) where
  | reject
  | divZero
  | accept (insize : CV n) (st : InStream ℤ)

/-- State of the loop over the extents (gaugefield.h:252-262). -/
structure DimState (n : ℕ) where
  f : ℤ
  st : InStream ℤ
  ok : Bool
  divZero : Bool
  insize : CV n

/-- One direction (gaugefield.h:253-262). The remainder is evaluated only while `ok` holds. -/
def dimStep {n : ℕ} (L : Site n) (s : DimState n) (d : Fin n) : DimState n :=
  let (f, st) := readWord s.f s.st
  let i := toInt32 f
  { f := f, st := st
    divZero := s.divZero || (s.ok && decide (i = 0))
    ok := s.ok && decide (Int.tmod (L d) i = 0)
    insize := Function.update s.insize d i }

/-- The checks at gaugefield.h:224-268; `junk` is the uninitialised `f`. -/
def checkHeader {n : ℕ} (flag esize : ℤ) (L : Site n) (junk : ℤ) (header : List ℤ) : HeaderResult n :=
  let (f1, st1) := readWord junk ⟨header, false⟩
  if f1 ≠ flag then .reject
  else
    let (f2, st2) := readWord f1 st1
    if f2 ≠ n then .reject
    else
      let (f3, st3) := readWord f2 st2
      if f3 ≠ esize then .reject
      else
        let s := (List.finRange n).foldl (dimStep L) ⟨f3, st3, true, false, Site.toCV L⟩
        if s.divZero then .divZero
        else if s.ok then .accept s.insize s.st
        else .reject

/-- `GaugeField::read(inputfile, insize)` (gaugefield.h:182-186). -/
def readGauge {n : ℕ} {V : Type} (lay : Layout n) (dflt : V) (per : ℕ) (junk : List V)
    (insize : Site n) : List (Fin n) → (Fin n → ℕ → Mem V) → InStream V →
    Option ((Fin n → ℕ → Mem V) × InStream V)
  | [], mems, st => some (mems, st)
  | d :: rest, mems, st => do
    let (m, st') ← readTiled lay dflt per junk insize (mems d) st
    readGauge lay dflt per junk insize rest (Function.update mems d m) st'

/-- Result of `config_read`: the program terminates with an error, the behaviour is undefined, or
the fields have been read. -/
inductive ConfigResult (n : ℕ) (V : Type) where
  | rejected
  | undefined
  | loaded (mems : Fin n → ℕ → Mem V)

/-- `config_read` (gaugefield.h:219-272) including `close_file`, which terminates if the stream has
failed. Extents that are accepted but not positive make `read` compute coordinates outside of the
lattice: undefined. `none` of the reading loop (out of bounds access) is undefined as well. -/
def configRead {n : ℕ} {V : Type} (lay : Layout n) (dflt : V) (per : ℕ) (flag esize junkf : ℤ)
    (junk : List V) (mems : Fin n → ℕ → Mem V) (file : ConfigFile V) : ConfigResult n V :=
  match checkHeader flag esize lay.L junkf file.header with
  | .reject => .rejected
  | .divZero => .undefined
  | .accept insize st =>
    if (List.finRange n).all fun d => decide (0 < insize d) then
      match readGauge lay dflt per junk (fun d => (insize d).toNat) (List.finRange n) mems
          ⟨file.data, st.fail⟩ with
      | none => .undefined
      | some (mems', st') => if st'.fail then .rejected else .loaded mems'
    else .undefined

end Hila
