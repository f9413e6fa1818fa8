import Mathlib.Data.List.Basic
import Mathlib.Data.Int.Init

/-!
# Model of the command-line parser (plumbing/cmdline.cpp)

Strings are lists of characters. Not modelled: output and help texts, `aux`, the conversion of values
to numbers (`get_int`, `get_double`). `quit_with_help` (18-21) ends the program.
-/

namespace Hila

abbrev Str := List Char

/-- How a function of the parser ends: normally, by `quit_with_help`, by an access outside an array,
or (artefact of the model) by running out of the number of steps given. -/
inductive CmdOut (β : Type) where
  | done (b : β)
  | quit
  | outOfBounds
  | outOfFuel
deriving DecidableEq

def CmdOut.bind {β γ : Type} (o : CmdOut β) (f : β → CmdOut γ) : CmdOut γ :=
  match o with
  | .done b => f b
  | .quit => .quit
  | .outOfBounds => .outOfBounds
  | .outOfFuel => .outOfFuel

/-- `std::regex_match(p, "^-[a-zA-Z].*")` (cmdline.cpp:135, 160): the whole string matches; `.` is any
character except line terminators. -/
def isFlag : Str → Bool
  | '-' :: c :: rest => c.isAlpha && rest.all fun x => x ≠ '\n' ∧ x ≠ '\r'
  | _ => false

/-- Local variables of `read_arg_vector` (cmdline.cpp:126-200): the loop index `i`, the position `k` of
`p_ind`, the counter `n`, the marks `u_ind` (`true` for 1, `false` for -1), `uargs`, and
`argmap[flag].present`. -/
structure RavState where
  i : ℕ
  k : ℕ
  n : ℕ
  u : List Bool
  out : List Str
  present : Bool
deriving DecidableEq

/-- The inner `while` loop (cmdline.cpp:157-166), started with `i < myargc`. -/
def ravValues (argv : List Str) : ℕ → RavState → CmdOut RavState
  | 0, _ => .outOfFuel
  | fuel + 1, s =>
    if isFlag (argv.getD s.i []) then .done s
    else if s.k < s.u.length then
      let s' : RavState := { s with i := s.i + 1, k := s.k + 1, n := s.n + 1, u := s.u.set s.k true,
                                    out := s.out ++ [argv.getD s.i []] }
      if s'.i < argv.length then ravValues argv fuel s' else .done s'
    else .outOfBounds

/-- The `for` loop of `read_arg_vector` (cmdline.cpp:137-190). After the inner loop `p` points to
`argv[i]`, or to the last argument if the end was reached. -/
def ravLoop (argv : List Str) (flag : Str) (number : ℤ) : ℕ → RavState → CmdOut RavState
  | 0, _ => .outOfFuel
  | fuel + 1, s =>
    if s.i < argv.length then
      if argv.getD s.i [] = flag then
        if s.k < s.u.length then
          let s1 : RavState := { s with i := s.i + 1, k := s.k + 1, n := 0, u := s.u.set s.k true,
                                        present := true }
          if s1.i < argv.length then
            (ravValues argv (argv.length + 1) s1).bind fun s2 =>
              let p := argv.getD (min s2.i (argv.length - 1)) []
              if p = flag then
                if s2.k < s2.u.length ∧ 0 < s2.k then
                  if number ≥ 0 ∧ number ≠ s2.n then .quit
                  else ravLoop argv flag number fuel
                    { s2 with i := s2.i - 1 + 1, k := s2.k - 1 + 1, u := s2.u.set s2.k true }
                else .outOfBounds
              else
                if number ≥ 0 ∧ number ≠ s2.n then .quit
                else ravLoop argv flag number fuel { s2 with i := s2.i + 1, k := s2.k + 1 }
          else .done s1
        else .outOfBounds
      else ravLoop argv flag number fuel { s with i := s.i + 1, k := s.k + 1 }
    else .done s

/-- `read_arg_vector(flag)` (cmdline.cpp:126-200): the values, whether the flag is present, and the
remaining arguments. The compaction loop (191-197) is a filter. -/
def readArgVector (argv : List Str) (flag : Str) (number : ℤ) :
    CmdOut (List Str × Bool × List Str) :=
  (ravLoop argv flag number (argv.length + 1)
    ⟨0, 0, 0, List.replicate argv.length false, [], false⟩).bind fun s =>
    .done (s.out, s.present, ((argv.zip s.u).filter fun x => !x.2).map Prod.fst)

/-- The loop over the flags in `fill_argmap` (cmdline.cpp:205-211). `flags` are the registered flags
with the required number of arguments, in the order of the map. -/
def fillLoop : List (Str × ℤ) → List Str → CmdOut (List (Str × List Str × Bool) × List Str)
  | [], argv => .done ([], argv)
  | (f, number) :: rest, argv =>
    (readArgVector argv f number).bind fun r =>
      (fillLoop rest r.2.2).bind fun q => .done ((f, r.1, r.2.1) :: q.1, q.2)

/-- `fill_argmap` (cmdline.cpp:205-220): the values of all flags, unless arguments remain. -/
def fillArgmap (flags : List (Str × ℤ)) (argv : List Str) :
    CmdOut (List (Str × List Str × Bool)) :=
  (fillLoop flags argv).bind fun q => if q.2.length > 1 then .quit else .done q.1

/-- The map from flags to values; `operator[]` inserts an empty entry if the flag is missing. -/
abbrev ArgMap := List (Str × List Str × Bool)

/-- `argmap[flag]` (`std::map::operator[]`): the entry, and the map with the entry. -/
def ArgMap.get (m : ArgMap) (flag : Str) : (List Str × Bool) × ArgMap :=
  match m.find? fun e => e.1 = flag with
  | some e => (e.2, m)
  | none => (([], false), m ++ [(flag, [], false)])

/-- `argmap.count(flag)`. -/
def ArgMap.count (m : ArgMap) (flag : Str) : ℕ := if m.any (fun e => e.1 = flag) then 1 else 0

/-- `cmdlinearguments::values(flag)` (cmdline.cpp:76-88). -/
def cmdValues (m : ArgMap) (flag : Str) : CmdOut (List Str) :=
  let g := m.get flag
  if g.2.count flag = 0 then .quit else .done g.1.1

/-- `add_flag` (cmdline.cpp:103-113), for the flag and its required number. -/
def addFlag (flags : List (Str × ℤ)) (flag : Str) (number : ℤ) : CmdOut (List (Str × ℤ)) :=
  if flags.any (fun e => e.1 = flag) then .quit else .done (flags ++ [(flag, number)])

end Hila
