import Verif.Model.CmdLine

/-!
# Model of the parameter-file reader (plumbing/input.cpp, input.h)

Only rank 0 reads; broadcasts and messages are not modelled. Characters are ASCII and no character is
NUL, so that the pointer walks of `contains_word_list` end at the end of the strings. Outside
`print_linebuf` the code looks only at `linebuffer.substr(lb_start)`; the model keeps this part (`rest`).
Opening and closing of files is not modelled; the stream is the list of characters not yet read.
-/

namespace Hila

/-- `std::isspace` in the C locale. -/
def isSp (c : Char) : Bool :=
  c = ' ' || c = '\t' || c = '\n' || c = '\x0b' || c = '\x0c' || c = '\r'

/-- `while (isspace(*p)) p++`. -/
def skipWs (l : Str) : Str := l.dropWhile isSp

/-- The part of `class input` that the reader uses: the unread file, the unread part of `linebuffer`,
and `cmdline_p` (already loaded, input.cpp:317-320; empty if this is not the first input file). -/
structure InSt where
  file : Str
  rest : Str
  cmdp : List Str
deriving DecidableEq

/-- How a read ends: normally, by `exit(1)` for unbalanced quotes, or by the exception of
`cmdline_p.at(i + 1)`. -/
inductive InOut (β : Type) where
  | ok (b : β)
  | exit
  | throw
deriving DecidableEq

def InOut.bind {β γ : Type} (o : InOut β) (f : β → InOut γ) : InOut γ :=
  match o with
  | .ok b => f b
  | .exit => .exit
  | .throw => .throw

/-- input.cpp:123-148 `get_line`: `>> std::ws`, `getline`, skip lines that begin with `#`, cut the line
at `#`. Returns the line, or `none` at the end of the file, and the unread file. The first argument
bounds the number of lines (`file.length + 2` suffices). -/
def getLine : ℕ → Str → Option Str × Str
  | 0, file => (none, file)
  | fuel + 1, file =>
    let f := skipWs file
    match f with
    | [] => (none, [])
    | c :: _ =>
      let line := f.takeWhile (· ≠ '\n')
      let after := (f.dropWhile (· ≠ '\n')).drop 1
      if c = '#' then getLine fuel after else (some (line.takeWhile (· ≠ '#')), after)

/-- input.cpp:180-188 `remove_whitespace`. On failure of `get_line` the line buffer is empty. -/
def removeWhitespace (s : InSt) : Bool × InSt :=
  match skipWs s.rest with
  | [] =>
    match getLine (s.file.length + 2) s.file with
    | (some line, file) => (true, { s with rest := line, file := file })
    | (none, file) => (false, { s with rest := [], file := file })
  | c :: r => (true, { s with rest := c :: r })

/-- Inner loop of `contains_word_list` (input.cpp:207-212) with `last_space`, `last_char`. -/
def cwlInner : Str → Str → Bool → Option Char → Str × Str × Bool × Option Char
  | c :: p, d :: q, ls, lc =>
    if c = d ∧ isSp d = false then cwlInner p q false (some c) else (c :: p, d :: q, ls, lc)
  | p, q, ls, lc => (p, q, ls, lc)

/-- Does the string begin with white space (`std::isspace(*p)`)? -/
def headSp (l : Str) : Bool := l.head?.any isSp

/-- Outer loop of `contains_word_list` (input.cpp:205-224); `*p` at the end of a string is NUL. -/
def cwlOuter : ℕ → Str → Str → Bool → Option Char → Str × Str × Bool × Option Char
  | 0, p, q, ls, lc => (p, q, ls, lc)
  | fuel + 1, p, q, ls, lc =>
    if p = [] ∨ q = [] then (p, q, ls, lc)
    else
      let t := cwlInner p q ls lc
      let t := if headSp t.2.1 ∧ headSp t.1 then (skipWs t.1, skipWs t.2.1, true, t.2.2.2) else t
      if t.1.head? ≠ t.2.1.head? then t else cwlOuter fuel t.1 t.2.1 t.2.2.1 t.2.2.2

/-- input.cpp:194-240 `contains_word_list`: `none` if the words do not match, otherwise the new rest of
the line. -/
def containsWordList (list line : Str) : Option Str :=
  let t := cwlOuter (line.length + 1) (skipWs line) (skipWs list) false none
  if skipWs t.2.1 ≠ [] ∨
      ¬ (t.2.2.1 ∨ t.1 = [] ∨ headSp t.1 ∨ t.2.2.2 = some ',' ∨ t.1.head? = some ',') then none
  else some (skipWs t.1)

/-- Loop of `peek_token` (input.cpp:251-257): the token, and `in_quotes` at its end. -/
def scanTok : Bool → Str → Str × Bool
  | inq, [] => ([], inq)
  | inq, c :: r =>
    if (!isSp c && c ≠ ',') || inq then
      let t := scanTok (if c = '"' then !inq else inq) r
      (c :: t.1, t.2)
    else ([], inq)

/-- input.cpp:246-267 `peek_token`. -/
def peekToken (s : InSt) : InOut (Option Str × InSt) :=
  match removeWhitespace s with
  | (false, s') => .ok (none, s')
  | (true, s') =>
    let t := scanTok false s'.rest
    let tok := if t.1 = [] ∧ s'.rest.head? = some ',' then [','] else t.1
    if t.2 then .exit else .ok (some tok, s')

/-- input.cpp:271-277 `get_token`. -/
def getToken (s : InSt) : InOut (Option Str × InSt) :=
  (peekToken s).bind fun r =>
    match r.1 with
    | some tok => .ok (some tok, { r.2 with rest := r.2.rest.drop tok.length })
    | none => .ok (none, r.2)

/-- input.cpp:281-288 `match_token`. -/
def matchToken (tok : Str) (s : InSt) : InOut (Bool × InSt) :=
  (peekToken s).bind fun r =>
    if r.1 = some tok then .ok (true, { r.2 with rest := r.2.rest.drop tok.length })
    else .ok (false, r.2)

/-- `CMDLINE_USED_FLAG` (input.cpp:14). -/
def usedFlag : Str := "#ÄÄ#".toList

/-- Loop of `scan_cmdline` (input.cpp:322-333) from entry `i`: `none` if no entry is the key; otherwise
the changed list and the value (`none` inside if there is no value: `at` throws). -/
def scanPairs (key : Str) : List Str → Option (List Str × Option Str)
  | [] => none
  | k :: [] => if k = key then some ([usedFlag], none) else none
  | k :: v :: r =>
    if k = key then some (usedFlag :: v :: r, some v)
    else (scanPairs key r).map fun t => (k :: v :: t.1, t.2)

/-- input.cpp:315-335 `scan_cmdline`: the line becomes `key value`, read from behind the key. -/
def scanCmdline (key : Str) (s : InSt) : InOut InSt :=
  match scanPairs key s.cmdp with
  | none => .ok s
  | some (l, some v) => .ok { s with cmdp := l, rest := ' ' :: v }
  | some (_, none) => .throw

/-- input.cpp:292-312 `handle_key`. -/
def handleKey (key : Str) (s : InSt) : InOut (Bool × InSt) :=
  let s := (removeWhitespace s).2
  if key = [] then (scanCmdline key s).bind fun s => .ok (true, s)
  else
    match containsWordList key s.rest with
    | none => .ok (false, s)
    | some r => (scanCmdline key { s with rest := r }).bind fun s => .ok (true, s)

/-- input.cpp:347-356 `remove_quotes`. -/
def removeQuotes (v : Str) : Str := v.filter (· ≠ '"')

/-- Value of a string of decimal digits. -/
def digitsVal (l : Str) : ℕ := l.foldl (fun a c => 10 * a + (c.toNat - '0'.toNat)) 0

/-- input.h:496-504 `is_value` for a signed integer type with range `lo..hi`: `istringstream >> val`
reads an optional sign and decimal digits and stops at the first other character; it fails without a
digit or out of range. What is left in the stream is not looked at. Tokens contain no leading space. -/
def isValueInt (lo hi : ℤ) (s : Str) : Option ℤ :=
  let neg := s.head? = some '-'
  let body := if neg ∨ s.head? = some '+' then s.drop 1 else s
  let ds := body.takeWhile Char.isDigit
  if ds = [] then none
  else
    let v : ℤ := if neg then -(digitsVal ds : ℤ) else digitsVal ds
    if lo ≤ v ∧ v ≤ hi then some v else none

/-- input.cpp:342-345 `is_value` for strings. -/
def isValueStr (s : Str) : Option Str := some (removeQuotes s)

/-- input.h:307-336 `get_value` of one item; `isValue` is the conversion of the type. `none` is a
failed read. -/
def getValue {β : Type} (isValue : Str → Option β) (label : Str) (s : InSt) :
    InOut (Option β × InSt) :=
  (handleKey label s).bind fun h =>
    if h.1 then
      (getToken h.2).bind fun t => .ok (t.1.bind isValue, t.2)
    else .ok (none, h.2)

/-- input.h:339-364 `get_value` of a complex number. -/
def getComplex {β : Type} (isValue : Str → Option β) (label : Str) (s : InSt) :
    InOut (Option (β × β) × InSt) :=
  (handleKey label s).bind fun h =>
    if h.1 then
      (matchToken ['('] h.2).bind fun m =>
        if m.1 then
          (getToken m.2).bind fun t =>
            match t.1.bind isValue with
            | none => .ok (none, t.2)
            | some re =>
              (matchToken [','] t.2).bind fun m =>
                if m.1 then
                  (getToken m.2).bind fun t =>
                    match t.1.bind isValue with
                    | none => .ok (none, t.2)
                    | some im =>
                      (matchToken [')'] t.2).bind fun m =>
                        .ok (if m.1 then some (re, im) else none, m.2)
                else .ok (none, m.2)
        else .ok (none, m.2)
    else .ok (none, h.2)

/-- Loop of `get_value` of a `Vector` (input.h:375-377): `n` more items, each after the key `,`. -/
def getMore {β : Type} (isValue : Str → Option β) : ℕ → InSt → InOut (Option (List β) × InSt)
  | 0, s => .ok (some [], s)
  | n + 1, s =>
    (getValue isValue [','] s).bind fun r =>
      match r.1 with
      | none => .ok (none, r.2)
      | some v => (getMore isValue n r.2).bind fun t => .ok (t.1.map (v :: ·), t.2)

/-- input.h:366-389 `get_value` of a `Vector<n,T>`, `n > 0`. -/
def getVector {β : Type} (isValue : Str → Option β) (n : ℕ) (label : Str) (s : InSt) :
    InOut (Option (List β) × InSt) :=
  (getValue isValue label s).bind fun r =>
    match r.1 with
    | none => .ok (none, r.2)
    | some v => (getMore isValue (n - 1) r.2).bind fun t => .ok (t.1.map (v :: ·), t.2)

/-- Loop of `get_value` of a `std::vector` (input.h:410-413). The first argument bounds the number of
items; `none` is also returned when it is exceeded (artefact). -/
def getListMore {β : Type} (isValue : Str → Option β) : ℕ → InSt → InOut (Option (List β) × InSt)
  | 0, s => .ok (none, s)
  | fuel + 1, s =>
    (matchToken [','] s).bind fun m =>
      if m.1 then
        (getValue isValue [] m.2).bind fun r =>
          match r.1 with
          | none => .ok (none, r.2)
          | some v => (getListMore isValue fuel r.2).bind fun t => .ok (t.1.map (v :: ·), t.2)
      else .ok (some [], m.2)

/-- input.h:401-428 `get_value` of a `std::vector`. Every item consumes a comma of the line buffer or of
the file. -/
def getList {β : Type} (isValue : Str → Option β) (label : Str) (s : InSt) :
    InOut (Option (List β) × InSt) :=
  (getValue isValue label s).bind fun r =>
    match r.1 with
    | none => .ok (none, r.2)
    | some v =>
      (getListMore isValue (r.2.rest.length + r.2.file.length + 1) r.2).bind fun t =>
        .ok (t.1.map (v :: ·), t.2)

/-- Loop of `get_item` (input.cpp:374-386). `isF`, `isI`: is the token a value of type double, long. -/
def itemLoop (isF isI : Str → Bool) (tok : Str) : List Str → ℕ → InSt → Option ℕ × InSt
  | [], _, s => (none, s)
  | it :: items, i, s =>
    if it = "%s".toList then (some i, s)
    else if it = "%f".toList ∧ isF tok then (some i, s)
    else if it = "%i".toList ∧ isI tok then (some i, s)
    else
      match containsWordList it s.rest with
      | some r => (some i, { s with rest := r })
      | none => itemLoop isF isI tok items (i + 1) s

/-- input.cpp:361-417 `get_item`; `none` stands for -1. -/
def getItem (isF isI : Str → Bool) (label : Str) (items : List Str) (s : InSt) :
    InOut (Option ℕ × InSt) :=
  (handleKey label s).bind fun h =>
    if h.1 then
      (peekToken h.2).bind fun t =>
        match t.1 with
        | none => .ok (none, t.2)
        | some tok => .ok (itemLoop isF isI tok items 0 t.2)
    else .ok (none, h.2)

end Hila
