import Mathlib.Data.Nat.Notation

/-!
# Scanning the source text around a location

Models `/repo/hilapp/src/sourceloc_utils.cpp`: `getNextLoc` (forwards), `findChar`, `skipParens`,
`skipString`, `getNextWord`, and the place in `loop_function.cpp` 345-359 that looks for the words `out_only`
and `const_function` after the parameter list of a method.

A location is represented by the text from there to the end of the buffer. The buffer ends with a zero
character, which can be read; `none` means that a character beyond it is read. `isValid()` of a location is
never false here: adding to a valid location gives a valid one, so the tests of it in the loops do nothing.
The flag `invalid` of `getCharacterData` is set only if the file cannot be loaded; this is not modelled.
-/

namespace Hila

/-- `getChar(SM, sl)` (sourceloc_utils.cpp:43-50). -/
def srcChar : List Char → Char
  | [] => '\x00'
  | c :: _ => c

/-- `sl.getLocWithOffset(k)`; `none` beyond the zero at the end. -/
def srcOffset (k : ℕ) (s : List Char) : Option (List Char) :=
  if k ≤ s.length then some (s.drop k) else none

/-- The rest of a line comment (sourceloc_utils.cpp:26-30): the location of the end of line character. -/
def lineEnd : List Char → Option (List Char)
  | [] => none
  | c :: t => if c = '\n' then some (c :: t) else lineEnd t

/-- The rest of a C-style comment (sourceloc_utils.cpp:33-38): the loop stops where the character is `*`
or the following one is `/`, and goes two characters further. -/
def blockEnd : List Char → Option (List Char)
  | [] => none
  | [_] => none
  | c :: d :: t => if c ≠ '*' ∧ d ≠ '/' then blockEnd (d :: t) else some t

/-- The loop that skips comments (sourceloc_utils.cpp:22-41), forwards. The first argument bounds the number
of rounds. -/
def skipCommentsF : ℕ → List Char → Option (List Char)
  | 0, s => some s
  | f + 1, s =>
    match s with
    | '/' :: '/' :: t => (lineEnd ('/' :: '/' :: t)).bind (skipCommentsF f)
    | '/' :: '*' :: t => (blockEnd t).bind (skipCommentsF f)
    | _ => some s

/-- Comments at the location are skipped; every round takes at least one character. -/
def skipComments (s : List Char) : Option (List Char) := skipCommentsF s.length s

/-- `getNextLoc(SM, sl)` (sourceloc_utils.cpp:11-42), forwards. -/
def srcNext : List Char → Option (List Char)
  | [] => none
  | _ :: t => skipComments t

/-- The loop of `skipString` over a string (sourceloc_utils.cpp:132-140): the location after the closing
quotation mark. -/
def stringEnd : List Char → Option (List Char)
  | [] => none
  | ['\\'] => none
  | '\\' :: _ :: t => stringEnd t
  | '"' :: t => some t
  | _ :: t => stringEnd t

/-- `skipString(SM, sl)` (sourceloc_utils.cpp:112-143), called with the location of a quotation mark; the loop
at the beginning then makes one step. -/
def skipStr (s : List Char) : Option (List Char) :=
  (srcNext s).bind fun t =>
    if srcChar s = '\'' then
      if srcChar t = '\\' then srcOffset 3 t else srcOffset 2 t
    else stringEnd t

/-- The closing parenthesis (sourceloc_utils.cpp:73-79). -/
def closePar (pt : Char) : Char := if pt = '<' then '>' else if pt = '[' then ']' else ')'

/-- The main loop of `skipParens` and its end (sourceloc_utils.cpp:84-108). The recursive calls are made at the
location of an opening parenthesis, so that the search for it ends at once and one step follows. The first
argument bounds the number of steps. -/
def parLoop : ℕ → Char → List Char → Option (List Char)
  | 0, _, _ => none
  | f + 1, pt, s =>
    let c := srcChar s
    if c = closePar pt then srcNext s
    else if c = pt then ((srcNext s).bind (parLoop f pt)).bind (parLoop f pt)
    else if c = '(' then ((srcNext s).bind (parLoop f '(')).bind (parLoop f pt)
    else if c = '"' ∨ c = '\'' then (skipStr s).bind (parLoop f pt)
    else (srcNext s).bind (parLoop f pt)

/-- The search for the opening parenthesis (sourceloc_utils.cpp:81-82); the same loop as in `findChar`
(54-63). The first argument bounds the number of steps. -/
def findCharF : ℕ → Char → List Char → Option (List Char)
  | 0, _, _ => none
  | f + 1, ct, s => if srcChar s = ct then some s else (srcNext s).bind (findCharF f ct)

/-- `findChar(SM, sloc, ct)` (sourceloc_utils.cpp:54-63). -/
def findChar (ct : Char) (s : List Char) : Option (List Char) := findCharF (s.length + 1) ct s

/-- `skipParens(SM, sl, partype)` (sourceloc_utils.cpp:69-108). -/
def skipParens (pt : Char) (s : List Char) : Option (List Char) :=
  (findChar pt s).bind fun t => (srcNext t).bind (parLoop t.length pt)

/-- `std::isspace` in the C locale. -/
def isSpaceC (c : Char) : Bool := c = ' ' || c = '\n' || c = '\t' || c = '\r' || c = '\x0b' || c = '\x0c'

/-- `std::isalnum(c) || c == '_'` in the C locale. -/
def isWordC (c : Char) : Bool :=
  ('a' ≤ c && c ≤ 'z') || ('A' ≤ c && c ≤ 'Z') || ('0' ≤ c && c ≤ '9') || c = '_'

/-- The loop that skips white space (sourceloc_utils.cpp:149-150). -/
def skipSpaceF : ℕ → List Char → Option (List Char)
  | 0, _ => none
  | f + 1, s => if isSpaceC (srcChar s) then (srcNext s).bind (skipSpaceF f) else some s

/-- The loop that collects the word (sourceloc_utils.cpp:156-161). -/
def wordF : ℕ → List Char → Option (List Char)
  | 0, _ => none
  | f + 1, s =>
    if isWordC (srcChar s) then ((srcNext s).bind (wordF f)).map (srcChar s :: ·) else some []

/-- `getNextWord(SM, sl)` (sourceloc_utils.cpp:148-168), without the location of the end. -/
def srcNextWord (s : List Char) : Option (List Char) :=
  (skipSpaceF (s.length + 1) s).bind fun t =>
    if isWordC (srcChar t) then wordF (t.length + 1) t else some [srcChar t]

/-- `getNextWord(skipParens(sl))` at the end of the name of a method (loop_function.cpp:345-354): the method is
`out_only` or `const_function` if this is that word. -/
def methodModifier (s : List Char) : Option (List Char) := (skipParens '(' s).bind srcNextWord

end Hila
