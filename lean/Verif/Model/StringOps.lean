import Verif.Model.SrcBuf

/-!
# String helpers of hilapp

Models `/repo/hilapp/src/stringops.cpp`. Strings are lists of characters without the NUL character.
-/

namespace Hila

namespace StrOps

open SrcBuf

/-- `in.find(pattern, pos)`: the first position `≥ pos` where the pattern stands. -/
def find (s pat : List Char) (pos : ℕ) : Option ℕ := (List.range' pos (s.length + 1 - pos)).find? fun i => pat.isPrefixOf (s.drop i)

/-- `find_word(in, pattern, pos)` (stringops.cpp:87-107), without the reverse search. `in.length() - pattern.length() - 1` is an unsigned number: it wraps around if the
lengths are equal, and then the character read is the NUL behind the string. -/
def findWord (s pat : List Char) (pos : ℕ) : Option ℕ :=
  match find s pat pos with
  | none => none
  | some i =>
    if i > 0 ∧ isWordChar (s.getD (i - 1) (Char.ofNat 0)) = true then none
    else if (s.length > pat.length → i < s.length - pat.length - 1) ∧ isWordChar (s.getD (i + pat.length) (Char.ofNat 0)) = true then none
    else some i

/-- The loop that puts the vector type in the place of the number type (vectorization_info.cpp:211-221); `none` if the type is not found. -/
def vectorizeLoop (old new : List Char) : ℕ → List Char → ℕ → List Char
  | 0, s, _ => s
  | fuel + 1, s, pos =>
    match findWord s old pos with
    | none => s
    | some i => vectorizeLoop old new fuel (s.take i ++ new ++ s.drop (i + old.length)) i

def vectorizedType (s old new : List Char) : Option (List Char) :=
  match findWord s old 0 with
  | none => none
  | some _ => some (vectorizeLoop old new (s.length + 1) s 0)

/-- `while (std::isspace(*p)) p++`. -/
def skipSpace (p : List Char) : List Char := p.dropWhile isSpace

/-- `while (*p && *q && *p == *q) { p++; q++; }` (stringops.cpp:123-126). -/
def skipCommon : List Char → List Char → List Char × List Char
  | x :: p, y :: q => if x = y then skipCommon p q else (x :: p, y :: q)
  | p, q => (p, q)

/-- The loop of `contains_word_list` (stringops.cpp:114-127). -/
def wordListLoop : ℕ → List Char → List Char → List Char × List Char
  | 0, p, q => (p, q)
  | fuel + 1, p, q =>
    if p ≠ [] ∧ q ≠ [] then
      let p := skipSpace p
      let q := skipSpace q
      if p.head? ≠ q.head? then (p, q)
      else
        let r := skipCommon p q
        wordListLoop fuel r.1 r.2
    else (p, q)

/-- `contains_word_list(line, list, remainder)` (stringops.cpp:111-139): the remainder if true. -/
def containsWordList (line list : List Char) : Option (List Char) :=
  let r := wordListLoop (line.length + 1) line list
  if skipSpace r.2 ≠ [] then none else some (skipSpace r.1)

/-- `remove_extra_whitespace` (stringops.cpp:142-162). -/
def removeExtra (line : List Char) : List Char :=
  let r := line.foldl (fun (st : List Char × Bool) c =>
    if isSpace c = false then (st.1 ++ [c], false) else (if st.2 = false then st.1 ++ [' '] else st.1, true)) ([], true)
  if r.1.getLast? = some ' ' then r.1.dropLast else r.1

/-- The loop of `comment_string` (stringops.cpp:201-208). -/
def commentLoop (comment : List Char) : ℕ → List Char → ℕ → List Char
  | 0, res, _ => res
  | fuel + 1, res, i =>
    if i < res.length then
      match find res ['\n'] i with
      | none => res
      | some j => commentLoop comment fuel (res.take (j + 1) ++ comment ++ res.drop (j + 1)) (j + 1)
    else res

/-- `comment_string` (stringops.cpp:196-210). -/
def commentString (s : List Char) : List Char :=
  let comment := "//--  ".toList
  commentLoop comment (s.length + 1) (comment ++ s) 0

/-- `clean_name` (stringops.cpp:26-58). -/
def cleanName (s : List Char) : List Char := s.map fun c =>
  if isWordChar c then c
  else if c = '+' then 'P' else if c = '-' then 'M' else if c = '*' then 'X' else if c = '/' then 'D' else if c = '=' then 'E' else '_'

/-- The loop of `handle_cmdline_args` that moves the options (stringops.cpp:379-401). `i` and `ddashloc` as in the code; `argc` is the length of the list. -/
def moveLoop : ℕ → ℕ → ℕ → List (List Char) → List (List Char)
  | 0, _, _, av => av
  | fuel + 1, i, dd, av =>
    if i < dd then
      let a := av.getD i []
      if i + 1 < dd ∧ (a = ['-', 'D'] ∨ a = ['-', 'I']) then
        moveLoop fuel i (dd - 2) (av.take i ++ av.drop (i + 2) ++ [a, av.getD (i + 1) []])
      else if a.take 2 = ['-', 'D'] ∨ a.take 2 = ['-', 'I'] then moveLoop fuel i (dd - 1) (av.take i ++ av.drop (i + 1) ++ [a])
      else moveLoop fuel (i + 1) dd av
    else av

/-- `handle_cmdline_args` (stringops.cpp:345-415), without the search for the include directories of the compiler (only in a static build). `none`: an unknown
standard, the program ends. -/
def cmdlineArgs (argv : List (List Char)) : Option (List (List Char)) :=
  let known := ["-std=c++17".toList, "-std=c++20".toList, "-std=c++23".toList, "-std=c++26".toList]
  if argv.any (fun a => decide (a ≠ ['-', '-'] ∧ a.take 4 = "-std".toList ∧ a ∉ known)) then none
  else
    let std := ((argv.filter fun a => decide (a.take 4 = "-std".toList)).getLast?).getD "-std=c++17".toList
    let dd := (List.range argv.length).foldl (fun r i => if argv.getD i [] = ['-', '-'] then some i else r) none
    let (av, loc) := match dd with
      | some i => (argv, i)
      | none => (argv ++ [['-', '-']], argv.length)
    some (moveLoop (2 * av.length + 1) 0 loc av ++ [std, "-DHILAPP".toList])

end StrOps

end Hila
