import Verif.Model.SrcBuf

/-!
# Specification of the string helpers of hilapp

Independent of the code in `/repo/hilapp/src/stringops.cpp`: words, white space, and which command line arguments are options of the compiler.
-/

namespace Hila

open SrcBuf

/-- Specification: `pat` stands at `i` in `s` as a complete word. -/
def WholeWordAt (s pat : List Char) (i : ℕ) : Prop :=
  ∃ a b, s = a ++ pat ++ b ∧ a.length = i ∧ (∀ c, a.getLast? = some c → isWordChar c = false) ∧ ∀ c, b.head? = some c → isWordChar c = false

namespace StrOps

/-- White space removed. -/
def noSpace (l : List Char) : List Char := l.filter fun c => !isSpace c

/-- The words of a text: maximal sequences of characters other than white space. `cur` is the word being read. -/
def wordsFrom : List Char → List Char → List (List Char)
  | cur, [] => if cur = [] then [] else [cur]
  | cur, c :: r => if isSpace c then (if cur = [] then wordsFrom [] r else cur :: wordsFrom [] r) else wordsFrom (cur ++ [c]) r

/-- Words joined by one space. -/
def joinWords : List (List Char) → List Char
  | [] => []
  | [w] => w
  | w :: x :: r => w ++ ' ' :: joinWords (x :: r)

/-- The arguments that stay, and the arguments that are moved. -/
def splitArgs : List (List Char) → List (List Char) × List (List Char)
  | [] => ([], [])
  | [a] => if a.take 2 = ['-', 'D'] ∨ a.take 2 = ['-', 'I'] then ([], [a]) else ([a], [])
  | a :: b :: r =>
    if a = ['-', 'D'] ∨ a = ['-', 'I'] then ((splitArgs r).1, a :: b :: (splitArgs r).2)
    else if a.take 2 = ['-', 'D'] ∨ a.take 2 = ['-', 'I'] then ((splitArgs (b :: r)).1, a :: (splitArgs (b :: r)).2)
    else (a :: (splitArgs (b :: r)).1, (splitArgs (b :: r)).2)

end StrOps

end Hila
