import Verif.Model.SrcBuf

/-!
# Specification of the replacement of names in a source text

A source text as a sequence of the pieces a C++ compiler sees. Line splices, digit separators and raw strings are left out.
-/

namespace Hila

/-- A piece of source text. -/
inductive Piece
  | word (w : List Char)
  | number (digits suffix : List Char)
  | lineComment (body : List Char)
  | blockComment (body : List Char)
  | directive (body : List Char)
  | string (body : List Char)
  | char (body : List Char)
  | other (c : Char)

namespace Piece

/-- How it is written. -/
def text : Piece → List Char
  | word w => w
  | number ds suf => ds ++ suf
  | lineComment b => '/' :: '/' :: b
  | blockComment b => '/' :: '*' :: (b ++ ['*', '/'])
  | directive b => '#' :: b
  | string b => '"' :: (b ++ ['"'])
  | char b => '\'' :: (b ++ ['\''])
  | other c => [c]

/-- A letter or underscore. -/
def Start (c : Char) : Prop := c.isAlpha = true ∨ c = '_'

/-- A letter, a digit or underscore. -/
def Inner (c : Char) : Prop := c.isAlphanum = true ∨ c = '_'

/-- The inside of a string or character constant with the given quote: every quote and every backslash inside has a backslash before it. -/
def quoted (q : Char) : List Char → Bool
  | [] => true
  | [c] => decide (c ≠ '\\' ∧ c ≠ q)
  | c :: c' :: r => if c = '\\' then quoted q r else decide (c ≠ q) && quoted q (c' :: r)

/-- What makes it a piece of its kind. -/
def Ok : Piece → Prop
  | word w => (∃ c r, w = c :: r ∧ Start c) ∧ ∀ c ∈ w, Inner c
  | number ds suf => ds ≠ [] ∧ (∀ c ∈ ds, c.isDigit = true) ∧ (suf = [] ∨ ∃ c r, suf = c :: r ∧ Start c) ∧ ∀ c ∈ suf, Inner c
  | lineComment b => '\n' ∉ b
  | blockComment b => ¬ ['*', '/'] <:+: b ++ ['*']
  | directive b => '\n' ∉ b
  | string b => quoted '"' b = true
  | char b => b ≠ [] ∧ quoted '\'' b = true
  | other c => ¬ Inner c ∧ c ≠ '#' ∧ c ≠ '"' ∧ c ≠ '\''

/-- It ends where the text that follows begins. -/
def Follow : Piece → List Char → Prop
  | word _, rest => ∀ c, rest.head? = some c → ¬ Inner c
  | number _ _, rest => ∀ c, rest.head? = some c → ¬ Inner c
  | lineComment _, rest => ∀ c, rest.head? = some c → c = '\n'
  | directive _, rest => ∀ c, rest.head? = some c → c = '\n'
  | other c, rest => c = '/' → ∀ c', rest.head? = some c' → c' ≠ '/' ∧ c' ≠ '*'
  | _, _ => True

/-- The text of a sequence of pieces. -/
def textOf (ps : List Piece) : List Char := ps.flatMap text

/-- A sequence of pieces as the compiler splits its text. -/
def Lexed : List Piece → Prop
  | [] => True
  | p :: ps => p.Ok ∧ p.Follow (textOf ps) ∧ Lexed ps

/-- What the name `w` stands for, if it is in the table. -/
def lookup (table : List (List Char × List Char)) (w : List Char) : Option (List Char) := (table.find? fun e => decide (e.1 = w)).map (·.2)

/-- The text with every name of the table replaced. Only names are. -/
def subst (table : List (List Char × List Char)) (ps : List Piece) : List Char :=
  ps.flatMap fun p => match p with
    | word w => (lookup table w).getD w
    | p => p.text

/-- The number of names that are replaced. -/
def hits (table : List (List Char × List Char)) (ps : List Piece) : ℕ :=
  ps.countP fun p => match p with
    | word w => (lookup table w).isSome
    | _ => false

end Piece

end Hila
