import Verif.Model.SrcBuf

/-!
# Specification of edits to a source text

A text with, for every position, the text that has been inserted before it and whether the original character is still there. Nothing here refers to the
extents of the model of the buffer.
-/

namespace Hila

/-- An edited document over an original text: `ins i` has been inserted before character `i`, `keep i` says whether character `i` is still there, `pre` goes before
everything. `size` is one more than the last position that may be removed or read; `on` is false while edits are ignored. -/
structure Doc where
  ins : ℕ → List Char
  keep : ℕ → Bool
  pre : List Char
  size : ℕ
  on : Bool

namespace Doc

/-- The unedited document. -/
def init (text : List Char) : Doc where
  ins := fun _ => []
  keep := fun i => decide (i < text.length)
  pre := []
  size := text.length
  on := true

/-- What stands at position `i` of the edited document. -/
def at' (text : List Char) (d : Doc) (i : ℕ) : List Char := d.ins i ++ if d.keep i then [text.getD i ' '] else []

/-- The edited text of the original range `[a, b)`. -/
def range (text : List Char) (d : Doc) (a b : ℕ) : List Char := (List.range' a (b - a)).flatMap (d.at' text)

/-- The whole edited text. -/
def text (t : List Char) (d : Doc) : List Char := d.pre ++ d.range t 0 d.size

end Doc

/-- The edits. -/
inductive Edit
  | remove (a b : ℕ)
  | insert (i : ℕ) (t : List Char) (before : Bool)
  | replace (a b : ℕ) (t : List Char)
  | append (t : List Char)
  | prepend (t : List Char)
  | write (b : Bool)

namespace Doc

/-- The characters `[a, b]` disappear, with the text inserted before each of them. -/
def remove (d : Doc) (a b : ℕ) : Doc :=
  { d with
    ins := fun i => if a ≤ i ∧ i ≤ b then [] else d.ins i
    keep := fun i => if a ≤ i ∧ i ≤ b then false else d.keep i }

/-- New text at `i`, before or after what has been inserted there. -/
def insert (text : List Char) (d : Doc) (i : ℕ) (t : List Char) (before : Bool) : Doc :=
  { d with
    ins := fun j => if j = i then (if before then t ++ d.ins i else d.ins i ++ t) else d.ins j
    size := if i = text.length then text.length + 1 else d.size }

/-- The meaning of one edit; `none` if it is not allowed. -/
def apply (text : List Char) (d : Doc) : Edit → Option Doc
  | .remove a b => if a ≤ b ∧ b < d.size then some (if d.on then d.remove a b else d) else none
  | .insert i t before => if d.on then (if i ≤ text.length then some (d.insert text i t before) else none) else some d
  | .replace a b t => if a ≤ b ∧ b < d.size then some (if d.on then (d.remove a b).insert text a t true else d) else none
  | .append t => some (if d.on then d.insert text text.length t false else d)
  | .prepend t => some (if d.on then { d with pre := t ++ d.pre } else d)
  | .write b => some { d with on := b }

/-- A sequence of edits. -/
def run (text : List Char) (d : Doc) (es : List Edit) : Option Doc := es.foldlM (apply text) d

end Doc

namespace SrcBuf

/-- The calls of the model for the edits. -/
def apply (s : SrcBuf) : Edit → Option SrcBuf
  | .remove a b => s.remove a b
  | .insert i t before => s.insert i t before false
  | .replace a b t => s.replace a b t
  | .append t => s.append t false
  | .prepend t => some (s.prepend t)
  | .write b => some (s.setWrite b)

/-- A sequence of calls. -/
def run (s : SrcBuf) (es : List Edit) : Option SrcBuf := es.foldlM apply s

end SrcBuf

end Hila
