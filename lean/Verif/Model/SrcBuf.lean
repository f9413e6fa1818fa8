import Mathlib.Data.List.Basic
import Mathlib.Data.Int.Basic
import Mathlib.Algebra.Group.Int.Even

/-!
# The source buffer of hilapp

Models `/repo/hilapp/src/srcbuf.h` and `srcbuf.cpp`: the buffer in which the preprocessor edits a piece of source text. Positions are indices into
the original text. `none` is a failed assertion. The conversions from clang source locations to indices are not modelled. Characters are those of
the "C" locale.
-/

namespace Hila

/-- `class srcBuf` (srcbuf.h:25-38). `extInd` is a vector of length `originalSize + 2`; only entries below this are used. `full_length` is an unsigned number
in the code; `C70_edits` shows that the subtractions in the model are exact. -/
structure SrcBuf where
  buf : List Char
  extInd : ℕ → ℤ
  extents : List (List Char)
  free : List ℕ
  prependbuf : List Char
  writeOk : Bool
  modified : Bool
  fullLength : ℕ
  originalSize : ℕ
  trueSize : ℕ

namespace SrcBuf

/-- `create` (srcbuf.cpp:25-45) on a range with the given text. -/
def create (text : List Char) : SrcBuf where
  buf := text ++ [' ', ' ']
  extInd := fun i => if i < text.length then 1 else 0
  extents := []
  free := []
  prependbuf := []
  writeOk := true
  modified := false
  fullLength := text.length
  originalSize := text.length
  trueSize := text.length

/-- `extents[abs(ext_ind[i]) - 2]`. -/
def extentAt (s : SrcBuf) (i : ℕ) : List Char := s.extents.getD ((s.extInd i).natAbs - 2) []

/-- `buf[i]`. -/
def charAt (s : SrcBuf) (i : ℕ) : Char := s.buf.getD i ' '

/-- `get_index_range_size` (srcbuf.cpp:69-80). -/
def indexRangeSize (s : SrcBuf) (i1 i2 : ℕ) : Option ℕ :=
  if i1 ≤ i2 ∧ i2 < s.trueSize then
    some ((List.range' i1 (i2 + 1 - i1)).foldl (fun size i =>
      let size := if s.extInd i > 0 then size + 1 else size
      if (s.extInd i).natAbs > 1 then size + (s.extentAt i).length else size) 0)
  else none

/-- `while (j < true_size && ext_ind[j] == 0) j++` (srcbuf.cpp:127-128). -/
def skipRemoved (s : SrcBuf) : ℕ → ℕ → ℕ
  | 0, j => j
  | fuel + 1, j => if j < s.trueSize ∧ s.extInd j = 0 then s.skipRemoved fuel (j + 1) else j

/-- The loop of `get_mapped` (srcbuf.cpp:123-145). `out` holds the first `i` characters of the result; a character that the loop passes without writing is
the space the result was filled with. -/
def mapLoop (s : SrcBuf) (len : ℕ) : ℕ → ℕ → List Char → List Char
  | 0, _, out => out
  | fuel + 1, j, out =>
    if out.length < len ∧ j < s.trueSize then
      let j := s.skipRemoved s.trueSize j
      if j < s.trueSize then
        if s.extInd j = 1 then s.mapLoop len fuel (j + 1) (out ++ [s.charAt j])
        else
          let out := out ++ (s.extentAt j).take (len - out.length)
          if out.length < len ∧ s.extInd j > 0 then s.mapLoop len fuel (j + 1) (out ++ [s.charAt j])
          else s.mapLoop len fuel (j + 1) out
      else s.mapLoop len fuel (j + 1) (out ++ [' '])
    else out

/-- `get_mapped(index, len)` (srcbuf.cpp:118-146). -/
def getMapped (s : SrcBuf) (index len : ℕ) : List Char := s.mapLoop len (s.trueSize + 1) index []

/-- `get(i1, i2)` (srcbuf.cpp:149-152). -/
def get (s : SrcBuf) (i1 i2 : ℕ) : Option (List Char) := (s.indexRangeSize i1 i2).map fun len => s.getMapped i1 len

/-- `dump()` (srcbuf.cpp:166-171). -/
def dump (s : SrcBuf) : List Char :=
  if s.prependbuf.length > 0 then s.prependbuf ++ s.getMapped 0 s.fullLength else s.getMapped 0 s.fullLength

/-- `is_edited(i)` (srcbuf.cpp:284-286). -/
def isEdited (s : SrcBuf) (i : ℕ) : Bool := decide (s.extInd i ≠ 1)

/-- `remove_extent(i)` (srcbuf.cpp:300-314). -/
def removeExtent (s : SrcBuf) (i : ℕ) : SrcBuf :=
  if s.writeOk = false then s
  else
    let e := (s.extInd i).natAbs
    if e > 1 then
      { s with
        fullLength := s.fullLength - (s.extents.getD (e - 2) []).length
        extents := s.extents.set (e - 2) []
        free := (e - 2) :: s.free
        extInd := Function.update s.extInd i (if s.extInd i > 0 then 1 else 0)
        modified := true }
    else { s with modified := true }

/-- One turn of the loop of `remove` (srcbuf.cpp:329-335). -/
def removeOne (s : SrcBuf) (i : ℕ) : SrcBuf :=
  let s := s.removeExtent i
  if s.extInd i > 0 then { s with fullLength := s.fullLength - 1, extInd := Function.update s.extInd i 0 } else s

/-- `remove(index1, index2)` (srcbuf.cpp:324-338), without the returned index. -/
def remove (s : SrcBuf) (i1 i2 : ℕ) : Option SrcBuf :=
  if i2 ≥ i1 ∧ i2 < s.trueSize then
    if s.writeOk = false then some s
    else some { (List.range' i1 (i2 + 1 - i1)).foldl removeOne s with modified := true }
  else none

/-- `std::isspace`. -/
def isSpace (c : Char) : Bool := c = ' ' || c = '\t' || c = '\n' || c = '\r' || c.toNat = 11 || c.toNat = 12

/-- The indentation of the line of position `i` (srcbuf.cpp:426-433): the leading white space of the original text from the last newline before `i`, up to `i`. -/
def indentAt (buf : List Char) (i : ℕ) : List Char :=
  ((buf.take i).reverse.takeWhile (fun c => c ≠ '\n')).reverse.takeWhile isSpace

/-- The loop that adds the indentation after every newline (srcbuf.cpp:435-446). -/
def indentText (indent t : List Char) : List Char := t.flatMap fun c => if c = '\n' then c :: indent else [c]

/-- `insert(i, s, incl_before, do_indent)` (srcbuf.cpp:405-474), without the returned index. -/
def insert (s : SrcBuf) (i : ℕ) (t : List Char) (before doIndent : Bool) : Option SrcBuf :=
  if s.writeOk = false then some s
  else
    let s := { s with modified := true }
    let s := if i = s.originalSize then { s with trueSize := s.originalSize + 1 } else s
    if i < s.trueSize then
      let t := if doIndent && t.contains '\n' then indentText (indentAt s.buf i) t else t
      let e := (s.extInd i).natAbs
      let s' :=
        if e > 1 then
          { s with extents := s.extents.modify (e - 2) fun p => if before then t ++ p else p ++ t }
        else
          let sign := fun (j : ℕ) => if s.extInd i > 0 then ((j + 2 : ℕ) : ℤ) else -((j + 2 : ℕ) : ℤ)
          match s.free with
          | [] => { s with extents := s.extents ++ [t], extInd := Function.update s.extInd i (sign s.extents.length) }
          | j :: fr => { s with extents := s.extents.set j t, free := fr, extInd := Function.update s.extInd i (sign j) }
      some { s' with fullLength := s'.fullLength + t.length }
    else none

/-- `replace(i1, i2, s)` (srcbuf.cpp:571-575). -/
def replace (s : SrcBuf) (i1 i2 : ℕ) (t : List Char) : Option SrcBuf := do
  let s ← s.remove i1 i2
  s.insert i1 t true false

/-- `append(s, do_indent)` (srcbuf.cpp:587-589). -/
def append (s : SrcBuf) (t : List Char) (doIndent : Bool) : Option SrcBuf := s.insert s.originalSize t false doIndent

/-- `prepend(s, do_indent)` (srcbuf.cpp:591-597). -/
def prepend (s : SrcBuf) (t : List Char) : SrcBuf :=
  if s.writeOk = false then s
  else { s with prependbuf := t ++ s.prependbuf, fullLength := s.fullLength + t.length, modified := true }

/-- `on()` and `off()` (srcbuf.h:61-66). -/
def setWrite (s : SrcBuf) (b : Bool) : SrcBuf := { s with writeOk := b }

/-- `comment_range(a, b)` (srcbuf.cpp:558-567), without the returned index. -/
def commentRange (s : SrcBuf) (a b : ℕ) : Option SrcBuf :=
  if a > 0 ∧ b < s.originalSize then do
    let s ← (List.range' a (b + 1 - a)).foldlM (fun (s : SrcBuf) i =>
      if s.charAt i = '\n' then s.insert (i + 1) ['/', '/', ' '] true true else some s) s
    let s ← s.insert a ['\n', '/', '/', ' '] true true
    s.insert (b + 1) ['\n'] true true
  else none

/-- `insert_above(i, …)` (srcbuf.cpp:493-501): the position of the newline that ends the previous line, or 0. -/
def lineStart (s : SrcBuf) : ℕ → ℕ
  | 0 => 0
  | i + 1 => if s.charAt (i + 1) = '\n' then i + 1 else s.lineStart i

def insertAbove (s : SrcBuf) (i : ℕ) (t : List Char) (before doIndent : Bool) : Option SrcBuf :=
  if i < s.originalSize then
    let i := s.lineStart i
    let line := '\n' :: t
    s.insert i (if i = 0 then line ++ ['\n'] else line) before doIndent
  else none

/-- `copy_from_range(src, range)` (srcbuf.cpp:599-613): the range is `[k, k + m)` of the text of `src`; the new buffer is created from the original text of the
range. -/
def copyFromRange (src : SrcBuf) (k m : ℕ) : Option SrcBuf :=
  (List.range m).foldlM (fun (s : SrcBuf) i =>
    (if src.extInd (i + k) ≤ 0 then s.remove i i else some s).bind fun s =>
      if (src.extInd (i + k)).natAbs > 1 then s.insert i (src.extentAt (i + k)) true false else some s)
    (create ((src.buf.drop k).take m))

/-- Backwards over white space: `while (r >= 0 && isspace(buf[r])) r--` from `r = k - 1` (srcbuf.cpp:363-366); the result is `r + 1`. -/
def spaceBack (s : SrcBuf) : ℕ → ℕ
  | 0 => 0
  | k + 1 => if isSpace (s.charAt k) then s.spaceBack k else k + 1

/-- Forwards over white space (srcbuf.cpp:371-373). -/
def spaceForward (s : SrcBuf) : ℕ → ℕ → ℕ
  | 0, r => r
  | fuel + 1, r => if r < s.trueSize ∧ isSpace (s.charAt r) then s.spaceForward fuel (r + 1) else r

/-- `remove_with_comma` (srcbuf.cpp:360-380) for the range `[i1, i2]`. The assertion of `get_original` (178) is `r < original_size`. -/
def removeWithComma (s : SrcBuf) (i1 i2 : ℕ) : Option SrcBuf := do
  let s ← s.remove i1 i2
  let r := s.spaceBack i1
  if 0 < r ∧ s.charAt (r - 1) = ',' then s.remove (r - 1) (i1 - 1)
  else
    let r := s.spaceForward s.trueSize (i2 + 1)
    if r < s.trueSize then
      if r < s.originalSize then if s.charAt r = ',' then s.remove (i2 + 1) r else some s else none
    else some s

/-! ### Token replacement -/

/-- `isalpha` or underscore. -/
def isWordStart (c : Char) : Bool := c.isAlpha || c = '_'

/-- `isalnum` or underscore. -/
def isWordChar (c : Char) : Bool := c.isAlphanum || c = '_'

/-- First position `≥ i` and `≤ stop` where `p` fails, else `stop + 1`: the loops `for (; i <= end && p(buf[i]); i++)`. -/
def scanWhile (s : SrcBuf) (p : Char → Bool) (stop : ℕ) : ℕ → ℕ → ℕ
  | 0, i => i
  | fuel + 1, i => if i ≤ stop ∧ p (s.charAt i) = true then s.scanWhile p stop fuel (i + 1) else i

/-- The loop over a string literal (srcbuf.cpp:662-667), before the last `i++`. -/
def scanString (s : SrcBuf) (stop : ℕ) : ℕ → ℕ → ℕ
  | 0, i => i
  | fuel + 1, i =>
    if i ≤ stop ∧ s.charAt i ≠ '"' then s.scanString stop fuel (if s.charAt i = '\\' then i + 2 else i + 1) else i

/-- `buf.find("*/", i)`. -/
def findClose (s : SrcBuf) : ℕ → ℕ → Option ℕ
  | 0, _ => none
  | fuel + 1, i =>
    if i + 1 < s.buf.length then (if s.charAt i = '*' ∧ s.charAt (i + 1) = '/' then some i else s.findClose fuel (i + 1)) else none

/-- The first match of the token in the list `a`. -/
def matchToken (tok : List Char) (a : List (List Char)) : Option ℕ := a.findIdx? fun x => x = tok

/-- `replace_tokens(start, end, a, b)` (srcbuf.cpp:618-679) from position `i`, with the number of replacements. -/
def replaceLoop (stop : ℕ) (a b : List (List Char)) : ℕ → ℕ → ℕ → SrcBuf → Option (SrcBuf × ℕ)
  | 0, _, n, s => some (s, n)
  | fuel + 1, i, n, s =>
    if i ≤ stop then
      if isWordStart (s.charAt i) then
        let k := s.scanWhile isWordChar stop (stop + 1) i
        let tok := (s.buf.drop i).take (k - i)
        match matchToken tok a with
        | some j => do
          let s' ← s.replace i (i + tok.length - 1) (b.getD j [])
          replaceLoop stop a b fuel k (n + 1) s'
        | none => replaceLoop stop a b fuel k n s
      else if i + 1 ≤ stop ∧ s.charAt i = '/' ∧ s.charAt (i + 1) = '/' then
        replaceLoop stop a b fuel (s.scanWhile (fun c => c ≠ '\n') stop (stop + 1) (i + 1)) n s
      else if i + 1 ≤ stop ∧ s.charAt i = '/' ∧ s.charAt (i + 1) = '*' then do
        let k ← s.findClose s.buf.length (i + 1)
        replaceLoop stop a b fuel (k + 2) n s
      else if s.charAt i = '#' then replaceLoop stop a b fuel (s.scanWhile (fun c => c ≠ '\n') stop (stop + 1) (i + 1)) n s
      else if s.charAt i = '"' then replaceLoop stop a b fuel (s.scanString stop (stop + 1) (i + 1) + 1) n s
      else if s.charAt i = '\'' then replaceLoop stop a b fuel (if s.charAt (i + 1) = '\\' then i + 4 else i + 3) n s
      else replaceLoop stop a b fuel (i + 1) n s
    else some (s, n)

/-- `replace_tokens(start, end, a, b)` (srcbuf.cpp:618-679). -/
def replaceTokens (s : SrcBuf) (start stop : ℕ) (a b : List (List Char)) : Option (SrcBuf × ℕ) :=
  if s.writeOk = false then some (s, 0)
  else if stop ≥ start ∧ stop < s.trueSize then replaceLoop stop a b (stop + 2) start 0 s
  else none

end SrcBuf

end Hila
