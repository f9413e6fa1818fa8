import Mathlib.Data.Nat.Notation

/-!
# Addresses and references in site loops

Models `/repo/hilapp/src/addrof_and_ref_visitor.cpp`: hilapp looks at every `&` and at every declaration in a site loop, so that no site changes through a pointer
or a reference something which all sites share.

Simplifications: of the expressions of C++ those which refer to an object; types are not modelled, whether the initial value is `const` is given.
Texts of messages are left out. Expressions `f[X + dir]` are values in C++, so that the
compiler itself refuses addresses of and non-const references to their members.
-/

namespace Hila

/-- Expressions which refer to an object: a variable, a member `e.m` (number), an array element `e[...]`, parentheses, implicit and explicit casts, `f[X]` (`dir = false`)
and `f[X + dir]` of the field `f`, `f[parity]`, and the index `X`. -/
inductive LExpr where
  | var (v : ℕ)
  | member (e : LExpr) (m : ℕ)
  | elem (e : LExpr) (i : ℕ)
  | paren (e : LExpr)
  | implicit (e : LExpr)
  | cast (e : LExpr)
  | fieldX (f : ℕ) (dir : Bool)
  | fieldParity (f : ℕ)
  | indexX
deriving DecidableEq

/-- `IgnoreParens` of clang (used in addrof_and_ref_visitor.cpp:71, 183): removes the parentheses outside. -/
def LExpr.ignoreParens : LExpr → LExpr
  | .paren e => e.ignoreParens
  | e => e

/-- `IgnoreImplicit` of clang (used in addrof_and_ref_visitor.cpp:72, 184): removes the implicit casts outside. -/
def LExpr.ignoreImplicit : LExpr → LExpr
  | .implicit e => e.ignoreImplicit
  | e => e

/-- `IgnoreCasts` of clang (used in addrof_and_ref_visitor.cpp:73, 182): removes the casts outside, not the parentheses. -/
def LExpr.ignoreCasts : LExpr → LExpr
  | .implicit e => e.ignoreCasts
  | .cast e => e.ignoreCasts
  | e => e

/-- What hilapp knows of a variable in the loop (`var_info`, addrof_and_ref_visitor.cpp:92-112): declared in the loop or outside, or not in the list
(unknown, or with raw access only). -/
inductive LVar where
  | local
  | outside
  | unknown
deriving DecidableEq

/-- The answers: accepted; refused with an error; hilapp stops. -/
inductive LAnswer where
  | accepted
  | refused
  | stops
deriving DecidableEq

/-- `VisitExpr` for `&e` (addrof_and_ref_visitor.cpp:64-140). -/
def checkAddr (vars : ℕ → LVar) (e : LExpr) : LAnswer :=
  match e.ignoreParens.ignoreImplicit.ignoreCasts with
  | .indexX => .refused
  | .var v => match vars v with
    | .local => .accepted
    | .outside => .refused
    | .unknown => .stops
  | .fieldX _ _ => .refused
  | .fieldParity _ => .refused
  | _ => .accepted

/-- Storage class of a declaration (addrof_and_ref_visitor.cpp:153-155). -/
inductive LStorage where
  | auto
  | static
  | extern
deriving DecidableEq

/-- A declaration in the loop: storage class, whether it is a reference, the initial value if any, whether the type of the initial value is const, and whether the word
before the declaration is `out_only` (addrof_and_ref_visitor.cpp:150-180). -/
structure LDecl where
  storage : LStorage
  isRef : Bool
  init : Option LExpr
  const : Bool
  outOnly : Bool

/-- Marks of a field reference, `is_read` and `is_written` (`field_ref`, addrof_and_ref_visitor.cpp:187-194). -/
structure LMark where
  read : Bool
  written : Bool
deriving DecidableEq

/-- `VisitDecl` (addrof_and_ref_visitor.cpp:150-234): the answer and, when the initial value is a field element, its marks; `m` are the marks before. -/
def checkDecl (vars : ℕ → LVar) (m : LMark) (d : LDecl) : LAnswer × LMark :=
  if d.storage ≠ .auto then (.refused, m)
  else if d.isRef = false then (.accepted, m)
  else match d.init with
    | none => (.accepted, m)
    | some e => match e.ignoreCasts.ignoreParens.ignoreImplicit with
      | .fieldX _ dir =>
        let r : LMark := { m with read := !d.outOnly }
        if d.const = false then (if dir then .refused else .accepted, { r with written := true }) else (.accepted, r)
      | .var v => if d.const = false then (if vars v = .outside then .refused else .accepted, m) else (.accepted, m)
      | _ => (.accepted, m)

end Hila
