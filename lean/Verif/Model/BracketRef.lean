import Mathlib.Data.Nat.Notation

/-!
# Array elements in site loops

Models `handle_bracket_var_ref`, `handle_vector_reference` and the list of loop constant expressions of `/repo/hilapp/src/toplevelvisitor.cpp`: what hilapp
does with `a[i]` in a site loop, where `a` is an array, a `std::array`, a `std::vector` or a `ReductionVector`.

Simplifications: a loop is the list of its references in the order in which hilapp visits them (references inside an index are further members of
the list); bases and indices are numbers standing for the variable and for the text; `#pragma direct_access` and bases which are not variables are left out.
A reported error is `none`: the program is not translated.
-/

namespace Hila

/-- The text of the assignment operator: `+=`, `*=` or another (`=`, `-=`, `/=`, ...). -/
inductive BrOp where
  | add
  | mul
  | other
deriving DecidableEq

/-- What the base is: an array of C++ (`sized`: with a constant size), `std::array`, `std::vector` or `ReductionVector` (toplevelvisitor.cpp:726-740). -/
inductive BrCont where
  | carray (sized : Bool)
  | stdArray
  | stdVector
  | redVector
deriving DecidableEq

/-- `array_ref::reftype` (hilapp.h:356) without `REPLACE`, which no code stores. -/
inductive BrType where
  | array
  | stdVector
  | stdArray
  | reduction
deriving DecidableEq

/-- `enum class reduction` (hilapp.h:43). -/
inductive BrRed where
  | none
  | sum
  | product
deriving DecidableEq

/-- The variables: what each one is and whether it is declared in the loop (`is_variable_loop_local`, toplevelvisitor.cpp:396-403). -/
structure BrVars where
  cont : ℕ → BrCont
  isLocal : ℕ → Bool

/-- One reference `base[index]` (`bracket_ref_t`): whether the base and the index depend on the site, whether the index has variables of the loop,
and the operator when it is assigned to. -/
structure BrRef where
  base : ℕ
  index : ℕ
  baseSite : Bool := false
  site : Bool := false
  loc : Bool := false
  assign : Option BrOp := Option.none
deriving DecidableEq

/-- One member of `array_ref_list` (hilapp.h:350-375): base, type and reduction. -/
structure BrEntry where
  base : ℕ
  type : BrType
  red : BrRed
deriving DecidableEq

/-- One member of `loop_const_expr_ref_list`: the text of the expression and the reduction. -/
structure BrConst where
  base : ℕ
  index : ℕ
  red : BrRed
deriving DecidableEq

/-- The lists and `has_site_dependent_cond_or_index`, cleared at the start of a loop (toplevelvisitor.cpp:1004-1010). -/
structure BrState where
  arrays : List BrEntry
  consts : List BrConst
  noVec : Bool
deriving DecidableEq

/-- The type of the reference (toplevelvisitor.cpp:718, 764-778): a `ReductionVector` counts as reduction when it is assigned to. -/
def brType (c : BrCont) (a : Option BrOp) : BrType :=
  match c with
  | .carray _ => .array
  | .stdArray => .stdArray
  | .stdVector => .stdVector
  | .redVector => if a.isSome then .reduction else .stdArray

/-- The reduction of the reference (toplevelvisitor.cpp:505-515). -/
def brRed (a : Option BrOp) : BrRed :=
  match a with
  | Option.none => .none
  | some .add => .sum
  | some _ => .product

/-- `handle_loop_const_expr_ref` (toplevelvisitor.cpp:942-993). -/
def brConst (s : BrState) (r : BrRef) : Option BrState :=
  if r.assign.isSome && r.assign != some .add then Option.none
  else match s.consts.find? (fun c => c.base == r.base && c.index == r.index) with
    | some c =>
      if (r.assign.isSome && c.red == .none) || (!r.assign.isSome && c.red != .none) then Option.none else some s
    | Option.none => some { s with consts := s.consts ++ [⟨r.base, r.index, if r.assign.isSome then .sum else .none⟩] }

/-- The array has been seen before (toplevelvisitor.cpp:532-555). -/
def brSeen (s : BrState) (e : BrEntry) (t : BrType) (a : Option BrOp) : Option BrState :=
  if (e.type == .reduction) != (t == .reduction) then Option.none
  else if e.type == .reduction && e.red != brRed a then Option.none
  else some s

/-- A new array (toplevelvisitor.cpp:559-702). -/
def brNew (v : BrVars) (s : BrState) (r : BrRef) (t : BrType) : Option BrState :=
  if !r.site && !r.loc && t != .reduction then brConst s r
  else if r.assign.isSome && (r.site || r.loc) && t != .reduction then Option.none
  else if v.cont r.base = .carray false then Option.none
  else some { s with arrays := s.arrays ++ [⟨r.base, t, brRed r.assign⟩] }

/-- `handle_bracket_var_ref` (toplevelvisitor.cpp:417-702). -/
def brStep (v : BrVars) (s : BrState) (r : BrRef) : Option BrState :=
  let t := brType (v.cont r.base) r.assign
  if v.isLocal r.base then (if t = .array then some s else Option.none)
  else if r.baseSite then Option.none
  else
    let s' := { s with noVec := s.noVec || r.site || r.assign.isSome }
    match s'.arrays.find? (fun e => e.base == r.base) with
    | some e => brSeen s' e t r.assign
    | Option.none => brNew v s' r t

/-- The references of the loop in the order of the visit, beginning with empty lists. -/
def brLoop (v : BrVars) (rs : List BrRef) : Option BrState :=
  rs.foldlM (brStep v) ⟨[], [], false⟩

end Hila
