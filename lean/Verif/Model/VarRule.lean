import Verif.Model.BracketRef
import Mathlib.Logic.Function.Basic

/-!
# Variables in site loops

Models `handle_var_ref` of `/repo/hilapp/src/generalvisitor.cpp`, `get_reduction_type` and the first part of `check_var_info_list` of
`/repo/hilapp/src/toplevelvisitor.cpp`: which loops are accepted because of the variables they use.

Simplifications: a loop is the list of its references to variables in the order of the visit; `var_info_list` is a function of the variable, since entries are
found by the declaration; `X`, lattices, `SiteSelect` and the dependence on the site are left out (the last one is the subject of C80).
-/

namespace Hila

/-- One reference to a variable, with the operator when it is assigned to. -/
structure VrRef where
  var : ℕ
  assign : Option BrOp := none
deriving DecidableEq

/-- What is known of a variable: declared in the loop, given to `#pragma direct_access`, of type `Reduction<T>`, and the text of its canonical type. -/
structure VrVar where
  isLocal : Bool := false
  raw : Bool := false
  special : Bool := false
  type : String

/-- The members `is_assigned` and `reduction_type` of `var_info`. -/
structure VrInfo where
  assigned : Bool
  red : BrRed
deriving DecidableEq

/-- `get_reduction_type` (toplevelvisitor.cpp:340-349). -/
def vrKind (isLocal : Bool) (a : Option BrOp) : BrRed :=
  if isLocal then .none
  else match a with
    | some .add => .sum
    | some .mul => .product
    | _ => .none

/-- One reference (generalvisitor.cpp:510-567): a new variable is entered, an old one is updated; a reduction once found stays. -/
def vrStep (v : ℕ → VrVar) (s : ℕ → Option VrInfo) (r : VrRef) : ℕ → Option VrInfo :=
  Function.update s r.var <| some <|
    match s r.var with
    | some i =>
      if (v r.var).raw then i
      else ⟨i.assigned || r.assign.isSome, if i.red = .none then vrKind (v r.var).isLocal r.assign else i.red⟩
    | none =>
      ⟨r.assign.isSome, if (v r.var).raw then .none else vrKind (v r.var).isLocal r.assign⟩

/-- The types of `legal_types` (hilapp.h:202-204). -/
def vrNumbers : List String :=
  ["int", "unsigned", "long", "int64_t", "uint64_t", "unsigned long", "float", "double", "long double"]

/-- `legal_types` after `add_type("class Reduction")` (hilapp.h:222-227, toplevelvisitor.cpp:1798-1799). -/
def vrLegal : List String := vrNumbers ++ vrNumbers.map fun t => "class Reduction" ++ "<" ++ t ++ ">"

/-- No error for the variable (toplevelvisitor.cpp:1750-1812); the check for more than one reference is disabled (1753). -/
def vrCheck (x : VrVar) (i : VrInfo) : Bool :=
  if x.isLocal || x.raw then true
  else (if i.red != .none then true else if x.special then false else !i.assigned) &&
    (i.red != .product || vrLegal.contains x.type)

/-- The loop is accepted. -/
def vrLoop (v : ℕ → VrVar) (rs : List VrRef) : Prop :=
  ∀ x i, rs.foldl (vrStep v) (fun _ => none) x = some i → vrCheck (v x) i = true

/-- The reduction which is made of the variable at the end of the loop (codegen.cpp:51-54). -/
def vrReduction (v : ℕ → VrVar) (rs : List VrRef) (x : ℕ) : BrRed :=
  match rs.foldl (vrStep v) (fun _ => none) x with
  | some i => i.red
  | none => .none

end Hila
