/-!
# Global variables in site loops on graphics processors

Models `hila::global<T>` (`/repo/libraries/plumbing/globals.h`) and what hilapp makes of it for graphics processors: a variable in the constant memory
of the device for every declaration (`/repo/hilapp/src/toplevelvisitor.cpp:2833-2949`), and the name put in place of `a()` in loops and loop
functions (`/repo/hilapp/src/generalvisitor.cpp:684-818`).

Names are lists of characters. The resolution of names is that of the compiler: a reference is given with the variable it means.
Aliases of namespaces, static members of classes and `a.get()` in loops (which is not replaced, but copied to the kernel like other variables) are not modelled.
-/

namespace Hila

/-- A variable: the namespaces it is in, from outside to inside, and its name. -/
structure GVar where
  ns : List (List Char)
  name : List Char
deriving DecidableEq

/-- `getQualifiedNameAsString()` of clang: `n1::n2::name`. -/
def qualifiedName : List (List Char) → List Char → List Char
  | [], n => n
  | c :: cs, n => c ++ ':' :: ':' :: qualifiedName cs n

/-- `generate_constant_var_name` with a name (generalvisitor.cpp:764-783): the prefix, the namespace followed by `__` if there is one,
the name, and every colon replaced by an underscore. -/
def constantVarName (varname : List Char) (nspace : Option (List Char)) : List Char :=
  let pre := "HILA_device_constant_".toList
  let name := match nspace with
    | some n => pre ++ n ++ "__".toList
    | none => pre
  (name ++ varname).map fun c => if c = ':' then '_' else c

/-- The name of the device variable of a declaration (toplevelvisitor.cpp:2852-2853). -/
def declName (v : GVar) : List Char := constantVarName (qualifiedName v.ns v.name) none

/-- A reference in a loop: the variable it means, and whether it is written with a namespace in front of it. -/
structure GRef where
  var : GVar
  qualified : Bool

/-- The name of the device variable in place of a reference (generalvisitor.cpp:789-816): the full name of the namespace if one is written. -/
def refName (r : GRef) : List Char :=
  match r.qualified, r.var.ns with
  | true, c :: cs => constantVarName r.var.name (some (qualifiedName ((c :: cs).dropLast) ((c :: cs).getLast (List.cons_ne_nil c cs))))
  | _, _ => constantVarName r.var.name none

/-- Characters of identifiers. -/
def isIdentChar (c : Char) : Bool := c.isAlphanum || c = '_'

/-- The values of the variables: on the host, and in the constant memory by the name of the variable there (`none` if it is not declared). -/
structure GState (V : Type) where
  host : GVar → V
  dev : List Char → Option V

/-- The start of a program with the given declarations: all values are zero (static memory); `none` if the generated code cannot be
compiled because a device variable is declared twice or its name is not an identifier. -/
def startGlobals {V : Type} (zero : V) (decls : List GVar) : Option (GState V) :=
  if (decls.map declName).Nodup ∧ ∀ v ∈ decls, (declName v).all isIdentChar = true then
    some ⟨fun _ => zero, fun n => if n ∈ decls.map declName then some zero else none⟩
  else none

/-- `set(x)` (globals.h:117-123) with the specialised `copy_to_device()` (toplevelvisitor.cpp:2892-2899). -/
def setGlobal {V : Type} (s : GState V) (v : GVar) (x : V) : GState V :=
  let h : GVar → V := fun w => if w = v then x else s.host w
  ⟨h, fun n => if n = declName v then some (h v) else s.dev n⟩

/-- A sequence of assignments. -/
def setGlobals {V : Type} (s : GState V) (l : List (GVar × V)) : GState V := l.foldl (fun s p => setGlobal s p.1 p.2) s

/-- `a()` or `a.get()` on the host (globals.h:108-114). -/
def hostRead {V : Type} (s : GState V) (v : GVar) : V := s.host v

/-- `a()` in a site loop or loop function on the device (generalvisitor.cpp:725-752); `none` if the variable in the generated code is not declared. -/
def loopRead {V : Type} (s : GState V) (r : GRef) : Option V := s.dev (refName r)

end Hila
