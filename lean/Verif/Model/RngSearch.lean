import Mathlib.Data.Nat.Notation

/-!
# Which site loops contain random numbers

Models how hilapp decides that a site loop draws random numbers: `contains_random`
(`/repo/hilapp/src/contains_random_visitor.cpp`), the marking of function calls in loops
(`loop_function.cpp` 19-97, 127-235 and `loop_function_visitor.cpp` 287-345), the visit of the called functions
(`loop_function_visitor.cpp` 480-650) and the decision of the loop header (`codegen_cpu.cpp` 112-135,
`toplevelvisitor.cpp` 1020-1037).

A program is a graph of functions: of the bodies only the calls in them matter, in the order of the visit. A
call in an argument of a call is an entry of its own. Calls of functions in system headers, of the special
functions of the lattice and of `hila::global` are left out of the lists: the visit passes them by.
-/

namespace Hila

/-- What the visit meets in a body: a call of a known function (also operators and methods), a constructor, or
`hidden`: something that is executed but is no call in the text of the body, as the initialisers of a
constructor, default arguments, destructors, or a call through a pointer. -/
inductive RItem (F : Type) where
  | call (f : F)
  | ctor (f : F)
  | hidden (f : F)

/-- The functions that the compiler sees: `body f` is none if only a declaration is seen. `named f`: the
qualified name is `hila::random`. `pragma f`: declared with `#pragma hila contains_rng`. -/
structure RProg (F : Type) where
  body : F → Option (List (RItem F))
  named : F → Bool
  pragma : F → Bool

/-- `containsRandomChecker::VisitStmt` over the statements of one body
(contains_random_visitor.cpp:29-62); `vis` is the list `fdecls` of functions already checked and `go` the
check of the body of a called function. -/
def rndScan {F : Type} [DecidableEq F] (P : RProg F)
    (go : List (RItem F) → List F → Option (Bool × List F)) :
    List (RItem F) → List F → Option (Bool × List F)
  | [], vis => some (false, vis)
  | .call f :: rest, vis =>
    if P.named f || P.pragma f then some (true, vis)
    else match P.body f with
      | none => rndScan P go rest vis
      | some b =>
        if f ∈ vis then rndScan P go rest vis
        else (go b (f :: vis)).bind fun r => if r.1 then some (true, r.2) else rndScan P go rest r.2
  | .ctor _ :: rest, vis => rndScan P go rest vis
  | .hidden _ :: rest, vis => rndScan P go rest vis

/-- The recursion into called functions (contains_random_visitor.cpp:46-70). The first argument bounds the depth;
`none`: the bound is too small (see `C105_ends`). -/
def rndSearch {F : Type} [DecidableEq F] (P : RProg F) :
    ℕ → List (RItem F) → List F → Option (Bool × List F)
  | 0, _, _ => none
  | k + 1, items, vis => rndScan P (rndSearch P k) items vis

/-- `GeneralVisitor::contains_random(s)` (contains_random_visitor.cpp:80-89). -/
def containsRandom {F : Type} [DecidableEq F] (P : RProg F) (k : ℕ) (items : List (RItem F)) : Option Bool :=
  (rndSearch P k items []).map (·.1)

/-- What the calls in a body add to `loop_info.contains_random` (loop_function.cpp:42-72,
loop_function_visitor.cpp:317-338): a call counts if its function has the pragma or its body contains random.
Constructors do not add to it (loop_function.cpp:186-213 stores the result for the call only). -/
def flagItems {F : Type} [DecidableEq F] (P : RProg F) (k : ℕ) : List (RItem F) → Option Bool
  | [] => some false
  | .call f :: rest =>
    (if P.pragma f then some true else match P.body f with
      | none => some false
      | some b => containsRandom P k b).bind fun a => (flagItems P k rest).map fun c => a || c
  | .ctor _ :: rest => flagItems P k rest
  | .hidden _ :: rest => flagItems P k rest

/-- The function that is visited for an entry: called functions and constructors
(loop_function_visitor.cpp:485-503). -/
def RItem.visited? {F : Type} : RItem F → Option F
  | .call f => some f
  | .ctor f => some f
  | .hidden _ => none

/-- `do_visit` for the functions of a list (loop_function_visitor.cpp:480-612, 622-632): functions without a body
and visited ones are passed by; otherwise the calls of the body are marked and then visited in turn. The state
is `loop_info.contains_random` and `visited_decls`; `go` is `visit_calls` of the body. -/
def visitScan {F : Type} [DecidableEq F] (P : RProg F) (kr : ℕ)
    (go : List (RItem F) → Bool × List F → Option (Bool × List F)) :
    List (RItem F) → Bool × List F → Option (Bool × List F)
  | [], s => some s
  | it :: rest, s =>
    match it.visited? with
    | none => visitScan P kr go rest s
    | some f => match P.body f with
      | none => visitScan P kr go rest s
      | some b =>
        if f ∈ s.2 then visitScan P kr go rest s
        else (flagItems P kr b).bind fun a => (go b (s.1 || a, f :: s.2)).bind (visitScan P kr go rest)

/-- `visit_calls` (loop_function_visitor.cpp:622-632). The first argument bounds the depth. -/
def visitCalls {F : Type} [DecidableEq F] (P : RProg F) (kr : ℕ) :
    ℕ → List (RItem F) → Bool × List F → Option (Bool × List F)
  | 0, _, _ => none
  | k + 1, items, s => visitScan P kr (visitCalls P kr k) items s

/-- `loop_info.contains_random` after the analysis of the loop body `ls` (toplevelvisitor.cpp:1025-1037): the
calls in the loop are marked, the functions visited, and if nothing was found the body is searched. -/
def loopRandom {F : Type} [DecidableEq F] (P : RProg F) (k : ℕ) (ls : List (RItem F)) : Option Bool :=
  (flagItems P k ls).bind fun a => (visitCalls P k k ls (a, [])).bind fun r =>
    if r.1 then some true else containsRandom P k ls

/-- Whether the loop is preceded by `#pragma omp parallel for` or `#pragma omp for` (codegen_cpu.cpp:116-150), for
targets without OpenACC. -/
def ompFor (openmp random reductionVector selection : Bool) : Bool :=
  openmp && !random && (!reductionVector && !selection)

end Hila
