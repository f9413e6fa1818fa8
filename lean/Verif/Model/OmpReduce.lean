import Mathlib.Algebra.Ring.Defs

/-!
# Reduction variables in site loops on processors, with OpenMP threads

Models how hilapp recognises reduction variables (`/repo/hilapp/src/toplevelvisitor.cpp` 340-349, 1748-1815,
`generalvisitor.cpp` 505-575) and the code around and in the loop (`codegen.cpp` 526-535,
`codegen_cpu.cpp` 117-160, 188-193). Values are those of a commutative ring: rounding is left out.

The threads of an `omp for` with `reduction(+: x)` are those of the OpenMP specification: each has its own copy
of `x`, which starts from 0 (user-declared reductions without initializer: as static objects, which is 0 for the
types of HILA), does some of the sites, and the copies are added to `x` in some order.
-/

namespace Hila
section
variable {S V : Type}

/-- How a statement of the body uses a variable from outside the loop. -/
inductive AOp where
  | plus | minus | times | set
  deriving DecidableEq, Repr

/-- Type of a reduction. -/
inductive RKind where
  | sum | product
  deriving DecidableEq, Repr

/-- `get_reduction_type` (toplevelvisitor.cpp:340-349) for one reference. -/
def AOp.kind : AOp → Option RKind
  | .plus => some .sum
  | .times => some .product
  | _ => none

/-- `var_info::reduction_type` after all references of the body have been seen: the first reference that is
a reduction decides (generalvisitor.cpp:533-535, 563-565). `none`: an assigned variable is an error. The check
that there is only one reference is disabled (`if (false && …)`, toplevelvisitor.cpp:1752). -/
def hilaKind (src : List AOp) : Option RKind := src.findSome? AOp.kind

/-- What a statement does to the variable. -/
def AOp.run [Ring V] : AOp × V → V → V
  | (.plus, v), x => x + v
  | (.minus, v), x => x - v
  | (.times, v), x => x * v
  | (.set, v), _ => v

/-- The body at a site: the statements that it runs there, with the values of their right sides. -/
def siteRun [Ring V] (body : S → List (AOp × V)) (x : V) (c : S) : V :=
  (body c).foldl (fun x a => AOp.run a x) x

/-- Initial value of the temporary (codegen.cpp:526-535). -/
def RKind.start [Ring V] : RKind → V
  | .sum => 0
  | .product => 1

/-- A loop over the sites of a pass without threads. -/
def serialPass [Ring V] (body : S → List (AOp × V)) (sites : List S) (x : V) : V :=
  sites.foldl (siteRun body) x

/-- A pass with threads; the list gives the sites of each thread in the order in which the copies are added.
The operation is `+` for both types of reduction (codegen_cpu.cpp:136, 154). -/
def ompPass [Ring V] (body : S → List (AOp × V)) (threads : List (List S)) (x : V) : V :=
  threads.foldl (fun x t => x + serialPass body t 0) x

/-- Value of the temporary of a rank after all passes. -/
def ompRank [Ring V] (k : RKind) (body : S → List (AOp × V)) (passes : List (List (List S))) : V :=
  passes.foldl (fun x t => ompPass body t x) k.start

/-- The same without OpenMP. -/
def serialRank [Ring V] (k : RKind) (body : S → List (AOp × V)) (passes : List (List S)) : V :=
  passes.foldl (fun x t => serialPass body t x) k.start

end
end Hila
