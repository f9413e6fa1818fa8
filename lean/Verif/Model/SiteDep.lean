import Verif.Model.LoopBody

/-!
# Which variables of a loop body depend on the site, and the vectorised body

Models the analysis with which hilapp decides that a loop can be vectorised
(`/repo/hilapp/src/depends_on_site_visitor.cpp`, `generalvisitor.cpp` 231-290, 505-575, 640-670,
`toplevelvisitor.cpp` 480-505, 1020-1046, 1366-1397, 1816-1834, `codegen_avx_new.cpp` 245-265) and what the
vectorised body does (`codegen_avx_new.cpp` 559-669), for the bodies of `Model/LoopBody`. The flags `dep` of those
bodies are not used here.

`xs k` says that the expression `env k` contains `X` (coordinates, neighbours) or random numbers; otherwise it is
a variable declared outside of the loop. Every variable of the body is declared before it is used, as in C++,
so that it is found in `var_info_list`. Left out: function calls, references, types that cannot be
vectorised, and the loading of fields (C77).
-/

namespace Hila
namespace Body

/-! ### Analysis -/

/-- What `isSiteDependentChecker` meets in an expression, in order: `none` for `X`, `some k` for a variable of
the body (depends_on_site_visitor.cpp:45-78). -/
def Expr.atoms {F V : Type} (xs : ℕ → Bool) : Expr F V → List (Option ℕ)
  | .lit _ => []
  | .env k => if xs k then [none] else []
  | .loc k => [some k]
  | .fld _ => [none]
  | .op _ a b => a.atoms xs ++ b.atoms xs
  | .table _ _ i => i.atoms xs
  | .cond _ _ x a b => x.atoms xs ++ (a.atoms xs ++ b.atoms xs)

/-- `is_site_dependent` (depends_on_site_visitor.cpp:45-78, 131-143): stops at `X` or at a variable that is
known to depend on the site; other variables are collected. -/
def scan (flag : ℕ → Bool) : List (Option ℕ) → Bool × List ℕ
  | [] => (false, [])
  | none :: _ => (true, [])
  | some k :: r => if flag k then (true, []) else ((scan flag r).1, k :: (scan flag r).2)

/-- State of the analysis: variables in `var_info_list`, their `is_site_dependent` and `dependent_vars`, and
`has_site_dependent_cond_or_index` and `conditional_vars` of `loop_info`. -/
structure Dep where
  vars : List ℕ
  flag : ℕ → Bool
  deps : ℕ → List ℕ
  cond : Bool
  condVars : List ℕ

/-- Index of a table (toplevelvisitor.cpp:497-504, 1248-1251). -/
def Dep.noteIndex {F V : Type} (xs : ℕ → Bool) (e : Expr F V) (d : Dep) : Dep :=
  { d with
    cond := d.cond || (scan d.flag (e.atoms xs)).1
    condVars := d.condVars ++ (scan d.flag (e.atoms xs)).2 }

/-- Condition of an `if`, loop or `?:` (toplevelvisitor.cpp:1371-1394). -/
def Dep.noteCond {F V : Type} (xs : ℕ → Bool) (e : Expr F V) (d : Dep) : Dep :=
  if d.cond then d else d.noteIndex xs e

/-- Declaration or assignment of a variable (generalvisitor.cpp:569-571, 659-660). -/
def Dep.noteSet {F V : Type} (xs : ℕ → Bool) (k : ℕ) (e : Expr F V) (d : Dep) : Dep :=
  let vars := if k ∈ d.vars then d.vars else d.vars ++ [k]
  if d.flag k then { d with vars := vars }
  else
    { d with
      vars := vars
      flag := Function.update d.flag k (scan d.flag (e.atoms xs)).1
      deps := Function.update d.deps k (d.deps k ++ (scan d.flag (e.atoms xs)).2) }

/-- Traversal of an expression. -/
def Expr.note {F V : Type} (xs : ℕ → Bool) : Expr F V → Dep → Dep
  | .lit _, d => d
  | .env _, d => d
  | .loc _, d => d
  | .fld _, d => d
  | .op _ a b, d => b.note xs (a.note xs d)
  | .table _ _ i, d => i.note xs (d.noteIndex xs i)
  | .cond _ _ x a b, d => (b.note xs (a.note xs (x.note xs d))).noteCond xs x

/-- Traversal of a statement. Adding to a reduction vector counts as a site dependent index
(toplevelvisitor.cpp:503-504). -/
def Stmt.note {F V : Type} (xs : ℕ → Bool) : Stmt F V → Dep → Dep
  | .assign _ e, d => e.note xs d
  | .update _ _ e, d => e.note xs d
  | .setLoc k e, d => e.note xs (d.noteSet xs k e)
  | .binAdd i e, d => e.note xs (i.note xs { d with cond := true })
  | .andAssign _ x _ e, d => e.note xs (x.note xs d)
  | .ite _ _ x a b, d => (b.note xs (a.note xs (x.note xs d))).noteCond xs x
  | .loop _ _ _ x a, d => (a.note xs (x.note xs d)).noteCond xs x
  | .cont, d => d
  | .skip, d => d
  | .seq a b, d => b.note xs (a.note xs d)
  | .block a, d => a.note xs d

/-- One turn of the loop over `var_info_list` (toplevelvisitor.cpp:1822-1832). -/
def sweep (deps : ℕ → List ℕ) (vars : List ℕ) (flag : ℕ → Bool) : ℕ → Bool :=
  vars.foldl (fun fl k => if fl k = false ∧ (deps k).any fl then Function.update fl k true else fl) flag

/-- `do … while (found > 0)` (toplevelvisitor.cpp:1819-1833), at most `n` turns. -/
def sweeps (deps : ℕ → List ℕ) (vars : List ℕ) : ℕ → (ℕ → Bool) → ℕ → Bool
  | 0, flag => flag
  | n + 1, flag =>
    if vars.all fun k => sweep deps vars flag k == flag k then sweep deps vars flag
    else sweeps deps vars n (sweep deps vars flag)

/-- The analysis of a body. -/
def Stmt.depends {F V : Type} (xs : ℕ → Bool) (body : Stmt F V) : Dep :=
  body.note xs ⟨[], fun _ => false, fun _ => [], false, []⟩

/-- Final `is_site_dependent` of the variables. Every turn but the last marks a variable, so that one turn more
than there are variables is enough. -/
def Stmt.siteDep {F V : Type} (xs : ℕ → Bool) (body : Stmt F V) : ℕ → Bool :=
  sweeps (body.depends xs).deps (body.depends xs).vars ((body.depends xs).vars.length + 1)
    (body.depends xs).flag

/-- The loop may be vectorised: no condition and no index depends on the site (toplevelvisitor.cpp:1041-1045,
codegen_avx_new.cpp:261-264). -/
def Stmt.vectorizable {F V : Type} (xs : ℕ → Bool) (body : Stmt F V) : Bool :=
  !((body.depends xs).cond || (body.depends xs).condVars.any (body.siteDep xs))

/-! ### The vectorised body -/

/-- A value in the vectorised body: an ordinary one, or one for each site of the vector. -/
inductive VVal (ι V : Type) where
  | one (v : Option V)
  | many (v : ι → Option V)

/-- Value at a site of the vector; ordinary values are the same everywhere. -/
def VVal.lane {ι V : Type} : VVal ι V → ι → Option V
  | .one v, _ => v
  | .many v, i => v i

/-- Variables of the vectorised body: fields and site dependent variables have vector types
(codegen_avx_new.cpp:620-633, 659-668), others keep their types. -/
structure VState (F ι V : Type) where
  fld : F → ι → Option V
  one : ℕ → Option V
  many : ℕ → ι → Option V

section
variable {F ι V : Type} (xs flag : ℕ → Bool) (outer : ℕ → V) (lanes : ι → ℕ → V)

/-- An operator applied to ordinary values or vectors. -/
def VVal.op2 (g : Option V → Option V → Option V) : VVal ι V → VVal ι V → VVal ι V
  | .one x, .one y => .one (g x y)
  | x, y => .many fun i => g (x.lane i) (y.lane i)

/-- Value of an expression. `none`: does not compile, because a vector is used as an index or a condition. -/
def Expr.veval (s : VState F ι V) : Expr F V → Option (VVal ι V)
  | .lit v => some (.one (some v))
  | .env k => some (if xs k then .many fun i => some (lanes i k) else .one (some (outer k)))
  | .loc k => some (if flag k then .many (s.many k) else .one (s.one k))
  | .fld f => some (.many (s.fld f))
  | .op g a b => (a.veval s).bind fun x => (b.veval s).bind fun y =>
      some (VVal.op2 (fun u w => u.bind fun u => w.bind fun w => some (g u w)) x y)
  | .table t _ i => (i.veval s).bind fun
      | .one x => some (.one (x.bind fun x => some (t x)))
      | .many _ => none
  | .cond _ test x a b => (x.veval s).bind fun
      | .one c => (a.veval s).bind fun u => (b.veval s).bind fun w =>
          some (VVal.op2 (fun u w => c.bind fun v => if test v then u else w) u w)
      | .many _ => none

/-- Value of a condition. -/
def VVal.test (test : V → Bool) : VVal ι V → Option Bool
  | .one x => x.map test
  | .many _ => none

/-- Running a statement on a vector of sites. An ordinary variable cannot take a vector. The operator `&&` of
vectors is a function, so that its right side is always evaluated. -/
def Stmt.vexec [DecidableEq F] : Stmt F V → VState F ι V → Option (Bool × VState F ι V)
  | .assign f e, s => (e.veval xs flag outer lanes s).bind fun x =>
      some (false, { s with fld := Function.update s.fld f x.lane })
  | .update f g e, s => (e.veval xs flag outer lanes s).bind fun x =>
      some (false, { s with
        fld := Function.update s.fld f fun i =>
          (x.lane i).bind fun v => (s.fld f i).bind fun w => some (g w v) })
  | .setLoc k e, s => (e.veval xs flag outer lanes s).bind fun x =>
      if flag k then some (false, { s with many := Function.update s.many k x.lane })
      else match x with
        | .one v => some (false, { s with one := Function.update s.one k v })
        | .many _ => none
  | .binAdd _ _, _ => none
  | .andAssign _ x f e, s => (x.veval xs flag outer lanes s).bind fun _ =>
      (e.veval xs flag outer lanes s).bind fun y =>
      some (false, { s with fld := Function.update s.fld f y.lane })
  | .ite _ test x a b, s => (x.veval xs flag outer lanes s).bind fun v => (v.test test).bind fun t =>
      if t then a.vexec s else b.vexec s
  | .loop turns _ test x a, s =>
      loopRun (fun s => (x.veval xs flag outer lanes s).bind fun v => v.test test)
        (fun s => a.vexec s) turns s
  | .cont, s => some (true, s)
  | .skip, s => some (false, s)
  | .seq a b, s => (a.vexec s).bind fun r => if r.1 then some r else b.vexec r.2
  | .block a, s => a.vexec s

end
end Body
end Hila
