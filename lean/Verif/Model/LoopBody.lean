import Mathlib.Logic.Function.Basic
import Mathlib.Data.List.Basic

/-!
# What hilapp makes of the body of a site loop

Models the analysis of loop bodies in `/repo/hilapp/src/toplevelvisitor.cpp` and the code generated for
one site (`codegen_cpu.cpp` 190-330; `codegen_gpu.cpp` 890-1010 does the same). In the generated code
every field `f` used as `f[X]` becomes a local variable. It is loaded before the body only if the analysis
says so, and stored after the body if the body assigns to it.

Bodies are trees of a small language with assignments, conditionals, loops, local variables, tables and
reduction vectors. Left out: `break`, `switch`, function calls with field arguments, references, nested assignments except
behind `&&`, and everything about types. A variable without a value is `none`; using it makes the
outcome `none` (undefined behaviour).
-/

namespace Hila
namespace Body

/-- Expressions. `F` names fields, `V` are values. -/
inductive Expr (F V : Type) where
  /-- a constant -/
  | lit (v : V)
  /-- something no statement of the body changes: `X.coordinates()`, `g[X + d]`, a variable declared
  outside of the loop -/
  | env (k : ℕ)
  /-- a variable declared in the body -/
  | loc (k : ℕ)
  /-- `f[X]` -/
  | fld (f : F)
  /-- an operator or function -/
  | op (g : V → V → V) (a b : Expr F V)
  /-- `t[i]` for an array or `std::vector` declared outside; `dep` is what `is_site_dependent` says about
  the index -/
  | table (t : V → V) (dep : Bool) (i : Expr F V)
  /-- `x ? a : b`; `dep` is what `is_site_dependent` says about `x` -/
  | cond (dep : Bool) (test : V → Bool) (x a b : Expr F V)

/-- Statements. -/
inductive Stmt (F V : Type) where
  /-- `f[X] = e` -/
  | assign (f : F) (e : Expr F V)
  /-- `f[X] op= e` -/
  | update (f : F) (g : V → V → V) (e : Expr F V)
  /-- `T v = e` or `v = e` for a variable of the body -/
  | setLoc (k : ℕ) (e : Expr F V)
  /-- `rv[i] += e` for a reduction vector -/
  | binAdd (i e : Expr F V)
  /-- `x && (f[X] = e);` -/
  | andAssign (test : V → Bool) (x : Expr F V) (f : F) (e : Expr F V)
  /-- `if (x) a else b` -/
  | ite (dep : Bool) (test : V → Bool) (x : Expr F V) (a b : Stmt F V)
  /-- `while (x) a` or the corresponding `for`; at most `turns` turns, so a loop that ends is this one
  for every large enough `turns` -/
  | loop (turns : ℕ) (dep : Bool) (test : V → Bool) (x : Expr F V) (a : Stmt F V)
  /-- `continue` -/
  | cont
  /-- nothing -/
  | skip
  /-- two statements after one another in a block -/
  | seq (a b : Stmt F V)
  /-- `{ a }` -/
  | block (a : Stmt F V)

/-! ### Meaning -/

/-- Variables while the body runs: the fields at the site, the variables of the body, and what has been
added to reduction vectors. -/
structure State (F V : Type) where
  fld : F → Option V
  loc : ℕ → Option V
  out : List (V × V)

/-- Value of an expression; `none` if a variable without a value is used. -/
def Expr.eval {F V : Type} (env : ℕ → V) (s : State F V) : Expr F V → Option V
  | .lit v => some v
  | .env k => some (env k)
  | .loc k => s.loc k
  | .fld f => s.fld f
  | .op g a b => (a.eval env s).bind fun x => (b.eval env s).bind fun y => some (g x y)
  | .table t _ i => (i.eval env s).bind fun x => some (t x)
  | .cond _ test x a b => (x.eval env s).bind fun v =>
      if test v then a.eval env s else b.eval env s

/-- A loop of at most `turns` turns. A `continue` in its body only starts the next turn. -/
def loopRun {S : Type} (c : S → Option Bool) (body : S → Option (Bool × S)) :
    ℕ → S → Option (Bool × S)
  | 0, s => some (false, s)
  | n + 1, s => (c s).bind fun v =>
      if v then (body s).bind fun r => loopRun c body n r.2
      else some (false, s)

/-- Running a statement. The flag says that the `continue` of the site loop was reached, which ends the
body for this site. -/
def Stmt.exec {F V : Type} [DecidableEq F] (env : ℕ → V) :
    Stmt F V → State F V → Option (Bool × State F V)
  | .assign f e, s => (e.eval env s).bind fun v =>
      some (false, { s with fld := Function.update s.fld f (some v) })
  | .update f g e, s => (e.eval env s).bind fun v => (s.fld f).bind fun w =>
      some (false, { s with fld := Function.update s.fld f (some (g w v)) })
  | .setLoc k e, s => (e.eval env s).bind fun v =>
      some (false, { s with loc := Function.update s.loc k (some v) })
  | .binAdd i e, s => (i.eval env s).bind fun x => (e.eval env s).bind fun y =>
      some (false, { s with out := s.out ++ [(x, y)] })
  | .andAssign test x f e, s => (x.eval env s).bind fun v =>
      if test v then (e.eval env s).bind fun w =>
        some (false, { s with fld := Function.update s.fld f (some w) })
      else some (false, s)
  | .ite _ test x a b, s => (x.eval env s).bind fun v =>
      if test v then a.exec env s else b.exec env s
  | .loop turns _ test x a, s =>
      loopRun (fun s => (x.eval env s).map test) (fun s => a.exec env s) turns s
  | .cont, s => some (true, s)
  | .skip, s => some (false, s)
  | .seq a b, s => (a.exec env s).bind fun r => if r.1 then some r else b.exec env r.2
  | .block a, s => a.exec env s

/-- What the programmer means: the body runs on the fields themselves. The result is the new content of
the fields at this site and what was added to reduction vectors. -/
def source {F V : Type} [DecidableEq F] (body : Stmt F V) (env : ℕ → V) (mem : F → V) :
    Option ((F → Option V) × List (V × V)) :=
  (body.exec env ⟨fun f => some (mem f), fun _ => none, []⟩).map fun r => (r.2.fld, r.2.out)

/-! ### Analysis -/

/-- A reference `f[X]` found in the body (`field_ref`, hilapp.h; filled in
toplevelvisitor.cpp:148-150). -/
structure Ref (F : Type) where
  fld : F
  written : Bool
  read : Bool
  seq : ℕ

/-- State of the traversal: `parsing_state.ast_depth`, `parsing_state.stmt_sequence`, the two flags of
`loop_info` and `field_ref_list`. -/
structure Trav (F : Type) where
  depth : ℕ
  seq : ℕ
  siteDep : Bool
  hasCond : Bool
  refs : List (Ref F)

/-- `TraverseStmt` on the way down, and the begin of `handle_loop_body_stmt`
(toplevelvisitor.cpp:1525-1528, 1087-1088). -/
def Trav.visit {F : Type} (t : Trav F) : Trav F :=
  { t with depth := t.depth + 1, seq := if t.depth + 1 = 1 then t.seq + 1 else t.seq }

/-- `TraverseStmt` on the way up (toplevelvisitor.cpp:1529-1530). -/
def Trav.leave {F : Type} (t : Trav F) : Trav F := { t with depth := t.depth - 1 }

/-- `handle_field_X_expr` (toplevelvisitor.cpp:105-150). -/
def Trav.addRef {F : Type} (f : F) (written read : Bool) (t : Trav F) : Trav F :=
  { t with refs := t.refs ++ [⟨f, written, read, t.seq⟩] }

/-- A site dependent index is noted (toplevelvisitor.cpp:503-504, 1249-1251). -/
def Trav.mark {F : Type} (dep : Bool) (t : Trav F) : Trav F := { t with siteDep := t.siteDep || dep }

/-- `parsing_state.ast_depth` is set to 0. -/
def Trav.top {F : Type} (t : Trav F) : Trav F := { t with depth := 0 }

/-- What is done after the parts of a conditional or loop have been traversed
(toplevelvisitor.cpp:1370-1397): both flags are set only if the first is not set yet, and the depth
becomes 0. -/
def Trav.endCond {F : Type} (dep : Bool) (t : Trav F) : Trav F :=
  { t with siteDep := t.siteDep || dep, hasCond := t.hasCond || !t.siteDep, depth := 0 }

/-- Traversal of an expression (toplevelvisitor.cpp:1160-1400). The implicit nodes of the syntax tree are
left out; they lie deeper than the nodes here and are never at depth 1 unless their parent node here
is. Conditional operators are entered twice, because of `passthrough`. The index of a table is
traversed after the flag has been set (lines 503-504, 541-543). -/
def Expr.trav {F V : Type} : Expr F V → Trav F → Trav F
  | .lit _, t => t.visit.leave
  | .env _, t => t.visit.leave
  | .loc _, t => t.visit.leave
  | .fld f, t => (t.visit.addRef f false true).leave
  | .op _ a b, t => (b.trav (a.trav t.visit)).leave
  | .table _ dep i, t =>
    (i.trav (t.visit.mark dep)).leave
  | .cond dep _ x a b, t =>
    ((b.trav (a.trav (x.trav t.visit.visit))).leave.endCond dep).leave

/-- The two parts of an assignment to `f[X]` (toplevelvisitor.cpp:1093-1126). -/
def travAssign {F V : Type} (f : F) (compound : Bool) (e : Expr F V) (t : Trav F) : Trav F :=
  (e.trav ((t.visit.visit.addRef f true compound).leave)).leave

/-- Traversal of a statement (toplevelvisitor.cpp:1074-1400). For a block the depth is set to -1 before it
is entered again, so it is 0 for the block itself (lines 1364-1366). -/
def Stmt.trav {F V : Type} : Stmt F V → Trav F → Trav F
  | .assign f e, t => travAssign f false e t
  | .update f _ e, t => travAssign f true e t
  | .setLoc _ e, t => (e.trav t.visit).leave
  | .binAdd i e, t =>
    (e.trav ((i.trav (t.visit.visit.mark true)).leave)).leave
  | .andAssign _ x f e, t => (travAssign f false e (x.trav t.visit)).leave
  | .ite dep _ x a b, t =>
    ((b.trav (a.trav (x.trav t.visit.visit))).leave.endCond dep).leave
  | .loop _ dep _ x a, t => ((a.trav (x.trav t.visit.visit)).leave.endCond dep).leave
  | .cont, t => t.visit.leave
  | .skip, t => t
  | .seq a b, t => b.trav (a.trav t)
  | .block a, t => (a.trav t.visit.top).leave.top

/-- The traversal of a loop body (toplevelvisitor.cpp:1015-1030). -/
def Stmt.analyse {F V : Type} (body : Stmt F V) : Trav F := body.trav ⟨0, 0, false, false, []⟩

/-- `field_info`: is the field written, at which statement first, and is it read at `X`. -/
structure Info where
  written : Bool
  first : ℕ
  readX : Bool

/-- One turn of `check_field_ref_list` (toplevelvisitor.cpp:1625-1639) for field `f`. -/
def Info.add {F : Type} [DecidableEq F] (f : F) (i : Info) (p : Ref F) : Info :=
  if p.fld = f then
    let i1 := if p.written ∧ i.written = false then { i with first := p.seq, written := true } else i
    if p.read ∧ (i1.written = false ∨ i1.first ≥ p.seq) then { i1 with readX := true } else i1
  else i

/-- `check_field_ref_list` (toplevelvisitor.cpp:1574-1645) for field `f`. -/
def fieldInfo {F : Type} [DecidableEq F] (refs : List (Ref F)) (f : F) : Info :=
  refs.foldl (Info.add f) ⟨false, 0, false⟩

/-! ### Generated code -/

/-- Is the variable for `f[X]` loaded before the body (codegen_cpu.cpp:277; codegen_gpu.cpp:946)? -/
def loaded {F : Type} [DecidableEq F] (t : Trav F) (f : F) : Bool :=
  (fieldInfo t.refs f).readX || ((fieldInfo t.refs f).written && t.hasCond)

/-- The generated code for one site (codegen_cpu.cpp:277-335): variables are loaded or left without a
value, the body runs, and the variables of written fields are stored, which is undefined if one has no
value. A `continue` in the body continues the generated loop over sites, so that nothing is stored. -/
def generated {F V : Type} [DecidableEq F] (body : Stmt F V) (env : ℕ → V) (mem : F → V) :
    Option ((F → Option V) × List (V × V)) :=
  let t := body.analyse
  (body.exec env
    ⟨fun f => if loaded t f then some (mem f) else none, fun _ => none, []⟩).bind fun r =>
    if r.1 then some (fun f => some (mem f), r.2.out)
    else if (t.refs.filter (·.written)).all (fun p => (r.2.fld p.fld).isSome) then
      some (fun f => if (fieldInfo t.refs f).written then r.2.fld f else some (mem f), r.2.out)
    else none

end Body
end Hila
