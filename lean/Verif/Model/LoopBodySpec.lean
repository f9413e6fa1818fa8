import Verif.Model.LoopBody

/-!
# Words for describing loop bodies

Used to state what is proved about `Model/LoopBody`; nothing here models the code.
-/

namespace Hila
namespace Body

/-- The fields an expression reads. -/
def Expr.reads {F V : Type} : Expr F V → List F
  | .lit _ => []
  | .env _ => []
  | .loc _ => []
  | .fld f => [f]
  | .op _ a b => a.reads ++ b.reads
  | .table _ _ i => i.reads
  | .cond _ _ x a b => x.reads ++ (a.reads ++ b.reads)

/-- The fields a statement assigns to. -/
def Stmt.writes {F V : Type} : Stmt F V → List F
  | .assign f _ => [f]
  | .update f _ _ => [f]
  | .setLoc _ _ => []
  | .binAdd _ _ => []
  | .andAssign _ _ f _ => [f]
  | .ite _ _ _ a b => a.writes ++ b.writes
  | .loop _ _ _ _ a => a.writes
  | .cont => []
  | .skip => []
  | .seq a b => a.writes ++ b.writes
  | .block a => a.writes

/-- The fields a statement reads. -/
def Stmt.reads {F V : Type} : Stmt F V → List F
  | .assign _ e => e.reads
  | .update f _ e => f :: e.reads
  | .setLoc _ e => e.reads
  | .binAdd i e => i.reads ++ e.reads
  | .andAssign _ x _ e => x.reads ++ e.reads
  | .ite _ _ x a b => x.reads ++ (a.reads ++ b.reads)
  | .loop _ _ _ x a => x.reads ++ a.reads
  | .cont => []
  | .skip => []
  | .seq a b => a.reads ++ b.reads
  | .block a => a.reads

/-- The expression contains `?:`. -/
def Expr.branches {F V : Type} : Expr F V → Bool
  | .op _ a b => a.branches || b.branches
  | .table _ _ i => i.branches
  | .cond _ _ _ _ _ => true
  | _ => false

/-- The statement contains `if`, `while`, `for` or `?:`. -/
def Stmt.branches {F V : Type} : Stmt F V → Bool
  | .assign _ e => e.branches
  | .update _ _ e => e.branches
  | .setLoc _ e => e.branches
  | .binAdd i e => i.branches || e.branches
  | .andAssign _ x _ e => x.branches || e.branches
  | .ite _ _ _ _ _ => true
  | .loop _ _ _ _ _ => true
  | .cont => false
  | .skip => false
  | .seq a b => a.branches || b.branches
  | .block a => a.branches

/-- The statement contains an assignment behind `&&`. -/
def Stmt.shortcuts {F V : Type} : Stmt F V → Bool
  | .andAssign _ _ _ _ => true
  | .ite _ _ _ a b => a.shortcuts || b.shortcuts
  | .loop _ _ _ _ a => a.shortcuts
  | .seq a b => a.shortcuts || b.shortcuts
  | .block a => a.shortcuts
  | _ => false

/-- The expression contains a table with an index that depends on the site. -/
def Expr.lookups {F V : Type} : Expr F V → Bool
  | .op _ a b => a.lookups || b.lookups
  | .table _ dep i => dep || i.lookups
  | .cond _ _ x a b => x.lookups || (a.lookups || b.lookups)
  | _ => false

/-- The statement contains such a table or adds to a reduction vector. -/
def Stmt.lookups {F V : Type} : Stmt F V → Bool
  | .assign _ e => e.lookups
  | .update _ _ e => e.lookups
  | .setLoc _ e => e.lookups
  | .binAdd _ _ => true
  | .andAssign _ x _ e => x.lookups || e.lookups
  | .ite _ _ x a b => x.lookups || (a.lookups || b.lookups)
  | .loop _ _ _ x a => x.lookups || a.lookups
  | .cont => false
  | .skip => false
  | .seq a b => a.lookups || b.lookups
  | .block a => a.lookups

/-- The statement contains a `continue` that ends the turn of the loop over sites. -/
def Stmt.continues {F V : Type} : Stmt F V → Bool
  | .cont => true
  | .ite _ _ _ a b => a.continues || b.continues
  | .seq a b => a.continues || b.continues
  | .block a => a.continues
  | _ => false

/-- No assignment to a field comes before such a `continue`. -/
def Stmt.continuesFirst {F V : Type} : Stmt F V → Prop
  | .ite _ _ _ a b => a.continuesFirst ∧ b.continuesFirst
  | .seq a b => a.continuesFirst ∧ b.continuesFirst ∧ (b.continues = true → a.writes = [])
  | .block a => a.continuesFirst
  | _ => True

end Body
end Hila
