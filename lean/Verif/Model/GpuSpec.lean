import Verif.Model.GpuReduce
import Mathlib.Algebra.BigOperators.Group.Finset.Basic
import Mathlib.Order.Interval.Finset.Nat

/-!
# What reductions on graphics processors are expected to do

Used in the statements of `Verif.Props.GpuReduce`; nothing here refers to blocks, rounds or copies.
-/

namespace Hila
namespace Gpu

open BigOperators

/-- No thread touches a cell that another thread writes: targets belong to one thread, and cells that
are read as operands are no targets. -/
def RaceFree {W : Type} (prog : ℕ → List (ℕ × Src W)) : Prop :=
  (∀ t t' d x x', (d, x) ∈ prog t → (d, x') ∈ prog t' → t = t') ∧
  ∀ t t' d a x', (d, Src.cell a) ∈ prog t → (a, x') ∉ prog t'

/-- Sum of everything the loop body adds at the sites `b, …, e-1`. -/
def loopSum {W : Type} [AddCommMonoid W] (b e : ℕ) (f : ℕ → List W) : W :=
  ∑ i ∈ Finset.Ico b e, (f i).sum

/-- The values the loop body adds to element `j` at one site. -/
def toBin {W : Type} (j : ℕ) (l : List (ℕ × W)) : List W :=
  (l.filter fun p => p.1 = j).map Prod.snd

/-- Sum of everything the loop body adds to element `j` at the sites `b, …, e-1`. -/
def binSum {W : Type} [AddCommMonoid W] (b e : ℕ) (body : ℕ → List (ℕ × W)) (j : ℕ) : W :=
  ∑ i ∈ Finset.Ico b e, (toBin j (body i)).sum

end Gpu
end Hila
