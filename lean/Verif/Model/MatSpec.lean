import Verif.Model.MatClass
import Mathlib.Data.Matrix.Basic

/-!
# What a program with matrices computes

The elements of the array are compared with a matrix of Mathlib.
-/

namespace Hila.MatT
variable {K : Type} {n m : ℕ}

/-- All elements of the array are set, to the elements of `A`. -/
def Is (a : MatT K n m) (A : Matrix (Fin n) (Fin m) K) : Prop := ∀ (i : Fin n) (j : Fin m), a.e i j = some (A i j)

/-- The program ends and returns `A`, with all elements set. -/
def Yields (o : Option (MatT K n m)) (A : Matrix (Fin n) (Fin m) K) : Prop := ∃ r, o = some r ∧ r.Is A

/-- The unit matrix with the rows and columns `p`, `q` replaced by `M`. -/
def embed2 [Zero K] [One K] (n p q : ℕ) (M : Fin 2 → Fin 2 → K) : Matrix (Fin n) (Fin n) K := fun i j =>
  if i = p then (if j = p then M 0 0 else if j = q then M 0 1 else 0)
  else if i = q then (if j = p then M 1 0 else if j = q then M 1 1 else 0)
  else if i = j then 1 else 0

end Hila.MatT
