import Verif.Model.DiagMat
import Verif.Model.MatSpec
import Mathlib.Data.Matrix.Diagonal

/-!
# What a program with diagonal matrices computes
-/

namespace Hila.DiagT
variable {K : Type} {n : ℕ}

/-- All elements of the array are set, to the numbers `D`. -/
def Is1 (d : DiagT K n) (D : Fin n → K) : Prop := ∀ i : Fin n, MatT.at' d i = some (D i)

/-- The program ends and returns a diagonal matrix, all of whose elements are set, that stands for the square matrix `M`. -/
def YieldsD [Zero K] (o : Option (DiagT K n)) (M : Matrix (Fin n) (Fin n) K) : Prop := ∃ r E, o = some r ∧ Is1 r E ∧ M = Matrix.diagonal E

end Hila.DiagT
