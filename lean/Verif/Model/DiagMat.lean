import Verif.Model.MatClass
import Mathlib.Analysis.SpecialFunctions.Pow.Real
import Mathlib.Analysis.SpecialFunctions.Trigonometric.Arctan
import Mathlib.Analysis.SpecialFunctions.Trigonometric.Inverse
import Mathlib.Analysis.SpecialFunctions.Arsinh

/-!
# Diagonal matrices (libraries/datatypes/diagonal_matrix.h)

A diagonal matrix is the array `T c[n]` of its diagonal, which the class itself casts to vectors (`asVector`, diagonal_matrix.h:430-436).
Elements never assigned and elements out of bounds are `none`. A real function outside of its domain (a result that is not a number) is `none` too.
-/

namespace Hila

/-- `DiagonalMatrix<n, T>` (diagonal_matrix.h:25-38). -/
abbrev DiagT (K : Type) (n : ℕ) := MatT K n 1

namespace DiagT
variable {K : Type} {n m : ℕ}

/-- `DiagonalMatrix res; for (i) res.e(i) = f(i)`. -/
def make (n : ℕ) (f : ℕ → Option K) : Option (DiagT K n) := runLoop n (fun i r => (f i).bind fun v => MatT.put r i v) MatT.unset

/-- `for (i) c[i] = f(i, c[i])`, where `f` may look at the diagonal matrix as it is at that step. -/
def update (f : DiagT K n → ℕ → K → Option K) (d : DiagT K n) : Option (DiagT K n) :=
  runLoop n (fun i r => (MatT.at' r i).bind fun x => (f r i x).bind fun v => MatT.put r i v) d

/-- The constructor, the assignment and `fill` with a scalar (diagonal_matrix.h:38-43, 150-157, 273-279); the assignment takes the scalar by reference,
which makes no difference as all elements become that scalar. -/
def const (n : ℕ) (s : K) : Option (DiagT K n) := make n fun _ => some s

/-- The constructor and the assignment with a list (diagonal_matrix.h:46-57, 160-171). -/
def ofList (l : List K) : Option (DiagT K n) := if l.length = n then make n fun i => l[i]? else none

/-- `Matrix::diagonal` (matrix.h:463-470). -/
def ofMatrix (a : MatT K n n) : Option (DiagT K n) := make n fun i => a.e i i

section
variable [Field K]

/-- `e(i, j)` (diagonal_matrix.h:90-95). -/
def e (d : DiagT K n) (i j : ℕ) : Option K := if i = j then MatT.at' d i else some 0

/-- `row` (diagonal_matrix.h:102-106). -/
def row (d : DiagT K n) (i : ℕ) : Option (MatT K 1 n) := (MatT.setZero MatT.unset).bind fun r => (MatT.at' d i).bind fun x => MatT.put r i x

/-- `column` (diagonal_matrix.h:112-116). -/
def column (d : DiagT K n) (i : ℕ) : Option (MatT K n 1) := (MatT.setZero MatT.unset).bind fun r => (MatT.at' d i).bind fun x => MatT.put r i x

/-- `toMatrix` and the assignment to a matrix (diagonal_matrix.h:411-422, matrix.h:705-717). -/
def toMatrix (d : DiagT K n) (u : MatT K n n) : Option (MatT K n n) :=
  loop2 n n (fun i j r => if i = j then (MatT.at' d i).bind fun x => r.setE i j x else r.setE i j 0) u

/-- Unary minus (diagonal_matrix.h:123-129). -/
def neg (d : DiagT K n) : Option (DiagT K n) := make n fun i => (MatT.at' d i).map fun x => -x

/-! ### Compound assignments -/

/-- `d += e` (diagonal_matrix.h:177-182). -/
def addAssign (d e : DiagT K n) : Option (DiagT K n) := d.update fun _ i x => (MatT.at' e i).map fun y => x + y

/-- `d -= e` (diagonal_matrix.h:196-201). -/
def subAssign (d e : DiagT K n) : Option (DiagT K n) := d.update fun _ i x => (MatT.at' e i).map fun y => x - y

/-- `d *= e` (diagonal_matrix.h:215-221). -/
def mulAssign (d e : DiagT K n) : Option (DiagT K n) := d.update fun _ i x => (MatT.at' e i).map fun y => x * y

/-- `d /= e` (diagonal_matrix.h:235-241). -/
noncomputable def divAssign (d e : DiagT K n) : Option (DiagT K n) := d.update fun _ i x => (MatT.at' e i).bind fun y => MatT.quot x y

/-- `d += d`, `d -= d`, `d *= d`, `d /= d`: the argument is the matrix that is assigned. -/
noncomputable def selfAssign (op : K → K → Option K) (d : DiagT K n) : Option (DiagT K n) := d.update fun r i x => (MatT.at' r i).bind fun y => op x y

/-- `d += s` (diagonal_matrix.h:185-190), with a number outside of the matrix. -/
def addAssignS (d : DiagT K n) (s : K) : Option (DiagT K n) := d.update fun _ _ x => some (x + s)

/-- `d -= s` (diagonal_matrix.h:204-209). -/
def subAssignS (d : DiagT K n) (s : K) : Option (DiagT K n) := d.update fun _ _ x => some (x - s)

/-- `d *= s` (diagonal_matrix.h:224-230). -/
def mulAssignS (d : DiagT K n) (s : K) : Option (DiagT K n) := d.update fun _ _ x => some (x * s)

/-- `d /= s` (diagonal_matrix.h:244-250). -/
noncomputable def divAssignS (d : DiagT K n) (s : K) : Option (DiagT K n) := d.update fun _ _ x => MatT.quot x s

/-- `d *= d.e(k)` (diagonal_matrix.h:224): the argument is a reference into the matrix. -/
def mulAssignRef (d : DiagT K n) (k : ℕ) : Option (DiagT K n) := d.update fun r _ x => (MatT.at' r k).map fun y => x * y

/-- `d /= d.e(k)` (diagonal_matrix.h:244). -/
noncomputable def divAssignRef (d : DiagT K n) (k : ℕ) : Option (DiagT K n) := d.update fun r _ x => (MatT.at' r k).bind fun y => MatT.quot x y

/-! ### Operators -/

/-- Diagonal matrix and scalar (diagonal_matrix.h:604-682). -/
def addS (d : DiagT K n) (s : K) : Option (DiagT K n) := make n fun i => (MatT.at' d i).map fun x => x + s
def subS (d : DiagT K n) (s : K) : Option (DiagT K n) := make n fun i => (MatT.at' d i).map fun x => x - s
def sSub (s : K) (d : DiagT K n) : Option (DiagT K n) := make n fun i => (MatT.at' d i).map fun x => s - x
def mulS (d : DiagT K n) (s : K) : Option (DiagT K n) := make n fun i => (MatT.at' d i).map fun x => x * s
noncomputable def divS (d : DiagT K n) (s : K) : Option (DiagT K n) := make n fun i => (MatT.at' d i).bind fun x => MatT.quot x s
noncomputable def sDiv (s : K) (d : DiagT K n) : Option (DiagT K n) := make n fun i => (MatT.at' d i).bind fun x => MatT.quot s x

/-- Diagonal matrix and diagonal matrix (diagonal_matrix.h:686-716). -/
def add (d e : DiagT K n) : Option (DiagT K n) := make n fun i => (MatT.at' d i).bind fun x => (MatT.at' e i).map fun y => x + y
def sub (d e : DiagT K n) : Option (DiagT K n) := make n fun i => (MatT.at' d i).bind fun x => (MatT.at' e i).map fun y => x - y
def mul (d e : DiagT K n) : Option (DiagT K n) := make n fun i => (MatT.at' d i).bind fun x => (MatT.at' e i).map fun y => x * y
noncomputable def div (d e : DiagT K n) : Option (DiagT K n) := make n fun i => (MatT.at' d i).bind fun x => (MatT.at' e i).bind fun y => MatT.quot x y

/-- `for (i) r.e(i, i) op= a.e(i)`. -/
def onDiagonal (op : K → K → K) (d : DiagT K n) (r : MatT K n n) : Option (MatT K n n) :=
  runLoop n (fun i r => (MatT.at' d i).bind fun y => r.upd (i * n + i) fun x => some (op x y)) r

/-- Diagonal matrix plus matrix and matrix plus diagonal matrix (diagonal_matrix.h:720-739), `M += D` (matrix.h:963-969). -/
def addM (d : DiagT K n) (b : MatT K n n) : Option (MatT K n n) := onDiagonal (fun x y => x + y) d b

/-- Diagonal matrix minus matrix (diagonal_matrix.h:741-755). -/
def subM (d : DiagT K n) (b : MatT K n n) : Option (MatT K n n) := b.neg.bind (onDiagonal (fun x y => x + y) d)

/-- Matrix minus diagonal matrix (diagonal_matrix.h:757-770), `M -= D` (matrix.h:980-986). -/
def mSub (b : MatT K n n) (d : DiagT K n) : Option (MatT K n n) := onDiagonal (fun x y => x - y) d b

/-- Diagonal matrix times matrix (diagonal_matrix.h:775-789). The type of the result is `mat_x_mat_type<Matrix<n, n>, Mtype>` (matrix.h:2071-2082),
a matrix with `n` rows and `n` columns whatever the number `m` of columns of the factor. -/
def mulM (d : DiagT K n) (b : MatT K n m) : Option (MatT K n n) :=
  loop2 n m (fun i j r => (MatT.at' d i).bind fun x => (b.e i j).bind fun y => r.setE i j (x * y)) MatT.unset

/-- Matrix times diagonal matrix (diagonal_matrix.h:791-805), again with a square matrix as result. -/
def mMul (b : MatT K m n) (d : DiagT K n) : Option (MatT K n n) :=
  loop2 m n (fun i j r => (b.e i j).bind fun x => (MatT.at' d j).bind fun y => r.setE i j (x * y)) MatT.unset

/-- Matrix divided by diagonal matrix (diagonal_matrix.h:808-822). -/
noncomputable def mDiv (b : MatT K m n) (d : DiagT K n) : Option (MatT K n n) :=
  loop2 m n (fun i j r => (b.e i j).bind fun x => (MatT.at' d j).bind fun y => (MatT.quot x y).bind fun v => r.setE i j v) MatT.unset

/-- `M *= D` (matrix.h:999-1006). -/
def mMulAssign (b : MatT K m n) (d : DiagT K n) : Option (MatT K m n) :=
  loop2 m n (fun i j r => (MatT.at' d j).bind fun y => r.upd (i * n + j) fun x => some (x * y)) b

/-- `M /= D` (matrix.h:1020-1027). -/
noncomputable def mDivAssign (b : MatT K m n) (d : DiagT K n) : Option (MatT K m n) :=
  loop2 m n (fun i j r => (MatT.at' d j).bind fun y => r.upd (i * n + j) fun x => MatT.quot x y) b

/-- `==` of diagonal matrices (diagonal_matrix.h:468-478); sizes that differ give `false`. -/
noncomputable def eqD (d : DiagT K n) (e : DiagT K m) : Option Bool := open Classical in
  if m ≠ n then some false
  else runLoop n (fun i t => if t then (MatT.at' d i).bind fun x => (MatT.at' e i).map fun y => decide (x = y) else some false) true

/-- `==` of a diagonal matrix and a matrix (diagonal_matrix.h:484-508). -/
noncomputable def eqM {m1 m2 : ℕ} (d : DiagT K n) (b : MatT K m1 m2) : Option Bool := open Classical in
  if m1 ≠ n ∨ m2 ≠ n then some false
  else loop2 n n (fun i j t =>
    if t then (if i = j then (MatT.at' d i).bind fun x => (b.e i i).map fun y => decide (x = y) else (b.e i j).map fun y => decide (y = (0 : K)))
    else some false) true

/-- `trace` (diagonal_matrix.h:355-360). -/
def trace (d : DiagT K n) : Option K := (MatT.at' d 0).bind (runLoop (n - 1) fun i t => (MatT.at' d (i + 1)).map fun x => t + x)

/-- `det` (diagonal_matrix.h:362-367). -/
def det (d : DiagT K n) : Option K := (MatT.at' d 0).bind (runLoop (n - 1) fun i t => (MatT.at' d (i + 1)).map fun x => t * x)

/-- `dagger`, `adjoint` and `conj` (diagonal_matrix.h:291-307). -/
def dagger [StarRing K] (d : DiagT K n) : Option (DiagT K n) := make n fun i => (MatT.at' d i).map star

/-- The functions of diagonal matrices (diagonal_matrix.h:828-959): the argument is a copy. -/
def apply (f : K → Option K) (d : DiagT K n) : Option (DiagT K n) := d.update fun _ _ x => f x

end

/-- `squarenorm` (diagonal_matrix.h:369-374). -/
noncomputable def squarenorm [RCLike K] (d : DiagT K n) : Option ℝ := runLoop n (fun i t => (MatT.at' d i).map fun x => t + RCLike.normSq x) 0

/-- `abs`, `real`, `imag` (diagonal_matrix.h:315-330). -/
noncomputable def abs [RCLike K] (d : DiagT K n) : Option (DiagT ℝ n) := make n fun i => (MatT.at' d i).map fun x => ‖x‖
noncomputable def real [RCLike K] (d : DiagT K n) : Option (DiagT ℝ n) := make n fun i => (MatT.at' d i).map fun x => RCLike.re x
noncomputable def imag [RCLike K] (d : DiagT K n) : Option (DiagT ℝ n) := make n fun i => (MatT.at' d i).map fun x => RCLike.im x

/-- `max` and `min` (diagonal_matrix.h:337-353). -/
noncomputable def max (d : DiagT ℝ n) : Option ℝ :=
  (MatT.at' d 0).bind (runLoop (n - 1) fun i t => (MatT.at' d (i + 1)).map fun x => if t < x then x else t)
noncomputable def min (d : DiagT ℝ n) : Option ℝ :=
  (MatT.at' d 0).bind (runLoop (n - 1) fun i t => (MatT.at' d (i + 1)).map fun x => if t > x then x else t)

/-! ### Functions of real elements (`cmath`) -/

/-- `exp` of real or complex elements. -/
noncomputable def exp [RCLike K] (d : DiagT K n) : Option (DiagT K n) := d.apply fun x => some (NormedSpace.exp x)

noncomputable def sqrt (d : DiagT ℝ n) : Option (DiagT ℝ n) := d.apply fun x => if x < 0 then none else some (Real.sqrt x)
/-- `cbrt`: the real third root of any sign. -/
noncomputable def cbrt (d : DiagT ℝ n) : Option (DiagT ℝ n) := d.apply fun x => some (SignType.sign x * |x| ^ (1 / 3 : ℝ))
noncomputable def log (d : DiagT ℝ n) : Option (DiagT ℝ n) := d.apply fun x => if x ≤ 0 then none else some (Real.log x)
noncomputable def sin (d : DiagT ℝ n) : Option (DiagT ℝ n) := d.apply fun x => some (Real.sin x)
noncomputable def cos (d : DiagT ℝ n) : Option (DiagT ℝ n) := d.apply fun x => some (Real.cos x)
noncomputable def sinh (d : DiagT ℝ n) : Option (DiagT ℝ n) := d.apply fun x => some (Real.sinh x)
noncomputable def cosh (d : DiagT ℝ n) : Option (DiagT ℝ n) := d.apply fun x => some (Real.cosh x)
noncomputable def tanh (d : DiagT ℝ n) : Option (DiagT ℝ n) := d.apply fun x => some (Real.tanh x)
noncomputable def asin (d : DiagT ℝ n) : Option (DiagT ℝ n) := d.apply fun x => if x < -1 ∨ 1 < x then none else some (Real.arcsin x)
noncomputable def acos (d : DiagT ℝ n) : Option (DiagT ℝ n) := d.apply fun x => if x < -1 ∨ 1 < x then none else some (Real.arccos x)
noncomputable def asinh (d : DiagT ℝ n) : Option (DiagT ℝ n) := d.apply fun x => some (Real.arsinh x)

/-- `pow` with an integer as power (diagonal_matrix.h:943-949). -/
noncomputable def powZ (d : DiagT ℝ n) (p : ℤ) : Option (DiagT ℝ n) := d.apply fun x => if x = 0 ∧ p < 0 then none else some (x ^ p)

end DiagT
end Hila
