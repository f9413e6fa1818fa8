import Mathlib.Analysis.RCLike.Basic
import Mathlib.LinearAlgebra.Matrix.Determinant.Basic
import Mathlib.Data.Matrix.Basis

/-!
# Dense linear algebra (libraries/datatypes/matrix_linalg.h)

Elements are in `𝕜`, the real or the complex numbers; rounding is not modelled. Division by zero, which gives an
infinity or NaN in the code, is the outcome `none`.
-/

namespace Hila

variable {𝕜 : Type} [RCLike 𝕜] {n : ℕ}

/-- `for (int i = lo; i < hi; i++)`. All loops of the file have `hi ≤ n`. -/
def forLoop {S : Type} (n hi : ℕ) (f : Fin n → S → Option S) (lo : ℕ) (s : S) : Option S :=
  if h : lo < hi ∧ lo < n then (f ⟨lo, h.2⟩ s).bind (forLoop n hi f (lo + 1)) else some s
termination_by hi - lo

/-- `for (int i = n - 1; i >= 0; i--)`, with `m` indices left. -/
def forDown {S : Type} (n : ℕ) (f : Fin n → S → Option S) : ℕ → S → Option S
  | 0, s => some s
  | m + 1, s => if h : m < n then (f ⟨m, h⟩ s).bind (forDown n f m) else none

/-- Division. -/
noncomputable def div? (x y : 𝕜) : Option 𝕜 := open Classical in if y = 0 then none else some (x / y)

/-- `a.e(i, j) = v`. -/
def setE (a : Matrix (Fin n) (Fin n) 𝕜) (i j : Fin n) (v : 𝕜) : Matrix (Fin n) (Fin n) 𝕜 :=
  a.updateRow i (Function.update (a i) j v)

/-- Exchange of two rows, written in the code as a loop of `hila::swap`. -/
def swapRows (a : Matrix (Fin n) (Fin n) 𝕜) (p q : Fin n) : Matrix (Fin n) (Fin n) 𝕜 :=
  Matrix.of fun i => a (Equiv.swap p q i)

/-! ### Determinants -/

/-- `hila::Minor` (matrix_linalg.h:690-713), with the two counters of the loops as the index maps that skip `row` and `col`. -/
def minorMat (a : Matrix (Fin (n + 1)) (Fin (n + 1)) 𝕜) (row col : Fin (n + 1)) : Matrix (Fin n) (Fin n) 𝕜 :=
  Matrix.of fun i j => a (row.succAbove i) (col.succAbove j)

/-- `det_laplace` (matrix_linalg.h:729-757). The size 0 is not possible in the code. -/
noncomputable def detLaplace : (n : ℕ) → Matrix (Fin n) (Fin n) 𝕜 → Option 𝕜
  | 0, _ => none
  | 1, a => some (a 0 0)
  | 2, a => some (a 0 0 * a 1 1 - a 1 0 * a 0 1)
  | 3, a => some (a 0 0 * (a 1 1 * a 2 2 - a 2 1 * a 1 2) - a 0 1 * (a 1 0 * a 2 2 - a 1 2 * a 2 0) +
      a 0 2 * (a 1 0 * a 2 1 - a 1 1 * a 2 0))
  | n + 4, a =>
    (forLoop (n + 4) (n + 4) (fun i (s : 𝕜 × 𝕜) =>
      (detLaplace (n + 3) (minorMat a 0 i)).map fun d => (s.1 + s.2 * d * a 0 i, s.2 * (-1))) 0 (0, 1)).map Prod.fst

/-- The scale factors of `det_lu` (matrix_linalg.h:782-792): the largest squared element of a row. -/
noncomputable def rowBig (a : Matrix (Fin n) (Fin n) 𝕜) (i : Fin n) : Option ℝ :=
  forLoop n n (fun j big => some (if RCLike.normSq (a i j) > big then RCLike.normSq (a i j) else big)) 0 0

/-- State of the loop over columns in `det_lu`: matrix, sign and scale factors. -/
structure LuState (𝕜 : Type) (n : ℕ) where
  a : Matrix (Fin n) (Fin n) 𝕜
  d : 𝕜
  vv : Fin n → ℝ

/-- The upper triangle of column `j` (matrix_linalg.h:800-805). -/
def luUpper (j : Fin n) (a : Matrix (Fin n) (Fin n) 𝕜) : Option (Matrix (Fin n) (Fin n) 𝕜) :=
  forLoop n j.val (fun i a => forLoop n i.val (fun k a => some (setE a i j (a i j - a i k * a k j))) 0 a) 0 a

/-- The rest of column `j` and the search for the pivot (matrix_linalg.h:807-820). The pivot `imax` is -1 (`none`) at the
start. -/
noncomputable def luLower (j : Fin n) (vv : Fin n → ℝ) (a : Matrix (Fin n) (Fin n) 𝕜) (imax : Option (Fin n)) :
    Option (Matrix (Fin n) (Fin n) 𝕜 × ℝ × Option (Fin n)) :=
  forLoop n n (fun i (s : Matrix (Fin n) (Fin n) 𝕜 × ℝ × Option (Fin n)) =>
    (forLoop n j.val (fun k (csum : 𝕜) => some (csum - s.1 i k * s.1 k j)) 0 (s.1 i j)).map fun csum =>
      let dum := vv i * ‖csum‖
      if dum ≥ s.2.1 then (setE s.1 i j csum, dum, some i) else (setE s.1 i j csum, s.2.1, s.2.2)) j.val (a, 0, imax)

/-- Division by the pivot (matrix_linalg.h:834-840). -/
noncomputable def luScale (j : Fin n) (a : Matrix (Fin n) (Fin n) 𝕜) : Option (Matrix (Fin n) (Fin n) 𝕜) :=
  if j.val ≠ n - 1 then
    (div? 1 (a j j)).bind fun dum => forLoop n n (fun i a => some (setE a i j (a i j * dum))) (j.val + 1) a
  else some a

/-- The loop over the columns (matrix_linalg.h:797-841) and the product (843-847); `imax` keeps its value from one column
to the next. Row -1 of the matrix is undefined. -/
noncomputable def luColumns (j : ℕ) (s : LuState 𝕜 n) (imax : Option (Fin n)) : Option 𝕜 :=
  if h : j < n then
    (luUpper ⟨j, h⟩ s.a).bind fun a1 => (luLower ⟨j, h⟩ s.vv a1 imax).bind fun r =>
      r.2.2.bind fun im =>
        let s' : LuState 𝕜 n := if im = ⟨j, h⟩ then ⟨r.1, s.d, s.vv⟩
          else ⟨swapRows r.1 im ⟨j, h⟩, -s.d, Function.update s.vv im (s.vv ⟨j, h⟩)⟩
        open Classical in
        if s'.a ⟨j, h⟩ ⟨j, h⟩ = 0 then some 0
        else (luScale ⟨j, h⟩ s'.a).bind fun a' => luColumns (j + 1) { s' with a := a' } (some im)
  else forLoop n n (fun j r => some (r * s.a j j)) 0 s.d
termination_by n - j

/-- Scale factor of one row (matrix_linalg.h:782-795); `none` is the return with 0 at a row of zeros. -/
noncomputable def scaleStep (a : Matrix (Fin n) (Fin n) 𝕜) (i : Fin n) : Option (Fin n → ℝ) → Option (Option (Fin n → ℝ))
  | none => some none
  | some vv => (rowBig a i).map fun big =>
    open Classical in if big = 0 then none else some (Function.update vv i (1 / Real.sqrt big))

/-- `det_lu` (matrix_linalg.h:769-850): the loop over rows stops with 0 at a row of zeros. -/
noncomputable def detLu (a : Matrix (Fin n) (Fin n) 𝕜) : Option 𝕜 :=
  (forLoop n n (scaleStep a) 0 (some fun _ => 0)).bind fun r =>
    match r with
    | none => some 0
    | some vv => luColumns 0 ⟨a, 1, vv⟩ none

/-- `det` (matrix_linalg.h:857-865). -/
noncomputable def detAny (a : Matrix (Fin n) (Fin n) 𝕜) : Option 𝕜 := if n < 5 then detLaplace n a else detLu a

/-! ### LU decomposition -/

/-- `LU_result`: the matrix of L and U and the order of the rows (matrix.h:87-99). -/
structure LuResult (𝕜 : Type) (n : ℕ) where
  lu : Matrix (Fin n) (Fin n) 𝕜
  p : Fin n → Fin n

/-- The search for the pivot of column `i` (matrix_linalg.h:610-620): `imax` is 0 at the start. -/
noncomputable def luPivot (a : Matrix (Fin n) (Fin n) 𝕜) (i : Fin n) : Option (ℝ × Fin n) :=
  forLoop n n (fun k (s : ℝ × Fin n) => some (if s.1 < RCLike.normSq (a k i) then (RCLike.normSq (a k i), k) else s)) i.val
    (0, ⟨0, Nat.lt_of_le_of_lt (Nat.zero_le _) i.isLt⟩)

/-- One column of `LU_decompose` (matrix_linalg.h:609-635). -/
noncomputable def luStep (i : Fin n) (r : LuResult 𝕜 n) : Option (LuResult 𝕜 n) :=
  (luPivot r.lu i).bind fun s =>
    let r' : LuResult 𝕜 n := if s.2 ≠ i then ⟨swapRows r.lu i s.2, r.p ∘ Equiv.swap i s.2⟩ else r
    (forLoop n n (fun j a => (div? (a j i) (a i i)).bind fun v =>
      forLoop n n (fun k a => some (setE a j k (a j k - a j i * a i k))) (i.val + 1) (setE a j i v))
      (i.val + 1) r'.lu).map fun a => ⟨a, r'.p⟩

/-- `LU_decompose` (matrix_linalg.h:594-637). -/
noncomputable def luDecompose (a : Matrix (Fin n) (Fin n) 𝕜) : Option (LuResult 𝕜 n) :=
  forLoop n n luStep 0 ⟨a, id⟩

/-- Forward substitution (matrix_linalg.h:648-653), for a right-hand side in the order of the rows. The old content of
the vector does not matter, it is 0 here. -/
noncomputable def luForward (lu : Matrix (Fin n) (Fin n) 𝕜) (b : Fin n → 𝕜) : Option (Fin n → 𝕜) :=
  forLoop n n (fun i r => forLoop n i.val (fun k r => some (Function.update r i (r i - lu i k * r k))) 0
    (Function.update r i (b i))) 0 fun _ => 0

/-- Back substitution (matrix_linalg.h:655-660). -/
noncomputable def luBackward (lu : Matrix (Fin n) (Fin n) 𝕜) (r : Fin n → 𝕜) : Option (Fin n → 𝕜) :=
  forDown n (fun i r => (forLoop n n (fun k r => some (Function.update r i (r i - lu i k * r k))) (i.val + 1) r).bind
    fun r => (div? (r i) (lu i i)).map fun v => Function.update r i v) n r

/-- `LU_result::solve` (matrix_linalg.h:640-663). -/
noncomputable def LuResult.solve (l : LuResult 𝕜 n) (rhs : Fin n → 𝕜) : Option (Fin n → 𝕜) :=
  (luForward l.lu fun i => rhs (l.p i)).bind (luBackward l.lu)

/-- `LU_result::invert` (matrix_linalg.h:665-686): one column after the other. The columns do not depend on each other, so
the model computes them separately; the result is defined if all are. -/
noncomputable def LuResult.invert (l : LuResult 𝕜 n) : Option (Matrix (Fin n) (Fin n) 𝕜) :=
  let col := fun j : Fin n => (luForward l.lu fun i => if l.p i = j then 1 else 0).bind (luBackward l.lu)
  if ∀ j, (col j).isSome then some (Matrix.of fun i j => (col j).getD (fun _ => 0) i) else none

end Hila
