import Verif.Model.LinAlg
import Mathlib.Analysis.Real.Sqrt
import Mathlib.LinearAlgebra.Matrix.ConjTranspose
import Mathlib.LinearAlgebra.UnitaryGroup

/-!
# Jacobi rotations: eigenvectors and singular values (libraries/datatypes/matrix_linalg.h)

Elements are in `𝕜`, the real or the complex numbers; rounding is not modelled. Division by zero and the use of variables
without a value are the outcome `none`.
-/

namespace Hila

variable {𝕜 : Type} [RCLike 𝕜] {n : ℕ}

/-- `hila::find_largest_offdiag` (matrix_linalg.h:13-28). The arguments `p` and `q` have no value before the call; they keep
none if there is no pair of rows. -/
noncomputable def largestOff (M : Matrix (Fin n) (Fin n) 𝕜) : Option (ℝ × Fin n × Fin n) :=
  (forLoop n (n - 1) (fun i s => forLoop n n (fun j (s : ℝ × Option (Fin n × Fin n)) =>
    some (if s.1 < RCLike.normSq (M i j) then (RCLike.normSq (M i j), some (i, j)) else s)) (i.val + 1) s) 0 (-1, none)).bind
    fun s => s.2.map fun pq => (Real.sqrt s.1, pq)

/-- `hila::GivensMatrix` (matrix_linalg.h:41-45). -/
structure Givens (𝕜 : Type) where
  s : 𝕜
  c : ℝ

/-- `GivensMatrix::dagger` (matrix_linalg.h:46-51). -/
def Givens.dagger (g : Givens 𝕜) : Givens 𝕜 := ⟨-g.s, g.c⟩

/-- `mult_by_Givens_left` (matrix_linalg.h:53-58, 67-79). The loop treats each column once, columns are independent. -/
def Givens.left (g : Givens 𝕜) (M : Matrix (Fin n) (Fin n) 𝕜) (p q : Fin n) : Matrix (Fin n) (Fin n) 𝕜 :=
  Matrix.of fun i j => if i = q then (g.c : 𝕜) * M q j - star g.s * M p j else if i = p then (g.c : 𝕜) * M p j + g.s * M q j
    else M i j

/-- `mult_by_Givens_right` (matrix_linalg.h:60-65, 81-93). The loop treats each row once, rows are independent. -/
def Givens.right (g : Givens 𝕜) (M : Matrix (Fin n) (Fin n) 𝕜) (p q : Fin n) : Matrix (Fin n) (Fin n) 𝕜 :=
  Matrix.of fun i j => if j = q then M i p * g.s + M i q * (g.c : 𝕜) else if j = p then M i p * (g.c : 𝕜) - star g.s * M i q
    else M i j

/-- `hila::diagonalize_2x2` (matrix_linalg.h:136-152). -/
noncomputable def diag2 (mpp mqq : ℝ) (mpq : 𝕜) : Option (Givens 𝕜) :=
  let m2 := RCLike.normSq mpq
  let a := mqq - mpp
  (div? 2 (|a| + Real.sqrt (a * a + 4 * m2))).bind fun t0 =>
    let t := if a < 0 then -t0 else t0
    (div? 1 (Real.sqrt (m2 * t * t + 1))).map fun c => ⟨mpq * ((t * c : ℝ) : 𝕜), c⟩

/-- The constant `eps` (matrix_linalg.h:212, 357, 482). -/
noncomputable def jacobiEps : ℝ := 2.22e-16

/-! ### Order of the results -/

/-- `hila::sort` (defs.h:129). -/
inductive SortOrder
  | unsorted
  | ascending
  | descending

/-- The comparison of `sort` that makes two neighbours change places (matrix.h:1614, 1619). -/
def SortOrder.wrong : SortOrder → ℝ → ℝ → Prop
  | .unsorted => fun _ _ => False
  | .ascending => fun a b => a > b
  | .descending => fun a b => a < b

/-- The inner loop of `sort` (matrix.h:1614, 1619), at index `j`. -/
noncomputable def sortInner (o : SortOrder) (c : Fin n → ℝ) : ℕ → (Fin n → Fin n) → Fin n → Fin n
  | 0, p => p
  | j + 1, p => if h : j + 1 < n then
      open Classical in
      if o.wrong (c (p ⟨j, Nat.lt_of_succ_lt h⟩)) (c (p ⟨j + 1, h⟩)) then
        sortInner o c j (p ∘ Equiv.swap ⟨j + 1, h⟩ ⟨j, Nat.lt_of_succ_lt h⟩)
      else p
    else p

/-- `sort(permutation, order)` (matrix.h:1598-1625): the permutation. The values are then permuted with it. -/
noncomputable def sortPerm (o : SortOrder) (c : Fin n → ℝ) : Option (Fin n → Fin n) :=
  forLoop n n (fun i p => some (sortInner o c i.val p)) 1 id

/-- `permute_columns` (matrix.h:1528-1533). -/
def permCols (M : Matrix (Fin n) (Fin n) 𝕜) (p : Fin n → Fin n) : Matrix (Fin n) (Fin n) 𝕜 := Matrix.of fun i j => M i (p j)

/-! ### Eigenvalues -/

/-- Variables of `eigen_hermitean`. -/
structure EigState (𝕜 : Type) (n : ℕ) where
  m : Matrix (Fin n) (Fin n) 𝕜
  v : Matrix (Fin n) (Fin n) 𝕜
  ev : Fin n → ℝ

/-- One rotation (matrix_linalg.h:239-260). -/
noncomputable def EigState.rotate (s : EigState 𝕜 n) (g : Givens 𝕜) (p q : Fin n) : EigState 𝕜 n :=
  let m1 := g.right (g.dagger.left s.m p q) p q
  ⟨setE (setE m1 p q 0) q p 0, g.right s.v p q,
    Function.update (Function.update s.ev p (RCLike.re (m1 p p))) q (RCLike.re (m1 q q))⟩

/-- The loop of `eigen_hermitean` (matrix_linalg.h:226-261), with the number of rotations that may follow. Returns also the
number of rotations. -/
noncomputable def eigenLoop : ℕ → EigState 𝕜 n → Option (EigState 𝕜 n × ℕ)
  | 0, s => some (s, 0)
  | k + 1, s => (largestOff s.m).bind fun r =>
    open Classical in
    if r.1 ≤ jacobiEps * Real.sqrt (|s.ev r.2.1| * |s.ev r.2.2|) then some (s, 0)
    else (diag2 (s.ev r.2.1) (s.ev r.2.2) (s.m r.2.1 r.2.2)).bind fun g =>
      (eigenLoop k (s.rotate g r.2.1 r.2.2)).map fun t => (t.1, t.2 + 1)

/-- Result of `eigen_hermitean`. -/
structure EigResult (𝕜 : Type) (n : ℕ) where
  E : Fin n → ℝ
  U : Matrix (Fin n) (Fin n) 𝕜
  rot : ℕ

/-- `eigen_hermitean` (matrix_linalg.h:196-277). -/
noncomputable def eigenHermitean (H : Matrix (Fin n) (Fin n) 𝕜) (o : SortOrder) : Option (EigResult 𝕜 n) :=
  (eigenLoop (100 * n * n) ⟨H, 1, fun i => RCLike.re (H i i)⟩).bind fun t =>
    match o with
    | .unsorted => some ⟨t.1.ev, t.1.v, t.2⟩
    | o => (sortPerm o t.1.ev).map fun p => ⟨t.1.ev ∘ p, permCols t.1.v p, t.2⟩

/-! ### Singular values -/

/-- Result of `svd_pivot` and `svd`. -/
structure SvdResult (𝕜 : Type) (n : ℕ) where
  U : Matrix (Fin n) (Fin n) 𝕜
  S : Fin n → ℝ
  V : Matrix (Fin n) (Fin n) 𝕜
  rot : ℕ

/-- Square of the norm of a column: `M.column(i).squarenorm()` (matrix.h:1231-1240). -/
noncomputable def colSq (M : Matrix (Fin n) (Fin n) 𝕜) (i : Fin n) : ℝ := ∑ k, RCLike.normSq (M k i)

/-- `M.column(i).dot(M.column(j))` (matrix.h:1394-1410). -/
noncomputable def colDot (M : Matrix (Fin n) (Fin n) 𝕜) (i j : Fin n) : 𝕜 := ∑ k, star (M k i) * M k j

/-- Column norms and division by them, then the order (matrix_linalg.h:407-428, 532-553). -/
noncomputable def svdFinish (M V : Matrix (Fin n) (Fin n) 𝕜) (rot : ℕ) (o : SortOrder) : Option (SvdResult 𝕜 n) :=
  (forLoop n n (fun i (s : Matrix (Fin n) (Fin n) 𝕜 × (Fin n → ℝ)) =>
    let nr := Real.sqrt (colSq s.1 i)
    open Classical in
    if nr = 0 then none else some (Matrix.of fun k j => if j = i then s.1 k i / (nr : 𝕜) else s.1 k j, Function.update s.2 i nr))
    0 (M, fun _ => 0)).bind fun s =>
    match o with
    | .unsorted => some ⟨s.1, s.2, V, rot⟩
    | o => (sortPerm o s.2).map fun p => ⟨permCols s.1 p, s.2 ∘ p, permCols V p, rot⟩

/-- Variables of `svd_pivot`. -/
structure SvdState (𝕜 : Type) (n : ℕ) where
  m : Matrix (Fin n) (Fin n) 𝕜
  v : Matrix (Fin n) (Fin n) 𝕜
  b : Matrix (Fin n) (Fin n) 𝕜

/-- Row and column `p` of the Gram matrix, without the element of `q` (matrix_linalg.h:389-395 and 396-402). For `i = p` the
second assignment `B(i, p) = conj(B(p, i))` does not change the real diagonal element. -/
noncomputable def gramUpdate (M B : Matrix (Fin n) (Fin n) 𝕜) (p q : Fin n) : Matrix (Fin n) (Fin n) 𝕜 :=
  Matrix.of fun i j => if j = p ∧ i ≠ q then star (colDot M p i) else if i = p ∧ j ≠ q then colDot M p j else B i j

/-- One rotation of `svd_pivot` (matrix_linalg.h:384-404). -/
noncomputable def SvdState.rotate (s : SvdState 𝕜 n) (g : Givens 𝕜) (p q : Fin n) : SvdState 𝕜 n :=
  let m := g.right s.m p q
  ⟨m, g.right s.v p q, setE (setE (gramUpdate m (gramUpdate m s.b p q) q p) q p 0) p q 0⟩

/-- The loop of `svd_pivot` (matrix_linalg.h:371-405). -/
noncomputable def svdPivotLoop : ℕ → SvdState 𝕜 n → Option (SvdState 𝕜 n × ℕ)
  | 0, s => some (s, 0)
  | k + 1, s => (largestOff s.b).bind fun r =>
    open Classical in
    if r.1 ≤ jacobiEps * Real.sqrt |RCLike.re (s.b r.2.1 r.2.1) * RCLike.re (s.b r.2.2 r.2.2)| then some (s, 0)
    else (diag2 (RCLike.re (s.b r.2.1 r.2.1)) (RCLike.re (s.b r.2.2 r.2.2)) (s.b r.2.1 r.2.2)).bind fun g =>
      (svdPivotLoop k (s.rotate g r.2.1 r.2.2)).map fun t => (t.1, t.2 + 1)

/-- `svd_pivot` (matrix_linalg.h:339-430). -/
noncomputable def svdPivot (A : Matrix (Fin n) (Fin n) 𝕜) (o : SortOrder) : Option (SvdResult 𝕜 n) :=
  (svdPivotLoop (100 * (n * n)) ⟨A, 1, A.conjTranspose * A⟩).bind fun t => svdFinish t.1.m t.1.v t.2 o

/-- Variables of the inner loop of `svd`: `bpp` is the storage of the variable `Bpp`, `colp` the column that was read last,
both without a value at the start. -/
structure SweepState (𝕜 : Type) (n : ℕ) where
  m : Matrix (Fin n) (Fin n) 𝕜
  v : Matrix (Fin n) (Fin n) 𝕜
  rot : ℕ
  cont : Bool
  needPP : Bool
  colp : Option (Fin n → 𝕜)
  bpp : Option ℝ

/-- One pair of columns in `svd` (matrix_linalg.h:501-528). `Bpp` is declared inside of the loop, so it has no value at the
start of each iteration. With `keep` the new variable happens to have the value of the old one, as with a compiler that
gives it the same storage. -/
noncomputable def svdPair (keep : Bool) (p q : Fin n) (s : SweepState 𝕜 n) : Option (SweepState 𝕜 n) :=
  let fresh := if keep then s.bpp else none
  let colp := if s.needPP then some (fun k => s.m k p) else s.colp
  let bpp := if s.needPP then some (colSq s.m p) else fresh
  colp.bind fun cp => bpp.bind fun bp =>
    let bqq := colSq s.m q
    let bpq := ∑ k, star (cp k) * s.m k q
    open Classical in
    if ‖bpq‖ > jacobiEps * Real.sqrt (bp * bqq) then
      (diag2 bp bqq bpq).map fun g => ⟨g.right s.m p q, g.right s.v p q, s.rot + 1, true, true, colp, bpp⟩
    else some ⟨s.m, s.v, s.rot + 1, s.cont, false, colp, bpp⟩

/-- One sweep (matrix_linalg.h:497-529). -/
noncomputable def svdSweep (keep : Bool) (s : SweepState 𝕜 n) : Option (SweepState 𝕜 n) :=
  forLoop n (n - 1) (fun p s => forLoop n n (svdPair keep p) (p.val + 1) { s with needPP := true, colp := none }) 0
    { s with cont := false }

/-- The outer loop of `svd` (matrix_linalg.h:494-530). The number of sweeps is limited in the model; `none` at the limit
(it is not reached, see `svdLoop_run`). -/
noncomputable def svdLoop (keep : Bool) : ℕ → SweepState 𝕜 n → Option (SweepState 𝕜 n)
  | k, s => if s.cont && s.rot < 100 * (n * n) then
      match k with
      | 0 => none
      | k + 1 => (svdSweep keep s).bind (svdLoop keep k)
    else some s

/-- `svd` (matrix_linalg.h:464-555). -/
noncomputable def svd (keep : Bool) (A : Matrix (Fin n) (Fin n) 𝕜) (o : SortOrder) : Option (SvdResult 𝕜 n) :=
  (svdLoop keep (100 * (n * n) + 1) ⟨A, 1, 0, true, true, none, none⟩).bind fun s => svdFinish s.m s.v s.rot o

end Hila
