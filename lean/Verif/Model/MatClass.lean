import Mathlib.Algebra.Star.Basic
import Mathlib.Algebra.Field.Defs
import Mathlib.Analysis.RCLike.Basic

/-!
# The classes of matrices and vectors (libraries/datatypes/matrix.h)

A matrix is the array `T c[n*m]` of the class, row after row. An element that was never assigned is `none`, and so is an element outside of the array:
a program that reads one has no result. Elements are from a field (floating point numbers without rounding, `Complex`).
Vectors are matrices with one column, row vectors have one row.
-/

namespace Hila

/-- `for (int i = 0; i < n; i++)`. -/
def runLoop {S : Type} : ℕ → (ℕ → S → Option S) → S → Option S
  | 0, _, s => some s
  | n + 1, f, s => (runLoop n f s).bind (f n)

/-- Two nested loops. -/
def loop2 {S : Type} (n m : ℕ) (body : ℕ → ℕ → S → Option S) (s : S) : Option S := runLoop n (fun i => runLoop m (body i)) s

/-- `Matrix_t<n, m, T, Mtype>` (matrix.h:126-172): the array `c`. -/
structure MatT (K : Type) (n m : ℕ) where
  c : ℕ → Option K

namespace MatT
variable {K : Type} {n m p : ℕ}

/-- A matrix from the default constructor (matrix.h:172). -/
def unset : MatT K n m := ⟨fun _ => none⟩

/-- `c[k]`. -/
def at' (a : MatT K n m) (k : ℕ) : Option K := if k < n * m then a.c k else none

/-- `c[k] = v`. -/
def put (a : MatT K n m) (k : ℕ) (v : K) : Option (MatT K n m) :=
  if k < n * m then some ⟨fun x => if x = k then some v else a.c x⟩ else none

/-- `e(i, j)` (matrix.h:303-306). -/
def e (a : MatT K n m) (i j : ℕ) : Option K := a.at' (i * m + j)

/-- `e(i, j) = v` (matrix.h:309-312). -/
def setE (a : MatT K n m) (i j : ℕ) (v : K) : Option (MatT K n m) := a.put (i * m + j) v

/-- `c[k] op= y`. -/
def upd (a : MatT K n m) (k : ℕ) (f : K → Option K) : Option (MatT K n m) := (a.at' k).bind fun x => (f x).bind (a.put k)

/-- `res.c[i] = f(c[i])` for all elements. -/
def mapC {L : Type} (f : K → Option L) (a : MatT K n m) : Option (MatT L n m) :=
  runLoop (n * m) (fun i r => (a.at' i).bind fun x => (f x).bind (r.put i)) unset

/-- `c[i] op= v` for all elements. -/
def updC (f : K → Option K) (a : MatT K n m) : Option (MatT K n m) := runLoop (n * m) (fun i a => a.upd i f) a

/-! ### Elements -/

/-- `row` (matrix.h:379-384). -/
def row (a : MatT K n m) (r : ℕ) : Option (MatT K 1 m) := runLoop m (fun i v => (a.e r i).bind (v.put i)) unset

/-- `set_row` (matrix.h:400-403). -/
def setRow (a : MatT K n m) (r : ℕ) (v : MatT K 1 m) : Option (MatT K n m) := runLoop m (fun i a => (v.at' i).bind (a.setE r i)) a

/-- `column` (matrix.h:415-420). -/
def column (a : MatT K n m) (c : ℕ) : Option (MatT K n 1) := runLoop n (fun i v => (a.e i c).bind (v.put i)) unset

/-- `set_column` (matrix.h:448-451). -/
def setColumn (a : MatT K n m) (c : ℕ) (v : MatT K n 1) : Option (MatT K n m) := runLoop n (fun i a => (v.at' i).bind (a.setE i c)) a

/-- `set_diagonal` (matrix.h:487-491). -/
def setDiagonal (a : MatT K n n) (v : MatT K n 1) : Option (MatT K n n) := runLoop n (fun i a => (v.at' i).bind (a.setE i i)) a

/-- The constructor with a list and the assignment of a list (matrix.h:209-216, 732-739); `none` if the assertion fails. -/
def ofList (l : List K) : Option (MatT K n m) :=
  if l.length = n * m then runLoop (n * m) (fun i r => (l[i]?).bind (r.put i)) unset else none

/-- `fill` (matrix.h:1046-1050). -/
def fill (a : MatT K n m) (v : K) : Option (MatT K n m) := runLoop (n * m) (fun i r => r.put i v) a

/-- `permute_columns` (matrix.h:1529-1534). -/
def permuteColumns (a : MatT K n m) (perm : ℕ → ℕ) : Option (MatT K n m) :=
  runLoop m (fun i r => (a.column (perm i)).bind (r.setColumn i)) unset

/-- `permute_rows` (matrix.h:1543-1548). -/
def permuteRows (a : MatT K n m) (perm : ℕ → ℕ) : Option (MatT K n m) :=
  runLoop n (fun i r => (a.row (perm i)).bind (r.setRow i)) unset

/-- `permute` of a vector (matrix.h:1559-1570). -/
def permute (a : MatT K n 1) (perm : ℕ → ℕ) : Option (MatT K n 1) := runLoop n (fun i r => (a.at' (perm i)).bind (r.put i)) unset

/-- `transpose` (matrix.h:1063-1070). -/
def transpose (a : MatT K n m) : Option (MatT K m n) := loop2 n m (fun i j r => (a.e i j).bind (r.setE j i)) unset

/-- `transpose` of a vector (matrix.h:1080-1082): the array read as a row vector. -/
def transposeV (a : MatT K n 1) : MatT K 1 n := ⟨a.c⟩

/-- `transpose` of a row vector (matrix.h:1092-1094). -/
def transposeR (a : MatT K 1 m) : MatT K m 1 := ⟨a.c⟩

/-- `==` (matrix.h:594-605): the first difference ends the loops. -/
noncomputable def eqM (a b : MatT K n m) : Option Bool := open Classical in
  loop2 n m (fun i j t => if t then (a.e i j).bind fun x => (b.e i j).map fun y => decide (x = y) else some false) true

variable [Field K]

/-- Division of elements. -/
noncomputable def quot (x y : K) : Option K := open Classical in if y = 0 then none else some (x / y)

/-- The constructor and the assignment with a scalar (matrix.h:180-188, 682-692). -/
def setScalar (a : MatT K n n) (v : K) : Option (MatT K n n) := loop2 n n (fun i j r => r.setE i j (if i = j then v else 0)) a

/-- The constructor and the assignment with 0 (matrix.h:200-204, 658-663). -/
def setZero (a : MatT K n m) : Option (MatT K n m) := runLoop (n * m) (fun i r => r.put i 0) a

/-- Unary minus (matrix.h:555-561). -/
def neg (a : MatT K n m) : Option (MatT K n m) := a.mapC fun x => some (-x)

/-! ### Compound assignments -/

/-- `a += b` (matrix.h:764-769). -/
def addAssign (a b : MatT K n m) : Option (MatT K n m) := runLoop (n * m) (fun i a => (b.at' i).bind fun y => a.upd i fun x => some (x + y)) a

/-- `a += a`: the argument is a reference to the matrix that is assigned. -/
def addAssignSelf (a : MatT K n m) : Option (MatT K n m) := runLoop (n * m) (fun i a => (a.at' i).bind fun y => a.upd i fun x => some (x + y)) a

/-- `a -= b` (matrix.h:788-793). -/
def subAssign (a b : MatT K n m) : Option (MatT K n m) := runLoop (n * m) (fun i a => (b.at' i).bind fun y => a.upd i fun x => some (x - y)) a

/-- `a -= a`. -/
def subAssignSelf (a : MatT K n m) : Option (MatT K n m) := runLoop (n * m) (fun i a => (a.at' i).bind fun y => a.upd i fun x => some (x - y)) a

/-- `a += s` (matrix.h:811-821), with a number outside of the matrix. -/
def addAssignS (a : MatT K n n) (s : K) : Option (MatT K n n) := runLoop n (fun i a => a.upd (i * n + i) fun x => some (x + s)) a

/-- `a += a.e(p, q)` (matrix.h:813): the argument is a constant reference, read again at each step. -/
def addAssignRef (a : MatT K n n) (p q : ℕ) : Option (MatT K n n) :=
  runLoop n (fun i a => (a.e p q).bind fun s => a.upd (i * n + i) fun x => some (x + s)) a

/-- `a -= s` (matrix.h:839-846): the argument is a copy. -/
def subAssignS (a : MatT K n n) (s : K) : Option (MatT K n n) := runLoop n (fun i a => a.upd (i * n + i) fun x => some (x - s)) a

/-- `a *= s` (matrix.h:921-926). -/
def mulAssignS (a : MatT K n m) (s : K) : Option (MatT K n m) := a.updC fun x => some (x * s)

/-- `a /= s` (matrix.h:947-952). -/
noncomputable def divAssignS (a : MatT K n m) (s : K) : Option (MatT K n m) := a.updC fun x => quot x s

/-! ### Operators -/

/-- `a + b` with another type as result (matrix.h:2304-2316). -/
def add (a b : MatT K n m) : Option (MatT K n m) := loop2 n m (fun i j r => (a.e i j).bind fun x => (b.e i j).bind fun y => r.setE i j (x + y)) unset

/-- `a + b` with the type of `a` as result (matrix.h:2334-2345): `a` is a copy. -/
def addCopy (a b : MatT K n m) : Option (MatT K n m) := loop2 n m (fun i j r => (b.e i j).bind fun y => r.upd (i * m + j) fun x => some (x + y)) a

/-- `a - b` (matrix.h:2371-2383). -/
def sub (a b : MatT K n m) : Option (MatT K n m) := loop2 n m (fun i j r => (a.e i j).bind fun x => (b.e i j).bind fun y => r.setE i j (x - y)) unset

/-- Matrix plus scalar, scalar plus matrix (matrix.h:2409-2451). -/
def addS (a : MatT K n n) (s : K) : Option (MatT K n n) :=
  loop2 n n (fun i j r => (a.e i j).bind fun x => (r.setE i j x).bind fun r => if i = j then r.upd (i * n + j) fun x => some (x + s) else some r) unset

/-- Matrix minus scalar (matrix.h:2478-2491). -/
def subS (a : MatT K n n) (s : K) : Option (MatT K n n) :=
  loop2 n n (fun i j r => (a.e i j).bind fun x => (r.setE i j x).bind fun r => if i = j then r.upd (i * n + j) fun x => some (x - s) else some r) unset

/-- Scalar minus matrix (matrix.h:2516-2529). -/
def sSub (s : K) (a : MatT K n n) : Option (MatT K n n) :=
  loop2 n n (fun i j r => (a.e i j).bind fun x => (r.setE i j (-x)).bind fun r => if i = j then r.upd (i * n + j) fun x => some (x + s) else some r) unset

/-- Matrix times scalar and scalar times matrix (matrix.h:2696-2727). -/
def mulS (a : MatT K n m) (s : K) : Option (MatT K n m) := a.mapC fun x => some (x * s)

/-- Matrix divided by scalar (matrix.h:2755-2761). -/
noncomputable def divS (a : MatT K n m) (s : K) : Option (MatT K n m) := a.mapC fun x => quot x s

/-- `r = f(0); for (k = 1; k < p; k++) r += f(k);` with `r` the element `k0` of a matrix. -/
def sumInto (p : ℕ) (f : ℕ → Option K) (k0 : ℕ) (r : MatT K n m) : Option (MatT K n m) :=
  ((f 0).bind (r.put k0)).bind (runLoop (p - 1) fun k r => (f (k + 1)).bind fun y => r.upd k0 fun x => some (x + y))

/-- The product of two elements. -/
def mulE (x y : Option K) : Option K := x.bind fun x => y.map fun y => x * y

/-- The product of square matrices of one type (matrix.h:2544-2558). -/
def mulSq (a b : MatT K n n) : Option (MatT K n n) := loop2 n n (fun i j r => sumInto n (fun k => mulE (a.e i k) (b.e k j)) (i * n + j) r) unset

/-- The product of matrices (matrix.h:2599-2633); vectors are read with one index. -/
def mul (a : MatT K n p) (b : MatT K p m) : Option (MatT K n m) :=
  if n > 1 ∧ m > 1 then loop2 n m (fun i j r => sumInto p (fun k => mulE (a.e i k) (b.e k j)) (i * m + j) r) unset
  else if m = 1 then runLoop n (fun i r => sumInto p (fun k => mulE (a.e i k) (b.at' k)) i r) unset
  else if n = 1 then runLoop m (fun j r => sumInto p (fun k => mulE (a.at' k) (b.e k j)) j r) unset
  else some unset

/-- `a *= b` (matrix.h:869-874): the product is assigned from a temporary object. -/
def mulAssign (a b : MatT K n n) : Option (MatT K n n) :=
  (mulSq a b).bind fun t => runLoop (n * n) (fun i a => (t.at' i).bind (a.put i)) a

/-- Row vector times vector (matrix.h:2661-2671). -/
def rowCol (a : MatT K 1 n) (b : MatT K n 1) : Option K :=
  (mulE (a.at' 0) (b.at' 0)).bind (runLoop (n - 1) fun i res => (mulE (a.at' (i + 1)) (b.at' (i + 1))).map fun y => res + y)

/-- `mult(a, b, res)` (matrix.h:2797-2813), with `res` another object. -/
def mult (a : MatT K n p) (b : MatT K p m) (res : MatT K n m) : Option (MatT K n m) :=
  loop2 n m (fun i j r => sumInto p (fun k => mulE (a.e i k) (b.e k j)) (i * m + j) r) res

/-- `mult(a, b, a)`: the result overwrites the first factor while it is still read. -/
def multInPlace (a b : MatT K n n) : Option (MatT K n n) :=
  loop2 n n (fun i j r => ((mulE (r.e i 0) (b.e 0 j)).bind (r.setE i j)).bind
    (runLoop (n - 1) fun k r => (mulE (r.e i (k + 1)) (b.e (k + 1) j)).bind fun y => r.upd (i * n + j) fun x => some (x + y))) a

/-- `mult(a, s, res)` (matrix.h:2857-2894). -/
def multS (a : MatT K n m) (s : K) (res : MatT K n m) : Option (MatT K n m) := loop2 n m (fun i j r => (a.e i j).bind fun x => r.setE i j (x * s)) res

/-- `mult_add(a, b, res)` (matrix.h:2907-2922). -/
def multAdd (a : MatT K n p) (b : MatT K p m) (res : MatT K n m) : Option (MatT K n m) :=
  loop2 n m (fun i j => runLoop p fun k r => (mulE (a.e i k) (b.e k j)).bind fun y => r.upd (i * m + j) fun x => some (x + y)) res

/-- `mult_sub(a, b, res)` (matrix.h:2988-3003). -/
def multSub (a : MatT K n p) (b : MatT K p m) (res : MatT K n m) : Option (MatT K n m) :=
  loop2 n m (fun i j => runLoop p fun k r => (mulE (a.e i k) (b.e k j)).bind fun y => r.upd (i * m + j) fun x => some (x - y)) res

/-- `mult_add(a, s, res)` (matrix.h:2937-2974). -/
def multAddS (a : MatT K n m) (s : K) (res : MatT K n m) : Option (MatT K n m) :=
  loop2 n m (fun i j r => (a.e i j).bind fun y => r.upd (i * m + j) fun x => some (x + y * s)) res

/-- `mult_sub(a, s, res)` (matrix.h:3018-3055). -/
def multSubS (a : MatT K n m) (s : K) (res : MatT K n m) : Option (MatT K n m) :=
  loop2 n m (fun i j r => (a.e i j).bind fun y => r.upd (i * m + j) fun x => some (x - y * s)) res

/-- `trace` (matrix.h:1195-1202). -/
def trace (a : MatT K n n) : Option K := runLoop n (fun i t => (a.e i i).map fun x => t + x) 0

/-- `mul_trace` (matrix.h:1216-1226, 2779-2784). -/
def mulTrace (a : MatT K n m) (b : MatT K m n) : Option K := loop2 n m (fun i j t => (mulE (a.e i j) (b.e j i)).map fun x => t + x) 0

/-- `sum` (matrix.h:1358-1362). -/
def sum (a : MatT K n m) : Option K := runLoop (n * m) (fun i t => (a.at' i).map fun x => t + x) 0

/-- `pow` (matrix.h:3247-3270): the power is converted to 32 bits; `f` bounds the number of passes of the loop. -/
def powLoop : ℕ → ℕ → MatT K n n → MatT K n n → Option (MatT K n n)
  | 0, _, _, _ => none
  | f + 1, p, p2, res =>
    if p = 0 then some res
    else (p2.mulAssign p2).bind fun p2 => (if p % 2 ≠ 0 then res.mulAssign p2 else some res).bind fun res => powLoop f (p / 2) p2 res

def pow (a : MatT K n n) (p : ℤ) : Option (MatT K n n) :=
  let q := (p % 2 ^ 32).toNat
  (if q % 2 ≠ 0 then some a else unset.setScalar 1).bind fun res => powLoop 33 (q / 2) a res

/-- `mult_by_2x2_left` (matrix.h:1676-1690). -/
def mult2Left (a : MatT K n m) (p q : ℕ) (M : Fin 2 → Fin 2 → K) : Option (MatT K n m) :=
  runLoop m (fun i a => (a.e p i).bind fun x => (a.e q i).bind fun y =>
    (a.setE p i (M 0 0 * x + M 0 1 * y)).bind fun a => a.setE q i (M 1 0 * x + M 1 1 * y)) a

/-- `mult_by_2x2_right` (matrix.h:1705-1719). -/
def mult2Right (a : MatT K n m) (p q : ℕ) (M : Fin 2 → Fin 2 → K) : Option (MatT K n m) :=
  runLoop n (fun i a => (a.e i p).bind fun x => (a.e i q).bind fun y =>
    (a.setE i p (x * M 0 0 + y * M 1 0)).bind fun a => a.setE i q (x * M 0 1 + y * M 1 1)) a

variable [StarRing K]

/-- `conj` (matrix.h:1102-1108). -/
def conj (a : MatT K n m) : Option (MatT K n m) := a.mapC fun x => some (star x)

/-- `dagger` and `adjoint` (matrix.h:1118-1137). -/
def dagger (a : MatT K n m) : Option (MatT K m n) := loop2 n m (fun i j r => (a.e i j).bind fun x => r.setE j i (star x)) unset

/-- `mult_aa` (matrix.h:2826-2842). -/
def multAA (a : MatT K n p) (b : MatT K p m) (res : MatT K m n) : Option (MatT K m n) :=
  loop2 n m (fun i j r => sumInto p (fun k => (mulE (a.e i k) (b.e k j)).map star) (j * n + i) r) res

/-- `dot` (matrix.h:1395-1404). -/
def dot (a b : MatT K n 1) : Option K := runLoop n (fun i r => (a.at' i).bind fun x => (b.at' i).map fun y => r + star x * y) 0

/-- `outer_product` (matrix.h:1438-1448). -/
def outer (a : MatT K n 1) (b : MatT K p 1) : Option (MatT K n p) :=
  loop2 n p (fun i j r => (a.at' i).bind fun x => (b.at' j).bind fun y => r.setE i j (x * star y)) unset

end MatT

/-- `squarenorm` (matrix.h:1233-1239). -/
noncomputable def MatT.squarenorm {K : Type} [RCLike K] {n m : ℕ} (a : MatT K n m) : Option ℝ :=
  runLoop (n * m) (fun i t => (a.at' i).map fun x => t + RCLike.normSq x) 0

/-- `norm` (matrix.h:1247-1251). -/
noncomputable def MatT.norm {K : Type} [RCLike K] {n m : ℕ} (a : MatT K n m) : Option ℝ := a.squarenorm.map Real.sqrt

end Hila
