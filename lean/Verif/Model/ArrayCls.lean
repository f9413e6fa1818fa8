import Mathlib.Data.Complex.Basic
import Mathlib.Algebra.BigOperators.Group.Finset.Basic

/-!
# The class Array

Models `/repo/libraries/datatypes/array.h`: an `Array<n, m, T>` stores `n * m` elements in one C array `c`, the element `(i, j)` at `i * m + j`
(lines 40-45, 190-203).  Some operators run over the C array with one loop, others over rows and columns with two.

Simplifications: objects are numbered, the memory gives for every object and index the element stored there; indices `≥ n * m` are memory
outside the object.  Arithmetic is that of the element type and arbitrary; the conversions of C++ between element types are part of the operation.
Division of integers by zero is not distinguished.
The vectorized versions made by hilapp are not modelled.
-/

namespace Hila

/-- The memory: object, index in the C array `c` (array.h line 45) → element. -/
abbrev ArrMem (K : Type*) := ℕ → ℕ → K

/-- `c[k] = v` of the object `a` (array.h line 45). -/
def arrStore {K : Type*} (a k : ℕ) (v : K) (h : ArrMem K) : ArrMem K := fun x l => if x = a ∧ l = k then v else h x l

/-- The place of the element `e(i, j)`: `c[i * m + j]` (array.h lines 190-203). -/
def arrIndex (m i j : ℕ) : ℕ := i * m + j

/-- `for (int i = 0; i < n * m; i++) c[i] = ...` (for example array.h lines 103-108, 487-501, 543-548, 589-594); `f` evaluates the right-hand side
with the memory of that moment. -/
def arrFlat {K : Type*} (n m a : ℕ) (f : ArrMem K → ℕ → K) (h : ArrMem K) : ArrMem K :=
  (List.range (n * m)).foldl (fun g i => arrStore a i (f g i) g) h

/-- `for (int i = 0; i < n; i++) for (int j = 0; j < m; j++) e(i, j) = ...` (for example array.h lines 361-366, 442-448, 532-538, 578-584). -/
def arrNested {K : Type*} (n m a : ℕ) (f : ArrMem K → ℕ → ℕ → K) (h : ArrMem K) : ArrMem K :=
  (List.range n).foldl (fun g i => (List.range m).foldl (fun g' j => arrStore a (arrIndex m i j) (f g' i j) g') g) h

/-- `a += b`, `a -= b`, `a *= b`, `a /= b` and `a = b` for arrays (array.h lines 361-366, 442-482, 532-538, 578-584); `op` is the operation of the elements.
`b` is a reference and may be `a` itself. -/
def arrAssignArr {K : Type*} (op : K → K → K) (n m a b : ℕ) (h : ArrMem K) : ArrMem K :=
  arrNested n m a (fun g i j => op (g a (arrIndex m i j)) (g b (arrIndex m i j))) h

/-- `a += s`, `a -= s`, `a *= s`, `a /= s` and `a = s` for scalars (array.h lines 352-357, 485-501, 541-548, 587-594).  The scalar is passed by value: it is
read before the loop, also when it is an element `e(k)` of some array `b`. -/
def arrAssignElem {K : Type*} (op : K → K → K) (n m a b k : ℕ) (h : ArrMem K) : ArrMem K :=
  let s := h b k
  arrFlat n m a (fun g i => op (g a i) s) h

/-- `a + b`, `a - b` (array.h lines 849-855, 890-896): one loop, new object `r`. -/
def arrAddArr {K : Type*} (op : K → K → K) (n m r a b : ℕ) (h : ArrMem K) : ArrMem K :=
  arrFlat n m r (fun g i => op (g a i) (g b i)) h

/-- `a * b` of arrays with equal element type (array.h lines 969-973): `a` is passed by value, the copy `r` is multiplied with `b`. -/
def arrMulSame {K : Type*} (op : K → K → K) (n m r a b : ℕ) (h : ArrMem K) : ArrMem K :=
  arrAssignArr op n m r b (arrFlat n m r (fun g i => g a i) h)

/-- `a * b` with different element types and `a / b` (array.h lines 978-990, 1025-1032): two loops, new object `r`. -/
def arrMulArr {K : Type*} (op : K → K → K) (n m r a b : ℕ) (h : ArrMem K) : ArrMem K :=
  arrNested n m r (fun g i j => op (g a (arrIndex m i j)) (g b (arrIndex m i j))) h

/-- Array with scalar (array.h lines 899-907, 916-923, 1036-1043, 1054-1061). -/
def arrScalarRight {K : Type*} (op : K → K → K) (n m r a : ℕ) (s : K) (h : ArrMem K) : ArrMem K :=
  arrFlat n m r (fun g i => op (g a i) s) h

/-- Scalar with array: `+` and `*` call the operator with exchanged operands (array.h lines 909-913, 1046-1050), `-` and `/` have loops of their own
(array.h lines 926-933, 1064-1071). -/
def arrScalarLeft {K : Type*} [Add K] [Mul K] [Sub K] [Div K] (op : String) (n m r a : ℕ) (s : K) (h : ArrMem K) : Option (ArrMem K) :=
  if op = "+" then some (arrScalarRight (· + ·) n m r a s h)
  else if op = "*" then some (arrScalarRight (· * ·) n m r a s h)
  else if op = "-" then some (arrFlat n m r (fun g i => s - g a i) h)
  else if op = "/" then some (arrFlat n m r (fun g i => s / g a i) h)
  else none

/-- `sqrt`, `exp`, ..., `pow`, `round` (array.h lines 1160-1405): `a` by value, every element `c[i]` of the copy replaced by `fn(c[i])`, converted back to the
element type by `conv`. -/
def arrFunc {K L : Type*} (fn : K → L) (conv : L → K) (n m r a : ℕ) (h : ArrMem K) : ArrMem K :=
  arrFlat n m r (fun g i => conv (fn (g r i))) (arrFlat n m r (fun g i => g a i) h)

/-- Conversion of a real number to an integer: the fractional part is cut off (C++; used by array.h lines 1171-1176 and 1339-1343 for integer arrays).
Rational numbers stand for floating point ones. -/
def arrTrunc (q : ℚ) : ℤ := q.num.tdiv q.den

/-- `pow(Array<int>, int)` (array.h lines 1337-1343): `std::pow` gives a double, which is stored in an int; base ≠ 0. -/
def arrPowInt (b : ℤ) (n m r a : ℕ) (h : ArrMem ℤ) : ArrMem ℤ := arrFunc (fun x : ℤ => (x : ℚ) ^ b) arrTrunc n m r a h

/-- `dot` (array.h lines 687-697): arrays with one column, `r += conj(c[i]) * rhs.e(i)`; complex elements. -/
def arrDot (n : ℕ) (x y : ℕ → ℂ) : ℂ := (List.range n).foldl (fun r i => r + (starRingEnd ℂ) (x i) * y i) 0

/-- `sum` (array.h lines 763-767). -/
def arrSum {K : Type*} [Zero K] [Add K] (n m : ℕ) (c : ℕ → K) : K := (List.range (n * m)).foldl (fun r i => r + c i) 0

/-- `squarenorm` (array.h lines 631-637); complex elements. -/
def arrSquarenorm (n m : ℕ) (c : ℕ → ℂ) : ℝ := (List.range (n * m)).foldl (fun r i => r + ((c i).re ^ 2 + (c i).im ^ 2)) 0

/-- The loop of `max(elem)` (array.h lines 731-742): `better res c[i]` is `res < c[i]`; the result is the value and the place.  `min(elem)` (lines 748-759) has
`res > c[i]`, and `max()`, `min()` (lines 703-724) leave out the place. -/
def arrBest {K : Type*} (better : K → K → Bool) (n m : ℕ) (c : ℕ → K) : K × ℕ :=
  (List.range' 1 (n * m - 1)).foldl (fun r i => if better r.1 (c i) then (c i, i) else r) (c 0, 0)

/-- One row of the comparison: `false` at the first different element (array.h lines 386-390). -/
def arrEqRow {K : Type*} [DecidableEq K] (m i : ℕ) (x y : ℕ → K) : List ℕ → Bool
  | [] => true
  | j :: js => if x (arrIndex m i j) ≠ y (arrIndex m i j) then false else arrEqRow m i x y js

/-- The rows of the comparison (array.h lines 386-391). -/
def arrEqRows {K : Type*} [DecidableEq K] (m : ℕ) (x y : ℕ → K) : List ℕ → Bool
  | [] => true
  | i :: is => if arrEqRow m i x y (List.range m) = false then false else arrEqRows m x y is

/-- `operator==` (array.h lines 381-392). -/
def arrEq {K : Type*} [DecidableEq K] (n m n1 m1 : ℕ) (x y : ℕ → K) : Bool :=
  if n ≠ n1 ∨ m ≠ m1 then false else arrEqRows m x y (List.range n)

/-- `operator!=` (array.h lines 404-407). -/
def arrNe {K : Type*} [DecidableEq K] (n m n1 m1 : ℕ) (x y : ℕ → K) : Bool := !arrEq n m n1 m1 x y

/-- The values of the overloads of `size()` which exist for an `n × m` array (array.h lines 164-177). -/
def arrSizes (n m : ℕ) : List ℕ := (if n = 1 then [m] else []) ++ (if m = 1 then [n] else []) ++ (if n = m then [n] else [])

/-- A call of `size()`: `none` (the program does not compile) unless exactly one overload exists (array.h lines 164-177). -/
def arrSize (n m : ℕ) : Option ℕ := match arrSizes n m with
  | [s] => some s
  | _ => none

/-- The constructor from an initializer list (array.h lines 131-138): with assertions (`NDEBUG` not defined, params.h lines 15-25) a list of the wrong length
stops the program (`none`); without them all elements of the list are stored from `c[0]` on, also behind the end of `c`. -/
def arrInit {K : Type*} (ndebug : Bool) (n m a : ℕ) (l : List K) (h : ArrMem K) : Option (ArrMem K) :=
  if ndebug = false ∧ l.length ≠ n * m then none
  else some ((l.zipIdx).foldl (fun g p => arrStore a p.2 p.1 g) h)

end Hila
