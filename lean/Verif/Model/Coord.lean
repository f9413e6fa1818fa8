import Mathlib.Algebra.BigOperators.Fin
import Mathlib.Algebra.Order.BigOperators.Group.Finset
import Mathlib.Data.Int.Init

/-!
# Directions, parities and coordinate vectors

Models `/repo/libraries/plumbing/coordinates.h`. `n` is NDIM.
-/

namespace Hila

open BigOperators

/-- `enum Direction` (coordinates.h:34-51): the `n` up directions are `0 .. n-1`, the down
directions follow in reversed order, `NDIRS = 2*n`. The code writes the enum out for
NDIM = 1..4; here `n` is arbitrary. -/
abbrev Dir (n : ℕ) := Fin (2 * n)

/-- `opp_dir` and unary minus, `NDIRS - 1 - d` (coordinates.h:82-93). -/
def oppDir {n : ℕ} (d : Dir n) : Dir n := ⟨2 * n - 1 - d.val, by omega⟩

/-- `is_up_dir` (coordinates.h:100-105). -/
def isUp {n : ℕ} (d : Dir n) : Bool := decide (d.val < n)

/-- A coordinate axis (`foralldir` variable, coordinates.h:80) seen as an up direction. -/
def upDir {n : ℕ} (i : Fin n) : Dir n := ⟨i.val, by omega⟩

/-- `abs(Direction)` (coordinates.h:107-112). -/
def absDir {n : ℕ} (d : Dir n) : Dir n := if isUp d then d else oppDir d

/-- The axis of a direction: the value of `abs(d)` used as an array index
(coordinates.h:107-112). -/
def axis {n : ℕ} (d : Dir n) : Fin n :=
  if h : d.val < n then ⟨d.val, h⟩ else ⟨2 * n - 1 - d.val, by omega⟩

/-- `dir_dot_product` (coordinates.h:114-121). -/
def dirDot {n : ℕ} (d1 d2 : Dir n) : ℤ :=
  if d1 = d2 then 1 else if d1 = oppDir d2 then -1 else 0

/-- `enum class Parity { none = 0, even, odd, all }` (coordinates.h:182). -/
inductive Parity where
  | none | even | odd | all
  deriving DecidableEq, Repr

/-- Numerical value of the enum, used as a bit pattern (coordinates.h:182, 227-229). -/
def Parity.bits : Parity → ℕ
  | .none => 0 | .even => 1 | .odd => 2 | .all => 3

/-- The inverse cast `static_cast<Parity>` used at coordinates.h:237. -/
def Parity.ofBits : ℕ → Parity
  | 0 => .none | 1 => .even | 2 => .odd | _ => .all

/-- `opp_parity`: `0x3 & ((u << 1) | (u >> 1))` (coordinates.h:235-238). -/
def oppParity (p : Parity) : Parity :=
  Parity.ofBits (3 &&& ((p.bits <<< 1) ||| (p.bits >>> 1)))

/-- `pmod` (coordinates.h:257-262): C++ `%` truncates towards zero (`Int.tmod`); the result
is shifted if negative. The code requires `b > 0` (documentation at 251-255); `b = 0` is
undefined behaviour and every theorem about `pmod` assumes `0 < b`. Overflow of `int` is
not modelled. -/
def pmod (a b : ℤ) : ℤ :=
  let r := a.tmod b
  if r < 0 then r + b else r

/-- `CoordinateVector` (coordinates.h:280-): `NDIM` integers. -/
abbrev CV (n : ℕ) := Fin n → ℤ

/-- `CoordinateVector(Direction)` and assignment from a direction (coordinates.h:299-302,
361-366): the unit vector. -/
def CV.ofDir {n : ℕ} (dir : Dir n) : CV n := fun d => dirDot (upDir d) dir

/-- `operator+=(Direction)` (coordinates.h:468-474): increments or decrements a single
component. -/
def CV.addDir {n : ℕ} (c : CV n) (dir : Dir n) : CV n :=
  if isUp dir then Function.update c (axis dir) (c (axis dir) + 1)
  else Function.update c (axis dir) (c (axis dir) - 1)

/-- `operator-=(Direction)` (coordinates.h:476-482). -/
def CV.subDir {n : ℕ} (c : CV n) (dir : Dir n) : CV n :=
  if isUp dir then Function.update c (axis dir) (c (axis dir) - 1)
  else Function.update c (axis dir) (c (axis dir) + 1)

/-- `operator-(Direction, CoordinateVector)` (coordinates.h:619-624). -/
def CV.dirSub {n : ℕ} (dir : Dir n) (c : CV n) : CV n :=
  fun d => dirDot dir (upDir d) - c d

/-- `operator+(Direction, Direction)` (coordinates.h:569-576). -/
def CV.dirAddDir {n : ℕ} (d1 d2 : Dir n) : CV n :=
  fun d => dirDot d1 (upDir d) + dirDot d2 (upDir d)

/-- `operator-(Direction, Direction)` (coordinates.h:578-585). -/
def CV.dirSubDir {n : ℕ} (d1 d2 : Dir n) : CV n :=
  fun d => dirDot d1 (upDir d) - dirDot d2 (upDir d)

/-- `operator*(int, Direction)` (coordinates.h:588-593). -/
def CV.smulDir {n : ℕ} (i : ℤ) (dir : Dir n) : CV n :=
  fun d => i * dirDot (upDir d) dir

/-- `CoordinateVector::parity()` (coordinates.h:423-431); `s % 2 == 0` with C++ `%`. -/
def CV.parity {n : ℕ} (c : CV n) : Parity :=
  if (∑ d, c d).tmod 2 = 0 then .even else .odd

/-- `CoordinateVector::mod` (coordinates.h:518-524). -/
def CV.mod {n : ℕ} (c m : CV n) : CV n := fun d => pmod (c d) (m d)

/-- `norm_L1()` of an integer vector (used at coordinates.h:384 and 388; matrix.h
`norm_L1`): sum of absolute values. -/
def CV.normL1 {n : ℕ} (c : CV n) : ℤ := ∑ d, |c d|

/-- `operator==(Direction)` (coordinates.h:383-385). -/
def CV.eqDir {n : ℕ} (c : CV n) (d : Dir n) : Bool := (c.subDir d).normL1 == 0

/-- `is_direction(Direction &d)` (coordinates.h:387-402): `none` models `return false`,
`some d` models `return true` with the reference argument set to `d`. The `foralldir` loop
returns at the first component equal to 1 or -1. -/
def CV.isDirection {n : ℕ} (c : CV n) : Option (Dir n) :=
  if c.normL1 ≠ 1 then none
  else (List.finRange n).findSome? fun d =>
    if c d = 1 then some (upDir d) else if c d = -1 then some (oppDir (upDir d)) else none

/-- `is_divisible` (coordinates.h:540-546); requires nonzero divisors. -/
def CV.isDivisible {n : ℕ} (c m : CV n) : Bool :=
  (List.finRange n).all fun d => (c d).tmod (m d) == 0

end Hila
