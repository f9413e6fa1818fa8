import Mathlib.Data.Real.Basic
import Mathlib.Algebra.Order.Archimedean.Real.Basic
import Mathlib.Algebra.Order.Round
import Mathlib.Algebra.Order.Field.Power
import Mathlib.Algebra.Order.Archimedean.Basic

/-!
# Extended precision numbers (libraries/datatypes/extended.h, extended.cpp)

Floating point numbers are the reals of a binary format with `p` significant bits and smallest exponent `emin`; an
operation returns a nearest number of the format, with any rule for ties. Infinities, not-a-numbers and the largest
exponent are left out: nothing overflows. `double` is `p = 53`, `emin = -1074`.
-/

namespace Hila

/-- A binary floating point format. -/
structure FFormat where
  p : ℕ
  emin : ℤ

/-- Format of `double`. -/
def doubleFormat : FFormat := ⟨53, -1074⟩

/-- Numbers of the format. -/
def FFormat.Mem (F : FFormat) (x : ℝ) : Prop :=
  ∃ m e : ℤ, |m| ≤ 2 ^ F.p ∧ F.emin ≤ e ∧ x = m * (2 : ℝ) ^ e

/-- Rounding to a nearest number. -/
structure Rounding (F : FFormat) where
  fl : ℝ → ℝ
  mem : ∀ x, F.Mem (fl x)
  near : ∀ x y, F.Mem y → |fl x - x| ≤ |y - x|

variable {F : FFormat}

/-- `ExtendedPrecision` (extended.h:46-51). -/
structure EP where
  v : ℝ
  c : ℝ
  c2 : ℝ

/-- `ExtendedPrecision(double)` (extended.h:59). -/
def EP.ofDouble (x : ℝ) : EP := ⟨x, 0, 0⟩

/-- Unary minus (extended.h:86-88). -/
def EP.neg (s : EP) : EP := ⟨-s.v, -s.c, -s.c2⟩

/-- The error of a rounded sum `t`, as computed in extended.cpp:14-20 and 22-27. -/
noncomputable def Rounding.err (R : Rounding F) (a b t : ℝ) : ℝ :=
  if |a| ≥ |b| then R.fl (R.fl (a - t) + b) else R.fl (R.fl (b - t) + a)

/-- `operator+=(double)` (extended.cpp:13-32). -/
noncomputable def EP.add (R : Rounding F) (s : EP) (rhs : ℝ) : EP :=
  let t := R.fl (s.v + rhs)
  let c := R.err s.v rhs t
  let t' := R.fl (s.c + c)
  let cc := R.err s.c c t'
  ⟨t, t', R.fl (s.c2 + cc)⟩

/-- `operator+=(ExtendedPrecision)` (extended.h:111-116). -/
noncomputable def EP.addE (R : Rounding F) (s r : EP) : EP := ((s.add R r.c2).add R r.c).add R r.v

/-- `to_double` (extended.h:184-193). -/
noncomputable def EP.toDouble (R : Rounding F) (s : EP) : ℝ := R.fl (R.fl (s.v + s.c) + s.c2)

/-! ### Integers -/

/-- Integer types of the machine that are not narrower than `int`. -/
structure IntTy where
  width : ℕ
  signed : Bool

/-- The values of a type. -/
def IntTy.Val (T : IntTy) (z : ℤ) : Prop :=
  if T.signed then -2 ^ (T.width - 1) ≤ z ∧ z < 2 ^ (T.width - 1) else 0 ≤ z ∧ z < 2 ^ T.width

/-- Result of an operation: undefined (`none`) outside the range of a signed type, reduced for an unsigned type. -/
def IntTy.res (T : IntTy) (z : ℤ) : Option ℤ :=
  if T.signed then (if -2 ^ (T.width - 1) ≤ z ∧ z < 2 ^ (T.width - 1) then some z else none) else some (z % 2 ^ T.width)

/-- Outcome of a loop after a number of turns. -/
inductive Res (α : Type) where
  | done (a : α)
  | undefined
  | running

/-- First loop of `operator*=` (extended.h:140-144): powers of 2 are moved from `rhs` to `mult`. -/
def splitTwos (T : IntTy) : ℕ → ℤ → ℤ → Res (ℤ × ℤ)
  | 0, _, _ => .running
  | k + 1, rhs, mult =>
    if rhs % 2 = 0 then
      match T.res (mult * 2) with
      | none => .undefined
      | some m => splitTwos T k (rhs / 2) m
    else .done (rhs, mult)

/-- Search of the largest power of 2 (extended.h:156-159). -/
def largestPower (T : IntTy) (rhs : ℤ) : ℕ → ℤ → Res ℤ
  | 0, _ => .running
  | k + 1, mult =>
    match T.res (2 * mult) with
    | none => .undefined
    | some m =>
      if m < rhs then
        match T.res (mult * 2) with
        | none => .undefined
        | some m' => largestPower T rhs k m'
      else .done mult

/-- The three numbers times an integer (extended.h:147-149, 160-164). -/
noncomputable def EP.scale (R : Rounding F) (s : EP) (m : ℤ) : EP := ⟨R.fl (s.v * m), R.fl (s.c * m), R.fl (s.c2 * m)⟩

/-- The loop of additions (extended.h:155-168). -/
noncomputable def addLoop (T : IntTy) (R : Rounding F) (a : EP) : ℕ → ℤ → EP → Res EP
  | 0, _, _ => .running
  | k + 1, rhs, s =>
    if rhs > 1 then
      match largestPower T rhs k 1 with
      | .undefined => .undefined
      | .running => .running
      | .done m => addLoop T R a k (rhs - m) (s.addE R (a.scale R m))
    else .done s

/-- `operator*=` (extended.h:127-176) after at most `k` turns of each loop. -/
noncomputable def EP.mulInt (R : Rounding F) (T : IntTy) (k : ℕ) (s : EP) (rhs : ℤ) : Res EP :=
  if rhs = 0 then .done (EP.ofDouble 0)
  else
    match (if rhs < 0 then T.res (-rhs) else some rhs) with
    | none => .undefined
    | some r =>
      match splitTwos T k r 1 with
      | .undefined => .undefined
      | .running => .running
      | .done (r', mult) =>
        match addLoop T R (s.scale R mult) k r' (s.scale R mult) with
        | .undefined => .undefined
        | .running => .running
        | .done q => .done (if rhs < 0 then q.neg else q)

/-! ### Differences and comparisons -/

/-- An operand. -/
inductive Num where
  | ext (s : EP)
  | double (x : ℝ)
  | int (T : IntTy) (z : ℤ)

/-- `-b`. -/
def Num.neg : Num → Option Num
  | .ext s => some (.ext s.neg)
  | .double x => some (.double (-x))
  | .int T z => (T.res (-z)).map (.int T)

/-- `a + b` if at least one operand is extended (extended.h:220-230); integers are converted to `double`. -/
noncomputable def Num.add (R : Rounding F) : Num → Num → Option EP
  | .ext s, .ext r => some (s.addE R r)
  | .ext s, .double x => some (s.add R x)
  | .ext s, .int _ z => some (s.add R (R.fl z))
  | .double x, .ext s => some (s.add R x)
  | .int _ z, .ext s => some (s.add R (R.fl z))
  | _, _ => none

/-- `a - b` (extended.h:233-236). -/
noncomputable def Num.sub (R : Rounding F) (a b : Num) : Option EP := b.neg.bind fun b' => a.add R b'

/-- Comparison operators. -/
inductive Cmp where
  | eq | ne | gt | lt | ge | le

/-- Their meaning for numbers. -/
def Cmp.Holds : Cmp → ℝ → ℝ → Prop
  | .eq, x, y => x = y
  | .ne, x, y => x ≠ y
  | .gt, x, y => x > y
  | .lt, x, y => x < y
  | .ge, x, y => x ≥ y
  | .le, x, y => x ≤ y

/-- The operators for extended numbers (extended.h:260-289). -/
noncomputable def Num.cmp (R : Rounding F) (op : Cmp) (a b : Num) : Option Prop :=
  (a.sub R b).map fun t => op.Holds (t.toDouble R) 0

end Hila
