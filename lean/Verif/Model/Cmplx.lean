import Mathlib.Analysis.SpecialFunctions.Pow.Real
import Mathlib.Analysis.SpecialFunctions.Trigonometric.Arctan

/-!
# Complex numbers (libraries/datatypes/cmplx.h)

`Cx` is the class `Complex<T>` with real numbers as `T` (the class admits floating point types only, cmplx.h:65-66). Rounding is left out.
The functions of the C library on `T` are those of real numbers; `none` stands for a division by zero and for a logarithm of a number that is not
positive, where the results of floating point are infinite or not numbers.
-/

namespace Hila

/-- `Complex<T>` (cmplx.h:62-562). -/
@[ext] structure Cx where
  re : ℝ
  im : ℝ

namespace Cx

/-- A quotient of floating point numbers. -/
noncomputable def rdiv (a b : ℝ) : Option ℝ := if b = 0 then none else some (a / b)

/-- `log` of the C library. -/
noncomputable def rlog (x : ℝ) : Option ℝ := if 0 < x then some (Real.log x) else none

/-- `atan2` of the C library (C standard 7.12.4.4), without signed zeros. -/
noncomputable def atan2 (y x : ℝ) : ℝ :=
  if 0 < x then Real.arctan (y / x)
  else if x < 0 then (if 0 ≤ y then Real.arctan (y / x) + Real.pi else Real.arctan (y / x) - Real.pi)
  else if 0 < y then Real.pi / 2 else if y < 0 then -(Real.pi / 2) else 0

/-- Construction from a scalar (cmplx.h:138-139). -/
def ofScalar (v : ℝ) : Cx := ⟨v, 0⟩

/-- `squarenorm` (cmplx.h:254-256). -/
def squarenorm (z : Cx) : ℝ := z.re * z.re + z.im * z.im

/-- `abs` (cmplx.h:265-267). -/
noncomputable def abs (z : Cx) : ℝ := Real.sqrt z.squarenorm

/-- `arg` (cmplx.h:276-278). -/
noncomputable def arg (z : Cx) : ℝ := atan2 z.im z.re

/-- `conj` and `dagger` (cmplx.h:288-301). -/
def conj (z : Cx) : Cx := ⟨z.re, -z.im⟩

/-- `polar` (cmplx.h:319-323 and 616-620). -/
noncomputable def polar (r theta : ℝ) : Cx := ⟨r * Real.cos theta, r * Real.sin theta⟩

/-- Unary minus (cmplx.h:377-379). -/
def neg (z : Cx) : Cx := ⟨-z.re, -z.im⟩

/-- `+=` (cmplx.h:400-408) and `+` (643-645) of complex numbers. -/
def add (a b : Cx) : Cx := ⟨a.re + b.re, a.im + b.im⟩

/-- `+=` (cmplx.h:404-406) and `+` with a scalar (662-664, 680-682). -/
def addS (c : Cx) (a : ℝ) : Cx := ⟨c.re + a, c.im⟩

/-- `-=` (cmplx.h:425-433) and `-` (703-705). -/
def sub (a b : Cx) : Cx := ⟨a.re - b.re, a.im - b.im⟩

/-- `-` of a scalar (cmplx.h:429-431, 721-723). -/
def subS (c : Cx) (a : ℝ) : Cx := ⟨c.re - a, c.im⟩

/-- Scalar minus complex (cmplx.h:739-741). -/
def sSub (a : ℝ) (c : Cx) : Cx := ⟨a - c.re, -c.im⟩

/-- `*` (cmplx.h:761-763). -/
def mul (a b : Cx) : Cx := ⟨a.re * b.re - a.im * b.im, a.re * b.im + a.im * b.re⟩

/-- `*=` (cmplx.h:462-479): the imaginary part is assigned before the real part. -/
def mulAssign (z lhs : Cx) : Cx :=
  let r := z.re * lhs.re - z.im * lhs.im
  let z := { z with
    im := z.im * lhs.re + z.re * lhs.im }
  { z with
    re := r }

/-- `z *= z` (cmplx.h:474-479): the argument is a reference to the number that is assigned. -/
def mulAssignSelf (z : Cx) : Cx :=
  let r := z.re * z.re - z.im * z.im
  let z := { z with
    im := z.im * z.re + z.re * z.im }
  { z with
    re := r }

/-- `*` and `*=` with a scalar (cmplx.h:467-470, 781-783, 801-803). -/
def mulS (c : Cx) (a : ℝ) : Cx := ⟨c.re * a, c.im * a⟩

/-- `/` (cmplx.h:829-832). -/
noncomputable def div (a b : Cx) : Option Cx :=
  (rdiv 1.0 b.squarenorm).map fun n => ⟨(a.re * b.re + a.im * b.im) * n, (a.im * b.re - a.re * b.im) * n⟩

/-- `/=` (cmplx.h:506-522). -/
noncomputable def divAssign (z lhs : Cx) : Option Cx :=
  (rdiv 1.0 (max |lhs.re| |lhs.im|)).bind fun m =>
    let wn := lhs.mulS m
    (rdiv m wn.squarenorm).map fun m =>
      let r := (z.re * wn.re + z.im * wn.im) * m
      let z := { z with
        im := (z.im * wn.re - z.re * wn.im) * m }
      { z with
        re := r }

/-- `/` and `/=` with a scalar (cmplx.h:517-520, 850-852). -/
noncomputable def divS (c : Cx) (a : ℝ) : Option Cx := (rdiv c.re a).bind fun r => (rdiv c.im a).map fun i => ⟨r, i⟩

/-- Scalar divided by complex (cmplx.h:871-874). -/
noncomputable def sDiv (a : ℝ) (c : Cx) : Option Cx :=
  let n := c.squarenorm
  (rdiv (a * c.re) n).bind fun r => (rdiv (-(a * c.im)) n).map fun i => ⟨r, i⟩

/-- `conj_mul` (cmplx.h:544-546). -/
def conjMul (a b : Cx) : Cx := ⟨a.re * b.re + a.im * b.im, a.re * b.im - a.im * b.re⟩

/-- `mul_conj` (cmplx.h:560-562). -/
def mulConj (a b : Cx) : Cx := ⟨a.re * b.re + a.im * b.im, a.im * b.re - a.re * b.im⟩

/-- `==` and `!=` of complex numbers (cmplx.h:889-892, 944-946). -/
def eqC (a b : Cx) : Prop := a.re = b.re ∧ a.im = b.im
def neC (a b : Cx) : Prop := a.re ≠ b.re ∨ a.im ≠ b.im

/-- `==` and `!=` with a scalar (cmplx.h:908-930, 960-978). -/
def eqS (a : Cx) (b : ℝ) : Prop := a.re = b ∧ a.im = 0
def neS (a : Cx) (b : ℝ) : Prop := a.re ≠ b ∨ a.im ≠ 0

/-! ### Imaginary numbers

`Imaginary_t` is derived from `Complex` (cmplx.h:1127-1145), so that an object has both parts. -/

/-- Construction of an imaginary number (cmplx.h:1135-1136). -/
def imag (v : ℝ) : Cx := ⟨0, v⟩

/-- Imaginary times a variable that contains `k` complex numbers (cmplx.h:1163-1181); only the imaginary part of the first factor is used. -/
def imagMul (i : Cx) {k : ℕ} (c : Fin k → Cx) : Fin k → Cx := fun j => ⟨-(c j).im * i.im, (c j).re * i.im⟩

/-- Imaginary times complex. -/
def iMul (i c : Cx) : Cx := imagMul i (fun _ : Fin 1 => c) 0

/-- Imaginary times scalar (cmplx.h:1185-1196). -/
def imagMulS (i : Cx) (a : ℝ) : Cx := ⟨i.re, i.im * a⟩

/-- Imaginary times imaginary (cmplx.h:1199-1202). -/
def imagMulImag (a b : Cx) : ℝ := -(a.im * b.im)

/-- Imaginary divided by a scalar (cmplx.h:1209-1213). -/
noncomputable def imagDivS (i : Cx) (a : ℝ) : Option Cx := (rdiv i.im a).map fun v => ⟨i.re, v⟩

/-- Imaginary divided by imaginary (cmplx.h:1216-1219). -/
noncomputable def imagDivImag (a b : Cx) : Option ℝ := rdiv a.im b.im

/-- `I` (cmplx.h:1150-1154). -/
def I : Cx := imag 1

/-! ### Functions -/

/-- `expi` and `exp` of an imaginary number (cmplx.h:1239-1248). -/
noncomputable def expi (a : ℝ) : Cx := ⟨Real.cos a, Real.sin a⟩

/-- `exp` (cmplx.h:1233-1236). -/
noncomputable def exp (z : Cx) : Cx := mulS ⟨Real.cos z.im, Real.sin z.im⟩ (Real.exp z.re)

/-- `log` (cmplx.h:1251-1254). -/
noncomputable def log (z : Cx) : Option Cx := (rlog z.squarenorm).map fun l => ⟨0.5 * l, z.arg⟩

/-- `sqrt` (cmplx.h:1259-1264). -/
noncomputable def sqrt (z : Cx) : Cx :=
  let r := z.squarenorm
  let a := z.arg
  (expi (0.5 * a)).mulS (r ^ (0.25 : ℝ))

/-- `cbrt` (cmplx.h:1267-1272). -/
noncomputable def cbrt (z : Cx) : Cx :=
  let r := z.squarenorm
  let a := z.arg
  (expi (1.0 / 3.0 * a)).mulS (r ^ (1.0 / 6.0 : ℝ))

/-- `pow` of complex numbers (cmplx.h:1275-1278). -/
noncomputable def pow (z p : Cx) : Option Cx := (log z).map fun l => exp (p.mul l)

/-- `pow` with a scalar power (cmplx.h:1281-1284). -/
noncomputable def powS (z : Cx) (p : ℝ) : Option Cx := (log z).map fun l => exp (l.mulS p)

/-- `pow` of a scalar with a complex power (cmplx.h:1287-1290): `log` is that of the C library. -/
noncomputable def sPow (z : ℝ) (p : Cx) : Option Cx := (rlog z).map fun l => exp (p.mulS l)

/-- `sin` (cmplx.h:1295-1298). -/
noncomputable def sin (z : Cx) : Cx := ⟨Real.sin z.re * Real.cosh z.im, Real.cos z.re * Real.sinh z.im⟩

/-- `cos` (cmplx.h:1302-1305). -/
noncomputable def cos (z : Cx) : Cx := ⟨Real.cos z.re * Real.cosh z.im, -Real.sin z.re * Real.sinh z.im⟩

/-- `tan` (cmplx.h:1308-1311). -/
noncomputable def tan (z : Cx) : Option Cx := (sin z).div (cos z)

/-- `sinh` (cmplx.h:1315-1318). -/
noncomputable def sinh (z : Cx) : Cx := ⟨Real.sinh z.re * Real.cos z.im, Real.cosh z.re * Real.sin z.im⟩

/-- `cosh` (cmplx.h:1322-1325). -/
noncomputable def cosh (z : Cx) : Cx := ⟨Real.cosh z.re * Real.cos z.im, Real.sinh z.re * Real.sin z.im⟩

/-- `tanh` (cmplx.h:1328-1331). -/
noncomputable def tanh (z : Cx) : Option Cx := (sinh z).div (cosh z)

/-- `atan` (cmplx.h:1334-1337). -/
noncomputable def atan (z : Cx) : Option Cx :=
  ((I.sub z).div (I.add z)).bind fun q => (log q).map fun l => iMul (imagMulS I (-0.5)) l

/-- `asin` (cmplx.h:1340-1343). -/
noncomputable def asin (z : Cx) : Option Cx := (log ((iMul I z).add (sqrt (sSub 1 (z.mul z))))).map fun l => iMul (imag (-I.im)) l

/-- `acos` (cmplx.h:1346-1349). -/
noncomputable def acos (z : Cx) : Option Cx := (log (z.add (iMul I (sqrt (sSub 1 (z.mul z)))))).map fun l => iMul (imag (-I.im)) l

/-- `atanh` (cmplx.h:1352-1355). -/
noncomputable def atanh (z : Cx) : Option Cx := ((z.addS 1).div (sSub 1 z)).bind fun q => (log q).map fun l => l.mulS 0.5

/-- `asinh` (cmplx.h:1358-1361). -/
noncomputable def asinh (z : Cx) : Option Cx := log (z.add (sqrt ((z.mul z).addS 1)))

/-- `acosh` (cmplx.h:1364-1367). -/
noncomputable def acosh (z : Cx) : Option Cx := log (z.add (sqrt ((z.mul z).subS 1)))

end Cx
end Hila
