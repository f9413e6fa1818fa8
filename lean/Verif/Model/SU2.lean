import Mathlib.Analysis.SpecialFunctions.Trigonometric.Inverse
import Mathlib.Analysis.SpecialFunctions.Complex.Arg
import Mathlib.LinearAlgebra.Matrix.Notation

/-!
# Model of datatypes/su2.h

Components are real numbers (no rounding), complex numbers are Mathlib's, matrices are functions of two
indices.
-/

namespace Hila

/-- su2.h:14-18: `d + a i σ₁ + b i σ₂ + c i σ₃`. -/
@[ext] structure SU2 where
  a : ℝ
  b : ℝ
  c : ℝ
  d : ℝ

/-- su2.h:450-452 `Algebra<SU2>`: `(a i σ₁ + b i σ₂ + c i σ₃)/2`. -/
@[ext] structure SU2Algebra where
  a : ℝ
  b : ℝ
  c : ℝ

namespace SU2

/-- su2.h:30-35 and 127-133: from a number. -/
def ofScalar (z : ℝ) : SU2 := ⟨0, 0, 0, z⟩

/-- su2.h:81-83 `det`. -/
def det (x : SU2) : ℝ := x.a * x.a + x.b * x.b + x.c * x.c + x.d * x.d

/-- su2.h:84-86 `squarenorm`. -/
def squarenorm (x : SU2) : ℝ := x.det

/-- su2.h:78-80 `trace`. -/
noncomputable def trace (x : SU2) : ℝ := 2 * x.d

/-- su2.h:64-71 `dagger`. -/
def dagger (x : SU2) : SU2 := ⟨-x.a, -x.b, -x.c, x.d⟩

/-- su2.h:91-98 unary minus. -/
def neg (x : SU2) : SU2 := ⟨-x.a, -x.b, -x.c, -x.d⟩

/-- su2.h:286-293 sum. -/
def add (x y : SU2) : SU2 := ⟨x.a + y.a, x.b + y.b, x.c + y.c, x.d + y.d⟩

/-- su2.h:312-319 difference. -/
def sub (x y : SU2) : SU2 := ⟨x.a - y.a, x.b - y.b, x.c - y.c, x.d - y.d⟩

/-- su2.h:338-345 product. -/
def mul (x y : SU2) : SU2 where
  a := x.d * y.a + x.a * y.d - x.b * y.c + x.c * y.b
  b := x.d * y.b + x.b * y.d - x.c * y.a + x.a * y.c
  c := x.d * y.c + x.c * y.d - x.a * y.b + x.b * y.a
  d := x.d * y.d - x.a * y.a - x.b * y.b - x.c * y.c

/-- su2.h:348-351 `mul_trace`. -/
def mulTrace (x y : SU2) : ℝ := 2 * (x.d * y.d - x.a * y.a - x.b * y.b - x.c * y.c)

/-- su2.h:363-381 multiplication with a number. -/
def scale (x : SU2) (y : ℝ) : SU2 := ⟨x.a * y, x.b * y, x.c * y, x.d * y⟩

/-- su2.h:385-392 division by a number (and 187-193 `/=`). -/
noncomputable def div (x : SU2) (y : ℝ) : SU2 := ⟨x.a / y, x.b / y, x.c / y, x.d / y⟩

/-- su2.h:47-57 `normalize`. Nothing checks the length; 0/0 is not a number: `none`. -/
noncomputable def normalize (x : SU2) : Option SU2 :=
  let len := Real.sqrt x.det
  if len = 0 then none else some (x.div len)

/-- su2.h:274-281 `convert_to_2x2_matrix`. -/
def toMatrix (x : SU2) : Matrix (Fin 2) (Fin 2) ℂ :=
  !![⟨x.d, x.c⟩, ⟨x.b, x.a⟩; ⟨-x.b, x.a⟩, ⟨x.d, -x.c⟩]

/-- su2.h:425-432 `project_from_matrix`. -/
noncomputable def projectFromMatrix {N : ℕ} (m : Matrix (Fin N) (Fin N) ℂ) (i j : Fin N) : SU2 where
  d := ((m i i).re + (m j j).re) * 0.5
  c := ((m i i).im - (m j j).im) * 0.5
  a := ((m i j).im + (m j i).im) * 0.5
  b := ((m i j).re - (m j i).re) * 0.5

/-- su2.h:219-225 `project_to_algebra`. -/
noncomputable def projectToAlgebra (x : SU2) : SU2Algebra := ⟨x.a * 2, x.b * 2, x.c * 2⟩

/-- su2.h:237-253 `exp`. `junk` is the content of the memory of `ret`, which is not initialised. -/
noncomputable def exp (junk x : SU2) : SU2 :=
  let r := Real.sqrt (x.a * x.a + x.b * x.b + x.c * x.c)
  if r ≤ 0 then ofScalar (Real.exp x.d)
  else
    let ed := Real.exp x.d
    let sr := ed * Real.sin r / r
    ⟨junk.a * sr, junk.b * sr, junk.c * sr, ed * Real.cos r⟩

/-- su2.h:257-272 `log`. `acos` is only a number for arguments in [-1, 1]: `none` outside. -/
noncomputable def log (x : SU2) : Option SU2Algebra :=
  let r := Real.sqrt (x.a * x.a + x.b * x.b + x.c * x.c)
  if r ≤ 0 then some ⟨0, 0, 0⟩
  else if x.d < -1 ∨ 1 < x.d then none
  else
    let r := Real.arccos x.d / r
    some ⟨2 * r * x.a, 2 * r * x.b, 2 * r * x.c⟩

end SU2

namespace SU2Algebra

/-- su2.h:548-550 `squarenorm`. -/
def squarenorm (x : SU2Algebra) : ℝ := x.a * x.a + x.b * x.b + x.c * x.c

/-- su2.h:594-596 `dot` and 677-679 `su2_algebra_dot`. -/
def dot (x y : SU2Algebra) : ℝ := x.a * y.a + x.b * y.b + x.c * y.c

/-- su2.h:621-637 multiplication with a number. -/
def scale (x : SU2Algebra) (y : ℝ) : SU2Algebra := ⟨x.a * y, x.b * y, x.c * y⟩

/-- su2.h:468-474 unary minus. -/
def neg (x : SU2Algebra) : SU2Algebra := ⟨-x.a, -x.b, -x.c⟩

/-- su2.h:556-563 `expand`. -/
noncomputable def expand (x : SU2Algebra) : SU2 := (⟨x.a, x.b, x.c, 0⟩ : SU2).scale 0.5

/-- su2.h:565-582 `exp`. -/
noncomputable def exp (x : SU2Algebra) : SU2 :=
  let tmp := x.scale 0.5
  let r := Real.sqrt tmp.squarenorm
  if r ≤ 0 then SU2.ofScalar 1
  else
    let sr := Real.sin r / r
    ⟨sr * tmp.a, sr * tmp.b, sr * tmp.c, Real.cos r⟩

end SU2Algebra

/-- su2.h:651-660 `right_conjugation`. -/
noncomputable def rightConjugation (U : SU2) (E : SU2Algebra) : SU2Algebra :=
  let t1 := 2 * U.d
  let t3 := t1 * U.d - 1
  let t2 := 2 * (E.a * U.a + E.b * U.b + E.c * U.c)
  ⟨E.a * t3 + U.a * t2 - t1 * (E.b * U.c - E.c * U.b),
   E.b * t3 + U.b * t2 - t1 * (E.c * U.a - E.a * U.c),
   E.c * t3 + U.c * t2 - t1 * (E.a * U.b - E.b * U.a)⟩

/-- su2.h:664-673 `left_conjugation`. -/
noncomputable def leftConjugation (U : SU2) (E : SU2Algebra) : SU2Algebra :=
  let t1 := 2 * U.d
  let t3 := t1 * U.d - 1
  let t2 := 2 * (E.a * U.a + E.b * U.b + E.c * U.c)
  ⟨E.a * t3 + U.a * t2 + t1 * (E.b * U.c - E.c * U.b),
   E.b * t3 + U.b * t2 + t1 * (E.c * U.a - E.a * U.c),
   E.c * t3 + U.c * t2 + t1 * (E.a * U.b - E.b * U.a)⟩

end Hila
