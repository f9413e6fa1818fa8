import Mathlib.Analysis.SpecialFunctions.Complex.Arg

/-!
# The class U1

Models `/repo/libraries/datatypes/u1.h`: elements of U(1) stored as a phase. Real numbers stand for floating point numbers.
-/

namespace Hila

/-- The class `U1<T>` (u1.h:13-18): the content is the phase angle. -/
structure U1Elem where
  phase : ℝ

/-- The constructor from `0` (u1.h:30-32). -/
def u1Zero : U1Elem := ⟨0⟩

/-- Unary minus (u1.h:35-39). -/
noncomputable def u1Neg (a : U1Elem) : U1Elem := ⟨a.phase + Real.pi⟩

/-- The assignments with an operator (u1.h:47-53): only `*=` exists, the result is `none` (the program cannot be compiled) for the others. -/
noncomputable def u1Assign (op : String) (a b : U1Elem) : Option U1Elem := if op = "*=" then some ⟨a.phase + b.phase⟩ else none

/-- `complex()` (u1.h:56-58). -/
noncomputable def u1Complex (a : U1Elem) : ℂ := ⟨Real.cos a.phase, Real.sin a.phase⟩

/-- `set_phase` with a real number (u1.h:60-64). -/
def u1SetPhase (x : ℝ) : U1Elem := ⟨x⟩

/-- `set_phase` with a complex number (u1.h:66-70); `arg()` is exact. -/
noncomputable def u1SetComplex (z : ℂ) : U1Elem := ⟨z.arg⟩

/-- `conj()` and `dagger()` (u1.h:72-80). -/
noncomputable def u1Conj (a : U1Elem) : U1Elem := ⟨-a.phase⟩

/-- `real()` and `imag()` (u1.h:82-88). -/
noncomputable def u1Re (a : U1Elem) : ℝ := Real.cos a.phase

/-- `imag()` (u1.h:86-88). -/
noncomputable def u1Im (a : U1Elem) : ℝ := Real.sin a.phase

/-- `random()` (u1.h:92-95) with the random number `u` in [0,1). -/
noncomputable def u1Random (u : ℝ) : U1Elem := ⟨Real.pi * (2 * u - 1)⟩

/-- The product `a * b` of two elements (u1.h:120-124): `a += b`. -/
noncomputable def u1Product (a b : U1Elem) : Option U1Elem := u1Assign "+=" a b

/-- The product with a complex number, from both sides (u1.h:128-142). -/
noncomputable def u1MulComplex (a : U1Elem) (z : ℂ) : ℂ := u1Complex a * z

end Hila
