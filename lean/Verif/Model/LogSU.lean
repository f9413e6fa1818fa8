import Verif.Model.SUN

/-!
# Logarithm of an SU(N) matrix (libraries/datatypes/sun_matrix.h)

Numbers are real. The exponential `chexp` is a parameter; the theorems put the exact exponential for it (C61 gives the error of the
real one).
-/

namespace Hila

variable {N : ℕ}

/-- `project_to_algebra(onenorm)` (sun_matrix.h:333-366): the statements are those of `project_to_algebra`, and the second output is the
sum of the absolute values of all elements. -/
noncomputable def projectNorm (A : Mat N) : Alg N × ℝ := (project A, ∑ i, |project A i|)

/-- The loop of `log` (sun_matrix.h:623-636); the first number is how many passes are left. -/
noncomputable def logLoop (fprec : ℝ) (E : Mat N → Mat N) (a : Mat N) : ℕ → Mat N → Alg N → Alg N
  | 0, _, res => res
  | it + 1, tmat, res =>
    let tres := projectNorm tmat
    let res' : Alg N := fun i => res i - tres.1 i
    let rn := ∑ i, |res' i|
    if tres.2 < fprec * (rn + 1.0) then res'
    else logLoop fprec E a it (a * E (expand res')) res'

/-- `log` (sun_matrix.h:612-639), where `eps` is `fp<T>::epsilon`. -/
noncomputable def logSU (eps : ℝ) (E : Mat N → Mat N) (a : Mat N) : Alg N :=
  -logLoop (eps * 10.0 * ((N * N - 1 : ℕ) : ℝ)) E a (5 * N) a 0

end Hila
