import Verif.Model.ChExp

/-!
# The matrix exponentials that sum the Taylor series

Models `exp`, `altexp` and `mult_exp` of `/repo/libraries/datatypes/matrix.h` 3272-3427, which the smearing programs
`nch_stout_smear` and `nchm_stout_smear` use (`/repo/libraries/gauge/stout_smear_nch.h`, `stout_smear_nchm.h`). The size of
the matrix is `k + 1`. Numbers are exact; only the comparison that ends `altexp` is done with rounded numbers.
-/

namespace Hila

variable {𝕜 : Type} [RCLike 𝕜] {k : ℕ}

/-- `squarenorm()` (matrix.h:1233-1239): the sum of the squared absolute values of the elements. -/
noncomputable def frobSq (A : SqMat 𝕜 k) : ℝ := ∑ i, ∑ j, ‖A i j‖ ^ 2

/-- The loop of `exp` (matrix.h:3297-3301); the argument is the number of turns that are left, so that the counter of the loop
is `j + 2`. Adding a number to a matrix adds it to the diagonal. -/
noncomputable def expLoop (A : SqMat 𝕜 k) : ℕ → SqMat 𝕜 k → SqMat 𝕜 k
  | 0, r => r
  | j + 1, r => expLoop A j (((1 / ((j + 2 : ℕ) : 𝕜)) • r + 1) * A)

/-- `exp(mat, order)` (matrix.h:3288-3309). -/
noncomputable def matExp (order : ℤ) (A : SqMat 𝕜 k) : SqMat 𝕜 k :=
  if 0 < order then expLoop A (order.toNat - 1) A + 1 else 1

/-- The loop of `mult_exp` (matrix.h:3401-3410) on `r` and `dr`; the counter is `j + 2`. -/
noncomputable def multExpLoop (A M : SqMat 𝕜 k) : ℕ → SqMat 𝕜 k × SqMat 𝕜 k → SqMat 𝕜 k × SqMat 𝕜 k
  | 0, s => s
  | j + 1, s =>
    let r := (1 / ((j + 2 : ℕ) : 𝕜)) • s.1 + 1
    multExpLoop A M j (r * A, (1 / ((j + 2 : ℕ) : 𝕜)) • (s.2 * A) + r * M)

/-- `mult_exp(mat, mmat, r, dr, order)` (matrix.h:3390-3417): the new `r` and `dr`. -/
noncomputable def multExp (order : ℤ) (A M : SqMat 𝕜 k) : SqMat 𝕜 k × SqMat 𝕜 k :=
  if 0 < order then
    let s := multExpLoop A M (order.toNat - 1) (A, M)
    (M * (s.1 + 1), s.2)
  else (M, 0)

/-- The loop of `altexp` (matrix.h:3330-3340): turns left, the counter, `r` and `mpow`; the results are `r` and `niter`. The norms are
compared after rounding with `rnd`. -/
noncomputable def altLoop (rnd : ℝ → ℝ) (A : SqMat 𝕜 k) : ℕ → ℕ → SqMat 𝕜 k → SqMat 𝕜 k → SqMat 𝕜 k × ℕ
  | 0, _, r, _ => (r, 1)
  | f + 1, m, r, p =>
    let p' := (1 / (m : 𝕜)) • (p * A)
    let r' := r + p'
    open Classical in
    if rnd (frobSq r') = rnd (frobSq r) then (r', m) else altLoop rnd A f (m + 1) r' p'

/-- `altexp(mat, niter)` (matrix.h:3322-3343): the result and `niter`. The version without `niter` (matrix.h:3355-3373) has the same
statements. -/
noncomputable def altExp (rnd : ℝ → ℝ) (A : SqMat 𝕜 k) : SqMat 𝕜 k × ℕ := altLoop rnd A ((k + 1) * 15 - 2) 2 (A + 1) A

end Hila
