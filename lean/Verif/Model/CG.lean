import Mathlib.Algebra.Module.Basic
import Mathlib.Algebra.Field.Basic
import Mathlib.Algebra.Order.Field.Basic

/-!
# Model of dirac/conjugate_gradient.h and hmc/MRE_guess.h

Vectors are fields restricted to the sites of the parity `M.par` (the solver touches no others); `apply` and
`dagger` are functions on them, `sq` is the sum of `squarenorm` over the sites. Numbers are elements of an
ordered field: rounding is not modelled. A division by zero is a distinct outcome: in the code it gives
infinities and NaN in all components from then on, and no comparison with NaN ends the loop.
-/

namespace Hila

/-- Result of the solver: a division by zero, or the vector in `out`, the value of the loop counter, and
whether the loop was left through `break`. -/
inductive CGResult (V : Type)
  | undefined
  | done (x : V) (iterations : ℕ) (stopped : Bool)

variable {K V : Type} [Field K] [LinearOrder K] [AddCommGroup V] [Module K V]

/-- The loop (conjugate_gradient.h:77-101). First argument: passes left; `i` the loop counter; `x`, `r`,
`p`, `rr` the variables. -/
def cgLoop (apply dagger : V → V) (sq : V → K) (target : K) : ℕ → ℕ → V → V → V → K → CGResult V
  | 0, i, x, _, _, _ => .done x i false
  | fuel + 1, i, x, r, p, rr =>
    let Dp := apply p
    let DDp := dagger Dp
    let pDp := sq Dp
    if pDp = 0 then .undefined
    else
      let alpha := rr / pDp
      let x' := x + alpha • p
      let r' := r - alpha • DDp
      let rrnew := sq r'
      if rrnew < target then .done x' i true
      else if rr = 0 then .undefined
      else
        let beta := rrnew / rr
        cgLoop apply dagger sq target fuel (i + 1) x' r' (beta • p + r') rrnew

/-- conjugate_gradient.h:46-110 `CG::apply`: right-hand side `b`, content of `out` at the call `x0`. -/
def cgApply (apply dagger : V → V) (sq : V → K) (accuracy : K) (maxiters : ℕ) (b x0 : V) : CGResult V :=
  let target := accuracy * accuracy * sq b
  let r := b - dagger (apply x0)
  cgLoop apply dagger sq target maxiters 0 x0 r r (sq r)

end Hila
