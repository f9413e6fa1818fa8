import Verif.Model.LinkUpdate
import Verif.Model.Gauge
import Verif.Model.Shuffle

/-!
# Model of gauge/sun_max_staple_sum_rot.h

Numbers are real; a division by zero (which gives NaN in the program) is `none`. Staples are arbitrary matrices: they are kept in variables of the type `SU<N>`, but sums of
products of links are not in the group. `SU<0>` cannot be used, so `N` is not zero.
-/

namespace Hila

open Matrix

variable {N : ℕ}

/-- The body of the loop over pairs (sun_max_staple_sum_rot.h:45-89) for `t1, t2 = t.1, t.2`; `s` is the pair `tl0, U`. The two loops over columns are those of
`multBy2x2Left`. -/
noncomputable def maxHit (s : Mat N × Mat N) (t : Fin N × Fin N) : Option (Mat N × Mat N) :=
  let tu1 := 0.5 * ((s.1 t.1 t.1).re + (s.1 t.2 t.2).re)
  let tu2 := 0.5 * ((s.1 t.1 t.2).im + (s.1 t.2 t.1).im)
  let tu3 := 0.5 * ((s.1 t.1 t.2).re - (s.1 t.2 t.1).re)
  let tu4 := 0.5 * ((s.1 t.1 t.1).im - (s.1 t.2 t.2).im)
  let k := Real.sqrt (tu1 * tu1 + tu2 * tu2 + tu3 * tu3 + tu4 * tu4)
  if k = 0 then none
  else
    let ki := 1 / k
    let tui : Matrix (Fin 2) (Fin 2) ℂ := !![⟨tu1 * ki, -(tu4 * ki)⟩, ⟨-(tu3 * ki), -(tu2 * ki)⟩; ⟨tu3 * ki, -(tu2 * ki)⟩, ⟨tu1 * ki, tu4 * ki⟩]
    some (multBy2x2Left s.1 t.1 t.2 tui, multBy2x2Left s.2 t.1 t.2 tui)

/-- The pairs `(tperm[tt1], tperm[tt2])`, `tt1 < tt2`, in the order of the two loops (sun_max_staple_sum_rot.h:40-43). -/
def orderPairs {α : Type} : List α → List (α × α)
  | [] => []
  | a :: l => l.map (fun b => (a, b)) ++ orderPairs l

/-- The last index, `N - 1`. -/
def lastIdx (N : ℕ) [NeZero N] : Fin N := ⟨N - 1, Nat.sub_lt (Nat.pos_of_ne_zero (NeZero.ne N)) Nat.one_pos⟩

/-- `lnorm` and `dlnorm` before the roots are taken (sun_max_staple_sum_rot.h:94-107). The term with index `N - 1` of the first sum of `dlnorm` vanishes, the
program leaves it out. -/
noncomputable def maxNorms [NeZero N] (A : Mat N) : ℝ × ℝ :=
  (∑ t, Complex.normSq (A t t),
    ∑ t, ((A t t).im - (A (lastIdx N) (lastIdx N)).im) ^ 2 +
      ∑ t1, ∑ t2, if t1 < t2 then 0.5 * Complex.normSq (A t1 t2 - starRingEnd ℂ (A t2 t1)) else 0)

/-- The test for the end of the iteration (sun_max_staple_sum_rot.h:108-112); `eps` is `fp<T>::epsilon`. -/
def maxDone [NeZero N] (eps : ℝ) (A : Mat N) : Prop :=
  Real.sqrt (maxNorms A).2 < eps * (Real.sqrt (maxNorms A).1 + N) * N

/-- The loop over `iter` (sun_max_staple_sum_rot.h:39-113), with the number of iterations that are left. -/
noncomputable def maxIter [NeZero N] (eps : ℝ) (pairs : List (Fin N × Fin N)) : ℕ → Mat N × Mat N → Option (Mat N × Mat N)
  | 0, s => some s
  | k + 1, s => (pairs.foldlM maxHit s).bind fun s' => open Classical in if maxDone eps s'.1 then some s' else maxIter eps pairs k s'

/-- `niter` (sun_max_staple_sum_rot.h:33-35). -/
def maxNiter (N : ℕ) : ℕ := if N = 2 then 1 else 15 * (N - 1) * N

/-- sun_max_staple_sum_rot.h:21-118 `suN_max_staple_sum_rot`; `order` is the array `tperm` after the shuffle. -/
noncomputable def maxStapleRot [NeZero N] (eps : ℝ) (order : List (Fin N)) (staple : Mat N) : Option (Mat N) :=
  (maxIter eps (orderPairs order) (maxNiter N) (staple, 1)).map Prod.snd

/-- The array `tperm` (sun_max_staple_sum_rot.h:27-29) with the random numbers `u` (shuffle.h:23-30): the turn with index `j`, from `N - 1` down to 1, takes the
number with index `N - 1 - j`; the conversion to `int` truncates. -/
noncomputable def shuffledIdx (N : ℕ) (u : ℕ → ℝ) : Option (List (Fin N)) := shuffle (fun j => ⌊((j : ℝ) + 1) * u (N - 1 - j)⌋₊) (List.finRange N)

/-- sun_max_staple_sum_rot.h:130-146 `suN_overrelax(U, staple, beta)`: the new link, the returned number and the number of random numbers that were used. The shuffle
uses `N - 1`; the operator `||` calls `hila::random` only if `ds` is not positive. -/
noncomputable def maxOverrelax [NeZero N] (eps beta : ℝ) (U staple : Mat N) (u : ℕ → ℝ) : Option (Mat N × ℕ × ℕ) :=
  (shuffledIdx N u).bind fun order =>
    (maxStapleRot eps order stapleᴴ).map fun Z =>
      if N = 2 then (Z * Uᴴ * Z, 1, N - 1)
      else
        let V := Z * Uᴴ * Z
        let ds := ((V - U) * stapleᴴ).trace.re
        if 0 < ds then (V, 1, N - 1)
        else if u (N - 1) < Real.exp (beta / N * ds) then (V, 1, N - 1 + 1)
        else (U, 0, N - 1 + 1)

end Hila
