import Verif.Model.Gauge
import Mathlib.Analysis.SpecialFunctions.Trigonometric.Basic
import Mathlib.Analysis.SpecialFunctions.Exp

/-!
# The programs ising and xy

The fields are the same for all ranks (see C02-C05 for halos); every rank has its own stream of random numbers. Numbers are exact.
-/

namespace Hila

open Function

variable {R : Type} [DecidableEq R] {L : Fin 2 → ℕ}

/-- The spins (ising.cpp:22, xy.cpp:25) and for every rank the numbers that `hila::random()` will give. -/
abbrev SpinState (L : Fin 2 → ℕ) (R : Type) := (PSite L → ℝ) × (R → ℕ → ℝ)

/-- `hila::random()` on the rank `r` (random.h:49-61, random.cpp): the next number of its stream. -/
def drawAt (r : R) (ω : R → ℕ → ℝ) : ℝ × (R → ℕ → ℝ) := (ω r 0, update ω r fun k => ω r (1 + k))

/-- Reading the neighbour `y` of a site in a loop: a neighbour on another rank is read from the halo, which was filled from the field `old` before the loop,
others from the field itself. `stale` says which. -/
def readNb (stale : Bool) (old cur : PSite L → ℝ) (y : PSite L) : ℝ := if stale then old y else cur y

/-- The body of the loop of ising (ising.cpp:41-47) at the site `x`, which belongs to the rank `own x`. -/
noncomputable def isingSite (beta : ℝ) (own : PSite L → R) (stale : PSite L → Fin 2 → Bool → Bool) (old : PSite L → ℝ) (st : SpinState L R)
    (x : PSite L) : SpinState L R :=
  let rd := fun d up => readNb (stale x d up) old st.1 (if up then x + unitStep d else x - unitStep d)
  let deltaS := 2.0 * st.1 x * (rd 0 true + rd 0 false + rd 1 true + rd 1 false)
  let r := drawAt (own x) st.2
  if r.1 < Real.exp (-beta * deltaS) then (update st.1 x (-st.1 x), r.2) else (st.1, r.2)

/-- The loop of ising over the sites of the list (ising.cpp:40-48). -/
noncomputable def isingLoop (beta : ℝ) (own : PSite L → R) (stale : PSite L → Fin 2 → Bool → Bool) (sites : List (PSite L)) (st : SpinState L R) :
    SpinState L R :=
  sites.foldl (isingSite beta own stale st.1) st

/-- The updates of ising (ising.cpp:35-52): `k` loops, the first with parity `p`; `vis j` are the sites of the parity in the order in which loop `j` visits them. -/
noncomputable def isingUpdates (beta : ℝ) (own : PSite L → R) (stale : ℕ → PSite L → Fin 2 → Bool → Bool) (vis : ℕ → Parity → List (PSite L)) :
    ℕ → ℕ → Parity → SpinState L R → SpinState L R
  | 0, _, _, st => st
  | k + 1, j, p, st => isingUpdates beta own stale vis k (j + 1) (oppParity p) (isingLoop beta own (stale j) (vis j p) st)

/-- The sum of the four cosines (xy.cpp:43-46). -/
noncomputable def xySum (rd : Fin 2 → Bool → ℝ) (t : ℝ) : ℝ :=
  Real.cos (rd 0 true - t) + Real.cos (rd 0 false - t) + Real.cos (rd 1 true - t) + Real.cos (rd 1 false - t)

/-- The body of the loop of xy (xy.cpp:40-56). The operator `||` draws the second number only if its left side is false. -/
noncomputable def xySite (beta : ℝ) (own : PSite L → R) (stale : PSite L → Fin 2 → Bool → Bool) (old : PSite L → ℝ) (st : SpinState L R)
    (x : PSite L) : SpinState L R :=
  let rd := fun d up => readNb (stale x d up) old st.1 (if up then x + unitStep d else x - unitStep d)
  let tspin := st.1 x
  let r := drawAt (own x) st.2
  let tnspin := tspin + Real.pi * (1 - 2 * r.1)
  let deltaS := xySum rd tspin - xySum rd tnspin
  let new := if tnspin < -Real.pi then tnspin + 2.0 * Real.pi else if tnspin > Real.pi then tnspin - 2.0 * Real.pi else tnspin
  if deltaS < 0 then (update st.1 x new, r.2)
  else
    let q := drawAt (own x) r.2
    if q.1 < Real.exp (-beta * deltaS) then (update st.1 x new, q.2) else (st.1, q.2)

/-- The loop of xy over the sites of the list (xy.cpp:39-56). -/
noncomputable def xyLoop (beta : ℝ) (own : PSite L → R) (stale : PSite L → Fin 2 → Bool → Bool) (sites : List (PSite L)) (st : SpinState L R) :
    SpinState L R :=
  sites.foldl (xySite beta own stale st.1) st

/-- The new parity after a loop of xy on the rank `r` (xy.cpp:57-59): every rank draws its own number. -/
noncomputable def xyParity (r : R) (p : Parity) (ω : R → ℕ → ℝ) : Parity × (R → ℕ → ℝ) :=
  let q := drawAt r ω
  (if q.1 < 0.5 then oppParity p else p, q.2)

/-- The updates of xy on a single rank (xy.cpp:37-60): `k` loops, the first with parity `p`. -/
noncomputable def xyUpdates (beta : ℝ) (stale : ℕ → PSite L → Fin 2 → Bool → Bool) (vis : ℕ → Parity → List (PSite L)) :
    ℕ → ℕ → Parity → SpinState L Unit → SpinState L Unit
  | 0, _, _, st => st
  | k + 1, j, p, st =>
    let st := xyLoop beta (fun _ => ()) (stale j) (vis j p) st
    let q := xyParity () p st.2
    xyUpdates beta stale vis k (j + 1) q.1 (st.1, q.2)

/-- The parities that the ranks have after the first loop of xy (xy.cpp:37, 57-59), if `ω` are their streams at this point: rank `r` draws from its own stream. -/
noncomputable def xyRankParity (p : Parity) (ω : R → ℕ → ℝ) (r : R) : Parity := (xyParity r p ω).1

end Hila
