import Verif.Model.SU2
import Mathlib.Analysis.SpecialFunctions.Log.Basic
import Mathlib.LinearAlgebra.Matrix.ConjTranspose
import Mathlib.LinearAlgebra.Matrix.Trace
import Mathlib.LinearAlgebra.Matrix.Determinant.Basic

/-!
# Model of gauge/sun_overrelax.h, gauge/sun_heatbath.h, gauge/KennedyPendleton.h

Real arithmetic, no rounding. `rnd k` is the `k`-th value returned by `hila::random()`; a routine takes the
number of values used before and returns the number used after. A division by zero is `none`.
-/

namespace Hila

open Matrix

/-- matrix.h:1676-1690 `mult_by_2x2_left`: for each column the elements in rows `p` and `q` are replaced, `p`
first. -/
def multBy2x2Left {N : ℕ} (A : Matrix (Fin N) (Fin N) ℂ) (p q : Fin N) (M : Matrix (Fin 2) (Fin 2) ℂ) :
    Matrix (Fin N) (Fin N) ℂ :=
  fun r i =>
    let a0 := A p i
    let a1 := A q i
    if r = q then M 1 0 * a0 + M 1 1 * a1
    else if r = p then M 0 0 * a0 + M 0 1 * a1
    else A r i

/-- The loops over SU(2) subgroups (sun_overrelax.h:25-26, sun_heatbath.h:52-53). -/
def subgroups (N : ℕ) : List (Fin N × Fin N) :=
  (List.finRange N).flatMap fun ina => ((List.finRange N).filter fun inb => ina < inb).map fun inb => (ina, inb)

/-- One hit of the overrelaxation (sun_overrelax.h:33-57) on the pair of `U` and `action`. -/
noncomputable def overrelaxHit {N : ℕ} (s : Matrix (Fin N) (Fin N) ℂ × Matrix (Fin N) (Fin N) ℂ)
    (pq : Fin N × Fin N) : Option (Matrix (Fin N) (Fin N) ℂ × Matrix (Fin N) (Fin N) ℂ) :=
  match (SU2.projectFromMatrix s.2 pq.1 pq.2).normalize with
  | none => none
  | some a =>
    let r := a.d * a.d - a.a * a.a - a.b * a.b - a.c * a.c
    let u := (⟨a.a * (-2 * a.d), a.b * (-2 * a.d), a.c * (-2 * a.d), r⟩ : SU2).toMatrix
    some (multBy2x2Left s.1 pq.1 pq.2 u, multBy2x2Left s.2 pq.1 pq.2 u)

/-- sun_overrelax.h:19-62 `suN_overrelax`. -/
noncomputable def suNOverrelax {N : ℕ} (U staple : Matrix (Fin N) (Fin N) ℂ) :
    Option (Matrix (Fin N) (Fin N) ℂ) :=
  ((subgroups N).foldlM overrelaxHit (U, U * stapleᴴ)).map Prod.fst

/-- sun_overrelax.h:134-138: the diagonal phases. `imin` is the index of the smallest singular value, `diag`
the angles of the other ones (in the order of their index; here a function of the index itself). -/
noncomputable def dfjPhases {N : ℕ} (imin : Fin N) (theta : Fin N → ℝ) (phiN : ℝ) (i : Fin N) : ℂ :=
  if i = imin then Complex.exp (((-(∑ j ∈ Finset.univ.filter (· ≠ imin), theta j) - phiN : ℝ) : ℂ) * Complex.I)
  else Complex.exp (((theta i - phiN : ℝ) : ℂ) * Complex.I)

/-- sun_overrelax.h:104-159 `suN_overrelax_dFJ`. `u`, `v` are the unitary matrices of `S.svd()`, `imin` and
`theta` as in `dfjPhases` (the angles only change the acceptance), `random` the random number. -/
noncomputable def suNOverrelaxDFJ {N : ℕ} (U S u v : Matrix (Fin N) (Fin N) ℂ) (imin : Fin N) (theta : Fin N → ℝ)
    (beta random : ℝ) : Matrix (Fin N) (Fin N) ℂ :=
  let phiN := Complex.arg S.det / N
  let Z := u * Matrix.diagonal (dfjPhases imin theta phiN) * vᴴ
  let Z := Z * Uᴴ * Z
  if Real.exp (beta / N * ((Z - U) * Sᴴ).trace.re) > random then Z else U

/-! ### Heat bath -/

/-- sun_heatbath.h:75-80, 105: `d` and `xr4` from four random numbers. -/
noncomputable def kpTrial (rnd : ℕ → ℝ) (al : ℝ) (k : ℕ) : ℝ × ℝ :=
  let xr1 := Real.log (1 - rnd k)
  let xr2 := Real.log (1 - rnd (k + 1))
  let xr3 := Real.cos (2 * Real.pi * rnd (k + 2))
  let xr4 := rnd (k + 3)
  (-(xr2 + xr1 * xr3 * xr3) / al, xr4)

/-- sun_heatbath.h:114-126: at most `fuel` further trials; the last `d` is kept whether the test was passed
or not. -/
noncomputable def kpLoop (rnd : ℕ → ℝ) (al : ℝ) : ℕ → ℕ → ℝ → ℝ × ℕ
  | 0, k, d => (d, k)
  | fuel + 1, k, _ =>
    let t := kpTrial rnd al k
    if 1 - 0.5 * t.1 > t.2 * t.2 then (t.1, k + 4) else kpLoop rnd al fuel (k + 4) t.1

/-- sun_heatbath.h:140-149: at most `fuel` trials; the last `a0` is kept. -/
noncomputable def creutzLoop (rnd : ℕ → ℝ) (al : ℝ) : ℕ → ℕ → ℝ → ℝ × ℕ
  | 0, k, a0 => (a0, k)
  | fuel + 1, k, _ =>
    let xl := Real.exp (-2 * al)
    let xd := 1 - xl
    let r := xl + xd * rnd k
    let a0 := 1 + Real.log r / al
    if 1 - a0 * a0 > rnd (k + 1) * rnd (k + 1) then (a0, k + 2) else creutzLoop rnd al fuel (k + 2) a0

/-- sun_heatbath.h:75-162: the value `d`. -/
noncomputable def heatbathD (rnd : ℕ → ℝ) (al : ℝ) (k : ℕ) : ℝ × ℕ :=
  let t := kpTrial rnd al k
  if 1 - 0.5 * t.1 ≤ t.2 * t.2 then
    if al > 2 then kpLoop rnd al 40 (k + 4) t.1
    else
      let c := creutzLoop rnd al 40 (k + 4) 0
      (1 - c.1, c.2)
  else (t.1, k + 4)

/-- sun_heatbath.h:167-183: the matrix `a` from `d` and two more random numbers. -/
noncomputable def heatbathMatrix (rnd : ℕ → ℝ) (d : ℝ) (k : ℕ) : SU2 :=
  let ad := 1 - d
  let r2 := |1 - ad * ad|
  let r := Real.sqrt r2
  let ac := (2 * rnd k - 1) * r
  let rho := Real.sqrt |r2 - ac * ac|
  let xr2 := 2 * Real.pi * rnd (k + 1)
  ⟨rho * Real.cos xr2, rho * Real.sin xr2, ac, ad⟩

/-- One hit of the heat bath (sun_heatbath.h:55-194) on `U`, `action` and the number of random values
used. -/
noncomputable def heatbathHit {N : ℕ} (rnd : ℕ → ℝ) (b3 : ℝ)
    (s : (Matrix (Fin N) (Fin N) ℂ × Matrix (Fin N) (Fin N) ℂ) × ℕ) (pq : Fin N × Fin N) :
    Option ((Matrix (Fin N) (Fin N) ℂ × Matrix (Fin N) (Fin N) ℂ) × ℕ) :=
  let A := s.1.2
  let v : SU2 :=
    { d := (A pq.1 pq.1).re + (A pq.2 pq.2).re
      c := -((A pq.1 pq.1).im - (A pq.2 pq.2).im)
      a := -((A pq.1 pq.2).im + (A pq.2 pq.1).im)
      b := -((A pq.1 pq.2).re - (A pq.2 pq.1).re) }
  let z := Real.sqrt v.det
  let al := b3 * z
  if z = 0 ∨ al = 0 then none
  else
    let d := heatbathD rnd al s.2
    let a := heatbathMatrix rnd d.1 d.2
    let h := (a.mul (v.div z)).toMatrix
    some ((multBy2x2Left s.1.1 pq.1 pq.2 h, multBy2x2Left s.1.2 pq.1 pq.2 h), d.2 + 2)

/-- sun_heatbath.h:28-202 `suN_heatbath` (the returned acceptance rate is left out). -/
noncomputable def suNHeatbath {N : ℕ} (rnd : ℕ → ℝ) (beta : ℝ) (U staple : Matrix (Fin N) (Fin N) ℂ) :
    Option (Matrix (Fin N) (Fin N) ℂ) :=
  ((subgroups N).foldlM (heatbathHit rnd (beta / N)) ((U, U * stapleᴴ), 0)).map fun s => s.1.1

/-- KennedyPendleton.h:49-59: the loop; `n` loops done before. Returns the last `delta`, the number of loops
and of random numbers used. -/
noncomputable def kennedyLoop (rnd : ℕ → ℝ) (alpha : ℝ) : ℕ → ℕ → ℕ → ℝ × ℕ × ℕ
  | 0, n, k => (0, n, k)
  | fuel + 1, n, k =>
    let r1 := -Real.log (1 - rnd k)
    let r2 := -Real.log (1 - rnd (k + 1))
    let r3 := Real.cos (2 * Real.pi * rnd (k + 2))
    let delta := (r1 * (r3 * r3) + r2) / alpha
    let r3 := rnd (k + 3)
    if n + 1 < 100 ∧ r3 * r3 > 1 - 0.5 * delta then kennedyLoop rnd alpha fuel (n + 1) (k + 4)
    else (delta, n + 1, k + 4)

/-- KennedyPendleton.h:24-92 `KennedyPendleton`. -/
noncomputable def kennedyPendleton (rnd : ℕ → ℝ) (staple : SU2) : Option SU2 :=
  let xi := Real.sqrt staple.det
  if xi = 0 then none
  else
    let V := staple.div xi
    let l := kennedyLoop rnd (2 * xi) 100 0 0
    let a0 := if l.2.1 ≥ 100 then (1e-9 : ℝ) else 1 - l.1
    let rd := 1 - a0 * a0
    let rd := if rd ≤ 0 then 0 else rd
    let r3 := 2 * rnd l.2.2 - 1
    let theta := 2 * Real.pi * rnd (l.2.2 + 1)
    let rd' := Real.sqrt (rd * (1 - r3 * r3))
    let a : SU2 := ⟨rd' * Real.sin theta, rd' * Real.cos theta, Real.sqrt rd * r3, a0⟩
    some (a.neg.mul V)

/-! ### Sherman–Morrison -/

/-- matrix_linalg.h:908-914 `invert_diagonal_plus_constant_matrix`. -/
noncomputable def invertDiagonalPlusConstant {N : ℕ} (D : Fin N → ℝ) (c : ℝ) : Matrix (Fin N) (Fin N) ℝ :=
  let B : Fin N → ℝ := fun i => 1 / D i
  let tmul := c / (1 + c * ∑ i, B i)
  Matrix.diagonal B - Matrix.of fun i j => tmul * B i * B j

end Hila
