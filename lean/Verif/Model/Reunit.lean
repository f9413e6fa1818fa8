import Verif.Model.LinAlg
import Verif.Model.LinkUpdate
import Mathlib.Analysis.SpecialFunctions.Complex.Arg

/-!
# Model of the projection to SU(N) and of random SU(N) matrices (datatypes/sun_matrix.h)

Real arithmetic, no rounding. A division by zero is `none`. `gauss k` is the `k`-th vector of four numbers that
`gaussian_random` returns.
-/

namespace Hila

variable {N : ℕ}

/-- The sum of squares of a row (sun_matrix.h:141-144). -/
noncomputable def rowSq (M : Matrix (Fin N) (Fin N) ℂ) (r : Fin N) : ℝ := ∑ i, Complex.normSq (M r i)

/-- sun_matrix.h:140-147: row `r` is divided by its norm. -/
noncomputable def normalizeRow (r : Fin N) (M : Matrix (Fin N) (Fin N) ℂ) : Option (Matrix (Fin N) (Fin N) ℂ) :=
  if rowSq M r = 0 then none
  else
    let n2 : ℝ := 1 / Real.sqrt (rowSq M r)
    some (Matrix.of fun j i => if j = r then M r i * n2 else M j i)

/-- sun_matrix.h:154-162: row `j` is made orthogonal to row `r`. -/
noncomputable def orthoRow (r j : Fin N) (M : Matrix (Fin N) (Fin N) ℂ) : Matrix (Fin N) (Fin N) ℂ :=
  let d := ∑ i, star (M r i) * M j i
  Matrix.of fun k i => if k = j then M j i - d * M r i else M k i

/-- sun_matrix.h:137-165 `make_unitary`. -/
noncomputable def makeUnitary (M : Matrix (Fin N) (Fin N) ℂ) : Option (Matrix (Fin N) (Fin N) ℂ) :=
  forLoop N N (fun r M => (normalizeRow r M).bind fun M =>
    forLoop N N (fun j M => some (orthoRow r j M)) (r.val + 1) M) 0 M

/-- sun_matrix.h:172-181 `fix_det`. `det` is modelled in `Model/LinAlg`. `arg` of zero is `atan2(0, 0)`, which is 0. -/
noncomputable def fixDet (M : Matrix (Fin N) (Fin N) ℂ) : Option (Matrix (Fin N) (Fin N) ℂ) :=
  (detAny M).map fun d =>
    let t : ℝ := d.arg / N
    let ph : ℂ := ⟨Real.cos (-t), Real.sin (-t)⟩
    Matrix.of fun j i => M j i * ph

/-- sun_matrix.h:191-195 `reunitarize`. -/
noncomputable def reunitarize (M : Matrix (Fin N) (Fin N) ℂ) : Option (Matrix (Fin N) (Fin N) ℂ) :=
  (makeUnitary M).bind fixDet

/-- sun_matrix.h:213-220: a random SU(2) matrix. -/
noncomputable def randomSU2 (v : Fin 4 → ℝ) : Option (Matrix (Fin 2) (Fin 2) ℂ) :=
  let nrm := Real.sqrt (∑ i, v i ^ 2)
  if nrm = 0 then none
  else
    let w : Fin 4 → ℝ := fun i => v i / nrm
    some !![⟨w 0, w 3⟩, ⟨w 2, w 1⟩; ⟨-w 2, w 1⟩, ⟨w 0, -w 3⟩]

/-- sun_matrix.h:228-232: the products with random SU(2) matrices of one hit; `k` is the number of random vectors used. -/
noncomputable def randomHit (gauss : ℕ → Fin 4 → ℝ) (s : Matrix (Fin N) (Fin N) ℂ × ℕ) : Option (Matrix (Fin N) (Fin N) ℂ × ℕ) :=
  (subgroups N).foldlM (fun s pq => (randomSU2 (gauss s.2)).map fun m2 => (multBy2x2Left s.1 pq.1 pq.2 m2, s.2 + 1)) s

/-- sun_matrix.h:227-238: the hits `h, h + 1, …`, `left` of them. -/
noncomputable def randomHits (gauss : ℕ → Fin 4 → ℝ) : ℕ → ℕ → Matrix (Fin N) (Fin N) ℂ × ℕ → Option (Matrix (Fin N) (Fin N) ℂ × ℕ)
  | 0, _, s => some s
  | left + 1, h, s => (randomHit gauss s).bind fun s =>
      (if h % 16 = 0 then (reunitarize s.1).map fun M => (M, s.2) else some s).bind fun s => randomHits gauss left (h + 1) s

/-- sun_matrix.h:209-243 `random(nhits)` for `N ≠ 2`, and `nhits ≥ 0`. -/
noncomputable def randomSUN (gauss : ℕ → Fin 4 → ℝ) (nhits k : ℕ) : Option (Matrix (Fin N) (Fin N) ℂ × ℕ) :=
  (randomHits gauss nhits 1 (1, k)).bind fun s =>
    if nhits % 16 ≠ 0 then (reunitarize s.1).map fun M => (M, s.2) else some s

end Hila
