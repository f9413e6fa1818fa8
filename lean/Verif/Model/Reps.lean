import Verif.Model.SUN
import Mathlib.LinearAlgebra.Matrix.Trace

/-!
# Representations of SU(N)

libraries/datatypes/representations.h. The header includes "sun.h", which is not in the repository; from it come `sun::generator(i)`, which is a parameter `T`
here (used for `i` below N² - 1), and `project_antihermitean`, modelled as the traceless antihermitean part. The tables in `static` arrays, filled at the first
call, are modelled as functions. Numbers are exact.
-/

namespace Hila

open Matrix

variable {N : ℕ}

/-- `project_antihermitean(M)`: the traceless antihermitean part, as `add_momentum` (hmc/gauge_field.h:248-256) needs it. Not in the repository. -/
noncomputable def projAntiherm (M : Mat N) : Mat N :=
  let B := (1 / 2 : ℂ) • (M - M.conjTranspose)
  B - (B.trace / N) • (1 : Mat N)

/-- The assignment `m.e(i, j).re = v` (representations.h:182-183, 317, 323-324). -/
def setRe (M : Mat N) (i j : Fin N) (v : ℝ) : Mat N := Matrix.of fun a b => if a = i ∧ b = j then ⟨v, (M a b).im⟩ else M a b

/-! ### The adjoint representation -/

/-- `adjointRep::represent` (representations.h:82-88), a matrix of size N² - 1. -/
noncomputable def adjRep (T : ℕ → Mat N) (m : Mat N) : Matrix (Fin (N * N - 1)) (Fin (N * N - 1)) ℝ :=
  Matrix.of fun i j => 2 * (m.conjTranspose * T i * m * T j).trace.re

/-- `adjointRep::represented_generator_I` (representations.h:60-79). -/
noncomputable def adjGenI (T : ℕ → Mat N) (g : ℕ) : Matrix (Fin (N * N - 1)) (Fin (N * N - 1)) ℝ :=
  Matrix.of fun j k => 2 * ((T g * T j * T k).trace.im - (T j * T g * T k).trace.im)

/-- `adjointRep::project_force` (representations.h:92-104). -/
noncomputable def adjForce (T : ℕ → Mat N) (F : Matrix (Fin (N * N - 1)) (Fin (N * N - 1)) ℂ) : Mat N :=
  let f := (List.range (N * N - 1)).foldl (fun f g => f + ((((adjGenI T g).transpose.map Complex.ofReal * F).trace.re : ℝ) : ℂ) • T g) 0
  projAntiherm ((⟨0, 2⟩ : ℂ) • f)

/-! ### The antisymmetric representation -/

/-- `antisymmetric::generator` (representations.h:172-190); `k` runs along with the pairs. -/
noncomputable def antiGen (N g : ℕ) : Mat N :=
  (upperPairs N).zipIdx.foldl (fun M p => if g = p.2 then setRe (setRe M p.1.1 p.1.2 0.5) p.1.2 p.1.1 (-0.5) else M) 0

/-- `antisymmetric::represent` (representations.h:215-222), a matrix of size N (N - 1) / 2. -/
noncomputable def antiRep (m : Mat N) : Matrix (Fin (N * (N - 1) / 2)) (Fin (N * (N - 1) / 2)) ℂ :=
  Matrix.of fun i j => 2 * (antiGen N i * m * (antiGen N j).conjTranspose * m.transpose).trace

/-- `antisymmetric::represented_generator_I` (representations.h:193-211). The table has N (N - 1) / 2 entries `g`. -/
noncomputable def antiGenI (T : ℕ → Mat N) (g : ℕ) : Matrix (Fin (N * (N - 1) / 2)) (Fin (N * (N - 1) / 2)) ℂ :=
  Matrix.of fun j k => (⟨0, 4⟩ : ℂ) * (antiGen N j * T g * antiGen N k).trace

/-- `antisymmetric::project_force` (representations.h:226-238): the loop runs over `size` = N (N - 1) / 2 generators. -/
noncomputable def antiForce (T : ℕ → Mat N) (F : Matrix (Fin (N * (N - 1) / 2)) (Fin (N * (N - 1) / 2)) ℂ) : Mat N :=
  let f := (List.range (N * (N - 1) / 2)).foldl (fun f g => f + ((((antiGenI T g).conjTranspose * F).trace.re : ℝ) : ℂ) • T g) 0
  projAntiherm ((⟨0, -2⟩ : ℂ) • f)

/-! ### The symmetric representation -/

/-- `symmetric::generator` (representations.h:310-331). -/
noncomputable def symGen (N g : ℕ) : Mat N :=
  let M : Mat N := if h : g < N then setRe 0 ⟨g, h⟩ ⟨g, h⟩ (Real.sqrt 0.5) else 0
  ((upperPairs N).zipIdx N).foldl (fun M p => if g = p.2 then setRe (setRe M p.1.1 p.1.2 0.5) p.1.2 p.1.1 0.5 else M) M

/-- `symmetric::represent` (representations.h:356-362), a matrix of size N (N + 1) / 2. -/
noncomputable def symRep (m : Mat N) : Matrix (Fin (N * (N + 1) / 2)) (Fin (N * (N + 1) / 2)) ℂ :=
  Matrix.of fun i j => 2 * (symGen N i * m * symGen N j * m.transpose).trace

/-- `symmetric::represented_generator_I` (representations.h:334-352). The table has N (N + 1) / 2 entries `g`. -/
noncomputable def symGenI (T : ℕ → Mat N) (g : ℕ) : Matrix (Fin (N * (N + 1) / 2)) (Fin (N * (N + 1) / 2)) ℂ :=
  Matrix.of fun j k => (⟨0, 4⟩ : ℂ) * (symGen N j * T g * symGen N k).trace

/-- `symmetric::project_force` (representations.h:366-378): the loop runs over `size` = N (N + 1) / 2 generators. -/
noncomputable def symForce (T : ℕ → Mat N) (F : Matrix (Fin (N * (N + 1) / 2)) (Fin (N * (N + 1) / 2)) ℂ) : Mat N :=
  let f := (List.range (N * (N + 1) / 2)).foldl (fun f g => f + ((((symGenI T g) * F).trace.re : ℝ) : ℂ) • T g) 0
  projAntiherm ((⟨0, -2⟩ : ℂ) • f)

end Hila
