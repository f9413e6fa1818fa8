import Mathlib.Algebra.Module.Basic
import Mathlib.Algebra.Field.Basic
import Mathlib.Algebra.Order.Field.Basic
import Mathlib.Algebra.BigOperators.Fin
import Mathlib.Data.List.FinRange

/-!
# Model of hmc/MRE_guess.h and of the list of old solutions in hmc/fermion_field.h

Vectors are fields on the sites of the parity of the operator, `ip` is the sum of `rdot` over them, `N` the
operator `D†D`. Numbers are elements of an ordered field; `big x` is the test `x > 1e-32`. The test
`isnan(v[i])` is always false here.
-/

namespace Hila

/-- fermion_field.h:138: `old_chi_inv[i] = old_chi_inv[i - 1]`. -/
def copyPrevious {V : Type} (l : List V) (i : ℕ) : List V :=
  match l[i - 1]? with
  | some v => l.set i v
  | none => l

/-- fermion_field.h:135-142 `save_new_solution` (the same in the other actions of the file), for a list with
`MRE_size` entries: the entries are shifted in increasing order of the index, then the first is set. -/
def saveNewSolution {V : Type} (old : List V) (psi : V) : List V :=
  if old.length > 0 then ((List.range' 1 (old.length - 1)).foldl copyPrevious old).set 0 psi
  else old

variable {K V : Type} [Field K] [AddCommGroup V] [Module K V]

/-- MRE_guess.h:23-32: the projections on the previous vectors are removed from `v`. The norm is that of
the vector itself. -/
def removeProjections (big : K → Bool) (ip : V → V → K) (basis : List V) (v : V) : V :=
  basis.foldl (fun v bj =>
    let norm := ip v v
    let vdot := ip bj v
    if big (norm * norm) then v - (vdot / norm) • bj else v) v

/-- MRE_guess.h:19-33: the basis. -/
def mreBasis (big : K → Bool) (ip : V → V → K) (old : List V) : List V :=
  old.foldl (fun basis v => basis ++ [removeProjections big ip basis v]) []

/-- One pass of the elimination (MRE_guess.h:56-78). -/
def eliminate {n : ℕ} (big : K → Bool) (i : Fin n) (s : (Fin n → Fin n → K) × (Fin n → K)) :
    (Fin n → Fin n → K) × (Fin n → K) :=
  let M := s.1
  let v := s.2
  if big (M i i * M i i) then
    let inv := 1 / M i i
    let row := fun j => M i j * inv
    let vi := v i * inv
    (fun k j => if k = i then row j else M k j - M k i * row j,
     fun k => if k = i then vi else v k - M k i * vi)
  else (fun k j => if j = i then 0 else M k j, fun k => if k = i then 0 else v k)

/-- MRE_guess.h:54-79: elimination for all `i` in order. -/
def eliminateAll {n : ℕ} (big : K → Bool) (M : Fin n → Fin n → K) (v : Fin n → K) :
    (Fin n → Fin n → K) × (Fin n → K) :=
  (List.finRange n).foldl (fun s i => eliminate big i s) (M, v)

/-- MRE_guess.h:82-86: the solution in the original basis, as computed. -/
def mreCombine {n : ℕ} (basis : Fin n → V) (v : Fin n → K) : V :=
  (List.finRange n).foldl (fun _ i => basis i + v i • basis i) 0

/-- MRE_guess.h:36-86: the projected system, its solution and the guess, for a given basis. -/
def mreGuessFrom {n : ℕ} (big : K → Bool) (ip : V → V → K) (N : V → V) (chi : V) (b : Fin n → V) : V :=
  mreCombine b (eliminateAll big (fun j i => ip (b j) (N (b i))) fun i => ip (b i) chi).2

/-- MRE_guess.h:10-87 `MRE_guess`. -/
def mreGuess (big : K → Bool) (ip : V → V → K) (N : V → V) (chi : V) (old : List V) : V :=
  mreGuessFrom big ip N chi (mreBasis big ip old).get

end Hila
