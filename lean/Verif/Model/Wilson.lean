import Verif.Model.Stagg
import Mathlib.Analysis.SpecialFunctions.Sqrt

/-!
# Wilson fermions

libraries/datatypes/wilson_vector.h and libraries/dirac/wilson.h. The headers cannot be compiled as they are: they include `datatypes/sun.h`, which is not in the
repository, wilson_vector.h declares `HalfWilsonVector` as an alias and as a class (252-253, 425-426), and wilson.h uses the names `Wilson_vector` and
`half_Wilson_vector` of an older version. The model takes these names for `WilsonVector` and the class `HalfWilsonVector`. A product of a matrix with a half vector
multiplies every colour vector from the left (the operator at wilson_vector.h:696-702 has `rhs.c[i] *= lhs`). Numbers are exact.
-/

namespace Hila

variable {n : ℕ} {L : Fin n → ℕ} {N G H : ℕ}

/-- `WilsonVector_t` (wilson_vector.h:56-63) and `HalfWilsonVector` (425-431): `s` colour vectors. -/
abbrev WVec (s N : ℕ) := Fin s → Fin N → ℂ

/-- The product of a gamma matrix and a Wilson vector for `Gammadim` 4 (wilson_vector.h:311-347). The matrices are numbered as in the enumeration at line 14, 4 is
`g5`. -/
noncomputable def gammaMul4 (g : Fin 5) (w : WVec 4 N) : WVec 4 N :=
  match g with
  | 0 => ![w 2, w 3, w 0, w 1]
  | 1 => ![Complex.I • w 3, Complex.I • w 2, -Complex.I • w 1, -Complex.I • w 0]
  | 2 => ![-w 3, w 2, w 1, -w 0]
  | 3 => ![Complex.I • w 2, -Complex.I • w 3, -Complex.I • w 0, Complex.I • w 1]
  | 4 => ![w 0, w 1, -w 2, -w 3]

/-- The list `gamma_matrix` for `Gammadim` 4 (wilson_vector.h:23). -/
def gammaList4 : Fin 5 → Fin 5 := ![1, 2, 3, 0, 4]

/-- The product of a gamma matrix and a Wilson vector for `Gammadim` 2 (wilson_vector.h:351-369). -/
noncomputable def gammaMul2 (g : Fin 3) (w : WVec 2 N) : WVec 2 N :=
  match g with
  | 0 => ![w 1, w 0]
  | 1 => ![-Complex.I • w 1, Complex.I • w 0]
  | 2 => ![w 0, -w 1]

/-- The list `gamma_matrix` for `Gammadim` 2 (wilson_vector.h:35). -/
def gammaList2 : Fin 3 → Fin 3 := ![0, 1, 2]

/-- The projection to a half vector for `Gammadim` 4 (wilson_vector.h:437-491). The last direction is there for `NDIM` 5 only. -/
noncomputable def halfProj4 (w : WVec 4 N) (dir : Fin 5) (sign : ℤ) : WVec 2 N :=
  match dir with
  | 0 => if sign = 1 then ![w 0 + Complex.I • w 3, w 1 + Complex.I • w 2] else ![w 0 - Complex.I • w 3, w 1 - Complex.I • w 2]
  | 1 => if sign = 1 then ![w 0 - w 3, w 1 + w 2] else ![w 0 + w 3, w 1 - w 2]
  | 2 => if sign = 1 then ![w 0 + Complex.I • w 2, w 1 - Complex.I • w 3] else ![w 0 - Complex.I • w 2, w 1 + Complex.I • w 3]
  | 3 => if sign = 1 then ![w 0 + w 2, w 1 + w 3] else ![w 0 - w 2, w 1 - w 3]
  | 4 => if sign = 1 then ![((Real.sqrt 2 : ℝ) : ℂ) • w 0, ((Real.sqrt 2 : ℝ) : ℂ) • w 1] else ![((Real.sqrt 2 : ℝ) : ℂ) • w 2, ((Real.sqrt 2 : ℝ) : ℂ) • w 3]

/-- `expand` for `Gammadim` 4 (wilson_vector.h:493-567). -/
noncomputable def halfExpand4 (c : WVec 2 N) (dir : Fin 5) (sign : ℤ) : WVec 4 N :=
  match dir with
  | 0 => if sign = 1 then ![c 0, c 1, -Complex.I • c 1, -Complex.I • c 0] else ![c 0, c 1, Complex.I • c 1, Complex.I • c 0]
  | 1 => if sign = 1 then ![c 0, c 1, c 1, -c 0] else ![c 0, c 1, -c 1, c 0]
  | 2 => if sign = 1 then ![c 0, c 1, -Complex.I • c 0, Complex.I • c 1] else ![c 0, c 1, Complex.I • c 0, -Complex.I • c 1]
  | 3 => if sign = 1 then ![c 0, c 1, c 0, c 1] else ![c 0, c 1, -c 0, -c 1]
  | 4 => if sign = 1 then ![((Real.sqrt 2 : ℝ) : ℂ) • c 0, ((Real.sqrt 2 : ℝ) : ℂ) • c 1, 0, 0] else ![0, 0, ((Real.sqrt 2 : ℝ) : ℂ) • c 0, ((Real.sqrt 2 : ℝ) : ℂ) • c 1]

/-- The projection to a half vector for `Gammadim` 2 (wilson_vector.h:583-611). The last direction is there for `NDIM` 3 only. -/
noncomputable def halfProj2 (w : WVec 2 N) (dir : Fin 3) (sign : ℤ) : WVec 1 N :=
  match dir with
  | 0 => if sign = 1 then ![w 0 + w 1] else ![w 0 - w 1]
  | 1 => if sign = 1 then ![w 0 - Complex.I • w 1] else ![w 0 + Complex.I • w 1]
  | 2 => if sign = 1 then ![((Real.sqrt 2 : ℝ) : ℂ) • w 0] else ![((Real.sqrt 2 : ℝ) : ℂ) • w 1]

/-- `expand` for `Gammadim` 2 (wilson_vector.h:613-650). -/
noncomputable def halfExpand2 (c : WVec 1 N) (dir : Fin 3) (sign : ℤ) : WVec 2 N :=
  match dir with
  | 0 => if sign = 1 then ![c 0, c 0] else ![c 0, -c 0]
  | 1 => if sign = 1 then ![c 0, Complex.I • c 0] else ![c 0, -Complex.I • c 0]
  | 2 => if sign = 1 then ![((Real.sqrt 2 : ℝ) : ℂ) • c 0, 0] else ![0, ((Real.sqrt 2 : ℝ) : ℂ) • c 0]

/-- `squarenorm` of a half vector (wilson_vector.h:654-662). -/
def halfSquarenorm (c : WVec H N) : ℝ := (List.finRange H).foldl (fun r i => r + ∑ a, Complex.normSq (c i a)) 0

/-- The functions on Wilson vectors for a number of directions `n`: `gamma_matrix[d] * w`, the projection and `expand`. -/
structure SpinCode (n G H N : ℕ) where
  gamma : Fin n → WVec G N → WVec G N
  proj : WVec G N → Fin n → ℤ → WVec H N
  expand : WVec H N → Fin n → ℤ → WVec G N

/-- `NDIM` 2. -/
noncomputable def spin2 (N : ℕ) : SpinCode 2 2 1 N where
  gamma d := gammaMul2 (gammaList2 (d.castLE (by omega)))
  proj w d := halfProj2 w (d.castLE (by omega))
  expand c d := halfExpand2 c (d.castLE (by omega))

/-- `NDIM` 3. -/
noncomputable def spin3 (N : ℕ) : SpinCode 3 2 1 N where
  gamma d := gammaMul2 (gammaList2 d)
  proj := halfProj2
  expand := halfExpand2

/-- `NDIM` 4. -/
noncomputable def spin4 (N : ℕ) : SpinCode 4 4 2 N where
  gamma d := gammaMul4 (gammaList4 (d.castLE (by omega)))
  proj w d := halfProj4 w (d.castLE (by omega))
  expand c d := halfExpand4 c (d.castLE (by omega))

/-- `NDIM` 5. -/
noncomputable def spin5 (N : ℕ) : SpinCode 5 4 2 N where
  gamma d := gammaMul4 (gammaList4 d)
  proj := halfProj4
  expand := halfExpand4

/-- The code for one of the dimensions that are allowed (wilson_vector.h:11-39). -/
inductive SpinCode.IsCode {N : ℕ} : {n G H : ℕ} → SpinCode n G H N → Prop
  | two : (spin2 N).IsCode
  | three : (spin3 N).IsCode
  | four : (spin4 N).IsCode
  | five : (spin5 N).IsCode

/-- A matrix times a Wilson vector or half vector (wilson_vector.h:256-266, 696-702). -/
def colourMul {s : ℕ} (M : Mat N) (w : WVec s N) : WVec s N := fun i => M.mulVec (w i)

/-- A field of Wilson vectors. -/
abbrev WField (L : Fin n → ℕ) (G N : ℕ) := PSite L → WVec G N

/-- The field `vtemp[dir]` after the loops at wilson.h:33-36 and 71-74. It is a global variable: at the other sites it keeps the values `tmp` of earlier calls. -/
noncomputable def wilTemp (S : SpinCode n G H N) (tmp : Fin n → WField L H N) (vin : WField L G N) (par : Parity) (sign : ℤ) (d : Fin n) : WField L H N :=
  assignOn (oppParity par) (tmp d) fun x => S.proj (vin x) d sign

/-- The field `vtemp[-dir]` after the loops at wilson.h:29-32 and 67-70. The halo of this field is filled but no statement reads the field. -/
noncomputable def wilTempBack (S : SpinCode n G H N) (tmp : Fin n → WField L H N) (U : GField L N) (vin : WField L G N) (par : Parity) (sign : ℤ) (d : Fin n) :
    WField L H N :=
  assignOn (oppParity par) (tmp d) fun x => colourMul (U d x).conjTranspose (S.proj (vin x) d (-sign))

/-- `Dirac_Wilson_hop` (wilson.h:14-50). The site loops read `v_in` only through `vtemp`, so it makes no difference if `v_out` is the same field. -/
noncomputable def wilHop (S : SpinCode n G H N) (bc : Fin n → Bool) (tmp : Fin n → WField L H N) (U : GField L N) (kappa : ℝ) (vin vout : WField L G N)
    (par : Parity) (sign : ℤ) : WField L G N :=
  (List.finRange n).foldl (fun vo d => assignOn par vo fun x =>
    vo x - S.expand (colourMul ((kappa : ℂ) • U d x) (fwdBc bc (wilTemp S tmp vin par sign d) d x)) d sign -
      S.expand ((kappa : ℂ) • fwdBc bc (wilTemp S tmp vin par sign d) d x) d (-sign)) vout

/-- `Dirac_Wilson_hop_set` (wilson.h:52-95): the first direction sets the values, the others add. -/
noncomputable def wilHopSet (S : SpinCode n G H N) (bc : Fin n → Bool) (tmp : Fin n → WField L H N) (U : GField L N) (kappa : ℝ) (vin vout : WField L G N)
    (par : Parity) (sign : ℤ) : WField L G N :=
  (List.finRange n).foldl (fun vo d => assignOn par vo fun x =>
    (if d.val = 0 then 0 else vo x) - S.expand (colourMul ((kappa : ℂ) • U d x) (fwdBc bc (wilTemp S tmp vin par sign d) d x)) d sign -
      S.expand ((kappa : ℂ) • fwdBc bc (wilTemp S tmp vin par sign d) d x) d (-sign)) vout

/-- `apply` (`sign` 1) and `dagger` (`sign` -1) of `Dirac_Wilson` (wilson.h:182-192) with `Dirac_Wilson_diag` (97-102); `out` is the field at the call. -/
noncomputable def diracWilson (S : SpinCode n G H N) (bc : Fin n → Bool) (tmp : Fin n → WField L H N) (U : GField L N) (kappa : ℝ) (sign : ℤ)
    (vin out : WField L G N) : WField L G N :=
  wilHop S bc tmp U kappa vin (assignOn .all out fun x => vin x) .all sign

/-- `apply` and `dagger` of `Dirac_Wilson_evenodd` (wilson.h:271-289). `Dirac_Wilson_diag_inverse` (104-106) does nothing. -/
noncomputable def diracWilsonEO (S : SpinCode n G H N) (bc : Fin n → Bool) (tmp tmp2 : Fin n → WField L H N) (U : GField L N) (kappa : ℝ) (sign : ℤ)
    (vin out : WField L G N) : WField L G N :=
  let out := assignOn .even out fun x => vin x
  let out := wilHopSet S bc tmp U kappa vin out .odd sign
  let out := wilHop S bc tmp2 U (-kappa) out out .even sign
  assignOn .odd out fun _ => 0

/-- `outer_product` of Wilson vectors (wilson_vector.h:226-236). -/
def wilOuter (a b : WVec G N) : Mat N := (List.finRange G).foldl (fun r i => r + outerP (a i) (b i)) 0

/-- `Dirac_Wilson_calc_force` (wilson.h:108-138). The temporary fields `vtemp[0]` and `vtemp[1]` have the boundary conditions of `chi`. -/
noncomputable def wilForce (S : SpinCode n G H N) (bc : Fin n → Bool) (tmp0 tmp1 : WField L H N) (kappa : ℝ) (chi psi : WField L G N) (par : Parity) (sign : ℤ) :
    GField L N := fun d =>
  let t0 : WField L H N := assignOn (oppParity par) tmp0 fun x => S.proj (chi x) d (-sign)
  let t1 : WField L H N := assignOn par tmp1 fun x => S.proj (psi x) d sign
  let out : PSite L → Mat N := fun _ => 0
  let out := assignOn par out fun x => (-kappa : ℂ) • wilOuter (S.expand (fwdBc bc t0 d x) d (-sign)) (psi x)
  assignOn (oppParity par) out fun x => out x - (kappa : ℂ) • wilOuter (S.expand (fwdBc bc t1 d x) d sign) (chi x)

end Hila
