import Verif.Model.Gauge
import Mathlib.LinearAlgebra.Matrix.DotProduct

/-!
# The staggered Dirac operator

libraries/dirac/staggered.h. The lattice is the torus of `Model/Gauge`. A fermion field has a colour vector at each site. The header
`datatypes/sun.h` with the type `SU_vector` is not in the repository; the colour vectors here are vectors of `N` complex numbers with
the product of matrix and vector and the `outer_product` of matrix.h:1437-1448.
-/

namespace Hila

variable {n : ℕ} {L : Fin n → ℕ} {N : ℕ}

/-- A field of colour vectors. -/
abbrev CField (L : Fin n → ℕ) (N : ℕ) := PSite L → Fin N → ℂ

/-- The value `f[X + d]` of a field with boundary conditions: `bc d` if the condition in direction `d` is `ANTIPERIODIC`. Then the value
changes sign where the step leaves the lattice (field_comm.h:27-30 and 118-124, lattice.cpp:995-1023). `set_boundary_condition` sets the
condition for both orientations (field.h:747-748). -/
def fwdBc {T : Type} [Neg T] (bc : Fin n → Bool) (f : PSite L → T) (d : Fin n) (x : PSite L) : T :=
  if bc d ∧ (x d).val + 1 = L d then -f (x + unitStep d) else f (x + unitStep d)

/-- The value `f[X - d]`. -/
def bwdBc {T : Type} [Neg T] (bc : Fin n → Bool) (f : PSite L → T) (d : Fin n) (x : PSite L) : T :=
  if bc d ∧ (x d).val = 0 then -f (x - unitStep d) else f (x - unitStep d)

/-- `init_staggered_eta` (staggered.h:14-28). -/
def stagEta (d : Fin n) (x : PSite L) : ℝ :=
  let sumcoord : ℕ := (List.finRange n).foldl (fun s d2 => if d2 < d then s + (x d2).val else s) 0
  ((((sumcoord % 2 : ℕ) : ℤ) * 2 - 1 : ℤ) : ℝ)

/-- `dirac_staggered_diag` (staggered.h:31-35). -/
noncomputable def stagDiag (mass : ℝ) (vin vout : CField L N) (par : Parity) : CField L N :=
  assignOn par vout fun x => vout x + (mass : ℂ) • vin x

/-- `dirac_staggered_diag_inverse` (staggered.h:39-42). -/
noncomputable def stagDiagInv (mass : ℝ) (vout : CField L N) (par : Parity) : CField L N :=
  assignOn par vout fun x => ((1.0 / mass : ℝ) : ℂ) • vout x

/-- The fields `vtemp` after the loop at staggered.h:56-59. They are global variables: at the other sites they keep the values `tmp` of
earlier calls. -/
noncomputable def stagTemp (U : GField L N) (tmp : Fin n → CField L N) (vin : CField L N) (par : Parity) (d : Fin n) : CField L N :=
  assignOn (oppParity par) (tmp d) fun x => (U d x).conjTranspose.mulVec (vin x)

/-- `dirac_staggered_hop` (staggered.h:45-66) for different fields `v_in` and `v_out`. -/
noncomputable def stagHop (bc : Fin n → Bool) (tmp : Fin n → CField L N) (U : GField L N) (vin vout : CField L N) (par : Parity) (sign : ℤ) :
    CField L N :=
  (List.finRange n).foldl (fun vo d => assignOn par vo fun x =>
    vo x + ((0.5 * sign * stagEta d x : ℝ) : ℂ) • ((U d x).mulVec (fwdBc bc vin d x) - bwdBc bc (stagTemp U tmp vin par d) d x)) vout

/-- `dirac_staggered_hop` (staggered.h:45-66) if `v_in` and `v_out` are the same field (staggered.h:245, 255). -/
noncomputable def stagHopSelf (bc : Fin n → Bool) (tmp : Fin n → CField L N) (U : GField L N) (v : CField L N) (par : Parity) (sign : ℤ) :
    CField L N :=
  (List.finRange n).foldl (fun vo d => assignOn par vo fun x =>
    vo x + ((0.5 * sign * stagEta d x : ℝ) : ℂ) • ((U d x).mulVec (fwdBc bc vo d x) - bwdBc bc (stagTemp U tmp v par d) d x)) v

/-- `outer_product` (matrix.h:1437-1448). -/
def outerP (a b : Fin N → ℂ) : Mat N := Matrix.of fun i j => a i * star (b j)

/-- `dirac_staggered_calc_force` (staggered.h:68-83). The fields `chi` and `psi` have the same boundary conditions. -/
noncomputable def stagCalcForce (bc : Fin n → Bool) (chi psi : CField L N) (sign : ℤ) (par : Parity) : GField L N := fun d =>
  let out : PSite L → Mat N := fun _ => 0
  let out := assignOn par out fun x => ((-sign * 0.5 * stagEta d x : ℝ) : ℂ) • outerP (fwdBc bc chi d x) (psi x)
  assignOn (oppParity par) out fun x =>
    out x + ((sign * 0.5 * stagEta d (x + unitStep d) : ℝ) : ℂ) • outerP (fwdBc bc psi d x) (chi x)

/-- The member functions of a Dirac operator that the actions use (staggered.h:92-156, 193-279, Hasenbusch.h:15-53). `apply` and `dagger`
return the field `out`; what it contained at the call does not matter to the operators here. The argument `U` are the links. -/
structure DiracOp (L : Fin n → ℕ) (N : ℕ) where
  par : Parity
  apply : GField L N → CField L N → CField L N
  dagger : GField L N → CField L N → CField L N
  force : GField L N → CField L N → CField L N → ℤ → GField L N

/-- `dirac_staggered` (staggered.h:92-156). -/
noncomputable def diracStaggered (bc : Fin n → Bool) (tmp : Fin n → CField L N) (mass : ℝ) : DiracOp L N where
  par := .all
  apply U vin := stagHop bc tmp U vin (stagDiag mass vin (fun _ => 0) .all) .all 1
  dagger U vin := stagHop bc tmp U vin (stagDiag mass vin (fun _ => 0) .all) .all (-1)
  force _ chi psi sign := stagCalcForce bc chi psi sign .all

/-- `apply` and `dagger` of `dirac_staggered_evenodd` (staggered.h:239-256), `sign` is 1 or -1. -/
noncomputable def stagEO (bc : Fin n → Bool) (tmp tmp2 : Fin n → CField L N) (mass : ℝ) (U : GField L N) (vin : CField L N) (sign : ℤ) :
    CField L N :=
  let out := stagDiag mass vin (fun _ => 0) .even
  let out := stagHop bc tmp U vin out .odd sign
  let out := stagDiagInv mass out .odd
  stagHopSelf bc tmp2 U out .even sign

/-- `force` of `dirac_staggered_evenodd` (staggered.h:260-278). -/
noncomputable def stagEOForce (bc : Fin n → Bool) (tmp1 tmp2 : Fin n → CField L N) (mass : ℝ) (U : GField L N) (chi psi : CField L N) (sign : ℤ) :
    GField L N :=
  let tmp := stagHop bc tmp1 U chi (fun _ => 0) .odd (-sign)
  let tmp := stagDiagInv mass tmp .odd
  let force := stagCalcForce bc tmp psi sign .even
  let tmp := stagHop bc tmp2 U psi (fun _ => 0) .odd sign
  let tmp := stagDiagInv mass tmp .odd
  let force2 := stagCalcForce bc chi tmp sign .odd
  fun d x => force d x + force2 d x

/-- `dirac_staggered_evenodd` (staggered.h:193-279). -/
noncomputable def diracStaggeredEO (bc : Fin n → Bool) (tmp tmp2 : Fin n → CField L N) (mass : ℝ) : DiracOp L N where
  par := .even
  apply U vin := stagEO bc tmp tmp2 mass U vin 1
  dagger U vin := stagEO bc tmp tmp2 mass U vin (-1)
  force := stagEOForce bc tmp tmp2 mass

/-- `Hasenbusch_operator` (Hasenbusch.h:15-53). -/
noncomputable def hasenbuschOp (D : DiracOp L N) (h : ℝ) : DiracOp L N where
  par := D.par
  apply U vin := assignOn D.par (D.apply U vin) fun x => D.apply U vin x + (h : ℂ) • vin x
  dagger U vin := assignOn D.par (D.dagger U vin) fun x => D.dagger U vin x + (h : ℂ) • vin x
  force := D.force

end Hila
