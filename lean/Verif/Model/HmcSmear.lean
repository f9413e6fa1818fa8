import Verif.Model.Gauge
import Verif.Model.TaylorExp
import Mathlib.Analysis.Complex.Basic

/-!
# Smeared gauge fields of the HMC library

Models `/repo/libraries/hmc/smearing.h`: `exp_and_derivative`, `staple_dir_derivative`, the classes `stout_smeared_field` and `HEX_smeared_field`
(`refresh` and `add_momentum`), with `calc_staples` and the base class' `add_momentum` of `/repo/libraries/hmc/gauge_field.h`.

Lattice and fields as in `Model/Gauge`, exact numbers; the matrices have size `k + 1`. The function `project_antihermitean` is called but not
defined in the repository; it is taken as the projection to the traceless antihermitean matrices (`antiProj`), and `Q.exp(exp_steps)` as the
function `exp` of matrix.h. Memory management is not modelled.
-/

namespace Hila

variable {n : ℕ} {L : Fin n → ℕ} {k : ℕ}

/-- `project_antihermitean(A)`: `(A - A†)/2` without its trace (called in smearing.h:147 and gauge_field.h:253). -/
noncomputable def antiProj (A : Mat (k + 1)) : Mat (k + 1) :=
  (1 / 2 : ℂ) • (A - A.conjTranspose) - (((1 / 2 : ℂ) • (A - A.conjTranspose)).trace / (k + 1 : ℕ)) • 1

/-- The variables of `exp_and_derivative` (smearing.h:9-15). -/
structure ExpDer (k : ℕ) where
  n : ℂ
  m1 : Mat (k + 1)
  qn : Mat (k + 1)
  eQ : Mat (k + 1)
  lam : Mat (k + 1)

/-- The loop of `exp_and_derivative` (smearing.h:23-31): turns left and the counter. -/
noncomputable def expDerLoop (Q m0 : Mat (k + 1)) : ℕ → ℕ → ExpDer k → ExpDer k
  | 0, _, s => s
  | f + 1, j, s =>
    let nn := s.n * 1 / (j : ℂ)
    let m1 := m0 * s.qn + Q * s.m1
    let qn := s.qn * Q
    expDerLoop Q m0 f (j + 1) ⟨nn, m1, qn, s.eQ + nn • qn, s.lam + nn • m1⟩

/-- `exp_and_derivative(Q, m0, lambda, eQ, exp_steps)` (smearing.h:8-32) with `exp_steps ≥ 0`: the pair `lambda`, `eQ`. -/
noncomputable def expAndDer (steps : ℕ) (Q m0 : Mat (k + 1)) : Mat (k + 1) × Mat (k + 1) :=
  let s0 : ExpDer k := if steps = 0 then ⟨1, m0, Q, 1, 0⟩ else ⟨1, m0, Q, 1 + Q, m0⟩
  let s := expDerLoop Q m0 (steps - 1) 2 s0
  (s.lam, s.eQ)

/-- `calc_staples(U1, U2, dir1, dir2)` (gauge_field.h:126-139) from the fields `U1[dir1]` and `U2[dir2]`. -/
def staple2 (U1 U2 : PSite L → Mat (k + 1)) (d1 d2 : Fin n) : PSite L → Mat (k + 1) :=
  let down : PSite L → Mat (k + 1) := fun x => (U2 (x + unitStep d1)).conjTranspose * (U1 x).conjTranspose * U2 x
  fun x => 0 + U2 (x + unitStep d1) * (U1 (x + unitStep d2)).conjTranspose * (U2 x).conjTranspose + down (x - unitStep d2)

/-- A sum of staple fields, added one after the other (gauge_field.h:142-157, smearing.h:300-306, 320-323). -/
def stapleFieldSum {τ : Type*} (ts : List τ) (f : τ → PSite L → Mat (k + 1)) (s : PSite L → Mat (k + 1)) : PSite L → Mat (k + 1) :=
  ts.foldl (fun s t => fun x => s x + f t x) s

/-- `calc_staples(U, dir)` (gauge_field.h:142-157). -/
def stapleAll (U : GField L (k + 1)) (d : Fin n) : PSite L → Mat (k + 1) :=
  stapleFieldSum ((List.finRange n).filter (· ≠ d)) (fun e => staple2 (U d) (U e) d e) fun _ => 0

/-- What `staple_dir_derivative` adds to `result1` (smearing.h:52, 56, 63). -/
def stapleDer1 (U2 Lam : PSite L → Mat (k + 1)) (d1 d2 : Fin n) : PSite L → Mat (k + 1) :=
  let der3 : PSite L → Mat (k + 1) := fun x => ((U2 x).conjTranspose * Lam x * U2 (x + unitStep d1)).conjTranspose
  fun x => U2 (x + unitStep d1) * (Lam (x + unitStep d2)).conjTranspose * (U2 x).conjTranspose + der3 (x - unitStep d2)

/-- What `staple_dir_derivative` adds to `result2` (smearing.h:50-51, 55, 57, 62). -/
def stapleDer2 (U1 U2 Lam : PSite L → Mat (k + 1)) (d1 d2 : Fin n) : PSite L → Mat (k + 1) :=
  let der2 : PSite L → Mat (k + 1) := fun x =>
    (U1 (x + unitStep d2)).conjTranspose * (U2 x).conjTranspose * Lam x +
      (Lam (x + unitStep d2)).conjTranspose * (U2 x).conjTranspose * U1 x
  fun x => (Lam x * U2 (x + unitStep d1) * (U1 (x + unitStep d2)).conjTranspose).conjTranspose +
    Lam (x + unitStep d2) * (U2 (x + unitStep d1)).conjTranspose * (U1 x).conjTranspose + der2 (x - unitStep d1)

/-- The new link `U exp(Q)` with `Q` the projection of `-c U S` (smearing.h:145-149, 289-294, 308-313, 325-330). -/
noncomputable def smearLink (steps : ℕ) (c : ℝ) (u s : Mat (k + 1)) : Mat (k + 1) :=
  u * matExp (𝕜 := ℂ) (k := k) steps (antiProj (((-c : ℝ) : ℂ) • (u * s)))

/-- The derivative at one link (smearing.h:189-207, 364-380, 392-408, 424-440): the part for the link itself and the derivative with respect to
its staple. -/
noncomputable def smearLinkForce (steps : ℕ) (c : ℝ) (F u s : Mat (k + 1)) : Mat (k + 1) × Mat (k + 1) :=
  let Q := antiProj (((-c : ℝ) : ℂ) • (u * s))
  let le := expAndDer steps Q (F * u)
  let lam := antiProj le.1
  (le.2 * F - ((c : ℝ) : ℂ) • (s * lam), ((-c : ℝ) : ℂ) • (lam * u))

/-- One step of `stout_smeared_field::refresh` (smearing.h:139-152). -/
noncomputable def hmcStoutStep (steps : ℕ) (c : ℝ) (U : GField L (k + 1)) : GField L (k + 1) :=
  fun d x => smearLink steps c (U d x) (stapleAll U d x)

/-- `stout_smeared_field::refresh` (smearing.h:135-153): the field after `m` steps. -/
noncomputable def hmcStout (steps : ℕ) (c : ℝ) : ℕ → GField L (k + 1) → GField L (k + 1)
  | 0, U => U
  | m + 1, U => hmcStoutStep steps c (hmcStout steps c m U)

/-- `R[i] += v`: one array element is changed, `R` may have one or two indices. -/
def addAt {ι : Type*} [DecidableEq ι] (R : ι → PSite L → Mat (k + 1)) (i : ι) (v : PSite L → Mat (k + 1)) : ι → PSite L → Mat (k + 1) :=
  fun d x => R d x + if d = i then v x else 0

/-- A loop over calls of `staple_dir_derivative` (smearing.h:211-214, 385-389, 412-420, 444-448): each adds to the element `i p` what belongs to
`result1` and to the element `j p` what belongs to `result2`. -/
def stapleForceLoop {ι τ : Type*} [DecidableEq ι] (i j : τ → ι) (v w : τ → PSite L → Mat (k + 1)) (R : ι → PSite L → Mat (k + 1)) (ps : List τ) :
    ι → PSite L → Mat (k + 1) :=
  ps.foldl (fun R p => addAt (addAt R (i p) (v p)) (j p) (w p)) R

/-- The additions to `result[mu]` in the exponentials of the levels 2 and 3 (smearing.h:402-405, 434-437), the two lines as one. -/
def linkForceLoop {ι τ : Type*} [DecidableEq ι] (i : τ → ι) (v : τ → PSite L → Mat (k + 1)) (R : ι → PSite L → Mat (k + 1)) (ps : List τ) :
    ι → PSite L → Mat (k + 1) :=
  ps.foldl (fun R p => addAt R (i p) (v p)) R

/-- The pairs of different directions in the order of the loops. -/
def smearPairs (n : ℕ) : List (Fin n × Fin n) :=
  (List.finRange n).flatMap fun d1 => ((List.finRange n).filter (· ≠ d1)).map fun d2 => (d1, d2)

/-- One step of `stout_smeared_field::add_momentum` (smearing.h:175-221) with the field `U` of the level below: the force for that field. -/
noncomputable def hmcStoutForceStep (steps : ℕ) (c : ℝ) (U F : GField L (k + 1)) : GField L (k + 1) :=
  let z := fun d x => smearLinkForce steps c (F d x) (U d x) (stapleAll U d x)
  stapleForceLoop Prod.fst Prod.snd (fun p => stapleDer1 (U p.2) (fun x => (z p.1 x).2) p.1 p.2)
    (fun p => stapleDer2 (U p.1) (U p.2) (fun x => (z p.1 x).2) p.1 p.2) (fun d x => (z d x).1) (smearPairs n)

/-- The loop of `stout_smeared_field::add_momentum` (smearing.h:175-221) from the highest level down, for the base field `U`. -/
noncomputable def hmcStoutForce (steps : ℕ) (c : ℝ) (U : GField L (k + 1)) : ℕ → GField L (k + 1) → GField L (k + 1)
  | 0, F => F
  | m + 1, F => hmcStoutForce steps c U m (hmcStoutForceStep steps c (hmcStout steps c m U) F)

/-- The remaining direction `eta` (smearing.h:303-304): the last direction different from the three; `0` where the code leaves it unset. -/
def fourthDir (mu nu rho : Fin 4) : Fin 4 := ((List.finRange 4).filter fun e => decide (e ≠ mu ∧ e ≠ nu ∧ e ≠ rho)).getLastD 0

/-- The directions of the staples of the level 2 (smearing.h:302, 413). -/
def hexRho (mu nu : Fin 4) : List (Fin 4) := (List.finRange 4).filter fun rho => decide (rho ≠ mu ∧ rho ≠ nu)

/-- The loops over `mu`, `nu`, `rho` (smearing.h:412-413). -/
def hexTriples : List ((Fin 4 × Fin 4) × Fin 4) := (smearPairs 4).flatMap fun p => (hexRho p.1 p.2).map fun rho => (p, rho)

/-- The parameters of `HEX_smeared_field` (smearing.h:248-252), and the contents of `level3[mu][mu]` and `level2[mu][mu]`, which are never set. -/
structure Hex (L : Fin 4 → ℕ) (k : ℕ) where
  c1 : ℝ
  c2 : ℝ
  c3 : ℝ
  steps : ℕ
  unset3 : Fin 4 → PSite L → Mat (k + 1)
  unset2 : Fin 4 → PSite L → Mat (k + 1)

variable {L4 : Fin 4 → ℕ}

/-- `staples3[nu][mu]` (smearing.h:287); the pair is the index `(nu, mu)`. -/
def hexStaples3 (U : GField L4 (k + 1)) (p : Fin 4 × Fin 4) : PSite L4 → Mat (k + 1) := staple2 (U p.2) (U p.1) p.2 p.1

/-- `level3[nu][mu]` (smearing.h:286-295). -/
noncomputable def hexLevel3 (h : Hex L4 k) (U : GField L4 (k + 1)) (p : Fin 4 × Fin 4) : PSite L4 → Mat (k + 1) :=
  if p.1 = p.2 then h.unset3 p.1 else fun x => smearLink h.steps h.c3 (U p.2 x) (hexStaples3 U p x)

/-- `staples2[nu][mu]` (smearing.h:301-307). -/
noncomputable def hexStaples2 (h : Hex L4 k) (U : GField L4 (k + 1)) (p : Fin 4 × Fin 4) : PSite L4 → Mat (k + 1) :=
  stapleFieldSum (hexRho p.2 p.1)
    (fun rho => staple2 (hexLevel3 h U (fourthDir p.2 p.1 rho, p.2)) (hexLevel3 h U (fourthDir p.2 p.1 rho, rho)) p.2 rho) fun _ => 0

/-- `level2[nu][mu]` (smearing.h:300, 308-314). -/
noncomputable def hexLevel2 (h : Hex L4 k) (U : GField L4 (k + 1)) (p : Fin 4 × Fin 4) : PSite L4 → Mat (k + 1) :=
  if p.1 = p.2 then h.unset2 p.1 else fun x => smearLink h.steps h.c2 (U p.2 x) (hexStaples2 h U p x)

/-- `staples1[mu]` (smearing.h:320-324). -/
noncomputable def hexStaples1 (h : Hex L4 k) (U : GField L4 (k + 1)) (mu : Fin 4) : PSite L4 → Mat (k + 1) :=
  stapleFieldSum ((List.finRange 4).filter (· ≠ mu)) (fun nu => staple2 (hexLevel2 h U (nu, mu)) (hexLevel2 h U (mu, nu)) mu nu) fun _ => 0

/-- `HEX_smeared_field::refresh` (smearing.h:278-333). -/
noncomputable def hexSmear (h : Hex L4 k) (U : GField L4 (k + 1)) : GField L4 (k + 1) :=
  fun mu x => smearLink h.steps h.c1 (U mu x) (hexStaples1 h U mu x)

/-- The exponential of the level 1 in `add_momentum` (smearing.h:362-382): the new `result[mu]` and `lambda1[mu]`. -/
noncomputable def hexZ1 (h : Hex L4 k) (U F : GField L4 (k + 1)) (mu : Fin 4) (x : PSite L4) : Mat (k + 1) × Mat (k + 1) :=
  smearLinkForce h.steps h.c1 (F mu x) (U mu x) (hexStaples1 h U mu x)

/-- `result1` after the staples of the level 1 (smearing.h:385-388). -/
noncomputable def hexResult1 (h : Hex L4 k) (U F : GField L4 (k + 1)) : Fin 4 × Fin 4 → PSite L4 → Mat (k + 1) :=
  stapleForceLoop (fun p : Fin 4 × Fin 4 => (p.2, p.1)) (fun p => (p.1, p.2))
    (fun p => stapleDer1 (hexLevel2 h U (p.1, p.2)) (fun x => (hexZ1 h U F p.1 x).2) p.1 p.2)
    (fun p => stapleDer2 (hexLevel2 h U (p.2, p.1)) (hexLevel2 h U (p.1, p.2)) (fun x => (hexZ1 h U F p.1 x).2) p.1 p.2)
    (fun _ _ => 0) (smearPairs 4)

/-- The exponential of the level 2 (smearing.h:391-410): what is added to `result[mu]` and `lambda2[nu][mu]`. -/
noncomputable def hexZ2 (h : Hex L4 k) (U F : GField L4 (k + 1)) (p : Fin 4 × Fin 4) (x : PSite L4) : Mat (k + 1) × Mat (k + 1) :=
  smearLinkForce h.steps h.c2 (hexResult1 h U F p x) (U p.2 x) (hexStaples2 h U p x)

/-- `result2` after the staples of the level 2 (smearing.h:412-420). -/
noncomputable def hexResult2 (h : Hex L4 k) (U F : GField L4 (k + 1)) : Fin 4 × Fin 4 → PSite L4 → Mat (k + 1) :=
  stapleForceLoop (fun q : (Fin 4 × Fin 4) × Fin 4 => (fourthDir q.1.1 q.1.2 q.2, q.1.1)) (fun q => (fourthDir q.1.1 q.1.2 q.2, q.2))
    (fun q => stapleDer1 (hexLevel3 h U (fourthDir q.1.1 q.1.2 q.2, q.2)) (fun x => (hexZ2 h U F (q.1.2, q.1.1) x).2) q.1.1 q.2)
    (fun q => stapleDer2 (hexLevel3 h U (fourthDir q.1.1 q.1.2 q.2, q.1.1)) (hexLevel3 h U (fourthDir q.1.1 q.1.2 q.2, q.2))
      (fun x => (hexZ2 h U F (q.1.2, q.1.1) x).2) q.1.1 q.2)
    (fun _ _ => 0) hexTriples

/-- The exponential of the level 3 (smearing.h:423-442): what is added to `result[mu]` and `lambda3[nu][mu]`. -/
noncomputable def hexZ3 (h : Hex L4 k) (U F : GField L4 (k + 1)) (p : Fin 4 × Fin 4) (x : PSite L4) : Mat (k + 1) × Mat (k + 1) :=
  smearLinkForce h.steps h.c3 (hexResult2 h U F p x) (U p.2 x) (hexStaples3 U p x)

/-- `HEX_smeared_field::add_momentum` (smearing.h:345-452): the array `result` given to the base field. -/
noncomputable def hexForce (h : Hex L4 k) (U F : GField L4 (k + 1)) : GField L4 (k + 1) :=
  let r1 : GField L4 (k + 1) := fun mu x => (hexZ1 h U F mu x).1
  let r2 := linkForceLoop (fun p : Fin 4 × Fin 4 => p.1) (fun p x => (hexZ2 h U F (p.2, p.1) x).1) r1 (smearPairs 4)
  let r3 := linkForceLoop (fun p : Fin 4 × Fin 4 => p.1) (fun p x => (hexZ3 h U F (p.2, p.1) x).1) r2 (smearPairs 4)
  stapleForceLoop (fun p : Fin 4 × Fin 4 => p.1) (fun p => p.2) (fun p => stapleDer1 (U p.2) (fun x => (hexZ3 h U F (p.2, p.1) x).2) p.1 p.2)
    (fun p => stapleDer2 (U p.1) (U p.2) (fun x => (hexZ3 h U F (p.2, p.1) x).2) p.1 p.2) r3 (smearPairs 4)

/-- `gauge_field::add_momentum` (gauge_field.h:249-257): the new momentum. -/
noncomputable def baseAddMomentum (U F mom : GField L (k + 1)) : GField L (k + 1) :=
  fun d x => mom d x + antiProj (U d x * F d x)

/-- `allocate()` (smearing.h:115-124) for the array `smeared_fields`: `none` in an entry is unset memory, `some true` the field `gauge` of the object
itself, `some false` a new field. The result is `none` if an entry outside of the array is written (or if the size is negative, where `malloc`
fails). -/
def stoutAllocate (m : ℤ) : Option (List (Option Bool)) :=
  if m < 0 then none
  else
    let a := (List.range (m - 1).toNat).foldl (fun a i => a.set i (some false)) (List.replicate m.toNat none)
    if m - 1 < 0 then none else some (a.set (m - 1).toNat (some true))

end Hila
