import Verif.Model.GaugeUpdate

/-!
# The program suN_gauge_surface

applications/suN_gauge_surface/src/suN_gauge_surface.cpp:42-600, without `SUN_OVERRELAX_dFJ`. Simplifications as in `Model/GaugeUpdate`; `ez` and `et` are the
directions z and t. The spectra of the surfaces (FFTW) and the output are not modelled.
-/

namespace Hila

open Function

variable {R : Type} [DecidableEq R] {n : ℕ} {L : Fin n → ℕ} {N : ℕ}

/-! ### Two couplings -/

/-- The factor `m` (suN_gauge_surface.cpp:61-65, 73-77) and `c` (98-102). -/
noncomputable def zWeight (ez : Fin n) (deltab : ℝ) (x : PSite L) : ℝ := if 2 * (x ez).val < L ez then 1.0 - deltab else 1.0 + deltab

/-- `staplesum_db` (suN_gauge_surface.cpp:42-81). -/
noncomputable def staplesumDb (ez : Fin n) (U : GField L N) (staples : PSite L → Option (Mat N)) (d1 : Fin n) (par : Parity) (deltab : ℝ) :
    PSite L → Option (Mat N) :=
  (((List.finRange n).filter (· ≠ d1)).foldl (stapleStep par
    (fun d2 x => (zWeight ez deltab x : ℂ) • (U d2 x).conjTranspose * U d1 x * U d2 (x + unitStep d1))
    (fun d2 x => (zWeight ez deltab x : ℂ) • U d2 x * U d1 (x + unitStep d2) * (U d2 (x + unitStep d1)).conjTranspose))
    ⟨fun _ => none, false, assignOn par staples fun _ => some 0⟩).staples

/-- `measure_plaq_db` (suN_gauge_surface.cpp:84-111). -/
noncomputable def measurePlaqDb [∀ d, NeZero (L d)] (ez : Fin n) (U : GField L N) (db : ℝ) : ℝ :=
  let plaq := fun d1 d2 x =>
    1.0 - (U d1 x * U d2 (x + unitStep d1) * (U d1 (x + unitStep d2)).conjTranspose * (U d2 x).conjTranspose).trace.re / N
  ∑ d1, ∑ d2, if d1 < d2 then (if db = 0 then ∑ x, plaq d1 d2 x else ∑ x, zWeight ez db x * plaq d1 d2 x) else 0

/-! ### Updates -/

/-- The staples that `update_parity_dir` computes (suN_gauge_surface.cpp:492-497). -/
noncomputable def surfStaples (ez : Fin n) (deltab : ℝ) (U : GField L N) (d : Fin n) (par : Parity) : PSite L → Option (Mat N) :=
  if deltab ≠ 0 then staplesumDb ez U (fun _ => none) d par deltab else staplesum U (fun _ => none) d par

/-- `update_parity_dir` (suN_gauge_surface.cpp:482-519) like `updateParityDir`, for the staples `st`. -/
noncomputable def dirUpdate (st : GField L N → Fin n → Parity → PSite L → Option (Mat N)) (beta : ℝ) (own : PSite L → R) (relax : Bool)
    (vis : Fin n × Bool → List (PSite L)) (s : LinkState L N R) (dp : Fin n × Bool) : Option (LinkState L N R) :=
  (vis dp).foldlM (linkStep beta own relax dp.1 (st s.1 dp.1 (parityOf dp.2))) s

/-- `update` (suN_gauge_surface.cpp:471-478). -/
noncomputable def surfUpdate (st : GField L N → Fin n → Parity → PSite L → Option (Mat N)) (beta : ℝ) (own : PSite L → R) (root : R)
    (vis : Fin n × Bool → List (PSite L)) (relax : Bool) (s : LinkState L N R) : Option (LinkState L N R) :=
  (shuffledDirs n (s.2 root)).bind fun order => order.foldlM (dirUpdate st beta own relax vis) (s.1, fun r k => s.2 r (2 * n - 1 + k))

/-- `do_trajectory` (suN_gauge_surface.cpp:524-534). -/
noncomputable def surfTrajectory (ez : Fin n) (deltab beta : ℝ) (own : PSite L → R) (root : R) (vis : ℕ → Fin n × Bool → List (PSite L)) (nUpdate nRelax : ℕ)
    (s : LinkState L N R) : Option (LinkState L N R) :=
  ((trajectoryOps nUpdate nRelax).zipIdx.foldlM (fun s op => surfUpdate (surfStaples ez deltab) beta own root (vis op.2) op.1 s) s).bind fun s =>
    (allSome fun d x => reunitarize (s.1 d x)).map fun U => (U, s.2)

/-! ### Updates with a condition on the Polyakov loop -/

/-- `parameters` (suN_gauge_surface.cpp:22-41), those for the Polyakov loop. -/
structure PolyPars where
  parabolic : Bool
  polyMin : ℝ
  polyMax : ℝ
  polyM2 : ℝ

/-- `polyakov_potential` (suN_gauge_surface.cpp:538-541). -/
def polyPotential (p : PolyPars) (poly : ℝ) : ℝ := p.polyM2 * (poly - p.polyMin) ^ 2

/-- `accept_polyakov` (suN_gauge_surface.cpp:546-563) with the number `u` of the rank that broadcasts. -/
noncomputable def acceptPolyakov (p : PolyPars) (pOld pNew u : ℝ) : Bool :=
  if p.parabolic then decide (u < Real.exp (-(polyPotential p pNew - polyPotential p pOld)))
  else if pNew ≥ p.polyMin ∧ pNew ≤ p.polyMax then true
  else if pNew > p.polyMax ∧ pNew < pOld then true
  else if pNew < p.polyMin ∧ pNew > pOld then true
  else false

/-- What `accept_polyakov` leaves of the random numbers: in the parabolic case every rank has used one. -/
def afterAccept (p : PolyPars) (ω : R → ℕ → ℝ) : R → ℕ → ℝ := if p.parabolic then fun r k => ω r (1 + k) else ω

/-- One turn of the loop over the parities of the links in direction t (suN_gauge_surface.cpp:584-597). The state has the links and numbers, `poly` and `acc`. -/
noncomputable def rangeTurn [∀ d, NeZero (L d)] (st : GField L N → Fin n → Parity → PSite L → Option (Mat N)) (et : Fin n) (p : PolyPars) (beta : ℝ) (own : PSite L → R)
    (root : R) (vis : Fin n × Bool → List (PSite L)) (relax : Bool) (old : PSite L → Mat N) (t : LinkState L N R × ℝ × ℝ) (par : Bool) :
    Option (LinkState L N R × ℝ × ℝ) :=
  (dirUpdate st beta own relax vis t.1 (et, par)).map fun s =>
    let pNow := (measurePolyakov s.1 et).re
    if acceptPolyakov p t.2.1 pNow (s.2 root 0) then ((s.1, afterAccept p s.2), pNow, t.2.2 + 0.5)
    else ((update s.1 et (assignOn (parityOf par) (s.1 et) old), afterAccept p s.2), t.2.1, t.2.2)

/-- The calls for the links in the other directions (suN_gauge_surface.cpp:577-580): directions below t, both parities. -/
def spatialOrder (et : Fin n) : List (Fin n × Bool) := ((List.finRange n).filter (· < et)).flatMap fun d => [(d, false), (d, true)]

/-- `update_once_with_range` (suN_gauge_surface.cpp:567-599): the state, the new `poly` and `acc`. -/
noncomputable def updateOnceRange [∀ d, NeZero (L d)] (st : GField L N → Fin n → Parity → PSite L → Option (Mat N)) (et : Fin n) (p : PolyPars) (beta : ℝ) (own : PSite L → R)
    (root : R) (vis : Fin n × Bool → List (PSite L)) (relax : Bool) (s : LinkState L N R) (poly : ℝ) : Option (LinkState L N R × ℝ × ℝ) :=
  let old := s.1 et
  ((spatialOrder et).foldlM (dirUpdate st beta own relax vis) s).bind fun s =>
    [false, true].foldlM (rangeTurn st et p beta own root vis relax old) (s, poly, 0)

/-! ### The field of Polyakov loops -/

/-- One turn of `smear_polyakov_field` (suN_gauge_surface.cpp:159-166) on the slice t = 0, a lattice of three directions.
Numbers are real; `c` is not -1/6. -/
noncomputable def smearTurn {L : Fin 3 → ℕ} (c : ℝ) (pl : PSite L → ℝ) : PSite L → ℝ := fun x =>
  (pl x + c * (pl (x + unitStep 0) + pl (x - unitStep 0) + pl (x + unitStep 1) + pl (x - unitStep 1) + pl (x + unitStep 2) + pl (x - unitStep 2))) / (1 + 6 * c)

/-- `smear_polyakov_field` (suN_gauge_surface.cpp:153-169); a negative number of turns is none. -/
noncomputable def smearPolyakov {L : Fin 3 → ℕ} (c : ℝ) (nsmear : ℤ) (pl : PSite L → ℝ) : PSite L → ℝ := Nat.iterate (smearTurn c) nsmear.toNat pl

/-- The search for the extrema of the profile (suN_gauge_surface.cpp:352-363): the state has `min`, `max`, `minloc`, `maxloc`; an unset index is `none`. -/
noncomputable def extremaStep (s : ℝ × ℝ × Option ℕ × Option ℕ) (v : ℝ × ℕ) : ℝ × ℝ × Option ℕ × Option ℕ :=
  let s := if s.1 > v.1 then (v.1, s.2.1, some v.2, s.2.2.2) else s
  if s.2.1 < v.1 then (s.1, v.1, s.2.2.1, some v.2) else s

/-- All of the profile. -/
noncomputable def extrema (profile : List ℝ) : ℝ × ℝ × Option ℕ × Option ℕ := profile.zipIdx.foldl extremaStep (1e8, 0, none, none)

/-- `startloc` (suN_gauge_surface.cpp:371-375); `none` if an index is used that was never set. -/
noncomputable def surfStart (Lz : ℕ) (profile : List ℝ) : Option ℕ :=
  let e := extrema profile
  e.2.2.1.bind fun minloc => e.2.2.2.map fun maxloc => if maxloc > minloc then (maxloc + minloc) / 2 else ((maxloc + minloc + Lz) / 2) % Lz

/-- `line[z_ind(z)]` (suN_gauge_surface.cpp:288-290): `%` of C++ keeps the sign; a negative index is `none`. -/
def lineAt (ln : List ℝ) (z : ℤ) : Option ℝ :=
  let i := (z + ln.length).tmod ln.length
  if 0 ≤ i then ln[i.toNat]? else none

/-- The condition on `line[...]` in the first loop of the two searches (suN_gauge_surface.cpp:411, 434); the second loops (414, 438) have its negation. -/
def pastSurface (second : Bool) (level v : ℝ) : Prop := if second then v ≤ level else v > level

open Classical in
/-- The first loop of the search of a surface (suN_gauge_surface.cpp:411-412, for the second surface 434-436), with at most `fuel` turns. -/
noncomputable def searchDown (ln : List ℝ) (past : ℝ → Prop) (start : ℤ) : ℕ → ℤ → Option ℤ
  | 0, _ => none
  | fuel + 1, z => (lineAt ln z).bind fun v =>
    if past v ∧ ((start - z : ℤ) : ℝ) < ln.length * 0.4 then searchDown ln past start fuel (z - 1) else some z

open Classical in
/-- The second loop (suN_gauge_surface.cpp:414-416, 438-440). -/
noncomputable def searchUp (ln : List ℝ) (past : ℝ → Prop) (start : ℤ) : ℕ → ℤ → Option ℤ
  | 0, _ => none
  | fuel + 1, z => (lineAt ln (z + 1)).bind fun v =>
    if ¬ past v ∧ ((z - start : ℤ) : ℝ) < ln.length * 0.4 then searchUp ln past start fuel (z + 1) else some z

/-- The search of a surface and the interpolation (suN_gauge_surface.cpp:409-423, 432-446). A division by zero is `none`. -/
noncomputable def findSurface (ln : List ℝ) (second : Bool) (level : ℝ) (start : ℤ) (fuel : ℕ) : Option ℝ :=
  (searchDown ln (pastSurface second level) start fuel start).bind fun z => (searchUp ln (pastSurface second level) start fuel z).bind fun z =>
    (lineAt ln z).bind fun a => (lineAt ln (z + 1)).bind fun b => if b - a = 0 then none else some (z + (level - a) / (b - a))

end Hila
