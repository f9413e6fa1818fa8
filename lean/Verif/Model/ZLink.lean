import Verif.Model.SpinSim
import Verif.Model.GaugeUpdate
import Mathlib.Algebra.Order.Floor.Ring
import Mathlib.Data.Real.Sqrt

/-!
# The program z_link_model

applications/z_link_model/src/z_link_model.cpp. Links are integers, plaquettes have shifts. The fields are the same for all ranks, every rank has its own stream of
random numbers. Numbers are exact and integers are unbounded. The program is written for NDIM 4; the model has `n` directions, the last of which is `et`. Of the
measurements the action, the plaquettes and their duals are modelled.
-/

namespace Hila

open Function

variable {R : Type} [DecidableEq R] {n : ℕ} {L : Fin n → ℕ}

/-- `GaugeField<int>`. -/
abbrev ZField (L : Fin n → ℕ) := Fin n → PSite L → ℤ

/-- `PlaquetteField<double>` (plaquettefield.h:22-72). -/
abbrev ZShift (L : Fin n → ℕ) := Fin n → Fin n → PSite L → ℝ

/-- The links `H`, the shifts `sw` and for every rank the numbers that `hila::random()` will give. -/
abbrev ZState (L : Fin n → ℕ) (R : Type) := ZField L × ZShift L × (R → ℕ → ℝ)

/-- Variables of the loop over `d2` in `staplesum` (z_link_model.cpp:119-155); `none` is an element that has not been assigned. -/
structure ZStapleState (L : Fin n → ℕ) where
  lower : PSite L → Option ℝ
  first : Bool
  staples : PSite L → Option ℝ

/-- One direction `d2 != d1` of `staplesum` (z_link_model.cpp:126-153). -/
noncomputable def zStapleStep (H : ZField L) (sw : ZShift L) (d1 : Fin n) (par : Parity) (s : ZStapleState L) (d2 : Fin n) : ZStapleState L :=
  let lower := assignOn (oppParity par) s.lower fun x => some (((-H d2 (x + unitStep d1) - H d1 x + H d2 x : ℤ) : ℝ) - sw d1 d2 x)
  let term : PSite L → Option ℝ := fun x => (lower (x - unitStep d2)).map fun l =>
    2.0 * (((H d2 (x + unitStep d1) - H d1 (x + unitStep d2) - H d2 x : ℤ) : ℝ) + sw d1 d2 x + l)
  if s.first then ⟨lower, false, assignOn par s.staples term⟩
  else ⟨lower, false, assignOn par s.staples fun x => (s.staples x).bind fun a => (term x).map fun t => a + t⟩

/-- `staplesum` (z_link_model.cpp:119-155) with a new field for the result, as in the calls at 267, 306. -/
noncomputable def zStaples (H : ZField L) (sw : ZShift L) (d1 : Fin n) (par : Parity) : PSite L → Option ℝ :=
  (((List.finRange n).filter (· ≠ d1)).foldl (zStapleStep H sw d1 par) ⟨fun _ => none, true, fun _ => none⟩).staples

/-- `lround`: to the next integer, halves away from zero. -/
noncomputable def lround (x : ℝ) : ℤ := if 0 ≤ x then ⌊x + 1 / 2⌋ else ⌈x - 1 / 2⌉

/-- The decision at the end of the three updates (z_link_model.cpp:173-178, 215-221, 236-241) on the rank `r`: a number is drawn only if the action grows. -/
noncomputable def zDecide {T : Type} (beta nds : ℝ) (old new : T) (r : R) (ω : R → ℕ → ℝ) : T × (R → ℕ → ℝ) :=
  if nds < 0 then (new, ω)
  else
    let q := drawAt r ω
    if q.1 < Real.exp (-0.5 * beta * nds) then (new, q.2) else (old, q.2)

/-- `nstap * h * h + h * stapsum` (z_link_model.cpp:170, 172, 194, 199, 207). -/
noncomputable def zLinkAction (n : ℕ) (st : ℝ) (h : ℤ) : ℝ := ((n : ℝ) - 1) * 2.0 * h * h + h * st

/-- `z_metropolis` (z_link_model.cpp:167-180): the new link and the numbers that are left. -/
noncomputable def zMetropolis (n : ℕ) (h : ℤ) (st beta : ℝ) (r : R) (ω : R → ℕ → ℝ) : ℤ × (R → ℕ → ℝ) :=
  let q := drawAt r ω
  let he := h + (1 - 2 * ⌊q.1 * 2.0⌋)
  zDecide beta (zLinkAction n st he - zLinkAction n st h) h he r q.2

/-- `lround((tsqrt - stapsum) / (2.0 * nstap))` with the root for the action `s` (z_link_model.cpp:196-197, 209). -/
noncomputable def zRootUp (n : ℕ) (st s : ℝ) : ℤ :=
  let nstap : ℝ := ((n : ℝ) - 1) * 2.0
  lround ((Real.sqrt (4.0 * nstap * s + st * st) - st) / (2.0 * nstap))

/-- `lround((-tsqrt - stapsum) / (2.0 * nstap))` (z_link_model.cpp:200-201, 206). -/
noncomputable def zRootDown (n : ℕ) (st s : ℝ) : ℤ :=
  let nstap : ℝ := ((n : ℝ) - 1) * 2.0
  lround ((-Real.sqrt (4.0 * nstap * s + st * st) - st) / (2.0 * nstap))

/-- `z_overrelax` (z_link_model.cpp:191-222). -/
noncomputable def zOverrelax (n : ℕ) (h : ℤ) (st beta : ℝ) (r : R) (ω : R → ℕ → ℝ) : ℤ × (R → ℕ → ℝ) :=
  let si := zLinkAction n st h
  let he := zRootUp n st si
  if he ≠ h then
    let se := zLinkAction n st he
    if zRootDown n st se ≠ h then (h, ω) else zDecide beta (se - si) h he r ω
  else
    let he := zRootDown n st si
    let se := zLinkAction n st he
    if zRootUp n st se ≠ h then (h, ω) else zDecide beta (se - si) h he r ω

/-- `sw_metropolis` (z_link_model.cpp:233-243). -/
noncomputable def swMetropolis (sw : ℝ) (tplaq : ℤ) (beta : ℝ) (r : R) (ω : R → ℕ → ℝ) : ℝ × (R → ℕ → ℝ) :=
  let si := ((tplaq : ℝ) + sw) * ((tplaq : ℝ) + sw)
  let nds := ((tplaq : ℝ) - sw) * ((tplaq : ℝ) - sw) - si
  zDecide beta nds sw (-sw) r ω

/-- The body of the loops at z_link_model.cpp:272-274 and 311-313 at the site `x`, which belongs to the rank `own x`, with the staples `st`. -/
noncomputable def zLinkStep (beta : ℝ) (own : PSite L → R) (relax : Bool) (d : Fin n) (st : PSite L → Option ℝ) (s : ZState L R) (x : PSite L) : Option (ZState L R) :=
  (st x).map fun a =>
    let y := if relax then zOverrelax n (s.1 d x) a beta (own x) s.2.2 else zMetropolis n (s.1 d x) a beta (own x) s.2.2
    (update s.1 d (update (s.1 d) x y.1), s.2.1, y.2)

/-- `update_parity_dir` (z_link_model.cpp:258-278) and `update_or_parity_dir` (293-315); `vis` are the sites in the order in which they are visited. -/
noncomputable def zUpdateDir (beta : ℝ) (own : PSite L → R) (relax : Bool) (d : Fin n) (par : Parity) (vis : List (PSite L)) (s : ZState L R) : Option (ZState L R) :=
  vis.foldlM (zLinkStep beta own relax d (zStaples s.1 s.2.1 d par)) s

/-- `H[d1][X] + H[d2][X + d1] - H[d1][X + d2] - H[d2][X]` (z_link_model.cpp:337, 595, 620). -/
def zCurl (H : ZField L) (d1 d2 : Fin n) (x : PSite L) : ℤ := H d1 x + H d2 (x + unitStep d1) - H d1 (x + unitStep d2) - H d2 x

/-- The assignment of `sw[d1][d2][X]` and of `sw[d2][d1][X]` (z_link_model.cpp:338-339). -/
def setShift (sw : ZShift L) (d1 d2 : Fin n) (x : PSite L) (v : ℝ) : ZShift L := fun e1 e2 y =>
  if e1 = d2 ∧ e2 = d1 ∧ y = x then -v else if e1 = d1 ∧ e2 = d2 ∧ y = x then v else sw e1 e2 y

/-- The body of the loop at z_link_model.cpp:336-340. -/
noncomputable def zShiftStep (beta : ℝ) (own : PSite L → R) (d1 d2 : Fin n) (s : ZState L R) (x : PSite L) : ZState L R :=
  let y := swMetropolis (s.2.1 d1 d2 x) (zCurl s.1 d1 d2 x) beta (own x) s.2.2
  (s.1, setShift s.2.1 d1 d2 x y.1, y.2)

/-- `update_sw_parity_dir` (z_link_model.cpp:326-344); the loop for `d2` visits the sites `vis d2`. -/
noncomputable def zUpdateShifts (beta : ℝ) (own : PSite L → R) (d1 : Fin n) (vis : Fin n → List (PSite L)) (s : ZState L R) : ZState L R :=
  ((List.finRange n).filter (· ≠ d1)).foldl (fun s d2 => (vis d2).foldl (zShiftStep beta own d1 d2) s) s

/-- `uparity(x) == EVEN` for `PARITY` 1 (z_link_model.cpp:31-51): the parity of the coordinates without the last. -/
def uEven (et : Fin n) (x : PSite L) : Prop := (∑ d ∈ Finset.univ.erase et, (x d).val) % 2 = 0

instance (et : Fin n) (x : PSite L) : Decidable (uEven et x) := by unfold uEven; infer_instance

/-- The field after `site_shift` in the direction `d`, back if `back` (z_link_model.cpp:363-382). -/
def zMoved (et : Fin n) (H : ZField L) (d : Fin n) (back : Bool) : ZField L :=
  let H1 : ZField L := fun d1 x => H d1 (if back then x - unitStep d else x + unitStep d)
  update H1 et fun x => if back then (if uEven et x then H1 et x else H1 et x - 1) else if uEven et x then H1 et x + 1 else H1 et x

/-- Every rank draws `k` numbers; only those of the rank that broadcasts are used. -/
def zDrawAll (k : ℕ) (ω : R → ℕ → ℝ) : R → ℕ → ℝ := fun r i => ω r (k + i)

/-- `site_shift` (z_link_model.cpp:353-384), with `PLAQ_SHIFT == 2 && PARITY == 1` if `enabled`; a direction that does not exist is `none`. -/
noncomputable def zSiteShift (enabled : Bool) (et : Fin n) (root : R) (s : ZState L R) : Option (ZState L R) :=
  if enabled then
    let tdp := ⌊s.2.2 root 0 * 2 * ((n - 1 : ℕ) : ℝ)⌋.toNat
    if h : tdp / 2 < n then some (zMoved et s.1 ⟨tdp / 2, h⟩ (tdp % 2 = 1), s.2.1, zDrawAll 1 s.2.2) else none
  else some s

/-- `parameters` (z_link_model.cpp:69-81), those for the updates; numbers of updates are not negative. `shiftOn` is `PLAQ_SHIFT == 2 && PARITY == 1`. -/
structure ZPars where
  beta : ℝ
  nUpdate : ℕ
  nOr : ℕ
  nPs : ℕ
  nSs : ℕ
  shiftOn : Bool

/-- One turn of the loop in `update` (z_link_model.cpp:396-417). `vis d2 b` are the sites that the loops of this turn visit, for the parity even or odd; `d2` is the second
direction of the shifts. -/
noncomputable def zTurn (p : ZPars) (et : Fin n) (own : PSite L → R) (root : R) (vis : Fin n → Bool → List (PSite L)) (s : ZState L R) : Option (ZState L R) :=
  let ty := ⌊s.2.2 root 0 * ((p.nUpdate + p.nOr + p.nPs + p.nSs : ℕ) : ℝ)⌋
  let tdp := ⌊s.2.2 root 1 * 2 * (n : ℝ)⌋.toNat
  let s : ZState L R := (s.1, s.2.1, zDrawAll 2 s.2.2)
  if h : tdp / 2 < n then
    let d : Fin n := ⟨tdp / 2, h⟩
    let odd := decide (tdp % 2 = 1)
    if ty < p.nUpdate then zUpdateDir p.beta own false d (parityOf odd) (vis d odd) s
    else if ty < p.nUpdate + p.nOr then zUpdateDir p.beta own true d (parityOf odd) (vis d odd) s
    else if ty < p.nUpdate + p.nOr + p.nPs then some (zUpdateShifts p.beta own d (fun d2 => vis d2 odd) s)
    else zSiteShift p.shiftOn et root s
  else none

/-- The updates of `do_trajectory` (z_link_model.cpp:434-436) with `update` (394-420); `vis j` are the sites visited in turn `j` of all. -/
noncomputable def zUpdates (p : ZPars) (et : Fin n) (own : PSite L → R) (root : R) (vis : ℕ → Fin n → Bool → List (PSite L)) (s : ZState L R) : Option (ZState L R) :=
  (List.range ((p.nUpdate + p.nOr + p.nPs + p.nSs) * (2 * n))).foldlM (fun s j => zTurn p et own root (vis j) s) s

/-- The end of `do_trajectory` (z_link_model.cpp:441-449): all links of a direction are shifted so that the one at the origin is zero. -/
def zNormalise (H : ZField L) : ZField L := fun d x => let dHpd := -H d 0; if dHpd ≠ 0 then H d x + dHpd else H d x

/-- `do_trajectory` (z_link_model.cpp:433-450). -/
noncomputable def zTrajectory (p : ZPars) (et : Fin n) (own : PSite L → R) (root : R) (vis : ℕ → Fin n → Bool → List (PSite L)) (s : ZState L R) : Option (ZState L R) :=
  (zUpdates p et own root vis s).map fun s => (zNormalise s.1, s.2)

/-- `plaq_field` with the shifts (z_link_model.cpp:612-626): the elements with `d2 < d1` are minus those with the directions exchanged. -/
noncomputable def zPlaqField (H : ZField L) (sw : ZShift L) : ZShift L := fun d1 d2 x =>
  if d1 = d2 then 0 else if d1 < d2 then (zCurl H d1 d2 x : ℝ) + sw d1 d2 x else -((zCurl H d2 d1 x : ℝ) + sw d2 d1 x)

/-- `measure_s_plaq_dens` (z_link_model.cpp:458-469). -/
noncomputable def zPlaqDens [∀ d, NeZero (L d)] (plaq : ZShift L) : ℝ :=
  (∑ d1, ∑ d2, if d1 < d2 then ∑ x, plaq d1 d2 x ^ 2 else 0) / (Fintype.card (PSite L) * n * (n - 1) * 0.5)

/-- One turn of the loop of `dual_plaq` (z_link_model.cpp:641-650): the new field and `sign`. -/
def dualTurn {X : Type} (plaq : Fin 4 → Fin 4 → X → ℝ) (s : (Fin 4 → Fin 4 → X → ℝ) × ℝ) (i : Fin 4) : (Fin 4 → Fin 4 → X → ℝ) × ℝ :=
  let d0 : Fin 4 := 0 + i
  let d1 : Fin 4 := 1 + i
  let d2 : Fin 4 := 2 + i
  let d3 : Fin 4 := 3 + i
  let out := s.1
  let out := update out d0 (update (out d0) d1 fun x => s.2 * plaq d2 d3 x)
  let out := update out d0 (update (out d0) d2 fun x => -s.2 * plaq d1 d3 x)
  let out := update out d0 (update (out d0) d3 fun x => -s.2 * plaq d2 d1 x)
  (out, -s.2)

/-- `dual_plaq` (z_link_model.cpp:634-653) for NDIM 4; `old` are the values of the result before the call. -/
def dualPlaq {X : Type} (plaq old : Fin 4 → Fin 4 → X → ℝ) : Fin 4 → Fin 4 → X → ℝ :=
  ((List.finRange 4).foldl (dualTurn plaq) ((fun d1 d2 => if d1 = d2 then fun _ => 0 else old d1 d2), -1)).1

end Hila
