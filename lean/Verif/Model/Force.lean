import Verif.Model.Gauge
import Verif.Model.SUN

/-!
# Wilson lines and gauge forces

libraries/gauge/wilson_line_and_force.h, wilson_plaquette_action.h, improved_action.h.

As in `Model/Gauge` the lattice is the torus and a site loop assigns a whole new field. Numbers are real. Starting a
gather has no effect on values. An index outside of a `std::vector` or a field that was never assigned is `none`.
-/

namespace Hila

variable {n : ℕ} {L : Fin n → ℕ} {N : ℕ}

/-- `Direction`: a direction and whether it is up. -/
abbrev PStep (n : ℕ) := Fin n × Bool

/-- `-dir`. -/
def PStep.opp (s : PStep n) : PStep n := (s.1, !s.2)

/-- `VectorField<Algebra<group>>`. -/
abbrev AlgField {n : ℕ} (L : Fin n → ℕ) (N : ℕ) := Fin n → PSite L → Alg N

/-- The first link (wilson_line_and_force.h:34-41). -/
def wilsonFirst (U : GField L N) (s : PStep n) : PSite L → Mat N := fun x =>
  if s.2 then U s.1 (x - unitStep s.1) else (U s.1 x).conjTranspose

/-- Multiplication with a further link (wilson_line_and_force.h:48-54, 61-67). For a step down `X - dir` is the upper neighbour. -/
def wilsonMult (U : GField L N) (R : PSite L → Mat N) (s : PStep n) : PSite L → Mat N := fun x =>
  if s.2 then R (x - unitStep s.1) * U s.1 (x - unitStep s.1) else R (x + unitStep s.1) * (U s.1 x).conjTranspose

/-- `get_wilson_line` (wilson_line_and_force.h:11-68). The two fields `R0[0]`, `R0[1]` are used in turn and overwritten
completely; the one that was written last is kept here. After the loop `i` is `L - 1`, or 1 if that is less. -/
def getWilsonLine (U : GField L N) (path : List (PStep n)) : Option (PSite L → Mat N) :=
  path[0]?.bind fun s0 =>
    let R := ((path.drop 1).take (path.length - 2)).foldl (wilsonMult U) (wilsonFirst U s0)
    path[max 1 (path.length - 1)]?.map fun s => wilsonMult U R s

/-- One link in `get_wloop_force_from_wl_add` and `get_wloop_force_add` (wilson_line_and_force.h:87-103, 138-154). -/
noncomputable def forceStep (U : GField L N) (eps : ℝ) (st : (PSite L → Mat N) × AlgField L N) (s : PStep n) :
    (PSite L → Mat N) × AlgField L N :=
  if s.2 then
    let K : AlgField L N := fun d x => if d = s.1 then st.2 d x - projectScaled (st.1 x) eps else st.2 d x
    (fun x => (U s.1 (x - unitStep s.1)).conjTranspose * st.1 (x - unitStep s.1) * U s.1 (x - unitStep s.1), K)
  else
    let R : PSite L → Mat N := fun x => U s.1 x * st.1 (x + unitStep s.1) * (U s.1 x).conjTranspose
    (R, fun d x => if d = s.1 then st.2 d x + projectScaled (R x) eps else st.2 d x)

/-- `get_wloop_force_from_wl_add` (wilson_line_and_force.h:71-105). -/
noncomputable def wloopForceFromWl (U : GField L N) (path : List (PStep n)) (W : PSite L → Mat N) (eps : ℝ) (K : AlgField L N) :
    AlgField L N := (path.foldl (forceStep U eps) (W, K)).2

/-- `get_wloop_force_add` (wilson_line_and_force.h:120-156). -/
noncomputable def wloopForceAdd (U : GField L N) (path : List (PStep n)) (eps : ℝ) (K : AlgField L N) : Option (AlgField L N) :=
  (getWilsonLine U path).map fun R => wloopForceFromWl U path R eps K

/-- `get_force_wplaq_add` (wilson_plaquette_action.h:90-100). The field `staple` starts without values. -/
noncomputable def forceWplaqAdd (U : GField L N) (K : AlgField L N) (eps : ℝ) : Fin n → PSite L → Option (Alg N) := fun d x =>
  (rstaplesum U (fun _ => none) d x).map fun st => K d x - projectScaled (U d x * st) eps

/-- `get_force_wplaq` (wilson_plaquette_action.h:123-134). -/
noncomputable def forceWplaq (U : GField L N) (eps : ℝ) : Fin n → PSite L → Option (Alg N) := fun d x =>
  (rstaplesum U (fun _ => none) d x).map fun st => projectScaled (U d x * st) (-eps)

/-- `measure_s_impr` (improved_action.h:53-84). -/
noncomputable def measureSImpr [∀ d, NeZero (L d)] (U : GField L N) (c11 c12 : ℝ) : ℝ :=
  ∑ d1, ∑ d2, if d1 < d2 then
    let tP : PSite L → Mat N := fun x => U d1 x * U d2 (x + unitStep d1) * (U d2 x * U d1 (x + unitStep d2)).conjTranspose
    (∑ x, c11 * (1 - (tP x).trace.re / N)) +
      ∑ x, (c12 * (1 - (U d1 x * tP (x + unitStep d1) * (U d1 x).conjTranspose * tP x).trace.re / N) +
        c12 * (1 - (tP x * U d2 x * tP (x + unitStep d2) * (U d2 x).conjTranspose).trace.re / N))
    else 0

/-- Variables of the loop over `dir2` in `get_force_impr_add`; `tstap` is `none` before the first assignment. -/
structure ImprState (L : Fin n → ℕ) (N : ℕ) where
  first : Bool
  tstap : Option (PSite L → Mat N)
  K : AlgField L N

/-- One direction `dir2` in `get_force_impr_add` (improved_action.h:98-136). -/
noncomputable def imprStep (U : GField L N) (c12 : ℝ) (d1 : Fin n) (s : ImprState L N) (d2 : Fin n) : ImprState L N :=
  let lstap : PSite L → Mat N := fun x => (U d1 x * U d2 (x + unitStep d1)).conjTranspose * U d2 x
  let ustap : PSite L → Mat N := fun x => U d2 (x + unitStep d1) * (U d2 x * U d1 (x + unitStep d2)).conjTranspose
  let tstap : Option (PSite L → Mat N) :=
    if s.first then some fun x => ustap x + lstap (x - unitStep d2)
    else s.tstap.map fun t x => t x + ustap x + lstap (x - unitStep d2)
  let W : PSite L → Mat N := fun x => (lstap (x - unitStep d2)).conjTranspose * ustap x
  ⟨false, tstap, if c12 ≠ 0 then
    wloopForceFromWl U [(d2, false), (d1, true), (d2, true), (d2, true), (d1, false), (d2, false)] W c12 s.K else s.K⟩

/-- One direction `dir1` in `get_force_impr_add` (improved_action.h:96-142). `tstap` keeps the value of the direction before
until it is assigned. -/
noncomputable def imprDir (U : GField L N) (c11 c12 : ℝ) (s : Option (PSite L → Mat N) × AlgField L N) (d1 : Fin n) :
    Option (Option (PSite L → Mat N) × AlgField L N) :=
  let r := ((List.finRange n).filter (· ≠ d1)).foldl (imprStep U c12 d1) ⟨true, s.1, s.2⟩
  r.tstap.map fun t => (some t, fun d x => if d = d1 then r.K d x - projectScaled (U d1 x * t x) c11 else r.K d x)

/-- `get_force_impr_add` (improved_action.h:86-143). -/
noncomputable def forceImprAdd (U : GField L N) (K : AlgField L N) (c11 c12 : ℝ) : Option (AlgField L N) :=
  ((List.finRange n).foldlM (imprDir U c11 c12) (none, K)).map Prod.snd

/-- `get_force_impr` (improved_action.h:145-155). -/
noncomputable def forceImpr (U : GField L N) (c11 c12 : ℝ) : Option (AlgField L N) := forceImprAdd U (fun _ _ => 0) c11 c12

end Hila
