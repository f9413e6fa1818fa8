import Verif.Model.GradFlow

/-!
# Flow at constant action (libraries/gauge/cs_flow.h)

Lattice, fields and numbers as in `Model/Force` and `Model/GradFlow`. The actions `BP` and `LOG-PLAQUETTE` are left
out. A division by zero is undefined (`none`); in the program it gives values that are not numbers.
-/

namespace Hila

variable {n : ℕ} {L : Fin n → ℕ} {N : ℕ}

/-- `CSFLOWS` (cs_flow.h:13-27, 48-66): 2, 3, 4, and all values that have no own branch. -/
inductive CsAction
  | luscherWeisz | iwasaki | dbw2 | wilson

/-- The force `E` in `get_cs_force` (cs_flow.h:36-65). -/
noncomputable def csGaugeForce (a : CsAction) (U : GField L N) : Option (AlgField L N) :=
  let eps : ℝ := 1.0
  match a with
  | .luscherWeisz => let c12 : ℝ := -1.0 / 12.0; let c11 := 1.0 - 8.0 * c12; forceImpr U (eps * c11) (eps * c12)
  | .iwasaki => let c12 : ℝ := -0.331; let c11 := 1.0 - 8.0 * c12; forceImpr U (eps * c11) (eps * c12)
  | .dbw2 => let c12 : ℝ := -1.4088; let c11 := 1.0 - 8.0 * c12; forceImpr U (eps * c11) (eps * c12)
  | .wilson => allSome (forceWplaq U eps)

open Classical in
/-- The three statements for one link (cs_flow.h:69-71) with force `F` and direction `K`. -/
noncomputable def csDir (F K : Alg N) : Option (Alg N) :=
  let isqrt2 := 1.0 / Real.sqrt 2.0
  if isqrt2 * F.norm = 0 then none else
    let E := (isqrt2 * F.norm)⁻¹ • F
    let K1 := K - (E.dot K) • E
    if isqrt2 * K1.norm = 0 then none else some ((isqrt2 * K1.norm)⁻¹ • K1)

/-- `get_cs_force(U, K)` (cs_flow.h:32-78): the new value of `K`. -/
noncomputable def csForce (a : CsAction) (U : GField L N) (K : AlgField L N) : Option (AlgField L N) :=
  (csGaugeForce a U).bind fun F => allSome fun d x => csDir (F d x) (K d x)

/-- `measure_cs_s` (cs_flow.h:80-107). -/
noncomputable def csS [∀ d, NeZero (L d)] (a : CsAction) (U : GField L N) : ℝ :=
  match a with
  | .luscherWeisz => let c12 : ℝ := -1.0 / 12.0; let c11 := 1.0 - 8.0 * c12; measureSImpr U c11 c12
  | .iwasaki => let c12 : ℝ := -0.331; let c11 := 1.0 - 8.0 * c12; measureSImpr U c11 c12
  | .dbw2 => let c12 : ℝ := -1.4088; let c11 := 1.0 - 8.0 * c12; measureSImpr U c11 c12
  | .wilson => measureSWplaq U

/-- `measure_dE_wplaq_dt(U, E)` (cs_flow.h:110-124). -/
noncomputable def csDEWplaq [∀ d, NeZero (L d)] (a : CsAction) (U : GField L N) (E : AlgField L N) : Option ℝ :=
  (csForce a U E).bind fun K => (allSome (forceWplaq U (-2.0))).map fun Kc => ∑ d, ∑ x, (Kc d x).dot (K d x)

/-- What the integration calls: `get_cs_force`, `chexp` of an algebra element and `reunitarize` of a link. -/
structure CsEnv (L : Fin n → ℕ) (N : ℕ) where
  dir : GField L N → AlgField L N → Option (AlgField L N)
  ex : Alg N → Mat N
  reunit : Mat N → Mat N

/-- The Runge-Kutta step (cs_flow.h:336-364), coefficients from lines 265-277: the fields `V`, `V2`, `tk`, and the
direction `E` after the third call of `get_cs_force`. -/
noncomputable def csRkStep (e : CsEnv L N) (V : GField L N) (E : AlgField L N) (step : ℝ) : Option (RkOut L N × AlgField L N) :=
  (e.dir V E).bind fun k1 =>
  let V1 : GField L N := fun d x => e.ex ((step * 0.25) • k1 d x) * V d x
  (e.dir V1 k1).bind fun k2 =>
  let tk : AlgField L N := fun d x => (step * 2.0) • k2 d x + (step * -1.25) • k1 d x
  let V2 : GField L N := fun d x => e.ex (tk d x) * V1 d x
  let k2' : AlgField L N := fun d x => (step * (8.0 / 9.0)) • k2 d x + (step * (-17.0 / 36.0)) • k1 d x
  let V' : GField L N := fun d x => e.ex (k2' d x) * V1 d x
  (e.dir V' k2).map fun k3 =>
  let k1' : AlgField L N := fun d x => (step * 0.75) • k3 d x - k2' d x
  (⟨fun d x => e.ex (k1' d x) * V' d x, V2, tk⟩, k3)

open Classical in
/-- `maxstep` (cs_flow.h:232-236, 391-396). -/
noncomputable def csMaxStep (step reldiff : ℝ) : ℝ :=
  if reldiff > (1.0e2 : ℝ) ^ (-3.0 : ℝ) then step * reldiff ^ (-(1.0 / 3.0) : ℝ) else step * 1.0e2

/-- Variables of the loop. -/
structure CsState (L : Fin n → ℕ) (N : ℕ) where
  V : GField L N
  V0 : GField L N
  E : AlgField L N
  t : ℝ
  step : ℝ
  tstep : ℝ
  stop : Bool

open Classical in
/-- The step size that is used in a pass (cs_flow.h:327-335). -/
noncomputable def csPassStep (t step tmax : ℝ) : ℝ :=
  if t + step ≥ tmax then tmax - t
  else if t + 1.5 * step ≥ tmax then 0.501 * (tmax - t) else step

open Classical in
/-- The body of the loop (cs_flow.h:327-399). -/
noncomputable def csBody [∀ d, NeZero (L d)] (e : CsEnv L N) (tatol rtol tmax ubstep : ℝ) (s : CsState L N) : Option (CsState L N) :=
  let last := s.t + s.step ≥ tmax
  let stop := if last then true else s.stop
  let tstep := if last then s.tstep else s.step
  let step := csPassStep s.t s.step tmax
  (csRkStep e s.V s.E step).map fun o =>
  let reldiff := relErr tatol rtol step o.1
  let step' := min (0.9 * csMaxStep step reldiff) ubstep
  if reldiff < 1.0 then
    let V : GField L N := fun d x => e.reunit (o.1.V d x)
    ⟨V, V, o.2, s.t + step, step', tstep, stop⟩
  else ⟨s.V0, s.V0, o.2, s.t, step', tstep, false⟩

open Classical in
/-- The loop (cs_flow.h:326). The result is `none` if it goes on after `fuel` passes or if a division by zero occurs. -/
noncomputable def csLoop [∀ d, NeZero (L d)] (e : CsEnv L N) (tatol rtol tmax ubstep : ℝ) : ℕ → CsState L N → Option (CsState L N)
  | 0, s => if s.t < tmax ∧ s.stop = false then none else some s
  | fuel + 1, s => if s.t < tmax ∧ s.stop = false then
      (csBody e tatol rtol tmax ubstep s).bind (csLoop e tatol rtol tmax ubstep fuel) else some s

open Classical in
/-- The first step size and the direction after it was chosen (cs_flow.h:279-320). The branch of lines 314-319 is never
taken, since `step` is zero. -/
noncomputable def csFirstStep [∀ d, NeZero (L d)] (e : CsEnv L N) (V : GField L N) (E : AlgField L N) (ubstep tstep : ℝ) :
    Option (ℝ × AlgField L N) :=
  let step := min tstep ubstep
  if step = 0 then
    (e.dir V E).map fun tk =>
    let maxstk : ℝ := 1.0e-1
    let maxtk := Real.sqrt (0.5 * fieldMax fun d x => (tk d x).squarenorm)
    (if maxtk > maxstk then min (maxstk / maxtk) ubstep else min 1.0 ubstep, tk)
  else some (step, E)

/-- `do_cs_flow_adapt(V, E, t_len, atol, rtol, tstep)` (cs_flow.h:224-405): the flowed field, the direction `E`, and the
returned step size. -/
noncomputable def csFlowAdapt [∀ d, NeZero (L d)] (e : CsEnv L N) (V : GField L N) (E : AlgField L N) (tLen atol rtol tstep : ℝ) (fuel : ℕ) :
    Option (GField L N × AlgField L N × ℝ) :=
  let ubstep := tLen / 3.0
  let tatol := atol * Real.sqrt 2.0
  (csFirstStep e V E ubstep tstep).bind fun p =>
  (csLoop e tatol rtol tLen ubstep fuel ⟨V, V, p.2, 0, p.1, p.1, false⟩).map fun s => (s.V, s.E, s.tstep)

end Hila
