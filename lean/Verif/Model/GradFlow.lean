import Verif.Model.Clover
import Mathlib.Analysis.SpecialFunctions.Pow.Real

/-!
# Gradient flow (libraries/gauge/gradient_flow.h)

Lattice, fields and numbers as in `Model/Force`. The actions `Bulk_Prevention` and `Log_Plaq` are left out. The
exponential function, the force and the reunitarisation of a link are parameters of the integration.
-/

namespace Hila

variable {n : ℕ} {L : Fin n → ℕ} {N : ℕ}

open Classical in
/-- A field that is assigned site by site has values only if all sites have. -/
noncomputable def allSome {α : Type} (f : Fin n → PSite L → Option α) : Option (Fin n → PSite L → α) :=
  if h : ∀ d x, (f d x).isSome then some fun d x => (f d x).get (h d x) else none

/-- `GradientFlowAction` (gradient_flow.h:19-28) without `Bulk_Prevention` and `Log_Plaq`. -/
inductive GfAction
  | wilson | luscherWeisz | iwasaki | dbw2 | zeuthen

/-- `get_zeuthen_flow_force` (gradient_flow.h:73-97). -/
noncomputable def zeuthenForce (U : GField L N) (eps : ℝ) : Option (AlgField L N) :=
  (forceImpr U (eps * (5.0 / 3.0)) (eps * (-1.0 / 12.0))).map fun F d x =>
    F d x + (1.0 / 12.0 : ℝ) • (leftConj (U d x) (F d x) - (2.0 : ℝ) • F d x + rightConj (U d (x - unitStep d)) (F d (x - unitStep d)))

/-- `get_gf_force` (gradient_flow.h:99-144). -/
noncomputable def gfForce (a : GfAction) (U : GField L N) : Option (AlgField L N) :=
  let eps : ℝ := 1.0
  match a with
  | .wilson => allSome (forceWplaq U eps)
  | .luscherWeisz => let c12 : ℝ := -1.0 / 12.0; let c11 := 1.0 - 8.0 * c12; forceImpr U (eps * c11) (eps * c12)
  | .iwasaki => let c12 : ℝ := -0.331; let c11 := 1.0 - 8.0 * c12; forceImpr U (eps * c11) (eps * c12)
  | .dbw2 => let c12 : ℝ := -1.4088; let c11 := 1.0 - 8.0 * c12; forceImpr U (eps * c11) (eps * c12)
  | .zeuthen => zeuthenForce U eps

/-- `measure_gf_s` (gradient_flow.h:146-184). -/
noncomputable def gfS [∀ d, NeZero (L d)] (a : GfAction) (U : GField L N) : ℝ :=
  match a with
  | .wilson => measureSWplaq U
  | .zeuthen => let c12 : ℝ := -1.0 / 12.0; let c11 := 1.0 - 8.0 * c12; measureSImpr U c11 c12
  | .luscherWeisz => let c12 : ℝ := -1.0 / 12.0; let c11 := 1.0 - 8.0 * c12; measureSImpr U c11 c12
  | .iwasaki => let c12 : ℝ := -0.331; let c11 := 1.0 - 8.0 * c12; measureSImpr U c11 c12
  | .dbw2 => let c12 : ℝ := -1.4088; let c11 := 1.0 - 8.0 * c12; measureSImpr U c11 c12

/-- `measure_dE_wplaq_dt` (gradient_flow.h:186-199). -/
noncomputable def measureDEWplaq [∀ d, NeZero (L d)] (a : GfAction) (U : GField L N) : Option ℝ :=
  (gfForce a U).bind fun K => (allSome (forceWplaq U (-2.0))).map fun Kc => ∑ d, ∑ x, (Kc d x).dot (K d x)

/-- `measure_dE_clov_dt` (gradient_flow.h:201-214). -/
noncomputable def measureDEClov [∀ d, NeZero (L d)] (a : GfAction) (U : GField L N) : Option ℝ :=
  (gfForce a U).map fun K => ∑ d, ∑ x, (forceClover U (-2.0) d x).dot (K d x)

/-- What the integration calls: the force, `chexp` of an algebra element and `reunitarize` of a link
(gaugefield.h:126-130). -/
structure FlowEnv (L : Fin n → ℕ) (N : ℕ) where
  force : GField L N → AlgField L N
  ex : Alg N → Mat N
  reunit : Mat N → Mat N

/-- `norm` of an algebra element, the square root of `squarenorm`. -/
noncomputable def Alg.norm (a : Alg N) : ℝ := Real.sqrt a.squarenorm

/-- The largest value of a field and zero: `max` of each direction, then the comparison with the largest value until
then, which starts at 0 (gradient_flow.h:352-361, 425-437). -/
noncomputable def fieldMax [∀ d, NeZero (L d)] (f : Fin n → PSite L → ℝ) : ℝ :=
  (Finset.univ : Finset (Fin n × PSite L)).fold max 0 fun p => f p.1 p.2

/-- The fields after the third step: `V`, `V2` and `tk`. -/
structure RkOut (L : Fin n → ℕ) (N : ℕ) where
  V : GField L N
  V2 : GField L N
  tk : AlgField L N

/-- The Runge-Kutta step (gradient_flow.h:391-421), coefficients from lines 326-338. -/
noncomputable def rkStep (e : FlowEnv L N) (V : GField L N) (step : ℝ) : RkOut L N :=
  let k1 := e.force V
  let V1 : GField L N := fun d x => e.ex ((step * 0.25) • k1 d x) * V d x
  let k2 := e.force V1
  let tk : AlgField L N := fun d x => (step * 2.0) • k2 d x + (step * -1.25) • k1 d x
  let V2 : GField L N := fun d x => e.ex (tk d x) * V1 d x
  let k2' : AlgField L N := fun d x => (step * (8.0 / 9.0)) • k2 d x + (step * (-17.0 / 36.0)) • k1 d x
  let V' : GField L N := fun d x => e.ex (k2' d x) * V1 d x
  let k1' : AlgField L N := fun d x => (step * 0.75) • e.force V' d x - k2' d x
  ⟨fun d x => e.ex (k1' d x) * V' d x, V2, tk⟩

/-- The error relative to the tolerance (gradient_flow.h:425-437). -/
noncomputable def relErr [∀ d, NeZero (L d)] (tatol rtol step : ℝ) (o : RkOut L N) : ℝ :=
  fieldMax fun d x => (project (o.V2 d x * (o.V d x).conjTranspose)).norm / (tatol + rtol * (o.tk d x).norm / step)

/-- The factor of the step size (gradient_flow.h:292-298, 451-456). `pow(0, -1/3)` is infinite. -/
noncomputable def stepFactor (relerr : ℝ) : ℝ :=
  open Classical in
  if relerr = 0 then 10.0 else
    let stepmf := relerr ^ (-(1.0 / 3.0) : ℝ)
    if stepmf ≤ 0.1 then 0.1 else if 10.0 ≤ stepmf then 10.0 else stepmf

/-- Variables of the loop. -/
structure FlowState (L : Fin n → ℕ) (N : ℕ) where
  V : GField L N
  V0 : GField L N
  t : ℝ
  step : ℝ
  tstep : ℝ
  stop : Bool

open Classical in
/-- The body of the loop (gradient_flow.h:385-459). -/
noncomputable def flowBody [∀ d, NeZero (L d)] (e : FlowEnv L N) (tatol rtol tmax ubstep : ℝ) (s : FlowState L N) : FlowState L N :=
  let tstep := s.step
  let last := s.t + s.step ≥ tmax
  let step := if last then tmax - s.t else s.step
  let stop := if last then true else s.stop
  let o := rkStep e s.V step
  let relerr := relErr tatol rtol step o
  let step' := min (0.9 * stepFactor relerr * step) ubstep
  if relerr < 1.0 then
    let V : GField L N := fun d x => e.reunit (o.V d x)
    ⟨V, V, s.t + step, step', tstep, stop⟩
  else ⟨s.V0, s.V0, s.t, step', tstep, false⟩

open Classical in
/-- The loop (gradient_flow.h:384). The result is `none` if it goes on after `fuel` passes. -/
noncomputable def flowLoop [∀ d, NeZero (L d)] (e : FlowEnv L N) (tatol rtol tmax ubstep : ℝ) : ℕ → FlowState L N → Option (FlowState L N)
  | 0, s => if s.t < tmax ∧ s.stop = false then none else some s
  | fuel + 1, s => if s.t < tmax ∧ s.stop = false then flowLoop e tatol rtol tmax ubstep fuel (flowBody e tatol rtol tmax ubstep s) else some s

open Classical in
/-- The first step size (gradient_flow.h:340-379). -/
noncomputable def firstStep [∀ d, NeZero (L d)] (e : FlowEnv L N) (V : GField L N) (t ubstep tstep : ℝ) : ℝ :=
  let step := min tstep ubstep
  if t = 0 ∨ step = 0 then
    let maxstk : ℝ := 1.0e-1
    let maxtk := Real.sqrt (0.5 * fieldMax fun d x => (e.force V d x).squarenorm)
    if step = 0 then
      if maxtk > maxstk then min (maxstk / maxtk) ubstep else min 1.0 ubstep
    else if step * maxtk > maxstk then min (maxstk / maxtk) ubstep else step
  else step

/-- `do_gradient_flow_adapt` (gradient_flow.h:284-463): the flowed field and the returned step size. -/
noncomputable def gradientFlowAdapt [∀ d, NeZero (L d)] (e : FlowEnv L N) (V : GField L N) (lStart lEnd atol rtol tstep : ℝ) (fuel : ℕ) :
    Option (GField L N × ℝ) :=
  let t := lStart * lStart / 8.0
  let tmax := lEnd * lEnd / 8.0
  let ubstep := (tmax - t) / 2.0
  let tatol := atol * Real.sqrt 2.0
  (flowLoop e tatol rtol tmax ubstep fuel ⟨V, V, t, firstStep e V t ubstep tstep, tstep, false⟩).map fun s => (s.V, s.tstep)

end Hila
