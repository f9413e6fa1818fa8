import Mathlib.Algebra.Module.Basic
import Mathlib.Algebra.Field.Basic
import Mathlib.Algebra.Order.Field.Basic
import Mathlib.Logic.Function.Iterate

/-!
# Model of hmc/integrator.h and hmc/hmc.h

Action terms and integrators are records of functions on the state `σ` of all fields (virtual functions of
`action_base` and `integrator_base`). Numbers are elements of an ordered field `K`; rounding is not
modelled. Random numbers used by `draw_gaussian_fields` are part of the state or of the function.
-/

namespace Hila

/-- integrator.h:11-30 `action_base`. -/
structure ActionTerm (K σ : Type) where
  action : σ → K
  draw : σ → σ
  forceStep : K → σ → σ
  backup : σ → σ
  restore : σ → σ

/-- integrator.h:34-70 `action_sum`. -/
def ActionTerm.sum {K σ : Type} [Add K] (a1 a2 : ActionTerm K σ) : ActionTerm K σ where
  action s := a1.action s + a2.action s
  draw s := a2.draw (a1.draw s)
  forceStep eps s := a2.forceStep eps (a1.forceStep eps s)
  backup s := a2.backup (a1.backup s)
  restore s := a2.restore (a1.restore s)

/-- A momentum action as lowest level of a hierarchy (gauge_field.h:389-436): `action_base` and
`integrator_base` at the same time. -/
structure MomentumTerm (K σ : Type) where
  action : σ → K
  draw : σ → σ
  backup : σ → σ
  restore : σ → σ
  step : K → σ → σ

/-- Hierarchies of integrators (integrator.h:104-208). `n` is the number of steps of the lower
integrator. -/
inductive Integrator (K σ : Type)
  | momentum (m : MomentumTerm K σ)
  | leapfrog (a : ActionTerm K σ) (lower : Integrator K σ) (n : ℤ)
  | o2 (a : ActionTerm K σ) (lower : Integrator K σ) (n : ℤ)

namespace Integrator

variable {K σ : Type}

/-- integrator.h:121 `action_term_integrator::action`. -/
def action [Add K] : Integrator K σ → σ → K
  | momentum m, s => m.action s
  | leapfrog a l _, s => a.action s + l.action s
  | o2 a l _, s => a.action s + l.action s

/-- integrator.h:125-128 `draw_gaussian_fields`. -/
def draw : Integrator K σ → σ → σ
  | momentum m, s => m.draw s
  | leapfrog a l _, s => l.draw (a.draw s)
  | o2 a l _, s => l.draw (a.draw s)

/-- integrator.h:131-134 `backup_fields`. -/
def backup : Integrator K σ → σ → σ
  | momentum m, s => m.backup s
  | leapfrog a l _, s => l.backup (a.backup s)
  | o2 a l _, s => l.backup (a.backup s)

/-- integrator.h:137-140 `restore_backup`. -/
def restore : Integrator K σ → σ → σ
  | momentum m, s => m.restore s
  | leapfrog a l _, s => l.restore (a.restore s)
  | o2 a l _, s => l.restore (a.restore s)

/-- The constant of the second-order integrator (integrator.h:195). -/
def o2zeta [Field K] : K := 1931833275037836 / 10 ^ 16

/-- `step` of the momentum action, of `leapfrog_integrator` (integrator.h:160-166) and of `O2_integrator`
(integrator.h:194-208). Loops over `i < n` with `n` an `int`: no pass for `n ≤ 0` (and then no division
by `n`). -/
def step [Field K] : Integrator K σ → K → σ → σ
  | momentum m, eps, s => m.step eps s
  | leapfrog a l n, eps, s =>
    let half := (l.step (1 / 2 * eps / (n : K)))^[n.toNat]
    half (a.forceStep eps (half s))
  | o2 a l n, eps, s =>
    let zeta := eps * o2zeta
    let middlestep := eps - 2 * zeta
    let outer := (l.step (zeta / (n : K)))^[n.toNat]
    let middle := (l.step (middlestep / (n : K)))^[n.toNat]
    outer (a.forceStep (1 / 2 * eps) (middle (a.forceStep (1 / 2 * eps) (outer s))))

end Integrator

/-- Result of `update_hmc`: state and whether the trajectory was accepted. -/
structure HMCResult (σ : Type) where
  state : σ
  accepted : Bool

/-- hmc.h:16-63 `update_hmc`. `rval k` is the value of `hila::random()` on rank `k`; the decision of rank
0 is broadcast. `exp` is the exponential function. -/
def updateHMC {K σ : Type} [Field K] [LinearOrder K] (exp : K → K) (I : Integrator K σ) (steps : ℤ)
    (trajLength : K) (rval : ℕ → K) (s : σ) : HMCResult σ :=
  let s1 := I.backup (I.draw s)
  let startAction := I.action s1
  let s2 := (I.step (trajLength / (steps : K)))^[steps.toNat] s1
  let endAction := I.action s2
  let edS := exp (-(endAction - startAction))
  let accept := fun k => decide (rval k < edS)
  if accept 0 then ⟨s2, true⟩ else ⟨I.restore s2, false⟩

/-! ### Gauge fields -/

/-- The fields of an HMC run (gauge_field.h): links and momenta in every direction at every site (index
`ι`), the backup of the links, and everything else the action terms own (`X`, pseudofermions). -/
structure GaugeState (ι G A X : Type) where
  gauge : ι → G
  momentum : ι → A
  backup : ι → G
  extra : X

section gauge

variable {K ι G A X : Type}

/-- gauge_field.h:225-232 `gauge_update`: every link is multiplied from the left with the exponential of
`eps` times its momentum. `ex` is the matrix exponential. -/
def gaugeUpdate [SMul K A] [Mul G] (ex : A → G) (eps : K) (s : GaugeState ι G A X) : GaugeState ι G A X :=
  ⟨fun i => ex (eps • s.momentum i) * s.gauge i, s.momentum, s.backup, s.extra⟩

/-- gauge_field.h:259-263 and 389-436 `gauge_momentum_action`: `rnd` are the gaussian numbers drawn,
`norm2` the algebra norm summed over the lattice. -/
def gaugeMomentum [SMul K A] [Mul G] (ex : A → G) (norm2 : (ι → A) → K) (rnd : GaugeState ι G A X → ι → A) :
    MomentumTerm K (GaugeState ι G A X) where
  action s := norm2 s.momentum
  draw s := ⟨s.gauge, rnd s, s.backup, s.extra⟩
  backup s := ⟨s.gauge, s.momentum, s.gauge, s.extra⟩
  restore s := ⟨s.backup, s.momentum, s.backup, s.extra⟩
  step eps s := gaugeUpdate ex eps s

/-- An action term of a gauge field, e.g. `gauge_action` (gauge_field.h:443-497) or `fermion_action`
(fermion_field.h:20-165): action `S` and force `F` as functions of links and pseudofermions,
`drawX` the heat bath of the pseudofermions. `force_step` adds `eps` times the force to the momenta. The
terms inherit the empty `backup_fields` and `restore_backup`. Not included: forces that depend on previous
solutions (`MRE_size > 0`). -/
def gaugeTerm [SMul K A] [Add A] (S : (ι → G) → X → K) (F : (ι → G) → X → ι → A)
    (drawX : GaugeState ι G A X → X) : ActionTerm K (GaugeState ι G A X) where
  action s := S s.gauge s.extra
  draw s := ⟨s.gauge, s.momentum, s.backup, drawX s⟩
  forceStep eps s := ⟨s.gauge, fun i => s.momentum i + eps • F s.gauge s.extra i, s.backup, s.extra⟩
  backup s := s
  restore s := s

end gauge

end Hila
