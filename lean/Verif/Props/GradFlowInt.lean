import Verif.Lemmas.GradFlowInt
import Mathlib.Analysis.Normed.Algebra.MatrixExponential
import Mathlib.Analysis.SpecialFunctions.Exponential
import Mathlib.Analysis.Calculus.Deriv.Slope

/-!
# C60: integration of the gradient flow
-/

set_option linter.unusedSectionVars false

namespace Hila

open Matrix Filter Topology

variable {n : ℕ} {L : Fin n → ℕ} {N : ℕ}

/-! ### Flow time -/

theorem flowLoop_chain [∀ d, NeZero (L d)] (e : FlowEnv L N) (tatol rtol tmax ub : ℝ) (hu : 0 < ub) (fuel : ℕ) (s s' : FlowState L N)
    (h : flowLoop e tatol rtol tmax ub fuel s = some s') (hV : s.V0 = s.V) (hs : 0 < s.step) (ht : s.t ≤ tmax) (hst : s.stop = true → s.t = tmax) :
    FlowChain e tatol rtol s.V (tmax - s.t) s'.V := by
  have hend : ∀ s : FlowState L N, ¬(s.t < tmax ∧ s.stop = false) → s.t ≤ tmax → (s.stop = true → s.t = tmax) → FlowChain e tatol rtol s.V (tmax - s.t) s.V := by
    intro s h1 h2 h3
    have : s.t = tmax := by
      by_contra h4
      refine h1 ⟨lt_of_le_of_ne h2 h4, ?_⟩
      cases h5 : s.stop
      · rfl
      · exact absurd (h3 h5) h4
    rw [this, sub_self]
    exact .refl _
  induction fuel generalizing s with
  | zero =>
    unfold flowLoop at h
    split_ifs at h with h1
    obtain rfl := Option.some.inj h
    exact hend _ h1 ht hst
  | succ fuel ih =>
    unfold flowLoop at h
    split_ifs at h with h1
    · obtain ⟨b1, b2⟩ := flowBody_step e tatol rtol tmax ub s hu hs h1.1
      obtain ⟨st, hste⟩ : ∃ st : ℝ, st = if s.t + s.step ≥ tmax then tmax - s.t else s.step := ⟨_, rfl⟩
      have hst0 : 0 < st := by rw [hste]; split_ifs <;> linarith [h1.1]
      have hstm : s.t + st ≤ tmax := by rw [hste]; split_ifs with h2 <;> [linarith; exact (not_le.1 h2).le]
      by_cases hr : relErr tatol rtol st (rkStep e s.V st) < 1
      · have eV : (flowBody e tatol rtol tmax ub s).V = fun d x => e.reunit ((rkStep e s.V st).V d x) := by
          unfold flowBody; dsimp only; rw [← hste, if_pos (by norm_num; exact hr)]
        have eV0 : (flowBody e tatol rtol tmax ub s).V0 = (flowBody e tatol rtol tmax ub s).V := by
          unfold flowBody; dsimp only; rw [← hste, if_pos (by norm_num; exact hr)]
        have et : (flowBody e tatol rtol tmax ub s).t = s.t + st := by
          unfold flowBody; dsimp only; rw [← hste, if_pos (by norm_num; exact hr)]
        have es : (flowBody e tatol rtol tmax ub s).stop = true → s.t + st = tmax := by
          unfold flowBody; dsimp only; rw [← hste, if_pos (by norm_num; exact hr)]
          dsimp only
          intro h2
          split_ifs at h2 with h3
          · rw [hste, if_pos h3]; ring
          · rw [h1.2] at h2; exact absurd h2 (by simp)
        have := ih _ h eV0 b1 (by rw [et]; exact hstm) (by rw [et]; exact es)
        rw [eV, et] at this
        have h2 := FlowChain.step hst0 hr this
        have e2 : st + (tmax - (s.t + st)) = tmax - s.t := by ring
        rwa [e2] at h2
      · have eV : (flowBody e tatol rtol tmax ub s).V = s.V := by
          unfold flowBody; dsimp only; rw [← hste, if_neg (by norm_num at hr ⊢; exact hr), hV]
        have eV0 : (flowBody e tatol rtol tmax ub s).V0 = (flowBody e tatol rtol tmax ub s).V := by
          unfold flowBody; dsimp only; rw [← hste, if_neg (by norm_num at hr ⊢; exact hr)]
        have et : (flowBody e tatol rtol tmax ub s).t = s.t := by
          unfold flowBody; dsimp only; rw [← hste, if_neg (by norm_num at hr ⊢; exact hr)]
        have es : (flowBody e tatol rtol tmax ub s).stop = false := by
          unfold flowBody; dsimp only; rw [← hste, if_neg (by norm_num at hr ⊢; exact hr)]
        have := ih _ h eV0 b1 (by rw [et]; exact ht) (by rw [es]; simp)
        rwa [eV, et] at this
    · obtain rfl := Option.some.inj h
      exact hend _ h1 ht hst

theorem flowLoop_skip [∀ d, NeZero (L d)] (e : FlowEnv L N) (tatol rtol tmax ub : ℝ) (fuel : ℕ) (s : FlowState L N) (h : ¬ s.t < tmax) :
    flowLoop e tatol rtol tmax ub fuel s = some s := by
  cases fuel <;> (unfold flowLoop; rw [if_neg fun h1 => h h1.1])

/-- **C60.** If `do_gradient_flow_adapt` returns, then the field was transformed by Runge-Kutta steps of positive length and
with an error below the tolerance. The sum of the lengths is exactly `l_end^2/8 - l_start^2/8`. Steps that were rejected
leave no trace. If this time is not positive, the field is unchanged. Holds for any force, exponential function and
reunitarisation. -/
theorem C60_time [∀ d, NeZero (L d)] (e : FlowEnv L N) (V W : GField L N) (lStart lEnd atol rtol tstep τ : ℝ) (fuel : ℕ) (ht : 0 ≤ tstep)
    (h : gradientFlowAdapt e V lStart lEnd atol rtol tstep fuel = some (W, τ)) :
    FlowChain e (atol * Real.sqrt 2) rtol V (max 0 (lEnd ^ 2 / 8 - lStart ^ 2 / 8)) W := by
  unfold gradientFlowAdapt at h
  dsimp only at h
  obtain ⟨s, hs, hW⟩ := Option.map_eq_some_iff.1 h
  obtain ⟨rfl, -⟩ := Prod.mk.inj hW
  have e2 : (2.0 : ℝ) = 2 := by norm_num
  have e8 : (8.0 : ℝ) = 8 := by norm_num
  rw [e2, e8] at hs
  by_cases hl : lStart * lStart / 8 < lEnd * lEnd / 8
  · have hu : 0 < (lEnd * lEnd / 8 - lStart * lStart / 8) / 2 := by linarith
    have := flowLoop_chain e _ rtol _ _ hu fuel _ s hs rfl (firstStep_pos e V _ _ tstep hu ht).1 hl.le (by simp)
    dsimp only at this
    rw [max_eq_right (by rw [pow_two, pow_two]; linarith), pow_two, pow_two]
    exact this
  · rw [flowLoop_skip _ _ _ _ _ _ _ hl] at hs
    obtain rfl := Option.some.inj hs
    rw [max_eq_left (by rw [pow_two, pow_two]; linarith)]
    exact .refl _

/-! ### Links stay in the group -/

theorem FlowChain.su [∀ d, NeZero (L d)] (hN : 0 < N) {act : GfAction} {tatol rtol T : ℝ} {V W : GField L N} (h : FlowChain (gfEnv act) tatol rtol V T W)
    (hV : IsSUField V) : IsSUField W := by
  induction h with
  | refl V => exact hV
  | step hh he hc ih =>
    refine ih fun d x => ?_
    have := rkStep_su (gfEnv act) (fun a => expAlg_mem hN a) hV
    dsimp only
    rw [gfEnv_reunit hN act (this _ d x)]
    exact this _ d x

/-- **C60.** Links in SU(N) stay in SU(N). -/
theorem C60_group [∀ d, NeZero (L d)] (hN : 0 < N) (act : GfAction) (V W : GField L N) (hV : IsSUField V) (lStart lEnd atol rtol tstep τ : ℝ) (fuel : ℕ)
    (ht : 0 ≤ tstep) (h : gradientFlowAdapt (gfEnv act) V lStart lEnd atol rtol tstep fuel = some (W, τ)) : IsSUField W :=
  (C60_time _ V W lStart lEnd atol rtol tstep τ fuel ht h).su hN hV

/-! ### Gauge covariance -/

/-- A state with rotated fields. -/
noncomputable def gaugeState (g : PSite L → Mat N) (s : FlowState L N) : FlowState L N :=
  ⟨gaugeT g s.V, gaugeT g s.V0, s.t, s.step, s.tstep, s.stop⟩

theorem gaugeT_su {g : PSite L → Mat N} (hg : ∀ x, g x ∈ Matrix.specialUnitaryGroup (Fin N) ℂ) {V : GField L N} (hV : IsSUField V) : IsSUField (gaugeT g V) := by
  intro d x
  refine mul_mem (mul_mem (hg x) (hV d x)) ?_
  have := hg (x + Pi.single d 1)
  rw [Matrix.mem_specialUnitaryGroup_iff] at this ⊢
  refine ⟨Unitary.star_mem this.1, ?_⟩
  rw [Matrix.det_conjTranspose, this.2, star_one]

theorem gfEnv_cov [∀ d, NeZero (L d)] (hN : 0 < N) (hn : 2 ≤ n) (act : GfAction) (hz : act ≠ .zeuthen) {g : PSite L → Mat N} (hg : IsGauge g) :
    ForceCov (gfEnv (L := L) act) g := by
  intro V hV
  obtain ⟨F, hF⟩ := gfForce_some hN hn act hV
  unfold gfEnv
  dsimp only
  rw [hF, gfForce_gauge hN hn act hz hV hg hF]
  rfl

theorem flowBody_gauge [∀ d, NeZero (L d)] (hN : 0 < N) (hn : 2 ≤ n) (act : GfAction) (hz : act ≠ .zeuthen) {g : PSite L → Mat N}
    (hg : ∀ x, g x ∈ Matrix.specialUnitaryGroup (Fin N) ℂ) (tatol rtol tmax ub : ℝ) (s : FlowState L N) (hV : IsSUField s.V) :
    flowBody (gfEnv act) tatol rtol tmax ub (gaugeState g s) = gaugeState g (flowBody (gfEnv act) tatol rtol tmax ub s) := by
  have hgg : IsGauge g := fun x => (Matrix.mem_specialUnitaryGroup_iff.1 (hg x)).1
  have hk := fun h => rkStep_gauge hN (gfEnv act) rfl hgg (gfEnv_cov hN hn act hz hgg) hV.unitary h
  have hr : ∀ h, relErr tatol rtol h (rkStep (gfEnv act) (gaugeT g s.V) h) = relErr tatol rtol h (rkStep (gfEnv act) s.V h) :=
    fun h => relErr_gauge hN hgg tatol rtol h (hk h).1 (hk h).2.1 (hk h).2.2
  unfold flowBody gaugeState
  dsimp only
  simp only [hr]
  split_ifs with h1 h2 h2
  · have hsu := rkStep_su (gfEnv act) (fun a => expAlg_mem hN a) hV (tmax - s.t)
    have e : (fun d x => (gfEnv (L := L) act).reunit ((rkStep (gfEnv act) (gaugeT g s.V) (tmax - s.t)).V d x)) =
        gaugeT g fun d x => (gfEnv (L := L) act).reunit ((rkStep (gfEnv act) s.V (tmax - s.t)).V d x) := by
      rw [(hk _).1]
      have e1 : (fun d x => (gfEnv (L := L) act).reunit ((rkStep (gfEnv act) s.V (tmax - s.t)).V d x)) = (rkStep (gfEnv act) s.V (tmax - s.t)).V := by
        funext d x; exact gfEnv_reunit hN act (hsu d x)
      rw [e1]
      funext d x
      exact gfEnv_reunit hN act (gaugeT_su hg hsu d x)
    rw [e]
  · rfl
  · have hsu := rkStep_su (gfEnv act) (fun a => expAlg_mem hN a) hV s.step
    have e : (fun d x => (gfEnv (L := L) act).reunit ((rkStep (gfEnv act) (gaugeT g s.V) s.step).V d x)) =
        gaugeT g fun d x => (gfEnv (L := L) act).reunit ((rkStep (gfEnv act) s.V s.step).V d x) := by
      rw [(hk _).1]
      have e1 : (fun d x => (gfEnv (L := L) act).reunit ((rkStep (gfEnv act) s.V s.step).V d x)) = (rkStep (gfEnv act) s.V s.step).V := by
        funext d x; exact gfEnv_reunit hN act (hsu d x)
      rw [e1]
      funext d x
      exact gfEnv_reunit hN act (gaugeT_su hg hsu d x)
    rw [e]
  · rfl

theorem flowBody_su [∀ d, NeZero (L d)] (hN : 0 < N) (act : GfAction) (tatol rtol tmax ub : ℝ) (s : FlowState L N) (hV : IsSUField s.V) (hV0 : IsSUField s.V0) :
    IsSUField (flowBody (gfEnv act) tatol rtol tmax ub s).V ∧ IsSUField (flowBody (gfEnv act) tatol rtol tmax ub s).V0 := by
  have hsu := fun h => rkStep_su (gfEnv act) (fun a => expAlg_mem hN a) hV h
  have h1 : ∀ h, IsSUField fun d x => (gfEnv (L := L) act).reunit ((rkStep (gfEnv act) s.V h).V d x) := by
    intro h d x
    dsimp only
    rw [gfEnv_reunit hN act (hsu h d x)]
    exact hsu h d x
  unfold flowBody
  dsimp only
  split_ifs
  · exact ⟨h1 _, h1 _⟩
  · exact ⟨hV0, hV0⟩
  · exact ⟨h1 _, h1 _⟩
  · exact ⟨hV0, hV0⟩

theorem flowLoop_gauge [∀ d, NeZero (L d)] (hN : 0 < N) (hn : 2 ≤ n) (act : GfAction) (hz : act ≠ .zeuthen) {g : PSite L → Mat N}
    (hg : ∀ x, g x ∈ Matrix.specialUnitaryGroup (Fin N) ℂ) (tatol rtol tmax ub : ℝ) (fuel : ℕ) (s : FlowState L N) (hV : IsSUField s.V) (hV0 : IsSUField s.V0) :
    flowLoop (gfEnv act) tatol rtol tmax ub fuel (gaugeState g s) = (flowLoop (gfEnv act) tatol rtol tmax ub fuel s).map (gaugeState g) := by
  induction fuel generalizing s with
  | zero =>
    unfold flowLoop
    by_cases h : s.t < tmax ∧ s.stop = false
    · rw [if_pos h, if_pos (show (gaugeState g s).t < tmax ∧ (gaugeState g s).stop = false from h)]; rfl
    · rw [if_neg h, if_neg (show ¬((gaugeState g s).t < tmax ∧ (gaugeState g s).stop = false) from h)]; rfl
  | succ fuel ih =>
    unfold flowLoop
    by_cases h : s.t < tmax ∧ s.stop = false
    · obtain ⟨s1, s2⟩ := flowBody_su hN act tatol rtol tmax ub s hV hV0
      rw [if_pos h, if_pos (show (gaugeState g s).t < tmax ∧ (gaugeState g s).stop = false from h), flowBody_gauge hN hn act hz hg _ _ _ _ _ hV, ih _ s1 s2]
    · rw [if_neg h, if_neg (show ¬((gaugeState g s).t < tmax ∧ (gaugeState g s).stop = false) from h)]; rfl

/-- **C60.** The flow commutes with gauge transformations, with the same step sizes, for all actions but `Zeuthen`. -/
theorem C60_flow_covariant [∀ d, NeZero (L d)] (hN : 0 < N) (hn : 2 ≤ n) (act : GfAction) (hz : act ≠ .zeuthen) (V : GField L N) (hV : IsSUField V)
    (g : PSite L → Mat N) (hg : ∀ x, g x ∈ Matrix.specialUnitaryGroup (Fin N) ℂ) (lStart lEnd atol rtol tstep : ℝ) (fuel : ℕ) :
    gradientFlowAdapt (gfEnv act) (gaugeT g V) lStart lEnd atol rtol tstep fuel =
      (gradientFlowAdapt (gfEnv act) V lStart lEnd atol rtol tstep fuel).map fun p => (gaugeT g p.1, p.2) := by
  have hgg : IsGauge g := fun x => (Matrix.mem_specialUnitaryGroup_iff.1 (hg x)).1
  unfold gradientFlowAdapt
  dsimp only
  rw [firstStep_gauge hN (gfEnv act) hgg (gfEnv_cov hN hn act hz hgg) hV.unitary]
  have := flowLoop_gauge hN hn act hz hg (atol * Real.sqrt 2.0) rtol (lEnd * lEnd / 8.0) ((lEnd * lEnd / 8.0 - lStart * lStart / 8.0) / 2.0) fuel
    ⟨V, V, lStart * lStart / 8.0, firstStep (gfEnv act) V (lStart * lStart / 8.0) ((lEnd * lEnd / 8.0 - lStart * lStart / 8.0) / 2.0) tstep, tstep, false⟩ hV hV
  unfold gaugeState at this
  dsimp only at this
  rw [this, Option.map_map, Option.map_map]
  rfl

/-! ### The Runge-Kutta scheme -/

/-- **C60.** The steps are those of the Butcher tableaus in the comment of the code: on fields where the force has a fixed
direction `T`, the third order step is `1/4 κ1 + 3/4 κ3` with nodes `1/4` and `-2/9, 8/9`, and the second order step is
`-κ1 + 2 κ2`. -/
theorem C60_tableau (hN : 0 < N) (force : GField L N → AlgField L N) (reunit : Mat N → Mat N) (V : GField L N) (T : AlgField L N) (f : ℝ → ℝ)
    (hf : ∀ θ : ℝ, force (fun d x => expAlg (θ • T d x) * V d x) = fun d x => f θ • T d x) (θ h : ℝ) :
    let k1 := f θ
    let k2 := f (θ + h * (1 / 4 * k1))
    let k3 := f (θ + h * (-2 / 9 * k1 + 8 / 9 * k2))
    let o := rkStep ⟨force, expAlg, reunit⟩ (fun d x => expAlg (θ • T d x) * V d x) h
    (o.V = fun d x => expAlg ((θ + h * (1 / 4 * k1 + 3 / 4 * k3)) • T d x) * V d x) ∧
      o.V2 = fun d x => expAlg ((θ + h * (-1 * k1 + 2 * k2)) • T d x) * V d x := by
  intro k1 k2 k3 o
  have hm : ∀ (a b : ℝ) d x, expAlg (a • T d x) * (expAlg (b • T d x) * V d x) = expAlg ((b + a) • T d x) * V d x := by
    intro a b d x
    rw [← Matrix.mul_assoc, ← expAlg_add_smul hN, add_comm]
  have e1 : (fun d x => expAlg ((h * 0.25) • (f θ • T d x)) * (expAlg (θ • T d x) * V d x)) = fun d x => expAlg ((θ + h * (1 / 4 * k1)) • T d x) * V d x := by
    funext d x
    rw [smul_smul, hm]
    refine congrArg (fun z : ℝ => expAlg (z • T d x) * V d x) ?_
    show θ + h * 0.25 * k1 = _
    norm_num
    ring
  have e2 : (fun d x => expAlg ((h * (8.0 / 9.0)) • (k2 • T d x) + (h * (-17.0 / 36.0)) • (f θ • T d x)) * (expAlg ((θ + h * (1 / 4 * k1)) • T d x) * V d x)) =
      fun d x => expAlg ((θ + h * (-2 / 9 * k1 + 8 / 9 * k2)) • T d x) * V d x := by
    funext d x
    rw [smul_smul, smul_smul, ← add_smul, hm]
    refine congrArg (fun z : ℝ => expAlg (z • T d x) * V d x) ?_
    show _ + (h * (8.0 / 9.0) * k2 + h * (-17.0 / 36.0) * k1) = _
    norm_num
    ring
  have f1 := hf θ
  have f2 := hf (θ + h * (1 / 4 * k1))
  have f3 := hf (θ + h * (-2 / 9 * k1 + 8 / 9 * k2))
  rw [← e1] at f2
  have e2' := e2
  rw [← e2] at f3
  have e1' := fun d x => congrFun (congrFun e1 d) x
  simp only [← e1'] at f3
  have ho : o = rkStep ⟨force, expAlg, reunit⟩ (fun d x => expAlg (θ • T d x) * V d x) h := rfl
  unfold rkStep at ho
  dsimp only at ho
  simp only [f1, f2] at ho
  simp only [show f (θ + h * (1 / 4 * k1)) = k2 from rfl, f3] at ho
  have e2'' := fun d x => congrFun (congrFun e2 d) x
  rw [ho]
  constructor
  · funext d x
    dsimp only
    have e3 := e2'' d x
    have e4 := e1' d x
    rw [e4, e3, smul_smul, smul_smul, smul_smul, ← add_smul, ← sub_smul, hm]
    refine congrArg (fun z : ℝ => expAlg (z • T d x) * V d x) ?_
    show θ + _ + (h * 0.75 * k3 - (h * (8.0 / 9.0) * k2 + h * (-17.0 / 36.0) * k1)) = _
    norm_num
    ring
  · funext d x
    dsimp only
    have e4 := e1' d x
    rw [e4, smul_smul, smul_smul, ← add_smul, hm]
    refine congrArg (fun z : ℝ => expAlg (z • T d x) * V d x) ?_
    show θ + _ + (h * 2.0 * k2 + h * -1.25 * k1) = _
    norm_num
    ring

/-- **C60.** The scheme with the tableau of `C60_tableau` has order three: for a force with second order Taylor polynomial
`c0 + c1 s + c2 s^2` the step agrees with the solution of `θ' = f(θ)` to third order in the step size `h`, and the
second order step to second order. -/
theorem C60_order (c0 c1 c2 : ℝ) : ∃ R R2 : ℝ → ℝ, Continuous R ∧ Continuous R2 ∧ ∀ h : ℝ,
    let f := fun s : ℝ => c0 + c1 * s + c2 * s ^ 2
    let k1 := f 0
    let k2 := f (h * (1 / 4 * k1))
    let k3 := f (h * (-2 / 9 * k1 + 8 / 9 * k2))
    h * (1 / 4 * k1 + 3 / 4 * k3) = h * c0 + h ^ 2 / 2 * (c1 * c0) + h ^ 3 / 6 * (2 * c2 * c0 ^ 2 + c1 ^ 2 * c0) + h ^ 4 * R h ∧
      h * (-1 * k1 + 2 * k2) = h * c0 + h ^ 2 / 2 * (c1 * c0) + h ^ 3 * R2 h := by
  refine ⟨fun h => c1 * c2 * c0 ^ 2 / 24 + 3 / 4 * c2 * (4 / 3 * c0 * (2 / 9 * c1 * c0 + h * c2 * c0 ^ 2 / 18) + h * (2 / 9 * c1 * c0 + h * c2 * c0 ^ 2 / 18) ^ 2),
    fun _ => c2 * c0 ^ 2 / 8, by fun_prop, by fun_prop, fun h => ?_⟩
  constructor <;> (dsimp only; ring)

/-! ### The exponential function -/

/-- `expand` as a continuous linear map into the normed algebra of matrices. -/
theorem expand_linear (hN : 0 < N) : ∃ f : Alg N →ₗ[ℝ] Mat N, ∀ a, f a = expand a :=
  ⟨⟨⟨expand, expand_add hN⟩, fun c a => by
    show expand (c • a) = _
    rw [expand_smul hN]; rfl⟩, fun _ => rfl⟩

theorem expAlg_continuous (hN : 0 < N) : Continuous (expAlg : Alg N → Mat N) := by
  let : NormedRing (Mat N) := Matrix.linftyOpNormedRing
  let : NormedAlgebra ℝ (Mat N) := Matrix.linftyOpNormedAlgebra
  let : NormedAlgebra ℚ (Mat N) := Matrix.linftyOpNormedAlgebra
  obtain ⟨f, hf⟩ := expand_linear hN
  have h1 : Continuous fun a : Alg N => NormedSpace.exp (f a) := NormedSpace.exp_continuous.comp f.continuous_of_finiteDimensional
  have h2 : (fun a : Alg N => NormedSpace.exp (f a)) = expAlg := by
    funext a; unfold expAlg; rw [hf]
  rw [← h2]
  refine continuous_pi fun i => continuous_pi fun j => ?_
  exact (LinearMap.toContinuousLinearMap (Matrix.entryLinearMap ℝ ℂ i j)).continuous.comp h1

theorem expAlg_deriv (hN : 0 < N) {c : ℝ → Alg N} {c' : Alg N} (h0 : c 0 = 0) (hc : HasDerivAt c c' 0) : MDeriv (fun t => expAlg (c t)) (expand c') := by
  let : NormedRing (Mat N) := Matrix.linftyOpNormedRing
  let : NormedAlgebra ℝ (Mat N) := Matrix.linftyOpNormedAlgebra
  let : NormedAlgebra ℚ (Mat N) := Matrix.linftyOpNormedAlgebra
  obtain ⟨f, hf⟩ := expand_linear hN
  intro i j
  have h1 : HasDerivAt (fun t => f (c t)) (f c') 0 := (LinearMap.toContinuousLinearMap f).hasFDerivAt.comp_hasDerivAt (0 : ℝ) hc
  have h3 : HasFDerivAt (NormedSpace.exp : Mat N → Mat N) (1 : Mat N →L[ℝ] Mat N) (f (c 0)) := by
    rw [h0, map_zero]
    exact hasFDerivAt_exp_zero
  have h4 := h3.comp_hasDerivAt (0 : ℝ) h1
  have h2 := (LinearMap.toContinuousLinearMap (Matrix.entryLinearMap ℝ ℂ i j)).hasFDerivAt.comp_hasDerivAt (0 : ℝ) h4
  have e : (fun t => expAlg (c t) i j) = (LinearMap.toContinuousLinearMap (Matrix.entryLinearMap ℝ ℂ i j)) ∘ (NormedSpace.exp ∘ fun t => f (c t)) := by
    funext t
    show expAlg (c t) i j = NormedSpace.exp (f (c t)) i j
    unfold expAlg
    rw [hf]
  rw [e, ← hf]
  exact h2

/-! ### The action decreases -/

theorem smul_deriv {E : Type} [NormedAddCommGroup E] [NormedSpace ℝ E] {u : ℝ → E} (h : ContinuousAt u 0) : HasDerivAt (fun t : ℝ => t • u t) (u 0) 0 := by
  rw [hasDerivAt_iff_tendsto_slope]
  have h1 : Tendsto u (𝓝[≠] 0) (𝓝 (u 0)) := h.tendsto.mono_left nhdsWithin_le_nhds
  refine h1.congr' ?_
  filter_upwards [self_mem_nhdsWithin] with t ht
  rw [slope_def_module, zero_smul, sub_zero, sub_zero, smul_smul, inv_mul_cancel₀ ht, one_smul]

theorem MDeriv.continuousAt {f : ℝ → Mat N} {f' : Mat N} (h : MDeriv f f') : ContinuousAt f 0 :=
  continuousAt_pi.2 fun i => continuousAt_pi.2 fun j => (h i j).continuousAt

theorem field_continuousAt {f : ℝ → GField L N} {f' : GField L N} (h : ∀ d x, MDeriv (fun t => f t d x) (f' d x)) : ContinuousAt f 0 :=
  continuousAt_pi.2 fun d => continuousAt_pi.2 fun x => (h d x).continuousAt

/-- The step is tangent to the flow. -/
theorem rkStep_tangent [∀ d, NeZero (L d)] (hN : 0 < N) (G : GField L N → AlgField L N) (hG : Continuous G) (reunit : Mat N → Mat N) (V : GField L N) :
    (rkStep ⟨G, expAlg, reunit⟩ V 0).V = V ∧ LinkCurve (fun h => (rkStep ⟨G, expAlg, reunit⟩ V h).V) fun d x => expand (G V d x) := by
  have hz : (rkStep ⟨G, expAlg, reunit⟩ V 0).V = V := by
    unfold rkStep
    dsimp only
    funext d x
    simp only [zero_mul, zero_smul, add_zero, sub_zero, expAlg_zero hN, Matrix.one_mul]
  refine ⟨hz, ?_⟩
  obtain ⟨V1, hV1⟩ : ∃ V1 : ℝ → GField L N, V1 = fun h d x => expAlg ((h * 0.25) • G V d x) * V d x := ⟨_, rfl⟩
  have c1 : ∀ d x, MDeriv (fun h : ℝ => expAlg ((h * 0.25) • G V d x)) (expand ((0.25 : ℝ) • G V d x)) := by
    intro d x
    refine expAlg_deriv hN (by rw [zero_mul, zero_smul]) ?_
    have := smul_deriv (u := fun _ : ℝ => (0.25 : ℝ) • G V d x) continuousAt_const
    simpa only [smul_smul] using this
  have d1 : ∀ d x, MDeriv (fun h => V1 h d x) (expand ((0.25 : ℝ) • G V d x) * V d x) := by
    intro d x
    have := (c1 d x).mul (MDeriv.const (V d x))
    rw [Matrix.mul_zero, add_zero] at this
    rw [hV1]; exact this
  have v1 : V1 0 = V := by
    rw [hV1]; funext d x; dsimp only; rw [zero_mul, zero_smul, expAlg_zero hN, Matrix.one_mul]
  have k2c : ContinuousAt (fun h => G (V1 h)) 0 := hG.continuousAt.comp (field_continuousAt d1)
  obtain ⟨k2, hk2⟩ : ∃ k2 : ℝ → AlgField L N, k2 = fun h d x => (h * (8.0 / 9.0)) • G (V1 h) d x + (h * (-17.0 / 36.0)) • G V d x := ⟨_, rfl⟩
  have k2x : ∀ d x, ContinuousAt (fun h => G (V1 h) d x) 0 := fun d x => continuousAt_pi.1 (continuousAt_pi.1 k2c d) x
  have k2d : ∀ d x, HasDerivAt (fun h => k2 h d x) ((5 / 12 : ℝ) • G V d x) 0 := by
    intro d x
    have := smul_deriv (u := fun h : ℝ => (8.0 / 9.0 : ℝ) • G (V1 h) d x + (-17.0 / 36.0 : ℝ) • G V d x)
      (((k2x d x).const_smul (8.0 / 9.0 : ℝ)).add continuousAt_const)
    simp only [smul_add, smul_smul] at this
    rw [hk2]
    refine this.congr_deriv ?_
    rw [v1, ← add_smul]
    norm_num
  have k20 : k2 0 = 0 := by
    rw [hk2]; funext d x; dsimp only; rw [zero_mul, zero_smul, zero_mul, zero_smul, add_zero]; rfl
  have c2 : ∀ d x, MDeriv (fun h : ℝ => expAlg (k2 h d x)) (expand ((5 / 12 : ℝ) • G V d x)) := fun d x =>
    expAlg_deriv hN (by rw [k20]; rfl) (k2d d x)
  obtain ⟨V2, hV2⟩ : ∃ V2 : ℝ → GField L N, V2 = fun h d x => expAlg (k2 h d x) * V1 h d x := ⟨_, rfl⟩
  have d2 : ∀ d x, MDeriv (fun h => V2 h d x) (expand ((5 / 12 : ℝ) • G V d x) * V d x + expand ((0.25 : ℝ) • G V d x) * V d x) := by
    intro d x
    have := (c2 d x).mul (d1 d x)
    rw [v1, k20] at this
    rw [show (0 : AlgField L N) d x = 0 from rfl, expAlg_zero hN, Matrix.one_mul] at this
    rw [hV2]; exact this
  have v2 : V2 0 = V := by
    rw [hV2]; funext d x; dsimp only
    rw [k20, v1, show (0 : AlgField L N) d x = 0 from rfl, expAlg_zero hN, Matrix.one_mul]
  have k3c : ContinuousAt (fun h => G (V2 h)) 0 := hG.continuousAt.comp (field_continuousAt d2)
  have k3x : ∀ d x, ContinuousAt (fun h => G (V2 h) d x) 0 := fun d x => continuousAt_pi.1 (continuousAt_pi.1 k3c d) x
  have k3d : ∀ d x, HasDerivAt (fun h => (h * 0.75) • G (V2 h) d x - k2 h d x) ((1 / 3 : ℝ) • G V d x) 0 := by
    intro d x
    have := (smul_deriv (u := fun h : ℝ => (0.75 : ℝ) • G (V2 h) d x) ((k3x d x).const_smul (0.75 : ℝ))).sub (k2d d x)
    simp only [smul_smul] at this
    refine this.congr_deriv ?_
    rw [v2, ← sub_smul]
    norm_num
  have c3 : ∀ d x, MDeriv (fun h : ℝ => expAlg ((h * 0.75) • G (V2 h) d x - k2 h d x)) (expand ((1 / 3 : ℝ) • G V d x)) := fun d x =>
    expAlg_deriv hN (by rw [k20, zero_mul, zero_smul]; simp) (k3d d x)
  intro d x
  have h3 := (c3 d x).mul (d2 d x)
  rw [v2, k20] at h3
  rw [show (0 : AlgField L N) d x = 0 from rfl, zero_mul, zero_smul, sub_zero, expAlg_zero hN, Matrix.one_mul] at h3
  show MDeriv (fun t => (rkStep ⟨G, expAlg, reunit⟩ V t).V d x) (expand (G V d x) * (rkStep ⟨G, expAlg, reunit⟩ V 0).V d x)
  rw [hz]
  have e : expand (G V d x) * V d x = expand ((1 / 3 : ℝ) • G V d x) * V d x +
      (expand ((5 / 12 : ℝ) • G V d x) * V d x + expand ((0.25 : ℝ) • G V d x) * V d x) := by
    rw [← Matrix.add_mul, ← Matrix.add_mul, ← expand_add hN, ← expand_add hN, ← add_smul, ← add_smul]
    norm_num
  rw [e]
  refine (show (fun h => (rkStep ⟨G, expAlg, reunit⟩ V h).V d x) = fun h => expAlg ((h * 0.75) • G (V2 h) d x - k2 h d x) * V2 h d x from ?_) ▸ h3
  rw [hV2, hk2, hV1]
  rfl

theorem lt_of_deriv_neg {f : ℝ → ℝ} {f' : ℝ} (h : HasDerivAt f f' 0) (hf : f' < 0) : ∃ h0 : ℝ, 0 < h0 ∧ ∀ t, 0 < t → t < h0 → f t < f 0 := by
  have h1 := hasDerivAt_iff_tendsto_slope.1 h
  have h2 := h1.eventually (gt_mem_nhds hf)
  rw [eventually_nhdsWithin_iff, Metric.eventually_nhds_iff] at h2
  obtain ⟨ε, hε, h3⟩ := h2
  refine ⟨ε, hε, fun t ht hte => ?_⟩
  have h4 := h3 (y := t) (by rw [Real.dist_eq, sub_zero, abs_of_pos ht]; exact hte) ht.ne'
  rw [slope_def_field, sub_zero, div_neg_iff] at h4
  rcases h4 with h4 | h4 <;> linarith [h4.1, h4.2]

/-- **C60.** Steps that are short enough decrease the action that belongs to the flow, unless the force is zero. Holds for
all actions but `Zeuthen`. -/
theorem C60_step_descent [∀ d, NeZero (L d)] (hN : 0 < N) (hn : 2 ≤ n) (act : GfAction) (hz : act ≠ .zeuthen) (V : GField L N) (hV : IsSUField V)
    (hF : (gfEnv act).force V ≠ 0) : ∃ h0 : ℝ, 0 < h0 ∧ ∀ h, 0 < h → h < h0 → gfS act (rkStep (gfEnv act) V h).V < gfS act V := by
  obtain ⟨G, hG, hGe⟩ := gfForce_formula_grad (L := L) hN hn act hz
  have hforce : ∀ W : GField L N, IsUnitaryField W → (gfEnv act).force W = G W := by
    intro W hW
    unfold gfEnv
    dsimp only
    rw [hGe W hW]
    rfl
  rw [hforce V hV.unitary] at hF
  obtain ⟨U, hU⟩ : ∃ U : ℝ → GField L N, U = fun h => (rkStep ⟨G, expAlg, id⟩ V h).V := ⟨_, rfl⟩
  have hsame : ∀ h, (rkStep (gfEnv act) V h).V = U h := by
    intro h
    have u0 := hV.unitary
    have u1 := exp_unitary hN u0 fun d x => (h * 0.25) • G V d x
    have u2 := exp_unitary hN u1 fun d x => (h * (8.0 / 9.0)) • G (fun d x => expAlg ((h * 0.25) • G V d x) * V d x) d x + (h * (-17.0 / 36.0)) • G V d x
    rw [hU]
    unfold rkStep
    dsimp only
    rw [show (gfEnv (L := L) (N := N) act).ex = expAlg from rfl]
    simp only [hforce V u0, hforce _ u1, hforce _ u2]
  have hu : ∀ h, IsUnitaryField (U h) := by
    intro h
    rw [← hsame]
    exact (rkStep_su (gfEnv act) (fun a => expAlg_mem hN a) hV h).unitary
  obtain ⟨hz0, hlc⟩ : U 0 = V ∧ LinkCurve U fun d x => expand (G V d x) := by
    rw [hU]
    exact rkStep_tangent hN G hG id V
  obtain ⟨F, hF1, hd⟩ := gfForce_deriv hN hn act hz U (G V) hlc hu
  rw [hz0, hGe V hV.unitary] at hF1
  obtain rfl := Option.some.inj hF1
  have hpos : 0 < pairK (G V) (G V) := by
    rw [pairK_eq]
    by_contra hcon
    apply hF
    have hnn : ∀ d x, 0 ≤ sdot (G V d x) (G V d x) := fun d x => Finset.sum_nonneg fun k _ => mul_self_nonneg _
    have hs : ∑ d, ∑ x, sdot (G V d x) (G V d x) = 0 :=
      le_antisymm (not_lt.1 hcon) (Finset.sum_nonneg fun d _ => Finset.sum_nonneg fun x _ => hnn d x)
    funext d x k
    have h1 := (Finset.sum_eq_zero_iff_of_nonneg (fun d _ => Finset.sum_nonneg fun x _ => hnn d x)).1 hs d (Finset.mem_univ _)
    have h2 := (Finset.sum_eq_zero_iff_of_nonneg (fun x _ => hnn d x)).1 h1 x (Finset.mem_univ _)
    have h3 := sdot_coord (G V d x) k
    rw [h2] at h3
    have h4 : |G V d x k| = 0 := by nlinarith [abs_nonneg (G V d x k)]
    exact abs_eq_zero.1 h4
  have hN' : (0 : ℝ) < N := Nat.cast_pos.2 hN
  obtain ⟨h0, hp, h1⟩ := lt_of_deriv_neg hd (by rw [neg_div]; exact neg_neg_of_pos (by positivity))
  refine ⟨h0, hp, fun h ha hb => ?_⟩
  have := h1 h ha hb
  rw [hz0] at this
  rw [hsame]
  exact this

/-! ### Termination -/

theorem alg_norm_continuous : Continuous (Alg.norm : Alg N → ℝ) := by
  unfold Alg.norm Alg.squarenorm
  exact Real.continuous_sqrt.comp (continuous_finsetSum _ fun k _ => (continuous_apply k).pow 2)

theorem project_continuous (hN : 0 < N) : Continuous (project : Mat N → Alg N) := by
  have h : ∃ f : Mat N →ₗ[ℝ] Alg N, ∀ a, f a = project a :=
    ⟨⟨⟨project, project_add hN⟩, fun c a => by
      show project (c • a) = _
      rw [show c • a = (c : ℂ) • a from rfl, project_smul hN]; rfl⟩, fun _ => rfl⟩
  obtain ⟨f, hf⟩ := h
  have e : (f : Mat N → Alg N) = project := funext hf
  rw [← e]
  exact f.continuous_of_finiteDimensional

/-- Short steps have small errors. -/
theorem short_steps [∀ d, NeZero (L d)] (hN : 0 < N) (hn : 2 ≤ n) (act : GfAction) (tatol rtol : ℝ) (ha : 0 < tatol) (hr : 0 ≤ rtol) :
    ∃ h0 : ℝ, 0 < h0 ∧ ∀ V : GField L N, IsSUField V → ∀ h, 0 < h → h < h0 → relErr tatol rtol h (rkStep (gfEnv act) V h) ≤ 0.7 := by
  obtain ⟨M, hM0, hM⟩ := gfForce_bounded (L := L) hN hn act
  have hfb : ∀ V : GField L N, IsUnitaryField V → ∀ d x, ‖(gfEnv act).force V d x‖ ≤ M := by
    intro V hV d x
    obtain ⟨F, hF⟩ := gfForce_some hN hn act hV
    have e : (gfEnv act).force V = F := by unfold gfEnv; dsimp only; rw [hF]; rfl
    rw [e, pi_norm_le_iff_of_nonneg hM0]
    exact fun k => hM V hV F hF d x k
  have hcont : Continuous fun p : Alg N × Alg N × Alg N => (project (expAlg p.1 * ((expAlg p.2.1)ᴴ * (expAlg p.2.2)ᴴ))).norm := by
    refine alg_norm_continuous.comp ((project_continuous hN).comp ?_)
    have := expAlg_continuous hN
    exact (this.comp continuous_fst).matrix_mul ((this.comp (continuous_fst.comp continuous_snd)).matrix_conjTranspose.matrix_mul
      (this.comp (continuous_snd.comp continuous_snd)).matrix_conjTranspose)
  have hzero : (project (expAlg (0 : Alg N) * ((expAlg (0 : Alg N))ᴴ * (expAlg (0 : Alg N))ᴴ))).norm = 0 := by
    rw [expAlg_zero hN, Matrix.conjTranspose_one, Matrix.one_mul, Matrix.one_mul]
    have : project (1 : Mat N) = 0 := by
      refine expand_inj hN ?_
      have h0 : expand (0 : Alg N) = 0 := by simpa using expand_smul hN 0 (0 : Alg N)
      rw [expand_project hN, h0]
      unfold algPart
      simp
    rw [this]
    unfold Alg.norm Alg.squarenorm
    simp
  obtain ⟨Φ, hΦd, hΦc, hΦ0⟩ : ∃ Φ : Alg N × Alg N × Alg N → ℝ, (∀ a b c, Φ (a, b, c) = (project (expAlg a * ((expAlg b)ᴴ * (expAlg c)ᴴ))).norm) ∧
      Continuous Φ ∧ Φ 0 = 0 := ⟨_, fun _ _ _ => rfl, hcont, hzero⟩
  have hev : ∀ᶠ p in 𝓝 (0 : Alg N × Alg N × Alg N), Φ p < 0.7 * tatol := by
    refine hΦc.continuousAt.tendsto.eventually_lt_const ?_
    rw [hΦ0]; positivity
  rw [Metric.eventually_nhds_iff] at hev
  obtain ⟨δ, hδ, hev⟩ := hev
  refine ⟨δ / (4 * M + 1), by positivity, fun V hV h hh hlt => ?_⟩
  have hhM : h * (4 * M) < δ := by
    rw [lt_div_iff₀ (by positivity)] at hlt
    linarith
  have u0 := hV.unitary
  obtain ⟨k1, hk1⟩ : ∃ k1, k1 = (gfEnv act).force V := ⟨_, rfl⟩
  obtain ⟨V1, hV1⟩ : ∃ V1 : GField L N, V1 = fun d x => expAlg ((h * 0.25) • k1 d x) * V d x := ⟨_, rfl⟩
  have u1 : IsUnitaryField V1 := by rw [hV1]; exact exp_unitary hN u0 _
  obtain ⟨k2, hk2⟩ : ∃ k2, k2 = (gfEnv act).force V1 := ⟨_, rfl⟩
  obtain ⟨c2, hc2⟩ : ∃ c2 : AlgField L N, c2 = fun d x => (h * (8.0 / 9.0)) • k2 d x + (h * (-17.0 / 36.0)) • k1 d x := ⟨_, rfl⟩
  obtain ⟨V2, hV2⟩ : ∃ V2 : GField L N, V2 = fun d x => expAlg (c2 d x) * V1 d x := ⟨_, rfl⟩
  have u2 : IsUnitaryField V2 := by rw [hV2]; exact exp_unitary hN u1 _
  obtain ⟨k3, hk3⟩ : ∃ k3, k3 = (gfEnv act).force V2 := ⟨_, rfl⟩
  have b1 : ∀ d x, ‖k1 d x‖ ≤ M := by rw [hk1]; exact hfb V u0
  have b2 : ∀ d x, ‖k2 d x‖ ≤ M := by rw [hk2]; exact hfb V1 u1
  have b3 : ∀ d x, ‖k3 d x‖ ≤ M := by rw [hk3]; exact hfb V2 u2
  have ho : rkStep (gfEnv act) V h = ⟨fun d x => expAlg ((h * 0.75) • k3 d x - c2 d x) * V2 d x,
      fun d x => expAlg ((h * 2.0) • k2 d x + (h * -1.25) • k1 d x) * V1 d x, fun d x => (h * 2.0) • k2 d x + (h * -1.25) • k1 d x⟩ := by
    rw [hk3, hV2, hc2, hk2, hV1, hk1]
    rfl
  rw [ho]
  unfold relErr
  refine fieldMax_le (by norm_num) fun d x => ?_
  dsimp only
  have hnn : 0 ≤ rtol * ((h * 2.0) • k2 d x + (h * -1.25) • k1 d x : Alg N).norm / h :=
    div_nonneg (mul_nonneg hr (Real.sqrt_nonneg _)) hh.le
  have hsm : ∀ (c : ℝ) (a : Alg N) (B : ℝ), ‖a‖ ≤ B → ‖(h * c) • a‖ ≤ h * (|c| * B) := by
    intro c a B hB
    rw [norm_smul, norm_mul, Real.norm_eq_abs, Real.norm_eq_abs, abs_of_pos hh, mul_assoc]
    exact mul_le_mul_of_nonneg_left (mul_le_mul_of_nonneg_left hB (abs_nonneg _)) hh.le
  have n1 : ‖(h * 2.0) • k2 d x + (h * -1.25) • k1 d x‖ < δ := by
    refine lt_of_le_of_lt ((norm_add_le _ _).trans (add_le_add (hsm _ _ _ (b2 d x)) (hsm _ _ _ (b1 d x)))) (lt_of_le_of_lt ?_ hhM)
    rw [← mul_add]
    refine mul_le_mul_of_nonneg_left ?_ hh.le
    norm_num [abs_of_pos, abs_of_neg]
    linarith
  have n2' : ‖c2 d x‖ ≤ h * (3 * M) := by
    rw [hc2]
    refine ((norm_add_le _ _).trans (add_le_add (hsm _ _ _ (b2 d x)) (hsm _ _ _ (b1 d x)))).trans ?_
    rw [← mul_add]
    refine mul_le_mul_of_nonneg_left ?_ hh.le
    norm_num [abs_of_pos, abs_of_neg]
    linarith
  have n2 : ‖c2 d x‖ < δ := lt_of_le_of_lt n2' (lt_of_le_of_lt (mul_le_mul_of_nonneg_left (by linarith) hh.le) hhM)
  have n3 : ‖(h * 0.75) • k3 d x - c2 d x‖ < δ := by
    refine lt_of_le_of_lt ((norm_sub_le _ _).trans (add_le_add (hsm _ _ _ (b3 d x)) n2')) (lt_of_le_of_lt ?_ hhM)
    rw [← mul_add]
    refine mul_le_mul_of_nonneg_left ?_ hh.le
    norm_num [abs_of_pos, abs_of_neg]
    linarith
  have hmat : expAlg ((h * 2.0) • k2 d x + (h * -1.25) • k1 d x) * V1 d x * (expAlg ((h * 0.75) • k3 d x - c2 d x) * V2 d x)ᴴ =
      expAlg ((h * 2.0) • k2 d x + (h * -1.25) • k1 d x) * ((expAlg (c2 d x))ᴴ * (expAlg ((h * 0.75) • k3 d x - c2 d x))ᴴ) := by
    have hu1 : V1 d x * (V1 d x)ᴴ = 1 := Matrix.mem_unitaryGroup_iff.1 (u1 d x)
    rw [hV2]
    dsimp only
    rw [Matrix.conjTranspose_mul, Matrix.conjTranspose_mul]
    generalize expAlg _ = A
    generalize (expAlg _)ᴴ = B
    generalize (expAlg _)ᴴ = C
    calc A * V1 d x * ((V1 d x)ᴴ * B * C) = A * (V1 d x * (V1 d x)ᴴ) * (B * C) := by simp only [Matrix.mul_assoc]
      _ = _ := by rw [hu1, Matrix.mul_one]
  rw [hmat]
  have hΦ := @hev ((h * 2.0) • k2 d x + (h * -1.25) • k1 d x, c2 d x, (h * 0.75) • k3 d x - c2 d x) (by
    rw [dist_zero_right, Prod.norm_mk, Prod.norm_mk]
    exact max_lt n1 (max_lt n2 n3))
  rw [hΦd] at hΦ
  refine (div_le_div_of_nonneg_left (Real.sqrt_nonneg _) ha (by linarith)).trans ?_
  rw [div_le_iff₀ ha]
  exact hΦ.le

theorem flowLoop_terminates [∀ d, NeZero (L d)] (hN : 0 < N) (act : GfAction) (tatol rtol tmax ub h0 hmin : ℝ) (hh0 : 0 < h0)
    (hshort : ∀ V : GField L N, IsSUField V → ∀ h, 0 < h → h < h0 → relErr tatol rtol h (rkStep (gfEnv act) V h) ≤ 0.7)
    (hmin0 : 0 < hmin) (hmin1 : hmin ≤ 0.09 * h0) (hmin2 : hmin ≤ ub) (m : ℕ) :
    ∀ s : FlowState L N, IsSUField s.V → IsSUField s.V0 → hmin ≤ s.step → s.step ≤ ub → tmax - s.t ≤ m * hmin →
      ∃ fuel s', flowLoop (gfEnv act) tatol rtol tmax ub fuel s = some s' := by
  induction m with
  | zero =>
    intro s _ _ _ _ ht
    rw [Nat.cast_zero, zero_mul] at ht
    exact ⟨0, s, flowLoop_skip _ _ _ _ _ _ _ (by linarith)⟩
  | succ m ihm =>
    have key : ∀ r : ℕ, ∀ s : FlowState L N, IsSUField s.V → IsSUField s.V0 → hmin ≤ s.step → s.step ≤ ub → tmax - s.t ≤ ((m + 1 : ℕ) : ℝ) * hmin →
        s.step < h0 * (10 / 9) ^ r → ∃ fuel s', flowLoop (gfEnv act) tatol rtol tmax ub fuel s = some s' := by
      intro r
      induction r with
      | zero =>
        intro s hV hV0 hs1 hs2 ht hsr
        by_cases hc : s.t < tmax ∧ s.stop = false
        swap
        · exact ⟨0, s, by unfold flowLoop; rw [if_neg hc]⟩
        obtain ⟨st, hste⟩ : ∃ st : ℝ, st = if s.t + s.step ≥ tmax then tmax - s.t else s.step := ⟨_, rfl⟩
        have hst0 : 0 < st := by rw [hste]; split_ifs <;> linarith [hc.1]
        have hst1 : st ≤ s.step := by rw [hste]; split_ifs <;> linarith
        rw [pow_zero, mul_one] at hsr
        have hre := hshort s.V hV st hst0 (lt_of_le_of_lt hst1 hsr)
        have hacc : relErr tatol rtol st (rkStep (gfEnv act) s.V st) < 1.0 := lt_of_le_of_lt hre (by norm_num)
        obtain ⟨su1, su2⟩ := flowBody_su hN act tatol rtol tmax ub s hV hV0
        by_cases hlast : s.t + s.step ≥ tmax
        · refine ⟨1, flowBody (gfEnv act) tatol rtol tmax ub s, ?_⟩
          rw [if_pos hlast] at hste
          rw [hste] at hacc
          unfold flowLoop
          rw [if_pos hc]
          unfold flowLoop
          rw [if_neg]
          rintro ⟨-, h2⟩
          unfold flowBody at h2
          dsimp only at h2
          simp only [if_pos hlast, if_pos hacc] at h2
          exact absurd h2 (by simp)
        · rw [if_neg hlast] at hste
          rw [hste] at hacc hre
          have et : (flowBody (gfEnv act) tatol rtol tmax ub s).t = s.t + s.step := by
            unfold flowBody; dsimp only; simp only [if_neg hlast, if_pos hacc]
          have es : (flowBody (gfEnv act) tatol rtol tmax ub s).step = min (0.9 * stepFactor (relErr tatol rtol s.step (rkStep (gfEnv act) s.V s.step)) * s.step) ub := by
            unfold flowBody; dsimp only; simp only [if_neg hlast, if_pos hacc]
          have hsf := stepFactor_small (relErr_nonneg tatol rtol s.step (rkStep (gfEnv act) s.V s.step)) hre
          have hstep : hmin ≤ (flowBody (gfEnv act) tatol rtol tmax ub s).step := by
            rw [es]
            refine le_min ?_ hmin2
            have h9 : (1 : ℝ) ≤ 0.9 * stepFactor (relErr tatol rtol s.step (rkStep (gfEnv act) s.V s.step)) := by norm_num at hsf ⊢; linarith
            nlinarith
          obtain ⟨fuel, s', hf⟩ := ihm _ su1 su2 hstep (by rw [es]; exact min_le_right _ _) (by
            rw [et]; push_cast at ht; linarith)
          refine ⟨fuel + 1, s', ?_⟩
          unfold flowLoop
          rw [if_pos hc]
          exact hf
      | succ r ihr =>
        intro s hV hV0 hs1 hs2 ht hsr
        by_cases hc : s.t < tmax ∧ s.stop = false
        swap
        · exact ⟨0, s, by unfold flowLoop; rw [if_neg hc]⟩
        obtain ⟨st, hste⟩ : ∃ st : ℝ, st = if s.t + s.step ≥ tmax then tmax - s.t else s.step := ⟨_, rfl⟩
        have hst0 : 0 < st := by rw [hste]; split_ifs <;> linarith [hc.1]
        have hst1 : st ≤ s.step := by rw [hste]; split_ifs <;> linarith
        obtain ⟨su1, su2⟩ := flowBody_su hN act tatol rtol tmax ub s hV hV0
        have es : (flowBody (gfEnv act) tatol rtol tmax ub s).step = min (0.9 * stepFactor (relErr tatol rtol st (rkStep (gfEnv act) s.V st)) * st) ub := by
          unfold flowBody; dsimp only; rw [← hste]; split_ifs <;> rfl
        have hsub : (flowBody (gfEnv act) tatol rtol tmax ub s).step ≤ ub := by rw [es]; exact min_le_right _ _
        obtain ⟨q, hq⟩ : ∃ q, q = relErr tatol rtol st (rkStep (gfEnv act) s.V st) := ⟨_, rfl⟩
        rw [← hq] at es
        have hq0 : 0 ≤ q := by rw [hq]; exact relErr_nonneg _ _ _ _
        have hlarge : h0 ≤ st → hmin ≤ (flowBody (gfEnv act) tatol rtol tmax ub s).step := by
          intro hl
          rw [es]
          refine le_min (hmin1.trans ?_) hmin2
          have := stepFactor_pos q
          norm_num at this ⊢
          nlinarith
        by_cases hacc : q < 1.0
        · by_cases hlast : s.t + s.step ≥ tmax
          · refine ⟨1, flowBody (gfEnv act) tatol rtol tmax ub s, ?_⟩
            rw [if_pos hlast] at hste
            rw [hq, hste] at hacc
            unfold flowLoop
            rw [if_pos hc]
            unfold flowLoop
            rw [if_neg]
            rintro ⟨-, h2⟩
            unfold flowBody at h2
            dsimp only at h2
            simp only [if_pos hlast, if_pos hacc] at h2
            exact absurd h2 (by simp)
          · rw [if_neg hlast] at hste
            have hacc' := hacc
            rw [hq, hste] at hacc'
            have et : (flowBody (gfEnv act) tatol rtol tmax ub s).t = s.t + s.step := by
              unfold flowBody; dsimp only; simp only [if_neg hlast, if_pos hacc']
            have hstep : hmin ≤ (flowBody (gfEnv act) tatol rtol tmax ub s).step := by
              rcases lt_or_ge st h0 with hl | hl
              · rw [es]
                have hsf := stepFactor_small hq0 (by rw [hq]; exact hshort s.V hV st hst0 hl)
                refine le_min ?_ hmin2
                have h9 : (1 : ℝ) ≤ 0.9 * stepFactor q := by norm_num at hsf ⊢; linarith
                rw [hste]
                nlinarith
              · exact hlarge hl
            obtain ⟨fuel, s', hf⟩ := ihm _ su1 su2 hstep hsub (by rw [et]; push_cast at ht; linarith)
            refine ⟨fuel + 1, s', ?_⟩
            unfold flowLoop
            rw [if_pos hc]
            exact hf
        · have hl : h0 ≤ st := by
            by_contra hl
            have := hshort s.V hV st hst0 (not_le.1 hl)
            rw [← hq] at this
            exact hacc (lt_of_le_of_lt this (by norm_num))
          have et : (flowBody (gfEnv act) tatol rtol tmax ub s).t = s.t := by
            unfold flowBody; dsimp only; rw [← hste, ← hq, if_neg hacc]
          have hsf := stepFactor_reject (r := q) (by norm_num at hacc; exact hacc)
          obtain ⟨fuel, s', hf⟩ := ihr _ su1 su2 (hlarge hl) hsub (by rw [et]; exact ht) (by
            rw [es]
            refine lt_of_le_of_lt (min_le_left _ _) ?_
            rw [pow_succ] at hsr
            have h1 : 0.9 * stepFactor q * st ≤ 0.9 * st := by nlinarith
            norm_num at h1 ⊢
            linarith)
          refine ⟨fuel + 1, s', ?_⟩
          unfold flowLoop
          rw [if_pos hc]
          exact hf
    intro s hV hV0 hs1 hs2 ht
    obtain ⟨r, hr⟩ := pow_unbounded_of_one_lt (s.step / h0) (show (1 : ℝ) < 10 / 9 by norm_num)
    rw [div_lt_iff₀ hh0] at hr
    exact key r s hV hV0 hs1 hs2 ht (by linarith)

/-- **C60.** `do_gradient_flow_adapt` returns, for every field in SU(N), every interval and every positive absolute tolerance. -/
theorem C60_terminates [∀ d, NeZero (L d)] (hN : 0 < N) (hn : 2 ≤ n) (act : GfAction) (V : GField L N) (hV : IsSUField V) (lStart lEnd atol rtol tstep : ℝ)
    (ha : 0 < atol) (hr : 0 ≤ rtol) (ht : 0 ≤ tstep) : ∃ fuel W τ, gradientFlowAdapt (gfEnv act) V lStart lEnd atol rtol tstep fuel = some (W, τ) := by
  unfold gradientFlowAdapt
  dsimp only
  by_cases hl : lStart * lStart / 8.0 < lEnd * lEnd / 8.0
  · have hu : 0 < (lEnd * lEnd / 8.0 - lStart * lStart / 8.0) / 2.0 := div_pos (by linarith) (by norm_num)
    have hta : 0 < atol * Real.sqrt 2.0 := mul_pos ha (Real.sqrt_pos.2 (by norm_num))
    obtain ⟨h0, hh0, hshort⟩ := short_steps (L := L) hN hn act (atol * Real.sqrt 2.0) rtol hta hr
    obtain ⟨f1, f2⟩ := firstStep_pos (gfEnv act) V (lStart * lStart / 8.0) _ tstep hu ht
    generalize (lEnd * lEnd / 8.0 - lStart * lStart / 8.0) / 2.0 = ub at hu f1 f2 ⊢
    generalize firstStep (gfEnv act) V (lStart * lStart / 8.0) ub tstep = st at f1 f2 ⊢
    have hm0 : 0 < min st (min (0.09 * h0) ub) := lt_min f1 (lt_min (by positivity) hu)
    obtain ⟨m, hm⟩ := exists_nat_ge ((lEnd * lEnd / 8.0 - lStart * lStart / 8.0) / min st (min (0.09 * h0) ub))
    rw [div_le_iff₀ hm0] at hm
    obtain ⟨fuel, s', hf⟩ := flowLoop_terminates hN act _ rtol (lEnd * lEnd / 8.0) ub h0 _ hh0 hshort hm0
      ((min_le_right _ _).trans (min_le_left _ _)) ((min_le_right _ _).trans (min_le_right _ _)) m
      ⟨V, V, lStart * lStart / 8.0, st, tstep, false⟩ hV hV (min_le_left _ _) f2 hm
    exact ⟨fuel, s'.V, s'.tstep, by rw [hf]; rfl⟩
  · exact ⟨0, _, _, by rw [flowLoop_skip _ _ _ _ _ _ _ hl]; rfl⟩

/-- A case for the hypotheses: all links equal to one on the lattice of size `2^4`; the flow to the scale 1 returns a field in
SU(2) that is reached in flow time 1/8. -/
example : ∃ fuel W τ, gradientFlowAdapt (L := fun _ : Fin 4 => 2) (N := 2) (gfEnv .zeuthen) (fun _ _ => 1) 0 1 1e-6 1e-4 0 fuel = some (W, τ) ∧ IsSUField W ∧
    FlowChain (gfEnv .zeuthen) (1e-6 * Real.sqrt 2) 1e-4 (fun _ _ => 1) (1 / 8) W := by
  have h1 : IsSUField (fun _ _ => 1 : GField (fun _ : Fin 4 => 2) 2) := fun _ _ => one_mem _
  obtain ⟨fuel, W, τ, h⟩ := C60_terminates (by norm_num) (by norm_num) .zeuthen _ h1 0 1 1e-6 1e-4 0 (by norm_num) (by norm_num) le_rfl
  refine ⟨fuel, W, τ, h, C60_group (by norm_num) .zeuthen _ W h1 0 1 1e-6 1e-4 0 τ fuel le_rfl h, ?_⟩
  have := C60_time _ _ W 0 1 1e-6 1e-4 0 τ fuel le_rfl h
  norm_num at this ⊢
  exact this

/-- A field that is not at rest: short steps decrease the action. -/
example : ∃ V : GField (fun _ : Fin 4 => 2) 2, IsSUField V ∧
    ∃ h0 : ℝ, 0 < h0 ∧ ∀ h, 0 < h → h < h0 → gfS .luscherWeisz (rkStep (gfEnv .luscherWeisz) V h).V < gfS .luscherWeisz V := by
  obtain ⟨V, hV, F, d, x, hF, hne⟩ := some_force
  refine ⟨V, hV, C60_step_descent (by norm_num) (by norm_num) .luscherWeisz (by simp) V hV fun h => hne ?_⟩
  have e : (gfEnv .luscherWeisz).force V = F := by unfold gfEnv; dsimp only; rw [hF]; rfl
  rw [← e, h]
  rfl

end Hila
