import Verif.Lemmas.CsFlow
import Verif.Props.GradFlow

/-!
# C102: flow at constant action
-/

set_option linter.unusedSectionVars false

namespace Hila

open Matrix

variable {n : ℕ} {L : Fin n → ℕ} {N : ℕ}

/-! ### The direction -/

/-- **C102.** At a link with force `F` the new direction is the part of the old direction `K` that is orthogonal to the
force, scaled by a positive number to length one in the scalar product of the algebra. -/
theorem C102_direction (F K : Alg N) (hF : F ≠ 0) (hK : ∀ c : ℝ, K ≠ c • F) :
    ∃ (D : Alg N) (c : ℝ), csDir F K = some D ∧ 0 < c ∧ D = c • (K - (F.dot K / F.dot F) • F) ∧ F.dot D = 0 ∧ D.dot D = 1 := by
  have ho : orthPart F K ≠ 0 := by
    intro h
    exact hK _ (sub_eq_zero.1 h)
  have h1 : 0 < 1.0 / Real.sqrt 2.0 * (orthPart F K).norm :=
    lt_of_le_of_ne (half_norm_nonneg _) fun h => ho ((half_norm_zero _).1 h.symm)
  refine ⟨_, _, by rw [csDir_eq, if_neg (by tauto)], inv_pos.2 h1, ?_, ?_, ?_⟩
  · unfold orthPart
    rw [alg_dot_eq, alg_dot_eq, div_div_div_cancel_right₀ (by norm_num : (2 : ℝ) ≠ 0)]
  · rw [alg_dot_eq, sdot_smul, orthPart_dot hF, mul_zero, zero_div]
  · rw [alg_dot_eq, sdot_smul, sdot_symm, sdot_smul]
    have h2 := half_norm_sq (orthPart F K)
    generalize 1.0 / Real.sqrt 2.0 * (orthPart F K).norm = s at h1 h2
    have h3 : sdot (orthPart F K) (orthPart F K) = 2 * s ^ 2 := by linarith
    rw [h3]
    field_simp

/-- **C102, disagreement.** Where the force is zero or the direction is a multiple of the force the program divides zero
by zero. -/
theorem C102_undefined (F K : Alg N) : csDir F K = none ↔ F = 0 ∨ ∃ c : ℝ, K = c • F := by
  rw [csDir_eq]
  constructor
  · intro h
    split_ifs at h with h1
    exact h1.imp id fun h => ⟨_, sub_eq_zero.1 h⟩
  · intro h
    rw [if_pos]
    by_cases hF : F = 0
    · exact .inl hF
    · rcases h with h | ⟨c, rfl⟩
      · exact .inl h
      · refine .inr ?_
        unfold orthPart
        rw [sdot_smul, mul_div_assoc, div_self (sdot_self_pos hF).ne', mul_one, sub_self]

theorem csDir_some {F K D : Alg N} (h : csDir F K = some D) : F ≠ 0 ∧ (∀ c : ℝ, K ≠ c • F) ∧ F.dot D = 0 ∧ D.dot D = 1 := by
  have hn : ¬(F = 0 ∨ ∃ c : ℝ, K = c • F) := fun hn => by rw [(C102_undefined F K).2 hn] at h; cases h
  push Not at hn
  obtain ⟨D', c, h1, -, -, h2, h3⟩ := C102_direction F K hn.1 hn.2
  rw [h] at h1
  obtain rfl := Option.some.inj h1
  exact ⟨hn.1, hn.2, h2, h3⟩

example : ∃ D : Alg 2, csDir (fun k => if k.val = 0 then 3 else 0) (fun k => if k.val = 1 then 5 else 1) = some D := by
  obtain ⟨D, c, h, -⟩ := C102_direction (N := 2) (fun k => if k.val = 0 then 3 else 0) (fun k => if k.val = 1 then 5 else 1)
    (fun h => by have := congrFun h ⟨0, by norm_num⟩; norm_num at this)
    (fun c h => by have := congrFun h ⟨1, by norm_num⟩; norm_num at this)
  exact ⟨D, h⟩

/-! ### Constant action -/

/-- **C102.** The direction that `get_cs_force` returns leaves the action unchanged: along every curve of unitary links with
`dV/dt = D V` at `t = 0` the derivative of the action of the flow is zero, although every link moves with speed one. -/
theorem C102_constant_action [∀ d, NeZero (L d)] (hN : 0 < N) (hn : 2 ≤ n) (act : CsAction) (V : GField L N)
    (K D : AlgField L N) (h : csForce act V K = some D) :
    (∀ d x, (D d x).dot (D d x) = 1) ∧
      ∀ U : ℝ → GField L N, U 0 = V → (∀ t, IsUnitaryField (U t)) → (LinkCurve U fun d x => expand (D d x)) →
        HasDerivAt (fun t => csS act (U t)) 0 0 := by
  obtain ⟨F, hF, hD⟩ := csForce_iff.1 h
  refine ⟨fun d x => (csDir_some (hD d x)).2.2.2, fun U h0 hu hU => ?_⟩
  obtain ⟨F', e1, d1⟩ := gfForce_deriv hN hn act.gf (csGf_ne act) U D hU hu
  rw [h0, ← csGaugeForce_gf, hF] at e1
  obtain rfl := Option.some.inj e1
  have hp : pairK D F = 0 := by
    have := dot_pair F D
    rw [Finset.sum_eq_zero fun d _ => Finset.sum_eq_zero fun x _ => (csDir_some (hD d x)).2.2.1] at this
    linarith
  rw [hp, neg_zero, zero_div] at d1
  refine d1.congr_of_eventuallyEq (Filter.Eventually.of_forall fun t => ?_)
  exact csS_gf act (U t)

/-- **C102.** A second call with the same links changes nothing. (The first step size is chosen with such a call.) -/
theorem C102_repeat (act : CsAction) (V : GField L N) (K D : AlgField L N) (h : csForce act V K = some D) :
    csForce act V D = some D := by
  obtain ⟨F, hF, hD⟩ := csForce_iff.1 h
  refine csForce_iff.2 ⟨F, hF, fun d x => ?_⟩
  obtain ⟨h1, -, h2, h3⟩ := csDir_some (hD d x)
  generalize D d x = A at h2 h3 ⊢
  generalize F d x = B at h1 h2 ⊢
  have e1 : orthPart B A = A := by
    rw [alg_dot_eq] at h2
    unfold orthPart
    rw [show sdot B A = 0 by linarith, zero_div, zero_smul, sub_zero]
  have hA : A ≠ 0 := by
    rintro rfl
    rw [alg_dot_eq] at h3
    simp [sdot] at h3
  have e2 : 1.0 / Real.sqrt 2.0 * A.norm = 1 := by
    have := half_norm_sq A
    rw [← alg_dot_eq, h3] at this
    exact (pow_eq_one_iff_of_nonneg (half_norm_nonneg A) (by norm_num)).1 this
  rw [csDir_eq, e1, e2, if_neg (by tauto), inv_one, one_smul]

/-- **C102.** The direction is gauge covariant: rotated links and a rotated direction give the rotated result. -/
theorem C102_covariant [∀ d, NeZero (L d)] (hN : 0 < N) (hn : 2 ≤ n) (act : CsAction) (V : GField L N) (hV : IsUnitaryField V)
    (K D : AlgField L N) (h : csForce act V K = some D) (g : PSite L → Mat N) (hg : IsGauge g) :
    csForce act (gaugeT g V) (fun d x => leftConj (g x) (K d x)) = some fun d x => leftConj (g x) (D d x) := by
  obtain ⟨F, hF, hD⟩ := csForce_iff.1 h
  rw [csGaugeForce_gf] at hF
  refine csForce_iff.2 ⟨_, by rw [csGaugeForce_gf]; exact gfForce_gauge hN hn act.gf (csGf_ne act) hV hg hF, fun d x => ?_⟩
  show csDir (leftConj (g x) (F d x)) (leftConj (g x) (K d x)) = _
  have hi : ∀ a : Alg N, rightConj (g x) (leftConj (g x) a) = a := fun a => (C50_conjugation hN (hg x) a a).2.2.1
  have hdot : ∀ a b : Alg N, sdot (leftConj (g x) a) (leftConj (g x) b) = sdot a b := by
    intro a b
    rw [conj_dot hN (hg x), hi]
  have horth : orthPart (leftConj (g x) (F d x)) (leftConj (g x) (K d x)) = leftConj (g x) (orthPart (F d x) (K d x)) := by
    unfold orthPart
    rw [hdot, hdot, sub_eq_add_neg, sub_eq_add_neg, leftConj_add hN, ← neg_smul, ← neg_smul, leftConj_smul hN]
  have hz : ∀ a : Alg N, leftConj (g x) a = 0 ↔ a = 0 := by
    intro a
    constructor
    · intro h
      have h0 : rightConj (g x) (0 : Alg N) = 0 := by
        rw [rightConj_eq]; simpa using leftConj_smul hN ((g x)ᴴ) 0 (0 : Alg N)
      rw [← hi a, h, h0]
    · rintro rfl
      simpa using leftConj_smul hN (g x) 0 (0 : Alg N)
  have h1 := hD d x
  rw [csDir_eq] at h1 ⊢
  simp only [horth, hz, leftConj_normA hN (hg x)]
  split_ifs at h1 with h2
  rw [if_neg h2, ← Option.some.inj h1, leftConj_smul hN]

/-- **C102.** `measure_dE_wplaq_dt` is the derivative of the plaquette energy along the flow, also for a flow of another
action. -/
theorem C102_energy [∀ d, NeZero (L d)] (hN : 0 < N) (hn : 2 ≤ n) (act : CsAction) (V : GField L N)
    (E D : AlgField L N) (h : csForce act V E = some D) :
    ∃ r, csDEWplaq act V E = some r ∧ ∀ U : ℝ → GField L N, U 0 = V → (LinkCurve U fun d x => expand (D d x)) →
      HasDerivAt (fun t => 2 * N * measureSWplaq (U t)) r 0 := by
  obtain ⟨Kc, hK, -⟩ := C57_wplaq hN hn (fun _ => V) 0 (const_curve V hN) (-2.0)
  refine ⟨_, by unfold csDEWplaq; rw [h, allSome_some hK]; rfl, fun U h0 hU => ?_⟩
  obtain ⟨F1, e1, d1⟩ := C57_wplaq hN hn U D hU (-2.0)
  have e : F1 = Kc := by
    funext d x
    have := e1 d x
    rw [h0, hK] at this
    exact (Option.some.inj this).symm
  rw [e] at d1
  dsimp only
  rw [dot_pair]
  have hN' : (N : ℝ) ≠ 0 := Nat.cast_ne_zero.2 (by omega)
  have h2 := d1.const_mul (-(N : ℝ))
  refine (h2.congr_deriv ?_).congr_of_eventuallyEq (Filter.Eventually.of_forall fun t => ?_)
  · field_simp
  · show 2 * (N : ℝ) * measureSWplaq (U t) = -(N : ℝ) * (-2.0 * measureSWplaq (U t))
    norm_num
    ring

/-- **C102, disagreement.** At the field of unit links, with which the program starts if there is no checkpoint, every
direction is undefined. -/
theorem C102_cold [∀ d, NeZero (L d)] (hN : 0 < N) (hn : 2 ≤ n) (act : CsAction) (K : AlgField L N) :
    csForce act (fun _ _ => 1 : GField L N) K = none := by
  by_contra h
  obtain ⟨D, hD⟩ := Option.ne_none_iff_exists'.1 h
  obtain ⟨F, hF, hd⟩ := csForce_iff.1 hD
  rw [csGaugeForce_gf, cold_force hN hn act.gf (csGf_ne act)] at hF
  obtain rfl := Option.some.inj hF
  exact (csDir_some (hd ⟨0, by omega⟩ 0)).1 rfl

example : csForce .iwasaki (fun _ _ => 1 : GField (fun _ : Fin 4 => 8) 3) (fun _ _ _ => 1) = none :=
  C102_cold (by norm_num) (by norm_num) _ _

/-! ### The integration -/

/-- **C102.** If `do_cs_flow_adapt` returns, then the field was moved by Runge-Kutta steps of positive length with an error
below the tolerance, and the sum of the lengths is `t_len`. Between them there may be rejected steps, which leave the
field but not the direction unchanged. If `t_len` is not positive the field is unchanged. -/
theorem C102_time [∀ d, NeZero (L d)] (e : CsEnv L N) (V W : GField L N) (E E' : AlgField L N) (tLen atol rtol tstep τ : ℝ) (fuel : ℕ)
    (ht : 0 ≤ tstep) (h : csFlowAdapt e V E tLen atol rtol tstep fuel = some (W, E', τ)) :
    ∃ E0, (E0 = E ∨ e.dir V E = some E0) ∧ CsChain e (atol * Real.sqrt 2) rtol V E0 (max 0 tLen) W E' := by
  unfold csFlowAdapt at h
  dsimp only at h
  obtain ⟨p, hp, h⟩ := Option.bind_eq_some_iff.1 h
  obtain ⟨s, hs, hw⟩ := Option.map_eq_some_iff.1 h
  obtain ⟨hw1, hw2⟩ := Prod.mk.inj hw
  obtain ⟨hw3, -⟩ := Prod.mk.inj hw2
  rw [← hw1, ← hw3]
  have e2 : (2.0 : ℝ) = 2 := by norm_num
  rw [e2] at hs
  have hE : p.2 = E ∨ e.dir V E = some p.2 := by
    unfold csFirstStep at hp
    dsimp only at hp
    split_ifs at hp
    · obtain ⟨tk, h1, h2⟩ := Option.map_eq_some_iff.1 hp
      rw [← h2]
      exact .inr h1
    · rw [← Option.some.inj hp]
      exact .inl rfl
  refine ⟨p.2, hE, ?_⟩
  by_cases hl : 0 < tLen
  · rw [max_eq_right hl.le]
    have hu : 0 < tLen / 3.0 := div_pos hl (by norm_num)
    have hstep : 0 < p.1 := by
      unfold csFirstStep at hp
      dsimp only at hp
      split_ifs at hp with h1
      · obtain ⟨tk, -, h2⟩ := Option.map_eq_some_iff.1 hp
        rw [← h2]
        dsimp only
        split_ifs with h3
        · exact lt_min (div_pos (by norm_num) (lt_trans (by norm_num) h3)) hu
        · exact lt_min (by norm_num) hu
      · rw [← Option.some.inj hp]
        exact lt_of_le_of_ne (le_min ht hu.le) (Ne.symm h1)
    have := csLoop_chain e _ rtol tLen (tLen / 3.0) hu fuel _ s hs rfl hstep hl.le (by intro h; cases h)
    rw [sub_zero] at this
    exact this
  · rw [max_eq_left (not_lt.1 hl)]
    have : s = ⟨V, V, p.2, 0, p.1, p.1, false⟩ := by
      cases fuel <;> unfold csLoop at hs <;> rw [if_neg (fun h => hl h.1)] at hs <;> exact (Option.some.inj hs).symm
    rw [this]
    exact .refl _ _

/-- The functions of the program with the exact exponential function. -/
noncomputable def csEnv (act : CsAction) : CsEnv L N :=
  ⟨csForce act, expAlg, fun M => (reunitarize M).getD M⟩

theorem CsChain.su [∀ d, NeZero (L d)] (hN : 0 < N) {act : CsAction} {tatol rtol : ℝ} {V W : GField L N} {E E' : AlgField L N} {T : ℝ}
    (h : CsChain (csEnv act) tatol rtol V E T W E') (hV : IsSUField V) : IsSUField W := by
  induction h with
  | refl => exact hV
  | reject _ _ _ _ ih => exact ih hV
  | @step V W E E' h T o hh ho he hc ih =>
    refine ih fun d x => ?_
    have ho' : IsSUField o.1.V := by
      unfold csRkStep at ho
      obtain ⟨k1, -, ho⟩ := Option.bind_eq_some_iff.1 ho
      obtain ⟨k2, -, ho⟩ := Option.bind_eq_some_iff.1 ho
      obtain ⟨k3, -, ho⟩ := Option.map_eq_some_iff.1 ho
      rw [← ho]
      exact fun d x => mul_mem (expAlg_mem hN _) (mul_mem (expAlg_mem hN _) (mul_mem (expAlg_mem hN _) (hV d x)))
    have := gfEnv_reunit (L := L) hN act.gf (ho' d x)
    show (reunitarize (o.1.V d x)).getD (o.1.V d x) ∈ _
    unfold gfEnv at this
    dsimp only at this
    rw [this]
    exact ho' d x

/-- **C102.** Links in SU(N) stay in SU(N). -/
theorem C102_group [∀ d, NeZero (L d)] (hN : 0 < N) (act : CsAction) (V W : GField L N) (hV : IsSUField V) (E E' : AlgField L N)
    (tLen atol rtol tstep τ : ℝ) (fuel : ℕ) (ht : 0 ≤ tstep)
    (h : csFlowAdapt (csEnv act) V E tLen atol rtol tstep fuel = some (W, E', τ)) : IsSUField W := by
  obtain ⟨E0, -, h1⟩ := C102_time _ V W E E' tLen atol rtol tstep τ fuel ht h
  exact h1.su hN hV

/-- **C102, disagreement.** On the field of unit links the flow of any positive length fails. -/
theorem C102_cold_flow [∀ d, NeZero (L d)] (hN : 0 < N) (hn : 2 ≤ n) (act : CsAction) (E : AlgField L N)
    (tLen atol rtol tstep : ℝ) (hl : 0 < tLen) (fuel : ℕ) :
    csFlowAdapt (csEnv act) (fun _ _ => 1 : GField L N) E tLen atol rtol tstep fuel = none := by
  have hdir : ∀ K, (csEnv act).dir (fun _ _ => 1 : GField L N) K = none := fun K => C102_cold hN hn act K
  have hrk : ∀ K h, csRkStep (csEnv act) (fun _ _ => 1 : GField L N) K h = none := by
    intro K h
    unfold csRkStep
    rw [hdir]
    rfl
  unfold csFlowAdapt
  dsimp only
  rw [Option.bind_eq_none_iff]
  intro p _
  rw [Option.map_eq_none_iff]
  cases fuel with
  | zero => unfold csLoop; rw [if_pos ⟨hl, rfl⟩]
  | succ fuel =>
    unfold csLoop
    rw [if_pos ⟨hl, rfl⟩]
    unfold csBody
    dsimp only
    rw [hrk]
    rfl

/-! ### Rejected steps -/

/-- The matrix `diag(i, -i)`. -/
noncomputable def iSigma : Mat 2 := Matrix.diagonal ![Complex.I, -Complex.I]

/-- A force that points in direction 0 at unit links and in direction 1 elsewhere. -/
noncomputable def twoForces (V : GField (fun _ : Fin 1 => 1) 2) : AlgField (fun _ : Fin 1 => 1) 2 := fun _ _ k =>
  open Classical in if k.val = (if V = fun _ _ => 1 then 0 else 1) then 1 else 0

/-- The functions of the program with that force and with an exponential function that is `diag(i, -i)` for all elements
but zero. -/
noncomputable def twoEnv : CsEnv (fun _ : Fin 1 => 1) 2 :=
  ⟨fun V K => allSome fun d x => csDir (twoForces V d x) (K d x), fun a => open Classical in if a = 0 then 1 else iSigma, id⟩

theorem iSigma_ne : iSigma ≠ 1 := by
  intro h
  have := congrFun (congrFun h 0) 0
  simp [iSigma] at this
  exact absurd (congrArg Complex.re this) (by norm_num)

theorem iSigma_sq : iSigma * iSigma = -1 := by
  unfold iSigma
  rw [Matrix.diagonal_mul_diagonal]
  ext i j
  fin_cases i <;> fin_cases j <;> simp [Matrix.diagonal]

theorem iSigma_star : iSigmaᴴ = -iSigma := by
  unfold iSigma
  ext i j
  fin_cases i <;> fin_cases j <;> simp [Matrix.diagonal, Matrix.conjTranspose_apply]

theorem iSigma_project : project (-iSigma) ≠ 0 := by
  intro h
  have h1 := expand_project (N := 2) (by norm_num) (-iSigma)
  have h0 : expand (0 : Alg 2) = 0 := by simpa using expand_smul (N := 2) (by norm_num) 0 (0 : Alg 2)
  rw [h, h0] at h1
  have := congrFun (congrFun h1 0) 0
  unfold algPart at this
  rw [Matrix.conjTranspose_neg, iSigma_star] at this
  simp [iSigma, Matrix.trace, Fin.sum_univ_two] at this
  exact absurd (congrArg Complex.im this) (by norm_num)

/-- Unit links on the lattice with one link. -/
noncomputable def unitLink : GField (fun _ : Fin 1 => 1) 2 := fun _ _ => 1

/-- The three components. -/
def su2Part0 : Fin (2 * 2 - 1) := ⟨0, by norm_num⟩
@[inherit_doc su2Part0] def su2Part1 : Fin (2 * 2 - 1) := ⟨1, by norm_num⟩
@[inherit_doc su2Part0] def su2Part2 : Fin (2 * 2 - 1) := ⟨2, by norm_num⟩

theorem two_dir (V : GField (fun _ : Fin 1 => 1) 2) (a : Alg 2) (ha : a su2Part2 ≠ 0) :
    ∃ (D : Alg 2) (c : ℝ), 0 < c ∧ (∀ d x, csDir (twoForces V d x) a = some D) ∧
      D su2Part2 = c * a su2Part2 ∧ D su2Part1 = if V = unitLink then c * a su2Part1 else 0 := by
  have hF : ∀ d x, twoForces V d x = twoForces V 0 0 := fun _ _ => rfl
  have h2 : twoForces V 0 0 su2Part2 = 0 := by
    unfold twoForces
    rw [if_neg]
    split_ifs <;> simp [su2Part2]
  have hne : twoForces V 0 0 ≠ 0 := by
    intro h
    have h0 := congrFun h su2Part0
    have h1 := congrFun h su2Part1
    unfold twoForces at h0 h1
    by_cases hv : V = fun _ _ => 1
    · simp [hv, su2Part0] at h0
    · simp [hv, su2Part1] at h1
  obtain ⟨D, c, e1, e2, e3, e4, -⟩ := C102_direction (twoForces V 0 0) a hne (by
    intro c h
    refine ha ?_
    rw [h, Pi.smul_apply, h2, smul_zero])
  refine ⟨D, c, e2, fun d x => by rw [hF, e1], ?_, ?_⟩
  · rw [e3, Pi.smul_apply, Pi.sub_apply, Pi.smul_apply, h2, smul_zero, sub_zero, smul_eq_mul]
  · by_cases hv : V = unitLink
    · rw [if_pos hv]
      have h1 : twoForces V 0 0 su2Part1 = 0 := by
        unfold twoForces
        rw [if_neg]
        rw [if_pos (show V = fun _ _ => 1 from hv)]
        simp [su2Part1]
      rw [e3, Pi.smul_apply, Pi.sub_apply, Pi.smul_apply, h1, smul_zero, sub_zero, smul_eq_mul]
    · rw [if_neg hv]
      have hk : ∀ k, twoForces V 0 0 k = if k = su2Part1 then 1 else 0 := by
        intro k
        unfold twoForces
        simp only [if_neg (show ¬ V = fun _ _ => 1 from hv), Fin.ext_iff, su2Part1]
      unfold Alg.dot at e4
      simp only [hk, ite_mul, one_mul, zero_mul, Finset.sum_ite_eq', Finset.mem_univ, if_true] at e4
      norm_num at e4
      exact e4

theorem two_step : ∃ (D1 D3 D4 : Alg 2) (tk : AlgField (fun _ : Fin 1 => 1) 2),
    (∀ d x, csDir (twoForces unitLink d x) (fun _ => 1) = some D1) ∧ (∀ d x, csDir (twoForces unitLink d x) D3 = some D4) ∧
      D1 su2Part1 ≠ 0 ∧ D4 su2Part1 = 0 ∧
      csRkStep twoEnv unitLink (fun _ _ _ => 1) 1 = some (⟨fun _ _ => -iSigma, fun _ _ => -1, tk⟩, fun _ _ => D3) := by
  have hJ : ∀ a : Alg 2, a ≠ 0 → twoEnv.ex a = iSigma := fun a ha => by unfold twoEnv; dsimp only; rw [if_neg ha]
  have hW1 : (fun _ _ => iSigma : GField (fun _ : Fin 1 => 1) 2) ≠ unitLink := fun h => iSigma_ne (congrFun (congrFun h 0) 0)
  have hW2 : (fun _ _ => -1 : GField (fun _ : Fin 1 => 1) 2) ≠ unitLink := by
    intro h
    have := congrFun (congrFun (congrFun (congrFun h 0) 0) 0) 0
    simp [unitLink] at this
    exact absurd (congrArg Complex.re this) (by norm_num)
  obtain ⟨D1, c1, p1, q1, r1, t1⟩ := two_dir unitLink (fun _ => 1) one_ne_zero
  rw [if_pos rfl, mul_one] at t1
  rw [mul_one] at r1
  obtain ⟨D2, c2, p2, q2, r2, t2⟩ := two_dir (fun _ _ => iSigma) D1 (by rw [r1]; exact p1.ne')
  rw [if_neg hW1] at t2
  obtain ⟨D3, c3, p3, q3, r3, t3⟩ := two_dir (fun _ _ => -1) D2 (by rw [r2]; exact (mul_pos p2 (by rw [r1]; exact p1)).ne')
  rw [if_neg hW2] at t3
  have hD3 : D3 su2Part2 ≠ 0 := by
    rw [r3, r2, r1]
    exact (mul_pos p3 (mul_pos p2 p1)).ne'
  obtain ⟨D4, c4, p4, q4, r4, t4⟩ := two_dir unitLink D3 hD3
  rw [if_pos rfl, t3, mul_zero] at t4
  refine ⟨D1, D3, D4, fun _ _ => (1 * 2.0 : ℝ) • D2 + (1 * -1.25 : ℝ) • D1, q1, q4, by rw [t1]; exact p1.ne', t4, ?_⟩
  have d1 : twoEnv.dir unitLink (fun _ _ _ => 1) = some fun _ _ => D1 := allSome_some q1
  have d2 : twoEnv.dir (fun _ _ => iSigma) (fun _ _ => D1) = some fun _ _ => D2 := allSome_some q2
  have d3 : twoEnv.dir (fun _ _ => -1) (fun _ _ => D2) = some fun _ _ => D3 := allSome_some q3
  have n1 : ((1 * 0.25 : ℝ) • D1) ≠ 0 := by
    intro h
    have := congrFun h su2Part1
    rw [Pi.smul_apply, t1] at this
    norm_num at this
    exact p1.ne' this
  have n2 : ((1 * 2.0 : ℝ) • D2 + (1 * -1.25 : ℝ) • D1) ≠ 0 := by
    intro h
    have := congrFun h su2Part1
    rw [Pi.add_apply, Pi.smul_apply, Pi.smul_apply, t1, t2] at this
    norm_num at this
    exact p1.ne' this
  have n3 : ((1 * (8.0 / 9.0) : ℝ) • D2 + (1 * (-17.0 / 36.0) : ℝ) • D1) ≠ 0 := by
    intro h
    have := congrFun h su2Part1
    rw [Pi.add_apply, Pi.smul_apply, Pi.smul_apply, t1, t2] at this
    norm_num at this
    exact p1.ne' this
  have n4 : ((1 * 0.75 : ℝ) • D3 - ((1 * (8.0 / 9.0) : ℝ) • D2 + (1 * (-17.0 / 36.0) : ℝ) • D1)) ≠ 0 := by
    intro h
    have := congrFun h su2Part1
    rw [Pi.sub_apply, Pi.add_apply, Pi.smul_apply, Pi.smul_apply, Pi.smul_apply, t1, t2, t3] at this
    norm_num at this
    exact p1.ne' this
  unfold csRkStep
  unfold unitLink at d1 ⊢
  rw [d1, Option.bind_some]
  dsimp only
  rw [hJ _ n1]
  simp only [mul_one]
  rw [d2, Option.bind_some]
  dsimp only
  rw [hJ _ n2, hJ _ n3, iSigma_sq]
  rw [d3, Option.map_some]
  dsimp only
  rw [hJ _ n4, mul_neg, mul_one]

/-- **C102, disagreement.** A rejected step changes the later flow: the links are restored, but the direction is the one that
the rejected trial ended with, and the next attempt starts from another direction than the first. (Shown with a force and
an exponential function made up for the purpose.) -/
theorem C102_rejected_step : ∃ (tatol : ℝ) (E : AlgField (fun _ : Fin 1 => 1) 2) (s' : CsState (fun _ : Fin 1 => 1) 2)
    (D D' : AlgField (fun _ : Fin 1 => 1) 2), 0 < tatol ∧
    csBody twoEnv tatol 0 9 3 ⟨unitLink, unitLink, E, 0, 1, 1, false⟩ = some s' ∧
    s'.V = unitLink ∧ s'.t = 0 ∧ twoEnv.dir unitLink E = some D ∧ twoEnv.dir s'.V s'.E = some D' ∧ D ≠ D' := by
  obtain ⟨D1, D3, D4, tk, q1, q4, t1, t4, hrk⟩ := two_step
  have hpos : 0 < (project (-iSigma)).norm := by
    unfold Alg.norm
    rw [alg_squarenorm_eq]
    exact Real.sqrt_pos.2 (sdot_self_pos iSigma_project)
  have hstep : csPassStep 0 1 9 = 1 := by
    unfold csPassStep
    rw [if_neg (by norm_num), if_neg (by norm_num)]
  have herr : ¬ relErr (project (-iSigma)).norm 0 1
      (⟨fun _ _ => -iSigma, fun _ _ => -1, tk⟩ : RkOut (fun _ : Fin 1 => 1) 2) < 1.0 := by
    rw [not_lt, show (1.0 : ℝ) = 1 by norm_num]
    unfold relErr
    refine le_trans (le_of_eq ?_) (le_fieldMax _ 0 0)
    dsimp only
    rw [Matrix.conjTranspose_neg, iSigma_star, neg_neg, neg_mul, one_mul, zero_mul, zero_div, add_zero, div_self hpos.ne']
  have hb : ∃ s', csBody twoEnv (project (-iSigma)).norm 0 9 3 ⟨unitLink, unitLink, fun _ _ _ => 1, 0, 1, 1, false⟩ = some s' ∧
      s'.V = unitLink ∧ s'.t = 0 ∧ s'.E = fun _ _ => D3 := by
    unfold csBody
    dsimp only
    rw [hstep, hrk, Option.map_some]
    dsimp only
    rw [if_neg herr]
    exact ⟨_, rfl, rfl, rfl, rfl⟩
  obtain ⟨s', h1, h2, h3, h4⟩ := hb
  refine ⟨(project (-iSigma)).norm, fun _ _ _ => 1, s', fun _ _ => D1, fun _ _ => D4, hpos, h1, h2, h3, allSome_some q1,
    by rw [h2, h4]; exact allSome_some q4, ?_⟩
  · intro h
    have := congrFun (congrFun (congrFun h 0) 0) su2Part1
    rw [t4] at this
    exact t1 this

end Hila
