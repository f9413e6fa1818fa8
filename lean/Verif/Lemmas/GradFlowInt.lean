import Verif.Props.GradFlow

/-!
# Integration of the gradient flow: continuity of the force, properties of a step
-/

set_option linter.unusedSectionVars false

namespace Hila

open Matrix Filter Topology

variable {n : ℕ} {L : Fin n → ℕ} {N : ℕ}

/-! ### Continuity of the force -/

theorem cont_link (d : Fin n) (x : PSite L) : Continuous fun U : GField L N => U d x :=
  (continuous_apply x).comp (continuous_apply d)

theorem cont_linkM (s : PStep n) (x : PSite L) : Continuous fun U : GField L N => linkM U s x := by
  unfold linkM
  split_ifs
  · exact cont_link _ _
  · exact (cont_link _ _).matrix_conjTranspose

theorem cont_path (l : List (PStep n)) (x : PSite L) : Continuous fun U : GField L N => pathM U l x := by
  induction l generalizing x with
  | nil => exact continuous_const
  | cons s l ih => exact (cont_linkM s x).matrix_mul (ih _)

theorem cont_dpath (A : GField L N) (l : List (PStep n)) (x : PSite L) : Continuous fun U : GField L N => dpathM A U l x := by
  induction l generalizing x with
  | nil => exact continuous_const
  | cons s l ih =>
    refine Continuous.add (Continuous.matrix_mul ?_ (cont_path l _)) ((cont_linkM s x).matrix_mul (ih _))
    unfold dlinkM
    split_ifs
    · exact continuous_const.matrix_mul (cont_link _ _)
    · exact (continuous_const.matrix_mul (cont_link _ _)).matrix_conjTranspose

theorem cont_staple (w : Fin n → PSite L → ℝ) (d : Fin n) (x : PSite L) : Continuous fun U : GField L N => stapleSpec w U d x := by
  unfold stapleSpec
  refine continuous_finsetSum _ fun d2 _ => Continuous.add ?_ ?_
  · have h := (((cont_link (N := N) d2 x).matrix_mul (cont_link d (x + Pi.single d2 1))).matrix_mul (cont_link d2 (x + Pi.single d 1)).matrix_conjTranspose)
    exact h.const_smul (w d2 x : ℂ)
  · have h := (((cont_link (N := N) d2 (x - Pi.single d2 1)).matrix_conjTranspose.matrix_mul (cont_link d (x - Pi.single d2 1))).matrix_mul
      (cont_link d2 (x - Pi.single d2 1 + Pi.single d 1)))
    exact h.const_smul (w d2 (x - Pi.single d2 1) : ℂ)

theorem cont_trace {f : GField L N → Mat N} (h : Continuous f) : Continuous fun U => (f U).trace.re :=
  Complex.continuous_re.comp h.matrix_trace

/-- On unitary fields the forces are given by continuous functions. -/
theorem gfForce_formula_grad [∀ d, NeZero (L d)] (hN : 0 < N) (hn : 2 ≤ n) (act : GfAction) (hz : act ≠ .zeuthen) :
    ∃ G : GField L N → AlgField L N, Continuous G ∧ ∀ V : GField L N, IsUnitaryField V → gfForce act V = some (G V) := by
  obtain ⟨u, hu⟩ : ∃ u : Fin n → PSite L → Fin (N * N - 1) → AlgField L N, ∀ d x k, ∀ F : AlgField L N, pairK (u d x k) F = F d x k := by
    refine ⟨fun d x k d' x' k' => if d' = d ∧ x' = x ∧ k' = k then 1 else 0, fun d x k F => ?_⟩
    unfold pairK
    rw [Finset.sum_eq_single d, Finset.sum_eq_single x, Finset.sum_eq_single k]
    · simp
    · intro b _ hb; simp [hb]
    · intro h; exact absurd (Finset.mem_univ _) h
    · intro b _ hb; simp [hb]
    · intro h; exact absurd (Finset.mem_univ _) h
    · intro b _ hb; simp [hb]
    · intro h; exact absurd (Finset.mem_univ _) h
  refine ⟨fun V d x k => 2 * ((gfCoef act).1 * ∑ d', ∑ x', (expand (u d x k d' x') * (V d' x' * (stapleSpec (fun _ _ => 1) V d' x')ᴴ)).trace.re +
        (gfCoef act).2 * ∑ d1, ∑ d2 ∈ Finset.univ.erase d1, ∑ x', (dpathM (fun d' x' => expand (u d x k d' x')) V (rectPath d1 d2) x').trace.re), ?_, ?_⟩
  · refine continuous_pi fun d => continuous_pi fun x => continuous_pi fun k => ?_
    refine continuous_const.mul ((continuous_const.mul ?_).add (continuous_const.mul ?_))
    · exact continuous_finsetSum _ fun d' _ => continuous_finsetSum _ fun x' _ =>
        cont_trace (continuous_const.matrix_mul ((cont_link _ _).matrix_mul (cont_staple _ _ _).matrix_conjTranspose))
    · exact continuous_finsetSum _ fun d1 _ => continuous_finsetSum _ fun d2 _ => continuous_finsetSum _ fun x' _ => cont_trace (cont_dpath _ _ _)
  · intro V hV
    obtain ⟨F, hF⟩ := gfForce_some hN hn act hV
    rw [hF]
    refine congrArg some ?_
    funext d x k
    obtain ⟨U, h0, h1, h2⟩ := exp_curve_alg V hN hV (u d x k)
    obtain ⟨F1, e1, d1⟩ := gfForce_deriv hN hn act hz U _ h1 h2
    rw [h0, hF] at e1
    obtain rfl := Option.some.inj e1
    have d2 := impr_deriv hN h1 h2 (gfCoef act).1 (gfCoef act).2
    have hS : (fun t => gfS act (U t)) = fun t => measureSImpr (U t) (gfCoef act).1 (gfCoef act).2 := by
      funext t; exact gfS_eq act _ (h2 t)
    rw [hS] at d1
    have e := d1.unique d2
    have hN' : (N : ℝ) ≠ 0 := Nat.cast_ne_zero.2 (by omega)
    rw [h0, hu] at e
    dsimp only
    generalize (gfCoef act).1 * _ + _ = z at e ⊢
    field_simp at e
    linarith

/-! ### The environment -/

/-- Exact `chexp`, the force of an action and `reunitarize`. -/
noncomputable def gfEnv (act : GfAction) : FlowEnv L N :=
  ⟨fun U => (gfForce act U).getD 0, expAlg, fun M => (reunitarize M).getD M⟩

/-- All links are in SU(N). -/
def IsSUField (V : GField L N) : Prop := ∀ d x, V d x ∈ Matrix.specialUnitaryGroup (Fin N) ℂ

theorem IsSUField.unitary {V : GField L N} (h : IsSUField V) : IsUnitaryField V := fun d x => (Matrix.mem_specialUnitaryGroup_iff.1 (h d x)).1

/-- Accepted steps: `V` is transformed to `W` by steps of total length `T`, each with an error below the tolerance. -/
inductive FlowChain [∀ d, NeZero (L d)] (e : FlowEnv L N) (tatol rtol : ℝ) : GField L N → ℝ → GField L N → Prop
  | refl (V) : FlowChain e tatol rtol V 0 V
  | step {V W : GField L N} {h T : ℝ} (hh : 0 < h) (he : relErr tatol rtol h (rkStep e V h) < 1)
      (hc : FlowChain e tatol rtol (fun d x => e.reunit ((rkStep e V h).V d x)) T W) : FlowChain e tatol rtol V (h + T) W

theorem stepFactor_pos (r : ℝ) : 0.1 ≤ stepFactor r := by
  unfold stepFactor
  split_ifs with h
  · norm_num
  · dsimp only
    split_ifs with h1 h2
    · exact le_refl _
    · norm_num
    · exact (not_le.1 h1).le

theorem stepFactor_le (r : ℝ) : stepFactor r ≤ 10 := by
  unfold stepFactor
  split_ifs with h
  · norm_num
  · dsimp only
    split_ifs with h1 h2
    · norm_num
    · norm_num
    · have := (not_le.1 h2).le
      norm_num at this ⊢
      exact this

theorem stepFactor_reject {r : ℝ} (h : 1 ≤ r) : stepFactor r ≤ 1 := by
  unfold stepFactor
  rw [if_neg (by linarith)]
  dsimp only
  have : r ^ (-(1.0 / 3.0) : ℝ) ≤ 1 := Real.rpow_le_one_of_one_le_of_nonpos h (by norm_num)
  split_ifs with h1 h2
  · norm_num
  · linarith
  · exact this

theorem stepFactor_small {r : ℝ} (h0 : 0 ≤ r) (h : r ≤ 0.7) : 10 / 9 ≤ stepFactor r := by
  unfold stepFactor
  split_ifs with h1
  · norm_num
  · dsimp only
    have hr : 0 < r := lt_of_le_of_ne h0 (Ne.symm h1)
    have hp : 10 / 9 ≤ r ^ (-(1.0 / 3.0) : ℝ) := by
      have h2 : (0.7 : ℝ) ^ (-(1.0 / 3.0) : ℝ) ≤ r ^ (-(1.0 / 3.0) : ℝ) := Real.rpow_le_rpow_of_nonpos hr h (by norm_num)
      refine le_trans ?_ h2
      have h3 : ((10 / 9 : ℝ) ^ (3 : ℕ)) ^ (1 / 3 : ℝ) = 10 / 9 := by
        rw [← Real.rpow_natCast, ← Real.rpow_mul (by norm_num)]; norm_num
      have h4 : (0.7 : ℝ) ^ (-(1.0 / 3.0) : ℝ) = ((0.7 : ℝ)⁻¹) ^ (1 / 3 : ℝ) := by
        rw [Real.inv_rpow (by norm_num), ← Real.rpow_neg (by norm_num)]; norm_num
      rw [h4, ← h3]
      refine Real.rpow_le_rpow (by norm_num) (by norm_num) (by norm_num)
    split_ifs with h2 h3
    · norm_num at h2 hp ⊢; linarith
    · norm_num
    · exact hp

theorem relErr_nonneg [∀ d, NeZero (L d)] (tatol rtol step : ℝ) (o : RkOut L N) : 0 ≤ relErr tatol rtol step o := by
  unfold relErr fieldMax
  rw [Finset.le_fold_max]
  exact Or.inl le_rfl

theorem fieldMax_le [∀ d, NeZero (L d)] {f : Fin n → PSite L → ℝ} {c : ℝ} (hc : 0 ≤ c) (h : ∀ d x, f d x ≤ c) : fieldMax f ≤ c := by
  unfold fieldMax
  rw [Finset.fold_max_le]
  exact ⟨hc, fun p _ => h p.1 p.2⟩

theorem le_fieldMax [∀ d, NeZero (L d)] (f : Fin n → PSite L → ℝ) (d : Fin n) (x : PSite L) : f d x ≤ fieldMax f := by
  unfold fieldMax
  rw [Finset.le_fold_max]
  exact Or.inr ⟨(d, x), Finset.mem_univ _, le_rfl⟩

theorem firstStep_pos [∀ d, NeZero (L d)] (e : FlowEnv L N) (V : GField L N) (t ubstep tstep : ℝ) (hu : 0 < ubstep) (ht : 0 ≤ tstep) :
    0 < firstStep e V t ubstep tstep ∧ firstStep e V t ubstep tstep ≤ ubstep := by
  unfold firstStep
  dsimp only
  have h0 : 0 ≤ min tstep ubstep := le_min ht hu.le
  have hb : min tstep ubstep ≤ ubstep := min_le_right _ _
  generalize min tstep ubstep = s at h0 hb ⊢
  generalize Real.sqrt _ = m
  split_ifs with h1 h2 h3 h4
  · exact ⟨lt_min (div_pos (by norm_num) (lt_trans (by norm_num) h3)) hu, min_le_right _ _⟩
  · exact ⟨lt_min (by norm_num) hu, min_le_right _ _⟩
  · refine ⟨lt_min (div_pos (by norm_num) ?_) hu, min_le_right _ _⟩
    by_contra hm
    have := mul_nonpos_of_nonneg_of_nonpos h0 (not_lt.1 hm)
    norm_num at h4
    linarith
  · exact ⟨lt_of_le_of_ne h0 (Ne.symm h2), hb⟩
  · push Not at h1
    exact ⟨lt_of_le_of_ne h0 (Ne.symm h1.2), hb⟩

/-- The step size stays in its interval. -/
theorem flowBody_step [∀ d, NeZero (L d)] (e : FlowEnv L N) (tatol rtol tmax ub : ℝ) (s : FlowState L N) (hu : 0 < ub) (hs : 0 < s.step) (ht : s.t < tmax) :
    0 < (flowBody e tatol rtol tmax ub s).step ∧ (flowBody e tatol rtol tmax ub s).step ≤ ub := by
  unfold flowBody
  dsimp only
  have h1 : 0 < if s.t + s.step ≥ tmax then tmax - s.t else s.step := by split_ifs <;> linarith
  have h2 := stepFactor_pos (relErr tatol rtol (if s.t + s.step ≥ tmax then tmax - s.t else s.step)
    (rkStep e s.V (if s.t + s.step ≥ tmax then tmax - s.t else s.step)))
  generalize stepFactor _ = sf at h2 ⊢
  split_ifs <;>
  exact ⟨lt_min (mul_pos (mul_pos (by norm_num) (lt_of_lt_of_le (by norm_num) h2)) (by split_ifs at h1 <;> assumption)) hu, min_le_right _ _⟩

/-! ### A step in SU(N) -/

theorem rkStep_su (e : FlowEnv L N) (he : ∀ a, e.ex a ∈ Matrix.specialUnitaryGroup (Fin N) ℂ) {V : GField L N} (hV : IsSUField V) (h : ℝ) :
    IsSUField (rkStep e V h).V :=
  fun d x => mul_mem (he _) (mul_mem (he _) (mul_mem (he _) (hV d x)))

theorem gfEnv_reunit (hN : 0 < N) (act : GfAction) {M : Mat N} (hM : M ∈ Matrix.specialUnitaryGroup (Fin N) ℂ) : (gfEnv (L := L) act).reunit M = M := by
  have := C55_reunitarize_fixes hN M hM 1 one_pos
  rw [Complex.ofReal_one, one_smul] at this
  unfold gfEnv
  dsimp only
  rw [this]
  rfl

/-! ### Gauge covariance -/

theorem project_conj (hN : 0 < N) {g : Mat N} (hg : g ∈ Matrix.unitaryGroup (Fin N) ℂ) (M : Mat N) : project (g * M * gᴴ) = leftConj g (project M) := by
  refine expand_inj hN ?_
  have h1 : gᴴ * gᴴᴴ = 1 := by rw [Matrix.conjTranspose_conjTranspose]; exact Matrix.mem_unitaryGroup_iff'.1 hg
  have := algPart_rot gᴴ M h1
  rw [Matrix.conjTranspose_conjTranspose] at this
  rw [expand_project hN, this, (C50_conjugation hN hg _ 0).1, expand_project hN]

theorem alg_squarenorm_eq (a : Alg N) : a.squarenorm = sdot a a := by
  unfold Alg.squarenorm sdot
  refine Finset.sum_congr rfl fun k _ => ?_
  ring

theorem leftConj_squarenorm (hN : 0 < N) {g : Mat N} (hg : g ∈ Matrix.unitaryGroup (Fin N) ℂ) (a : Alg N) : (leftConj g a).squarenorm = a.squarenorm := by
  rw [alg_squarenorm_eq, alg_squarenorm_eq, conj_norm hN hg]

theorem leftConj_normA (hN : 0 < N) {g : Mat N} (hg : g ∈ Matrix.unitaryGroup (Fin N) ℂ) (a : Alg N) : (leftConj g a).norm = a.norm := by
  unfold Alg.norm
  rw [leftConj_squarenorm hN hg]

theorem gaugeT_exp (hN : 0 < N) {g : PSite L → Mat N} (hg : IsGauge g) (a : AlgField L N) (V : GField L N) :
    (fun d x => expAlg (rotE g a d x) * gaugeT g V d x) = gaugeT g fun d x => expAlg (a d x) * V d x := by
  funext d x
  unfold rotE gaugeT
  rw [expAlg_conj hN (hg x)]
  have h1 := hg.left x
  calc g x * expAlg (a d x) * (g x)ᴴ * (g x * V d x * (g (x + Pi.single d 1))ᴴ)
      = g x * expAlg (a d x) * ((g x)ᴴ * g x) * (V d x * (g (x + Pi.single d 1))ᴴ) := by simp only [Matrix.mul_assoc]
    _ = _ := by rw [h1, Matrix.mul_one]; simp only [Matrix.mul_assoc]

/-- The force of the rotated field is the rotated force, on SU(N) fields. -/
def ForceCov (e : FlowEnv L N) (g : PSite L → Mat N) : Prop := ∀ V, IsUnitaryField V → e.force (gaugeT g V) = rotE g (e.force V)

theorem exp_unitary (hN : 0 < N) {V : GField L N} (hV : IsUnitaryField V) (a : AlgField L N) : IsUnitaryField fun d x => expAlg (a d x) * V d x :=
  fun d x => mul_mem (Matrix.mem_specialUnitaryGroup_iff.1 (expAlg_mem hN _)).1 (hV d x)

theorem rkStep_gauge (hN : 0 < N) (e : FlowEnv L N) (he : e.ex = expAlg) {g : PSite L → Mat N} (hg : IsGauge g) (hf : ForceCov e g) {V : GField L N}
    (hV : IsUnitaryField V) (h : ℝ) : (rkStep e (gaugeT g V) h).V = gaugeT g (rkStep e V h).V ∧ (rkStep e (gaugeT g V) h).V2 = gaugeT g (rkStep e V h).V2 ∧
      (rkStep e (gaugeT g V) h).tk = rotE g (rkStep e V h).tk := by
  have hs : ∀ (c : ℝ) (a : AlgField L N) d x, c • rotE g a d x = rotE g (fun d x => c • a d x) d x := by
    intro c a d x; unfold rotE; exact (leftConj_smul hN _ _ _).symm
  have hadd : ∀ (a b : AlgField L N) d x, rotE g a d x + rotE g b d x = rotE g (fun d x => a d x + b d x) d x := by
    intro a b d x; unfold rotE; exact (leftConj_add hN _ _ _).symm
  have hsub : ∀ (a b : AlgField L N) d x, rotE g a d x - rotE g b d x = rotE g (fun d x => a d x - b d x) d x := by
    intro a b d x; unfold rotE; exact (leftConj_sub hN _ _ _).symm
  have hge : ∀ (a : AlgField L N) (V : GField L N) d x, expAlg (rotE g a d x) * gaugeT g V d x = gaugeT g (fun d x => expAlg (a d x) * V d x) d x :=
    fun a V d x => congrFun (congrFun (gaugeT_exp hN hg a V) d) x
  unfold rkStep
  rw [he]
  dsimp only
  have f1 := hf V hV
  have f2 := hf _ (exp_unitary hN hV fun d x => (h * 0.25) • e.force V d x)
  have f3 := hf _ (exp_unitary hN (exp_unitary hN hV fun d x => (h * 0.25) • e.force V d x) fun d x =>
    (h * (8.0 / 9.0)) • e.force (fun d x => expAlg ((h * 0.25) • e.force V d x) * V d x) d x + (h * (-17.0 / 36.0)) • e.force V d x)
  simp only [f1, hs, hge]
  have eta : ∀ W : GField L N, (fun d x => gaugeT g W d x) = gaugeT g W := fun _ => rfl
  simp only [eta, f2, hs, hadd, hge]
  simp only [eta, f3, hs, hsub, hge]
  exact ⟨trivial, trivial, trivial⟩

theorem relErr_gauge [∀ d, NeZero (L d)] (hN : 0 < N) {g : PSite L → Mat N} (hg : IsGauge g) (tatol rtol step : ℝ) {o o' : RkOut L N}
    (h1 : o'.V = gaugeT g o.V) (h2 : o'.V2 = gaugeT g o.V2) (h3 : o'.tk = rotE g o.tk) : relErr tatol rtol step o' = relErr tatol rtol step o := by
  unfold relErr
  refine congrArg fieldMax ?_
  funext d x
  rw [h1, h2, h3]
  have e : gaugeT g o.V2 d x * (gaugeT g o.V d x)ᴴ = g x * (o.V2 d x * (o.V d x)ᴴ) * (g x)ᴴ := by
    unfold gaugeT
    have := hg.left (x + Pi.single d 1)
    rw [Matrix.conjTranspose_mul, Matrix.conjTranspose_mul, Matrix.conjTranspose_conjTranspose]
    calc g x * o.V2 d x * (g (x + Pi.single d 1))ᴴ * (g (x + Pi.single d 1) * ((o.V d x)ᴴ * (g x)ᴴ))
        = g x * o.V2 d x * ((g (x + Pi.single d 1))ᴴ * g (x + Pi.single d 1)) * ((o.V d x)ᴴ * (g x)ᴴ) := by simp only [Matrix.mul_assoc]
      _ = _ := by rw [this, Matrix.mul_one]; simp only [Matrix.mul_assoc]
  rw [e, project_conj hN (hg x), leftConj_normA hN (hg x)]
  unfold rotE
  rw [leftConj_normA hN (hg x)]

theorem firstStep_gauge [∀ d, NeZero (L d)] (hN : 0 < N) (e : FlowEnv L N) {g : PSite L → Mat N} (hg : IsGauge g) (hf : ForceCov e g) {V : GField L N}
    (hV : IsUnitaryField V) (t ub ts : ℝ) : firstStep e (gaugeT g V) t ub ts = firstStep e V t ub ts := by
  unfold firstStep
  rw [hf V hV]
  have : (fun d x => (rotE g (e.force V) d x).squarenorm) = fun d x => (e.force V d x).squarenorm := by
    funext d x
    unfold rotE
    exact leftConj_squarenorm hN (hg x) _
  rw [this]

end Hila
