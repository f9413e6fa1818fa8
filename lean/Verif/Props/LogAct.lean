import Verif.Model.LogAct
import Verif.Lemmas.LogDeriv
import Verif.Props.Clover
import Verif.Lemmas.GradFlowInt

/-!
# Actions with the logarithm of the plaquette: C65

`IsLog θ lg` (`Lemmas/LogDeriv`) says what is used of the logarithm: it inverts the exponential for the algebra elements with angles below θ.
`HasLogs θ U` says that all plaquettes are exponentials of such elements. The specification is `logField`, the mean of the logarithms
of the four plaquettes of the plane that touch a site, as path ordered products.
-/

set_option linter.unusedSectionVars false

namespace Hila

open Matrix
open scoped Matrix.Norms.L2Operator

variable {n : ℕ} {L : Fin n → ℕ} {N : ℕ}

/-- All plaquettes have logarithms with angles below θ. -/
def HasLogs (θ : ℝ) (U : GField L N) : Prop := ∀ d1 d2, d1 < d2 → ∀ x, HasLog θ (pathM U [(d1, true), (d2, true), (d1, false), (d2, false)] x)

/-- The field strength from the logarithms of the plaquettes. -/
noncomputable def logField (lg : Mat N → Alg N) (U : GField L N) (d1 d2 : Fin n) (x : PSite L) : Mat N :=
  (1 / 4 : ℂ) • (expand (lg (pathM U [(d1, true), (d2, true), (d1, false), (d2, false)] x)) +
    expand (lg (pathM U [(d2, true), (d1, false), (d2, false), (d1, true)] x)) +
    expand (lg (pathM U [(d1, false), (d2, false), (d1, true), (d2, true)] x)) +
    expand (lg (pathM U [(d2, false), (d1, true), (d2, true), (d1, false)] x)))

theorem su_star {M : Mat N} (h : M ∈ specialUnitaryGroup (Fin N) ℂ) : Mᴴ ∈ specialUnitaryGroup (Fin N) ℂ := by
  rw [mem_specialUnitaryGroup_iff] at h ⊢
  refine ⟨Unitary.star_mem h.1, ?_⟩
  rw [det_conjTranspose, h.2, star_one]

theorem IsSUField.link {U : GField L N} (h : IsSUField U) (s : PStep n) (x : PSite L) : linkM U s x ∈ specialUnitaryGroup (Fin N) ℂ := by
  unfold linkM
  split_ifs
  · exact h _ _
  · exact su_star (h _ _)

theorem IsSUField.path {U : GField L N} (h : IsSUField U) (l : List (PStep n)) (x : PSite L) : pathM U l x ∈ specialUnitaryGroup (Fin N) ℂ := by
  induction l generalizing x with
  | nil => exact one_mem _
  | cons s l ih => exact mul_mem (h.link s x) (ih _)

/-! ### The logarithm -/

/-- There is a logarithm with all angles below π, and there is only one there. -/
theorem C65_log_exists (hN : 0 < N) : ∃ lg : Mat N → Alg N, IsLog Real.pi lg := by
  classical
  refine ⟨fun P => if h : HasLog Real.pi P then h.choose else 0, fun x hx => ?_⟩
  have h : HasLog Real.pi (NormedSpace.exp (expand x)) := ⟨x, hx, rfl⟩
  beta_reduce
  rw [dif_pos h]
  exact exp_expand_inj hN h.choose_spec.1 hx h.choose_spec.2

theorem IsLog.mono {θ θ' : ℝ} (h : θ ≤ θ') {lg : Mat N → Alg N} (hlg : IsLog θ' lg) : IsLog θ lg := fun x hx => hlg x (hx.trans_le h)

theorem rot_alg (hN : 0 < N) {V : Mat N} (hV : V ∈ unitaryGroup (Fin N) ℂ) (x : Alg N) : V * expand x * Vᴴ = expand (project (V * expand x * Vᴴ)) := by
  have a1 : Vᴴ * V = 1 := mem_unitaryGroup_iff'.1 hV
  have h1 := algPart_rot Vᴴ (expand x) (by rw [conjTranspose_conjTranspose]; exact a1)
  rw [conjTranspose_conjTranspose] at h1
  rw [expand_project hN, h1, ← expand_project hN, project_expand hN]

/-- The logarithm of a rotated matrix is the rotated logarithm. -/
theorem log_rot (hN : 0 < N) {θ : ℝ} {lg : Mat N → Alg N} (hlg : IsLog θ lg) {P : Mat N} (hP : HasLog θ P) {V : Mat N} (hV : V ∈ unitaryGroup (Fin N) ℂ) :
    HasLog θ (V * P * Vᴴ) ∧ expand (lg (V * P * Vᴴ)) = V * expand (lg P) * Vᴴ := by
  obtain ⟨x, hx, rfl⟩ := hP
  have e := rot_alg hN hV x
  have hn : ‖expand (project (V * expand x * Vᴴ))‖ < θ := by rw [← e, norm_conj_unitary hV]; exact hx
  rw [← exp_conj_unitary hV, hlg x hx]
  refine ⟨⟨_, hn, by rw [← e]⟩, ?_⟩
  conv_lhs => rw [e, hlg _ hn, ← e]

theorem log_rot' (hN : 0 < N) {θ : ℝ} {lg : Mat N → Alg N} (hlg : IsLog θ lg) {P : Mat N} (hP : HasLog θ P) {V : Mat N} (hV : V ∈ unitaryGroup (Fin N) ℂ) :
    HasLog θ (Vᴴ * P * V) ∧ expand (lg (Vᴴ * P * V)) = Vᴴ * expand (lg P) * V := by
  have := log_rot hN hlg hP (Unitary.star_mem hV)
  rwa [star_eq_conjTranspose, conjTranspose_conjTranspose] at this

/-! ### The leaves as rotated plaquettes -/

theorem leaf1_rot {U : GField L N} (hU : IsUnitaryField U) (d1 d2 : Fin n) (x : PSite L) :
    pathM U [(d2, true), (d1, false), (d2, false), (d1, true)] x = (U d1 (x - unitStep d1))ᴴ *
      pathM U [(d1, true), (d2, true), (d1, false), (d2, false)] (x - unitStep d1) * U d1 (x - unitStep d1) := by
  rw [leaf0, leaf1, cancelU hU]
  simp only [unitStep, sub_add_cancel, Matrix.mul_assoc]

theorem leaf2_rot {U : GField L N} (hU : IsUnitaryField U) (d1 d2 : Fin n) (x : PSite L) :
    pathM U [(d1, false), (d2, false), (d1, true), (d2, true)] x = (U d2 (x - unitStep d2))ᴴ *
      pathM U [(d2, true), (d1, false), (d2, false), (d1, true)] (x - unitStep d2) * U d2 (x - unitStep d2) := by
  rw [leaf1, leaf2, cancelU hU]
  simp only [unitStep, Matrix.mul_assoc]
  rw [show x - (Pi.single d2 1 : PSite L) - Pi.single d1 1 + Pi.single d2 1 = x - Pi.single d1 1 by abel]

theorem leaf3_rot {U : GField L N} (hU : IsUnitaryField U) (d1 d2 : Fin n) (x : PSite L) :
    pathM U [(d2, false), (d1, true), (d2, true), (d1, false)] x = (U d2 (x - unitStep d2))ᴴ *
      pathM U [(d1, true), (d2, true), (d1, false), (d2, false)] (x - unitStep d2) * U d2 (x - unitStep d2) := by
  rw [leaf0, leaf3]
  simp only [unitStep, Matrix.mul_assoc, sub_add_cancel, hU.left, Matrix.mul_one]

theorem HasLogs.leaf (hN : 0 < N) {θ : ℝ} {U : GField L N} (hU : IsUnitaryField U) (h : HasLogs θ U) {d1 d2 : Fin n} (hd : d1 < d2) (k : Fin 4) (x : PSite L) :
    HasLog θ (pathM U (leafPath d1 d2 k) x) := by
  have rot : ∀ (P V : Mat N), V ∈ unitaryGroup (Fin N) ℂ → HasLog θ P → HasLog θ (Vᴴ * P * V) := by
    intro P V hV hP
    obtain ⟨y, hy, rfl⟩ := hP
    have hV' : Vᴴ ∈ unitaryGroup (Fin N) ℂ := Unitary.star_mem hV
    have e1 := rot_alg hN hV' y
    have e2 := exp_conj_unitary hV' (expand y)
    have e3 := norm_conj_unitary hV' (expand y)
    rw [conjTranspose_conjTranspose] at e1 e2 e3
    exact ⟨_, by rw [← e1, e3]; exact hy, by rw [← e1, e2]⟩
  have h1 : ∀ x, HasLog θ (pathM U [(d2, true), (d1, false), (d2, false), (d1, true)] x) := fun x => by
    rw [leaf1_rot hU]
    exact rot _ _ (hU _ _) (h d1 d2 hd _)
  fin_cases k
  · exact h d1 d2 hd x
  · exact h1 x
  · show HasLog θ (pathM U [(d1, false), (d2, false), (d1, true), (d2, true)] x)
    rw [leaf2_rot hU]
    exact rot _ _ (hU _ _) (h1 _)
  · show HasLog θ (pathM U [(d2, false), (d1, true), (d2, true), (d1, false)] x)
    rw [leaf3_rot hU]
    exact rot _ _ (hU _ _) (h d1 d2 hd _)

/-- What `get_log_plaq_mat` computes. -/
theorem C65_plaq_mat (lg : Mat N → Alg N) (U : GField L N) (d1 d2 : Fin n) (x : PSite L) :
    logPlaqMat lg U d1 d2 x = expand (lg (pathM U [(d1, true), (d2, true), (d1, false), (d2, false)] x)) := by
  unfold logPlaqMat
  rw [leaf0]
  simp only [unitStep, conjTranspose_mul, Matrix.mul_assoc]

/-- What `get_log_clover_mat` computes, for the plane at this site. -/
theorem clover_mat_at (hN : 0 < N) {θ : ℝ} {lg : Mat N → Alg N} (hlg : IsLog θ lg) {U : GField L N} (hU : IsUnitaryField U) (d1 d2 : Fin n) (x : PSite L)
    (h : ∀ y, HasLog θ (pathM U [(d1, true), (d2, true), (d1, false), (d2, false)] y)) : logCloverMat lg U d1 d2 x = logField lg U d1 d2 x := by
  have hp := C65_plaq_mat lg U d1 d2
  unfold logPlaqMat at hp
  have h1 : ∀ x, (U d1 (x - unitStep d1))ᴴ * expand (lg (pathM U [(d1, true), (d2, true), (d1, false), (d2, false)] (x - unitStep d1))) * U d1 (x - unitStep d1) =
      expand (lg (pathM U [(d2, true), (d1, false), (d2, false), (d1, true)] x)) := by
    intro x
    rw [leaf1_rot hU, (log_rot' hN hlg (h _) (hU _ _)).2]
  have h1' : ∀ x, HasLog θ (pathM U [(d2, true), (d1, false), (d2, false), (d1, true)] x) := by
    intro x
    rw [leaf1_rot hU]
    exact (log_rot' hN hlg (h _) (hU _ _)).1
  have h2 : (U d2 (x - unitStep d2))ᴴ * expand (lg (pathM U [(d2, true), (d1, false), (d2, false), (d1, true)] (x - unitStep d2))) * U d2 (x - unitStep d2) =
      expand (lg (pathM U [(d1, false), (d2, false), (d1, true), (d2, true)] x)) := by
    rw [leaf2_rot hU, (log_rot' hN hlg (h1' _) (hU _ _)).2]
  have h3 : (U d2 (x - unitStep d2))ᴴ * expand (lg (pathM U [(d1, true), (d2, true), (d1, false), (d2, false)] (x - unitStep d2))) * U d2 (x - unitStep d2) =
      expand (lg (pathM U [(d2, false), (d1, true), (d2, true), (d1, false)] x)) := by
    rw [leaf3_rot hU, (log_rot' hN hlg (h _) (hU _ _)).2]
  unfold logCloverMat logField
  dsimp only
  simp only [hp, h1]
  rw [Matrix.mul_add, Matrix.add_mul, h2, h3]
  norm_num
  abel

/-- What `get_log_clover_mat` and the charge code compute. -/
theorem C65_clover_mat (hN : 0 < N) {θ : ℝ} (lg : Mat N → Alg N) (hlg : IsLog θ lg) (U : GField L N) (hU : IsUnitaryField U) (h : HasLogs θ U)
    (d1 d2 : Fin n) (hd : d1 < d2) (x : PSite L) :
    logCloverMat lg U d1 d2 x = logField lg U d1 d2 x ∧ chargeFLog lg U d1 d2 x = logField lg U d1 d2 x := by
  have h1 := clover_mat_at hN hlg hU d1 d2 x (h d1 d2 hd)
  exact ⟨h1, h1⟩

/-! ### Gauge transformations -/

theorem HasLogs.gauge (hN : 0 < N) {θ : ℝ} {U : GField L N} (h : HasLogs θ U) {g : PSite L → Mat N} (hg : IsGauge g) : HasLogs θ (gaugeT g U) := by
  intro d1 d2 hd x
  obtain ⟨y, hy, hP⟩ := h d1 d2 hd x
  have e : pathM (gaugeT g U) [(d1, true), (d2, true), (d1, false), (d2, false)] x =
      g x * pathM U [(d1, true), (d2, true), (d1, false), (d2, false)] x * (g x)ᴴ := by
    rw [C56_covariant U g hg, show (disp [(d1, true), (d2, true), (d1, false), (d2, false)] : PSite L) = 0 by simp [disp, stepVec], add_zero]
  have e1 := rot_alg hN (hg x) y
  rw [e, ← hP, ← exp_conj_unitary (hg x)]
  exact ⟨_, by rw [← e1, norm_conj_unitary (hg x)]; exact hy, by rw [← e1]⟩

/-- The logarithms transform at their site. -/
theorem C65_covariant (hN : 0 < N) {θ : ℝ} (lg : Mat N → Alg N) (hlg : IsLog θ lg) (U : GField L N) (hU : IsUnitaryField U) (h : HasLogs θ U)
    (g : PSite L → Mat N) (hg : IsGauge g) (d1 d2 : Fin n) (hd : d1 < d2) (x : PSite L) :
    logPlaqMat lg (gaugeT g U) d1 d2 x = g x * logPlaqMat lg U d1 d2 x * (g x)ᴴ ∧
    logCloverMat lg (gaugeT g U) d1 d2 x = g x * logCloverMat lg U d1 d2 x * (g x)ᴴ := by
  have hdis : ∀ k, (disp (leafPath d1 d2 k) : PSite L) = 0 := by
    intro k
    fin_cases k <;> (simp [leafPath, disp, stepVec])
  have hk : ∀ k, expand (lg (pathM (gaugeT g U) (leafPath d1 d2 k) x)) = g x * expand (lg (pathM U (leafPath d1 d2 k) x)) * (g x)ᴴ := by
    intro k
    rw [C56_covariant U g hg, hdis, add_zero]
    exact (log_rot hN hlg (h.leaf hN hU hd k x) (hg x)).2
  have h0 := hk 0; have h1 := hk 1; have h2 := hk 2; have h3 := hk 3
  simp only [leafPath, cons_val] at h0 h1 h2 h3
  refine ⟨by rw [C65_plaq_mat, C65_plaq_mat, h0], ?_⟩
  rw [(C65_clover_mat hN lg hlg U hU h d1 d2 hd x).1, (C65_clover_mat hN lg hlg _ (gaugeT_unitary hU hg) (h.gauge hN hg) d1 d2 hd x).1]
  unfold logField
  rw [h0, h1, h2, h3, Matrix.mul_smul, Matrix.smul_mul]
  simp only [Matrix.mul_add, Matrix.add_mul]

theorem planes_length (n : ℕ) : 2 * (planes n).length + n = n * n := by
  have h1 := sum_planes (n := n) fun _ => (1 : ℝ)
  rw [List.map_const', List.sum_replicate, nsmul_eq_mul, mul_one] at h1
  have h2 : ∑ d1 : Fin n, ∑ d2 : Fin n, (if d1 < d2 then (1 : ℝ) else 0) = ∑ d1 : Fin n, ∑ d2 : Fin n, (if d2 < d1 then (1 : ℝ) else 0) := Finset.sum_comm
  have h3 : ∑ d1 : Fin n, ∑ d2 : Fin n, ((if d1 < d2 then (1 : ℝ) else 0) + (if d2 < d1 then (1 : ℝ) else 0) + (if d1 = d2 then 1 else 0)) = n * n := by
    have e : ∀ d1 d2 : Fin n, ((if d1 < d2 then (1 : ℝ) else 0) + (if d2 < d1 then (1 : ℝ) else 0) + (if d1 = d2 then 1 else 0)) = 1 := by
      intro d1 d2
      rcases lt_trichotomy d1 d2 with h | h | h
      · simp [h, h.not_gt, h.ne]
      · simp [h]
      · simp [h, h.not_gt, h.ne']
    simp only [e]
    simp
  simp only [Finset.sum_add_distrib] at h3
  rw [← h2, ← h1] at h3
  simp only [Finset.sum_ite_eq, Finset.mem_univ, if_true, Finset.sum_const, Finset.card_univ, Fintype.card_fin, nsmul_eq_mul, mul_one] at h3
  have : ((2 * (planes n).length + n : ℕ) : ℝ) = ((n * n : ℕ) : ℝ) := by push_cast; linarith
  exact_mod_cast this

theorem planes_six (h : (planes n).length = 6) : n = 4 := by
  have h1 := planes_length n
  rw [h] at h1
  have h2 : n ≤ 5 := by nlinarith
  interval_cases n <;> simp_all

/-- The actions, the energy and the charge from logarithms are gauge invariant. -/
theorem C65_gauge [∀ d, NeZero (L d)] (hN : 0 < N) {θ : ℝ} (lg : Mat N → Alg N) (hlg : IsLog θ lg) (U : GField L N) (hU : IsUnitaryField U) (h : HasLogs θ U)
    (g : PSite L → Mat N) (hg : IsGauge g) :
    measureSLogPlaq lg (gaugeT g U) = measureSLogPlaq lg U ∧ measureSLog lg (gaugeT g U) = measureSLog lg U := by
  refine ⟨?_, ?_⟩ <;>
  · refine congrArg (· / (N : ℝ)) ?_
    refine Finset.sum_congr rfl fun d1 _ => Finset.sum_congr rfl fun d2 _ => ?_
    split_ifs with hd
    · refine Finset.sum_congr rfl fun x _ => ?_
      have := C65_covariant hN lg hlg U hU h g hg d1 d2 hd x
      first | rw [this.1, sqNorm_rot _ _ (hg.left x)] | rw [this.2, sqNorm_rot _ _ (hg.left x)]
    · rfl

theorem sqNorm_eq_zero_imp {M : Mat N} (h : sqNorm M = 0) : M = 0 := by
  unfold sqNorm at h
  ext i j
  have h1 := (Finset.sum_eq_zero_iff_of_nonneg fun i _ => Finset.sum_nonneg fun j _ => Complex.normSq_nonneg _).1 h i (Finset.mem_univ _)
  have h2 := (Finset.sum_eq_zero_iff_of_nonneg fun j _ => Complex.normSq_nonneg _).1 h1 j (Finset.mem_univ _)
  rw [Complex.normSq_eq_zero.1 h2]
  rfl

theorem sqNorm_nonneg' (M : Mat N) : 0 ≤ sqNorm M := Finset.sum_nonneg fun _ _ => Finset.sum_nonneg fun _ _ => Complex.normSq_nonneg _

/-- The log-plaquette action is not negative, and 0 for trivial plaquettes only. -/
theorem C65_plaq_zero [∀ d, NeZero (L d)] (hN : 0 < N) {θ : ℝ} (lg : Mat N → Alg N) (hlg : IsLog θ lg) (U : GField L N) (h : HasLogs θ U) :
    0 ≤ measureSLogPlaq lg U ∧
    (measureSLogPlaq lg U = 0 ↔ ∀ d1 d2, d1 < d2 → ∀ x, pathM U [(d1, true), (d2, true), (d1, false), (d2, false)] x = 1) := by
  have hn : (0 : ℝ) < N := Nat.cast_pos.2 hN
  have hterm : ∀ d1 d2 : Fin n, 0 ≤ if d1 < d2 then ∑ x, 0.5 * sqNorm (logPlaqMat lg U d1 d2 x) else 0 := by
    intro d1 d2
    split_ifs
    · exact Finset.sum_nonneg fun x _ => mul_nonneg (by norm_num) (sqNorm_nonneg' _)
    · exact le_rfl
  have hsum : 0 ≤ ∑ d1 : Fin n, ∑ d2 : Fin n, if d1 < d2 then ∑ x, 0.5 * sqNorm (logPlaqMat lg U d1 d2 x) else 0 :=
    Finset.sum_nonneg fun d1 _ => Finset.sum_nonneg fun d2 _ => hterm d1 d2
  have hz : ∀ c : Alg N, expand c = 0 → c = 0 := by
    intro c hc
    rw [← project_expand hN c, hc]
    have h2 : expand (project (0 : Mat N)) = expand (0 : Alg N) := by
      rw [expand_project hN, expand_zero' hN 0]
      simp [algPart, antiOf]
    rw [← project_expand hN (project 0), h2, project_expand hN]
  refine ⟨div_nonneg hsum hn.le, ?_⟩
  unfold measureSLogPlaq
  rw [div_eq_zero_iff, or_iff_left hn.ne']
  constructor
  · intro h0 d1 d2 hd x
    have h1 := (Finset.sum_eq_zero_iff_of_nonneg fun d1 _ => Finset.sum_nonneg fun d2 _ => hterm d1 d2).1 h0 d1 (Finset.mem_univ _)
    have h2 := (Finset.sum_eq_zero_iff_of_nonneg fun d2 _ => hterm d1 d2).1 h1 d2 (Finset.mem_univ _)
    rw [if_pos hd] at h2
    have h3 := (Finset.sum_eq_zero_iff_of_nonneg fun x _ => mul_nonneg (by norm_num) (sqNorm_nonneg' _)).1 h2 x (Finset.mem_univ _)
    have h4 := sqNorm_eq_zero_imp ((mul_eq_zero.1 h3).resolve_left (by norm_num))
    rw [C65_plaq_mat] at h4
    obtain ⟨y, hy, hP⟩ := h d1 d2 hd x
    rw [← hP, hlg y hy] at h4
    rw [← hP, h4, NormedSpace.exp_zero]
  · intro h1
    refine Finset.sum_eq_zero fun d1 _ => Finset.sum_eq_zero fun d2 _ => ?_
    split_ifs with hd
    · refine Finset.sum_eq_zero fun x _ => ?_
      obtain ⟨y, hy, hP⟩ := h d1 d2 hd x
      have e0 : NormedSpace.exp (expand (0 : Alg N)) = (1 : Mat N) := by
        rw [expand_zero' hN 0]
        simp [antiOf, NormedSpace.exp_zero]
      have hθ : 0 < θ := (norm_nonneg _).trans_lt hy
      have h0 : expand (0 : Alg N) = 0 := by
        rw [expand_zero' hN 0]
        simp [antiOf]
      have h5 := hlg 0 (by rw [h0, norm_zero]; exact hθ)
      rw [C65_plaq_mat, h1 d1 d2 hd x, ← e0, h5, h0]
      simp [sqNorm]
    · rfl

/-! ### Forces -/

theorem expand_alg (hN : 0 < N) (y : Alg N) : algPart (expand y) = expand y := by
  rw [← expand_project hN, project_expand hN]

theorem expand_star (hN : 0 < N) (y : Alg N) : (expand y)ᴴ = -expand y := by
  rw [expand_eq hN, algMat_star]

/-- The force of a loop, for any field. -/
theorem force_field [∀ d, NeZero (L d)] (hN : 0 < N) {U : GField L N} (hU : IsUnitaryField U) (eps : ℝ) (a : AlgField L N) (l : List (PStep n))
    (hl : disp l = (0 : PSite L)) (hP : ∀ x, pathM U l x * (pathM U l x)ᴴ = 1) (C : PSite L → Mat N) (K : AlgField L N) :
    pairK a (wloopForceFromWl U l C eps K) = pairK a K + 2 * eps * ∑ x, (dpathM (fun d x => algMat (a d x)) U l x * ((pathM U l x)ᴴ * C x)).trace.re := by
  have := force_run hN hU eps a l (fun x => (pathM U l x)ᴴ * C x) C K (fun x => by rw [hl, add_zero, ← Matrix.mul_assoc, hP, Matrix.one_mul])
  rw [pairK_sub] at this
  simp only [hl, add_zero] at this
  linarith

theorem pair_fold [∀ d, NeZero (L d)] {α : Type} (a : AlgField L N) (f : AlgField L N → α → AlgField L N) (g : α → ℝ)
    (h : ∀ K p, pairK a (f K p) = pairK a K + g p) (l : List α) (K : AlgField L N) : pairK a (l.foldl f K) = pairK a K + (l.map g).sum := by
  induction l generalizing K with
  | nil => simp
  | cons p l ih => rw [List.foldl_cons, ih, h, List.map_cons, List.sum_cons]; ring

theorem path_unit {U : GField L N} (hU : IsSUField U) (l : List (PStep n)) (x : PSite L) : pathM U l x * (pathM U l x)ᴴ = 1 :=
  mem_unitaryGroup_iff.1 (mem_specialUnitaryGroup_iff.1 (hU.path l x)).1

theorem sqNorm_deriv' (hN : 0 < N) {f : ℝ → Mat N} {f' : Mat N} (hf : MDeriv f f') (ha : ∀ t, algPart (f t) = f t) :
    HasDerivAt (fun t => 1 / 2 * sqNorm (f t)) (-(f' * f 0).trace.re) 0 := by
  have := sqNorm_deriv hN hf
  simp only [ha] at this
  exact this

theorem logPlaq_run [∀ d, NeZero (L d)] (hN : 0 < N) (lg : Mat N → Alg N) {U : GField L N} (hU : IsSUField U) (eps : ℝ) (a K : AlgField L N) :
    pairK a (forceLogPlaqAdd lg U K eps) = pairK a K + ∑ d1, ∑ d2, if d1 < d2 then 2 * eps * ∑ x,
      (dpathM (fun d x => algMat (a d x)) U [(d1, true), (d2, true), (d1, false), (d2, false)] x *
        ((pathM U [(d1, true), (d2, true), (d1, false), (d2, false)] x)ᴴ * logPlaqMat lg U d1 d2 x)).trace.re else 0 := by
  unfold forceLogPlaqAdd
  rw [pair_fold a _ (fun p => 2 * eps * ∑ x, (dpathM (fun d x => algMat (a d x)) U [(p.1, true), (p.2, true), (p.1, false), (p.2, false)] x *
        ((pathM U [(p.1, true), (p.2, true), (p.1, false), (p.2, false)] x)ᴴ * logPlaqMat lg U p.1 p.2 x)).trace.re) ?_, sum_planes]
  intro K p
  unfold logPlaqPlane logPlaqPath
  exact force_field hN hU.unitary eps a [(p.1, true), (p.2, true), (p.1, false), (p.2, false)] (by simp [disp, stepVec]) (path_unit hU _)
    (logPlaqMat lg U p.1 p.2) K

/-- The force of the log-plaquette action is its gradient, with the same factor as for the other actions. -/
theorem C65_plaq_force [∀ d, NeZero (L d)] (hN : 0 < N) {θ : ℝ} (hθ : θ ≤ Real.pi) (lg : Mat N → Alg N) (hlg : IsLog θ lg)
    (U : ℝ → GField L N) (a : AlgField L N) (hU : LinkCurve U fun d x => expand (a d x)) (hu : ∀ t, IsSUField (U t)) (h : HasLogs θ (U 0))
    (eps : ℝ) (K : AlgField L N) :
    HasDerivAt (fun t => eps * measureSLogPlaq lg (U t)) (-(pairK a (forceLogPlaq lg (U 0) eps)) / (2 * N)) 0 ∧
    pairK a (forceLogPlaqAdd lg (U 0) K eps) = pairK a K + pairK a (forceLogPlaq lg (U 0) eps) := by
  have z : pairK a (fun _ _ => (0 : Alg N)) = 0 := by simp [pairK]
  refine ⟨?_, ?_⟩
  · simp only [expand_eq hN] at hU
    unfold forceLogPlaq
    rw [logPlaq_run hN lg (hu 0), z, zero_add]
    have hs : HasDerivAt (fun t => ∑ d1, ∑ d2, if d1 < d2 then ∑ x, 0.5 * sqNorm (logPlaqMat lg (U t) d1 d2 x) else 0)
        (-∑ d1, ∑ d2, if d1 < d2 then ∑ x, (dpathM (fun d x => algMat (a d x)) (U 0) [(d1, true), (d2, true), (d1, false), (d2, false)] x *
        ((pathM (U 0) [(d1, true), (d2, true), (d1, false), (d2, false)] x)ᴴ * logPlaqMat lg (U 0) d1 d2 x)).trace.re else 0) 0 := by
      rw [← Finset.sum_neg_distrib]
      refine HasDerivAt.fun_sum fun d1 _ => ?_
      rw [← Finset.sum_neg_distrib]
      refine HasDerivAt.fun_sum fun d2 _ => ?_
      split_ifs with hd
      · rw [← Finset.sum_neg_distrib]
        refine HasDerivAt.fun_sum fun x _ => ?_
        simp only [C65_plaq_mat]
        obtain ⟨-, C', hC, hY⟩ := log_curve hN hθ hlg (hU.path [(d1, true), (d2, true), (d1, false), (d2, false)] x) (fun t => (hu t).path _ _) (h d1 d2 hd x)
        have h1 := sqNorm_deriv' hN hC (fun t => expand_alg hN _)
        rw [show (0.5 : ℝ) = 1 / 2 by norm_num]
        refine h1.congr_deriv ?_
        rw [trace_mul_comm, hY _ rfl, trace_mul_comm, Matrix.mul_assoc]
      · rw [neg_zero]; exact hasDerivAt_const _ _
    unfold measureSLogPlaq
    refine ((hs.div_const (N : ℝ)).const_mul eps).congr_deriv ?_
    have : (N : ℝ) ≠ 0 := Nat.cast_ne_zero.2 (by omega)
    have e : ∀ f : Fin n → Fin n → ℝ, (∑ d1, ∑ d2, if d1 < d2 then 2 * eps * f d1 d2 else 0) = 2 * eps * ∑ d1, ∑ d2, if d1 < d2 then f d1 d2 else 0 := by
      intro f
      rw [Finset.mul_sum]
      refine Finset.sum_congr rfl fun d1 _ => ?_
      rw [Finset.mul_sum]
      refine Finset.sum_congr rfl fun d2 _ => ?_
      split_ifs <;> simp
    rw [e]
    field_simp
  · unfold forceLogPlaq
    rw [logPlaq_run hN lg (hu 0), logPlaq_run hN lg (hu 0), z, zero_add]

theorem logClover_run [∀ d, NeZero (L d)] (hN : 0 < N) (lg : Mat N → Alg N) {U : GField L N} (hU : IsSUField U) (eps : ℝ) (a K : AlgField L N) :
    pairK a (forceLogAdd lg U K eps) = pairK a K + ∑ d1, ∑ d2, if d1 < d2 then 2 * eps * ∑ x, ∑ k,
      1 / 4 * (dpathM (fun d x => algMat (a d x)) U (leafPath d1 d2 k) x *
        ((pathM U (leafPath d1 d2 k) x)ᴴ * logCloverMat lg U d1 d2 x)).trace.re else 0 := by
  unfold forceLogAdd
  rw [pair_fold a _ (fun p => 2 * eps * ∑ x, ∑ k, 1 / 4 * (dpathM (fun d x => algMat (a d x)) U (leafPath p.1 p.2 k) x *
        ((pathM U (leafPath p.1 p.2 k) x)ᴴ * logCloverMat lg U p.1 p.2 x)).trace.re) ?_, sum_planes]
  intro K p
  have hd : ∀ k, (disp (leafPath p.1 p.2 k) : PSite L) = 0 := by
    intro k
    fin_cases k <;> (simp [leafPath, disp, stepVec])
  unfold logCloverPlane
  dsimp only
  rw [pair_fold a _ _ (fun K k => force_field hN hU.unitary (0.25 * eps) a (leafPath p.1 p.2 k) (hd k) (path_unit hU _) _ K), ← List.ofFn_eq_map, List.sum_ofFn,
    ← Finset.mul_sum, Finset.sum_comm (s := (Finset.univ : Finset (PSite L)))]
  simp only [← Finset.mul_sum]
  norm_num
  ring

/-- The force of the log-clover action is its gradient at a field where the mean of the four logarithms commutes with each of them.
Missing: other fields, where it is wrong (`C65_clover_force_wrong`). -/
theorem C65_clover_force_partial [∀ d, NeZero (L d)] (hN : 0 < N) {θ : ℝ} (hθ : θ ≤ Real.pi) (lg : Mat N → Alg N) (hlg : IsLog θ lg)
    (U : ℝ → GField L N) (a : AlgField L N) (hU : LinkCurve U fun d x => expand (a d x)) (hu : ∀ t, IsSUField (U t)) (h : HasLogs θ (U 0))
    (hcomm : ∀ d1 d2, d1 < d2 → ∀ x k, Commute (logField lg (U 0) d1 d2 x) (expand (lg (pathM (U 0) (leafPath d1 d2 k) x)))) (eps : ℝ) (K : AlgField L N) :
    HasDerivAt (fun t => eps * measureSLog lg (U t)) (-(pairK a (forceLog lg (U 0) eps)) / (2 * N)) 0 ∧
    pairK a (forceLogAdd lg (U 0) K eps) = pairK a K + pairK a (forceLog lg (U 0) eps) := by
  have z : pairK a (fun _ _ => (0 : Alg N)) = 0 := by simp [pairK]
  refine ⟨?_, ?_⟩
  · simp only [expand_eq hN] at hU
    unfold forceLog
    rw [logClover_run hN lg (hu 0), z, zero_add]
    have hs : HasDerivAt (fun t => ∑ d1, ∑ d2, if d1 < d2 then ∑ x, 0.5 * sqNorm (logCloverMat lg (U t) d1 d2 x) else 0)
        (-∑ d1, ∑ d2, if d1 < d2 then ∑ x, ∑ k, 1 / 4 * (dpathM (fun d x => algMat (a d x)) (U 0) (leafPath d1 d2 k) x *
        ((pathM (U 0) (leafPath d1 d2 k) x)ᴴ * logCloverMat lg (U 0) d1 d2 x)).trace.re else 0) 0 := by
      rw [← Finset.sum_neg_distrib]
      refine HasDerivAt.fun_sum fun d1 _ => ?_
      rw [← Finset.sum_neg_distrib]
      refine HasDerivAt.fun_sum fun d2 _ => ?_
      split_ifs with hd
      · rw [← Finset.sum_neg_distrib]
        refine HasDerivAt.fun_sum fun x _ => ?_
        have hcur : ∀ k, _ := fun k => log_curve hN hθ hlg (hU.path (leafPath d1 d2 k) x) (fun t => (hu t).path _ _) (h.leaf hN (hu 0).unitary hd k x)
        have hev : ∀ᶠ t in nhds (0 : ℝ), ∀ y, HasLog θ (pathM (U t) [(d1, true), (d2, true), (d1, false), (d2, false)] y) := by
          rw [Filter.eventually_all]
          intro y
          exact (log_curve hN hθ hlg (hU.path [(d1, true), (d2, true), (d1, false), (d2, false)] y) (fun t => (hu t).path _ _) (h d1 d2 hd y)).1
        obtain ⟨-, C0, hC0, hY0⟩ := hcur 0
        obtain ⟨-, C1, hC1, hY1⟩ := hcur 1
        obtain ⟨-, C2, hC2, hY2⟩ := hcur 2
        obtain ⟨-, C3, hC3, hY3⟩ := hcur 3
        have hf : MDeriv (fun t => logField lg (U t) d1 d2 x) ((1 / 4 : ℂ) • (C0 + C1 + C2 + C3)) := (((hC0.add hC1).add hC2).add hC3).smul _
        have h1 := sqNorm_deriv' hN hf (fun t => by
          unfold logField
          rw [show (1 / 4 : ℂ) = ((1 / 4 : ℝ) : ℂ) by push_cast; ring, algPart_smul, algPart_add, algPart_add, algPart_add]
          simp only [expand_alg hN])
        rw [show (0.5 : ℝ) = 1 / 2 by norm_num]
        refine (h1.congr_of_eventuallyEq (hev.mono fun t ht => ?_)).congr_deriv ?_
        · beta_reduce
          rw [clover_mat_at hN hlg (hu t).unitary d1 d2 x ht]
        · rw [clover_mat_at hN hlg (hu 0).unitary d1 d2 x (h d1 d2 hd)]
          have q : ∀ (k : Fin 4) (C : Mat N), (∀ Y, Y * expand (lg (pathM (U 0) (leafPath d1 d2 k) x)) = expand (lg (pathM (U 0) (leafPath d1 d2 k) x)) * Y →
              (Y * C).trace = (Y * (dpathM (fun d x => algMat (a d x)) (U 0) (leafPath d1 d2 k) x * (pathM (U 0) (leafPath d1 d2 k) x)ᴴ)).trace) →
              (C * logField lg (U 0) d1 d2 x).trace = (dpathM (fun d x => algMat (a d x)) (U 0) (leafPath d1 d2 k) x *
                ((pathM (U 0) (leafPath d1 d2 k) x)ᴴ * logField lg (U 0) d1 d2 x)).trace := by
            intro k C hC
            rw [trace_mul_comm, hC _ (hcomm d1 d2 hd x k), trace_mul_comm, Matrix.mul_assoc]
          rw [Fin.sum_univ_four, ← q 0 C0 hY0, ← q 1 C1 hY1, ← q 2 C2 hY2, ← q 3 C3 hY3, Matrix.smul_mul, trace_smul, smul_eq_mul,
            show (1 / 4 : ℂ) = ((1 / 4 : ℝ) : ℂ) by push_cast; ring, Complex.re_ofReal_mul]
          simp only [Matrix.add_mul, trace_add, Complex.add_re]
          ring
      · rw [neg_zero]; exact hasDerivAt_const _ _
    unfold measureSLog
    refine ((hs.div_const (N : ℝ)).const_mul eps).congr_deriv ?_
    have : (N : ℝ) ≠ 0 := Nat.cast_ne_zero.2 (by omega)
    have e : ∀ f : Fin n → Fin n → ℝ, (∑ d1, ∑ d2, if d1 < d2 then 2 * eps * f d1 d2 else 0) = 2 * eps * ∑ d1, ∑ d2, if d1 < d2 then f d1 d2 else 0 := by
      intro f
      rw [Finset.mul_sum]
      refine Finset.sum_congr rfl fun d1 _ => ?_
      rw [Finset.mul_sum]
      refine Finset.sum_congr rfl fun d2 _ => ?_
      split_ifs <;> simp
    rw [e]
    field_simp
  · unfold forceLog
    rw [logClover_run hN lg (hu 0), logClover_run hN lg (hu 0), z, zero_add]

/-! ### Topology suppression -/

/-- The logarithm of a plaquette. -/
noncomputable def plaqLog (lg : Mat N → Alg N) (U : GField L N) (d1 d2 : Fin n) (x : PSite L) : Mat N :=
  expand (lg (pathM U [(d1, true), (d2, true), (d1, false), (d2, false)] x))

/-- The functions of the topology suppression work in four dimensions only: with another number of planes the array `F` does not fit. -/
theorem C65_topo_dim [∀ d, NeZero (L d)] (hn : n ≠ 4) (lg : Mat N → Alg N) (U : GField L N) (K : AlgField L N) (eps : ℝ) :
    measureSTopoSupp lg U = none ∧ forceTopoSuppAdd lg U K eps = none := by
  have hl : ((planes n).map fun p => logPlaqMat lg U p.1 p.2).length ≠ 6 := by
    rw [List.length_map]
    exact fun h => hn (planes_six h)
  unfold measureSTopoSupp forceTopoSuppAdd
  dsimp only
  generalize (planes n).map (fun p => logPlaqMat lg U p.1 p.2) = l at hl ⊢
  match l, hl with
  | [], _ => exact ⟨rfl, rfl⟩
  | [_], _ => exact ⟨rfl, rfl⟩
  | [_, _], _ => exact ⟨rfl, rfl⟩
  | [_, _, _], _ => exact ⟨rfl, rfl⟩
  | [_, _, _, _], _ => exact ⟨rfl, rfl⟩
  | [_, _, _, _, _], _ => exact ⟨rfl, rfl⟩
  | [_, _, _, _, _, _], h => exact absurd rfl h
  | _ :: _ :: _ :: _ :: _ :: _ :: _ :: _, _ => exact ⟨rfl, rfl⟩

/-- The action: the squares of the three products of dual components. -/
theorem C65_topo_action {L : Fin 4 → ℕ} [∀ d, NeZero (L d)] (lg : Mat N → Alg N) (U : GField L N) :
    measureSTopoSupp lg U = some ((∑ x, ((plaqLog lg U 0 1 x * plaqLog lg U 2 3 x).trace.re ^ 2 + (plaqLog lg U 0 2 x * plaqLog lg U 1 3 x).trace.re ^ 2 +
      (plaqLog lg U 0 3 x * plaqLog lg U 1 2 x).trace.re ^ 2)) / N) := by
  unfold measureSTopoSupp
  rw [planes_four]
  simp only [List.map_cons, List.map_nil, C65_plaq_mat, Finset.sum_add_distrib]
  unfold plaqLog
  congr 2
  simp only [← pow_two, neg_sq]

theorem C65_topo_gauge {L : Fin 4 → ℕ} [∀ d, NeZero (L d)] (hN : 0 < N) {θ : ℝ} (lg : Mat N → Alg N) (hlg : IsLog θ lg) (U : GField L N)
    (hU : IsUnitaryField U) (h : HasLogs θ U) (g : PSite L → Mat N) (hg : IsGauge g) : measureSTopoSupp lg (gaugeT g U) = measureSTopoSupp lg U := by
  rw [C65_topo_action, C65_topo_action]
  have e1 : ∀ (a b : Fin 4), a < b → ∀ x, plaqLog lg (gaugeT g U) a b x = g x * plaqLog lg U a b x * (g x)ᴴ := by
    intro a b hab x
    have := (C65_covariant hN lg hlg U hU h g hg a b hab x).1
    rwa [C65_plaq_mat, C65_plaq_mat] at this
  have e : ∀ (x : PSite L) (a b c d : Fin 4), a < b → c < d → (plaqLog lg (gaugeT g U) a b x * plaqLog lg (gaugeT g U) c d x).trace =
      (plaqLog lg U a b x * plaqLog lg U c d x).trace := by
    intro x a b c d hab hcd
    rw [e1 a b hab, e1 c d hcd]
    simp only [Matrix.mul_assoc, hg.cancel]
    rw [← Matrix.mul_assoc (plaqLog lg U a b x), ← Matrix.mul_assoc (g x), trace_conj hg]
  congr 2
  refine Finset.sum_congr rfl fun x _ => ?_
  rw [e x 0 1 2 3 (by decide) (by decide), e x 0 2 1 3 (by decide) (by decide), e x 0 3 1 2 (by decide) (by decide)]

/-- The product of dual components. -/
noncomputable def dualQ (lg : Mat N → Alg N) (U : GField L N) (a b c d : Fin n) (x : PSite L) : ℝ := -(plaqLog lg U a b x * plaqLog lg U c d x).trace.re

/-- What the force code adds for one plane and its dual. -/
noncomputable def dualF (lg : Mat N → Alg N) (U : GField L N) (v : AlgField L N) (a b c d : Fin n) (x : PSite L) : ℝ :=
  dualQ lg U a b c d x * (dpathM (fun d x => algMat (v d x)) U [(a, true), (b, true), (a, false), (b, false)] x *
    ((pathM U [(a, true), (b, true), (a, false), (b, false)] x)ᴴ * plaqLog lg U c d x)).trace.re

theorem dualQ_comm (lg : Mat N → Alg N) (U : GField L N) (a b c d : Fin n) (x : PSite L) : dualQ lg U a b c d x = dualQ lg U c d a b x := by
  unfold dualQ
  rw [trace_mul_comm]

theorem topo_run {L : Fin 4 → ℕ} [∀ d, NeZero (L d)] (hN : 0 < N) (lg : Mat N → Alg N) {U : GField L N} (hU : IsSUField U) (eps : ℝ) (a K : AlgField L N) :
    ∃ F, forceTopoSuppAdd lg U K eps = some F ∧ pairK a F = pairK a K + 4 * eps * ∑ x, (dualF lg U a 0 1 2 3 x + dualF lg U a 2 3 0 1 x +
      dualF lg U a 0 2 1 3 x + dualF lg U a 1 3 0 2 x + dualF lg U a 0 3 1 2 x + dualF lg U a 1 2 0 3 x) := by
  unfold forceTopoSuppAdd
  rw [planes_four]
  simp only [List.map_cons, List.map_nil, C65_plaq_mat]
  refine ⟨_, rfl, ?_⟩
  rw [pair_fold a _ (fun q : (Fin 4 × Fin 4) × (PSite L → Mat N) => 2 * (2 * eps) * ∑ x, (dpathM (fun d x => algMat (a d x)) U
    [(q.1.1, true), (q.1.2, true), (q.1.1, false), (q.1.2, false)] x *
        ((pathM U [(q.1.1, true), (q.1.2, true), (q.1.1, false), (q.1.2, false)] x)ᴴ * q.2 x)).trace.re) ?_]
  · have e : ∀ (M P C : Mat N) (q : ℝ), (M * (Pᴴ * ((q : ℂ) • C))).trace.re = q * (M * (Pᴴ * C)).trace.re := by
      intro M P C q
      rw [Matrix.mul_smul, Matrix.mul_smul, trace_smul, smul_eq_mul, Complex.re_ofReal_mul]
    simp only [List.zip_cons_cons, List.zip_nil_left, List.map_cons, List.map_nil, List.sum_cons, List.sum_nil, e, Finset.sum_add_distrib]
    simp only [dualF, dualQ_comm lg U 2 3 0 1, dualQ_comm lg U 1 3 0 2, dualQ_comm lg U 1 2 0 3]
    unfold dualQ plaqLog
    ring
  · intro K q
    unfold logPlaqPath
    rw [show (2.0 : ℝ) * eps = 2 * eps by norm_num]
    exact force_field hN hU.unitary (2 * eps) a [(q.1.1, true), (q.1.2, true), (q.1.1, false), (q.1.2, false)] (by simp [disp, stepVec]) (path_unit hU _) q.2 K

theorem dual_deriv (hN : 0 < N) {θ : ℝ} (hθ : θ ≤ Real.pi) (lg : Mat N → Alg N) (hlg : IsLog θ lg) {U : ℝ → GField L N} {v : AlgField L N}
    (hU : LinkCurve U fun d x => algMat (v d x)) (hu : ∀ t, IsSUField (U t)) (h : HasLogs θ (U 0)) (a b c d : Fin n) (hab : a < b) (hcd : c < d) (x : PSite L)
    (hcomm : Commute (plaqLog lg (U 0) a b x) (plaqLog lg (U 0) c d x)) :
    HasDerivAt (fun t => (plaqLog lg (U t) a b x * plaqLog lg (U t) c d x).trace.re ^ 2) (-2 * (dualF lg (U 0) v a b c d x + dualF lg (U 0) v c d a b x)) 0 := by
  obtain ⟨-, A, hA, hYA⟩ := log_curve hN hθ hlg (hU.path [(a, true), (b, true), (a, false), (b, false)] x) (fun t => (hu t).path _ _) (h a b hab x)
  obtain ⟨-, B, hB, hYB⟩ := log_curve hN hθ hlg (hU.path [(c, true), (d, true), (c, false), (d, false)] x) (fun t => (hu t).path _ _) (h c d hcd x)
  have h1 := (hA.mul hB).trace.pow 2
  refine h1.congr_deriv ?_
  have e1 := hYA (plaqLog lg (U 0) c d x) hcomm.symm
  have e2 := hYB (plaqLog lg (U 0) a b x) hcomm
  rw [trace_mul_comm (plaqLog lg (U 0) c d x), trace_mul_comm (plaqLog lg (U 0) c d x)] at e1
  rw [trace_mul_comm _ (_ * _)] at e2
  unfold dualF
  rw [dualQ_comm lg (U 0) c d a b]
  unfold dualQ plaqLog at *
  rw [trace_add, e1, e2]
  simp only [Complex.add_re, Matrix.mul_assoc]
  ring

/-- The force of the topology suppression is the gradient at a field where dual components commute. Missing: other fields, where it is
wrong (`C65_topo_force_wrong`). -/
theorem C65_topo_force_partial {L : Fin 4 → ℕ} [∀ d, NeZero (L d)] (hN : 0 < N) {θ : ℝ} (hθ : θ ≤ Real.pi) (lg : Mat N → Alg N) (hlg : IsLog θ lg)
    (U : ℝ → GField L N) (a : AlgField L N) (hU : LinkCurve U fun d x => expand (a d x)) (hu : ∀ t, IsSUField (U t)) (h : HasLogs θ (U 0))
    (hcomm : ∀ x, Commute (plaqLog lg (U 0) 0 1 x) (plaqLog lg (U 0) 2 3 x) ∧ Commute (plaqLog lg (U 0) 0 2 x) (plaqLog lg (U 0) 1 3 x) ∧
      Commute (plaqLog lg (U 0) 0 3 x) (plaqLog lg (U 0) 1 2 x)) (eps : ℝ) :
    ∃ (S : ℝ → ℝ) (F : AlgField L N), (∀ t, measureSTopoSupp lg (U t) = some (S t)) ∧ forceTopoSupp lg (U 0) eps = some F ∧
      HasDerivAt (fun t => eps * S t) (-(pairK a F) / (2 * N)) 0 := by
  have z : pairK a (fun _ _ => (0 : Alg N)) = 0 := by simp [pairK]
  obtain ⟨F, hF, hp⟩ := topo_run hN lg (hu 0) eps a (fun _ _ => 0)
  refine ⟨_, F, fun t => C65_topo_action lg (U t), hF, ?_⟩
  simp only [expand_eq hN] at hU
  rw [hp, z, zero_add]
  have hs := HasDerivAt.fun_sum (u := (Finset.univ : Finset (PSite L))) fun x _ =>
    ((dual_deriv hN hθ lg hlg hU hu h 0 1 2 3 (by decide) (by decide) x (hcomm x).1).add
      (dual_deriv hN hθ lg hlg hU hu h 0 2 1 3 (by decide) (by decide) x (hcomm x).2.1)).add
      (dual_deriv hN hθ lg hlg hU hu h 0 3 1 2 (by decide) (by decide) x (hcomm x).2.2)
  refine ((hs.div_const (N : ℝ)).const_mul eps).congr_deriv ?_
  have : (N : ℝ) ≠ 0 := Nat.cast_ne_zero.2 (by omega)
  simp only [← mul_add, ← Finset.mul_sum, ← add_assoc]
  field_simp
  ring

/-! ### Charge and energy -/

/-- The charge and the energy in terms of the field strength. In other dimensions both are 0. -/
theorem C65_charge_energy {L : Fin 4 → ℕ} [∀ d, NeZero (L d)] (hN : 0 < N) {θ : ℝ} (lg : Mat N → Alg N) (hlg : IsLog θ lg) (U : GField L N)
    (hU : IsUnitaryField U) (h : HasLogs θ U) : chargeEnergyLog lg U = some
      ((∑ x, ((logField lg U 0 1 x * logField lg U 2 3 x).trace.re - (logField lg U 0 2 x * logField lg U 1 3 x).trace.re +
        (logField lg U 0 3 x * logField lg U 1 2 x).trace.re)) / (4 * Real.pi ^ 2), 2 * N * measureSLog lg U) := by
  have hc : ∀ (a b : Fin 4), a < b → ∀ x, chargeFLog lg U a b x = logField lg U a b x := fun a b hab x => (C65_clover_mat hN lg hlg U hU h a b hab x).2
  have hc' : ∀ (a b : Fin 4), a < b → ∀ x, logCloverMat lg U a b x = logField lg U a b x := fun a b hab x => (C65_clover_mat hN lg hlg U hU h a b hab x).1
  unfold chargeEnergyLog
  rw [if_pos rfl, planes_four]
  simp only [List.map_cons, List.map_nil, hc 0 1 (by decide), hc 0 2 (by decide), hc 0 3 (by decide), hc 1 2 (by decide), hc 1 3 (by decide), hc 2 3 (by decide)]
  congr 2
  · rw [show (4.0 : ℝ) * Real.pi * Real.pi = 4 * Real.pi ^ 2 by norm_num; ring]
    rfl
  · unfold measureSLog
    rw [mul_assoc, mul_div_cancel₀ _ (Nat.cast_ne_zero.2 (by omega : N ≠ 0))]
    simp only [Fin.sum_univ_four]
    simp only [show ((0 : Fin 4) < 0) = False from by decide, show ((0 : Fin 4) < 1) = True from by decide, show ((0 : Fin 4) < 2) = True from by decide,
      show ((0 : Fin 4) < 3) = True from by decide, show ((1 : Fin 4) < 0) = False from by decide, show ((1 : Fin 4) < 1) = False from by decide,
      show ((1 : Fin 4) < 2) = True from by decide, show ((1 : Fin 4) < 3) = True from by decide, show ((2 : Fin 4) < 0) = False from by decide,
      show ((2 : Fin 4) < 1) = False from by decide, show ((2 : Fin 4) < 2) = False from by decide, show ((2 : Fin 4) < 3) = True from by decide,
      show ((3 : Fin 4) < 0) = False from by decide, show ((3 : Fin 4) < 1) = False from by decide, show ((3 : Fin 4) < 2) = False from by decide,
      show ((3 : Fin 4) < 3) = False from by decide, if_true, if_false, Finset.sum_add_distrib, ← Finset.mul_sum,
      hc' 0 1 (by decide), hc' 0 2 (by decide), hc' 0 3 (by decide), hc' 1 2 (by decide), hc' 1 3 (by decide), hc' 2 3 (by decide)]
    norm_num
    ring

theorem C65_charge_dim [∀ d, NeZero (L d)] (hn : n ≠ 4) (lg : Mat N → Alg N) (U : GField L N) : chargeEnergyLog lg U = some (0, 0) := by
  unfold chargeEnergyLog
  rw [if_neg hn, zero_div]

/-- Charge and energy are gauge invariant. -/
theorem C65_charge_gauge {L : Fin 4 → ℕ} [∀ d, NeZero (L d)] (hN : 0 < N) {θ : ℝ} (lg : Mat N → Alg N) (hlg : IsLog θ lg) (U : GField L N)
    (hU : IsUnitaryField U) (h : HasLogs θ U) (g : PSite L → Mat N) (hg : IsGauge g) : chargeEnergyLog lg (gaugeT g U) = chargeEnergyLog lg U := by
  rw [C65_charge_energy hN lg hlg U hU h, C65_charge_energy hN lg hlg _ (gaugeT_unitary hU hg) (h.gauge hN hg), (C65_gauge hN lg hlg U hU h g hg).2]
  have e1 : ∀ (a b : Fin 4), a < b → ∀ x, logField lg (gaugeT g U) a b x = g x * logField lg U a b x * (g x)ᴴ := by
    intro a b hab x
    have := (C65_covariant hN lg hlg U hU h g hg a b hab x).2
    rwa [(C65_clover_mat hN lg hlg U hU h a b hab x).1, (C65_clover_mat hN lg hlg _ (gaugeT_unitary hU hg) (h.gauge hN hg) a b hab x).1] at this
  have e : ∀ (x : PSite L) (a b c d : Fin 4), a < b → c < d → (logField lg (gaugeT g U) a b x * logField lg (gaugeT g U) c d x).trace =
      (logField lg U a b x * logField lg U c d x).trace := by
    intro x a b c d hab hcd
    rw [e1 a b hab, e1 c d hcd]
    simp only [Matrix.mul_assoc, hg.cancel]
    rw [← Matrix.mul_assoc (logField lg U a b x), ← Matrix.mul_assoc (g x), trace_conj hg]
  have hs : ∑ x, ((logField lg (gaugeT g U) 0 1 x * logField lg (gaugeT g U) 2 3 x).trace.re - (logField lg (gaugeT g U) 0 2 x * logField lg (gaugeT g U) 1 3 x).trace.re +
        (logField lg (gaugeT g U) 0 3 x * logField lg (gaugeT g U) 1 2 x).trace.re) =
      ∑ x, ((logField lg U 0 1 x * logField lg U 2 3 x).trace.re - (logField lg U 0 2 x * logField lg U 1 3 x).trace.re +
        (logField lg U 0 3 x * logField lg U 1 2 x).trace.re) :=
    Finset.sum_congr rfl fun x _ => by
      rw [e x 0 1 2 3 (by decide) (by decide), e x 0 2 1 3 (by decide) (by decide), e x 0 3 1 2 (by decide) (by decide)]
  rw [hs]

end Hila
