import Verif.Lemmas.Degauss
import Mathlib.Analysis.Normed.Module.FiniteDimension
import Mathlib.Analysis.SpecificLimits.Basic

/-!
# C59: removal of Gauss' law violation
-/

set_option linter.unusedSectionVars false

namespace Hila

open Matrix

variable {n : ℕ} {L : Fin n → ℕ} {N : ℕ}

/-! ### Divergence -/

theorem expand_sum (hN : 0 < N) {ι : Type} [Fintype ι] (f : ι → Alg N) : expand (∑ i, f i) = ∑ i, expand (f i) := by
  classical
  refine Finset.induction_on (Finset.univ : Finset ι) ?_ fun i s hi ih => ?_
  · rw [Finset.sum_empty, Finset.sum_empty]
    have := expand_smul hN 0 (0 : Alg N)
    simpa using this
  · rw [Finset.sum_insert hi, Finset.sum_insert hi, expand_add hN, ih]

theorem expand_sub (hN : 0 < N) (a b : Alg N) : expand (a - b) = expand a - expand b := by
  have h := expand_add hN (a - b) b
  rw [sub_add_cancel] at h
  rw [h, add_sub_cancel_right]

/-- **C59.** The violation is the lattice divergence of the electric field: what leaves the site along the links minus what
arrives, where the field that arrives is rotated along its link to the site. -/
theorem C59_divergence (hN : 0 < N) {U : GField L N} (hU : IsUnitaryField U) (E : AlgField L N) (x : PSite L) :
    expand (gaussViolation U E x) =
      ∑ d, (expand (E d x) - (U d (x - Pi.single d 1))ᴴ * expand (E d (x - Pi.single d 1)) * U d (x - Pi.single d 1)) := by
  rw [gaussViolation_eq, expand_sum hN]
  refine Finset.sum_congr rfl fun d _ => ?_
  rw [expand_sub hN, (C50_conjugation hN (hU d _) (E d (x - Pi.single d 1)) 0).2.1]

/-! ### Gauge transformation -/

/-- Gauge transformation of the links. -/
noncomputable def rotLinks (g : PSite L → Mat N) (U : GField L N) : GField L N := fun d x => g x * U d x * (g (x + Pi.single d 1))ᴴ

/-- Gauge transformation of the electric field. -/
noncomputable def rotE (g : PSite L → Mat N) (E : AlgField L N) : AlgField L N := fun d x => leftConj (g x) (E d x)

theorem expand_inj (hN : 0 < N) {a b : Alg N} (h : expand a = expand b) : a = b := by
  rw [← project_expand hN a, h, project_expand hN]

theorem leftConj_mul (hN : 0 < N) {A B : Mat N} (hA : A ∈ Matrix.unitaryGroup (Fin N) ℂ) (hB : B ∈ Matrix.unitaryGroup (Fin N) ℂ) (a : Alg N) :
    leftConj (A * B) a = leftConj A (leftConj B a) := by
  refine expand_inj hN ?_
  rw [(C50_conjugation hN (mul_mem hA hB) a 0).1, (C50_conjugation hN hA _ 0).1, (C50_conjugation hN hB a 0).1, Matrix.conjTranspose_mul]
  simp only [Matrix.mul_assoc]

theorem leftConj_sub (hN : 0 < N) (U : Mat N) (a b : Alg N) : leftConj U (a - b) = leftConj U a - leftConj U b := by
  have h := leftConj_add hN U (a - b) b
  rw [sub_add_cancel] at h
  rw [h, add_sub_cancel_right]

theorem leftConj_sum (hN : 0 < N) {ι : Type} [Fintype ι] (U : Mat N) (f : ι → Alg N) : leftConj U (∑ i, f i) = ∑ i, leftConj U (f i) := by
  classical
  refine Finset.induction_on (Finset.univ : Finset ι) ?_ fun i s hi ih => ?_
  · rw [Finset.sum_empty, Finset.sum_empty]
    have := leftConj_smul hN U 0 (0 : Alg N)
    simpa using this
  · rw [Finset.sum_insert hi, Finset.sum_insert hi, leftConj_add hN, ih]

theorem viol_covariant (hN : 0 < N) {U : GField L N} (hU : IsUnitaryField U) {g : PSite L → Mat N}
    (hg : ∀ x, g x ∈ Matrix.unitaryGroup (Fin N) ℂ) (E : AlgField L N) (x : PSite L) :
    gaussViolation (rotLinks g U) (rotE g E) x = leftConj (g x) (gaussViolation U E x) := by
  rw [gaussViolation_eq, gaussViolation_eq, leftConj_sum hN]
  refine Finset.sum_congr rfl fun d _ => ?_
  rw [leftConj_sub hN]
  congr 1
  simp only [rightConj_eq, rotLinks, rotE, sub_add_cancel, Matrix.conjTranspose_mul, Matrix.conjTranspose_conjTranspose]
  have h1 : (U d (x - Pi.single d 1))ᴴ ∈ Matrix.unitaryGroup (Fin N) ℂ := Unitary.star_mem (hU d _)
  have h2 : (g (x - Pi.single d 1))ᴴ ∈ Matrix.unitaryGroup (Fin N) ℂ := Unitary.star_mem (hg _)
  rw [leftConj_mul hN (hg x) (mul_mem h1 h2), leftConj_mul hN h1 h2, ← leftConj_mul hN h2 (hg _)]
  have : (g (x - Pi.single d 1))ᴴ * g (x - Pi.single d 1) = 1 := Matrix.mem_unitaryGroup_iff'.1 (hg _)
  rw [this, leftConj_one hN]

theorem fix_covariant (hN : 0 < N) {U : GField L N} (hU : IsUnitaryField U) {g : PSite L → Mat N}
    (hg : ∀ x, g x ∈ Matrix.unitaryGroup (Fin N) ℂ) (E : AlgField L N) (v : AlgSite L N) (mag : ℝ) :
    gaussFixStep (rotLinks g U) (rotE g E) (fun x => leftConj (g x) (v x)) mag = rotE g (gaussFixStep U E v mag) := by
  funext d x
  have h1 : (g (x + Pi.single d 1))ᴴ ∈ Matrix.unitaryGroup (Fin N) ℂ := Unitary.star_mem (hg _)
  have h2 : (g (x + Pi.single d 1))ᴴ * g (x + Pi.single d 1) = 1 := Matrix.mem_unitaryGroup_iff'.1 (hg _)
  rw [gaussFixStep_eq, gaussFixStep_eq]
  simp only [Pi.sub_apply, Pi.smul_apply, covGrad, rotE, rotLinks]
  rw [leftConj_sub hN, leftConj_smul hN, leftConj_sub hN, leftConj_mul hN (mul_mem (hg x) (hU d x)) h1, leftConj_mul hN (hg x) (hU d x),
    ← leftConj_mul hN h1 (hg _), h2, leftConj_one hN]

/-- **C59.** Everything is gauge covariant: the violation of the rotated fields is the rotated violation, one step of the
rotated fields gives the rotated step and returns the same number. -/
theorem C59_covariant [∀ d, NeZero (L d)] (hN : 0 < N) {U : GField L N} (hU : IsUnitaryField U) {g : PSite L → Mat N}
    (hg : ∀ x, g x ∈ Matrix.unitaryGroup (Fin N) ℂ) (E : AlgField L N) :
    (∀ x, gaussViolation (rotLinks g U) (rotE g E) x = leftConj (g x) (gaussViolation U E x)) ∧
      degaussStep (rotLinks g U) (rotE g E) = (rotE g (degaussStep U E).1, (degaussStep U E).2) := by
  have hv := fun E => funext (viol_covariant hN hU hg E)
  refine ⟨viol_covariant hN hU hg E, ?_⟩
  unfold degaussStep
  dsimp only
  rw [hv, fix_covariant hN hU hg, hv, fix_covariant hN hU hg]
  refine congrArg (Prod.mk _) (congrArg (· / (Fintype.card (PSite L) : ℝ)) ?_)
  rw [squarenorm_eq, squarenorm_eq, ipS_apply, ipS_apply]
  exact Finset.sum_congr rfl fun x _ => conj_norm hN (hg x) _

/-! ### One step -/

theorem degaussStep_eq [∀ d, NeZero (L d)] (hN : 0 < N) (U : GField L N) (E : AlgField L N) :
    gaussViolation U (gaussFixStep U E (gaussViolation U E) aleph1) = gaussViolation U E - stepL hN U (gaussViolation U E) ∧
      gaussViolation U (degaussStep U E).1 =
        (gaussViolation U E - stepL hN U (gaussViolation U E)) - (2 : ℝ) • stepL hN U (gaussViolation U E - stepL hN U (gaussViolation U E)) := by
  have h : ∀ (F : AlgField L N) (G : AlgSite L N) (c : ℝ), gaussViolation U (gaussFixStep U F G c) = gaussViolation U F - c • gaussViolation U (covGrad U G) := by
    intro F G c
    rw [gaussFixStep_eq]
    have := (divL hN U).map_sub F (c • covGrad U G)
    rw [(divL hN U).map_smul] at this
    exact this
  have h1 : gaussViolation U (gaussFixStep U E (gaussViolation U E) aleph1) = gaussViolation U E - stepL hN U (gaussViolation U E) := by
    rw [h, stepL_apply]
  refine ⟨h1, ?_⟩
  show gaussViolation U (gaussFixStep U (gaussFixStep U E (gaussViolation U E) aleph1)
    (gaussViolation U (gaussFixStep U E (gaussViolation U E) aleph1)) (2 * aleph1)) = _
  rw [h, h1, stepL_apply hN U (_ - _), smul_smul]

/-- **C59.** A field without violation is not changed, and zero is returned. -/
theorem C59_fixpoint [∀ d, NeZero (L d)] (hN : 0 < N) (U : GField L N) (E : AlgField L N) (h : gaussViolation U E = 0) :
    degaussStep U E = (E, 0) := by
  have h0 : covGrad U (0 : AlgSite L N) = 0 := (gradL hN U).map_zero
  have h1 : ∀ c, gaussFixStep U E 0 c = E := by
    intro c
    rw [gaussFixStep_eq, h0, smul_zero, sub_zero]
  unfold degaussStep
  dsimp only
  rw [h, h1, h, h1, squarenorm_eq, map_zero, zero_div]

theorem physical_fix [∀ d, NeZero (L d)] (hN : 0 < N) {U : GField L N} (hU : IsUnitaryField U) (E F : AlgField L N) (G : AlgSite L N)
    (c : ℝ) (hF : gaussViolation U F = 0) : pairK (gaussFixStep U E G c) F = pairK E F := by
  rw [gaussFixStep_eq]
  have h1 : pairK (covGrad U G) F = 0 := by rw [← div_adjoint hN hU, hF, map_zero]
  have h2 : pairK (E - c • covGrad U G) F = pairK E F - c * pairK (covGrad U G) F := by
    simp only [pairK, Finset.mul_sum, ← Finset.sum_sub_distrib]
    refine Finset.sum_congr rfl fun d _ => Finset.sum_congr rfl fun x _ => Finset.sum_congr rfl fun k _ => ?_
    simp only [Pi.sub_apply, Pi.smul_apply, smul_eq_mul]
    ring
  rw [h2, h1, mul_zero, sub_zero]

/-- **C59.** In any dimension a step does not change the physical part of the field: the scalar product with every field
without violation is kept. -/
theorem C59_physical [∀ d, NeZero (L d)] (hN : 0 < N) {U : GField L N} (hU : IsUnitaryField U) (E F : AlgField L N)
    (hF : gaussViolation U F = 0) :
    ∑ d, ∑ x, ∑ k, (degaussStep U E).1 d x k * F d x k = ∑ d, ∑ x, ∑ k, E d x k * F d x k := by
  show pairK (gaussFixStep U (gaussFixStep U E _ _) _ _) F = pairK E F
  rw [physical_fix hN hU _ _ _ _ hF, physical_fix hN hU _ _ _ _ hF]

/-- **C59.** In up to three dimensions the violation never grows. -/
theorem C59_decrease [∀ d, NeZero (L d)] (hN : 0 < N) (hn : n ≤ 3) {U : GField L N} (hU : IsUnitaryField U) (E : AlgField L N) :
    (gaussViolation U (degaussStep U E).1).squarenorm ≤ (gaussViolation U E).squarenorm := by
  have hb := step_between (L := L) hN hn hU
  rw [squarenorm_eq, squarenorm_eq, (degaussStep_eq hN U E).2]
  refine (hb.two_steps _).trans ?_
  have := hb.pos (gaussViolation U E)
  linarith

/-- **C59.** In up to three dimensions the violation that is left is at most 9/4 of the number that is returned. -/
theorem C59_returned [∀ d, NeZero (L d)] (hN : 0 < N) (hn : n ≤ 3) {U : GField L N} (hU : IsUnitaryField U) (E : AlgField L N) :
    (gaussViolation U (degaussStep U E).1).squarenorm / Fintype.card (PSite L) ≤ 9 / 4 * (degaussStep U E).2 := by
  have hb := step_between (L := L) hN hn hU
  have h2 : (degaussStep U E).2 = (gaussViolation U (gaussFixStep U E (gaussViolation U E) aleph1)).squarenorm / Fintype.card (PSite L) := rfl
  rw [h2, ← mul_div_assoc]
  refine div_le_div_of_nonneg_right ?_ (Nat.cast_nonneg _)
  rw [squarenorm_eq, squarenorm_eq, (degaussStep_eq hN U E).2, (degaussStep_eq hN U E).1]
  exact hb.second_step _

/-! ### Convergence -/

theorem lower_bound {V W : Type} [NormedAddCommGroup V] [NormedSpace ℝ V] [FiniteDimensional ℝ V] [NormedAddCommGroup W] [NormedSpace ℝ W]
    (f : V →ₗ[ℝ] W) (S : Submodule ℝ V) (h : ∀ v ∈ S, f v = 0 → v = 0) : ∃ K : ℝ, 0 < K ∧ ∀ v ∈ S, ‖v‖ ≤ K * ‖f v‖ := by
  obtain ⟨K, hK, hf⟩ := LinearMap.exists_antilipschitzWith (f.domRestrict S)
    (LinearMap.ker_eq_bot'.2 fun v hv => Subtype.ext (h v.1 v.2 hv))
  refine ⟨K, hK, fun v hv => ?_⟩
  have := hf.le_mul_dist ⟨v, hv⟩ 0
  rw [map_zero, dist_zero_right, dist_zero_right] at this
  exact this

theorem ipS_le_norm [∀ d, NeZero (L d)] (G : AlgSite L N) : ipS G G ≤ Fintype.card (PSite L) * (N * N - 1 : ℕ) * ‖G‖ ^ 2 := by
  rw [ipS_apply]
  have h : ∀ x, sdot (G x) (G x) ≤ (N * N - 1 : ℕ) * ‖G‖ ^ 2 := by
    intro x
    unfold sdot
    refine (Finset.sum_le_card_nsmul _ _ (‖G‖ ^ 2) fun k _ => ?_).trans (le_of_eq ?_)
    · have h1 : ‖G x k‖ ≤ ‖G‖ := (norm_le_pi_norm (G x) k).trans (norm_le_pi_norm G x)
      rw [← pow_two, ← sq_abs, ← Real.norm_eq_abs]
      exact pow_le_pow_left₀ (norm_nonneg _) h1 2
    · rw [Finset.card_univ, Fintype.card_fin, nsmul_eq_mul]
  refine (Finset.sum_le_card_nsmul _ _ _ fun x _ => h x).trans (le_of_eq ?_)
  rw [Finset.card_univ, nsmul_eq_mul, mul_assoc]

theorem norm_le_ipS [∀ d, NeZero (L d)] (G : AlgSite L N) : ‖G‖ ^ 2 ≤ ipS G G := by
  have h0 : 0 ≤ ipS G G := by rw [ipS_apply]; exact Finset.sum_nonneg fun x _ => sdot_nonneg _
  refine (Real.le_sqrt (norm_nonneg _) h0).1 ?_
  refine (pi_norm_le_iff_of_nonneg (Real.sqrt_nonneg _)).2 fun x => (pi_norm_le_iff_of_nonneg (Real.sqrt_nonneg _)).2 fun k => ?_
  refine Real.le_sqrt_of_sq_le ?_
  rw [Real.norm_eq_abs, sq_abs, pow_two, ipS_apply]
  refine le_trans ?_ (Finset.single_le_sum (f := fun x => sdot (G x) (G x)) (fun y _ => sdot_nonneg (G y)) (Finset.mem_univ x))
  exact Finset.single_le_sum (f := fun k => G x k * G x k) (fun j _ => mul_self_nonneg _) (Finset.mem_univ k)

theorem norm_le_pairK [∀ d, NeZero (L d)] (E : AlgField L N) : ‖E‖ ^ 2 ≤ pairK E E := by
  have h1 : ∀ d, 0 ≤ ∑ x, sdot (E d x) (E d x) := fun d => Finset.sum_nonneg fun x _ => sdot_nonneg _
  have h0 : 0 ≤ pairK E E := by rw [pairK_eq]; exact Finset.sum_nonneg fun d _ => h1 d
  refine (Real.le_sqrt (norm_nonneg _) h0).1 ?_
  refine (pi_norm_le_iff_of_nonneg (Real.sqrt_nonneg _)).2 fun d => ?_
  refine Real.le_sqrt_of_sq_le ((norm_le_ipS (E d)).trans ?_)
  rw [pairK_eq, ipS_apply]
  exact Finset.single_le_sum (f := fun d => ∑ x, sdot (E d x) (E d x)) (fun d _ => h1 d) (Finset.mem_univ d)

/-- A step of the field. -/
noncomputable def stepE [∀ d, NeZero (L d)] (U : GField L N) (E : AlgField L N) : AlgField L N := (degaussStep U E).1

theorem geometric [∀ d, NeZero (L d)] (hN : 0 < N) (hn : n ≤ 3) {U : GField L N} (hU : IsUnitaryField U) (E : AlgField L N) :
    Filter.Tendsto (fun k => ipS (gaussViolation U ((stepE U)^[k] E)) (gaussViolation U ((stepE U)^[k] E))) Filter.atTop (nhds 0) := by
  have hb := step_between (L := L) hN hn hU
  have hip : ∀ G : AlgSite L N, 0 ≤ ipS G G := fun G => by rw [ipS_apply]; exact Finset.sum_nonneg fun x _ => sdot_nonneg _
  obtain ⟨K, hK, hlow⟩ := lower_bound (gradL hN U) (LinearMap.range (divL hN U)) (by
    rintro G ⟨F, rfl⟩ h
    have h1 := div_adjoint hN hU (gaussViolation U F) F
    have h2 : covGrad U (gaussViolation U F) = 0 := h
    rw [h2] at h1
    have h3 : ipS (gaussViolation U F) (gaussViolation U F) = 0 := by rw [h1]; simp [pairK]
    have h4 := norm_le_ipS (gaussViolation U F)
    rw [h3] at h4
    exact norm_eq_zero.1 (pow_eq_zero_iff two_ne_zero |>.1 (le_antisymm h4 (sq_nonneg _))))
  obtain ⟨C, hC⟩ : ∃ C : ℝ, C = Fintype.card (PSite L) * (N * N - 1 : ℕ) * K ^ 2 + 1 := ⟨_, rfl⟩
  have hCpos : 0 < C := by rw [hC]; positivity
  have hdec : ∀ F : AlgField L N, ipS (gaussViolation U (stepE U F)) (gaussViolation U (stepE U F)) ≤
      (1 - 7 / 16 * (aleph1 / C)) * ipS (gaussViolation U F) (gaussViolation U F) := by
    intro F
    have h1 := hb.two_steps (gaussViolation U F)
    rw [← (degaussStep_eq hN U F).2] at h1
    have h2 : ipS (gaussViolation U F) (stepL hN U (gaussViolation U F)) =
        aleph1 * pairK (covGrad U (gaussViolation U F)) (covGrad U (gaussViolation U F)) := by
      rw [stepL_apply, map_smul, smul_eq_mul, div_adjoint hN hU]
    have h3 := hlow _ ⟨F, rfl⟩
    have h4 := ipS_le_norm (gaussViolation U F)
    have h5 := norm_le_pairK (covGrad U (gaussViolation U F))
    have h6 : ipS (gaussViolation U F) (gaussViolation U F) ≤ C * pairK (covGrad U (gaussViolation U F)) (covGrad U (gaussViolation U F)) := by
      have h7 : ‖gaussViolation U F‖ ^ 2 ≤ K ^ 2 * ‖covGrad U (gaussViolation U F)‖ ^ 2 := by
        rw [← mul_pow]; exact pow_le_pow_left₀ (norm_nonneg _) h3 2
      have h8 : (0 : ℝ) ≤ Fintype.card (PSite L) * (N * N - 1 : ℕ) := by positivity
      have h9 := mul_le_mul_of_nonneg_left (h7.trans (mul_le_mul_of_nonneg_left h5 (sq_nonneg K))) h8
      have h10 : 0 ≤ pairK (covGrad U (gaussViolation U F)) (covGrad U (gaussViolation U F)) := (sq_nonneg _).trans h5
      rw [hC, add_mul, one_mul]
      nlinarith
    have h7 : aleph1 / C * ipS (gaussViolation U F) (gaussViolation U F) ≤
        aleph1 * pairK (covGrad U (gaussViolation U F)) (covGrad U (gaussViolation U F)) := by
      have ha : 0 ≤ aleph1 / C := div_nonneg (by unfold aleph1; norm_num) hCpos.le
      have := mul_le_mul_of_nonneg_left h6 ha
      rwa [← mul_assoc, div_mul_cancel₀ _ hCpos.ne'] at this
    rw [h2] at h1
    show ipS (gaussViolation U (degaussStep U F).1) (gaussViolation U (degaussStep U F).1) ≤ _
    nlinarith
  obtain ⟨r, hr⟩ : ∃ r : ℝ, r = max (1 - 7 / 16 * (aleph1 / C)) 0 := ⟨_, rfl⟩
  have hr0 : 0 ≤ r := by rw [hr]; exact le_max_right _ _
  have hr1 : r < 1 := by
    rw [hr]
    refine max_lt ?_ one_pos
    have : 0 < aleph1 / C := div_pos (by unfold aleph1; norm_num) hCpos
    linarith
  have hpow : ∀ k, ipS (gaussViolation U ((stepE U)^[k] E)) (gaussViolation U ((stepE U)^[k] E)) ≤ r ^ k * ipS (gaussViolation U E) (gaussViolation U E) := by
    intro k
    induction k with
    | zero => simp
    | succ k ih =>
      rw [Function.iterate_succ_apply']
      refine (hdec _).trans ?_
      rw [pow_succ', mul_assoc]
      refine le_trans (mul_le_mul_of_nonneg_right (?_ : _ ≤ r) (hip _)) (mul_le_mul_of_nonneg_left ih hr0)
      rw [hr]; exact le_max_left _ _
  refine squeeze_zero (fun k => hip _) hpow ?_
  have := (tendsto_pow_atTop_nhds_zero_of_lt_one hr0 hr1).mul_const (ipS (gaussViolation U E) (gaussViolation U E))
  rwa [zero_mul] at this

/-- Helmholtz decomposition. -/
theorem helmholtz [∀ d, NeZero (L d)] (hN : 0 < N) {U : GField L N} (hU : IsUnitaryField U) (E : AlgField L N) :
    ∃ H : AlgSite L N, gaussViolation U (E - covGrad U H) = 0 := by
  have hz : ∀ G : AlgSite L N, ipS G G = 0 → G = 0 := by
    intro G h
    have h4 := norm_le_ipS G
    rw [h] at h4
    exact norm_eq_zero.1 (pow_eq_zero_iff two_ne_zero |>.1 (le_antisymm h4 (sq_nonneg _)))
  have hk : ∀ G : AlgSite L N, gaussViolation U (covGrad U G) = 0 → covGrad U G = 0 := by
    intro G h
    have h1 := div_adjoint hN hU G (covGrad U G)
    rw [h, map_zero] at h1
    have h4 := norm_le_pairK (covGrad U G)
    rw [← h1] at h4
    exact norm_eq_zero.1 (pow_eq_zero_iff two_ne_zero |>.1 (le_antisymm h4 (sq_nonneg _)))
  obtain ⟨D, hD⟩ : ∃ D : AlgSite L N →ₗ[ℝ] AlgSite L N, D = divL hN U ∘ₗ gradL hN U := ⟨_, rfl⟩
  have hDa : ∀ G, D G = gaussViolation U (covGrad U G) := fun G => by rw [hD]; rfl
  have hsym : ∀ u v : AlgSite L N, ipS u v = ipS v u := fun u v => by
    rw [ipS_apply, ipS_apply]
    exact Finset.sum_congr rfl fun x _ => Finset.sum_congr rfl fun k _ => mul_comm _ _
  have hdis : Disjoint (LinearMap.range D) (LinearMap.ker D) := by
    rw [Submodule.disjoint_def]
    rintro _ ⟨G, rfl⟩ h
    refine hz _ ?_
    have h1 : covGrad U (D G) = 0 := hk _ (by rw [← hDa]; exact h)
    have h2 : ipS (D G) (D G) = pairK (covGrad U (D G)) (covGrad U G) := by
      conv_lhs => rw [hDa G]
      rw [← hDa G, hDa G, div_adjoint hN hU]
    rw [h2, h1]; simp [pairK]
  have hcompl : IsCompl (LinearMap.range D) (LinearMap.ker D) :=
    (Submodule.isCompl_iff_disjoint _ _ (LinearMap.finrank_range_add_finrank_ker D).ge).2 hdis
  have hmem : gaussViolation U E ∈ LinearMap.range D ⊔ LinearMap.ker D := by rw [hcompl.sup_eq_top]; trivial
  obtain ⟨_, ⟨H, rfl⟩, k, hkk, hs⟩ := Submodule.mem_sup.1 hmem
  have hgk : covGrad U k = 0 := hk _ (by rw [← hDa]; exact hkk)
  have hk0 : k = 0 := by
    refine hz _ ?_
    have h1 : ipS k (D H + k) = 0 := by rw [hs, div_adjoint hN hU, hgk]; simp [pairK]
    have h2 : ipS k (D H) = 0 := by rw [hDa, div_adjoint hN hU, hgk]; simp [pairK]
    rw [map_add, h2, zero_add] at h1
    exact h1
  rw [hk0, add_zero] at hs
  refine ⟨H, ?_⟩
  have := (divL hN U).map_sub E (covGrad U H)
  refine Eq.trans this (sub_eq_zero.2 ?_)
  rw [hDa] at hs
  exact hs.symm

theorem step_range [∀ d, NeZero (L d)] (hN : 0 < N) (U : GField L N) (E : AlgField L N) (k : ℕ) :
    E - (stepE U)^[k] E ∈ LinearMap.range (gradL hN U) := by
  induction k with
  | zero => simp
  | succ k ih =>
    rw [Function.iterate_succ_apply']
    have h : ∀ (F : AlgField L N) (G : AlgSite L N) (c : ℝ), F - gaussFixStep U F G c ∈ LinearMap.range (gradL hN U) := by
      intro F G c
      rw [gaussFixStep_eq, sub_sub_cancel]
      exact Submodule.smul_mem _ _ ⟨G, rfl⟩
    have h2 : ∀ F, F - stepE U F ∈ LinearMap.range (gradL hN U) := by
      intro F
      have e : F - stepE U F = (F - gaussFixStep U F (gaussViolation U F) aleph1) +
          (gaussFixStep U F (gaussViolation U F) aleph1 - stepE U F) := by abel
      rw [e]
      exact Submodule.add_mem _ (h _ _ _) (h _ _ _)
    have e : E - stepE U ((stepE U)^[k] E) = (E - (stepE U)^[k] E) + ((stepE U)^[k] E - stepE U ((stepE U)^[k] E)) := by abel
    rw [e]
    exact Submodule.add_mem _ ih (h2 _)

/-- **C59.** In up to three dimensions, for any unitary links and any start, repeated steps converge to a field without
violation, and this is the nearest such field. -/
theorem C59_converges [∀ d, NeZero (L d)] (hN : 0 < N) (hn : n ≤ 3) {U : GField L N} (hU : IsUnitaryField U) (E : AlgField L N) :
    ∃ E' : AlgField L N, Filter.Tendsto (fun k => (fun F => (degaussStep U F).1)^[k] E) Filter.atTop (nhds E') ∧
      gaussViolation U E' = 0 ∧
      ∀ F, gaussViolation U F = 0 → ∑ d, ∑ x, ∑ k, (E d x k - E' d x k) ^ 2 ≤ ∑ d, ∑ x, ∑ k, (E d x k - F d x k) ^ 2 := by
  obtain ⟨H, hH⟩ := helmholtz hN hU E
  refine ⟨E - covGrad U H, ?_, hH, fun F hF => ?_⟩
  · show Filter.Tendsto (fun k => (stepE U)^[k] E) _ _
    obtain ⟨K, hK, hlow⟩ := lower_bound (divL hN U) (LinearMap.range (gradL hN U)) (by
      rintro _ ⟨G, rfl⟩ h
      have h1 := div_adjoint hN hU G (covGrad U G)
      have h0 : gaussViolation U (covGrad U G) = 0 := h
      rw [h0, map_zero] at h1
      have h4 := norm_le_pairK (covGrad U G)
      rw [← h1] at h4
      exact norm_eq_zero.1 (pow_eq_zero_iff two_ne_zero |>.1 (le_antisymm h4 (sq_nonneg _))))
    have hb : ∀ k, ‖(stepE U)^[k] E - (E - covGrad U H)‖ ≤ K * Real.sqrt (ipS (gaussViolation U ((stepE U)^[k] E)) (gaussViolation U ((stepE U)^[k] E))) := by
      intro k
      have hm : (stepE U)^[k] E - (E - covGrad U H) ∈ LinearMap.range (gradL hN U) := by
        have e : (stepE U)^[k] E - (E - covGrad U H) = covGrad U H - (E - (stepE U)^[k] E) := by abel
        rw [e]
        exact Submodule.sub_mem _ ⟨H, rfl⟩ (step_range hN U E k)
      refine (hlow _ hm).trans (mul_le_mul_of_nonneg_left ?_ hK.le)
      have e : divL hN U ((stepE U)^[k] E - (E - covGrad U H)) = gaussViolation U ((stepE U)^[k] E) := by
        rw [map_sub]
        have : divL hN U (E - covGrad U H) = 0 := hH
        rw [this, sub_zero]; rfl
      rw [e]
      exact Real.le_sqrt_of_sq_le (norm_le_ipS _)
    rw [tendsto_iff_norm_sub_tendsto_zero]
    refine squeeze_zero (fun k => norm_nonneg _) hb ?_
    have := ((geometric hN hn hU E).sqrt).const_mul K
    rwa [Real.sqrt_zero, mul_zero] at this
  · have hsub : ∀ A B : AlgField L N, ∑ d, ∑ x, ∑ k, (A d x k - B d x k) ^ 2 = pairK (A - B) (A - B) := by
      intro A B
      unfold pairK
      exact Finset.sum_congr rfl fun d _ => Finset.sum_congr rfl fun x _ => Finset.sum_congr rfl fun k _ => pow_two _
    rw [hsub, hsub, sub_sub_cancel]
    obtain ⟨P, hP⟩ : ∃ P, P = E - covGrad U H := ⟨_, rfl⟩
    have hz : gaussViolation U (P - F) = 0 := by
      have := (divL hN U).map_sub P F
      refine Eq.trans this ?_
      have h1 : divL hN U P = 0 := by rw [hP]; exact hH
      have h2 : divL hN U F = 0 := hF
      rw [h1, h2, sub_zero]
    have e : E - F = covGrad U H + (P - F) := by rw [hP]; abel
    have hx : pairK (covGrad U H) (P - F) = 0 := by rw [← div_adjoint hN hU, hz, map_zero]
    have hexp : pairK (E - F) (E - F) = pairK (covGrad U H) (covGrad U H) + 2 * pairK (covGrad U H) (P - F) + pairK (P - F) (P - F) := by
      rw [e]
      simp only [pairK, Finset.mul_sum, ← Finset.sum_add_distrib]
      refine Finset.sum_congr rfl fun d _ => Finset.sum_congr rfl fun x _ => Finset.sum_congr rfl fun k _ => ?_
      simp only [Pi.add_apply]
      ring
    have hp : 0 ≤ pairK (P - F) (P - F) := (sq_nonneg _).trans (norm_le_pairK _)
    rw [hexp, hx]
    linarith

/-! ### The loop -/

theorem degaussLoop_spec [∀ d, NeZero (L d)] (U : GField L N) (quality : ℝ) (left loop : ℕ) (E : AlgField L N) (h : left + loop = 10000) :
    ∃ k, k ≤ left ∧ degaussLoop U quality left loop E = ((stepE U)^[k + 1] E, loop + k + 1, (degaussStep U ((stepE U)^[k] E)).2) ∧
      (∀ j, j < k → quality < (degaussStep U ((stepE U)^[j] E)).2) ∧
      ((degaussStep U ((stepE U)^[k] E)).2 ≤ quality ∨ loop + k = 10000) := by
  induction left generalizing loop E with
  | zero =>
    refine ⟨0, le_rfl, ?_, by simp, Or.inr (by omega)⟩
    unfold degaussLoop
    dsimp only
    rw [if_neg (by omega)]
    rfl
  | succ left ih =>
    by_cases hq : (degaussStep U E).2 > quality ∧ loop + 1 ≤ 10000
    · obtain ⟨k, hk, he, hj, hf⟩ := ih (loop + 1) (degaussStep U E).1 (by omega)
      refine ⟨k + 1, by omega, ?_, ?_, ?_⟩
      · unfold degaussLoop
        dsimp only
        rw [if_pos hq, he]
        refine Prod.ext rfl (Prod.ext ?_ rfl)
        dsimp only; omega
      · intro j hjk
        rcases j with _ | j
        · exact hq.1
        · exact hj j (by omega)
      · rcases hf with hf | hf
        · exact Or.inl hf
        · exact Or.inr (by omega)
    · refine ⟨0, by omega, ?_, by simp, ?_⟩
      · unfold degaussLoop
        dsimp only
        rw [if_neg hq]
        rfl
      · left
        by_contra hc
        exact hq ⟨lt_of_not_ge hc, by omega⟩

/-- **C59.** `degauss` makes `k + 1 ≤ 10001` steps and returns their number; every step but the last returned more than
`quality`, and the last one did not unless the limit was reached. -/
theorem C59_loop [∀ d, NeZero (L d)] (U : GField L N) (E : AlgField L N) (quality : ℝ) :
    ∃ k, k ≤ 10000 ∧ degauss U E quality =
        ((fun F => (degaussStep U F).1)^[k + 1] E, k + 1, (degaussStep U ((fun F => (degaussStep U F).1)^[k] E)).2) ∧
      (∀ j, j < k → quality < (degaussStep U ((fun F => (degaussStep U F).1)^[j] E)).2) ∧
      ((degaussStep U ((fun F => (degaussStep U F).1)^[k] E)).2 ≤ quality ∨ k = 10000) := by
  obtain ⟨k, hk, he, hj, hf⟩ := degaussLoop_spec U quality 10000 0 E rfl
  refine ⟨k, hk, ?_, hj, hf.imp_right (by omega)⟩
  unfold degauss
  rw [he]
  refine Prod.ext rfl (Prod.ext ?_ rfl)
  dsimp only; omega

/-- **C59.** In up to three dimensions, if the loop did not reach its limit, the violation per site is at most 9/4 of the
requested quality, and it is never larger than before. -/
theorem C59_degauss [∀ d, NeZero (L d)] (hN : 0 < N) (hn : n ≤ 3) {U : GField L N} (hU : IsUnitaryField U) (E : AlgField L N) (quality : ℝ) :
    ((degauss U E quality).2.1 ≤ 10000 → (gaussViolation U (degauss U E quality).1).squarenorm / Fintype.card (PSite L) ≤ 9 / 4 * quality) ∧
      (gaussViolation U (degauss U E quality).1).squarenorm ≤ (gaussViolation U E).squarenorm := by
  obtain ⟨k, hk, he, -, hf⟩ := C59_loop U E quality
  rw [he]
  dsimp only
  constructor
  · intro hl
    have hq := hf.resolve_right (by omega)
    rw [Function.iterate_succ_apply']
    refine (C59_returned hN hn hU _).trans ?_
    linarith
  · clear he hf hk
    generalize k + 1 = m
    induction m with
    | zero => exact le_rfl
    | succ m ih =>
      rw [Function.iterate_succ_apply']
      exact (C59_decrease hN hn hU _).trans ih

/-- **C59.** In up to three dimensions the loop without the limit would always end: for a positive quality some step returns
at most `quality`. -/
theorem C59_terminates [∀ d, NeZero (L d)] (hN : 0 < N) (hn : n ≤ 3) {U : GField L N} (hU : IsUnitaryField U) (E : AlgField L N)
    (quality : ℝ) (hq : 0 < quality) : ∃ k, (degaussStep U ((fun F => (degaussStep U F).1)^[k] E)).2 ≤ quality := by
  have hb := step_between (L := L) hN hn hU
  have hcard : (0 : ℝ) < Fintype.card (PSite L) := Nat.cast_pos.2 Fintype.card_pos
  obtain ⟨k, hk⟩ := ((geometric hN hn hU E).eventually (gt_mem_nhds (mul_pos hq hcard))).exists
  refine ⟨k, ?_⟩
  show (degaussStep U ((stepE U)^[k] E)).2 ≤ quality
  generalize (stepE U)^[k] E = F at hk ⊢
  have h2 : (degaussStep U F).2 = (gaussViolation U (gaussFixStep U F (gaussViolation U F) aleph1)).squarenorm / Fintype.card (PSite L) := rfl
  rw [h2, div_le_iff₀ hcard, squarenorm_eq, (degaussStep_eq hN U F).1]
  refine le_trans ?_ hk.le
  have q2 := hb.sq (gaussViolation U F)
  have q3 := hb.pos (gaussViolation U F)
  have s4 := hb.symm (stepL hN U (gaussViolation U F)) (gaussViolation U F)
  simp only [map_sub, LinearMap.sub_apply]
  linarith

/-! ### The fastest mode -/

/-- The sign that changes with every step on the lattice of size two in all directions. -/
def stagg (x : PSite (fun _ : Fin n => 2)) : ℝ := ∏ d, if x d = 0 then 1 else -1

theorem stagg_step (x : PSite (fun _ : Fin n => 2)) (d : Fin n) : stagg (x + Pi.single d 1) = -stagg x ∧ stagg (x - Pi.single d 1) = -stagg x := by
  have key : ∀ a : ZMod 2, ((if a + 1 = 0 then (1 : ℝ) else -1) = -(if a = 0 then 1 else -1)) ∧
      ((if a - 1 = 0 then (1 : ℝ) else -1) = -(if a = 0 then 1 else -1)) := by
    intro a
    have h01 : a = 0 ∨ a = 1 := by revert a; decide
    rcases h01 with rfl | rfl
    · exact ⟨by rw [if_neg (by decide), if_pos rfl], by rw [if_neg (by decide), if_pos rfl]⟩
    · exact ⟨by rw [if_pos (by decide), if_neg (by decide), neg_neg], by rw [if_pos (by decide), if_neg (by decide), neg_neg]⟩
  unfold stagg
  constructor
  · rw [← Finset.mul_prod_erase _ _ (Finset.mem_univ d), ← Finset.mul_prod_erase _ _ (Finset.mem_univ d), ← neg_mul]
    refine congrArg₂ (· * ·) ?_ (Finset.prod_congr rfl fun e he => ?_)
    · rw [Pi.add_apply, Pi.single_eq_same]; exact (key _).1
    · rw [Pi.add_apply, Pi.single_eq_of_ne (Finset.ne_of_mem_erase he), add_zero]
  · rw [← Finset.mul_prod_erase _ _ (Finset.mem_univ d), ← Finset.mul_prod_erase _ _ (Finset.mem_univ d), ← neg_mul]
    refine congrArg₂ (· * ·) ?_ (Finset.prod_congr rfl fun e he => ?_)
    · rw [Pi.sub_apply, Pi.single_eq_same]; exact (key _).2
    · rw [Pi.sub_apply, Pi.single_eq_of_ne (Finset.ne_of_mem_erase he), sub_zero]

/-- The staggered field. -/
def staggE (n : ℕ) (v : Alg N) (c : ℝ) : AlgField (fun _ : Fin n => 2) N := fun _ x => (c * stagg x) • v

/-- Unit links. -/
def oneU (n N : ℕ) : GField (fun _ : Fin n => 2) N := fun _ _ => 1

theorem oneU_unitary : IsUnitaryField (oneU n N) := fun _ _ => one_mem _

theorem stagg_viol (hN : 0 < N) (v : Alg N) (c : ℝ) : gaussViolation (oneU n N) (staggE n v c) = fun x => (2 * n * c * stagg x) • v := by
  funext x
  rw [gaussViolation_eq]
  have : ∀ d : Fin n, staggE n v c d x - rightConj (oneU n N d (x - Pi.single d 1)) (staggE n v c d (x - Pi.single d 1)) = (2 * c * stagg x) • v := by
    intro d
    rw [rightConj_eq]
    unfold oneU staggE
    rw [Matrix.conjTranspose_one, leftConj_one hN, (stagg_step x d).2, ← sub_smul]
    congr 1; ring
  simp only [this]
  rw [Finset.sum_const, Finset.card_univ, Fintype.card_fin, ← Nat.cast_smul_eq_nsmul ℝ, smul_smul]
  congr 1; ring

theorem stagg_fix (hN : 0 < N) (v : Alg N) (c m : ℝ) :
    gaussFixStep (oneU n N) (staggE n v c) (gaussViolation (oneU n N) (staggE n v c)) m = staggE n v (c * (1 - 4 * n * m)) := by
  funext d x
  rw [gaussFixStep_eq, stagg_viol hN]
  simp only [Pi.sub_apply, Pi.smul_apply, covGrad, oneU, leftConj_one hN, staggE, (stagg_step x d).1, smul_smul, ← sub_smul]
  congr 1; ring

theorem stagg_stepE (hN : 0 < N) (v : Alg N) (c : ℝ) :
    (degaussStep (oneU n N) (staggE n v c)).1 = staggE n v (c * (1 - 4 * n * aleph1) * (1 - 4 * n * (2 * aleph1))) ∧
      (degaussStep (oneU n N) (staggE n v c)).2 =
        (2 * n * (c * (1 - 4 * n * aleph1))) ^ 2 * v.squarenorm := by
  have hs : ∀ x : PSite (fun _ : Fin n => 2), stagg x * stagg x = 1 := by
    intro x
    unfold stagg
    rw [← Finset.prod_mul_distrib]
    refine Finset.prod_eq_one fun d _ => ?_
    split_ifs <;> norm_num
  have hsq : ∀ c : ℝ, AlgSite.squarenorm (L := fun _ : Fin n => 2) (fun x => (c * stagg x) • v) = Fintype.card (PSite fun _ : Fin n => 2) * (c ^ 2 * v.squarenorm) := by
    intro c
    unfold AlgSite.squarenorm
    rw [Finset.sum_congr rfl fun x _ => (?_ : _ = c ^ 2 * v.squarenorm), Finset.sum_const, Finset.card_univ, nsmul_eq_mul]
    unfold Alg.squarenorm
    rw [Finset.mul_sum]
    refine Finset.sum_congr rfl fun k _ => ?_
    show ((c * stagg x) * v k) ^ 2 = _
    linear_combination (c * v k) ^ 2 * hs x
  refine ⟨?_, ?_⟩
  · show gaussFixStep _ (gaussFixStep _ _ _ aleph1)
      (gaussViolation (oneU n N) (gaussFixStep (oneU n N) (staggE n v c) (gaussViolation (oneU n N) (staggE n v c)) aleph1)) (2 * aleph1) = _
    rw [stagg_fix hN, stagg_fix hN]
  · show (gaussViolation _ (gaussFixStep _ _ _ aleph1)).squarenorm / _ = _
    rw [stagg_fix hN, stagg_viol hN, hsq]
    have hcard : (Fintype.card (PSite fun _ : Fin n => 2) : ℝ) ≠ 0 := Nat.cast_ne_zero.2 Fintype.card_ne_zero
    field_simp

theorem stagg_sq (hN : 0 < N) (v : Alg N) (c : ℝ) :
    (gaussViolation (oneU n N) (staggE n v c)).squarenorm = Fintype.card (PSite fun _ : Fin n => 2) * ((2 * n * c) ^ 2 * v.squarenorm) := by
  have hs : ∀ x : PSite (fun _ : Fin n => 2), stagg x * stagg x = 1 := by
    intro x
    unfold stagg
    rw [← Finset.prod_mul_distrib]
    refine Finset.prod_eq_one fun d _ => ?_
    split_ifs <;> norm_num
  rw [stagg_viol hN]
  unfold AlgSite.squarenorm
  rw [Finset.sum_congr rfl fun x _ => (?_ : _ = (2 * n * c) ^ 2 * v.squarenorm), Finset.sum_const, Finset.card_univ, nsmul_eq_mul]
  unfold Alg.squarenorm
  rw [Finset.mul_sum]
  refine Finset.sum_congr rfl fun k _ => ?_
  show ((2 * n * c * stagg x) * v k) ^ 2 = _
  linear_combination (2 * n * c * v k) ^ 2 * hs x

/-- **C59, negation.** "We return not the last violation, thus the real violation should be smaller than this"
(degauss.h:75-76) is false: on a lattice of size two in three directions with unit links there are fields for which the
violation that is left is 9/4 of the returned number, and not zero. -/
theorem C59_returned_not_bound (hN : 2 ≤ N) : ∃ E : AlgField (fun _ : Fin 3 => 2) N,
    0 < (degaussStep (oneU 3 N) E).2 ∧
      (gaussViolation (oneU 3 N) (degaussStep (oneU 3 N) E).1).squarenorm / Fintype.card (PSite fun _ : Fin 3 => 2) = 9 / 4 * (degaussStep (oneU 3 N) E).2 := by
  have h4 : 0 < N * N - 1 := by have : 2 * 2 ≤ N * N := Nat.mul_le_mul hN hN; omega
  obtain ⟨v, hv⟩ : ∃ v : Alg N, v = fun _ => 1 := ⟨_, rfl⟩
  have hvp : 0 < v.squarenorm := by
    unfold Alg.squarenorm
    simp only [hv, one_pow, Finset.sum_const, Finset.card_univ, Fintype.card_fin, nsmul_eq_mul, mul_one]
    exact_mod_cast h4
  have hN0 : 0 < N := by omega
  refine ⟨staggE 3 v 1, ?_, ?_⟩
  · rw [(stagg_stepE hN0 v 1).2]
    refine mul_pos ?_ hvp
    unfold aleph1
    norm_num
  · rw [(stagg_stepE hN0 v 1).1, (stagg_stepE hN0 v 1).2, stagg_sq hN0]
    have hcard : (Fintype.card (PSite fun _ : Fin 3 => 2) : ℝ) ≠ 0 := Nat.cast_ne_zero.2 Fintype.card_ne_zero
    rw [mul_div_cancel_left₀ _ hcard]
    unfold aleph1
    push_cast
    ring

/-- **C59, negation.** In four dimensions the step sizes are too large: with unit links on the lattice of size two there is
a field whose violation is multiplied by `14/9` in every step, and `degauss` with a quality below its violation ends at the
limit of the loop with a violation `(14/9)^20002` times as large. -/
theorem C59_diverges_four (hN : 2 ≤ N) : ∃ E : AlgField (fun _ : Fin 4 => 2) N, 0 < (gaussViolation (oneU 4 N) E).squarenorm ∧
    (∀ k, (gaussViolation (oneU 4 N) ((fun F => (degaussStep (oneU 4 N) F).1)^[k] E)).squarenorm =
      (14 / 9) ^ (2 * k) * (gaussViolation (oneU 4 N) E).squarenorm) ∧
    (∀ quality, quality < (degaussStep (oneU 4 N) E).2 → (degauss (oneU 4 N) E quality).2.1 = 10001 ∧
      (gaussViolation (oneU 4 N) (degauss (oneU 4 N) E quality).1).squarenorm = (14 / 9) ^ 20002 * (gaussViolation (oneU 4 N) E).squarenorm) ∧
    0 < (degaussStep (oneU 4 N) E).2 := by
  have h4 : 0 < N * N - 1 := by have : 2 * 2 ≤ N * N := Nat.mul_le_mul hN hN; omega
  obtain ⟨v, hv⟩ : ∃ v : Alg N, v = fun _ => 1 := ⟨_, rfl⟩
  have hvp : 0 < v.squarenorm := by
    unfold Alg.squarenorm
    simp only [hv, one_pow, Finset.sum_const, Finset.card_univ, Fintype.card_fin, nsmul_eq_mul, mul_one]
    exact_mod_cast h4
  have hN0 : 0 < N := by omega
  have hcard : (0 : ℝ) < Fintype.card (PSite fun _ : Fin 4 => 2) := Nat.cast_pos.2 Fintype.card_pos
  have hst : ∀ c, (degaussStep (oneU 4 N) (staggE 4 v c)).1 = staggE 4 v (c * (14 / 9)) := by
    intro c
    rw [(stagg_stepE hN0 v c).1]
    congr 1
    unfold aleph1; push_cast; ring
  have hret : ∀ c, (degaussStep (oneU 4 N) (staggE 4 v c)).2 = c ^ 2 * (256 / 9 * v.squarenorm) := by
    intro c
    rw [(stagg_stepE hN0 v c).2]
    unfold aleph1; push_cast; ring
  have hit : ∀ k, (fun F => (degaussStep (oneU 4 N) F).1)^[k] (staggE 4 v 1) = staggE 4 v ((14 / 9) ^ k) := by
    intro k
    induction k with
    | zero => rw [pow_zero]; rfl
    | succ k ih => rw [Function.iterate_succ_apply', ih, hst, pow_succ]
  have hpow : ∀ k, (gaussViolation (oneU 4 N) ((fun F => (degaussStep (oneU 4 N) F).1)^[k] (staggE 4 v 1))).squarenorm =
      (14 / 9) ^ (2 * k) * (gaussViolation (oneU 4 N) (staggE 4 v 1)).squarenorm := by
    intro k
    rw [hit, stagg_sq hN0, stagg_sq hN0, pow_mul']
    ring
  refine ⟨staggE 4 v 1, ?_, hpow, fun q hq => ?_, ?_⟩
  · rw [stagg_sq hN0]; positivity
  · obtain ⟨k, hk, he, -, hf⟩ := C59_loop (oneU 4 N) (staggE 4 v 1) q
    have hk : k = 10000 := by
      refine hf.resolve_left (not_le.2 (hq.trans_le ?_))
      rw [hit, hret, hret]
      refine mul_le_mul_of_nonneg_right ?_ (by positivity)
      exact pow_le_pow_left₀ (by norm_num) (one_le_pow₀ (by norm_num)) 2
    rw [he]
    dsimp only
    subst hk
    exact ⟨rfl, hpow 10001⟩
  · rw [hret]; positivity

/-- A field to which the theorems for three dimensions apply, with a violation. -/
example : IsUnitaryField (oneU 3 2) ∧ gaussViolation (oneU 3 2) (staggE 3 (fun _ => 1 : Alg 2) 1) ≠ 0 := by
  refine ⟨oneU_unitary, fun h => ?_⟩
  have h1 := stagg_sq (n := 3) (N := 2) (by norm_num) (fun _ => 1) 1
  rw [h, squarenorm_eq, map_zero] at h1
  have hcard : (0 : ℝ) < Fintype.card (PSite fun _ : Fin 3 => 2) := Nat.cast_pos.2 Fintype.card_pos
  have : (0 : ℝ) < Alg.squarenorm (fun _ => 1 : Alg 2) := by
    unfold Alg.squarenorm
    simp
  have : (0 : ℝ) < Fintype.card (PSite fun _ : Fin 3 => 2) * ((2 * (3 : ℕ) * 1) ^ 2 * Alg.squarenorm (fun _ => 1 : Alg 2)) := by positivity
  linarith

/-- A field without violation that is not zero (`C59_fixpoint`, `C59_physical`). -/
example : gaussViolation (oneU 3 2) (fun d _ _ => if d = 0 then 1 else 0) = 0 := by
  funext x
  rw [gaussViolation_eq]
  refine Finset.sum_eq_zero fun d _ => ?_
  rw [rightConj_eq]
  unfold oneU
  rw [Matrix.conjTranspose_one, leftConj_one (by norm_num), sub_self]

end Hila
