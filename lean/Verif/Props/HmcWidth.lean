import Verif.Props.HmcSample
import Mathlib.Analysis.SpecialFunctions.Gaussian.GaussianIntegral

/-!
# C85: pseudofermions drawn with the width of the library

`Complex::gaussian_random` gives real and imaginary parts of variance 1 (C86), but the action `φ† (D†D)⁻¹ φ` belongs to variance 1/2.
-/

namespace Hila

open MeasureTheory ENNReal

/-- Links are signs; all sets are measurable. -/
local instance : MeasurableSpace ℤˣ := ⊤

local instance : DiscreteMeasurableSpace ℤˣ := ⟨fun _ => trivial⟩

/-- The operator: a factor 1 or 2. -/
def widthM (U : Fin 1 → ℤˣ) : ℝ := if U 0 = 1 then 1 else 2

/-- One pseudofermion with a complex component, no force. -/
noncomputable def widthLevel : HmcLevel (Fin 1) ℤˣ ℝ (Fin 2 → ℝ) (Fin 2 → ℝ) :=
  ⟨true, 1, fun U φ => ∑ k, ((widthM U)⁻¹ * φ k) ^ 2, fun _ _ _ => 0, fun U _ η => widthM U • η⟩

theorem width_update (q : (Fin 1 → ℤˣ) × ((Fin 2 → ℝ) × ((Fin 1 → ℝ) × ℝ))) (others : ℕ → ℝ) (s0 : GaugeState (Fin 1) ℤˣ ℝ (Fin 2 → ℝ)) :
    (updateHMC Real.exp (hmcBuild (fun _ => -1) (fun P => ∑ i, P i ^ 2) q.2.2.1 q.2.1 [widthLevel]) 1 1 (fun k => if k = 0 then q.2.2.2 else others k)
      ⟨q.1, s0.momentum, s0.backup, s0.extra⟩).state.gauge =
    if q.2.2.2 < Real.exp (-(∑ k, ((widthM (-q.1))⁻¹ * (widthM q.1 * q.2.1 k)) ^ 2 - ∑ k, ((widthM q.1)⁻¹ * (widthM q.1 * q.2.1 k)) ^ 2)) then -q.1
    else q.1 := by
  have hneg : (fun i => -q.1 i) = -q.1 := rfl
  simp [updateHMC, hmcBuild, widthLevel, Integrator.step, Integrator.action, Integrator.draw, Integrator.backup, Integrator.restore, gaugeTerm,
    gaugeMomentum, gaugeUpdate, hneg]
  split_ifs <;> rfl

theorem gauss_weight_integral : ∫⁻ x, ENNReal.ofReal (Real.exp (-(3 * x ^ 2))) ∂(ProbabilityTheory.gaussianReal 0 1) = ENNReal.ofReal (Real.sqrt (1 / 7)) := by
  rw [ProbabilityTheory.gaussianReal_of_var_ne_zero _ one_ne_zero,
    lintegral_withDensity_eq_lintegral_mul _ (ProbabilityTheory.measurable_gaussianPDF 0 1) (by fun_prop)]
  have e : ∀ x : ℝ, (ProbabilityTheory.gaussianPDF 0 1 * fun x => ENNReal.ofReal (Real.exp (-(3 * x ^ 2)))) x =
      ENNReal.ofReal ((Real.sqrt (2 * Real.pi))⁻¹ * Real.exp (-(7 / 2) * x ^ 2)) := fun x => by
    simp only [Pi.mul_apply, ProbabilityTheory.gaussianPDF, ProbabilityTheory.gaussianPDFReal]
    rw [← ENNReal.ofReal_mul (by positivity), mul_assoc, ← Real.exp_add]
    norm_num
    congr 2
    ring_nf
  rw [lintegral_congr e, ← ofReal_integral_eq_lintegral_ofReal]
  · rw [integral_const_mul, integral_gaussian]
    congr 1
    rw [← Real.sqrt_inv, ← Real.sqrt_mul (by positivity)]
    congr 1
    field_simp
  · exact (integrable_exp_neg_mul_sq (by norm_num)).const_mul _
  · exact Filter.Eventually.of_forall fun x => by positivity

theorem accept_measure {X P : Type} [MeasurableSpace X] [MeasurableSpace P] (ν : Measure X) [SFinite ν] (γ : Measure P) [IsProbabilityMeasure γ]
    (g : X → ℝ) (hg : Measurable g) (h1 : ∀ x, g x ≤ 1) :
    (ν.prod (γ.prod unif01)) {y | y.2.2 < g y.1} = ∫⁻ x, ENNReal.ofReal (g x) ∂ν := by
  have hm : MeasurableSet {y : X × (P × ℝ) | y.2.2 < g y.1} := measurableSet_lt (by fun_prop) (by fun_prop)
  rw [Measure.prod_apply hm]
  refine lintegral_congr fun x => ?_
  have e : Prod.mk x ⁻¹' {y : X × (P × ℝ) | y.2.2 < g y.1} = Set.univ ×ˢ Set.Iio (g x) := by ext z; simp
  rw [e, Measure.prod_prod, measure_univ, one_mul, unif01, Measure.restrict_apply measurableSet_Iio]
  have e2 : Set.Iio (g x) ∩ Set.Ico 0 1 = Set.Ico 0 (g x) := by
    ext r
    simp only [Set.mem_inter_iff, Set.mem_Iio, Set.mem_Ico]
    have := h1 x
    constructor
    · intro h; exact ⟨h.2.1, h.1⟩
    · intro h; exact ⟨h.2, h.1, by linarith⟩
  rw [e2, Real.volume_Ico, sub_zero]

/-- C85 (negation). With pseudofermions drawn with variance 1, as the library does, all other hypotheses of `C85_pseudofermions` hold,
but the update does not keep the distribution with the determinant as weight. -/
theorem C85_fermion_width_wrong (others : ℕ → ℝ) (s0 : GaugeState (Fin 1) ℤˣ ℝ (Fin 2 → ℝ)) :
    (∀ U φ, ([widthLevel].map fun l => l.S U φ).sum = 0 + ∑ k, ((widthM U)⁻¹ • (LinearMap.id : (Fin 2 → ℝ) →ₗ[ℝ] _)) φ k ^ 2) ∧
    (∀ U η, drawAll [widthLevel] U s0.extra η = (widthM U • (LinearMap.id : (Fin 2 → ℝ) →ₗ[ℝ] _)) η) ∧
    ¬ KeepsDistribution ((Measure.pi fun _ : Fin 2 => ProbabilityTheory.gaussianReal 0 1).prod
        ((Measure.pi fun _ : Fin 1 => ProbabilityTheory.gaussianReal 0 (1 / 2)).prod unif01))
      ((Measure.pi fun _ : Fin 1 => (Measure.count : Measure ℤˣ)).withDensity fun U =>
        ENNReal.ofReal (|LinearMap.det (widthM U • (LinearMap.id : (Fin 2 → ℝ) →ₗ[ℝ] _))| * Real.exp (-0)))
      (fun q => (updateHMC Real.exp (hmcBuild (fun _ => -1) (fun P => ∑ i, P i ^ 2) q.2.2.1 q.2.1 [widthLevel]) 1 1
        (fun k => if k = 0 then q.2.2.2 else others k) ⟨q.1, s0.momentum, s0.backup, s0.extra⟩).state.gauge) := by
  refine ⟨fun U φ => by simp [widthLevel], fun U η => rfl, ?_⟩
  rintro ⟨hm, h⟩
  have hA : MeasurableSet ({fun _ => 1} : Set (Fin 1 → ℤˣ)) := measurableSet_singleton _
  have h2 := congrArg (fun m => m {fun _ => 1}) h
  rw [Measure.map_apply hm hA, Measure.prod_apply (hm hA)] at h2
  have huniv : (Finset.univ : Finset (Fin 1 → ℤˣ)) = {fun _ => 1, fun _ => -1} := by decide
  have hne : (fun _ => 1 : Fin 1 → ℤˣ) ≠ fun _ => -1 := fun e => by simpa using congrFun e 0
  have hpi : ∀ U : Fin 1 → ℤˣ, (Measure.pi fun _ : Fin 1 => (Measure.count : Measure ℤˣ)) {U} = 1 := fun U => by
    rw [Measure.pi_singleton]; simp
  have hw : ∀ U : Fin 1 → ℤˣ, ((Measure.pi fun _ : Fin 1 => (Measure.count : Measure ℤˣ)).withDensity fun U =>
      ENNReal.ofReal (|LinearMap.det (widthM U • (LinearMap.id : (Fin 2 → ℝ) →ₗ[ℝ] _))| * Real.exp (-0))) {U} = ENNReal.ofReal (widthM U ^ 2) := fun U => by
    rw [withDensity_apply _ (measurableSet_singleton _), lintegral_singleton, hpi, mul_one]
    simp [LinearMap.det_smul]
  have w1 : widthM (fun _ => 1) = 1 := rfl
  have w2 : widthM (fun _ => -1) = 2 := rfl
  have n1 : -(fun _ => 1 : Fin 1 → ℤˣ) = fun _ => -1 := rfl
  have n2 : -(fun _ => -1 : Fin 1 → ℤˣ) = fun _ => 1 := by funext i; simp
  rw [lintegral_fintype, huniv, Finset.sum_pair hne, hw, hw, w1, w2] at h2
  simp only [width_update] at h2
  -- from 1 the update always leaves
  have z1 : ((Measure.pi fun _ : Fin 2 => ProbabilityTheory.gaussianReal 0 1).prod
        ((Measure.pi fun _ : Fin 1 => ProbabilityTheory.gaussianReal 0 (1 / 2)).prod unif01))
      (Prod.mk (fun _ => 1 : Fin 1 → ℤˣ) ⁻¹' ((fun q : (Fin 1 → ℤˣ) × ((Fin 2 → ℝ) × ((Fin 1 → ℝ) × ℝ)) =>
        if q.2.2.2 < Real.exp (-(∑ k, ((widthM (-q.1))⁻¹ * (widthM q.1 * q.2.1 k)) ^ 2 - ∑ k, ((widthM q.1)⁻¹ * (widthM q.1 * q.2.1 k)) ^ 2)) then -q.1
        else q.1) ⁻¹' {fun _ => 1})) = 0 := by
    refine measure_mono_null (t := {y | ¬ y.2.2 < (fun _ => (1 : ℝ)) y.1}) ?_ ?_
    · intro y hy
      simp only [Set.mem_preimage, Set.mem_singleton_iff, n1, w1, w2] at hy
      simp only [Set.mem_ofPred_eq]
      intro hlt
      rw [if_pos] at hy
      · exact hne hy.symm
      · refine lt_of_lt_of_le hlt (Real.one_le_exp ?_)
        simp only [Fin.sum_univ_two]
        nlinarith [sq_nonneg (y.1 0), sq_nonneg (y.1 1)]
    · have := accept_measure (Measure.pi fun _ : Fin 2 => ProbabilityTheory.gaussianReal 0 1)
        (Measure.pi fun _ : Fin 1 => ProbabilityTheory.gaussianReal 0 (1 / 2)) (fun _ => 1) measurable_const (fun _ => le_refl _)
      rw [lintegral_const, measure_univ, ENNReal.ofReal_one, mul_one] at this
      exact (prob_compl_eq_zero_iff (measurableSet_lt (by fun_prop) (by fun_prop))).2 this
  have z2 : ((Measure.pi fun _ : Fin 2 => ProbabilityTheory.gaussianReal 0 1).prod
        ((Measure.pi fun _ : Fin 1 => ProbabilityTheory.gaussianReal 0 (1 / 2)).prod unif01))
      (Prod.mk (fun _ => -1 : Fin 1 → ℤˣ) ⁻¹' ((fun q : (Fin 1 → ℤˣ) × ((Fin 2 → ℝ) × ((Fin 1 → ℝ) × ℝ)) =>
        if q.2.2.2 < Real.exp (-(∑ k, ((widthM (-q.1))⁻¹ * (widthM q.1 * q.2.1 k)) ^ 2 - ∑ k, ((widthM q.1)⁻¹ * (widthM q.1 * q.2.1 k)) ^ 2)) then -q.1
        else q.1) ⁻¹' {fun _ => 1})) = ENNReal.ofReal (1 / 7) := by
    have e : (Prod.mk (fun _ => -1 : Fin 1 → ℤˣ) ⁻¹' ((fun q : (Fin 1 → ℤˣ) × ((Fin 2 → ℝ) × ((Fin 1 → ℝ) × ℝ)) =>
        if q.2.2.2 < Real.exp (-(∑ k, ((widthM (-q.1))⁻¹ * (widthM q.1 * q.2.1 k)) ^ 2 - ∑ k, ((widthM q.1)⁻¹ * (widthM q.1 * q.2.1 k)) ^ 2)) then -q.1
        else q.1) ⁻¹' {fun _ => 1})) = {y | y.2.2 < Real.exp (-(3 * y.1 0 ^ 2)) * Real.exp (-(3 * y.1 1 ^ 2))} := by
      ext y
      simp only [Set.mem_preimage, Set.mem_singleton_iff, n2, w1, w2, Set.mem_ofPred_eq, ← Real.exp_add]
      have e3 : -(∑ k, ((1 : ℝ)⁻¹ * (2 * y.1 k)) ^ 2 - ∑ k, ((2 : ℝ)⁻¹ * (2 * y.1 k)) ^ 2) = -(3 * y.1 0 ^ 2) + -(3 * y.1 1 ^ 2) := by
        simp only [Fin.sum_univ_two]; ring
      rw [e3]
      split_ifs with hc
      · simp [hc]
      · simp [hc, hne.symm]
    rw [e, accept_measure (Measure.pi fun _ : Fin 2 => ProbabilityTheory.gaussianReal 0 1)
      (Measure.pi fun _ : Fin 1 => ProbabilityTheory.gaussianReal 0 (1 / 2)) (fun η => Real.exp (-(3 * η 0 ^ 2)) * Real.exp (-(3 * η 1 ^ 2))) (by fun_prop)]
    · have e4 : ∀ η : Fin 2 → ℝ, ENNReal.ofReal (Real.exp (-(3 * η 0 ^ 2)) * Real.exp (-(3 * η 1 ^ 2))) =
          ∏ k, (fun _ x => ENNReal.ofReal (Real.exp (-(3 * x ^ 2)))) k (η k) := fun η => by
        rw [Fin.prod_univ_two, ENNReal.ofReal_mul (Real.exp_pos _).le]
      have e5 := lintegral_pi_prod (fun _ : Fin 2 => ProbabilityTheory.gaussianReal 0 1)
        (fun _ x => ENNReal.ofReal (Real.exp (-(3 * x ^ 2)))) (fun _ => by fun_prop)
      rw [lintegral_congr e4]
      refine e5.trans ?_
      simp only [gauss_weight_integral, Fin.prod_univ_two]
      rw [← ENNReal.ofReal_mul (Real.sqrt_nonneg _), Real.mul_self_sqrt (by norm_num)]
    · intro η
      rw [← Real.exp_add]
      exact Real.exp_le_one_iff.2 (by nlinarith [sq_nonneg (η 0), sq_nonneg (η 1)])
  rw [z1, z2, zero_mul, zero_add, ← ENNReal.ofReal_mul (by norm_num)] at h2
  have h3 := (ENNReal.ofReal_eq_ofReal_iff (by norm_num) (by norm_num)).1 h2
  norm_num at h3

end Hila
