import Mathlib.MeasureTheory.Constructions.Pi
import Mathlib.MeasureTheory.Measure.WithDensity
import Mathlib.Probability.Distributions.Gaussian.Real

/-!
# Densities of independent variables
-/

namespace Hila

open MeasureTheory ENNReal

theorem lintegral_fin_prod {E : Type*} [MeasurableSpace E] {n : ℕ} (μ : Fin n → Measure E) [∀ i, SigmaFinite (μ i)]
    (f : Fin n → E → ℝ≥0∞) (hf : ∀ i, Measurable (f i)) :
    ∫⁻ x, ∏ i, f i (x i) ∂(Measure.pi μ) = ∏ i, ∫⁻ x, f i x ∂(μ i) := by
  induction n with
  | zero => simp
  | succ n ih =>
    have hg : Measurable fun x : Fin (n + 1) → E => ∏ i, f i (x i) :=
      Finset.measurable_prod _ fun i _ => (hf i).comp (measurable_pi_apply i)
    have hh : Measurable fun y : Fin n → E => ∏ i : Fin n, f i.succ (y i) :=
      Finset.measurable_prod _ fun i _ => (hf _).comp (measurable_pi_apply i)
    rw [← ((measurePreserving_piFinSuccAbove μ 0).symm).lintegral_comp hg]
    have e : ∀ x : E × (Fin n → E), ∏ i, f i ((MeasurableEquiv.piFinSuccAbove (fun _ => E) 0).symm x i) =
        f 0 x.1 * ∏ i : Fin n, f i.succ (x.2 i) := by
      intro x
      rw [Fin.prod_univ_succ]
      simp [MeasurableEquiv.piFinSuccAbove_symm_apply, Fin.insertNthEquiv]
    have hm : Measurable fun x : E × (Fin n → E) => f 0 x.1 * ∏ i : Fin n, f i.succ (x.2 i) :=
      ((hf 0).comp measurable_fst).mul (hh.comp measurable_snd)
    rw [lintegral_congr e, lintegral_prod _ hm.aemeasurable]
    have e2 : ∀ a : E, ∫⁻ y, f 0 a * ∏ i : Fin n, f i.succ (y i) ∂(Measure.pi fun j => μ (Fin.succAbove 0 j)) =
        f 0 a * ∏ i : Fin n, ∫⁻ x, f i.succ x ∂(μ i.succ) := by
      intro a
      rw [lintegral_const_mul _ hh]
      simp only [Fin.zero_succAbove]
      rw [ih (fun i => μ i.succ) (fun i => f i.succ) fun i => hf _]
    simp only [e2]
    rw [lintegral_mul_const _ (hf 0), Fin.prod_univ_succ]

theorem lintegral_pi_prod {ι E : Type*} [Fintype ι] [MeasurableSpace E] (μ : ι → Measure E) [∀ i, SigmaFinite (μ i)]
    (f : ι → E → ℝ≥0∞) (hf : ∀ i, Measurable (f i)) :
    ∫⁻ x, ∏ i, f i (x i) ∂(Measure.pi μ) = ∏ i, ∫⁻ x, f i x ∂(μ i) := by
  let e := (Fintype.equivFin ι).symm
  have hg : Measurable fun x : ι → E => ∏ i, f i (x i) := Finset.measurable_prod _ fun i _ => (hf i).comp (measurable_pi_apply i)
  rw [← (measurePreserving_piCongrLeft μ e).lintegral_comp hg]
  have h : ∀ a : (i : Fin (Fintype.card ι)) → E, ∏ i, f i ((MeasurableEquiv.piCongrLeft (fun _ => E) e) a i) = ∏ j, f (e j) (a j) := by
    intro a
    rw [← e.prod_comp]
    refine Finset.prod_congr rfl fun j _ => ?_
    congr 1
    exact Equiv.piCongrLeft_apply_apply (fun _ => E) e a j
  rw [lintegral_congr h, lintegral_fin_prod (fun j => μ (e j)) (fun j => f (e j)) fun j => hf _]
  exact e.prod_comp fun i => ∫⁻ x, f i x ∂(μ i)

/-- Independent variables with densities have the product as density. -/
theorem pi_withDensity {ι E : Type*} [Fintype ι] [MeasurableSpace E] (μ : ι → Measure E) [∀ i, SigmaFinite (μ i)]
    (f : ι → E → ℝ≥0∞) (hf : ∀ i, Measurable (f i)) [∀ i, SigmaFinite ((μ i).withDensity (f i))] :
    Measure.pi (fun i => (μ i).withDensity (f i)) = (Measure.pi μ).withDensity fun x => ∏ i, f i (x i) := by
  refine Measure.pi_eq fun s hs => ?_
  have hS : MeasurableSet (Set.univ.pi s) := MeasurableSet.univ_pi hs
  rw [withDensity_apply _ hS, ← lintegral_indicator hS]
  have e : ∀ x : ι → E, (Set.univ.pi s).indicator (fun x => ∏ i, f i (x i)) x = ∏ i, (s i).indicator (f i) (x i) := by
    intro x
    by_cases h : x ∈ Set.univ.pi s
    · rw [Set.indicator_of_mem h]
      exact Finset.prod_congr rfl fun i _ => (Set.indicator_of_mem (h i trivial) _).symm
    · rw [Set.indicator_of_notMem h]
      have : ∃ i, x i ∉ s i := by
        by_contra hc
        push Not at hc
        exact h fun i _ => hc i
      obtain ⟨i, hi⟩ := this
      exact (Finset.prod_eq_zero (Finset.mem_univ i) (Set.indicator_of_notMem hi _)).symm
  rw [lintegral_congr e, lintegral_pi_prod μ _ fun i => (hf i).indicator (hs i)]
  refine Finset.prod_congr rfl fun i _ => ?_
  rw [lintegral_indicator (hs i), withDensity_apply _ (hs i)]

/-- A weight `exp(-K)` up to a factor, as it is written for one variable, for many independent variables. -/
theorem pi_weight {ι E : Type*} [Fintype ι] [MeasurableSpace E] (v : Measure E) [SigmaFinite v] (K : E → ℝ) (hK : Measurable K)
    (γ : Measure E) [SigmaFinite γ] (c : ℝ≥0∞) (hγ : γ = c • v.withDensity fun p => ENNReal.ofReal (Real.exp (-K p))) :
    Measure.pi (fun _ : ι => γ) =
      c ^ Fintype.card ι • (Measure.pi fun _ : ι => v).withDensity fun p => ENNReal.ofReal (Real.exp (-∑ i, K (p i))) := by
  have hm : Measurable fun p => ENNReal.ofReal (Real.exp (-K p)) := by fun_prop
  have h1 : γ = v.withDensity fun p => c * ENNReal.ofReal (Real.exp (-K p)) := by
    rw [hγ]; exact (withDensity_smul c hm).symm
  have hs : SigmaFinite (v.withDensity fun p => c * ENNReal.ofReal (Real.exp (-K p))) := h1 ▸ inferInstance
  have h2 : Measure.pi (fun _ : ι => γ) = Measure.pi fun _ : ι => v.withDensity fun p => c * ENNReal.ofReal (Real.exp (-K p)) := by
    congr 1; funext _; exact h1
  have hm2 : Measurable fun p : ι → E => ENNReal.ofReal (Real.exp (-∑ i, K (p i))) := by fun_prop
  rw [h2, pi_withDensity (fun _ => v) (fun _ => fun p => c * ENNReal.ofReal (Real.exp (-K p))) fun _ => hm.const_mul c,
    ← withDensity_smul _ hm2]
  congr 1
  funext p
  simp only [Finset.prod_mul_distrib, Finset.prod_const, Finset.card_univ, Pi.smul_apply, smul_eq_mul]
  rw [← ENNReal.ofReal_prod_of_nonneg fun i _ => (Real.exp_pos _).le, ← Real.exp_sum, Finset.sum_neg_distrib]

/-- The density of a normal variable of variance `s`. -/
theorem gaussian_weight (s : NNReal) (hs : s ≠ 0) :
    ∃ c : ℝ≥0∞, c ≠ ∞ ∧ ProbabilityTheory.gaussianReal 0 s = c • volume.withDensity fun x : ℝ => ENNReal.ofReal (Real.exp (-(x ^ 2 / (2 * s)))) := by
  refine ⟨ENNReal.ofReal ((Real.sqrt (2 * Real.pi * s))⁻¹), ENNReal.ofReal_ne_top, ?_⟩
  rw [ProbabilityTheory.gaussianReal_of_var_ne_zero _ hs, ← withDensity_smul _ (by fun_prop)]
  congr 1
  funext x
  rw [ProbabilityTheory.gaussianPDF, ProbabilityTheory.gaussianPDFReal, ENNReal.ofReal_mul (by positivity)]
  simp only [Pi.smul_apply, smul_eq_mul, sub_zero]
  congr 3
  ring

end Hila
