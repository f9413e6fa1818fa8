import Verif.Lemmas.HeatLoop
import Verif.Props.LinkUpdate

/-!
# From the trials of the heat bath to elements of the group
-/

namespace Hila

open MeasureTheory ProbabilityTheory Set Matrix
open scoped ENNReal

variable {N : ℕ}

theorem invariant_unique (μ ν : Measure (SUN N)) [IsProbabilityMeasure μ] [μ.IsMulLeftInvariant] [IsProbabilityMeasure ν] [ν.IsMulLeftInvariant] :
    μ = ν := by
  have ha1 : μ.IsHaarMeasure := Measure.isHaarMeasure_of_isCompact_nonempty_interior _ Set.univ isCompact_univ (by simp) (by simp) (by simp)
  have ha2 : ν.IsHaarMeasure := Measure.isHaarMeasure_of_isCompact_nonempty_interior _ Set.univ isCompact_univ (by simp) (by simp) (by simp)
  exact Measure.isHaarMeasure_eq_of_isProbabilityMeasure _ _

theorem invariant_right (haar : Measure (SUN N)) [IsProbabilityMeasure haar] [haar.IsMulLeftInvariant] (g : SUN N) : haar.map (fun x => x * g) = haar := by
  have hm : Measurable fun x : SUN N => x * g := (continuous_mul_const g).measurable
  have : IsProbabilityMeasure (haar.map fun x => x * g) := Measure.isProbabilityMeasure_map hm.aemeasurable
  have : (haar.map fun x => x * g).IsMulLeftInvariant := ⟨fun k => by
    rw [Measure.map_map (measurable_const_mul k) hm]
    have e : (fun x => k * x) ∘ (fun x => x * g) = (fun x => x * g) ∘ fun x : SUN N => k * x := by
      funext x; simp [mul_assoc]
    rw [e, ← Measure.map_map hm (measurable_const_mul k), map_mul_left_eq_self]⟩
  exact invariant_unique _ _

theorem invariant_inv (haar : Measure (SUN N)) [IsProbabilityMeasure haar] [haar.IsMulLeftInvariant] : haar.map (fun x => x⁻¹) = haar := by
  have hm : Measurable fun x : SUN N => x⁻¹ := continuous_inv.measurable
  have : IsProbabilityMeasure (haar.map fun x => x⁻¹) := Measure.isProbabilityMeasure_map hm.aemeasurable
  have : (haar.map fun x => x⁻¹).IsMulLeftInvariant := ⟨fun k => by
    rw [Measure.map_map (measurable_const_mul k) hm]
    have e : (fun x => k * x) ∘ (fun x => x⁻¹) = (fun x => x⁻¹) ∘ fun x : SUN N => x * k⁻¹ := by
      funext x; simp
    rw [e, ← Measure.map_map hm (continuous_mul_const k⁻¹).measurable, invariant_right]⟩
  exact invariant_unique _ _

/-- Two more random numbers and the point on the sphere. -/
noncomputable def ptRun (sw : Bool) (d : ℝ) (v : ℕ → ℝ) : Option (SUN 2 × ℕ) :=
  some (toSU (spherePt (angleDir sw (2 * Real.pi * v 1)) (2 * v 0 - 1) (1 - d)), 2)

/-- Half the trace of an element of SU(2). -/
noncomputable def halfTr (h : SUN 2) : ℝ := h.1.trace.re / 2

theorem halfTr_continuous : Continuous halfTr := by
  unfold halfTr
  have : Continuous fun h : SUN 2 => h.1.trace := (continuous_subtype_val : Continuous fun h : SUN 2 => h.1).matrix_trace
  fun_prop

theorem spherePt_norm (sw : Bool) (w z t : ℝ) (hz : z ^ 2 ≤ 1) (ht : t ^ 2 ≤ 1) : ∑ i, spherePt (angleDir sw w) z t i ^ 2 = 1 := by
  have hu := angleDir_unit sw w
  unfold spherePt
  rw [Fin.sum_univ_four]
  simp only [Matrix.cons_val]
  have h1 : Real.sqrt (1 - t ^ 2) ^ 2 = 1 - t ^ 2 := Real.sq_sqrt (by linarith)
  have h2 : Real.sqrt (1 - z ^ 2) ^ 2 = 1 - z ^ 2 := Real.sq_sqrt (by linarith)
  simp only [mul_pow, h1, h2]
  linear_combination (1 - t ^ 2) * (1 - z ^ 2) * hu

/-- A point of the sphere is its own normalised element. -/
theorem toSU_unit {v : Fin 4 → ℝ} (hv : ∑ i, v i ^ 2 = 1) : (toSU v).1 = (qOf v).toMatrix := by
  have h0 : v ≠ 0 := fun e => by rw [e] at hv; simp at hv
  have hd : (qOf v).det = 1 := by rw [qOf_det]; exact hv
  unfold toSU
  rw [dif_neg h0]
  show SU2.toMatrix _ = _
  rw [hd, Real.sqrt_one]
  congr 1
  unfold SU2.div
  simp

theorem halfTr_spherePt (sw : Bool) (w z t : ℝ) (hz : z ^ 2 ≤ 1) (ht : t ^ 2 ≤ 1) : halfTr (toSU (spherePt (angleDir sw w) z t)) = t := by
  unfold halfTr
  rw [toSU_unit (spherePt_norm sw w z t hz ht)]
  simp [SU2.toMatrix, Matrix.trace_fin_two, qOf, spherePt]

theorem unif_ae : ∀ᵐ x ∂unif01, 0 ≤ x ∧ x < 1 := by
  unfold unif01
  exact (ae_restrict_iff' measurableSet_Ico).2 (Filter.Eventually.of_forall fun x hx => hx)

theorem toSU_pt_measurable (sw : Bool) {γ : Type} [MeasurableSpace γ] {w x t : γ → ℝ} (hw : Measurable w) (hx : Measurable x) (ht : Measurable t) :
    Measurable fun p => toSU (spherePt (angleDir sw (2 * Real.pi * w p)) (2 * x p - 1) (t p)) :=
  toSU_measurable.comp (spherePt_measurable ((angleDir_measurable sw).comp (by fun_prop)) (by fun_prop) ht)

theorem pt_measurable (sw : Bool) (Φ : SUN 2 → ℝ≥0∞) (hΦ : Measurable Φ) {γ : Type} [MeasurableSpace γ] {w x t : γ → ℝ} (hw : Measurable w) (hx : Measurable x)
    (ht : Measurable t) : Measurable fun p => Φ (toSU (spherePt (angleDir sw (2 * Real.pi * w p)) (2 * x p - 1) (t p))) :=
  hΦ.comp (toSU_pt_measurable sw hw hx ht)

theorem pt_int_measurable (sw : Bool) (Φ : SUN 2 → ℝ≥0∞) (hΦ : Measurable Φ) :
    Measurable fun t => ∫⁻ x, ∫⁻ w, Φ (toSU (spherePt (angleDir sw (2 * Real.pi * w)) (2 * x - 1) t)) ∂unif01 ∂unif01 := by
  have a : Measurable fun p : (ℝ × ℝ) × ℝ => Φ (toSU (spherePt (angleDir sw (2 * Real.pi * p.2)) (2 * p.1.2 - 1) p.1.1)) :=
    pt_measurable sw Φ hΦ (by fun_prop) (by fun_prop) (by fun_prop)
  have b : Measurable fun p : ℝ × ℝ => ∫⁻ w, Φ (toSU (spherePt (angleDir sw (2 * Real.pi * w)) (2 * p.2 - 1) p.1)) ∂unif01 := a.lintegral_prod_right'
  exact b.lintegral_prod_right'

/-- The trials and the point on the sphere in terms of the invariant distribution. -/
theorem pt_integral (haar : Measure (SUN 2)) [IsProbabilityMeasure haar] [haar.IsMulLeftInvariant] (sw : Bool) (α : ℝ) :
    ∃ C : ℝ≥0∞, C ≠ 0 ∧ ∀ Φ : SUN 2 → ℝ≥0∞, Measurable Φ →
      ∫⁻ d, ∫⁻ x, ∫⁻ w, Φ (toSU (spherePt (angleDir sw (2 * Real.pi * w)) (2 * x - 1) (1 - d))) ∂unif01 ∂unif01 ∂heatM α =
        C * ∫⁻ g, Φ g ∂(haar.withDensity fun g => ENNReal.ofReal (Real.exp (α * halfTr g))) := by
  obtain ⟨C, hC0, hCt, hC⟩ := haar_coords haar sw
  refine ⟨C⁻¹, ENNReal.inv_ne_zero.2 hCt, fun Φ hΦ => ?_⟩
  have hm3 : Measurable fun d : ℝ => ∫⁻ x, ∫⁻ w, Φ (toSU (spherePt (angleDir sw (2 * Real.pi * w)) (2 * x - 1) (1 - d))) ∂unif01 ∂unif01 :=
    (pt_int_measurable sw Φ hΦ).comp (g := fun t => ∫⁻ x, ∫⁻ w, Φ (toSU (spherePt (angleDir sw (2 * Real.pi * w)) (2 * x - 1) t)) ∂unif01 ∂unif01)
      (f := fun d : ℝ => 1 - d) (by fun_prop)
  rw [lintegral_heatM α _ hm3]
  have hw : Measurable fun g : SUN 2 => ENNReal.ofReal (Real.exp (α * halfTr g)) := by
    have := halfTr_continuous.measurable
    fun_prop
  rw [lintegral_withDensity_eq_lintegral_mul _ hw hΦ, hC _ (hw.mul hΦ), ← mul_assoc C⁻¹, ENNReal.inv_mul_cancel hC0 hCt, one_mul]
  refine setLIntegral_congr_fun measurableSet_Ioo fun t ht => ?_
  have ht2 : t ^ 2 ≤ 1 := by have := ht.1; have := ht.2; nlinarith
  have e2 : ∫⁻ x, ∫⁻ w, ((fun g : SUN 2 => ENNReal.ofReal (Real.exp (α * halfTr g))) * Φ)
        (toSU (spherePt (angleDir sw (2 * Real.pi * w)) (2 * x - 1) t)) ∂unif01 ∂unif01 =
      ∫⁻ x, ∫⁻ w, ENNReal.ofReal (Real.exp (α * t)) * Φ (toSU (spherePt (angleDir sw (2 * Real.pi * w)) (2 * x - 1) t)) ∂unif01 ∂unif01 := by
    refine lintegral_congr_ae ?_
    filter_upwards [unif_ae] with x hx
    refine lintegral_congr fun w => ?_
    have hz : (2 * x - 1) ^ 2 ≤ 1 := by nlinarith
    simp only [Pi.mul_apply]
    rw [halfTr_spherePt sw _ _ _ hz ht2]
  rw [e2]
  have mt : Measurable fun x : ℝ × ℝ => Φ (toSU (spherePt (angleDir sw (2 * Real.pi * x.2)) (2 * x.1 - 1) t)) :=
    pt_measurable sw Φ hΦ (by fun_prop) (by fun_prop) (by fun_prop)
  have e3 : ∀ x, ∫⁻ w, ENNReal.ofReal (Real.exp (α * t)) * Φ (toSU (spherePt (angleDir sw (2 * Real.pi * w)) (2 * x - 1) t)) ∂unif01 =
      ENNReal.ofReal (Real.exp (α * t)) * ∫⁻ w, Φ (toSU (spherePt (angleDir sw (2 * Real.pi * w)) (2 * x - 1) t)) ∂unif01 := fun x =>
    lintegral_const_mul _ (pt_measurable sw Φ hΦ (by fun_prop) (by fun_prop) (by fun_prop))
  simp only [e3]
  have m4 : Measurable fun x => ∫⁻ w, Φ (toSU (spherePt (angleDir sw (2 * Real.pi * w)) (2 * x - 1) t)) ∂unif01 := mt.lintegral_prod_right'
  rw [lintegral_const_mul _ m4, ← mul_assoc, ← ENNReal.ofReal_mul (Real.sqrt_nonneg _)]
  unfold heatW
  simp only [sub_sub_cancel]

/-- The law of the element of SU(2), where some trial passes its test. -/
theorem point_law (haar : Measure (SUN 2)) [IsProbabilityMeasure haar] [haar.IsMulLeftInvariant] (sw : Bool) {α : ℝ}
    {loop : (ℕ → ℝ) → Option (ℝ × ℕ)} {c : ℝ≥0∞} (hc : c ≠ 0) (h : LawAt loop (c • heatM α)) :
    ∃ κ : ℝ≥0∞, κ ≠ 0 ∧ LawAt (fun u => thenRun (loop u) (ptRun sw) u) (κ • haar.withDensity fun g => ENNReal.ofReal (Real.exp (α * halfTr g))) := by
  obtain ⟨C, hC0, hC⟩ := pt_integral haar sw α
  refine ⟨c * C, mul_ne_zero hc hC0, fun F hF => ?_⟩
  simp only [afterRun_then]
  have hΦ : Measurable fun g => ∫⁻ u, F g u ∂uniformStream := hF.lintegral_prod_right'
  have hm1 : Measurable fun x : ℝ × (ℕ → ℝ) => F (toSU (spherePt (angleDir sw (2 * Real.pi * x.2 1)) (2 * x.2 0 - 1) (1 - x.1))) (shiftBy 2 x.2) :=
    hF.comp ((toSU_pt_measurable sw (by fun_prop) (by fun_prop) (by fun_prop)).prodMk ((shiftBy_measurable 2).comp measurable_snd))
  have hL := h (fun d v => F (toSU (spherePt (angleDir sw (2 * Real.pi * v 1)) (2 * v 0 - 1) (1 - d))) (shiftBy 2 v)) hm1
  refine Eq.trans hL ?_
  rw [lintegral_smul_measure, smul_eq_mul, lintegral_smul_measure, smul_eq_mul, mul_assoc, ← hC _ hΦ]
  congr 1
  refine lintegral_congr fun d => ?_
  have hm2 : Measurable fun x : ℝ × ℝ × (ℕ → ℝ) => F (toSU (spherePt (angleDir sw (2 * Real.pi * x.2.1)) (2 * x.1 - 1) (1 - d))) x.2.2 :=
    hF.comp ((toSU_pt_measurable sw (by fun_prop) (by fun_prop) (by fun_prop)).prodMk (measurable_snd.comp measurable_snd))
  exact stream_two (fun x w u => F (toSU (spherePt (angleDir sw (2 * Real.pi * w)) (2 * x - 1) (1 - d))) u) hm2

end Hila
