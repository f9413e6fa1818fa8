import Verif.Lemmas.Metropolis

/-!
# Molecular dynamics with an accept-reject step keeps the distribution of the action
-/

namespace Hila

open MeasureTheory ENNReal Function

variable {C M X Ω : Type*} [MeasurableSpace C] [MeasurableSpace M] [MeasurableSpace X] [MeasurableSpace Ω]

/-- Drawing the fields at the beginning gives the joint distribution of all fields. -/
theorem hmc_draw (μ : Measure C) [SFinite μ] (v : Measure M) [SFinite v] (lam : Measure X) [SFinite lam]
    {S : C → X → ℝ} (hS : Measurable fun z : C × X => S z.1 z.2) {K : M → ℝ} (hK : Measurable K)
    {γ : Measure M} {c : ℝ≥0∞} (hγ : γ = c • v.withDensity fun p => ENNReal.ofReal (Real.exp (-K p)))
    {ν : Measure Ω} {draw : C → Ω → X} (hd : Measurable (uncurry draw)) {w : C → ℝ≥0∞} (hwm : Measurable w)
    (hw0 : ∀ U, w U ≠ 0) (hwt : ∀ U, w U ≠ ∞)
    (hdraw : ∀ U, ν.map (draw U) = (w U)⁻¹ • lam.withDensity fun φ => ENNReal.ofReal (Real.exp (-S U φ)))
    {J : C × (M × X) → ℝ≥0∞} (hJ : Measurable J) :
    ∫⁻ U, ∫⁻ ω, ∫⁻ p, J (U, (p, draw U ω)) ∂γ ∂ν ∂(μ.withDensity w) =
      c * ∫⁻ z, ENNReal.ofReal (Real.exp (-(S z.1 z.2.2 + K z.2.1))) * J z ∂(μ.prod (v.prod lam)) := by
  have hγs : SFinite γ := by rw [hγ]; infer_instance
  have hJ1 : Measurable fun q : (C × X) × M => J (q.1.1, (q.2, q.1.2)) := by fun_prop
  have hG : Measurable fun z : C × X => ∫⁻ p, J (z.1, (p, z.2)) ∂γ := hJ1.lintegral_prod_right
  have hGU : ∀ U, Measurable fun φ => ∫⁻ p, J (U, (p, φ)) ∂γ := fun U => hG.comp measurable_prodMk_left
  have hSU : ∀ U, Measurable fun φ => S U φ := fun U => hS.comp measurable_prodMk_left
  have hJp : ∀ U φ, Measurable fun p => J (U, (p, φ)) := fun U φ => by fun_prop
  -- the drawn fields
  have e1 : ∀ U, ∫⁻ ω, ∫⁻ p, J (U, (p, draw U ω)) ∂γ ∂ν =
      (w U)⁻¹ * ∫⁻ φ, ENNReal.ofReal (Real.exp (-S U φ)) * ∫⁻ p, J (U, (p, φ)) ∂γ ∂lam := by
    intro U
    have hdU : Measurable (draw U) := hd.comp measurable_prodMk_left
    rw [← lintegral_map (f := fun φ => ∫⁻ p, J (U, (p, φ)) ∂γ) (hGU U) hdU, hdraw U, lintegral_smul_measure,
      lintegral_withDensity_eq_lintegral_mul _ (by have := hSU U; fun_prop) (hGU U)]
    rfl
  have e2 : ∀ U φ, ∫⁻ p, J (U, (p, φ)) ∂γ = c * ∫⁻ p, ENNReal.ofReal (Real.exp (-K p)) * J (U, (p, φ)) ∂v := by
    intro U φ
    rw [hγ, lintegral_smul_measure, lintegral_withDensity_eq_lintegral_mul _ (by fun_prop) (hJp U φ)]
    rfl
  have hin : Measurable fun z : C × X => ENNReal.ofReal (Real.exp (-S z.1 z.2)) * ∫⁻ p, J (z.1, (p, z.2)) ∂γ := by
    have : Measurable fun z : C × X => ENNReal.ofReal (Real.exp (-S z.1 z.2)) := by fun_prop
    exact this.mul hG
  have hout : Measurable fun U => (w U)⁻¹ * ∫⁻ φ, ENNReal.ofReal (Real.exp (-S U φ)) * ∫⁻ p, J (U, (p, φ)) ∂γ ∂lam :=
    hwm.inv.mul hin.lintegral_prod_right
  simp only [e1]
  rw [lintegral_withDensity_eq_lintegral_mul _ hwm hout]
  have e3 : ∀ U, (w * fun U => (w U)⁻¹ * ∫⁻ φ, ENNReal.ofReal (Real.exp (-S U φ)) * ∫⁻ p, J (U, (p, φ)) ∂γ ∂lam) U =
      ∫⁻ φ, ENNReal.ofReal (Real.exp (-S U φ)) * ∫⁻ p, J (U, (p, φ)) ∂γ ∂lam := fun U => by
    simp only [Pi.mul_apply]
    rw [← mul_assoc, ENNReal.mul_inv_cancel (hw0 U) (hwt U), one_mul]
  rw [lintegral_congr e3]
  have hfull : Measurable fun z : C × (M × X) => ENNReal.ofReal (Real.exp (-(S z.1 z.2.2 + K z.2.1))) * J z := by
    have : Measurable fun z : C × (M × X) => S z.1 z.2.2 := hS.comp (measurable_fst.prodMk measurable_snd.snd)
    fun_prop
  rw [lintegral_prod _ hfull.aemeasurable]
  have hmid : Measurable fun U => ∫⁻ y, ENNReal.ofReal (Real.exp (-(S U y.2 + K y.1))) * J (U, y) ∂(v.prod lam) := hfull.lintegral_prod_right
  rw [← lintegral_const_mul _ hmid]
  refine lintegral_congr fun U => ?_
  have hU : Measurable fun y : M × X => ENNReal.ofReal (Real.exp (-(S U y.2 + K y.1))) * J (U, y) := hfull.comp measurable_prodMk_left
  rw [lintegral_prod_symm _ hU.aemeasurable, ← lintegral_const_mul _ hU.lintegral_prod_left]
  refine lintegral_congr fun φ => ?_
  rw [e2]
  have hKJ : Measurable fun p => ENNReal.ofReal (Real.exp (-K p)) * J (U, (p, φ)) := by have := hJp U φ; fun_prop
  rw [mul_left_comm, ← lintegral_const_mul _ hKJ]
  congr 1
  refine lintegral_congr fun p => ?_
  rw [← mul_assoc, ← ENNReal.ofReal_mul (Real.exp_pos _).le, ← Real.exp_add]
  congr 3
  ring

open Classical in
/-- One update keeps the distribution of the fields. -/
theorem hmc_invariant (μ : Measure C) [SFinite μ] (v : Measure M) [SFinite v] (lam : Measure X) [SFinite lam]
    {S : C → X → ℝ} (hS : Measurable fun z : C × X => S z.1 z.2) {K : M → ℝ} (hK : Measurable K)
    {γ : Measure M} [IsProbabilityMeasure γ] {c : ℝ≥0∞} (hγ : γ = c • v.withDensity fun p => ENNReal.ofReal (Real.exp (-K p)))
    {ν : Measure Ω} [IsProbabilityMeasure ν] {draw : C → Ω → X} (hd : Measurable (uncurry draw)) {w : C → ℝ≥0∞} (hwm : Measurable w)
    (hw0 : ∀ U, w U ≠ 0) (hwt : ∀ U, w U ≠ ∞)
    (hdraw : ∀ U, ν.map (draw U) = (w U)⁻¹ • lam.withDensity fun φ => ENNReal.ofReal (Real.exp (-S U φ)))
    {T : C × (M × X) → C × (M × X)} (hT : MeasurePreserving T (μ.prod (v.prod lam)) (μ.prod (v.prod lam)))
    {fl : M → M} (hfl : MeasurePreserving fl v v) (hKfl : ∀ p, K (fl p) = K p)
    (hrev : ∀ z, T ((T z).1, (fl (T z).2.1, (T z).2.2)) = (z.1, (fl z.2.1, z.2.2))) (hff : ∀ p, fl (fl p) = p)
    {H : C × (M × X) → ℝ} (hH : ∀ z, H z = S z.1 z.2.2 + K z.2.1)
    {acc : Set (ℝ × ℝ)} (hacc : MeasurableSet acc) (hae : ∀ a : ℝ, ∀ᵐ r ∂volume.restrict (Set.Ico (0 : ℝ) 1), ((r, a) ∈ acc ↔ r < a)) :
    ((μ.withDensity w).prod (ν.prod (γ.prod (volume.restrict (Set.Ico (0 : ℝ) 1))))).map
      (fun q => if (q.2.2.2, Real.exp (-(H (T (q.1, (q.2.2.1, draw q.1 q.2.1))) - H (q.1, (q.2.2.1, draw q.1 q.2.1))))) ∈ acc
        then (T (q.1, (q.2.2.1, draw q.1 q.2.1))).1 else q.1) = μ.withDensity w := by
  have hHm : Measurable H := by
    have e : H = fun z => S z.1 z.2.2 + K z.2.1 := funext hH
    rw [e]
    have : Measurable fun z : C × (M × X) => S z.1 z.2.2 := hS.comp (measurable_fst.prodMk measurable_snd.snd)
    fun_prop
  have hTm : Measurable T := hT.measurable
  have hd' : Measurable fun q : C × Ω => draw q.1 q.2 := hd
  have hz : Measurable fun q : C × (Ω × (M × ℝ)) => (q.1, (q.2.2.1, draw q.1 q.2.1)) := by
    have : Measurable fun q : C × (Ω × (M × ℝ)) => draw q.1 q.2.1 := hd'.comp (measurable_fst.prodMk measurable_snd.fst)
    fun_prop
  have hupd : Measurable fun q : C × (Ω × (M × ℝ)) =>
      if (q.2.2.2, Real.exp (-(H (T (q.1, (q.2.2.1, draw q.1 q.2.1))) - H (q.1, (q.2.2.1, draw q.1 q.2.1))))) ∈ acc
        then (T (q.1, (q.2.2.1, draw q.1 q.2.1))).1 else q.1 := by
    refine Measurable.ite ?_ (by fun_prop) measurable_fst
    have : Measurable fun q : C × (Ω × (M × ℝ)) =>
      (q.2.2.2, Real.exp (-(H (T (q.1, (q.2.2.1, draw q.1 q.2.1))) - H (q.1, (q.2.2.1, draw q.1 q.2.1))))) := by fun_prop
    exact this hacc
  have hγs : SFinite γ := inferInstance
  refine Measure.ext_of_lintegral _ fun f hf => ?_
  rw [lintegral_map hf hupd]
  have hcomp : Measurable fun q : C × (Ω × (M × ℝ)) => f (if (q.2.2.2, Real.exp (-(H (T (q.1, (q.2.2.1, draw q.1 q.2.1))) - H (q.1, (q.2.2.1, draw q.1 q.2.1))))) ∈ acc
        then (T (q.1, (q.2.2.1, draw q.1 q.2.1))).1 else q.1) := hf.comp hupd
  rw [lintegral_prod _ hcomp.aemeasurable]
  have s1 : ∀ U, Measurable fun y : Ω × (M × ℝ) => f (if (y.2.2, Real.exp (-(H (T (U, (y.2.1, draw U y.1))) - H (U, (y.2.1, draw U y.1))))) ∈ acc
        then (T (U, (y.2.1, draw U y.1))).1 else U) := fun U => hcomp.comp measurable_prodMk_left
  have s2 : ∀ U ω, Measurable fun y : M × ℝ => f (if (y.2, Real.exp (-(H (T (U, (y.1, draw U ω))) - H (U, (y.1, draw U ω))))) ∈ acc
        then (T (U, (y.1, draw U ω))).1 else U) := fun U ω => (s1 U).comp measurable_prodMk_left
  -- the decision as a function of all fields
  let J : C × (M × X) → ℝ≥0∞ := fun z => ∫⁻ r in Set.Ico (0 : ℝ) 1, (if r < Real.exp (-(H (T z) - H z)) then f (T z).1 else f z.1)
  have hJ : Measurable J := by
    have : Measurable fun q : (C × (M × X)) × ℝ => if q.2 < Real.exp (-(H (T q.1) - H q.1)) then f (T q.1).1 else f q.1.1 := by
      refine Measurable.ite (measurableSet_lt (by fun_prop) (by fun_prop)) (by fun_prop) (by fun_prop)
    exact this.lintegral_prod_right
  have e1 : ∀ U, ∫⁻ y, f (if (y.2.2, Real.exp (-(H (T (U, (y.2.1, draw U y.1))) - H (U, (y.2.1, draw U y.1))))) ∈ acc
        then (T (U, (y.2.1, draw U y.1))).1 else U) ∂(ν.prod (γ.prod (volume.restrict (Set.Ico (0 : ℝ) 1)))) =
      ∫⁻ ω, ∫⁻ p, J (U, (p, draw U ω)) ∂γ ∂ν := by
    intro U
    rw [lintegral_prod _ (s1 U).aemeasurable]
    refine lintegral_congr fun ω => ?_
    rw [lintegral_prod _ (s2 U ω).aemeasurable]
    refine lintegral_congr fun p => lintegral_congr_ae ?_
    filter_upwards [hae (Real.exp (-(H (T (U, (p, draw U ω))) - H (U, (p, draw U ω)))))] with r hr
    by_cases h : r < Real.exp (-(H (T (U, (p, draw U ω))) - H (U, (p, draw U ω))))
    · rw [if_pos h, if_pos (hr.2 h)]
    · rw [if_neg h, if_neg fun e => h (hr.1 e)]
  simp only [e1]
  rw [hmc_draw μ v lam hS hK hγ hd hwm hw0 hwt hdraw hJ]
  have hflip : MeasurePreserving (fun z : C × (M × X) => (z.1, (fl z.2.1, z.2.2))) (μ.prod (v.prod lam)) (μ.prod (v.prod lam)) :=
    (MeasurePreserving.id μ).prod (hfl.prod (MeasurePreserving.id lam))
  have hR : MeasurePreserving (fun z => ((T z).1, (fl (T z).2.1, (T z).2.2))) (μ.prod (v.prod lam)) (μ.prod (v.prod lam)) := hflip.comp hT
  have key := metropolis_lintegral (μ.prod (v.prod lam)) hR (fun z => by rw [hrev, hff]) hHm (f := fun z => f z.1) (by fun_prop)
  have hHfl : ∀ z : C × (M × X), H (z.1, (fl z.2.1, z.2.2)) = H z := fun z => by rw [hH, hH, hKfl]
  have key2 : ∫⁻ z, ENNReal.ofReal (Real.exp (-(S z.1 z.2.2 + K z.2.1))) * J z ∂(μ.prod (v.prod lam)) =
      ∫⁻ z, ENNReal.ofReal (Real.exp (-(S z.1 z.2.2 + K z.2.1))) * f z.1 ∂(μ.prod (v.prod lam)) := by
    simp only [← hH]
    rw [← key]
    simp only [hHfl, J]
  rw [key2, ← hmc_draw μ v lam hS hK hγ hd hwm hw0 hwt hdraw (J := fun z => f z.1) (by fun_prop)]
  simp

/-- Multiplication of the links with a function of the other fields keeps the measure. -/
theorem mp_drift [Group C] [MeasurableMul₂ C] (μ : Measure C) [SFinite μ] [μ.IsMulLeftInvariant] (v : Measure M) [SFinite v] (lam : Measure X) [SFinite lam]
    {g : M × X → C} (hg : Measurable g) :
    MeasurePreserving (fun z : C × (M × X) => (g z.2 * z.1, z.2)) (μ.prod (v.prod lam)) (μ.prod (v.prod lam)) := by
  have h1 : MeasurePreserving (fun q : (M × X) × C => (q.1, g q.1 * q.2)) ((v.prod lam).prod μ) ((v.prod lam).prod μ) := by
    refine (MeasurePreserving.id (v.prod lam)).skew_product (g := fun y U => g y * U) ?_ ?_
    · show Measurable fun q : (M × X) × C => g q.1 * q.2
      exact (hg.comp measurable_fst).mul measurable_snd
    · exact Filter.Eventually.of_forall fun y => map_mul_left_eq_self μ (g y)
  exact (Measure.measurePreserving_swap.comp h1).comp Measure.measurePreserving_swap

/-- Addition of a function of the other fields to the momenta keeps the measure. -/
theorem mp_kick [AddGroup M] [MeasurableAdd₂ M] (μ : Measure C) [SFinite μ] (v : Measure M) [SFinite v] [v.IsAddRightInvariant] (lam : Measure X) [SFinite lam]
    {F : C → X → M} (hF : Measurable fun z : C × X => F z.1 z.2) :
    MeasurePreserving (fun z : C × (M × X) => (z.1, (z.2.1 + F z.1 z.2.2, z.2.2))) (μ.prod (v.prod lam)) (μ.prod (v.prod lam)) := by
  refine (MeasurePreserving.id μ).skew_product (g := fun U (y : M × X) => (y.1 + F U y.2, y.2)) ?_ ?_
  · show Measurable fun q : C × (M × X) => (q.2.1 + F q.1 q.2.2, q.2.2)
    have : Measurable fun q : C × (M × X) => F q.1 q.2.2 := hF.comp (measurable_fst.prodMk measurable_snd.snd)
    fun_prop
  · refine Filter.Eventually.of_forall fun U => ?_
    have h1 : MeasurePreserving (fun q : X × M => (q.1, q.2 + F U q.1)) (lam.prod v) (lam.prod v) := by
      refine (MeasurePreserving.id lam).skew_product (g := fun φ P => P + F U φ) ?_ ?_
      · show Measurable fun q : X × M => q.2 + F U q.1
        have : Measurable fun φ => F U φ := hF.comp measurable_prodMk_left
        fun_prop
      · exact Filter.Eventually.of_forall fun φ => map_add_right_eq_self v (F U φ)
    exact ((Measure.measurePreserving_swap.comp h1).comp Measure.measurePreserving_swap).map_eq

end Hila
