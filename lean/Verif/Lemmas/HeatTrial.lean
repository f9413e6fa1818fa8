import Verif.Lemmas.StreamLaw
import Verif.Lemmas.HaarCoords
import Verif.Model.LinkUpdate

/-!
# One trial of the Kennedy-Pendleton and of the Creutz method
-/

namespace Hila

open MeasureTheory ProbabilityTheory Set
open scoped ENNReal

/-- An exponential number from a uniform one. -/
theorem unif_exp (g : ℝ → ℝ≥0∞) : ∫⁻ x, g (-Real.log (1 - x)) ∂unif01 = ∫⁻ y in Ioi (0 : ℝ), ENNReal.ofReal (Real.exp (-y)) * g y := by
  have himg : (fun y : ℝ => 1 - Real.exp (-y)) '' Ioi 0 = Ioo 0 1 := by
    ext x
    simp only [mem_image, mem_Ioo, mem_Ioi]
    constructor
    · rintro ⟨y, hy, rfl⟩
      have h1 : Real.exp (-y) < 1 := by rw [Real.exp_lt_one_iff]; linarith
      have h2 := Real.exp_pos (-y)
      constructor <;> linarith
    · rintro ⟨h1, h2⟩
      refine ⟨-Real.log (1 - x), ?_, ?_⟩
      · have := Real.log_neg (show 0 < 1 - x by linarith) (by linarith)
        linarith
      · rw [neg_neg, Real.exp_log (by linarith)]; ring
  have h := lintegral_image_eq_lintegral_abs_deriv_mul (s := Ioi (0 : ℝ)) (f := fun y : ℝ => 1 - Real.exp (-y)) (f' := fun y => Real.exp (-y))
    measurableSet_Ioi
    (fun y _ => by
      have h1 : HasDerivAt (fun y : ℝ => Real.exp (-y)) (Real.exp (-y) * (-1)) y := (hasDerivAt_neg y).exp
      have h2 := h1.const_sub 1
      simp only [mul_neg, mul_one, neg_neg] at h2
      exact h2.hasDerivWithinAt)
    (fun a _ b _ hab => by
      have : Real.exp (-a) = Real.exp (-b) := by simpa using hab
      have := Real.exp_injective this
      linarith) (fun x => g (-Real.log (1 - x)))
  rw [himg] at h
  unfold unif01
  rw [← Measure.restrict_congr_set Ioo_ae_eq_Ico, h]
  refine setLIntegral_congr_fun measurableSet_Ioi fun y _ => ?_
  rw [abs_of_pos (Real.exp_pos _), sub_sub_cancel, Real.log_exp, neg_neg]

/-- The measure of the numbers whose square is below a bound. -/
theorem sq_lt_measure (c : ℝ) : volume {z : ℝ | z ^ 2 < c} = ENNReal.ofReal (2 * Real.sqrt c) := by
  have : {z : ℝ | z ^ 2 < c} = Ioo (-Real.sqrt c) (Real.sqrt c) := by
    ext z
    simp only [mem_ofPred_eq, mem_Ioo]
    rw [← abs_lt, ← Real.sqrt_lt_sqrt_iff (sq_nonneg z), Real.sqrt_sq_eq_abs]
  rw [this, Real.volume_Ioo]
  congr 1; ring

/-- The sum of half the square of a normal number and an exponential number, over `α`, has the density `√δ exp(-αδ)` times a constant. -/
theorem gamma_density {α : ℝ} (hα : 0 < α) (g : ℝ → ℝ≥0∞) (hg : Measurable g) :
    ∫⁻ z, (∫⁻ y in Ioi (0 : ℝ), ENNReal.ofReal (Real.exp (-y)) * g ((z ^ 2 / 2 + y) / α)) ∂(gaussianReal 0 1) =
      ENNReal.ofReal (2 * α * Real.sqrt (α / Real.pi)) * ∫⁻ δ in Ioi (0 : ℝ), ENNReal.ofReal (Real.sqrt δ * Real.exp (-(α * δ))) * g δ := by
  have hpi := Real.pi_pos
  -- the inner integral in terms of δ
  have hin : ∀ z : ℝ, ∫⁻ y in Ioi (0 : ℝ), ENNReal.ofReal (Real.exp (-y)) * g ((z ^ 2 / 2 + y) / α)
      = ∫⁻ δ in Ioi (z ^ 2 / (2 * α)), ENNReal.ofReal α * (ENNReal.ofReal (Real.exp (-(α * δ - z ^ 2 / 2))) * g δ) := by
    intro z
    have himg : (fun δ : ℝ => α * δ - z ^ 2 / 2) '' Ioi (z ^ 2 / (2 * α)) = Ioi 0 := by
      ext y
      simp only [mem_image, mem_Ioi]
      constructor
      · rintro ⟨δ, h, rfl⟩
        rw [div_lt_iff₀ (by positivity)] at h
        linarith
      · intro h
        refine ⟨(y + z ^ 2 / 2) / α, ?_, ?_⟩
        · rw [div_lt_div_iff₀ (by positivity) hα]; nlinarith
        · field_simp; ring
    have h := lintegral_image_eq_lintegral_abs_deriv_mul (s := Ioi (z ^ 2 / (2 * α))) (f := fun δ : ℝ => α * δ - z ^ 2 / 2) (f' := fun _ => α)
      measurableSet_Ioi
      (fun δ _ => by
        have := ((hasDerivAt_id δ).const_mul α).sub_const (z ^ 2 / 2)
        simp only [mul_one] at this
        exact this.hasDerivWithinAt)
      (fun a _ b _ hab => by
        have : α * a = α * b := by simpa using hab
        exact mul_left_cancel₀ hα.ne' this) (fun y => ENNReal.ofReal (Real.exp (-y)) * g ((z ^ 2 / 2 + y) / α))
    rw [himg] at h
    rw [h, abs_of_pos hα]
    refine setLIntegral_congr_fun measurableSet_Ioi fun δ _ => ?_
    have : (z ^ 2 / 2 + (α * δ - z ^ 2 / 2)) / α = δ := by field_simp; ring
    simp only [this]
  simp only [hin]
  rw [gaussianReal_of_var_ne_zero 0 one_ne_zero]
  set f : ℝ → ℝ → ℝ≥0∞ := fun z δ => ({p : ℝ × ℝ | p.1 ^ 2 / (2 * α) < p.2}).indicator
    (fun p => ENNReal.ofReal α * (ENNReal.ofReal (Real.exp (-(α * p.2 - p.1 ^ 2 / 2))) * g p.2)) (z, δ) with hf
  have hset : MeasurableSet {p : ℝ × ℝ | p.1 ^ 2 / (2 * α) < p.2} := measurableSet_lt (by fun_prop) (by fun_prop)
  have hfm : Measurable fun p : ℝ × ℝ => f p.1 p.2 := by
    simp only [hf]
    exact Measurable.indicator (by fun_prop) hset
  have e1 : ∀ z, ∫⁻ δ in Ioi (z ^ 2 / (2 * α)), ENNReal.ofReal α * (ENNReal.ofReal (Real.exp (-(α * δ - z ^ 2 / 2))) * g δ) = ∫⁻ δ, f z δ := fun z => by
    rw [← lintegral_indicator measurableSet_Ioi]
    rfl
  simp only [e1]
  rw [lintegral_withDensity_eq_lintegral_mul _ (measurable_gaussianPDF 0 1) hfm.lintegral_prod_right']
  have e2 : ∫⁻ z, (gaussianPDF 0 1 * fun z => ∫⁻ δ, f z δ) z = ∫⁻ z, ∫⁻ δ, gaussianPDF 0 1 z * f z δ := by
    refine lintegral_congr fun z => ?_
    have : Measurable fun δ => f z δ := hfm.comp (measurable_const.prodMk measurable_id)
    rw [lintegral_const_mul _ this]; rfl
  have hm2 : Measurable fun p : ℝ × ℝ => gaussianPDF 0 1 p.1 * f p.1 p.2 := ((measurable_gaussianPDF 0 1).comp measurable_fst).mul hfm
  rw [e2, lintegral_lintegral_swap (f := fun z δ => gaussianPDF 0 1 z * f z δ) hm2.aemeasurable]
  rw [← lintegral_indicator measurableSet_Ioi, ← lintegral_const_mul _ (Measurable.indicator (by fun_prop) measurableSet_Ioi)]
  refine lintegral_congr fun δ => ?_
  by_cases hδ : δ ∈ Ioi (0 : ℝ)
  · rw [indicator_of_mem hδ]
    have hδ' : 0 < δ := hδ
    have e3 : ∀ z, gaussianPDF 0 1 z * f z δ = ({z : ℝ | z ^ 2 < 2 * α * δ}).indicator
        (fun _ => ENNReal.ofReal ((Real.sqrt (2 * Real.pi))⁻¹ * α * Real.exp (-(α * δ))) * g δ) z := fun z => by
      by_cases hz : z ^ 2 < 2 * α * δ
      · rw [indicator_of_mem (show z ∈ {z : ℝ | z ^ 2 < 2 * α * δ} from hz)]
        simp only [hf]
        rw [indicator_of_mem (show (z, δ) ∈ {p : ℝ × ℝ | p.1 ^ 2 / (2 * α) < p.2} from by
          show z ^ 2 / (2 * α) < δ
          rw [div_lt_iff₀ (by positivity)]; linarith)]
        simp only [gaussianPDF, gaussianPDFReal]
        rw [← mul_assoc, ← mul_assoc, ← ENNReal.ofReal_mul (by positivity), ← ENNReal.ofReal_mul (by positivity)]
        congr 2
        simp only [NNReal.coe_one, mul_one, sub_zero]
        rw [show -(α * δ - z ^ 2 / 2) = z ^ 2 / 2 + -(α * δ) by ring, Real.exp_add]
        have : Real.exp (-z ^ 2 / 2) * Real.exp (z ^ 2 / 2) = 1 := by
          rw [← Real.exp_add, show -z ^ 2 / 2 + z ^ 2 / 2 = 0 by ring, Real.exp_zero]
        linear_combination (Real.sqrt (2 * Real.pi))⁻¹ * α * Real.exp (-(α * δ)) * this
      · rw [indicator_of_notMem (show z ∉ {z : ℝ | z ^ 2 < 2 * α * δ} from hz)]
        simp only [hf]
        rw [indicator_of_notMem (show (z, δ) ∉ {p : ℝ × ℝ | p.1 ^ 2 / (2 * α) < p.2} from by
          show ¬ z ^ 2 / (2 * α) < δ
          rw [div_lt_iff₀ (by positivity)]
          intro h; apply hz; linarith), mul_zero]
    simp only [e3]
    rw [lintegral_indicator (measurableSet_lt (by fun_prop) (by fun_prop)), setLIntegral_const, sq_lt_measure, ← mul_assoc,
      mul_comm, ← mul_assoc, ← ENNReal.ofReal_mul (by positivity), ← ENNReal.ofReal_mul (by positivity)]
    congr 2
    have h1 : Real.sqrt (2 * α * δ) = Real.sqrt (2 * Real.pi) * Real.sqrt (α / Real.pi) * Real.sqrt δ := by
      rw [← Real.sqrt_mul (by positivity), ← Real.sqrt_mul (by positivity)]
      congr 1; field_simp
    have h2 : Real.sqrt (2 * Real.pi) ≠ 0 := (Real.sqrt_pos.2 (by positivity)).ne'
    rw [h1]; field_simp
  · rw [indicator_of_notMem hδ, mul_zero]
    have hz : ∀ z, gaussianPDF 0 1 z * f z δ = 0 := fun z => by
      simp only [hf]
      rw [indicator_of_notMem (show (z, δ) ∉ {p : ℝ × ℝ | p.1 ^ 2 / (2 * α) < p.2} from by
        show ¬ z ^ 2 / (2 * α) < δ
        have : δ ≤ 0 := not_lt.1 hδ
        have h2 : 0 ≤ z ^ 2 / (2 * α) := by positivity
        linarith), mul_zero]
    simp only [hz, lintegral_zero]

/-- The weight of the fourth component in the heat bath. -/
noncomputable def heatW (α t : ℝ) : ℝ≥0∞ := ENNReal.ofReal (Real.sqrt (1 - t ^ 2) * Real.exp (α * t))

theorem heatW_measurable : Measurable fun x : ℝ × ℝ => heatW x.1 x.2 := by
  unfold heatW; fun_prop

theorem unif_sq_lt {c : ℝ} (hc : c ≤ 1) : unif01 {x | x * x < c} = ENNReal.ofReal (Real.sqrt c) := by
  unfold unif01
  rw [Measure.restrict_apply (measurableSet_lt (by fun_prop) (by fun_prop))]
  have h1 : Real.sqrt c ≤ 1 := by
    have := Real.sqrt_le_sqrt hc
    rwa [Real.sqrt_one] at this
  have : {x : ℝ | x * x < c} ∩ Ico 0 1 = Ico 0 (Real.sqrt c) := by
    ext x
    simp only [mem_inter_iff, mem_ofPred_eq, mem_Ico]
    constructor
    · rintro ⟨h, h0, _⟩
      exact ⟨h0, Real.lt_sqrt_of_sq_lt (by rw [sq]; exact h)⟩
    · rintro ⟨h0, h⟩
      refine ⟨?_, h0, by linarith⟩
      have := (Real.lt_sqrt h0).1 h
      rw [sq] at this; exact this
  rw [this, Real.volume_Ico, sub_zero]

theorem unif_sq_le {c : ℝ} (hc : c < 1) : unif01 {x | x * x ≤ c} = ENNReal.ofReal (Real.sqrt c) := by
  unfold unif01
  rw [Measure.restrict_apply (measurableSet_le (by fun_prop) (by fun_prop))]
  have h1 : Real.sqrt c < 1 := by rw [Real.sqrt_lt' one_pos]; simpa using hc
  by_cases hn : c < 0
  · have : {x : ℝ | x * x ≤ c} ∩ Ico 0 1 = ∅ := by
      ext x
      simp only [mem_inter_iff, mem_ofPred_eq, mem_empty_iff_false, iff_false]
      rintro ⟨h, _⟩
      nlinarith [mul_self_nonneg x]
    rw [this, measure_empty, Real.sqrt_eq_zero_of_nonpos hn.le, ENNReal.ofReal_zero]
  · have : {x : ℝ | x * x ≤ c} ∩ Ico 0 1 = Icc 0 (Real.sqrt c) := by
      ext x
      simp only [mem_inter_iff, mem_ofPred_eq, mem_Ico, mem_Icc]
      constructor
      · rintro ⟨h, h0, _⟩
        exact ⟨h0, Real.le_sqrt_of_sq_le (by rw [sq]; exact h)⟩
      · rintro ⟨h0, h⟩
        refine ⟨?_, h0, by linarith⟩
        have := (Real.le_sqrt h0 (not_lt.1 hn)).1 h
        rw [sq] at this; exact this
    rw [this, Real.volume_Icc, sub_zero]

/-- The value `d` of a trial, from three numbers. -/
noncomputable def kpValue (α x0 x1 x2 : ℝ) : ℝ :=
  -(Real.log (1 - x1) + Real.log (1 - x0) * Real.cos (2 * Real.pi * x2) * Real.cos (2 * Real.pi * x2)) / α

theorem kpValue_measurable {γ : Type} [MeasurableSpace γ] {α a b c : γ → ℝ} (h : Measurable α) (ha : Measurable a) (hb : Measurable b) (hc : Measurable c) :
    Measurable fun x => kpValue (α x) (a x) (b x) (c x) := by
  unfold kpValue; fun_prop

theorem kp_density {α : ℝ} (hα : 0 < α) (g : ℝ → ℝ≥0∞) (hg : Measurable g) :
    ∫⁻ x0, ∫⁻ x1, ∫⁻ x2, g (kpValue α x0 x1 x2) ∂unif01 ∂unif01 ∂unif01 =
      ENNReal.ofReal (2 * α * Real.sqrt (α / Real.pi)) * ∫⁻ δ in Ioi (0 : ℝ), ENNReal.ofReal (Real.sqrt δ * Real.exp (-(α * δ))) * g δ := by
  rw [← gamma_density hα g hg]
  set h : ℝ → ℝ≥0∞ := fun z => ∫⁻ x1, g ((z ^ 2 / 2 + -Real.log (1 - x1)) / α) ∂unif01 with hh
  have hhm : Measurable h := by
    have : Measurable fun p : ℝ × ℝ => g ((p.1 ^ 2 / 2 + -Real.log (1 - p.2)) / α) := by fun_prop
    exact this.lintegral_prod_right'
  have e1 : ∀ z : ℝ, ∫⁻ y in Ioi (0 : ℝ), ENNReal.ofReal (Real.exp (-y)) * g ((z ^ 2 / 2 + y) / α) = h z := fun z => by
    simp only [hh]
    rw [unif_exp fun y => g ((z ^ 2 / 2 + y) / α)]
  simp only [e1]
  have hsnd : ∫⁻ z, h z ∂(gaussianReal 0 1) = ∫⁻ p : ℝ × ℝ, h p.2 ∂((gaussianReal 0 1).prod (gaussianReal 0 1)) := by
    have := lintegral_prod (μ := gaussianReal 0 1) (ν := gaussianReal 0 1) (fun p : ℝ × ℝ => h p.2) (hhm.comp measurable_snd).aemeasurable
    rw [this]
    simp
  have hmm : Measurable fun p : ℝ × ℝ => h (bmPair p).2 := hhm.comp (measurable_snd.comp bmPair_measurable)
  rw [hsnd, ← bmPair_law, lintegral_map (f := fun p : ℝ × ℝ => h p.2) (hhm.comp measurable_snd) bmPair_measurable,
    lintegral_prod_symm _ hmm.aemeasurable]
  have hae : ∀ᵐ x0 ∂unif01, 0 ≤ x0 ∧ x0 < 1 := by
    unfold unif01
    filter_upwards [ae_restrict_mem measurableSet_Ico] with x hx using hx
  refine lintegral_congr_ae ?_
  filter_upwards [hae] with x0 hx0
  have hm : Measurable fun p : ℝ × ℝ => g (kpValue α x0 p.1 p.2) :=
    hg.comp (kpValue_measurable measurable_const measurable_const measurable_fst measurable_snd)
  rw [lintegral_lintegral_swap (f := fun x1 x2 => g (kpValue α x0 x1 x2)) hm.aemeasurable]
  refine lintegral_congr fun x2 => ?_
  simp only [hh, bmPair]
  refine lintegral_congr fun x1 => ?_
  congr 1
  have hlog : 0 ≤ -Real.log (1 - x0) * 2 := by
    have := Real.log_nonpos (show 0 ≤ 1 - x0 by linarith [hx0.2]) (by linarith [hx0.1])
    linarith
  unfold kpValue
  rw [mul_pow, Real.sq_sqrt hlog]
  ring

/-- The accepted values of a trial. -/
theorem kp_accept {α : ℝ} (hα : 0 < α) (A : ℝ → ℝ → Prop) [∀ d x, Decidable (A d x)] (hA : MeasurableSet {p : ℝ × ℝ | A p.1 p.2})
    (hp : ∀ d, 0 < d → unif01 {x | A d x} = ENNReal.ofReal (Real.sqrt (1 - 0.5 * d))) (g : ℝ → ℝ≥0∞) (hg : Measurable g) :
    ∫⁻ x0, ∫⁻ x1, ∫⁻ x2, ∫⁻ x3, (if A (kpValue α x0 x1 x2) x3 then g (kpValue α x0 x1 x2) else 0) ∂unif01 ∂unif01 ∂unif01 ∂unif01 =
      ENNReal.ofReal (2 * α * Real.sqrt (α / Real.pi) * (Real.exp (-α) / Real.sqrt 2)) * ∫⁻ t in Ioo (-1 : ℝ) 1, heatW α t * g (1 - t) := by
  set k : ℝ → ℝ≥0∞ := fun d => ∫⁻ x3, (if A d x3 then g d else 0) ∂unif01 with hk
  have hkm : Measurable k := by
    have : Measurable fun p : ℝ × ℝ => if A p.1 p.2 then g p.1 else 0 := Measurable.ite hA (by fun_prop) measurable_const
    exact this.lintegral_prod_right'
  have hke : ∀ d, 0 < d → k d = ENNReal.ofReal (Real.sqrt (1 - 0.5 * d)) * g d := fun d hd => by
    simp only [hk]
    have hs : MeasurableSet {x | A d x} := hA.preimage (measurable_const.prodMk measurable_id : Measurable fun x : ℝ => (d, x))
    have : (fun x3 => if A d x3 then g d else 0) = ({x | A d x}).indicator fun _ => g d := by
      funext x; simp only [indicator, mem_ofPred_eq]
    rw [this, lintegral_indicator hs, setLIntegral_const, hp d hd, mul_comm]
  show ∫⁻ x0, ∫⁻ x1, ∫⁻ x2, k (kpValue α x0 x1 x2) ∂unif01 ∂unif01 ∂unif01 = _
  rw [kp_density hα k hkm, ENNReal.ofReal_mul (show 0 ≤ 2 * α * Real.sqrt (α / Real.pi) by positivity),
    mul_assoc (ENNReal.ofReal _)]
  congr 1
  have himg : (fun t : ℝ => 1 - t) '' Ioo (-1) 1 = Ioo 0 2 := by
    ext y
    simp only [mem_image, mem_Ioo]
    constructor
    · rintro ⟨t, ⟨h1, h2⟩, rfl⟩
      constructor <;> linarith
    · rintro ⟨h1, h2⟩
      exact ⟨1 - y, ⟨by linarith, by linarith⟩, by ring⟩
  have e1 : ∫⁻ δ in Ioi (0 : ℝ), ENNReal.ofReal (Real.sqrt δ * Real.exp (-(α * δ))) * k δ
      = ∫⁻ δ in Ioo (0 : ℝ) 2, ENNReal.ofReal (Real.sqrt δ * Real.exp (-(α * δ))) * (ENNReal.ofReal (Real.sqrt (1 - 0.5 * δ)) * g δ) := by
    rw [← lintegral_indicator measurableSet_Ioi, ← lintegral_indicator measurableSet_Ioo]
    refine lintegral_congr fun δ => ?_
    by_cases h : δ ∈ Ioo (0 : ℝ) 2
    · rw [indicator_of_mem h, indicator_of_mem (show δ ∈ Ioi (0 : ℝ) from h.1), hke δ h.1]
    · rw [indicator_of_notMem h]
      by_cases h2 : δ ∈ Ioi (0 : ℝ)
      · have hd : 2 ≤ δ := by
          by_contra hc
          exact h ⟨h2, not_le.1 hc⟩
        rw [indicator_of_mem h2, hke δ h2, Real.sqrt_eq_zero_of_nonpos (show 1 - 0.5 * δ ≤ 0 by norm_num; linarith), ENNReal.ofReal_zero, zero_mul, mul_zero]
      · rw [indicator_of_notMem h2]
  have hh := lintegral_image_eq_lintegral_abs_deriv_mul (s := Ioo (-1 : ℝ) 1) (f := fun t : ℝ => 1 - t) (f' := fun _ => -1) measurableSet_Ioo
    (fun t _ => by simpa using ((hasDerivAt_id t).const_sub 1).hasDerivWithinAt)
    (fun a _ b _ hab => by simpa using hab)
    (fun δ => ENNReal.ofReal (Real.sqrt δ * Real.exp (-(α * δ))) * (ENNReal.ofReal (Real.sqrt (1 - 0.5 * δ)) * g δ))
  rw [himg] at hh
  have hm : Measurable fun t : ℝ => heatW α t * g (1 - t) := by unfold heatW; fun_prop
  rw [e1, hh, ← lintegral_const_mul _ hm]
  refine setLIntegral_congr_fun measurableSet_Ioo fun t ht => ?_
  simp only [abs_neg, abs_one, ENNReal.ofReal_one, one_mul]
  unfold heatW
  have h1 : 0 < 1 - t := by linarith [ht.2]
  have h2 : 0 < 1 + t := by linarith [ht.1]
  rw [← mul_assoc, ← mul_assoc, ← ENNReal.ofReal_mul (by positivity), ← ENNReal.ofReal_mul (by positivity)]
  congr 2
  have hs : Real.sqrt (1 - t ^ 2) = Real.sqrt 2 * (Real.sqrt (1 - t) * Real.sqrt (1 - 0.5 * (1 - t))) := by
    rw [← Real.sqrt_mul h1.le, ← Real.sqrt_mul (by norm_num)]
    congr 1; ring
  rw [hs, show -(α * (1 - t)) = -α + α * t by ring, Real.exp_add]
  have : Real.sqrt 2 ≠ 0 := by positivity
  field_simp

/-- The value `a0` of a Creutz trial. -/
noncomputable def creutzValue (α x : ℝ) : ℝ := 1 + Real.log (Real.exp (-2 * α) + (1 - Real.exp (-2 * α)) * x) / α

theorem creutz_density {α : ℝ} (hα : 0 < α) (g : ℝ → ℝ≥0∞) (hg : Measurable g) :
    ∫⁻ x, g (creutzValue α x) ∂unif01 = ENNReal.ofReal (α * Real.exp (-α) / (1 - Real.exp (-2 * α))) * ∫⁻ t in Ioo (-1 : ℝ) 1, ENNReal.ofReal (Real.exp (α * t)) * g t := by
  set l := Real.exp (-2 * α) with hl
  have hl1 : l < 1 := by rw [hl, Real.exp_lt_one_iff]; linarith
  have hl0 : 0 < l := Real.exp_pos _
  have himg : (fun t : ℝ => (Real.exp (α * (t - 1)) - l) / (1 - l)) '' Ioo (-1) 1 = Ioo 0 1 := by
    ext x
    simp only [mem_image, mem_Ioo]
    constructor
    · rintro ⟨t, ⟨h1, h2⟩, rfl⟩
      have a1 : l < Real.exp (α * (t - 1)) := by rw [hl, Real.exp_lt_exp]; nlinarith
      have a2 : Real.exp (α * (t - 1)) < 1 := by rw [Real.exp_lt_one_iff]; nlinarith
      constructor
      · exact div_pos (by linarith) (by linarith)
      · rw [div_lt_one (by linarith)]; linarith
    · rintro ⟨h1, h2⟩
      have hr : 0 < l + (1 - l) * x := by nlinarith
      refine ⟨1 + Real.log (l + (1 - l) * x) / α, ⟨?_, ?_⟩, ?_⟩
      · have : -2 * α < Real.log (l + (1 - l) * x) := by
          rw [Real.lt_log_iff_exp_lt hr]; nlinarith
        have h3 : -2 < Real.log (l + (1 - l) * x) / α := by rw [lt_div_iff₀ hα]; linarith
        linarith
      · have : Real.log (l + (1 - l) * x) < 0 := Real.log_neg hr (by nlinarith)
        have h3 : Real.log (l + (1 - l) * x) / α < 0 := div_neg_of_neg_of_pos this hα
        linarith
      · have : α * (1 + Real.log (l + (1 - l) * x) / α - 1) = Real.log (l + (1 - l) * x) := by field_simp; ring
        rw [this, Real.exp_log hr]
        have : (1 - l) ≠ 0 := by linarith
        field_simp; ring
  have hne : (1 - l) ≠ 0 := by linarith
  have h := lintegral_image_eq_lintegral_abs_deriv_mul (s := Ioo (-1 : ℝ) 1) (f := fun t : ℝ => (Real.exp (α * (t - 1)) - l) / (1 - l))
    (f' := fun t => Real.exp (α * (t - 1)) * α / (1 - l)) measurableSet_Ioo
    (fun t _ => by
      have h1 : HasDerivAt (fun t : ℝ => α * (t - 1)) α t := by
        simpa using ((hasDerivAt_id t).sub_const 1).const_mul α
      exact ((h1.exp.sub_const l).div_const (1 - l)).hasDerivWithinAt)
    (fun a _ b _ hab => by
      have h1 : Real.exp (α * (a - 1)) - l = Real.exp (α * (b - 1)) - l := by
        have := (div_left_inj' hne).1 hab
        exact this
      have h2 : α * (a - 1) = α * (b - 1) := Real.exp_injective (by linarith)
      have := mul_left_cancel₀ hα.ne' h2
      linarith) (fun x => g (creutzValue α x))
  rw [himg] at h
  have hm : Measurable fun t : ℝ => ENNReal.ofReal (Real.exp (α * t)) * g t := by fun_prop
  have hu : ∫⁻ x, g (creutzValue α x) ∂unif01 = ∫⁻ x in Ioo (0 : ℝ) 1, g (creutzValue α x) := by
    unfold unif01
    rw [← Measure.restrict_congr_set Ioo_ae_eq_Ico]
  rw [hu, h, ← lintegral_const_mul _ hm]
  refine setLIntegral_congr_fun measurableSet_Ioo fun t _ => ?_
  have hv : creutzValue α ((Real.exp (α * (t - 1)) - l) / (1 - l)) = t := by
    unfold creutzValue
    rw [← hl, mul_div_cancel₀ _ hne, add_sub_cancel, Real.log_exp]
    field_simp; ring
  simp only [hv]
  have hpos : 0 < 1 - l := by linarith
  rw [abs_of_pos (by positivity), ← mul_assoc, ← ENNReal.ofReal_mul (by positivity)]
  congr 2
  rw [show α * (t - 1) = -α + α * t by ring, Real.exp_add]
  ring

theorem creutz_accept {α : ℝ} (hα : 0 < α) (g : ℝ → ℝ≥0∞) (hg : Measurable g) :
    ∫⁻ x0, ∫⁻ x1, (if 1 - creutzValue α x0 * creutzValue α x0 > x1 * x1 then g (creutzValue α x0) else 0) ∂unif01 ∂unif01 =
      ENNReal.ofReal (α * Real.exp (-α) / (1 - Real.exp (-2 * α))) * ∫⁻ t in Ioo (-1 : ℝ) 1, heatW α t * g t := by
  set k : ℝ → ℝ≥0∞ := fun a => ∫⁻ x1, (if 1 - a * a > x1 * x1 then g a else 0) ∂unif01 with hk
  have hkm : Measurable k := by
    have : Measurable fun p : ℝ × ℝ => if 1 - p.1 * p.1 > p.2 * p.2 then g p.1 else 0 :=
      Measurable.ite (measurableSet_lt (by fun_prop) (by fun_prop)) (by fun_prop) measurable_const
    exact this.lintegral_prod_right'
  have hke : ∀ a, k a = ENNReal.ofReal (Real.sqrt (1 - a ^ 2)) * g a := fun a => by
    simp only [hk]
    have hs : MeasurableSet {x : ℝ | x * x < 1 - a ^ 2} := measurableSet_lt (by fun_prop) (by fun_prop)
    have : (fun x1 => if 1 - a * a > x1 * x1 then g a else 0) = ({x : ℝ | x * x < 1 - a ^ 2}).indicator fun _ => g a := by
      funext x; simp only [indicator, mem_ofPred_eq, gt_iff_lt, sq]
    rw [this, lintegral_indicator hs, setLIntegral_const, unif_sq_lt (by nlinarith [sq_nonneg a]), mul_comm]
  show ∫⁻ x0, k (creutzValue α x0) ∂unif01 = _
  rw [creutz_density hα k hkm]
  congr 1
  refine lintegral_congr fun t => ?_
  rw [hke, ← mul_assoc, ← ENNReal.ofReal_mul (Real.exp_pos _).le, mul_comm (Real.exp _)]
  rfl

end Hila
