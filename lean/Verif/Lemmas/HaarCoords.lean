import Verif.Props.GaussHaar

/-!
# The invariant distribution of SU(2) in coordinates
-/

namespace Hila

open MeasureTheory ProbabilityTheory Set
open scoped ENNReal

theorem cos_image : Real.cos '' Ioo 0 Real.pi = Ioo (-1) 1 := by
  ext z
  simp only [mem_image, mem_Ioo]
  constructor
  · rintro ⟨t, ⟨h1, h2⟩, rfl⟩
    constructor
    · rw [← Real.cos_pi]; exact Real.cos_lt_cos_of_nonneg_of_le_pi h1.le le_rfl h2
    · rw [← Real.cos_zero]; exact Real.cos_lt_cos_of_nonneg_of_le_pi le_rfl h2.le h1
  · rintro ⟨h1, h2⟩
    refine ⟨Real.arccos z, ⟨Real.arccos_pos.2 h2, ?_⟩, Real.cos_arccos h1.le h2.le⟩
    exact lt_of_le_of_ne (Real.arccos_le_pi z) fun e => by
      rw [Real.arccos_eq_pi] at e; linarith

/-- A half plane in coordinates. -/
theorem half_plane (g : ℝ × ℝ → ℝ≥0∞) (hg : Measurable g) :
    ∫⁻ c, ∫⁻ ρ in Ioi (0 : ℝ), g (c, ρ) = ∫⁻ s in Ioi (0 : ℝ), ∫⁻ z in Ioo (-1 : ℝ) 1,
      ENNReal.ofReal (s / Real.sqrt (1 - z ^ 2)) * g (s * z, s * Real.sqrt (1 - z ^ 2)) := by
  set f : ℝ × ℝ → ℝ≥0∞ := fun p => (Ioi (0 : ℝ)).indicator (fun y => g (p.1, y)) p.2 with hf
  have hfeq : f = (Prod.snd ⁻¹' Ioi (0 : ℝ)).indicator g := by
    funext p
    simp only [hf, indicator]; rfl
  have hfm : Measurable f := by rw [hfeq]; exact hg.indicator (measurable_snd measurableSet_Ioi)
  have e1 : ∫⁻ c, ∫⁻ ρ in Ioi (0 : ℝ), g (c, ρ) = ∫⁻ p, f p := by
    rw [Measure.volume_eq_prod, lintegral_prod _ hfm.aemeasurable]
    refine lintegral_congr fun c => ?_
    rw [← lintegral_indicator measurableSet_Ioi]
  rw [e1, ← lintegral_comp_polarCoord_symm]
  have htgt : polarCoord.target = Ioi (0 : ℝ) ×ˢ Ioo (-Real.pi) Real.pi := rfl
  have hsymm : ∀ p : ℝ × ℝ, polarCoord.symm p = (p.1 * Real.cos p.2, p.1 * Real.sin p.2) := fun p => rfl
  rw [htgt, Measure.volume_eq_prod, ← Measure.prod_restrict, lintegral_prod _ (by
    simp only [hsymm, smul_eq_mul]
    exact Measurable.aemeasurable (by fun_prop))]
  refine setLIntegral_congr_fun measurableSet_Ioi fun r hr => ?_
  simp only [mem_Ioi] at hr
  simp only [hsymm, smul_eq_mul]
  have hsub : ∫⁻ t in Ioo (-Real.pi) Real.pi, ENNReal.ofReal r * f (r * Real.cos t, r * Real.sin t)
      = ∫⁻ t in Ioo 0 Real.pi, ENNReal.ofReal r * g (r * Real.cos t, r * Real.sin t) := by
    rw [← lintegral_indicator measurableSet_Ioo, ← lintegral_indicator measurableSet_Ioo]
    refine lintegral_congr fun t => ?_
    by_cases h : t ∈ Ioo 0 Real.pi
    · have hs := Real.sin_pos_of_mem_Ioo h
      rw [indicator_of_mem h, indicator_of_mem (show t ∈ Ioo (-Real.pi) Real.pi from ⟨by linarith [h.1, Real.pi_pos], h.2⟩)]
      simp only [hf]
      rw [indicator_of_mem (show r * Real.sin t ∈ Ioi (0 : ℝ) from mul_pos hr hs)]
    · rw [indicator_of_notMem h]
      by_cases h2 : t ∈ Ioo (-Real.pi) Real.pi
      · rw [indicator_of_mem h2]
        have ht : t ≤ 0 := by
          by_contra hc
          exact h ⟨not_le.1 hc, h2.2⟩
        have hs : Real.sin t ≤ 0 := Real.sin_nonpos_of_nonpos_of_neg_pi_le ht h2.1.le
        simp only [hf]
        rw [indicator_of_notMem (show r * Real.sin t ∉ Ioi (0 : ℝ) from fun hc => absurd hc (not_lt.2 (mul_nonpos_of_nonneg_of_nonpos hr.le hs))),
          mul_zero]
      · rw [indicator_of_notMem h2]
  rw [hsub]
  have h := lintegral_image_eq_lintegral_abs_deriv_mul (s := Ioo 0 Real.pi) (f := Real.cos) (f' := fun t => -Real.sin t) measurableSet_Ioo
    (fun x _ => (Real.hasDerivAt_cos x).hasDerivWithinAt)
    (fun a ha b hb hab => Real.injOn_cos ⟨ha.1.le, ha.2.le⟩ ⟨hb.1.le, hb.2.le⟩ hab)
    (fun z => ENNReal.ofReal (r / Real.sqrt (1 - z ^ 2)) * g (r * z, r * Real.sqrt (1 - z ^ 2)))
  rw [cos_image] at h
  rw [h]
  refine setLIntegral_congr_fun measurableSet_Ioo fun t ht => ?_
  have hs := Real.sin_pos_of_mem_Ioo ht
  have hsq : Real.sqrt (1 - Real.cos t ^ 2) = Real.sin t := by
    rw [← Real.sin_sq, Real.sqrt_sq hs.le]
  simp only [hsq, abs_neg, abs_of_pos hs]
  rw [← mul_assoc, ← ENNReal.ofReal_mul hs.le, mul_div_cancel₀ _ hs.ne']

theorem half_space (Φ : ℝ × ℝ × ℝ → ℝ≥0∞) (hΦ : Measurable Φ) :
    ∫⁻ ρ in Ioi (0 : ℝ), ∫⁻ c, ∫⁻ d, Φ (ρ, c, d) = ∫⁻ R in Ioi (0 : ℝ), ∫⁻ t in Ioo (-1 : ℝ) 1, ENNReal.ofReal (R / Real.sqrt (1 - t ^ 2)) *
      ∫⁻ z in Ioo (-1 : ℝ) 1, ENNReal.ofReal (R * Real.sqrt (1 - t ^ 2) / Real.sqrt (1 - z ^ 2)) *
        Φ (R * Real.sqrt (1 - t ^ 2) * Real.sqrt (1 - z ^ 2), R * Real.sqrt (1 - t ^ 2) * z, R * t) := by
  have hsf : SFinite ((volume : Measure ℝ).restrict (Ioi (0 : ℝ))) := inferInstance
  have e1 : ∫⁻ ρ in Ioi (0 : ℝ), ∫⁻ c, ∫⁻ d, Φ (ρ, c, d) = ∫⁻ d, ∫⁻ c, ∫⁻ ρ in Ioi (0 : ℝ), Φ (ρ, c, d) := by
    have m1 : Measurable fun q : ℝ × ℝ => ∫⁻ d, Φ (q.1, q.2, d) :=
      (show Measurable fun q : (ℝ × ℝ) × ℝ => Φ (q.1.1, q.1.2, q.2) by fun_prop).lintegral_prod_right'
    rw [lintegral_lintegral_swap (f := fun ρ c => ∫⁻ d, Φ (ρ, c, d)) m1.aemeasurable]
    have e2 : ∀ c, ∫⁻ ρ in Ioi (0 : ℝ), ∫⁻ d, Φ (ρ, c, d) = ∫⁻ d, ∫⁻ ρ in Ioi (0 : ℝ), Φ (ρ, c, d) := fun c =>
      lintegral_lintegral_swap (f := fun ρ d => Φ (ρ, c, d)) (Measurable.aemeasurable (by fun_prop))
    simp only [e2]
    have m2 : Measurable fun q : ℝ × ℝ => ∫⁻ ρ in Ioi (0 : ℝ), Φ (ρ, q.1, q.2) :=
      (show Measurable fun q : (ℝ × ℝ) × ℝ => Φ (q.2, q.1.1, q.1.2) by fun_prop).lintegral_prod_right'
    rw [lintegral_lintegral_swap (f := fun c d => ∫⁻ ρ in Ioi (0 : ℝ), Φ (ρ, c, d)) m2.aemeasurable]
  rw [e1]
  have e3 : ∀ d, ∫⁻ c, ∫⁻ ρ in Ioi (0 : ℝ), Φ (ρ, c, d) = ∫⁻ s in Ioi (0 : ℝ), ∫⁻ z in Ioo (-1 : ℝ) 1,
      ENNReal.ofReal (s / Real.sqrt (1 - z ^ 2)) * Φ (s * Real.sqrt (1 - z ^ 2), s * z, d) := fun d =>
    half_plane (fun p => Φ (p.2, p.1, d)) (by fun_prop)
  simp only [e3]
  have m3 : Measurable fun q : ℝ × ℝ => ∫⁻ z in Ioo (-1 : ℝ) 1, ENNReal.ofReal (q.2 / Real.sqrt (1 - z ^ 2)) *
      Φ (q.2 * Real.sqrt (1 - z ^ 2), q.2 * z, q.1) :=
    (show Measurable fun q : (ℝ × ℝ) × ℝ => ENNReal.ofReal (q.1.2 / Real.sqrt (1 - q.2 ^ 2)) *
      Φ (q.1.2 * Real.sqrt (1 - q.2 ^ 2), q.1.2 * q.2, q.1.1) by fun_prop).lintegral_prod_right'
  exact half_plane (fun q => ∫⁻ z in Ioo (-1 : ℝ) 1, ENNReal.ofReal (q.2 / Real.sqrt (1 - z ^ 2)) *
      Φ (q.2 * Real.sqrt (1 - z ^ 2), q.2 * z, q.1)) m3

theorem unif_height (g : ℝ → ℝ≥0∞) : ∫⁻ x, g (2 * x - 1) ∂unif01 = ∫⁻ z in Ioo (-1 : ℝ) 1, ENNReal.ofReal (1 / 2) * g z := by
  have himg : (fun z : ℝ => (z + 1) / 2) '' Ioo (-1) 1 = Ioo 0 1 := by
    ext y
    simp only [mem_image, mem_Ioo]
    constructor
    · rintro ⟨t, ⟨h1, h2⟩, rfl⟩
      constructor <;> linarith
    · rintro ⟨h1, h2⟩
      exact ⟨2 * y - 1, ⟨by linarith, by linarith⟩, by ring⟩
  have h := lintegral_image_eq_lintegral_abs_deriv_mul (s := Ioo (-1 : ℝ) 1) (f := fun z : ℝ => (z + 1) / 2) (f' := fun _ => 1 / 2) measurableSet_Ioo
    (fun x _ => (((hasDerivAt_id x).add_const 1).div_const 2).hasDerivWithinAt) (fun a _ b _ hab => by simpa using hab) (fun x => g (2 * x - 1))
  rw [himg] at h
  unfold unif01
  rw [← Measure.restrict_congr_set Ioo_ae_eq_Ico, h]
  refine setLIntegral_congr_fun measurableSet_Ioo fun t _ => ?_
  rw [abs_of_pos (by norm_num), show 2 * ((t + 1) / 2) - 1 = t by ring]

theorem gauss_four : (Measure.pi fun _ : Fin 4 => gaussianReal 0 1) =
    (((gaussianReal 0 1).prod (gaussianReal 0 1)).prod ((gaussianReal 0 1).prod (gaussianReal 0 1))).map
      (fun p => ![p.1.1, p.1.2, p.2.1, p.2.2]) := by
  have hm : Measurable fun p : (ℝ × ℝ) × ℝ × ℝ => ![p.1.1, p.1.2, p.2.1, p.2.2] := by
    refine measurable_pi_lambda _ fun i => ?_
    fin_cases i <;> simp <;> fun_prop
  refine Measure.pi_eq fun s hs => ?_
  rw [Measure.map_apply hm (MeasurableSet.univ_pi hs)]
  have : (fun p : (ℝ × ℝ) × ℝ × ℝ => ![p.1.1, p.1.2, p.2.1, p.2.2]) ⁻¹' univ.pi s = (s 0 ×ˢ s 1) ×ˢ (s 2 ×ˢ s 3) := by
    ext p
    simp only [mem_preimage, mem_pi, mem_univ, true_imp_iff, mem_prod]
    constructor
    · intro h; exact ⟨⟨h 0, h 1⟩, h 2, h 3⟩
    · rintro ⟨⟨h0, h1⟩, h2, h3⟩ i
      fin_cases i
      · exact h0
      · exact h1
      · exact h2
      · exact h3
  rw [this, Measure.prod_prod, Measure.prod_prod, Measure.prod_prod, Fin.prod_univ_four]
  ring

/-- The point of the unit sphere with the last two coordinates `√(1 - t²) z` and `t`, in the direction `cs` of the first two. -/
noncomputable def spherePt (cs : ℝ × ℝ) (z t : ℝ) : Fin 4 → ℝ :=
  ![Real.sqrt (1 - t ^ 2) * Real.sqrt (1 - z ^ 2) * cs.1, Real.sqrt (1 - t ^ 2) * Real.sqrt (1 - z ^ 2) * cs.2, Real.sqrt (1 - t ^ 2) * z, t]

theorem vec4_measurable {γ : Type} [MeasurableSpace γ] {a b c d : γ → ℝ} (ha : Measurable a) (hb : Measurable b) (hc : Measurable c) (hd : Measurable d) :
    Measurable fun x => (![a x, b x, c x, d x] : Fin 4 → ℝ) := by
  refine measurable_pi_lambda _ fun i => ?_
  fin_cases i
  · exact ha
  · exact hb
  · exact hc
  · exact hd

theorem pull_two (k l : ℝ≥0∞) (g : ℝ × ℝ → ℝ≥0∞) (hg : Measurable g) :
    k * (l * ∫⁻ c, ∫⁻ d, g (c, d)) = ∫⁻ c, ∫⁻ d, k * (l * g (c, d)) := by
  have mc : Measurable fun c : ℝ => ∫⁻ d, g (c, d) := hg.lintegral_prod_right'
  rw [← mul_assoc, ← lintegral_const_mul _ mc]
  refine lintegral_congr fun c => ?_
  have md : Measurable fun d : ℝ => g (c, d) := by fun_prop
  rw [← lintegral_const_mul _ md]
  exact lintegral_congr fun d => mul_assoc _ _ _

theorem shell_alg (K R t z : ℝ) (ht1 : 0 < 1 - t ^ 2) (hz1 : 0 < 1 - z ^ 2) :
    R / Real.sqrt (1 - t ^ 2) * (R * Real.sqrt (1 - t ^ 2) / Real.sqrt (1 - z ^ 2)) * (R * Real.sqrt (1 - t ^ 2) * Real.sqrt (1 - z ^ 2)) *
        (K * Real.exp (-((R * Real.sqrt (1 - t ^ 2) * Real.sqrt (1 - z ^ 2)) ^ 2 / 2))) *
        (K * Real.exp (-(((R * Real.sqrt (1 - t ^ 2) * z) ^ 2 + (R * t) ^ 2) / 2)))
      = K ^ 2 * R ^ 3 * Real.exp (-(R ^ 2 / 2)) * Real.sqrt (1 - t ^ 2) := by
  have hst := Real.sqrt_pos.2 ht1
  have hsz := Real.sqrt_pos.2 hz1
  have hexp : Real.exp (-(R ^ 2 / 2)) = Real.exp (-((R * Real.sqrt (1 - t ^ 2) * Real.sqrt (1 - z ^ 2)) ^ 2 / 2)) *
      Real.exp (-(((R * Real.sqrt (1 - t ^ 2) * z) ^ 2 + (R * t) ^ 2) / 2)) := by
    rw [← Real.exp_add]
    congr 1
    have q1 := Real.sq_sqrt ht1.le
    have q2 := Real.sq_sqrt hz1.le
    rw [mul_pow, mul_pow, q1, q2]
    have : (R * Real.sqrt (1 - t ^ 2) * z) ^ 2 = R ^ 2 * (1 - t ^ 2) * z ^ 2 := by rw [mul_pow, mul_pow, q1]
    rw [this]; ring
  rw [hexp]
  field_simp

set_option maxHeartbeats 1000000 in
theorem shell_coords (K : ℝ) (hKp : 0 < K) (cs : ℝ × ℝ) (G : (Fin 4 → ℝ) → ℝ≥0∞) (hG : Measurable G)
    (hom : ∀ r, 0 < r → ∀ v, G (fun i => r * v i) = G v) :
    ∫⁻ r in Ioi (0 : ℝ), ∫⁻ c, ∫⁻ d, ENNReal.ofReal r * (ENNReal.ofReal (K * Real.exp (-(r ^ 2 / 2))) *
        (ENNReal.ofReal (K * Real.exp (-((c ^ 2 + d ^ 2) / 2))) * G ![r * cs.1, r * cs.2, c, d]))
      = (∫⁻ R in Ioi (0 : ℝ), ENNReal.ofReal (K ^ 2 * R ^ 3 * Real.exp (-(R ^ 2 / 2)))) *
        ∫⁻ t in Ioo (-1 : ℝ) 1, ENNReal.ofReal (Real.sqrt (1 - t ^ 2)) * ∫⁻ z in Ioo (-1 : ℝ) 1, G (spherePt cs z t) := by
  set Φ : ℝ × ℝ × ℝ → ℝ≥0∞ := fun x => ENNReal.ofReal x.1 * (ENNReal.ofReal (K * Real.exp (-(x.1 ^ 2 / 2))) *
    (ENNReal.ofReal (K * Real.exp (-((x.2.1 ^ 2 + x.2.2 ^ 2) / 2))) * G ![x.1 * cs.1, x.1 * cs.2, x.2.1, x.2.2])) with hΦ
  have mG : Measurable fun x : ℝ × ℝ × ℝ => G ![x.1 * cs.1, x.1 * cs.2, x.2.1, x.2.2] :=
    hG.comp (vec4_measurable (by fun_prop) (by fun_prop) (by fun_prop) (by fun_prop))
  have mΦ : Measurable Φ := by
    have h1 : Measurable fun x : ℝ × ℝ × ℝ => ENNReal.ofReal (K * Real.exp (-((x.2.1 ^ 2 + x.2.2 ^ 2) / 2))) := by fun_prop
    exact (by fun_prop : Measurable fun x : ℝ × ℝ × ℝ => ENNReal.ofReal x.1).mul
      ((by fun_prop : Measurable fun x : ℝ × ℝ × ℝ => ENNReal.ofReal (K * Real.exp (-(x.1 ^ 2 / 2)))).mul (h1.mul mG))
  show ∫⁻ r in Ioi (0 : ℝ), ∫⁻ c, ∫⁻ d, Φ (r, c, d) = _
  rw [half_space Φ mΦ]
  have mS : Measurable fun x : ℝ × ℝ => G (spherePt cs x.2 x.1) := by
    unfold spherePt
    exact hG.comp (vec4_measurable (by fun_prop) (by fun_prop) (by fun_prop) (by fun_prop))
  have mT : Measurable fun t : ℝ => ENNReal.ofReal (Real.sqrt (1 - t ^ 2)) * ∫⁻ z in Ioo (-1 : ℝ) 1, G (spherePt cs z t) :=
    (by fun_prop : Measurable fun t : ℝ => ENNReal.ofReal (Real.sqrt (1 - t ^ 2))).mul mS.lintegral_prod_right'
  rw [← lintegral_mul_const _ (by fun_prop)]
  apply setLIntegral_congr_fun measurableSet_Ioi
  intro R hR
  beta_reduce
  simp only [mem_Ioi] at hR
  rw [← lintegral_const_mul _ mT]
  apply setLIntegral_congr_fun measurableSet_Ioo
  intro t ht
  beta_reduce
  have ht1 : 0 < 1 - t ^ 2 := by nlinarith [ht.1, ht.2]
  have hst := Real.sqrt_pos.2 ht1
  have mz : Measurable fun z : ℝ => G (spherePt cs z t) := mS.comp (measurable_const.prodMk measurable_id)
  rw [← lintegral_const_mul _ mz]
  have mz2 : Measurable fun z : ℝ => ENNReal.ofReal (R * Real.sqrt (1 - t ^ 2) / Real.sqrt (1 - z ^ 2)) *
      Φ (R * Real.sqrt (1 - t ^ 2) * Real.sqrt (1 - z ^ 2), R * Real.sqrt (1 - t ^ 2) * z, R * t) :=
    (by fun_prop : Measurable fun z : ℝ => ENNReal.ofReal (R * Real.sqrt (1 - t ^ 2) / Real.sqrt (1 - z ^ 2))).mul (mΦ.comp (by fun_prop))
  rw [← lintegral_const_mul _ mz2, ← lintegral_const_mul _ (mz.const_mul _)]
  apply setLIntegral_congr_fun measurableSet_Ioo
  intro z hz
  beta_reduce
  have hz1 : 0 < 1 - z ^ 2 := by nlinarith [hz.1, hz.2]
  have hsz := Real.sqrt_pos.2 hz1
  have hGe : G ![R * Real.sqrt (1 - t ^ 2) * Real.sqrt (1 - z ^ 2) * cs.1, R * Real.sqrt (1 - t ^ 2) * Real.sqrt (1 - z ^ 2) * cs.2,
      R * Real.sqrt (1 - t ^ 2) * z, R * t] = G (spherePt cs z t) := by
    rw [← hom R hR (spherePt cs z t)]
    congr 1
    funext i
    fin_cases i <;> simp [spherePt] <;> ring
  simp only [hΦ]
  rw [hGe]
  simp only [← mul_assoc]
  congr 1
  rw [← ENNReal.ofReal_mul (by positivity), ← ENNReal.ofReal_mul (by positivity), ← ENNReal.ofReal_mul (by positivity),
    ← ENNReal.ofReal_mul (by positivity), ← ENNReal.ofReal_mul (by positivity)]
  congr 1
  exact shell_alg K R t z ht1 hz1

theorem gauss_coords (τ : ℝ × ℝ → ℝ × ℝ) (hτ : MeasurePreserving τ ((gaussianReal 0 1).prod (gaussianReal 0 1)) ((gaussianReal 0 1).prod (gaussianReal 0 1)))
    (cs : ℝ → ℝ × ℝ) (hcs : Measurable cs) (hτc : ∀ r θ, τ (r * Real.cos θ, r * Real.sin θ) = (r * (cs θ).1, r * (cs θ).2))
    (G : (Fin 4 → ℝ) → ℝ≥0∞) (hG : Measurable G) (hom : ∀ r, 0 < r → ∀ v, G (fun i => r * v i) = G v) :
    ∫⁻ v, G v ∂(Measure.pi fun _ : Fin 4 => gaussianReal 0 1) =
      (∫⁻ R in Ioi (0 : ℝ), ENNReal.ofReal ((1 / (2 * Real.pi)) ^ 2 * R ^ 3 * Real.exp (-(R ^ 2 / 2)))) *
        ∫⁻ θ in Ioo (-Real.pi) Real.pi, ∫⁻ t in Ioo (-1 : ℝ) 1, ENNReal.ofReal (Real.sqrt (1 - t ^ 2)) *
          ∫⁻ z in Ioo (-1 : ℝ) 1, G (spherePt (cs θ) z t) := by
  set K := 1 / (2 * Real.pi) with hK
  have hKp : 0 < K := by rw [hK]; positivity
  have hτm := hτ.measurable
  have hm : Measurable fun p : (ℝ × ℝ) × ℝ × ℝ => (![p.1.1, p.1.2, p.2.1, p.2.2] : Fin 4 → ℝ) :=
    vec4_measurable (by fun_prop) (by fun_prop) (by fun_prop) (by fun_prop)
  have hm2 : Measurable fun p : (ℝ × ℝ) × ℝ × ℝ => G ![(τ p.1).1, (τ p.1).2, p.2.1, p.2.2] :=
    hG.comp (vec4_measurable (by fun_prop) (by fun_prop) (by fun_prop) (by fun_prop))
  set e : ℝ → ℝ → ℝ≥0∞ := fun x y => ENNReal.ofReal (K * Real.exp (-((x ^ 2 + y ^ 2) / 2))) with he
  have hem : Measurable fun p : ℝ × ℝ => e p.1 p.2 := by simp only [he]; fun_prop
  rw [gauss_four, lintegral_map hG hm]
  have hpr := lintegral_prod (μ := (gaussianReal 0 1).prod (gaussianReal 0 1)) (ν := (gaussianReal 0 1).prod (gaussianReal 0 1)) _
    (hG.comp hm).aemeasurable
  simp only [Function.comp_apply] at hpr
  rw [hpr]
  set H : ℝ × ℝ → ℝ≥0∞ := fun p => ∫⁻ q, G ![p.1, p.2, q.1, q.2] ∂((gaussianReal 0 1).prod (gaussianReal 0 1)) with hH
  have hHm : Measurable H := (hG.comp hm).lintegral_prod_right'
  have e0 : ∫⁻ p, H p ∂((gaussianReal 0 1).prod (gaussianReal 0 1)) = ∫⁻ p, H (τ p) ∂((gaussianReal 0 1).prod (gaussianReal 0 1)) :=
    (hτ.lintegral_comp hHm).symm
  have e1 : ∀ p : ℝ × ℝ, H p = ∫⁻ c, ∫⁻ d, e c d * G ![p.1, p.2, c, d] := fun p => by
    have m1 : Measurable fun q : ℝ × ℝ => G ![p.1, p.2, q.1, q.2] :=
      hG.comp (vec4_measurable (by fun_prop) (by fun_prop) (by fun_prop) (by fun_prop))
    simp only [hH]
    rw [normal_pair _ m1, Measure.volume_eq_prod]
    exact lintegral_prod _ (hem.mul m1).aemeasurable
  show ∫⁻ p, H p ∂((gaussianReal 0 1).prod (gaussianReal 0 1)) = _
  rw [e0, normal_pair (fun p => H (τ p)) (hHm.comp hτm), ← lintegral_comp_polarCoord_symm]
  have htgt : polarCoord.target = Ioi (0 : ℝ) ×ˢ Ioo (-Real.pi) Real.pi := rfl
  have hsymm : ∀ p : ℝ × ℝ, polarCoord.symm p = (p.1 * Real.cos p.2, p.1 * Real.sin p.2) := fun p => rfl
  have mP : Measurable fun p : ℝ × ℝ => ENNReal.ofReal p.1 * (e (p.1 * Real.cos p.2) (p.1 * Real.sin p.2) * H (τ (p.1 * Real.cos p.2, p.1 * Real.sin p.2))) := by
    have := hHm.comp hτm
    have h2 : Measurable fun p : ℝ × ℝ => e (p.1 * Real.cos p.2) (p.1 * Real.sin p.2) := by simp only [he]; fun_prop
    exact (by fun_prop : Measurable fun p : ℝ × ℝ => ENNReal.ofReal p.1).mul (h2.mul (this.comp (by fun_prop)))
  rw [htgt, Measure.volume_eq_prod, ← Measure.prod_restrict]
  simp only [hsymm, smul_eq_mul]
  rw [lintegral_prod_symm _ mP.aemeasurable]
  have hin : ∀ θ, ∫⁻ r in Ioi (0 : ℝ), ENNReal.ofReal r * (e (r * Real.cos θ) (r * Real.sin θ) * H (τ (r * Real.cos θ, r * Real.sin θ)))
      = (∫⁻ R in Ioi (0 : ℝ), ENNReal.ofReal (K ^ 2 * R ^ 3 * Real.exp (-(R ^ 2 / 2)))) *
        ∫⁻ t in Ioo (-1 : ℝ) 1, ENNReal.ofReal (Real.sqrt (1 - t ^ 2)) * ∫⁻ z in Ioo (-1 : ℝ) 1, G (spherePt (cs θ) z t) := by
    intro θ
    rw [← shell_coords K hKp (cs θ) G hG hom]
    refine lintegral_congr fun r => ?_
    have hcs2 : (r * Real.cos θ) ^ 2 + (r * Real.sin θ) ^ 2 = r ^ 2 := by
      have := Real.cos_sq_add_sin_sq θ
      linear_combination r ^ 2 * this
    rw [e1, hτc]
    simp only [he, hcs2]
    have mcd : Measurable fun q : ℝ × ℝ => ENNReal.ofReal (K * Real.exp (-((q.1 ^ 2 + q.2 ^ 2) / 2))) * G ![r * (cs θ).1, r * (cs θ).2, q.1, q.2] :=
      (by fun_prop : Measurable fun q : ℝ × ℝ => ENNReal.ofReal (K * Real.exp (-((q.1 ^ 2 + q.2 ^ 2) / 2)))).mul
        (hG.comp (vec4_measurable (by fun_prop) (by fun_prop) (by fun_prop) (by fun_prop)))
    exact pull_two _ _ _ mcd
  simp only [hin]
  have mθ : Measurable fun θ : ℝ => ∫⁻ t in Ioo (-1 : ℝ) 1, ENNReal.ofReal (Real.sqrt (1 - t ^ 2)) * ∫⁻ z in Ioo (-1 : ℝ) 1, G (spherePt (cs θ) z t) := by
    have m1 : Measurable fun x : (ℝ × ℝ) × ℝ => G (spherePt (cs x.1.1) x.2 x.1.2) := by
      unfold spherePt
      exact hG.comp (vec4_measurable (by fun_prop) (by fun_prop) (by fun_prop) (by fun_prop))
    have m2 : Measurable fun x : ℝ × ℝ => ENNReal.ofReal (Real.sqrt (1 - x.2 ^ 2)) * ∫⁻ z in Ioo (-1 : ℝ) 1, G (spherePt (cs x.1) z x.2) :=
      (by fun_prop : Measurable fun x : ℝ × ℝ => ENNReal.ofReal (Real.sqrt (1 - x.2 ^ 2))).mul m1.lintegral_prod_right'
    exact m2.lintegral_prod_right'
  rw [lintegral_const_mul _ mθ]

theorem toSU_hom (r : ℝ) (hr : 0 < r) (v : Fin 4 → ℝ) : toSU (fun i => r * v i) = toSU v := by
  by_cases hv : v = 0
  · subst hv
    congr 1
    funext i
    simp
  · have hv2 : (fun i => r * v i) ≠ 0 := fun e => hv (by
      funext i
      have := congrFun e i
      simp only [Pi.zero_apply, mul_eq_zero] at this
      exact this.resolve_left hr.ne')
    refine Subtype.ext ?_
    unfold toSU
    rw [dif_neg hv, dif_neg hv2]
    show SU2.toMatrix _ = SU2.toMatrix _
    congr 1
    have hd : (qOf fun i => r * v i).det = r ^ 2 * (qOf v).det := by
      simp only [qOf_det, mul_pow, Finset.mul_sum]
    rw [hd, Real.sqrt_mul (sq_nonneg r), Real.sqrt_sq hr.le]
    unfold SU2.div qOf
    ext <;> simp <;> rw [mul_div_mul_left _ _ hr.ne']

/-- The direction of the first two coordinates. -/
noncomputable def angleDir (sw : Bool) (x : ℝ) : ℝ × ℝ := if sw then (Real.sin x, Real.cos x) else (Real.cos x, Real.sin x)

theorem angleDir_measurable (sw : Bool) : Measurable (angleDir sw) := by
  unfold angleDir
  cases sw <;> simp <;> fun_prop

theorem angleDir_unit (sw : Bool) (x : ℝ) : (angleDir sw x).1 ^ 2 + (angleDir sw x).2 ^ 2 = 1 := by
  unfold angleDir
  cases sw <;> simp

theorem normal_pair_neg : MeasurePreserving (fun p : ℝ × ℝ => (-p.1, -p.2)) ((gaussianReal 0 1).prod (gaussianReal 0 1))
    ((gaussianReal 0 1).prod (gaussianReal 0 1)) := by
  have h1 : MeasurePreserving (fun x : ℝ => -x) (gaussianReal 0 1) (gaussianReal 0 1) :=
    ⟨measurable_neg, by simpa using gaussianReal_map_neg (μ := 0) (v := 1)⟩
  exact h1.prod h1

theorem spherePt_measurable {γ : Type} [MeasurableSpace γ] {c : γ → ℝ × ℝ} {z t : γ → ℝ} (hc : Measurable c) (hz : Measurable z) (ht : Measurable t) :
    Measurable fun x => spherePt (c x) (z x) (t x) := by
  unfold spherePt
  exact vec4_measurable (by fun_prop) (by fun_prop) (by fun_prop) (by fun_prop)

/-- The invariant distribution in the coordinates of the heat bath. -/
theorem haar_coords (haar : Measure (SUN 2)) [IsProbabilityMeasure haar] [haar.IsMulLeftInvariant] (sw : Bool) :
    ∃ C : ℝ≥0∞, C ≠ 0 ∧ C ≠ ⊤ ∧ ∀ F : SUN 2 → ℝ≥0∞, Measurable F → ∫⁻ h, F h ∂haar =
      C * ∫⁻ t in Ioo (-1 : ℝ) 1, ENNReal.ofReal (Real.sqrt (1 - t ^ 2)) *
        ∫⁻ x, ∫⁻ w, F (toSU (spherePt (angleDir sw (2 * Real.pi * w)) (2 * x - 1) t)) ∂unif01 ∂unif01 := by
  have hpi := Real.pi_pos
  set τ : ℝ × ℝ → ℝ × ℝ := fun p => if sw then (-p.2, -p.1) else (-p.1, -p.2) with hτd
  have hτ : MeasurePreserving τ ((gaussianReal 0 1).prod (gaussianReal 0 1)) ((gaussianReal 0 1).prod (gaussianReal 0 1)) := by
    simp only [hτd]
    cases sw
    · exact normal_pair_neg
    · exact ⟨by simp; fun_prop, normal_pair_turn⟩
  set cs : ℝ → ℝ × ℝ := fun θ => angleDir sw (θ + Real.pi) with hcsd
  have hcs : Measurable cs := (angleDir_measurable sw).comp (by fun_prop)
  have hτc : ∀ r θ, τ (r * Real.cos θ, r * Real.sin θ) = (r * (cs θ).1, r * (cs θ).2) := fun r θ => by
    simp only [hτd, hcsd, angleDir]
    cases sw <;> simp [Real.cos_add_pi, Real.sin_add_pi]
  set I := ∫⁻ R in Ioi (0 : ℝ), ENNReal.ofReal ((1 / (2 * Real.pi)) ^ 2 * R ^ 3 * Real.exp (-(R ^ 2 / 2))) with hI
  set a := ENNReal.ofReal (1 / (2 * Real.pi)) with ha
  set b := ENNReal.ofReal (1 / 2) with hb
  have ha0 : a ≠ 0 := by rw [ha, Ne, ENNReal.ofReal_eq_zero, not_le]; positivity
  have hb0 : b ≠ 0 := by rw [hb, Ne, ENNReal.ofReal_eq_zero, not_le]; positivity
  have hat : a ≠ ⊤ := ENNReal.ofReal_ne_top
  have hbt : b ≠ ⊤ := ENNReal.ofReal_ne_top
  have key : ∀ F : SUN 2 → ℝ≥0∞, Measurable F → ∫⁻ h, F h ∂haar =
      (I * (a⁻¹ * b⁻¹)) * ∫⁻ t in Ioo (-1 : ℝ) 1, ENNReal.ofReal (Real.sqrt (1 - t ^ 2)) *
        ∫⁻ x, ∫⁻ w, F (toSU (spherePt (angleDir sw (2 * Real.pi * w)) (2 * x - 1) t)) ∂unif01 ∂unif01 := by
    intro F hF
    set G : (Fin 4 → ℝ) → ℝ≥0∞ := fun v => F (toSU v) with hGd
    have hG : Measurable G := hF.comp toSU_measurable
    have hom : ∀ r, 0 < r → ∀ v, G (fun i => r * v i) = G v := fun r hr v => by simp only [hGd, toSU_hom r hr v]
    rw [← gauss_haar 1 one_ne_zero haar, lintegral_map hF toSU_measurable]
    show ∫⁻ v, G v ∂(Measure.pi fun _ : Fin 4 => gaussianReal 0 1) = _
    rw [gauss_coords τ hτ cs hcs hτc G hG hom]
    rw [mul_assoc]
    congr 1
    have m3 : Measurable fun x : (ℝ × ℝ) × ℝ => G (spherePt (cs x.1.1) x.2 x.1.2) :=
      hG.comp (spherePt_measurable (by fun_prop) (by fun_prop) (by fun_prop))
    have m2 : Measurable fun x : ℝ × ℝ => ENNReal.ofReal (Real.sqrt (1 - x.2 ^ 2)) * ∫⁻ z in Ioo (-1 : ℝ) 1, G (spherePt (cs x.1) z x.2) :=
      (by fun_prop : Measurable fun x : ℝ × ℝ => ENNReal.ofReal (Real.sqrt (1 - x.2 ^ 2))).mul m3.lintegral_prod_right'
    rw [lintegral_lintegral_swap m2.aemeasurable]
    have m5 : Measurable fun q : (ℝ × ℝ) × ℝ => G (spherePt (angleDir sw (2 * Real.pi * q.2)) (2 * q.1.2 - 1) q.1.1) :=
      hG.comp (spherePt_measurable ((angleDir_measurable sw).comp (by fun_prop)) (by fun_prop) (by fun_prop))
    have m6 : Measurable fun q : ℝ × ℝ => ∫⁻ w, G (spherePt (angleDir sw (2 * Real.pi * w)) (2 * q.2 - 1) q.1) ∂unif01 := m5.lintegral_prod_right'
    have m7 : Measurable fun t : ℝ => ENNReal.ofReal (Real.sqrt (1 - t ^ 2)) *
        ∫⁻ x, ∫⁻ w, G (spherePt (angleDir sw (2 * Real.pi * w)) (2 * x - 1) t) ∂unif01 ∂unif01 :=
      (by fun_prop : Measurable fun t : ℝ => ENNReal.ofReal (Real.sqrt (1 - t ^ 2))).mul m6.lintegral_prod_right'
    show _ = a⁻¹ * b⁻¹ * ∫⁻ t in Ioo (-1 : ℝ) 1, ENNReal.ofReal (Real.sqrt (1 - t ^ 2)) *
        ∫⁻ x, ∫⁻ w, G (spherePt (angleDir sw (2 * Real.pi * w)) (2 * x - 1) t) ∂unif01 ∂unif01
    rw [← lintegral_const_mul _ m7]
    refine lintegral_congr fun t => ?_
    have m4 : Measurable fun x : ℝ × ℝ => G (spherePt (cs x.1) x.2 t) := hG.comp (spherePt_measurable (by fun_prop) (by fun_prop) (by fun_prop))
    have mθ : ∀ z, Measurable fun θ : ℝ => G (spherePt (cs θ) z t) := fun z => hG.comp (spherePt_measurable (by fun_prop) (by fun_prop) (by fun_prop))
    have mzz : Measurable fun θ : ℝ => ∫⁻ z in Ioo (-1 : ℝ) 1, G (spherePt (cs θ) z t) := m4.lintegral_prod_right'
    have mz : Measurable fun z => ∫⁻ θ in Ioo (-Real.pi) Real.pi, G (spherePt (cs θ) z t) :=
      (m4.comp measurable_swap).lintegral_prod_right'
    rw [lintegral_const_mul _ mzz]
    have hz : ∫⁻ x, ∫⁻ w, G (spherePt (angleDir sw (2 * Real.pi * w)) (2 * x - 1) t) ∂unif01 ∂unif01
        = b * (a * ∫⁻ z in Ioo (-1 : ℝ) 1, ∫⁻ θ in Ioo (-Real.pi) Real.pi, G (spherePt (cs θ) z t)) := by
      rw [unif_height fun z => ∫⁻ w, G (spherePt (angleDir sw (2 * Real.pi * w)) z t) ∂unif01]
      have hw : ∀ z, ∫⁻ w, G (spherePt (angleDir sw (2 * Real.pi * w)) z t) ∂unif01
          = a * ∫⁻ θ in Ioo (-Real.pi) Real.pi, G (spherePt (cs θ) z t) := fun z => by
        rw [bm_angle fun w => G (spherePt (angleDir sw (2 * Real.pi * w)) z t),
          ← lintegral_const_mul _ (mθ z)]
        refine lintegral_congr fun θ => ?_
        have : 2 * Real.pi * ((θ + Real.pi) / (2 * Real.pi)) = θ + Real.pi := by field_simp
        rw [this]
      simp only [hw]
      rw [lintegral_const_mul _ (mz.const_mul _), lintegral_const_mul _ mz]
    rw [hz, lintegral_lintegral_swap (f := fun θ z => G (spherePt (cs θ) z t)) m4.aemeasurable]
    set Y := ∫⁻ z in Ioo (-1 : ℝ) 1, ∫⁻ θ in Ioo (-Real.pi) Real.pi, G (spherePt (cs θ) z t)
    rw [show a⁻¹ * b⁻¹ * (ENNReal.ofReal (Real.sqrt (1 - t ^ 2)) * (b * (a * Y))) = (a⁻¹ * a) * (b⁻¹ * b) * (ENNReal.ofReal (Real.sqrt (1 - t ^ 2)) * Y) by ring,
      ENNReal.inv_mul_cancel ha0 hat, ENNReal.inv_mul_cancel hb0 hbt, one_mul, one_mul]
  have h1 := key (fun _ => 1) measurable_const
  simp only [lintegral_one, measure_univ, mul_one] at h1
  have hpos : ∫⁻ t in Ioo (-1 : ℝ) 1, ENNReal.ofReal (Real.sqrt (1 - t ^ 2)) ≠ 0 := fun e => by rw [e, mul_zero] at h1; exact one_ne_zero h1
  refine ⟨I * (a⁻¹ * b⁻¹), fun e => ?_, fun e => ?_, key⟩
  · rw [e, zero_mul] at h1; exact one_ne_zero h1
  · rw [e, ENNReal.top_mul hpos] at h1; exact ENNReal.one_ne_top h1

end Hila
