import Verif.Lemmas.HeatPoint

/-!
# One hit of the heat bath
-/

namespace Hila

open MeasureTheory ProbabilityTheory Set Matrix
open scoped ENNReal

variable {N : ℕ}

/-- The element of SU(N) with a block from SU(2). -/
noncomputable def embSU (pq : Fin N × Fin N) (h : SUN 2) : SUN N :=
  if hpq : pq.1 ≠ pq.2 then ⟨embed pq.1 pq.2 h.1, embed_mem pq.1 pq.2 hpq h.1 h.2⟩ else 1

theorem embSU_val {pq : Fin N × Fin N} (hpq : pq.1 ≠ pq.2) (h : SUN 2) : (embSU pq h).1 = embed pq.1 pq.2 h.1 := by
  unfold embSU
  rw [dif_pos hpq]

theorem embSU_mul {pq : Fin N × Fin N} (hpq : pq.1 ≠ pq.2) (g h : SUN 2) : embSU pq (g * h) = embSU pq g * embSU pq h := by
  refine Subtype.ext ?_
  show (embSU pq (g * h)).1 = (embSU pq g).1 * (embSU pq h).1
  rw [embSU_val hpq, embSU_val hpq, embSU_val hpq]
  exact (embed_mul _ _ hpq _ _).symm

theorem embSU_continuous (pq : Fin N × Fin N) : Continuous (embSU pq) := by
  by_cases hpq : pq.1 ≠ pq.2
  · have e : embSU pq = fun h => ⟨embed pq.1 pq.2 h.1, embed_mem pq.1 pq.2 hpq h.1 h.2⟩ := by
      funext h; unfold embSU; rw [dif_pos hpq]
    rw [e]
    refine Continuous.subtype_mk ?_ _
    unfold embed
    have := (continuous_subtype_val : Continuous fun h : SUN 2 => h.1)
    fun_prop
  · have e : embSU pq = fun _ => 1 := by funext h; unfold embSU; rw [dif_neg hpq]
    rw [e]; exact continuous_const

/-- The components of `v`. -/
noncomputable def subVec (A : Matrix (Fin N) (Fin N) ℂ) (pq : Fin N × Fin N) : Fin 4 → ℝ :=
  ![-((A pq.1 pq.2).im + (A pq.2 pq.1).im), -((A pq.1 pq.2).re - (A pq.2 pq.1).re), -((A pq.1 pq.1).im - (A pq.2 pq.2).im),
    (A pq.1 pq.1).re + (A pq.2 pq.2).re]

theorem hitLength_eq (A : Matrix (Fin N) (Fin N) ℂ) (pq : Fin N × Fin N) : hitLength A pq = Real.sqrt (qOf (subVec A pq)).det := by
  unfold hitLength
  congr 1
  simp only [SU2.det, qOf, subVec, Matrix.cons_val]
  ring

theorem subVec_ne {A : Matrix (Fin N) (Fin N) ℂ} {pq : Fin N × Fin N} (hz : hitLength A pq ≠ 0) : subVec A pq ≠ 0 := by
  intro e
  apply hz
  rw [hitLength_eq, e, qOf_det]
  simp

theorem toSU_sub {A : Matrix (Fin N) (Fin N) ℂ} {pq : Fin N × Fin N} (hz : hitLength A pq ≠ 0) :
    (toSU (subVec A pq)).1 = ((qOf (subVec A pq)).div (hitLength A pq)).toMatrix := by
  unfold toSU
  rw [dif_neg (subVec_ne hz), hitLength_eq]

theorem subVec_measurable {γ : Type} [MeasurableSpace γ] {A : γ → Matrix (Fin N) (Fin N) ℂ} (pq : Fin N × Fin N) (h : ∀ i j, Measurable fun x => A x i j) :
    Measurable fun x => subVec (A x) pq := by
  have hr : ∀ i j, Measurable fun x => (A x i j).re := fun i j => Complex.measurable_re.comp (h i j)
  have hi : ∀ i j, Measurable fun x => (A x i j).im := fun i j => Complex.measurable_im.comp (h i j)
  unfold subVec
  exact vec4_measurable ((hi pq.1 pq.2).add (hi pq.2 pq.1)).neg ((hr pq.1 pq.2).sub (hr pq.2 pq.1)).neg ((hi pq.1 pq.1).sub (hi pq.2 pq.2)).neg
    ((hr pq.1 pq.1).add (hr pq.2 pq.2))

theorem hitLength_measurable {γ : Type} [MeasurableSpace γ] {A : γ → Matrix (Fin N) (Fin N) ℂ} (pq : Fin N × Fin N) (h : ∀ i j, Measurable fun x => A x i j) :
    Measurable fun x => hitLength (A x) pq := by
  have hv := subVec_measurable pq h
  have hc : ∀ i, Measurable fun x => subVec (A x) pq i := fun i => (measurable_pi_apply i).comp hv
  have e : (fun x => hitLength (A x) pq) = fun x => Real.sqrt (subVec (A x) pq 0 ^ 2 + subVec (A x) pq 1 ^ 2 + subVec (A x) pq 2 ^ 2 + subVec (A x) pq 3 ^ 2) := by
    funext x
    rw [hitLength_eq, qOf_det, Fin.sum_univ_four]
  rw [e]
  exact (((((hc 0).pow_const 2).add ((hc 1).pow_const 2)).add ((hc 2).pow_const 2)).add ((hc 3).pow_const 2)).sqrt

/-- The trace after a hit. -/
theorem hit_re_trace (A : Matrix (Fin N) (Fin N) ℂ) (pq : Fin N × Fin N) (hpq : pq.1 ≠ pq.2) (hz : hitLength A pq ≠ 0) (g : SUN 2) :
    ((embSU pq (g * toSU (subVec A pq))).1 * A).trace.re = hitLength A pq * halfTr g + (A.trace.re - ((A pq.1 pq.1).re + (A pq.2 pq.2).re)) := by
  obtain ⟨x, hx, _⟩ := C28_group.2.1 g.1 g.2
  have hzz : hitLength A pq ^ 2 = ((A pq.1 pq.2).im + (A pq.2 pq.1).im) ^ 2 + ((A pq.1 pq.2).re - (A pq.2 pq.1).re) ^ 2 +
      ((A pq.1 pq.1).im - (A pq.2 pq.2).im) ^ 2 + ((A pq.1 pq.1).re + (A pq.2 pq.2).re) ^ 2 := by
    unfold hitLength
    exact Real.sq_sqrt (by positivity)
  have e1 : (g * toSU (subVec A pq)).1 = (x.mul ((qOf (subVec A pq)).div (hitLength A pq))).toMatrix := by
    show g.1 * (toSU (subVec A pq)).1 = _
    rw [toSU_sub hz, ← hx, toMatrix_mul]
  have e2 : halfTr g = x.d := by
    unfold halfTr
    rw [← hx]
    simp [SU2.toMatrix, Matrix.trace_fin_two]
  rw [embSU_val hpq, embed_trace, e1, e2]
  generalize hitLength A pq = z at *
  simp only [SU2.toMatrix, SU2.mul, SU2.div, qOf, subVec, Matrix.cons_val, Matrix.trace_fin_two, Matrix.mul_apply, Fin.sum_univ_two, Matrix.of_apply,
    Matrix.cons_val', Complex.add_re, Complex.sub_re, Complex.mul_re]
  field_simp
  linear_combination (-x.d) * hzz

/-- One hit, where some trial passes its test. -/
noncomputable def hitTry (b3 : ℝ) (S : Matrix (Fin N) (Fin N) ℂ) (pq : Fin N × Fin N) (U : SUN N) (u : ℕ → ℝ) : Option (SUN N × ℕ) :=
  if hitLength (U.1 * Sᴴ) pq = 0 ∨ b3 * hitLength (U.1 * Sᴴ) pq = 0 then none
  else thenRun (thenRun (heatTry 40 (b3 * hitLength (U.1 * Sᴴ) pq) u) (ptRun false) u)
    (fun g _ => some (embSU pq (g * toSU (subVec (U.1 * Sᴴ) pq)) * U, 0)) u

/-- The weight of the link. -/
noncomputable def linkWeight (b3 : ℝ) (S : Matrix (Fin N) (Fin N) ℂ) (U : SUN N) : ℝ≥0∞ := ENNReal.ofReal (Real.exp (b3 * (U.1 * Sᴴ).trace.re))

theorem linkWeight_measurable (b3 : ℝ) (S : Matrix (Fin N) (Fin N) ℂ) : Measurable (linkWeight b3 S) := by
  have h := (continuous_subtype_val : Continuous fun h : SUN N => h.1)
  have h2 : Continuous fun U : SUN N => (U.1 * Sᴴ).trace := (h.mul continuous_const).matrix_trace
  have h3 : Continuous fun U : SUN N => Real.exp (b3 * (U.1 * Sᴴ).trace.re) := by fun_prop
  exact h3.measurable.ennreal_ofReal

theorem linkWeight_ne (b3 : ℝ) (S : Matrix (Fin N) (Fin N) ℂ) (U : SUN N) : linkWeight b3 S U ≠ 0 := by
  unfold linkWeight
  rw [Ne, ENNReal.ofReal_eq_zero, not_le]
  positivity

/-- The new link has the right distribution among the links the hit can reach. -/
theorem hit_law (haar : Measure (SUN 2)) [IsProbabilityMeasure haar] [haar.IsMulLeftInvariant] {b3 : ℝ} (hb : 0 < b3) (S : Matrix (Fin N) (Fin N) ℂ)
    {pq : Fin N × Fin N} (hpq : pq.1 ≠ pq.2) (U : SUN N) : ∃ (K : ℝ≥0∞) (μ : Measure (SUN N)), LawAt (hitTry b3 S pq U) μ ∧
      ∀ Φ : SUN N → ℝ≥0∞, Measurable Φ → ∫⁻ V, Φ V ∂μ = K * ∫⁻ g, linkWeight b3 S (embSU pq g * U) * Φ (embSU pq g * U) ∂haar := by
  by_cases hz : hitLength (U.1 * Sᴴ) pq = 0 ∨ b3 * hitLength (U.1 * Sᴴ) pq = 0
  · refine ⟨0, 0, fun F _ => ?_, fun Φ _ => by simp⟩
    unfold hitTry
    simp only [if_pos hz, afterRun, lintegral_zero, lintegral_zero_measure]
  · have hz0 : hitLength (U.1 * Sᴴ) pq ≠ 0 := fun e => hz (Or.inl e)
    have hzp : 0 < hitLength (U.1 * Sᴴ) pq := lt_of_le_of_ne (Real.sqrt_nonneg _) (Ne.symm hz0)
    set z := hitLength (U.1 * Sᴴ) pq with hzd
    set V := toSU (subVec (U.1 * Sᴴ) pq) with hV
    obtain ⟨c, hc0, hc⟩ := heatTry_law 40 (mul_pos hb hzp)
    obtain ⟨κ, _, hκ⟩ := point_law haar false hc0 hc
    set ρ := haar.withDensity fun g => ENNReal.ofReal (Real.exp (b3 * z * halfTr g)) with hρ
    have hm : Measurable fun g : SUN 2 => embSU pq (g * V) * U := by
      have := embSU_continuous pq
      exact (by fun_prop : Continuous fun g : SUN 2 => embSU pq (g * V) * U).measurable
    refine ⟨κ * ENNReal.ofReal (Real.exp (-(b3 * ((U.1 * Sᴴ).trace.re - (((U.1 * Sᴴ) pq.1 pq.1).re + ((U.1 * Sᴴ) pq.2 pq.2).re))))),
      (κ • ρ).map (fun g => embSU pq (g * V) * U), fun F hF => ?_, fun Φ hΦ => ?_⟩
    · have e : ∀ u, hitTry b3 S pq U u = thenRun (thenRun (heatTry 40 (b3 * z) u) (ptRun false) u) (fun g _ => some (embSU pq (g * V) * U, 0)) u :=
        fun u => if_neg hz
      simp only [e]
      have hF2 : Measurable fun x : SUN 2 × (ℕ → ℝ) => F (embSU pq (x.1 * V) * U) x.2 := by
        exact hF.comp ((hm.comp measurable_fst).prodMk measurable_snd)
      have := hκ (fun g v => F (embSU pq (g * V) * U) v) hF2
      have hΦ2 : Measurable fun a => ∫⁻ u, F a u ∂uniformStream := hF.lintegral_prod_right'
      rw [lintegral_map hΦ2 hm, ← this]
      refine lintegral_congr fun u => ?_
      rw [afterRun_then]
      congr 1
      funext g v
      simp only [afterRun, shiftBy_zero]
    · have hw : Measurable fun g : SUN 2 => ENNReal.ofReal (Real.exp (b3 * z * halfTr g)) := by
        have := halfTr_continuous.measurable
        fun_prop
      have hm0 : Measurable fun g : SUN 2 => embSU pq g * U := by
        have := embSU_continuous pq
        exact (by fun_prop : Continuous fun g : SUN 2 => embSU pq g * U).measurable
      have hw2 : Measurable fun g : SUN 2 => linkWeight b3 S (embSU pq g * U) * Φ (embSU pq g * U) :=
        ((linkWeight_measurable b3 S).comp hm0).mul (hΦ.comp hm0)
      have hw3 : Measurable fun g : SUN 2 => linkWeight b3 S (embSU pq (g * V) * U) * Φ (embSU pq (g * V) * U) :=
        ((linkWeight_measurable b3 S).comp hm).mul (hΦ.comp hm)
      have hΦm : Measurable fun g : SUN 2 => Φ (embSU pq (g * V) * U) := hΦ.comp hm
      rw [lintegral_map hΦ hm, lintegral_smul_measure, smul_eq_mul, mul_assoc]
      congr 1
      rw [hρ, lintegral_withDensity_eq_lintegral_mul _ hw hΦm, ← invariant_right haar V,
        lintegral_map hw2 (continuous_mul_const V).measurable, invariant_right haar V,
        ← lintegral_const_mul _ hw3]
      refine lintegral_congr fun g => ?_
      simp only [Pi.mul_apply]
      rw [← mul_assoc]
      congr 1
      unfold linkWeight
      rw [← ENNReal.ofReal_mul (Real.exp_nonneg _), ← Real.exp_add]
      congr 2
      have := hit_re_trace (U.1 * Sᴴ) pq hpq hz0 g
      rw [show ((embSU pq (g * V) * U).1 * Sᴴ) = (embSU pq (g * V)).1 * (U.1 * Sᴴ) from Matrix.mul_assoc _ _ _, this]
      ring

theorem hitTry_meas (b3 : ℝ) (S : Matrix (Fin N) (Fin N) ℂ) (pq : Fin N × Fin N) {P : Type} [MeasurableSpace P] (f : P → SUN N) (hf : Measurable f) :
    StreamMeas fun p => hitTry b3 S pq (f p) := by
  have hA : Continuous fun U : SUN N => U.1 * Sᴴ := (continuous_subtype_val : Continuous fun h : SUN N => h.1).mul continuous_const
  have hent : ∀ i j, Measurable fun p => ((f p).1 * Sᴴ) i j := fun i j => (hA.matrix_elem i j).measurable.comp hf
  have hz : Measurable fun p => hitLength ((f p).1 * Sᴴ) pq := hitLength_measurable pq hent
  have hv : Measurable fun p => toSU (subVec ((f p).1 * Sᴴ) pq) := toSU_measurable.comp (subVec_measurable pq hent)
  have hg : StreamMeas fun (x : P × SUN 2) (_ : ℕ → ℝ) => some (embSU pq (x.2 * toSU (subVec ((f x.1).1 * Sᴴ) pq)) * f x.1, 0) := by
    refine StreamMeas.value 0 (fun (x : P × SUN 2) _ => embSU pq (x.2 * toSU (subVec ((f x.1).1 * Sᴴ) pq)) * f x.1) ?_
    have b : Measurable fun x : (P × SUN 2) × (ℕ → ℝ) => toSU (subVec ((f x.1.1).1 * Sᴴ) pq) := hv.comp (measurable_fst.comp measurable_fst)
    have a : Measurable fun x : (P × SUN 2) × (ℕ → ℝ) => x.1.2 * toSU (subVec ((f x.1.1).1 * Sᴴ) pq) := (measurable_snd.comp measurable_fst).mul b
    have c : Measurable fun x : (P × SUN 2) × (ℕ → ℝ) => embSU pq (x.1.2 * toSU (subVec ((f x.1.1).1 * Sᴴ) pq)) :=
      (embSU_continuous pq).measurable.comp a
    exact c.mul (hf.comp (measurable_fst.comp measurable_fst))
  have hp : StreamMeas fun (x : P × ℝ) => ptRun false x.2 :=
    StreamMeas.value 2 (fun (x : P × ℝ) v => toSU (spherePt (angleDir false (2 * Real.pi * v 1)) (2 * v 0 - 1) (1 - x.2)))
      (toSU_pt_measurable false (by fun_prop) (by fun_prop) (by fun_prop))
  have hh := heatTry_meas 40 (fun p => b3 * hitLength ((f p).1 * Sᴴ) pq) (hz.const_mul b3)
  have h1 := StreamMeas.after (q := fun _ => ptRun false) hh hp
  have h2 := StreamMeas.after (q := fun p g _ => some (embSU pq (g * toSU (subVec ((f p).1 * Sᴴ) pq)) * f p, 0)) h1 hg
  exact StreamMeas.guard h2 (fun p => hitLength ((f p).1 * Sᴴ) pq = 0 ∨ b3 * hitLength ((f p).1 * Sᴴ) pq = 0)
    ((measurableSet_eq_fun hz measurable_const).union (measurableSet_eq_fun (hz.const_mul b3) measurable_const))

/-! ### All hits -/

/-- All hits of an update, where in each some trial passes its test. -/
noncomputable def hitsTry (b3 : ℝ) (S : Matrix (Fin N) (Fin N) ℂ) : List (Fin N × Fin N) → SUN N → (ℕ → ℝ) → Option (SUN N × ℕ)
  | [], U, _ => some (U, 0)
  | pq :: l, U, u => thenRun (hitTry b3 S pq U u) (hitsTry b3 S l) u

theorem hitsTry_meas (b3 : ℝ) (S : Matrix (Fin N) (Fin N) ℂ) (l : List (Fin N × Fin N)) {P : Type} [MeasurableSpace P] (f : P → SUN N) (hf : Measurable f) :
    StreamMeas fun p => hitsTry b3 S l (f p) := by
  induction l generalizing P with
  | nil => exact StreamMeas.value 0 (fun p _ => f p) (hf.comp measurable_fst)
  | cons pq l ih =>
    exact StreamMeas.after (q := fun _ => hitsTry b3 S l) (hitTry_meas b3 S pq f hf) (ih Prod.snd measurable_snd)

/-- A choice of the link within the reach of a hit with the right weights keeps the distribution. -/
theorem orbit_keeps (haar : Measure (SUN N)) [IsProbabilityMeasure haar] [haar.IsMulLeftInvariant] (haar2 : Measure (SUN 2)) [IsProbabilityMeasure haar2]
    [haar2.IsMulLeftInvariant] {pq : Fin N × Fin N} (hpq : pq.1 ≠ pq.2) (w H : SUN N → ℝ≥0∞) (hw : Measurable w) (hH : Measurable H) :
    ∫⁻ U, w U * ((∫⁻ g, w (embSU pq g * U) ∂haar2)⁻¹ * ∫⁻ g, w (embSU pq g * U) * H (embSU pq g * U) ∂haar2) ∂haar ≤ ∫⁻ U, w U * H U ∂haar := by
  have hcm : Measurable fun x : SUN N × SUN 2 => embSU pq x.2 * x.1 := ((embSU_continuous pq).measurable.comp measurable_snd).mul measurable_fst
  have hcw : Measurable fun x : SUN N × SUN 2 => w (embSU pq x.2 * x.1) := hw.comp hcm
  have hcH : Measurable fun x : SUN N × SUN 2 => H (embSU pq x.2 * x.1) := hH.comp hcm
  have hmg : ∀ U : SUN N, Measurable fun g : SUN 2 => embSU pq g * U := fun U => (embSU_continuous pq).measurable.mul_const U
  have hmw : ∀ U : SUN N, Measurable fun g : SUN 2 => w (embSU pq g * U) := fun U => hw.comp (hmg U)
  have hmH : ∀ U : SUN N, Measurable fun g : SUN 2 => H (embSU pq g * U) := fun U => hH.comp (hmg U)
  obtain ⟨I, hI⟩ : ∃ I : SUN N → ℝ≥0∞, I = fun U => ∫⁻ g, w (embSU pq g * U) ∂haar2 := ⟨_, rfl⟩
  have hIm : Measurable I := by rw [hI]; exact hcw.lintegral_prod_right'
  have e1 : embSU pq (1 : SUN 2) = 1 := by
    refine Subtype.ext ?_
    rw [embSU_val hpq]
    exact embed_one _ _
  have hinv : ∀ g : SUN 2, embSU pq g⁻¹ = (embSU pq g)⁻¹ := fun g => by
    refine eq_inv_of_mul_eq_one_left ?_
    rw [← embSU_mul hpq, inv_mul_cancel, e1]
  have hIinv : ∀ (k : SUN 2) (U : SUN N), I (embSU pq k * U) = I U := by
    intro k U
    have hm := hmw U
    rw [hI]
    show ∫⁻ g, w (embSU pq g * (embSU pq k * U)) ∂haar2 = ∫⁻ g, w (embSU pq g * U) ∂haar2
    conv_rhs => rw [← invariant_right haar2 k]
    rw [lintegral_map hm (continuous_mul_const k).measurable]
    refine lintegral_congr fun g => ?_
    rw [embSU_mul hpq, mul_assoc]
  have hIi : ∀ U, ∫⁻ g, w ((embSU pq g)⁻¹ * U) ∂haar2 = I U := by
    intro U
    have hm := hmw U
    rw [hI]
    show _ = ∫⁻ g, w (embSU pq g * U) ∂haar2
    conv_rhs => rw [← invariant_inv haar2]
    rw [lintegral_map hm continuous_inv.measurable]
    refine lintegral_congr fun g => ?_
    rw [hinv]
  have step1 : ∀ U, w U * ((∫⁻ g, w (embSU pq g * U) ∂haar2)⁻¹ * ∫⁻ g, w (embSU pq g * U) * H (embSU pq g * U) ∂haar2) =
      ∫⁻ g, w U * (I U)⁻¹ * (w (embSU pq g * U) * H (embSU pq g * U)) ∂haar2 := by
    intro U
    have hm : Measurable fun g : SUN 2 => w (embSU pq g * U) * H (embSU pq g * U) :=
      (hmw U).mul (hmH U)
    rw [lintegral_const_mul _ hm, hI, mul_assoc]
  simp only [step1]
  have hj : Measurable fun x : SUN N × SUN 2 => w x.1 * (I x.1)⁻¹ * (w (embSU pq x.2 * x.1) * H (embSU pq x.2 * x.1)) :=
    ((hw.comp measurable_fst).mul (hIm.comp measurable_fst).inv).mul (hcw.mul hcH)
  rw [lintegral_lintegral_swap hj.aemeasurable]
  have step2 : ∀ g, ∫⁻ U, w U * (I U)⁻¹ * (w (embSU pq g * U) * H (embSU pq g * U)) ∂haar =
      ∫⁻ U, w ((embSU pq g)⁻¹ * U) * ((I U)⁻¹ * (w U * H U)) ∂haar := by
    intro g
    rw [← lintegral_mul_left_eq_self (fun U => w ((embSU pq g)⁻¹ * U) * ((I U)⁻¹ * (w U * H U))) (embSU pq g)]
    refine lintegral_congr fun U => ?_
    rw [inv_mul_cancel_left, hIinv, mul_assoc]
  simp only [step2]
  have hj2 : Measurable fun x : SUN 2 × SUN N => w ((embSU pq x.1)⁻¹ * x.2) * ((I x.2)⁻¹ * (w x.2 * H x.2)) := by
    have a : Measurable fun x : SUN 2 × SUN N => (embSU pq x.1)⁻¹ * x.2 :=
      (((embSU_continuous pq).measurable.comp measurable_fst).inv).mul measurable_snd
    exact (hw.comp a).mul ((hIm.comp measurable_snd).inv.mul ((hw.comp measurable_snd).mul (hH.comp measurable_snd)))
  rw [lintegral_lintegral_swap hj2.aemeasurable]
  refine lintegral_mono fun U => ?_
  have hm : Measurable fun g : SUN 2 => w ((embSU pq g)⁻¹ * U) :=
    hw.comp (((embSU_continuous pq).measurable.inv).mul_const U)
  show ∫⁻ g, w ((embSU pq g)⁻¹ * U) * ((I U)⁻¹ * (w U * H U)) ∂haar2 ≤ w U * H U
  rw [lintegral_mul_const _ hm, hIi, ← mul_assoc]
  calc I U * (I U)⁻¹ * (w U * H U) ≤ 1 * (w U * H U) := mul_le_mul' (ENNReal.mul_inv_le_one _) le_rfl
    _ = w U * H U := one_mul _

/-- The law of a hit is dominated by the choice with the right weights. -/
theorem hit_dom (haar2 : Measure (SUN 2)) [IsProbabilityMeasure haar2] [haar2.IsMulLeftInvariant] {b3 : ℝ} (hb : 0 < b3) (S : Matrix (Fin N) (Fin N) ℂ)
    {pq : Fin N × Fin N} (hpq : pq.1 ≠ pq.2) (U : SUN N) (F : SUN N → (ℕ → ℝ) → ℝ≥0∞) (hF : Measurable fun x : SUN N × (ℕ → ℝ) => F x.1 x.2) :
    ∫⁻ u, afterRun F u (hitTry b3 S pq U u) ∂uniformStream ≤ (∫⁻ g, linkWeight b3 S (embSU pq g * U) ∂haar2)⁻¹ *
      ∫⁻ g, linkWeight b3 S (embSU pq g * U) * ∫⁻ u, F (embSU pq g * U) u ∂uniformStream ∂haar2 := by
  obtain ⟨K, μ, hμ, hK⟩ := hit_law haar2 hb S hpq U
  have h1 : K * ∫⁻ g, linkWeight b3 S (embSU pq g * U) ∂haar2 ≤ 1 := by
    have := hK (fun _ => 1) measurable_const
    simp only [mul_one, lintegral_one] at this
    rw [← this]
    exact hμ.mass_le
  have hΦ : Measurable fun V => ∫⁻ u, F V u ∂uniformStream := hF.lintegral_prod_right'
  rw [hμ F hF, hK _ hΦ]
  exact mul_le_mul' (ENNReal.le_inv_iff_mul_le.2 h1) le_rfl

/-- The hits never favour a set of links over its share in the distribution. -/
theorem hits_dom (haar : Measure (SUN N)) [IsProbabilityMeasure haar] [haar.IsMulLeftInvariant] (haar2 : Measure (SUN 2)) [IsProbabilityMeasure haar2]
    [haar2.IsMulLeftInvariant] {b3 : ℝ} (hb : 0 < b3) (S : Matrix (Fin N) (Fin N) ℂ) (l : List (Fin N × Fin N)) (hl : ∀ pq ∈ l, pq.1 ≠ pq.2)
    (G : SUN N → ℝ≥0∞) (hG : Measurable G) :
    ∫⁻ U, linkWeight b3 S U * ∫⁻ u, afterRun (fun V _ => G V) u (hitsTry b3 S l U u) ∂uniformStream ∂haar ≤ ∫⁻ U, linkWeight b3 S U * G U ∂haar := by
  induction l with
  | nil => simp [hitsTry, afterRun]
  | cons pq l ih =>
    have hpq := hl pq (List.mem_cons_self ..)
    have hm : Measurable fun x : SUN N × (ℕ → ℝ) => afterRun (fun V _ => G V) x.2 (hitsTry b3 S l x.1 x.2) :=
      hitsTry_meas b3 S l (fun U => U) measurable_id (fun _ V _ => G V) (hG.comp (measurable_fst.comp measurable_snd))
    have hH : Measurable fun V => ∫⁻ u, afterRun (fun V _ => G V) u (hitsTry b3 S l V u) ∂uniformStream := hm.lintegral_prod_right'
    refine le_trans (lintegral_mono fun U => ?_) (le_trans (orbit_keeps haar haar2 hpq (linkWeight b3 S) _ (linkWeight_measurable b3 S) hH)
      (ih fun x hx => hl x (List.mem_cons_of_mem _ hx)))
    have e : ∀ u, afterRun (fun V _ => G V) u (hitsTry b3 S (pq :: l) U u) =
        afterRun (fun V v => afterRun (fun V _ => G V) v (hitsTry b3 S l V v)) u (hitTry b3 S pq U u) := fun u => afterRun_then _ _ _ _
    simp only [e]
    exact mul_le_mul' le_rfl (hit_dom haar2 hb S hpq U (fun V v => afterRun (fun V _ => G V) v (hitsTry b3 S l V v)) hm)

/-! ### The program -/

theorem heatbathMatrix_eq (rnd : ℕ → ℝ) (h : ∀ k, 0 ≤ rnd k ∧ rnd k < 1) (d : ℝ) (k : ℕ) (hd : 0 ≤ d ∧ d ≤ 2) :
    (toSU (spherePt (angleDir false (2 * Real.pi * rnd (k + 1))) (2 * rnd k - 1) (1 - d))).1 = (heatbathMatrix rnd d k).toMatrix := by
  have hz : (2 * rnd k - 1) ^ 2 ≤ 1 := by nlinarith [(h k).1, (h k).2]
  have ht : (1 - d) ^ 2 ≤ 1 := by nlinarith [hd.1, hd.2]
  rw [toSU_unit (spherePt_norm _ _ _ _ hz ht)]
  congr 1
  have e1 : |1 - (1 - d) * (1 - d)| = 1 - (1 - d) ^ 2 := by rw [abs_of_nonneg (by nlinarith)]; ring
  unfold heatbathMatrix qOf spherePt angleDir
  simp only [e1, Matrix.cons_val]
  have hr : 0 ≤ 1 - (1 - d) ^ 2 := by linarith
  generalize 1 - (1 - d) ^ 2 = r2 at *
  generalize 2 * rnd k - 1 = z at *
  have e2 : |r2 - z * Real.sqrt r2 * (z * Real.sqrt r2)| = r2 * (1 - z ^ 2) := by
    have hs : Real.sqrt r2 * Real.sqrt r2 = r2 := Real.mul_self_sqrt hr
    have : r2 - z * Real.sqrt r2 * (z * Real.sqrt r2) = r2 * (1 - z ^ 2) := by linear_combination (-z ^ 2) * hs
    rw [this, abs_of_nonneg (mul_nonneg hr (by linarith))]
  rw [e2, Real.sqrt_mul hr]
  simp [mul_comm]

theorem hitTry_spec (rnd : ℕ → ℝ) (h : ∀ k, 0 ≤ rnd k ∧ rnd k < 1) {b3 : ℝ} (hb : 0 < b3) (S : Matrix (Fin N) (Fin N) ℂ) {pq : Fin N × Fin N}
    (hpq : pq.1 ≠ pq.2) (U : SUN N) (k : ℕ) :
    match hitTry b3 S pq U (shiftBy k rnd) with
    | some x => heatbathHit rnd b3 ((U.1, U.1 * Sᴴ), k) pq = some ((x.1.1, x.1.1 * Sᴴ), k + x.2) ∧ HeatAccepts rnd (b3 * hitLength (U.1 * Sᴴ) pq) k
    | none => heatbathHit rnd b3 ((U.1, U.1 * Sᴴ), k) pq = none ∨ ¬ HeatAccepts rnd (b3 * hitLength (U.1 * Sᴴ) pq) k := by
  have hz := hitLength_eq (U.1 * Sᴴ) pq
  have hh : heatbathHit rnd b3 ((U.1, U.1 * Sᴴ), k) pq = if hitLength (U.1 * Sᴴ) pq = 0 ∨ b3 * hitLength (U.1 * Sᴴ) pq = 0 then none else
      some ((multBy2x2Left U.1 pq.1 pq.2 ((heatbathMatrix rnd (heatbathD rnd (b3 * hitLength (U.1 * Sᴴ) pq) k).1
          (heatbathD rnd (b3 * hitLength (U.1 * Sᴴ) pq) k).2).mul ((qOf (subVec (U.1 * Sᴴ) pq)).div (hitLength (U.1 * Sᴴ) pq))).toMatrix,
        multBy2x2Left (U.1 * Sᴴ) pq.1 pq.2 ((heatbathMatrix rnd (heatbathD rnd (b3 * hitLength (U.1 * Sᴴ) pq) k).1
          (heatbathD rnd (b3 * hitLength (U.1 * Sᴴ) pq) k).2).mul ((qOf (subVec (U.1 * Sᴴ) pq)).div (hitLength (U.1 * Sᴴ) pq))).toMatrix),
        (heatbathD rnd (b3 * hitLength (U.1 * Sᴴ) pq) k).2 + 2) := by
    rw [hz]
    rfl
  rw [hh]
  unfold hitTry
  by_cases hg : hitLength (U.1 * Sᴴ) pq = 0 ∨ b3 * hitLength (U.1 * Sᴴ) pq = 0
  · rw [if_pos hg, if_pos hg]
    exact Or.inl rfl
  · rw [if_neg hg, if_neg hg]
    have hz0 : hitLength (U.1 * Sᴴ) pq ≠ 0 := fun e => hg (Or.inl e)
    have hzp : 0 < hitLength (U.1 * Sᴴ) pq := lt_of_le_of_ne (Real.sqrt_nonneg _) (Ne.symm hz0)
    have hV := toSU_sub hz0
    have hspec := heatTry_eq rnd (b3 * hitLength (U.1 * Sᴴ) pq) k
    have hrange := heatbathD_range rnd h _ (mul_pos hb hzp) k
    generalize b3 * hitLength (U.1 * Sᴴ) pq = al at *
    cases ht : heatTry 40 al (shiftBy k rnd) with
    | none =>
      rw [ht] at hspec
      exact Or.inr hspec
    | some x =>
      obtain ⟨d, n⟩ := x
      rw [ht] at hspec
      obtain ⟨hd, hacc⟩ := hspec
      rw [hd]
      rw [hd] at hrange
      have hdr : 0 ≤ d ∧ d ≤ 2 := by
        rcases hrange with hr | ⟨h2, hex⟩
        · exact hr
        · exfalso
          rcases hacc with ha | ⟨_, j, hj, ha⟩ | ⟨h3, _⟩
          · exact absurd (hex 0 (by omega)) (not_le.2 ha)
          · have := hex (j + 1) (by omega)
            rw [show k + 4 * (j + 1) = k + 4 + 4 * j by ring] at this
            exact absurd this (not_le.2 ha)
          · exact h3 h2
      simp only [thenRun, ptRun]
      have hM := heatbathMatrix_eq rnd h d (k + n) hdr
      have e0 : (shiftBy n (shiftBy k rnd)) 0 = rnd (k + n) := by rw [shiftBy_shiftBy]; rfl
      have e1 : (shiftBy n (shiftBy k rnd)) 1 = rnd (k + n + 1) := by rw [shiftBy_shiftBy]; rfl
      rw [e0, e1]
      have hA : ∀ B : Matrix (Fin N) (Fin N) ℂ, multBy2x2Left B pq.1 pq.2
          ((heatbathMatrix rnd d (k + n)).mul ((qOf (subVec (U.1 * Sᴴ) pq)).div (hitLength (U.1 * Sᴴ) pq))).toMatrix =
          (embSU pq (toSU (spherePt (angleDir false (2 * Real.pi * rnd (k + n + 1))) (2 * rnd (k + n) - 1) (1 - d)) * toSU (subVec (U.1 * Sᴴ) pq))).1 * B := by
        intro B
        rw [multBy2x2Left_eq _ _ _ hpq, embSU_val hpq]
        congr 2
        rw [toMatrix_mul, ← hM, ← hV]
        rfl
      refine ⟨?_, hacc⟩
      rw [hA, hA]
      congr 1
      refine Prod.ext (Prod.ext rfl ?_) (by simp only []; omega)
      exact (Matrix.mul_assoc _ _ _).symm

theorem hitsTry_spec (rnd : ℕ → ℝ) (h : ∀ k, 0 ≤ rnd k ∧ rnd k < 1) {b3 : ℝ} (hb : 0 < b3) (S : Matrix (Fin N) (Fin N) ℂ) (l : List (Fin N × Fin N))
    (hl : ∀ pq ∈ l, pq.1 ≠ pq.2) (U : SUN N) (k : ℕ) :
    match hitsTry b3 S l U (shiftBy k rnd) with
    | some x => l.foldlM (heatbathHit rnd b3) ((U.1, U.1 * Sᴴ), k) = some ((x.1.1, x.1.1 * Sᴴ), k + x.2) ∧ HitsAccept rnd b3 l ((U.1, U.1 * Sᴴ), k)
    | none => l.foldlM (heatbathHit rnd b3) ((U.1, U.1 * Sᴴ), k) = none ∨ ¬ HitsAccept rnd b3 l ((U.1, U.1 * Sᴴ), k) := by
  induction l generalizing U k with
  | nil => exact ⟨rfl, trivial⟩
  | cons pq l ih =>
    have h1 := hitTry_spec rnd h hb S (hl pq (List.mem_cons_self ..)) U k
    rw [hitsTry]
    cases ht : hitTry b3 S pq U (shiftBy k rnd) with
    | none =>
      rw [ht] at h1
      rcases h1 with h1 | h1
      · left
        rw [List.foldlM_cons, h1]; rfl
      · right
        exact fun c => h1 c.1
    | some x =>
      obtain ⟨V, n⟩ := x
      rw [ht] at h1
      obtain ⟨h1, ha⟩ := h1
      have h2 := ih (fun x hx => hl x (List.mem_cons_of_mem _ hx)) V (k + n)
      have hf : (pq :: l).foldlM (heatbathHit rnd b3) ((U.1, U.1 * Sᴴ), k) = l.foldlM (heatbathHit rnd b3) ((V.1, V.1 * Sᴴ), k + n) := by
        rw [List.foldlM_cons, h1]; rfl
      rw [hf]
      simp only [thenRun, shiftBy_shiftBy]
      cases ht2 : hitsTry b3 S l V (shiftBy (k + n) rnd) with
      | none =>
        rw [ht2] at h2
        rcases h2 with h2 | h2
        · exact Or.inl h2
        · exact Or.inr fun c => h2 (c.2 _ h1)
      | some y =>
        obtain ⟨W, m⟩ := y
        rw [ht2] at h2
        refine ⟨by rw [h2.1, Nat.add_assoc], ha, fun s' hs' => ?_⟩
        rw [h1] at hs'
        rw [← Option.some.inj hs']
        exact h2.2

end Hila
