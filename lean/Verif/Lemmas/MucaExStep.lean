import Verif.Lemmas.MucaEx

/-!
# Lemmas for C95: the decision with the weight function
-/

set_option linter.unusedSectionVars false

namespace Hila

open MeasureTheory Function ProbabilityTheory
open scoped ENNReal

variable {n : ℕ} {L : Fin n → ℕ} [∀ d, NeZero (L d)]

/-! ### Weights -/

/-- The weight is a continuous function, or infinite behind hard walls. -/
theorem weightFunction_form (hard : Bool) (centers weights : List ℝ) (hs : centers.Pairwise (· < ·)) (hl : weights.length = centers.length) (hne : centers ≠ []) :
    ∃ g : ℝ → ℝ, Continuous g ∧ ∀ x, weightFunction hard centers weights x =
      some (if hard = true ∧ ¬ (centers.head hne < x ∧ x < centers.getLast hne) then .inf else .fin (g x)) := by
  obtain ⟨g, hg, hw⟩ := C25_weight_continuous centers weights hs hl hne
  refine ⟨g, hg, fun x => ?_⟩
  cases hard
  · simp [hw]
  · have hw := hw x
    unfold weightFunction at hw ⊢
    rw [List.head?_eq_some_head hne, List.getLast?_eq_some_getLast hne] at hw ⊢
    dsimp only at hw ⊢
    by_cases h1 : x ≤ centers.head hne
    · simp [h1]
    · by_cases h2 : x ≥ centers.getLast hne
      · simp [h1, h2]
      · rw [if_neg h1, if_neg h2] at hw ⊢
        rw [hw]
        simp [not_le.1 h1, not_le.1 h2]

theorem mucaFactor_measurable (hard : Bool) (centers weights : List ℝ) (hs : centers.Pairwise (· < ·)) (hl : weights.length = centers.length) (hne : centers ≠ []) :
    Measurable (mucaFactor hard centers weights) := by
  obtain ⟨g, hg, hw⟩ := weightFunction_form hard centers weights hs hl hne
  have e : mucaFactor hard centers weights = fun x => if hard = true ∧ ¬ (centers.head hne < x ∧ x < centers.getLast hne) then 0 else
      ENNReal.ofReal (Real.exp (-g x)) := by
    funext x
    unfold mucaFactor
    rw [hw]
    split
    · next h =>
      split at h
      · cases h
      · next h' => rw [if_neg h']; cases h; rfl
    · next h =>
      split
      · rfl
      · next h' => exact absurd (by rw [if_neg h']) (h (g x))
  rw [e]
  have hg := hg.measurable
  refine Measurable.ite ?_ measurable_const (by fun_prop)
  refine (MeasurableSet.const _).inter (MeasurableSet.compl ?_)
  exact (measurableSet_lt measurable_const measurable_id).inter (measurableSet_lt measurable_id measurable_const)

theorem mucaFactor_ne_top (hard : Bool) (centers weights : List ℝ) (x : ℝ) : mucaFactor hard centers weights x ≠ ∞ := by
  unfold mucaFactor
  split <;> simp

/-- The decision in terms of the weights. -/
theorem acceptReject_factor (hard : Bool) (centers weights : List ℝ) (hs : centers.Pairwise (· < ·)) (hl : weights.length = centers.length) (hne : centers ≠ [])
    (old new r : ℝ) : acceptReject mcLog hard centers weights old new r =
      some (decide (ENNReal.ofReal |r| * mucaFactor hard centers weights old < mucaFactor hard centers weights new)) := by
  obtain ⟨wo, ho, -⟩ := weightFunction_defined hard centers weights hs hl hne old
  obtain ⟨wn, hn, -⟩ := weightFunction_defined hard centers weights hs hl hne new
  unfold acceptReject mucaFactor
  rw [ho, hn]
  simp only [Option.bind_eq_bind, Option.bind_some, Option.some.injEq]
  cases wo with
  | inf =>
    cases wn with
    | inf => simp [logP, acceptTest]
    | fin b => simp [logP, acceptTest, Real.exp_pos]
  | fin a =>
    cases wn with
    | inf => simp [logP, acceptTest]
    | fin b =>
      simp only [logP, acceptTest, mcLog]
      by_cases h0 : r = 0
      · simp [h0, Real.exp_pos]
      · rw [if_neg h0]
        dsimp only
        rw [← ENNReal.ofReal_mul (abs_nonneg r), decide_eq_decide, ENNReal.ofReal_lt_ofReal_iff (Real.exp_pos _), ← Real.log_abs,
          Real.log_lt_iff_lt_exp (abs_pos.2 h0), show -(b - a) = -b - -a by ring, Real.exp_sub, lt_div_iff₀ (Real.exp_pos _)]

/-- Integral over the number of the decision. -/
theorem decide_lintegral (b b' : ℝ≥0∞) (hb : b ≠ ∞) (hb' : b' ≠ ∞) (y y' : ℝ≥0∞) :
    b * ∫⁻ r, (if ENNReal.ofReal |r| * b < b' then y' else y) ∂unif01 = min b b' * y' + (b - min b b') * y := by
  by_cases h0 : b = 0
  · simp [h0]
  have e : ∫⁻ r, (if ENNReal.ofReal |r| * b < b' then y' else y) ∂unif01 = ∫⁻ r in Set.Ico (0 : ℝ) 1, (if r < b'.toReal / b.toReal then y' else y) := by
    unfold unif01
    refine setLIntegral_congr_fun measurableSet_Ico fun r hr => ?_
    have hp : 0 < b.toReal := ENNReal.toReal_pos h0 hb
    have : ENNReal.ofReal |r| * b < b' ↔ r < b'.toReal / b.toReal := by
      rw [abs_of_nonneg hr.1, lt_div_iff₀ hp, ← ENNReal.ofReal_toReal hb, ← ENNReal.ofReal_toReal hb', ← ENNReal.ofReal_mul hr.1,
        ENNReal.ofReal_lt_ofReal_iff', ENNReal.toReal_ofReal ENNReal.toReal_nonneg, ENNReal.toReal_ofReal ENNReal.toReal_nonneg]
      constructor
      · exact fun h => h.1
      · exact fun h => ⟨h, (mul_nonneg hr.1 hp.le).trans_lt h⟩
    simp only [this]
  have hq : (0 : ℝ) ≤ b'.toReal / b.toReal := div_nonneg ENNReal.toReal_nonneg ENNReal.toReal_nonneg
  have hp : 0 < b.toReal := ENNReal.toReal_pos h0 hb
  rw [e, accept_lintegral _ hq, mul_add, ← mul_assoc, ← mul_assoc]
  have e1 : b * ENNReal.ofReal (min 1 (b'.toReal / b.toReal)) = min b b' := by
    rw [show b * ENNReal.ofReal (min 1 (b'.toReal / b.toReal)) = ENNReal.ofReal b.toReal * ENNReal.ofReal (min 1 (b'.toReal / b.toReal)) by
      rw [ENNReal.ofReal_toReal hb]]
    rw [← ENNReal.ofReal_mul hp.le, mul_min_of_nonneg _ _ hp.le, mul_one, mul_div_cancel₀ _ hp.ne', ENNReal.ofReal_min,
      ENNReal.ofReal_toReal hb, ENNReal.ofReal_toReal hb']
  have e2 : b * ENNReal.ofReal (1 - min 1 (b'.toReal / b.toReal)) = b - min b b' := by
    rw [ENNReal.ofReal_sub _ (le_min zero_le_one hq), ENNReal.mul_sub (fun _ _ => hb), e1, ENNReal.ofReal_one, mul_one]
  rw [e1, e2]

/-! ### The update -/

variable {par : Parity}

theorem mcPropose_measurable (hL : ∀ d, Even (L d)) (hp : par = .even ∨ par = .odd) :
    Measurable fun p : (PSite L → ℝ) × (PSite L → ℝ × ℝ) => mcPropose par p.1 (fun x => (p.2 x).1) fun x => (p.2 x).2 :=
  (mcNew_measurable hL hp).comp (MeasurableEquiv.arrowProdEquivProdArrow ℝ (ℝ × ℝ) (PSite L)).symm.measurable

/-- Old field and proposed field can be exchanged. -/
theorem mc_reversible' (hL : ∀ d, Even (L d)) (hp : par = .even ∨ par = .odd) {F : (PSite L → ℝ) × (PSite L → ℝ) → ℝ≥0∞} (hF : Measurable F) :
    ∫⁻ p, ENNReal.ofReal (Real.exp (-phi4Action p.1)) * F (p.1, mcPropose par p.1 (fun x => (p.2 x).1) fun x => (p.2 x).2) ∂(volume.prod (siteNoise L)) =
      ∫⁻ p, ENNReal.ofReal (Real.exp (-phi4Action p.1)) * F (mcPropose par p.1 (fun x => (p.2 x).1) fun x => (p.2 x).2, p.1) ∂(volume.prod (siteNoise L)) := by
  have hm := mcPropose_measurable (L := L) hL hp
  have hS := phi4Action_measurable (L := L)
  have hmp := measurePreserving_arrowProdEquivProdArrow ℝ (ℝ × ℝ) (PSite L) (fun _ => (volume : Measure ℝ)) (fun _ => (gaussianReal 0 1).prod unif01)
  have m1 : Measurable fun p : (PSite L → ℝ) × (PSite L → ℝ × ℝ) =>
      ENNReal.ofReal (Real.exp (-phi4Action p.1)) * F (p.1, mcPropose par p.1 (fun x => (p.2 x).1) fun x => (p.2 x).2) :=
    (hS.comp measurable_fst).neg.exp.ennreal_ofReal.mul (hF.comp (measurable_fst.prodMk hm))
  have m2 : Measurable fun p : (PSite L → ℝ) × (PSite L → ℝ × ℝ) =>
      ENNReal.ofReal (Real.exp (-phi4Action p.1)) * F (mcPropose par p.1 (fun x => (p.2 x).1) fun x => (p.2 x).2, p.1) :=
    (hS.comp measurable_fst).neg.exp.ennreal_ofReal.mul (hF.comp (hm.prodMk measurable_fst))
  have h1 := hmp.lintegral_comp m1
  have h2 := hmp.lintegral_comp m2
  unfold siteNoise
  rw [volume_pi, ← h1, ← h2]
  exact mc_reversible hL hp hF

theorem mcUpdate_eq (hard : Bool) (centers weights : List ℝ) (hs : centers.Pairwise (· < ·)) (hl : weights.length = centers.length) (hne : centers ≠ [])
    (phi delta u : PSite L → ℝ) (r : ℝ) : mcUpdate hard centers weights par phi delta u r =
      some (if ENNReal.ofReal |r| * mucaFactor hard centers weights (mcOrder phi) < mucaFactor hard centers weights (mcOrder (mcPropose par phi delta u))
        then mcPropose par phi delta u else phi) := by
  unfold mcUpdate
  simp only
  rw [acceptReject_factor hard centers weights hs hl hne]
  simp

theorem mcOrder_card (phi : PSite L → ℝ) : mcOrder phi = (∑ x, phi x) / (Fintype.card (PSite L)) := by
  unfold mcOrder
  congr 2
  rw [Fintype.card_pi]
  exact Finset.prod_congr rfl fun d _ => (ZMod.card (L d)).symm

theorem mcOrder_measurable : Measurable (mcOrder : (PSite L → ℝ) → ℝ) := by
  unfold mcOrder
  fun_prop

/-- A decision after a proposal whose old and new field can be exchanged. -/
theorem decide_keeps {C Ω : Type} [MeasurableSpace C] [MeasurableSpace Ω] (μ : Measure C) [SFinite μ] (ν : Measure Ω) [SFinite ν] (E B : C → ℝ≥0∞)
    (hE : Measurable E) (hB : Measurable B) (hBt : ∀ x, B x ≠ ∞) (q : C × Ω → C) (hq : Measurable q)
    (hrev : ∀ F : C × C → ℝ≥0∞, Measurable F → ∫⁻ p, E p.1 * F (p.1, q p) ∂(μ.prod ν) = ∫⁻ p, E p.1 * F (q p, p.1) ∂(μ.prod ν)) [IsProbabilityMeasure ν] :
    KeepsDistribution (ν.prod unif01) ((μ.withDensity E).withDensity B)
      fun z => if ENNReal.ofReal |z.2.2| * B z.1 < B (q (z.1, z.2.1)) then q (z.1, z.2.1) else z.1 := by
  have hq' : Measurable fun z : C × Ω × ℝ => q (z.1, z.2.1) := hq.comp (measurable_fst.prodMk (measurable_fst.comp measurable_snd))
  have hU : Measurable fun z : C × Ω × ℝ => if ENNReal.ofReal |z.2.2| * B z.1 < B (q (z.1, z.2.1)) then q (z.1, z.2.1) else z.1 := by
    refine Measurable.ite (measurableSet_lt ?_ (hB.comp hq')) hq' measurable_fst
    exact (measurable_snd.comp measurable_snd).abs.ennreal_ofReal.mul (hB.comp measurable_fst)
  refine ⟨hU, Measure.ext_of_lintegral _ fun f hf => ?_⟩
  have hfU : Measurable fun z : C × Ω × ℝ => f (if ENNReal.ofReal |z.2.2| * B z.1 < B (q (z.1, z.2.1)) then q (z.1, z.2.1) else z.1) := hf.comp hU
  rw [lintegral_map hf hU, lintegral_prod _ hfU.aemeasurable]
  have hin : Measurable fun x : C => ∫⁻ w : Ω × ℝ, f (if ENNReal.ofReal |w.2| * B x < B (q (x, w.1)) then q (x, w.1) else x) ∂(ν.prod unif01) :=
    (hf.comp hU).lintegral_prod_right'
  rw [lintegral_withDensity_eq_lintegral_mul _ hB hin, lintegral_withDensity_eq_lintegral_mul _ hE (hB.mul hin),
    lintegral_withDensity_eq_lintegral_mul _ hB hf, lintegral_withDensity_eq_lintegral_mul _ hE (hB.mul hf)]
  simp only [Pi.mul_apply]
  -- the decision at fixed old and new field
  have h1 : ∀ x, B x * ∫⁻ w : Ω × ℝ, f (if ENNReal.ofReal |w.2| * B x < B (q (x, w.1)) then q (x, w.1) else x) ∂(ν.prod unif01) =
      ∫⁻ ω, (min (B x) (B (q (x, ω))) * f (q (x, ω)) + (B x - min (B x) (B (q (x, ω)))) * f x) ∂ν := by
    intro x
    have hx : Measurable fun w : Ω × ℝ => f (if ENNReal.ofReal |w.2| * B x < B (q (x, w.1)) then q (x, w.1) else x) :=
      (hf.comp hU).comp (measurable_const.prodMk measurable_id)
    rw [lintegral_prod _ hx.aemeasurable, ← lintegral_const_mul _ hx.lintegral_prod_right']
    refine lintegral_congr fun ω => ?_
    rw [← decide_lintegral _ _ (hBt _) (hBt _)]
    congr 1
    refine lintegral_congr fun r => ?_
    dsimp only
    split <;> rfl
  simp only [h1]
  have mE : Measurable fun p : C × Ω => E p.1 := hE.comp measurable_fst
  have mB : Measurable fun p : C × Ω => B p.1 := hB.comp measurable_fst
  have mBq : Measurable fun p : C × Ω => B (q p) := hB.comp hq
  have mfq : Measurable fun p : C × Ω => f (q p) := hf.comp hq
  have mf : Measurable fun p : C × Ω => f p.1 := hf.comp measurable_fst
  have mI : Measurable fun p : C × Ω => min (B p.1) (B (q p)) * f (q p) + (B p.1 - min (B p.1) (B (q p))) * f p.1 :=
    ((mB.min mBq).mul mfq).add ((mB.sub (mB.min mBq)).mul mf)
  have h2 : ∀ g : C × Ω → ℝ≥0∞, Measurable g → ∫⁻ x, E x * ∫⁻ ω, g (x, ω) ∂ν ∂μ = ∫⁻ p, E p.1 * g p ∂(μ.prod ν) := by
    intro g hg
    have mg : Measurable fun p : C × Ω => E p.1 * g p := mE.mul hg
    rw [lintegral_prod _ mg.aemeasurable]
    refine lintegral_congr fun x => ?_
    have mx : Measurable fun ω => g (x, ω) := hg.comp (measurable_const.prodMk measurable_id)
    exact (lintegral_const_mul _ mx).symm
  rw [h2 _ mI]
  have h3 : ∫⁻ x, E x * (B x * f x) ∂μ = ∫⁻ p, E p.1 * (B p.1 * f p.1) ∂(μ.prod ν) := by
    rw [← h2 (fun p => B p.1 * f p.1) (mB.mul mf)]
    simp
  rw [h3]
  simp only [mul_add]
  have mm : Measurable fun c : C × C => min (B c.1) (B c.2) * f c.2 :=
    ((hB.comp measurable_fst).min (hB.comp measurable_snd)).mul (hf.comp measurable_snd)
  have hr := hrev (fun c => min (B c.1) (B c.2) * f c.2) mm
  dsimp only at hr
  have m1 : Measurable fun p : C × Ω => E p.1 * (min (B p.1) (B (q p)) * f (q p)) := mE.mul ((mB.min mBq).mul mfq)
  have m2 : Measurable fun p : C × Ω => E p.1 * (min (B (q p)) (B p.1) * f p.1) := mE.mul ((mBq.min mB).mul mf)
  rw [lintegral_add_left m1, hr, ← lintegral_add_left m2]
  refine lintegral_congr fun p => ?_
  rw [← mul_add, ← add_mul, min_comm (B (q p)), add_tsub_cancel_of_le (min_le_left _ _)]

end Hila
