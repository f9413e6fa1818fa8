import Verif.Lemmas.HeatHit

/-!
# C87: the heat bath samples the right distribution
-/

namespace Hila

open MeasureTheory ProbabilityTheory Set Matrix
open scoped ENNReal

variable {N : ℕ}

theorem stream_ae : ∀ᵐ u ∂uniformStream, ∀ k, 0 ≤ u k ∧ u k < 1 := by
  rw [ae_all_iff]
  intro k
  exact (measurePreserving_eval_infinitePi (fun _ : ℕ => unif01) k).quasiMeasurePreserving.ae unif_ae

theorem exists_haar (N : ℕ) : ∃ μ : Measure (SUN N), IsProbabilityMeasure μ ∧ μ.IsMulLeftInvariant := by
  refine ⟨Measure.haarMeasure ⊤, ⟨?_⟩, inferInstance⟩
  exact Measure.haarMeasure_self

theorem linkAction_continuous (S : Matrix (Fin N) (Fin N) ℂ) : Continuous fun U : SUN N => (U.1 * Sᴴ).trace.re := by
  have h := (continuous_subtype_val : Continuous fun h : SUN N => h.1)
  have h2 : Continuous fun U : SUN N => (U.1 * Sᴴ).trace := (h.mul continuous_const).matrix_trace
  fun_prop

/-- The weights of a continuous action on a compact group can be normalised. -/
theorem normalised_prob (haar : Measure (SUN N)) [IsProbabilityMeasure haar] (S : SUN N → ℝ) (hS : Continuous S) :
    boltzmann haar S univ ≠ 0 ∧ boltzmann haar S univ ≠ ⊤ ∧ IsProbabilityMeasure (normalised (boltzmann haar S)) := by
  have hc : Continuous fun U : SUN N => Real.exp (-S U) := by fun_prop
  have h0 : boltzmann haar S univ ≠ 0 := by
    unfold boltzmann
    rw [withDensity_apply _ MeasurableSet.univ, Measure.restrict_univ, Ne, lintegral_eq_zero_iff hc.measurable.ennreal_ofReal]
    intro e
    have : ∀ᵐ _ ∂haar, False := by
      filter_upwards [e] with U hU
      have hp := Real.exp_pos (-S U)
      simp only [Pi.zero_apply, ENNReal.ofReal_eq_zero] at hU
      linarith
    rw [Filter.eventually_false_iff_eq_bot, ae_eq_bot] at this
    exact IsProbabilityMeasure.ne_zero haar this
  have ht : boltzmann haar S univ ≠ ⊤ := by
    unfold boltzmann
    rw [withDensity_apply _ MeasurableSet.univ, Measure.restrict_univ]
    obtain ⟨M, hM⟩ := (isCompact_range hc).bddAbove
    have : ∫⁻ U, ENNReal.ofReal (Real.exp (-S U)) ∂haar ≤ ∫⁻ _, ENNReal.ofReal M ∂haar :=
      lintegral_mono fun U => ENNReal.ofReal_le_ofReal (hM ⟨U, rfl⟩)
    rw [lintegral_const, measure_univ, mul_one] at this
    exact ne_top_of_le_ne_top ENNReal.ofReal_ne_top this
  refine ⟨h0, ht, ⟨?_⟩⟩
  unfold normalised
  rw [Measure.smul_apply, smul_eq_mul]
  exact ENNReal.inv_mul_cancel h0 ht

/-- The distribution of a link with staple `S`. -/
noncomputable def linkLaw (haar : Measure (SUN N)) (beta : ℝ) (S : Matrix (Fin N) (Fin N) ℂ) : Measure (SUN N) :=
  normalised (boltzmann haar fun U => -(beta / N * (U.1 * Sᴴ).trace.re))

theorem linkLaw_prob (haar : Measure (SUN N)) [IsProbabilityMeasure haar] (beta : ℝ) (S : Matrix (Fin N) (Fin N) ℂ) :
    IsProbabilityMeasure (linkLaw haar beta S) := by
  have := linkAction_continuous S
  exact (normalised_prob haar (fun U => -(beta / N * (U.1 * Sᴴ).trace.re)) (by fun_prop)).2.2

theorem lintegral_linkLaw (haar : Measure (SUN N)) (beta : ℝ) (S : Matrix (Fin N) (Fin N) ℂ) (f : SUN N → ℝ≥0∞) (hf : Measurable f) :
    ∫⁻ U, f U ∂linkLaw haar beta S =
      (boltzmann haar (fun U => -(beta / N * (U.1 * Sᴴ).trace.re)) univ)⁻¹ * ∫⁻ U, linkWeight (beta / N) S U * f U ∂haar := by
  unfold linkLaw normalised
  rw [lintegral_smul_measure, smul_eq_mul]
  congr 1
  have e : boltzmann haar (fun U => -(beta / N * (U.1 * Sᴴ).trace.re)) = haar.withDensity (linkWeight (beta / N) S) := by
    unfold boltzmann
    congr 1
    funext U
    unfold linkWeight
    rw [neg_neg]
  rw [e, lintegral_withDensity_eq_lintegral_mul _ (linkWeight_measurable _ S) hf]
  rfl

/-- The program with a result, every hit accepted. -/
theorem suNHeatbath_spec (u : ℕ → ℝ) (hu : ∀ k, 0 ≤ u k ∧ u k < 1) {beta : ℝ} (hb : 0 < beta / N) (S : Matrix (Fin N) (Fin N) ℂ) (U : SUN N) :
    match hitsTry (beta / N) S (subgroups N) U u with
    | some x => suNHeatbath u beta U.1 S = some x.1.1 ∧ UpdateAccepts u beta U.1 S
    | none => suNHeatbath u beta U.1 S = none ∨ ¬ UpdateAccepts u beta U.1 S := by
  have h := hitsTry_spec u hu hb S (subgroups N) (fun pq hpq => subgroups_ne pq hpq) U 0
  rw [shiftBy_zero] at h
  cases ht : hitsTry (beta / N) S (subgroups N) U u with
  | none =>
    rw [ht] at h
    rcases h with h | h
    · left; unfold suNHeatbath; rw [h]; rfl
    · exact Or.inr h
  | some x =>
    rw [ht] at h
    refine ⟨?_, h.2⟩
    unfold suNHeatbath
    rw [h.1]
    rfl

/-- **C87 (heat bath for SU(N)).** Let the link before the update have the distribution with weight `exp(beta/N Re Tr U S†)`, for any N, staple, positive
coupling, and let the random numbers be independent and uniform. Then for every set `B` of links the probability that every hit of the update accepts one of its
trials and that the new link is in `B` is at most the probability of `B` in this distribution, and it is smaller at most by the probability that the update has
no result or that in some hit all trials fail. Missing (`_partial`): in that case the update goes on with the last trial, which can leave the group,
see `C48_heatbath_leaves_group`. -/
theorem C87_heatbath_partial (haar : Measure (SUN N)) [IsProbabilityMeasure haar] [haar.IsMulLeftInvariant] (beta : ℝ) (hbeta : 0 < beta) (hN : 0 < N)
    (S : Matrix (Fin N) (Fin N) ℂ) (B : Set (SUN N)) (hB : MeasurableSet B) :
    let π := normalised (boltzmann haar fun U => -(beta / N * (U.1 * Sᴴ).trace.re))
    let hit := (π.prod uniformStream) {x | UpdateAccepts x.2 beta x.1.1 S ∧ ∃ V ∈ B, suNHeatbath x.2 beta x.1.1 S = some V.1}
    let fail := (π.prod uniformStream) {x | ¬ (UpdateAccepts x.2 beta x.1.1 S ∧ ∃ V, suNHeatbath x.2 beta x.1.1 S = some V)}
    hit ≤ π B ∧ π B ≤ hit + fail := by
  have hb : 0 < beta / N := div_pos hbeta (by exact_mod_cast hN)
  have hp : IsProbabilityMeasure (linkLaw haar beta S) := linkLaw_prob haar beta S
  intro π hit fail
  change IsProbabilityMeasure π at hp
  obtain ⟨haar2, hp2, hi2⟩ := exists_haar 2
  -- the event in terms of the accepted trials
  have hset : ∀ B : Set (SUN N), MeasurableSet B →
      (π.prod uniformStream) {x | UpdateAccepts x.2 beta x.1.1 S ∧ ∃ V ∈ B, suNHeatbath x.2 beta x.1.1 S = some V.1} =
        ∫⁻ U, ∫⁻ u, afterRun (fun V _ => B.indicator 1 V) u (hitsTry (beta / N) S (subgroups N) U u) ∂uniformStream ∂π := by
    intro B hB
    have hm : Measurable fun x : SUN N × (ℕ → ℝ) => afterRun (fun V _ => B.indicator 1 V) x.2 (hitsTry (beta / N) S (subgroups N) x.1 x.2) :=
      hitsTry_meas (beta / N) S (subgroups N) (fun U => U) measurable_id (fun _ V _ => B.indicator 1 V)
        (((measurable_one.indicator hB)).comp (measurable_fst.comp measurable_snd))
    have hE : MeasurableSet {x : SUN N × (ℕ → ℝ) | afterRun (fun V _ => B.indicator 1 V) x.2 (hitsTry (beta / N) S (subgroups N) x.1 x.2) = 1} :=
      measurableSet_eq_fun hm measurable_const
    have h1 : ∀ᵐ x ∂π.prod uniformStream, (x ∈ {x : SUN N × (ℕ → ℝ) | UpdateAccepts x.2 beta x.1.1 S ∧ ∃ V ∈ B, suNHeatbath x.2 beta x.1.1 S = some V.1}) ↔
        (x ∈ {x : SUN N × (ℕ → ℝ) | afterRun (fun V _ => B.indicator 1 V) x.2 (hitsTry (beta / N) S (subgroups N) x.1 x.2) = 1}) := by
      filter_upwards [Measure.quasiMeasurePreserving_snd.ae stream_ae] with x hx
      have h := suNHeatbath_spec x.2 hx hb S x.1
      show (UpdateAccepts x.2 beta x.1.1 S ∧ ∃ V ∈ B, suNHeatbath x.2 beta x.1.1 S = some V.1) ↔
        afterRun (fun V _ => B.indicator 1 V) x.2 (hitsTry (beta / N) S (subgroups N) x.1 x.2) = 1
      cases ht : hitsTry (beta / N) S (subgroups N) x.1 x.2 with
      | none =>
        rw [ht] at h
        simp only [afterRun]
        constructor
        · rintro ⟨ha, V, _, hV⟩
          rcases h with h | h
          · rw [h] at hV; cases hV
          · exact absurd ha h
        · intro c; exact absurd c (by norm_num)
      | some y =>
        obtain ⟨V, n⟩ := y
        rw [ht] at h
        simp only [afterRun]
        constructor
        · rintro ⟨_, W, hW, hVW⟩
          rw [h.1] at hVW
          have : V = W := Subtype.ext (Option.some.inj hVW)
          rw [this, indicator_of_mem hW]
          rfl
        · intro c
          refine ⟨h.2, V, ?_, h.1⟩
          by_contra hV
          rw [indicator_of_notMem hV] at c
          exact absurd c (by norm_num)
    rw [measure_congr (Filter.eventuallyEq_set.2 h1), Measure.prod_apply hE]
    refine lintegral_congr fun U => ?_
    have hEU : MeasurableSet (Prod.mk U ⁻¹' {x : SUN N × (ℕ → ℝ) | afterRun (fun V _ => B.indicator 1 V) x.2 (hitsTry (beta / N) S (subgroups N) x.1 x.2) = 1}) :=
      measurable_prodMk_left hE
    rw [← lintegral_indicator_one hEU]
    refine lintegral_congr fun u => ?_
    by_cases h1 : afterRun (fun V _ => B.indicator 1 V) u (hitsTry (beta / N) S (subgroups N) U u) = 1
    · rw [h1]
      exact indicator_of_mem (by exact h1) _
    · have h0 : afterRun (fun V _ => B.indicator 1 V) u (hitsTry (beta / N) S (subgroups N) U u) = 0 := by
        cases ht : hitsTry (beta / N) S (subgroups N) U u with
        | none => rfl
        | some y =>
          rw [ht] at h1
          exact indicator_of_notMem (fun hy => h1 (indicator_of_mem hy _)) _
      rw [h0]
      exact indicator_of_notMem (by exact h1) _
  have hdom : ∀ B : Set (SUN N), MeasurableSet B →
      (π.prod uniformStream) {x | UpdateAccepts x.2 beta x.1.1 S ∧ ∃ V ∈ B, suNHeatbath x.2 beta x.1.1 S = some V.1} ≤ π B := by
    intro B hB
    rw [hset B hB]
    have hm : Measurable fun x : SUN N × (ℕ → ℝ) => afterRun (fun V _ => B.indicator 1 V) x.2 (hitsTry (beta / N) S (subgroups N) x.1 x.2) :=
      hitsTry_meas (beta / N) S (subgroups N) (fun U => U) measurable_id (fun _ V _ => B.indicator 1 V)
        (((measurable_one.indicator hB)).comp (measurable_fst.comp measurable_snd))
    have h1 := lintegral_linkLaw haar beta S _ (hm.lintegral_prod_right' (ν := uniformStream))
    have h2 := lintegral_linkLaw haar beta S _ (measurable_one.indicator hB : Measurable (B.indicator (1 : SUN N → ℝ≥0∞)))
    rw [lintegral_indicator_one hB] at h2
    refine le_trans (le_of_eq h1) (le_trans ?_ (le_of_eq h2.symm))
    exact mul_le_mul' le_rfl (hits_dom haar haar2 hb S (subgroups N) (fun pq hpq => subgroups_ne pq hpq) _ (measurable_one.indicator hB))
  refine ⟨hdom B hB, ?_⟩
  have hcov : ∀ᵐ x ∂π.prod uniformStream, x ∈ ({x | UpdateAccepts x.2 beta x.1.1 S ∧ ∃ V ∈ B, suNHeatbath x.2 beta x.1.1 S = some V.1} ∪
      {x : SUN N × (ℕ → ℝ) | ¬ (UpdateAccepts x.2 beta x.1.1 S ∧ ∃ V, suNHeatbath x.2 beta x.1.1 S = some V)}) ∪
      {x | UpdateAccepts x.2 beta x.1.1 S ∧ ∃ V ∈ Bᶜ, suNHeatbath x.2 beta x.1.1 S = some V.1} := by
    filter_upwards [Measure.quasiMeasurePreserving_snd.ae stream_ae] with x hx
    have h := suNHeatbath_spec x.2 hx hb S x.1
    by_cases hd : UpdateAccepts x.2 beta x.1.1 S ∧ ∃ V, suNHeatbath x.2 beta x.1.1 S = some V
    · obtain ⟨ha, V, hV⟩ := hd
      cases ht : hitsTry (beta / N) S (subgroups N) x.1 x.2 with
      | none =>
        rw [ht] at h
        rcases h with h | h
        · rw [h] at hV; cases hV
        · exact absurd ha h
      | some y =>
        rw [ht] at h
        by_cases hy : y.1 ∈ B
        · exact Or.inl (Or.inl ⟨ha, y.1, hy, h.1⟩)
        · exact Or.inr ⟨ha, y.1, hy, h.1⟩
    · exact Or.inl (Or.inr hd)
  have h1 : (1 : ℝ≥0∞) ≤ hit + fail + π Bᶜ := by
    have e : (1 : ℝ≥0∞) = (π.prod uniformStream) univ := measure_univ.symm
    rw [e]
    refine le_trans (measure_mono_ae ?_) (le_trans (measure_union_le _ _) (add_le_add (measure_union_le _ _) (hdom _ hB.compl)))
    filter_upwards [hcov] with x hx _
    exact hx
  rw [← prob_add_prob_compl (μ := π) hB] at h1
  exact (ENNReal.add_le_add_iff_right (measure_ne_top π _)).1 h1

end Hila
