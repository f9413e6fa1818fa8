import Verif.Lemmas.MucaExStep

/-!
# C95: the multicanonical example samples `exp(-S - W)`
-/

set_option linter.unusedSectionVars false

namespace Hila

open MeasureTheory ProbabilityTheory
open scoped ENNReal

variable {n : ℕ} {L : Fin n → ℕ} [∀ d, NeZero (L d)]

/-- **C95 (local action).** A change of the field at one site changes the action by the change of the local action there. -/
theorem C95_local_action (hL : ∀ d, Even (L d)) (phi : PSite L → ℝ) (x : PSite L) (v : ℝ) :
    phi4Action (Function.update phi x v) - phi4Action phi = mcLocalAction (Function.update phi x v) x - mcLocalAction phi x := by
  have h1 := phi4Action_update hL phi x v
  have h2 := phi4Action_update hL phi x (phi x)
  rw [Function.update_eq_self] at h2
  have e : siteAction (Function.update phi x v) x = siteAction phi x :=
    siteAction_congr (fun d => Function.update_of_ne (site_sub_ne hL d x) _ _) fun d => Function.update_of_ne (site_add_ne hL d x) _ _
  rw [mcLocal_eq, mcLocal_eq, e, Function.update_self]
  linarith

/-- **C95 (proposal).** If the fields have the distribution `exp(-S)`, the pair of old and proposed field has the same distribution in both orders: without the
last decision the program would sample `exp(-S)`, and the proposal is as likely in one direction as in the other. -/
theorem C95_proposal (hL : ∀ d, Even (L d)) (par : Parity) (hp : par = .even ∨ par = .odd) :
    ((boltzmann volume (phi4Action (L := L))).prod (siteNoise L)).map (fun p => (p.1, mcPropose par p.1 (fun x => (p.2 x).1) fun x => (p.2 x).2)) =
      ((boltzmann volume (phi4Action (L := L))).prod (siteNoise L)).map (fun p => (mcPropose par p.1 (fun x => (p.2 x).1) fun x => (p.2 x).2, p.1)) := by
  have hm := mcPropose_measurable (L := L) hL hp
  have hS : Measurable fun phi : PSite L → ℝ => ENNReal.ofReal (Real.exp (-phi4Action phi)) := phi4Action_measurable.neg.exp.ennreal_ofReal
  haveI : SFinite (siteNoise L) := by unfold siteNoise; infer_instance
  refine Measure.ext_of_lintegral _ fun F hF => ?_
  rw [lintegral_map hF (measurable_fst.prodMk hm), lintegral_map hF (hm.prodMk measurable_fst)]
  have key : ∀ g : (PSite L → ℝ) × (PSite L → ℝ × ℝ) → ℝ≥0∞, Measurable g →
      ∫⁻ p, g p ∂((boltzmann volume (phi4Action (L := L))).prod (siteNoise L)) =
        ∫⁻ p, ENNReal.ofReal (Real.exp (-phi4Action p.1)) * g p ∂(volume.prod (siteNoise L)) := by
    intro g hg
    have mg : Measurable fun p : (PSite L → ℝ) × (PSite L → ℝ × ℝ) => ENNReal.ofReal (Real.exp (-phi4Action p.1)) * g p :=
      (hS.comp measurable_fst).mul hg
    rw [lintegral_prod _ hg.aemeasurable, lintegral_prod _ mg.aemeasurable]
    unfold boltzmann
    rw [lintegral_withDensity_eq_lintegral_mul _ hS hg.lintegral_prod_right']
    refine lintegral_congr fun phi => ?_
    simp only [Pi.mul_apply]
    have mx : Measurable fun ω => g (phi, ω) := hg.comp (measurable_const.prodMk measurable_id)
    exact (lintegral_const_mul _ mx).symm
  exact (key _ (hF.comp (measurable_fst.prodMk hm))).trans ((mc_reversible' hL hp hF).trans (key _ (hF.comp (hm.prodMk measurable_fst))).symm)

/-- **C95 (update).** For sorted bins with as many weights, with or without hard walls, an update of the even or of the odd sites is defined for all fields and
random numbers and keeps the distribution with weight `exp(-S - W)`. -/
theorem C95_update (hL : ∀ d, Even (L d)) (par : Parity) (hp : par = .even ∨ par = .odd) (hard : Bool) (centers weights : List ℝ)
    (hs : centers.Pairwise (· < ·)) (hl : weights.length = centers.length) (hne : centers ≠ []) :
    ∃ upd : (PSite L → ℝ) × ((PSite L → ℝ × ℝ) × ℝ) → PSite L → ℝ,
      (∀ z, mcUpdate hard centers weights par z.1 (fun x => (z.2.1 x).1) (fun x => (z.2.1 x).2) z.2.2 = some (upd z)) ∧
      KeepsDistribution (mucaNoise L) (mucaDist hard centers weights) upd := by
  refine ⟨_, fun z => mcUpdate_eq hard centers weights hs hl hne _ _ _ _, ?_⟩
  have hB : Measurable fun phi : PSite L → ℝ => mucaFactor hard centers weights (mcOrder phi) :=
    (mucaFactor_measurable hard centers weights hs hl hne).comp mcOrder_measurable
  haveI : IsProbabilityMeasure (siteNoise L) := by unfold siteNoise; infer_instance
  have h := decide_keeps (volume : Measure (PSite L → ℝ)) (siteNoise L) (fun phi => ENNReal.ofReal (Real.exp (-phi4Action phi)))
    (fun phi => mucaFactor hard centers weights (mcOrder phi)) phi4Action_measurable.neg.exp.ennreal_ofReal hB (fun x => mucaFactor_ne_top _ _ _ _)
    (fun p => mcPropose par p.1 (fun x => (p.2 x).1) fun x => (p.2 x).2) (mcPropose_measurable hL hp) (fun F hF => mc_reversible' hL hp hF)
  have e : mucaDist (L := L) hard centers weights =
      ((volume : Measure (PSite L → ℝ)).withDensity fun phi => ENNReal.ofReal (Real.exp (-phi4Action phi))).withDensity
        fun phi => mucaFactor hard centers weights (mcOrder phi) := by
    unfold mucaDist boltzmann
    simp only [mcOrder_card]
  rw [e]
  exact h

/-- **C95 (sequences).** So does the alternating sequence of updates of the program, for any number of them. -/
theorem C95_sequence (hL : ∀ d, Even (L d)) (hard : Bool) (centers weights : List ℝ)
    (hs : centers.Pairwise (· < ·)) (hl : weights.length = centers.length) (hne : centers ≠ []) (pars : List Parity)
    (hp : ∀ p ∈ pars, p = .even ∨ p = .odd) (π : Measure (PSite L → ℝ)) (hπ : π = mucaDist hard centers weights) :
    pars.foldl (fun μ p => (μ.prod (mucaNoise L)).map fun z =>
      (mcUpdate hard centers weights p z.1 (fun x => (z.2.1 x).1) (fun x => (z.2.1 x).2) z.2.2).getD z.1) π = mucaDist hard centers weights := by
  subst hπ
  induction pars with
  | nil => rfl
  | cons p pars ih =>
    rw [List.foldl_cons]
    obtain ⟨upd, h1, h2⟩ := C95_update hL p (hp p List.mem_cons_self) hard centers weights hs hl hne
    have e : (fun z : (PSite L → ℝ) × ((PSite L → ℝ × ℝ) × ℝ) =>
        (mcUpdate hard centers weights p z.1 (fun x => (z.2.1 x).1) (fun x => (z.2.1 x).2) z.2.2).getD z.1) = upd := by
      funext z
      rw [h1 z]
      rfl
    rw [e, h2.2]
    exact ih fun q hq => hp q (List.mem_cons_of_mem _ hq)

/-- **C95 (reweighting).** Without hard walls the measured weight recovers the canonical distribution: `exp(-S)` is the sampled distribution times `exp(W)`, where `W` is the weight
that the program writes beside every measurement. -/
theorem C95_reweight (centers weights : List ℝ) (hs : centers.Pairwise (· < ·)) (hl : weights.length = centers.length) (hne : centers ≠ []) :
    ∃ W : (PSite L → ℝ) → ℝ, (∀ phi, weightFunction false centers weights (mcOrder phi) = some (.fin (W phi))) ∧
      (mucaDist false centers weights).withDensity (fun phi => ENNReal.ofReal (Real.exp (W phi))) = boltzmann volume (phi4Action (L := L)) := by
  obtain ⟨g, hg, hw⟩ := C25_weight_continuous centers weights hs hl hne
  have hgm := hg.measurable
  have hO := mcOrder_measurable (L := L)
  refine ⟨fun phi => g (mcOrder phi), fun phi => hw _, ?_⟩
  unfold mucaDist
  simp only [← mcOrder_card]
  have e : (fun phi : PSite L → ℝ => mucaFactor false centers weights (mcOrder phi)) = fun phi => ENNReal.ofReal (Real.exp (-g (mcOrder phi))) := by
    funext phi
    unfold mucaFactor
    rw [hw]
  rw [e, ← withDensity_mul _ (by fun_prop) (by fun_prop)]
  convert withDensity_one using 2
  funext phi
  simp only [Pi.mul_apply, Pi.one_apply]
  rw [← ENNReal.ofReal_mul (Real.exp_pos _).le, ← Real.exp_add]
  simp

/-- The lattice of the program, with two bins and hard walls. -/
example : (∀ d : Fin 3, Even ((fun _ => 12 : Fin 3 → ℕ) d)) ∧ ([-1, 0, 1] : List ℝ).Pairwise (· < ·) ∧ ([0.5, 2, 0.5] : List ℝ).length = ([-1, 0, 1] : List ℝ).length := by
  refine ⟨fun _ => ⟨6, rfl⟩, ?_, rfl⟩
  norm_num

end Hila
