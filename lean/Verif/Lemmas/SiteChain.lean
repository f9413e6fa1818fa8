import Verif.Lemmas.StreamLaw
import Verif.Lemmas.Metropolis
import Mathlib.MeasureTheory.Integral.Marginal

/-!
# Updates of one site after the other
-/

namespace Hila

open MeasureTheory Function
open scoped ENNReal

variable {ι C Ω : Type} [Fintype ι] [DecidableEq ι] [MeasurableSpace C] [MeasurableSpace Ω]

/-- Integral over one site first. -/
theorem lintegral_pi_site (m : ι → Measure C) [∀ i, SigmaFinite (m i)] (i : ι) (f g : (ι → C) → ℝ≥0∞) (hf : Measurable f) (hg : Measurable g)
    (h : ∀ x, ∫⁻ c, f (update x i c) ∂m i = ∫⁻ c, g (update x i c) ∂m i) : ∫⁻ x, f x ∂Measure.pi m = ∫⁻ x, g x ∂Measure.pi m := by
  rcases isEmpty_or_nonempty (ι → C) with he | ⟨⟨x0⟩⟩
  · rw [lintegral_of_isEmpty, lintegral_of_isEmpty]
  · rw [lintegral_eq_lmarginal_univ x0, lintegral_eq_lmarginal_univ x0, lmarginal_erase' f hf (Finset.mem_univ i),
      lmarginal_erase' g hg (Finset.mem_univ i)]
    simp only [h]

/-- An update of one site, whose result and use of random numbers may depend on all sites, keeps the weight `W` if it does so for all values of the other sites. -/
theorem site_keeps (m : ι → Measure C) [∀ i, SigmaFinite (m i)] (P : Measure Ω) [SFinite P] (W : (ι → C) → ℝ≥0∞) (hW : Measurable W) (i : ι)
    (f : (ι → C) → Ω → C) (g : (ι → C) → Ω → Ω) (hf : Measurable fun z : (ι → C) × Ω => f z.1 z.2) (hg : Measurable fun z : (ι → C) × Ω => g z.1 z.2)
    (h : ∀ x, ∀ F : C × Ω → ℝ≥0∞, Measurable F →
      ∫⁻ c, W (update x i c) * ∫⁻ ω, F (f (update x i c) ω, g (update x i c) ω) ∂P ∂m i = ∫⁻ c, W (update x i c) * ∫⁻ ω, F (c, ω) ∂P ∂m i) :
    MeasurePreserving (fun z : (ι → C) × Ω => (update z.1 i (f z.1 z.2), g z.1 z.2)) (((Measure.pi m).withDensity W).prod P)
      (((Measure.pi m).withDensity W).prod P) := by
  have hu : Measurable fun z : (ι → C) × C => update z.1 i z.2 := measurable_update'
  have hT : Measurable fun z : (ι → C) × Ω => (update z.1 i (f z.1 z.2), g z.1 z.2) :=
    (Measurable.comp (g := fun z : (ι → C) × C => update z.1 i z.2) hu (measurable_fst.prodMk hf)).prodMk hg
  refine ⟨hT, Measure.ext_of_lintegral _ fun F hF => ?_⟩
  rw [lintegral_map hF hT]
  have hFT : Measurable fun z : (ι → C) × Ω => F (update z.1 i (f z.1 z.2), g z.1 z.2) := hF.comp hT
  rw [lintegral_prod _ hFT.aemeasurable, lintegral_prod _ hF.aemeasurable]
  have h1 : Measurable fun x => ∫⁻ ω, F (update x i (f x ω), g x ω) ∂P := hFT.lintegral_prod_right'
  have h2 : Measurable fun x => ∫⁻ ω, F (x, ω) ∂P := hF.lintegral_prod_right'
  refine (lintegral_withDensity_eq_lintegral_mul _ hW h1).trans (Eq.trans ?_ (lintegral_withDensity_eq_lintegral_mul _ hW h2).symm)
  refine lintegral_pi_site m i _ _ (hW.mul h1) (hW.mul h2) fun x => ?_
  have := h x (fun z => F (update x i z.1, z.2)) (hF.comp ((hu.comp (measurable_const.prodMk measurable_fst)).prodMk measurable_snd))
  simpa only [Pi.mul_apply, update_idem] using this

theorem foldl_preserving {X A : Type} [MeasurableSpace X] (μ : Measure X) (step : A → X → X) (l : List A) (h : ∀ a ∈ l, MeasurePreserving (step a) μ μ) :
    MeasurePreserving (fun x => l.foldl (fun x a => step a x) x) μ μ := by
  induction l with
  | nil => exact MeasurePreserving.id μ
  | cons a l ih =>
    have h1 := ih fun b hb => h b (List.mem_cons_of_mem _ hb)
    exact h1.comp (h a List.mem_cons_self)

/-! ### Streams of the ranks -/

variable {R : Type} [Fintype R] [DecidableEq R]

/-- One number is uniform, independent of the rest. -/
theorem stream_next : MeasurePreserving (fun u : ℕ → ℝ => (u 0, shiftBy 1 u)) uniformStream (unif01.prod uniformStream) := by
  have hm : Measurable fun u : ℕ → ℝ => (u 0, shiftBy 1 u) := (measurable_pi_apply 0).prodMk (shiftBy_measurable 1)
  refine ⟨hm, ?_⟩
  conv_lhs => rw [← consS_law]
  rw [Measure.map_map hm consS_measurable]
  have : (fun u : ℕ → ℝ => (u 0, shiftBy 1 u)) ∘ (fun p : ℝ × (ℕ → ℝ) => consS p.1 p.2) = id := by
    funext p
    simp [shiftBy_consS, consS]
  rw [this, Measure.map_id]

theorem draw_preserving (r : R) : MeasurePreserving (fun ω : R → ℕ → ℝ => (ω r 0, update ω r (shiftBy 1 (ω r)))) (Measure.pi fun _ => uniformStream)
    (unif01.prod (Measure.pi fun _ => uniformStream)) := by
  have hu : Measurable fun z : (R → ℕ → ℝ) × (ℕ → ℝ) => update z.1 r z.2 := measurable_update'
  have hm : Measurable fun ω : R → ℕ → ℝ => (ω r 0, update ω r (shiftBy 1 (ω r))) := by
    have h1 : Measurable fun ω : R → ℕ → ℝ => ω r := measurable_pi_apply r
    exact ((measurable_pi_apply 0).comp h1).prodMk
      (Measurable.comp (g := fun z : (R → ℕ → ℝ) × (ℕ → ℝ) => update z.1 r z.2) hu (measurable_id.prodMk ((shiftBy_measurable 1).comp h1)))
  refine ⟨hm, Measure.ext_of_lintegral _ fun F hF => ?_⟩
  rw [lintegral_map hF hm, lintegral_prod_symm' _ hF]
  have hF1 : Measurable fun y => ∫⁻ a, F (a, y) ∂unif01 := hF.lintegral_prod_left'
  refine lintegral_pi_site (fun _ => uniformStream) r _ _ (hF.comp hm) hF1 fun x => ?_
  simp only [update_self, update_idem]
  have hF2 : Measurable fun p : ℝ × (ℕ → ℝ) => F (p.1, update x r p.2) :=
    hF.comp (measurable_fst.prodMk (hu.comp (measurable_const.prodMk measurable_snd)))
  have e := stream_next.lintegral_comp hF2
  rw [e, lintegral_prod_symm' _ hF2]

end Hila
