import Verif.Lemmas.SiteChain

/-!
# Steps with or without result that never favour a set
-/

namespace Hila

open MeasureTheory Function
open scoped ENNReal

variable {X : Type} [MeasurableSpace X]

/-- The value of `F` at the result, zero if there is none. -/
noncomputable def atResult {Y : Type} (F : Y → ℝ≥0∞) : Option Y → ℝ≥0∞
  | none => 0
  | some y => F y

theorem atResult_bind {Y Z : Type} (F : Z → ℝ≥0∞) (o : Option Y) (q : Y → Option Z) : atResult F (o.bind q) = atResult (fun y => atResult F (q y)) o := by
  cases o <;> rfl

theorem atResult_map {Y Z : Type} (F : Z → ℝ≥0∞) (o : Option Y) (f : Y → Z) : atResult F (o.map f) = atResult (fun y => F (f y)) o := by
  cases o <;> rfl

/-- A step is measurable and the distribution of its results is at most `M`, if it starts with `M`. -/
def DomStep (M : Measure X) (p : X → Option X) : Prop :=
  ∀ F : X → ℝ≥0∞, Measurable F → Measurable (fun x => atResult F (p x)) ∧ ∫⁻ x, atResult F (p x) ∂M ≤ ∫⁻ x, F x ∂M

theorem DomStep.pure (M : Measure X) : DomStep M some := fun _ hF => ⟨hF, le_rfl⟩

theorem DomStep.bind {M : Measure X} {p q : X → Option X} (hp : DomStep M p) (hq : DomStep M q) : DomStep M fun x => (p x).bind q := by
  intro F hF
  simp only [atResult_bind]
  obtain ⟨h1, h2⟩ := hq F hF
  obtain ⟨h3, h4⟩ := hp _ h1
  exact ⟨h3, h4.trans h2⟩

theorem DomStep.foldlM {A : Type} {M : Measure X} (step : X → A → Option X) (l : List A) (h : ∀ a ∈ l, DomStep M fun x => step x a) :
    DomStep M fun x => l.foldlM step x := by
  induction l with
  | nil => exact DomStep.pure M
  | cons a l ih => exact (h a List.mem_cons_self).bind (ih fun b hb => h b (List.mem_cons_of_mem _ hb))

/-- The probabilities of the results. -/
theorem DomStep.bounds {Y : Type} [MeasurableSpace Y] {M : Measure X} [IsFiniteMeasure M] {p : X → Option X} (hp : DomStep M p) (f : X → Y) (hf : Measurable f)
    (B : Set Y) (hB : MeasurableSet B) :
    M {x | ∃ y, p x = some y ∧ f y ∈ B} ≤ M {x | f x ∈ B} ∧ M {x | f x ∈ B} ≤ M {x | ∃ y, p x = some y ∧ f y ∈ B} + M {x | p x = none} := by
  have hit : ∀ B : Set Y, MeasurableSet B → MeasurableSet {x | ∃ y, p x = some y ∧ f y ∈ B} ∧ M {x | ∃ y, p x = some y ∧ f y ∈ B} ≤ M {x | f x ∈ B} := by
    intro B hB
    have hm : Measurable fun x => (f ⁻¹' B).indicator (fun _ => (1 : ℝ≥0∞)) x := measurable_const.indicator (hf hB)
    obtain ⟨h1, h2⟩ := hp _ hm
    have e : ∀ x, atResult (fun x => (f ⁻¹' B).indicator (fun _ => (1 : ℝ≥0∞)) x) (p x) = {x | ∃ y, p x = some y ∧ f y ∈ B}.indicator (fun _ => 1) x := by
      intro x
      by_cases hx : x ∈ {x | ∃ y, p x = some y ∧ f y ∈ B}
      · rw [Set.indicator_of_mem hx]
        obtain ⟨y, hy, hyB⟩ := hx
        rw [hy]
        show (f ⁻¹' B).indicator (fun _ => (1 : ℝ≥0∞)) y = 1
        exact Set.indicator_of_mem (s := f ⁻¹' B) hyB _
      · rw [Set.indicator_of_notMem hx]
        cases hpx : p x with
        | none => rfl
        | some y =>
          show (f ⁻¹' B).indicator (fun _ => (1 : ℝ≥0∞)) y = 0
          exact Set.indicator_of_notMem (s := f ⁻¹' B) (fun hy => hx ⟨y, hpx, hy⟩) _
    have hms : MeasurableSet {x | ∃ y, p x = some y ∧ f y ∈ B} := by
      have h3 : {x | ∃ y, p x = some y ∧ f y ∈ B} = (fun x => atResult (fun x => (f ⁻¹' B).indicator (fun _ => (1 : ℝ≥0∞)) x) (p x)) ⁻¹' {1} := by
        ext x
        rw [Set.mem_preimage, e, Set.mem_singleton_iff]
        by_cases hx : x ∈ {x | ∃ y, p x = some y ∧ f y ∈ B}
        · rw [Set.indicator_of_mem hx]; simp only [hx]
        · rw [Set.indicator_of_notMem hx]; simp [hx]
      rw [h3]
      exact h1 (measurableSet_singleton 1)
    refine ⟨hms, ?_⟩
    simp only [e] at h2
    rw [lintegral_indicator hms, lintegral_indicator (hf hB)] at h2
    rw [setLIntegral_one, setLIntegral_one] at h2
    exact h2
  refine ⟨(hit B hB).2, ?_⟩
  have hc := (hit Bᶜ hB.compl).2
  have hu : (Set.univ : Set X) ⊆ {x | ∃ y, p x = some y ∧ f y ∈ B} ∪ {x | p x = none} ∪ {x | ∃ y, p x = some y ∧ f y ∈ Bᶜ} := by
    intro x _
    cases hpx : p x with
    | none => exact Or.inl (Or.inr hpx)
    | some y =>
      by_cases hy : f y ∈ B
      · exact Or.inl (Or.inl ⟨y, hpx, hy⟩)
      · exact Or.inr ⟨y, hpx, hy⟩
  have hsum : M {x | f x ∈ B} + M {x | f x ∈ Bᶜ} = M Set.univ := measure_add_measure_compl (hf hB)
  have h1 := (measure_mono (μ := M) hu).trans ((measure_union_le _ _).trans (add_le_add (measure_union_le _ _) hc))
  rw [← hsum] at h1
  exact (ENNReal.add_le_add_iff_right (measure_ne_top M _)).1 h1

/-! ### One site -/

variable {ι C Ω : Type} [Fintype ι] [DecidableEq ι] [MeasurableSpace C] [MeasurableSpace Ω]

theorem lintegral_pi_site_le (m : ι → Measure C) [∀ i, SigmaFinite (m i)] (i : ι) (f g : (ι → C) → ℝ≥0∞) (hf : Measurable f) (hg : Measurable g)
    (h : ∀ x, ∫⁻ c, f (update x i c) ∂m i ≤ ∫⁻ c, g (update x i c) ∂m i) : ∫⁻ x, f x ∂Measure.pi m ≤ ∫⁻ x, g x ∂Measure.pi m := by
  rcases isEmpty_or_nonempty (ι → C) with he | ⟨⟨x0⟩⟩
  · rw [lintegral_of_isEmpty, lintegral_of_isEmpty]
  · rw [lintegral_eq_lmarginal_univ x0, lintegral_eq_lmarginal_univ x0, lmarginal_erase' f hf (Finset.mem_univ i),
      lmarginal_erase' g hg (Finset.mem_univ i)]
    exact lmarginal_mono (fun x => h x) x0

/-- A step that changes one site. -/
theorem site_dom (m : ι → Measure C) [∀ i, SigmaFinite (m i)] (P : Measure Ω) [SFinite P] (W : (ι → C) → ℝ≥0∞) (hW : Measurable W) (i : ι)
    (q : (ι → C) → Ω → Option (C × Ω))
    (hq : ∀ F : (ι → C) → C × Ω → ℝ≥0∞, Measurable (fun z : (ι → C) × (C × Ω) => F z.1 z.2) → Measurable fun z : (ι → C) × Ω => atResult (F z.1) (q z.1 z.2))
    (h : ∀ x, ∀ F : C × Ω → ℝ≥0∞, Measurable F →
      ∫⁻ c, W (update x i c) * ∫⁻ ω, atResult F (q (update x i c) ω) ∂P ∂m i ≤ ∫⁻ c, W (update x i c) * ∫⁻ ω, F (c, ω) ∂P ∂m i) :
    DomStep (((Measure.pi m).withDensity W).prod P) fun z => (q z.1 z.2).map fun y => (update z.1 i y.1, y.2) := by
  intro F hF
  have hu : Measurable fun z : (ι → C) × C => update z.1 i z.2 := measurable_update'
  simp only [atResult_map]
  have hF1 : Measurable fun z : (ι → C) × (C × Ω) => F (update z.1 i z.2.1, z.2.2) :=
    hF.comp ((Measurable.comp (g := fun z : (ι → C) × C => update z.1 i z.2) hu (by fun_prop : Measurable fun z : (ι → C) × (C × Ω) => (z.1, z.2.1))).prodMk (by fun_prop))
  have hm := hq (fun x y => F (update x i y.1, y.2)) hF1
  refine ⟨hm, ?_⟩
  rw [lintegral_prod _ hm.aemeasurable, lintegral_prod _ hF.aemeasurable]
  have h1 : Measurable fun x => ∫⁻ ω, atResult (fun y => F (update x i y.1, y.2)) (q x ω) ∂P := hm.lintegral_prod_right'
  have h2 : Measurable fun x => ∫⁻ ω, F (x, ω) ∂P := hF.lintegral_prod_right'
  refine le_trans (le_of_eq (lintegral_withDensity_eq_lintegral_mul _ hW h1)) (le_trans ?_ (le_of_eq (lintegral_withDensity_eq_lintegral_mul _ hW h2).symm))
  refine lintegral_pi_site_le m i _ _ (hW.mul h1) (hW.mul h2) fun x => ?_
  have := h x (fun z => F (update x i z.1, z.2)) (hF.comp ((hu.comp (measurable_const.prodMk measurable_fst)).prodMk measurable_snd))
  simpa only [Pi.mul_apply, update_idem] using this

end Hila
