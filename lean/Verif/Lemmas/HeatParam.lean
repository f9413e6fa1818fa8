import Verif.Lemmas.OverHit
import Verif.Model.SpinSpec

/-!
# Hits of the heat bath with staples that depend on the other links, and with streams of several ranks
-/

namespace Hila

open MeasureTheory ProbabilityTheory Set Matrix Function
open scoped ENNReal

variable {N : ℕ}

theorem action_entries {P : Type} [MeasurableSpace P] (f : P → SUN N) (hf : Measurable f) (S : P → Matrix (Fin N) (Fin N) ℂ)
    (hS : ∀ i j, Measurable fun p => S p i j) (i j : Fin N) : Measurable fun p => ((f p).1 * (S p)ᴴ) i j := by
  simp only [Matrix.mul_apply, Matrix.conjTranspose_apply]
  refine Finset.measurable_sum _ fun k _ => ?_
  have h1 : Measurable fun p => (f p).1 i k := ((continuous_subtype_val : Continuous fun h : SUN N => h.1).matrix_elem i k).measurable.comp hf
  exact h1.mul (continuous_star.measurable.comp (hS j k))

theorem hitTry_measS (b3 : ℝ) (pq : Fin N × Fin N) {P : Type} [MeasurableSpace P] (f : P → SUN N) (hf : Measurable f) (S : P → Matrix (Fin N) (Fin N) ℂ)
    (hS : ∀ i j, Measurable fun p => S p i j) : StreamMeas fun p => hitTry b3 (S p) pq (f p) := by
  have hent := action_entries f hf S hS
  have hz : Measurable fun p => hitLength ((f p).1 * (S p)ᴴ) pq := hitLength_measurable pq hent
  have hv : Measurable fun p => toSU (subVec ((f p).1 * (S p)ᴴ) pq) := toSU_measurable.comp (subVec_measurable pq hent)
  have hg : StreamMeas fun (x : P × SUN 2) (_ : ℕ → ℝ) => some (embSU pq (x.2 * toSU (subVec ((f x.1).1 * (S x.1)ᴴ) pq)) * f x.1, 0) := by
    refine StreamMeas.value 0 (fun (x : P × SUN 2) _ => embSU pq (x.2 * toSU (subVec ((f x.1).1 * (S x.1)ᴴ) pq)) * f x.1) ?_
    have b : Measurable fun x : (P × SUN 2) × (ℕ → ℝ) => toSU (subVec ((f x.1.1).1 * (S x.1.1)ᴴ) pq) := hv.comp (measurable_fst.comp measurable_fst)
    have a : Measurable fun x : (P × SUN 2) × (ℕ → ℝ) => x.1.2 * toSU (subVec ((f x.1.1).1 * (S x.1.1)ᴴ) pq) := (measurable_snd.comp measurable_fst).mul b
    have c : Measurable fun x : (P × SUN 2) × (ℕ → ℝ) => embSU pq (x.1.2 * toSU (subVec ((f x.1.1).1 * (S x.1.1)ᴴ) pq)) :=
      (embSU_continuous pq).measurable.comp a
    exact c.mul (hf.comp (measurable_fst.comp measurable_fst))
  have hp : StreamMeas fun (x : P × ℝ) => ptRun false x.2 :=
    StreamMeas.value 2 (fun (x : P × ℝ) v => toSU (spherePt (angleDir false (2 * Real.pi * v 1)) (2 * v 0 - 1) (1 - x.2)))
      (toSU_pt_measurable false (by fun_prop) (by fun_prop) (by fun_prop))
  have hh := heatTry_meas 40 (fun p => b3 * hitLength ((f p).1 * (S p)ᴴ) pq) (hz.const_mul b3)
  have h1 := StreamMeas.after (q := fun _ => ptRun false) hh hp
  have h2 := StreamMeas.after (q := fun p g _ => some (embSU pq (g * toSU (subVec ((f p).1 * (S p)ᴴ) pq)) * f p, 0)) h1 hg
  exact StreamMeas.guard h2 (fun p => hitLength ((f p).1 * (S p)ᴴ) pq = 0 ∨ b3 * hitLength ((f p).1 * (S p)ᴴ) pq = 0)
    ((measurableSet_eq_fun hz measurable_const).union (measurableSet_eq_fun (hz.const_mul b3) measurable_const))

theorem hitsTry_measS (b3 : ℝ) (l : List (Fin N × Fin N)) {P : Type} [MeasurableSpace P] (f : P → SUN N) (hf : Measurable f) (S : P → Matrix (Fin N) (Fin N) ℂ)
    (hS : ∀ i j, Measurable fun p => S p i j) : StreamMeas fun p => hitsTry b3 (S p) l (f p) := by
  induction l generalizing P with
  | nil => exact StreamMeas.value 0 (fun p _ => f p) (hf.comp measurable_fst)
  | cons pq l ih =>
    exact StreamMeas.after (q := fun p => hitsTry b3 (S p) l) (hitTry_measS b3 pq f hf S hS)
      (ih (P := P × SUN N) Prod.snd measurable_snd (fun x => S x.1) fun i j => (hS i j).comp measurable_fst)

/-- The hits never favour a set of links and streams over its share in the distribution. -/
theorem hits_dom_stream (haar : Measure (SUN N)) [IsProbabilityMeasure haar] [haar.IsMulLeftInvariant] {b3 : ℝ} (hb : 0 < b3) (S : Matrix (Fin N) (Fin N) ℂ)
    (l : List (Fin N × Fin N)) (hl : ∀ pq ∈ l, pq.1 ≠ pq.2) (F : SUN N → (ℕ → ℝ) → ℝ≥0∞) (hF : Measurable fun x : SUN N × (ℕ → ℝ) => F x.1 x.2) :
    ∫⁻ U, linkWeight b3 S U * ∫⁻ u, afterRun F u (hitsTry b3 S l U u) ∂uniformStream ∂haar ≤
      ∫⁻ U, linkWeight b3 S U * ∫⁻ u, F U u ∂uniformStream ∂haar := by
  obtain ⟨haar2, hp2, hi2⟩ : ∃ μ : Measure (SUN 2), IsProbabilityMeasure μ ∧ μ.IsMulLeftInvariant :=
    ⟨Measure.haarMeasure ⊤, ⟨Measure.haarMeasure_self⟩, inferInstance⟩
  induction l with
  | nil => simp [hitsTry, afterRun, shiftBy_zero]
  | cons pq l ih =>
    have hpq := hl pq (List.mem_cons_self ..)
    have hm : Measurable fun x : SUN N × (ℕ → ℝ) => afterRun F x.2 (hitsTry b3 S l x.1 x.2) :=
      hitsTry_meas b3 S l (fun U => U) measurable_id (fun _ => F) (hF.comp measurable_snd)
    have hH : Measurable fun V => ∫⁻ u, afterRun F u (hitsTry b3 S l V u) ∂uniformStream := hm.lintegral_prod_right'
    refine le_trans (lintegral_mono fun U => ?_) (le_trans (orbit_keeps haar haar2 hpq (linkWeight b3 S) _ (linkWeight_measurable b3 S) hH)
      (ih fun x hx => hl x (List.mem_cons_of_mem _ hx)))
    have e : ∀ u, afterRun F u (hitsTry b3 S (pq :: l) U u) =
        afterRun (fun V v => afterRun F v (hitsTry b3 S l V v)) u (hitTry b3 S pq U u) := fun u => afterRun_then _ _ _ _
    simp only [e]
    exact mul_le_mul' le_rfl (hit_dom haar2 hb S hpq U (fun V v => afterRun F v (hitsTry b3 S l V v)) hm)

/-! ### Streams of several ranks -/

variable {R : Type} [Fintype R] [DecidableEq R]

/-- All hits with the numbers of the rank `r`. -/
noncomputable def hitsRank (b3 : ℝ) (S : Matrix (Fin N) (Fin N) ℂ) (l : List (Fin N × Fin N)) (r : R) (U : SUN N) (ω : R → ℕ → ℝ) :
    Option (SUN N × (R → ℕ → ℝ)) :=
  (hitsTry b3 S l U (ω r)).map fun y => (y.1, update ω r (shiftBy y.2 (ω r)))

omit [Fintype R] in
theorem atResult_hitsRank (b3 : ℝ) (S : Matrix (Fin N) (Fin N) ℂ) (l : List (Fin N × Fin N)) (r : R) (U : SUN N) (ω : R → ℕ → ℝ)
    (F : SUN N × (R → ℕ → ℝ) → ℝ≥0∞) :
    atResult F (hitsRank b3 S l r U ω) = afterRun (fun V v => F (V, update ω r v)) (ω r) (hitsTry b3 S l U (ω r)) := by
  unfold hitsRank
  cases hitsTry b3 S l U (ω r) <;> rfl

theorem hitsRank_meas (b3 : ℝ) (l : List (Fin N × Fin N)) (r : R) {P : Type} [MeasurableSpace P] (f : P → SUN N) (hf : Measurable f)
    (S : P → Matrix (Fin N) (Fin N) ℂ) (hS : ∀ i j, Measurable fun p => S p i j) (F : P → SUN N × (R → ℕ → ℝ) → ℝ≥0∞)
    (hF : Measurable fun z : P × (SUN N × (R → ℕ → ℝ)) => F z.1 z.2) :
    Measurable fun z : P × (R → ℕ → ℝ) => atResult (F z.1) (hitsRank b3 (S z.1) l r (f z.1) z.2) := by
  simp only [atResult_hitsRank]
  have hu : Measurable fun z : (R → ℕ → ℝ) × (ℕ → ℝ) => update z.1 r z.2 := measurable_update'
  have h := hitsTry_measS b3 l (P := P × (R → ℕ → ℝ)) (fun z => f z.1) (hf.comp measurable_fst) (fun z => S z.1) (fun i j => (hS i j).comp measurable_fst)
    (fun z V v => F z.1 (V, update z.2 r v)) (by
      refine hF.comp ((measurable_fst.comp measurable_fst).prodMk ((measurable_fst.comp measurable_snd).prodMk ?_))
      exact Measurable.comp (g := fun z : (R → ℕ → ℝ) × (ℕ → ℝ) => update z.1 r z.2) hu ((measurable_snd.comp measurable_fst).prodMk (measurable_snd.comp measurable_snd)))
  exact h.comp (measurable_id.prodMk ((measurable_pi_apply r).comp measurable_snd))

theorem hitsRank_dom (haar : Measure (SUN N)) [IsProbabilityMeasure haar] [haar.IsMulLeftInvariant] {b3 : ℝ} (hb : 0 < b3) (S : Matrix (Fin N) (Fin N) ℂ)
    (l : List (Fin N × Fin N)) (hl : ∀ pq ∈ l, pq.1 ≠ pq.2) (r : R) (F : SUN N × (R → ℕ → ℝ) → ℝ≥0∞) (hF : Measurable F) :
    ∫⁻ U, linkWeight b3 S U * ∫⁻ ω, atResult F (hitsRank b3 S l r U ω) ∂rankStreams R ∂haar ≤
      ∫⁻ U, linkWeight b3 S U * ∫⁻ ω, F (U, ω) ∂rankStreams R ∂haar := by
  have hu : Measurable fun z : (R → ℕ → ℝ) × (ℕ → ℝ) => update z.1 r z.2 := measurable_update'
  have : SFinite (rankStreams R) := by unfold rankStreams; infer_instance
  have hw := linkWeight_measurable b3 S
  have hm : Measurable fun z : SUN N × (R → ℕ → ℝ) => atResult F (hitsRank b3 S l r z.1 z.2) :=
    hitsRank_meas b3 l r (fun U => U) measurable_id (fun _ => S) (fun _ _ => measurable_const) (fun _ => F) (hF.comp measurable_snd)
  have hm1 : ∀ U, Measurable fun ω => atResult F (hitsRank b3 S l r U ω) := fun U => hm.comp (measurable_const.prodMk measurable_id)
  have hF1 : ∀ U, Measurable fun ω => F (U, ω) := fun U => hF.comp (measurable_const.prodMk measurable_id)
  have ea : ∀ U, linkWeight b3 S U * ∫⁻ ω, atResult F (hitsRank b3 S l r U ω) ∂rankStreams R =
      ∫⁻ ω, linkWeight b3 S U * atResult F (hitsRank b3 S l r U ω) ∂rankStreams R := fun U => (lintegral_const_mul _ (hm1 U)).symm
  have eb : ∀ U, linkWeight b3 S U * ∫⁻ ω, F (U, ω) ∂rankStreams R = ∫⁻ ω, linkWeight b3 S U * F (U, ω) ∂rankStreams R :=
    fun U => (lintegral_const_mul _ (hF1 U)).symm
  simp only [ea, eb]
  have hja : Measurable fun z : SUN N × (R → ℕ → ℝ) => linkWeight b3 S z.1 * atResult F (hitsRank b3 S l r z.1 z.2) := (hw.comp measurable_fst).mul hm
  have hjb : Measurable fun z : SUN N × (R → ℕ → ℝ) => linkWeight b3 S z.1 * F z := (hw.comp measurable_fst).mul hF
  rw [lintegral_lintegral_swap hja.aemeasurable, lintegral_lintegral_swap (f := fun U ω => linkWeight b3 S U * F (U, ω)) hjb.aemeasurable]
  unfold rankStreams
  refine lintegral_pi_site_le (fun _ => uniformStream) r _ _ hja.lintegral_prod_left' hjb.lintegral_prod_left' fun ω => ?_
  have hF2 : Measurable fun x : SUN N × (ℕ → ℝ) => F (x.1, update ω r x.2) :=
    hF.comp (measurable_fst.prodMk (hu.comp (measurable_const.prodMk measurable_snd)))
  have hup : Measurable fun z : SUN N × (ℕ → ℝ) => (z.1, update ω r z.2) := measurable_fst.prodMk (hu.comp (measurable_const.prodMk measurable_snd))
  have key := hits_dom_stream haar hb S l hl (fun V v => F (V, update ω r v)) hF2
  have e1 : ∀ U u, atResult F (hitsRank b3 S l r U (update ω r u)) = afterRun (fun V v => F (V, update ω r v)) u (hitsTry b3 S l U u) := fun U u => by
    rw [atResult_hitsRank]
    simp only [update_self, update_idem]
  have hm3 : Measurable fun x : SUN N × (ℕ → ℝ) => afterRun (fun V v => F (V, update ω r v)) x.2 (hitsTry b3 S l x.1 x.2) :=
    hitsTry_meas b3 S l (fun U => U) measurable_id (fun _ V v => F (V, update ω r v)) (hF2.comp measurable_snd)
  have l1 : ∫⁻ u, ∫⁻ U, linkWeight b3 S U * atResult F (hitsRank b3 S l r U (update ω r u)) ∂haar ∂uniformStream =
      ∫⁻ U, linkWeight b3 S U * ∫⁻ u, afterRun (fun V v => F (V, update ω r v)) u (hitsTry b3 S l U u) ∂uniformStream ∂haar := by
    simp only [e1]
    have hj : Measurable fun z : (ℕ → ℝ) × SUN N => linkWeight b3 S z.2 * afterRun (fun V v => F (V, update ω r v)) z.1 (hitsTry b3 S l z.2 z.1) :=
      (hw.comp measurable_snd).mul (hm3.comp measurable_swap)
    rw [lintegral_lintegral_swap hj.aemeasurable]
    refine lintegral_congr fun U => ?_
    exact lintegral_const_mul _ (hm3.comp (measurable_const.prodMk measurable_id))
  have l2 : ∫⁻ u, ∫⁻ U, linkWeight b3 S U * F (U, update ω r u) ∂haar ∂uniformStream =
      ∫⁻ U, linkWeight b3 S U * ∫⁻ u, F (U, update ω r u) ∂uniformStream ∂haar := by
    have hj : Measurable fun z : (ℕ → ℝ) × SUN N => linkWeight b3 S z.2 * F (z.2, update ω r z.1) := (hw.comp measurable_snd).mul (hF2.comp measurable_swap)
    rw [lintegral_lintegral_swap hj.aemeasurable]
    refine lintegral_congr fun U => ?_
    exact lintegral_const_mul _ (hF2.comp (measurable_const.prodMk measurable_id))
  rw [l1, l2]
  exact key

end Hila
