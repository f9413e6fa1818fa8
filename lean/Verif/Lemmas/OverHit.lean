import Verif.Lemmas.HeatHit
import Verif.Lemmas.DomStep
import Verif.Props.LinkUpdate

/-!
# Hits of the overrelaxation and their effect on distributions
-/

namespace Hila

open MeasureTheory ProbabilityTheory Set Matrix
open scoped ENNReal

variable {N : ℕ}

theorem subVec_embed (A : Matrix (Fin N) (Fin N) ℂ) (pq : Fin N × Fin N) (hpq : pq.1 ≠ pq.2) (x : SU2) :
    qOf (subVec (embed pq.1 pq.2 x.toMatrix * A) pq) = (qOf (subVec A pq)).mul x.dagger := by
  rw [← multBy2x2Left_eq _ _ _ hpq]
  unfold qOf subVec multBy2x2Left SU2.mul SU2.dagger SU2.toMatrix
  ext <;> simp [hpq] <;> ring

theorem mul_dagger_cancel (x y : SU2) (hx : x.det = 1) : (y.mul x.dagger).mul x = y := by
  unfold SU2.det at hx
  unfold SU2.mul SU2.dagger
  ext
  · dsimp only; linear_combination y.a * hx
  · dsimp only; linear_combination y.b * hx
  · dsimp only; linear_combination y.c * hx
  · dsimp only; linear_combination y.d * hx

theorem div_mul (x y : SU2) (r : ℝ) : (x.div r).mul y = (x.mul y).div r := by
  unfold SU2.div SU2.mul
  ext <;> dsimp only <;> ring

/-- The projection of the action moves with the link. -/
theorem hit_equivariant (A : Matrix (Fin N) (Fin N) ℂ) (pq : Fin N × Fin N) (hpq : pq.1 ≠ pq.2) (g : SUN 2) :
    hitLength ((embSU pq g).1 * A) pq = hitLength A pq ∧
      (hitLength A pq ≠ 0 → toSU (subVec ((embSU pq g).1 * A) pq) = toSU (subVec A pq) * g⁻¹) := by
  obtain ⟨x, hx, _⟩ := C28_group.2.1 g.1 g.2
  have hdet : x.det = 1 := (C28_group.1 x).1 (by rw [hx]; exact g.2)
  have hlen : hitLength ((embSU pq g).1 * A) pq = hitLength A pq := by
    rw [hitLength_eq, hitLength_eq, embSU_val hpq, ← hx, subVec_embed A pq hpq, C28_group.2.2, det_dagger, hdet, mul_one]
  refine ⟨hlen, fun hz => ?_⟩
  refine eq_mul_inv_of_mul_eq (Subtype.ext ?_)
  show (toSU (subVec ((embSU pq g).1 * A) pq)).1 * g.1 = (toSU (subVec A pq)).1
  rw [toSU_sub (by rw [hlen]; exact hz), toSU_sub hz, hlen, ← hx, ← toMatrix_mul, embSU_val hpq, ← hx, subVec_embed A pq hpq, div_mul, mul_dagger_cancel x _ hdet]

/-- One hit of the overrelaxation. -/
noncomputable def orHit (S : Matrix (Fin N) (Fin N) ℂ) (pq : Fin N × Fin N) (U : SUN N) : Option (SUN N) :=
  if hitLength (U.1 * Sᴴ) pq = 0 then none
  else some (embSU pq (toSU (subVec (U.1 * Sᴴ) pq) * toSU (subVec (U.1 * Sᴴ) pq)) * U)

theorem orHit_spec (S : Matrix (Fin N) (Fin N) ℂ) (pq : Fin N × Fin N) (hpq : pq.1 ≠ pq.2) (U : SUN N) :
    overrelaxHit (U.1, U.1 * Sᴴ) pq = (orHit S pq U).map fun V => (V.1, V.1 * Sᴴ) := by
  have hp : SU2.projectFromMatrix (U.1 * Sᴴ) pq.1 pq.2 = ((qOf (subVec (U.1 * Sᴴ) pq)).dagger).scale 0.5 := by
    unfold SU2.projectFromMatrix SU2.dagger SU2.scale qOf subVec
    ext <;> simp
  have hd : (SU2.projectFromMatrix (U.1 * Sᴴ) pq.1 pq.2).det = (hitLength (U.1 * Sᴴ) pq * 0.5) ^ 2 := by
    rw [hp, mul_pow, hitLength_eq, Real.sq_sqrt (by unfold SU2.det; nlinarith [sq_nonneg (qOf (subVec (U.1 * Sᴴ) pq)).a, sq_nonneg (qOf (subVec (U.1 * Sᴴ) pq)).b, sq_nonneg (qOf (subVec (U.1 * Sᴴ) pq)).c, sq_nonneg (qOf (subVec (U.1 * Sᴴ) pq)).d])]
    unfold SU2.det SU2.dagger SU2.scale
    ring
  have hl0 : 0 ≤ hitLength (U.1 * Sᴴ) pq := Real.sqrt_nonneg _
  have hs : Real.sqrt (SU2.projectFromMatrix (U.1 * Sᴴ) pq.1 pq.2).det = hitLength (U.1 * Sᴴ) pq * 0.5 := by
    rw [hd, Real.sqrt_sq (by positivity)]
  unfold orHit
  by_cases hz : hitLength (U.1 * Sᴴ) pq = 0
  · rw [if_pos hz]
    unfold overrelaxHit SU2.normalize
    simp only [hs, hz, zero_mul, if_true]
    rfl
  · rw [if_neg hz]
    have hz2 : hitLength (U.1 * Sᴴ) pq * 0.5 ≠ 0 := by positivity
    have hn : (SU2.projectFromMatrix (U.1 * Sᴴ) pq.1 pq.2).normalize = some (((qOf (subVec (U.1 * Sᴴ) pq)).div (hitLength (U.1 * Sᴴ) pq)).dagger) := by
      unfold SU2.normalize
      simp only [hs, if_neg hz2]
      congr 1
      rw [hp]
      unfold SU2.div SU2.dagger SU2.scale
      ext <;> dsimp only <;> field_simp
    unfold overrelaxHit
    simp only [hn]
    rw [overrelax_element]
    have hdd : ∀ x : SU2, x.dagger.dagger = x := fun x => by unfold SU2.dagger; ext <;> simp
    rw [hdd]
    have hM : ∀ B : Matrix (Fin N) (Fin N) ℂ, multBy2x2Left B pq.1 pq.2
        (((qOf (subVec (U.1 * Sᴴ) pq)).div (hitLength (U.1 * Sᴴ) pq)).mul ((qOf (subVec (U.1 * Sᴴ) pq)).div (hitLength (U.1 * Sᴴ) pq))).toMatrix =
        (embSU pq (toSU (subVec (U.1 * Sᴴ) pq) * toSU (subVec (U.1 * Sᴴ) pq))).1 * B := by
      intro B
      rw [multBy2x2Left_eq _ _ _ hpq, embSU_val hpq]
      congr 2
      rw [toMatrix_mul, ← toSU_sub hz]
      rfl
    rw [hM, hM]
    show some (_, _) = some (_, _)
    rw [← Matrix.mul_assoc]
    rfl

theorem halfTr_inv (g : SUN 2) : halfTr g⁻¹ = halfTr g := by
  unfold halfTr
  have : (g⁻¹).1 = (g.1)ᴴ := rfl
  rw [this, Matrix.trace_conjTranspose]
  simp

/-- On the links that a hit can reach the weights of a link and of its image are the same. -/
theorem orHit_weight (b3 : ℝ) (S : Matrix (Fin N) (Fin N) ℂ) (pq : Fin N × Fin N) (hpq : pq.1 ≠ pq.2) (U : SUN N) (hz : hitLength (U.1 * Sᴴ) pq ≠ 0) (g : SUN 2) :
    linkWeight b3 S (embSU pq (toSU (subVec (U.1 * Sᴴ) pq) * g⁻¹ * toSU (subVec (U.1 * Sᴴ) pq)) * U) = linkWeight b3 S (embSU pq g * U) := by
  unfold linkWeight
  have e : ∀ k : SUN 2, ((embSU pq k * U).1 * Sᴴ) = (embSU pq k).1 * (U.1 * Sᴴ) := fun k => Matrix.mul_assoc _ _ _
  rw [e, e, hit_re_trace _ pq hpq hz]
  have h2 := hit_re_trace (U.1 * Sᴴ) pq hpq hz (g * (toSU (subVec (U.1 * Sᴴ) pq))⁻¹)
  rw [inv_mul_cancel_right] at h2
  rw [h2, ← halfTr_inv (g * _), _root_.mul_inv_rev, inv_inv]

/-- A distribution on the group seen as a distribution on the links a hit can reach. -/
theorem orbit_split (haar : Measure (SUN N)) [IsProbabilityMeasure haar] [haar.IsMulLeftInvariant] (haar2 : Measure (SUN 2)) [IsProbabilityMeasure haar2]
    (pq : Fin N × Fin N) (Φ : SUN N → ℝ≥0∞) (hΦ : Measurable Φ) : ∫⁻ U, ∫⁻ g, Φ (embSU pq g * U) ∂haar2 ∂haar = ∫⁻ U, Φ U ∂haar := by
  have hcm : Measurable fun x : SUN N × SUN 2 => embSU pq x.2 * x.1 := ((embSU_continuous pq).measurable.comp measurable_snd).mul measurable_fst
  have hj : Measurable fun x : SUN N × SUN 2 => Φ (embSU pq x.2 * x.1) := hΦ.comp hcm
  rw [lintegral_lintegral_swap hj.aemeasurable]
  have e : ∀ g, ∫⁻ U, Φ (embSU pq g * U) ∂haar = ∫⁻ U, Φ U ∂haar := fun g => lintegral_mul_left_eq_self Φ (embSU pq g)
  simp only [e, lintegral_const, measure_univ, mul_one]

theorem reflect_invariant (haar2 : Measure (SUN 2)) [IsProbabilityMeasure haar2] [haar2.IsMulLeftInvariant] (V W : SUN 2) (Φ : SUN 2 → ℝ≥0∞) (hΦ : Measurable Φ) :
    ∫⁻ g, Φ (V * g⁻¹ * W) ∂haar2 = ∫⁻ g, Φ g ∂haar2 := by
  have h1 : Measurable fun g => Φ (V * g * W) := hΦ.comp ((measurable_const.mul measurable_id).mul measurable_const)
  have h2 : Measurable fun g => Φ (g * W) := hΦ.comp (measurable_id.mul measurable_const)
  calc ∫⁻ g, Φ (V * g⁻¹ * W) ∂haar2 = ∫⁻ g, Φ (V * g * W) ∂haar2 := by
        conv_rhs => rw [← invariant_inv haar2]
        rw [lintegral_map h1 continuous_inv.measurable]
    _ = ∫⁻ g, Φ (g * W) ∂haar2 := lintegral_mul_left_eq_self (fun g => Φ (g * W)) V
    _ = ∫⁻ g, Φ g ∂haar2 := by
        conv_rhs => rw [← invariant_right haar2 W]
        rw [lintegral_map hΦ (continuous_mul_const W).measurable]

/-- A program on links that depends on a parameter, measurable in both. -/
def LinkMeas {P : Type} [MeasurableSpace P] (prog : P → Option (SUN N)) : Prop :=
  ∀ F : P → SUN N → ℝ≥0∞, Measurable (fun x : P × SUN N => F x.1 x.2) → Measurable fun p => atResult (F p) (prog p)

theorem orHit_meas (pq : Fin N × Fin N) {P : Type} [MeasurableSpace P] (f : P → SUN N) (hf : Measurable f) (S : P → Matrix (Fin N) (Fin N) ℂ)
    (hS : ∀ i j, Measurable fun p => ((f p).1 * (S p)ᴴ) i j) : LinkMeas fun p => orHit (S p) pq (f p) := by
  intro F hF
  have hz : Measurable fun p => hitLength ((f p).1 * (S p)ᴴ) pq := hitLength_measurable pq hS
  have hv : Measurable fun p => toSU (subVec ((f p).1 * (S p)ᴴ) pq) := toSU_measurable.comp (subVec_measurable pq hS)
  have e : (fun p => atResult (F p) (orHit (S p) pq (f p))) = fun p => if hitLength ((f p).1 * (S p)ᴴ) pq = 0 then 0 else
      F p (embSU pq (toSU (subVec ((f p).1 * (S p)ᴴ) pq) * toSU (subVec ((f p).1 * (S p)ᴴ) pq)) * f p) := by
    funext p
    unfold orHit
    split <;> rfl
  rw [e]
  refine Measurable.ite (measurableSet_eq_fun hz measurable_const) measurable_const ?_
  have a : Measurable fun p => embSU pq (toSU (subVec ((f p).1 * (S p)ᴴ) pq) * toSU (subVec ((f p).1 * (S p)ᴴ) pq)) :=
    (embSU_continuous pq).measurable.comp (hv.mul hv)
  exact hF.comp (measurable_id.prodMk (a.mul hf))

/-- A hit keeps the weights. -/
theorem orHit_dom (haar : Measure (SUN N)) [IsProbabilityMeasure haar] [haar.IsMulLeftInvariant] (b3 : ℝ) (S : Matrix (Fin N) (Fin N) ℂ)
    (pq : Fin N × Fin N) (hpq : pq.1 ≠ pq.2) (F : SUN N → ℝ≥0∞) (hF : Measurable F) :
    ∫⁻ U, linkWeight b3 S U * atResult F (orHit S pq U) ∂haar ≤ ∫⁻ U, linkWeight b3 S U * F U ∂haar := by
  obtain ⟨haar2, hp2, hi2⟩ : ∃ μ : Measure (SUN 2), IsProbabilityMeasure μ ∧ μ.IsMulLeftInvariant :=
    ⟨Measure.haarMeasure ⊤, ⟨Measure.haarMeasure_self⟩, inferInstance⟩
  have hA : Continuous fun U : SUN N => U.1 * Sᴴ := (continuous_subtype_val : Continuous fun h : SUN N => h.1).mul continuous_const
  have hw := linkWeight_measurable b3 S
  have hm : Measurable fun U : SUN N => atResult F (orHit S pq U) :=
    orHit_meas pq (fun U : SUN N => U) measurable_id (fun _ => S) (fun i j => (hA.matrix_elem i j).measurable) (fun _ => F) (hF.comp measurable_snd)
  refine (orbit_split haar haar2 pq _ (hw.mul hm)).symm.le.trans (le_trans ?_ (orbit_split haar haar2 pq _ (hw.mul hF)).le)
  refine lintegral_mono fun U => ?_
  simp only [Pi.mul_apply]
  have ha : ∀ g : SUN 2, ((embSU pq g * U).1 * Sᴴ) = (embSU pq g).1 * (U.1 * Sᴴ) := fun k => Matrix.mul_assoc _ _ _
  by_cases hz : hitLength (U.1 * Sᴴ) pq = 0
  · have : ∀ g : SUN 2, orHit S pq (embSU pq g * U) = none := fun g => by
      unfold orHit
      rw [if_pos]
      rw [ha, (hit_equivariant _ pq hpq g).1, hz]
    simp only [this, atResult, mul_zero, lintegral_zero]
    exact bot_le
  · have h1 : ∀ g : SUN 2, orHit S pq (embSU pq g * U) = some (embSU pq (toSU (subVec (U.1 * Sᴴ) pq) * g⁻¹ * toSU (subVec (U.1 * Sᴴ) pq)) * U) := fun g => by
      unfold orHit
      rw [if_neg (by rw [ha, (hit_equivariant _ pq hpq g).1]; exact hz), ha, (hit_equivariant _ pq hpq g).2 hz, ← mul_assoc, ← embSU_mul hpq]
      congr 3
      group
    have h2 : ∀ g : SUN 2, linkWeight b3 S (embSU pq g * U) * atResult F (orHit S pq (embSU pq g * U)) =
        (fun k => linkWeight b3 S (embSU pq k * U) * F (embSU pq k * U)) (toSU (subVec (U.1 * Sᴴ) pq) * g⁻¹ * toSU (subVec (U.1 * Sᴴ) pq)) := fun g => by
      rw [h1]
      simp only [atResult]
      rw [orHit_weight b3 S pq hpq U hz g]
    have hmg : Measurable fun g : SUN 2 => embSU pq g * U := (embSU_continuous pq).measurable.mul_const U
    simp only [h2]
    exact le_of_eq (reflect_invariant haar2 _ _ _ ((hw.comp hmg).mul (hF.comp hmg)))

/-- All hits of an overrelaxation update. -/
noncomputable def orHits (S : Matrix (Fin N) (Fin N) ℂ) (l : List (Fin N × Fin N)) (U : SUN N) : Option (SUN N) := l.foldlM (fun U pq => orHit S pq U) U

theorem orHits_spec (S : Matrix (Fin N) (Fin N) ℂ) (l : List (Fin N × Fin N)) (hl : ∀ pq ∈ l, pq.1 ≠ pq.2) (U : SUN N) :
    l.foldlM overrelaxHit (U.1, U.1 * Sᴴ) = (orHits S l U).map fun V => (V.1, V.1 * Sᴴ) := by
  induction l generalizing U with
  | nil => rfl
  | cons pq l ih =>
    unfold orHits
    rw [List.foldlM_cons, List.foldlM_cons, orHit_spec S pq (hl pq List.mem_cons_self)]
    cases orHit S pq U with
    | none => rfl
    | some V => exact ih (fun x hx => hl x (List.mem_cons_of_mem _ hx)) V

theorem suNOverrelax_eq (S : Matrix (Fin N) (Fin N) ℂ) (U : SUN N) : suNOverrelax U.1 S = (orHits S (subgroups N) U).map Subtype.val := by
  unfold suNOverrelax
  rw [orHits_spec S (subgroups N) (fun pq hpq => subgroups_ne pq hpq)]
  cases orHits S (subgroups N) U <;> rfl

theorem orHits_meas (l : List (Fin N × Fin N)) {P : Type} [MeasurableSpace P] (f : P → SUN N) (hf : Measurable f) (S : P → Matrix (Fin N) (Fin N) ℂ)
    (hS : ∀ i j, Measurable fun p => S p i j) : LinkMeas fun p => orHits (S p) l (f p) := by
  induction l generalizing P with
  | nil =>
    intro F hF
    exact hF.comp (measurable_id.prodMk hf)
  | cons pq l ih =>
    intro F hF
    have e : ∀ p, atResult (F p) (orHits (S p) (pq :: l) (f p)) = atResult (fun V => atResult (F p) (orHits (S p) l V)) (orHit (S p) pq (f p)) := fun p => by
      unfold orHits
      rw [List.foldlM_cons]
      exact atResult_bind _ _ _
    simp only [e]
    refine orHit_meas pq f hf S (fun i j => ?_) (fun p V => atResult (F p) (orHits (S p) l V)) ?_
    · simp only [Matrix.mul_apply, Matrix.conjTranspose_apply]
      refine Finset.measurable_sum _ fun k _ => ?_
      have h1 : Measurable fun p => (f p).1 i k := ((continuous_subtype_val : Continuous fun h : SUN N => h.1).matrix_elem i k).measurable.comp hf
      exact h1.mul (continuous_star.measurable.comp (hS j k))
    · exact ih (P := P × SUN N) Prod.snd measurable_snd (fun x => S x.1) (fun i j => (hS i j).comp measurable_fst) (fun x => F x.1)
        (hF.comp ((measurable_fst.comp measurable_fst).prodMk measurable_snd))

theorem orHits_dom (haar : Measure (SUN N)) [IsProbabilityMeasure haar] [haar.IsMulLeftInvariant] (b3 : ℝ) (S : Matrix (Fin N) (Fin N) ℂ)
    (l : List (Fin N × Fin N)) (hl : ∀ pq ∈ l, pq.1 ≠ pq.2) (F : SUN N → ℝ≥0∞) (hF : Measurable F) :
    ∫⁻ U, linkWeight b3 S U * atResult F (orHits S l U) ∂haar ≤ ∫⁻ U, linkWeight b3 S U * F U ∂haar := by
  induction l with
  | nil => exact le_rfl
  | cons pq l ih =>
    have e : ∀ U, atResult F (orHits S (pq :: l) U) = atResult (fun V => atResult F (orHits S l V)) (orHit S pq U) := fun U => by
      unfold orHits
      rw [List.foldlM_cons]
      exact atResult_bind _ _ _
    simp only [e]
    have hm : Measurable fun V => atResult F (orHits S l V) :=
      orHits_meas l (fun U : SUN N => U) measurable_id (fun _ => S) (fun i j => measurable_const) (fun _ => F) (hF.comp measurable_snd)
    exact (orHit_dom haar b3 S pq (hl pq List.mem_cons_self) _ hm).trans (ih fun x hx => hl x (List.mem_cons_of_mem _ hx))

end Hila
