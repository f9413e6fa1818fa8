import Verif.Model.SpinSim
import Verif.Model.SpinSpec
import Verif.Lemmas.SiteChain
import Verif.Lemmas.Stagg
import Mathlib.MeasureTheory.Function.SpecialFunctions.Basic
import Mathlib.MeasureTheory.Function.JacobianOneDim
import Mathlib.MeasureTheory.Integral.IntervalIntegral.Periodic

/-!
# Lemmas for C88: one site and one loop of ising and xy
-/

set_option linter.unusedSectionVars false

namespace Hila

open MeasureTheory Function
open scoped ENNReal

variable {R : Type} [Fintype R] [DecidableEq R] {L : Fin 2 → ℕ} [∀ d, NeZero (L d)]

/-! ### The energy of one site -/

theorem spinStep_ne (hL : ∀ d, Even (L d)) (d : Fin 2) : (unitStep d : PSite L) ≠ 0 := by
  intro h
  have h1 := congrFun h d
  have : Fact (1 < L d) := ⟨by
    obtain ⟨k, hk⟩ := hL d
    have := NeZero.ne (L d)
    omega⟩
  simp [unitStep] at h1

/-- Change of a sum over links when one site changes. -/
theorem pair_update (hL : ∀ d, Even (L d)) (φ : ℝ → ℝ → ℝ) (s : PSite L → ℝ) (x : PSite L) (c : ℝ) :
    ∑ y, ∑ d, φ (update s x c y) (update s x c (y + unitStep d)) = ∑ y, ∑ d, φ (s y) (s (y + unitStep d)) +
      ∑ d, (φ c (s (x + unitStep d)) + φ (s (x - unitStep d)) c - φ (s x) (s (x + unitStep d)) - φ (s (x - unitStep d)) (s x)) := by
  rw [Finset.sum_comm, Finset.sum_comm (f := fun y d => φ (s y) (s (y + unitStep d))), ← Finset.sum_add_distrib]
  refine Finset.sum_congr rfl fun d _ => ?_
  rw [← sub_eq_iff_eq_add', ← Finset.sum_sub_distrib]
  have hne : x ≠ x - unitStep d := fun h => spinStep_ne hL d (by simpa using h.symm)
  have hne2 : x + unitStep d ≠ x := fun h => spinStep_ne hL d (by simpa using h)
  rw [Fintype.sum_eq_add x (x - unitStep d) hne]
  · rw [update_self, update_of_ne hne2, sub_add_cancel, update_self, update_of_ne hne.symm]
    ring
  · rintro y ⟨h1, h2⟩
    have h3 : y + unitStep d ≠ x := fun h => h2 (by rw [← h, add_sub_cancel_right])
    rw [update_of_ne h1, update_of_ne h3, sub_self]

/-- The loop reads the current values of the neighbours. -/
theorem stale_loop {F : (PSite L → ℝ) → SpinState L R → PSite L → SpinState L R} (hL : ∀ d, Even (L d)) {p : Parity} (hp : p = .even ∨ p = .odd)
    (hF1 : ∀ old st x y, y ≠ x → (F old st x).1 y = st.1 y)
    (hF2 : ∀ old st x, (∀ d, old (x + unitStep d) = st.1 (x + unitStep d) ∧ old (x - unitStep d) = st.1 (x - unitStep d)) → F old st x = F st.1 st x)
    (sites : List (PSite L)) (hs : ∀ x ∈ sites, VisitsPar p x) (old : PSite L → ℝ) (st : SpinState L R) (h : ∀ y, ¬ VisitsPar p y → old y = st.1 y) :
    sites.foldl (F old) st = sites.foldl (fun st x => F st.1 st x) st := by
  induction sites generalizing st with
  | nil => rfl
  | cons x sites ih =>
    have hx := hs x List.mem_cons_self
    have hopp : ∀ y : PSite L, VisitsPar (oppParity p) y → ¬ VisitsPar p y := by
      intro y h1 h2
      rcases hp with rfl | rfl
      · have h1' : (∑ d, (y d).val) % 2 = 1 := h1
        have h2' : (∑ d, (y d).val) % 2 = 0 := h2
        omega
      · have h1' : (∑ d, (y d).val) % 2 = 0 := h1
        have h2' : (∑ d, (y d).val) % 2 = 1 := h2
        omega
    have e : F old st x = F st.1 st x := hF2 old st x fun d =>
      ⟨h _ (hopp _ ((visits_fwd (Or.inr hL) x d).2 hx)), h _ (hopp _ ((visits_bwd (Or.inr hL) x d).2 hx))⟩
    simp only [List.foldl_cons]
    rw [e]
    refine ih (fun y hy => hs y (List.mem_cons_of_mem _ hy)) _ fun y hy => ?_
    rw [hF1 _ _ _ _ (by rintro rfl; exact hy hx)]
    exact h y hy

theorem drawAt_eq (r : R) (ω : R → ℕ → ℝ) : drawAt r ω = (ω r 0, update ω r (shiftBy 1 (ω r))) := rfl

theorem drawAt_preserving (r : R) : MeasurePreserving (drawAt r) (rankStreams R) (unif01.prod (rankStreams R)) := draw_preserving r

instance : IsProbabilityMeasure (rankStreams R) := by unfold rankStreams; infer_instance

theorem lintegral_drawAt (r : R) (F : ℝ → (R → ℕ → ℝ) → ℝ≥0∞) (hF : Measurable fun z : ℝ × (R → ℕ → ℝ) => F z.1 z.2) :
    ∫⁻ ω, F (drawAt r ω).1 (drawAt r ω).2 ∂rankStreams R = ∫⁻ a, ∫⁻ ω, F a ω ∂rankStreams R ∂unif01 := by
  have h := (drawAt_preserving r).lintegral_comp hF
  rw [h, lintegral_prod _ hF.aemeasurable]

/-! ### Ising -/

/-- The sum of the neighbours. -/
def nbSum (s : PSite L → ℝ) (x : PSite L) : ℝ := s (x + unitStep 0) + s (x - unitStep 0) + s (x + unitStep 1) + s (x - unitStep 1)

theorem isingAction_update (hL : ∀ d, Even (L d)) (beta : ℝ) (s : PSite L → ℝ) (x : PSite L) (c : ℝ) :
    isingAction beta (update s x c) = isingAction beta s - beta * (c - s x) * nbSum s x := by
  unfold isingAction nbSum
  rw [pair_update hL (fun a b => -beta * (a * b)), Fin.sum_univ_two]
  ring

theorem nbSum_update (hL : ∀ d, Even (L d)) (s : PSite L → ℝ) (x : PSite L) (c : ℝ) : nbSum (update s x c) x = nbSum s x := by
  have h1 : ∀ d, x + unitStep d ≠ x := fun d h => spinStep_ne hL d (by simpa using h)
  have h2 : ∀ d, x - unitStep d ≠ x := fun d h => spinStep_ne hL d (by simpa using h)
  unfold nbSum
  rw [update_of_ne (h1 0), update_of_ne (h2 0), update_of_ne (h1 1), update_of_ne (h2 1)]

theorem isingSite_cur (beta : ℝ) (own : PSite L → R) (stale : PSite L → Fin 2 → Bool → Bool) (st : SpinState L R) (x : PSite L) :
    isingSite beta own stale st.1 st x = (update st.1 x (if (drawAt (own x) st.2).1 < Real.exp (-beta * (2.0 * st.1 x * nbSum st.1 x)) then -st.1 x else st.1 x),
      (drawAt (own x) st.2).2) := by
  unfold isingSite readNb nbSum
  simp only [ite_self, if_true, Bool.false_eq_true, if_false]
  split
  · rfl
  · rw [update_eq_self]

theorem isingSite_upd (beta : ℝ) (own : PSite L → R) (stale : PSite L → Fin 2 → Bool → Bool) (old : PSite L → ℝ) (st : SpinState L R) (x : PSite L) :
    ∃ c, (isingSite beta own stale old st x).1 = update st.1 x c := by
  unfold isingSite
  extract_lets rd deltaS r
  by_cases h : r.1 < Real.exp (-beta * deltaS)
  · rw [if_pos h]; exact ⟨_, rfl⟩
  · rw [if_neg h]; exact ⟨st.1 x, (update_eq_self _ _).symm⟩

theorem isingAction_measurable (beta : ℝ) : Measurable (isingAction (L := L) beta) := by
  unfold isingAction; fun_prop

theorem nbSum_measurable (x : PSite L) : Measurable fun s : PSite L → ℝ => nbSum s x := by
  unfold nbSum; fun_prop

theorem drawAt_measurable (r : R) : Measurable (drawAt r) := (drawAt_preserving r).measurable

instance : SigmaFinite (Measure.dirac (1 : ℝ) + Measure.dirac (-1)) := inferInstance

theorem isingSite_preserving (hL : ∀ d, Even (L d)) (beta : ℝ) (own : PSite L → R) (stale : PSite L → Fin 2 → Bool → Bool) (x : PSite L) :
    MeasurePreserving (fun st => isingSite beta own stale st.1 st x) ((boltzmann (isingSpins L) (isingAction beta)).prod (rankStreams R))
      ((boltzmann (isingSpins L) (isingAction beta)).prod (rankStreams R)) := by
  simp only [isingSite_cur]
  have hS := isingAction_measurable (L := L) beta
  have hn := nbSum_measurable x
  have hd := drawAt_measurable (own x)
  refine site_keeps (fun _ => Measure.dirac 1 + Measure.dirac (-1)) (rankStreams R) (fun U => ENNReal.ofReal (Real.exp (-isingAction beta U))) (by fun_prop) x
    (fun s ω => if (drawAt (own x) ω).1 < Real.exp (-beta * (2.0 * s x * nbSum s x)) then -s x else s x) (fun _ ω => (drawAt (own x) ω).2) ?_ (by fun_prop) ?_
  · exact Measurable.ite (measurableSet_lt (by fun_prop) (by fun_prop)) (by fun_prop) (by fun_prop)
  · intro s F hF
    simp only [update_self, nbSum_update hL, isingAction_update hL]
    have hΦ : Measurable fun c => ∫⁻ ω, F (c, ω) ∂rankStreams R := hF.lintegral_prod_right'
    have hR : MeasurePreserving (fun c : ℝ => -c) (Measure.dirac (1 : ℝ) + Measure.dirac (-1)) (Measure.dirac (1 : ℝ) + Measure.dirac (-1)) := by
      refine ⟨measurable_neg, ?_⟩
      rw [Measure.map_add _ _ measurable_neg, Measure.map_dirac' measurable_neg, Measure.map_dirac' measurable_neg, neg_neg, add_comm]
    have h := metropolis_lintegral _ hR (fun c => neg_neg c) (H := fun c => isingAction beta s - beta * (c - s x) * nbSum s x) (by fun_prop) hΦ
    rw [← h]
    refine lintegral_congr fun c => ?_
    congr 1
    have e := lintegral_drawAt (own x) (fun a ω => F (if a < Real.exp (-beta * (2.0 * c * nbSum s x)) then -c else c, ω)) (by
      refine hF.comp (Measurable.prodMk (Measurable.ite (measurableSet_lt (by fun_prop) (by fun_prop)) (by fun_prop) (by fun_prop)) (by fun_prop)))
    rw [e]
    show _ = ∫⁻ r, _ ∂unif01
    refine lintegral_congr fun a => ?_
    rw [show -(isingAction beta s - beta * (-c - s x) * nbSum s x - (isingAction beta s - beta * (c - s x) * nbSum s x)) = -beta * (2.0 * c * nbSum s x) by
      norm_num; ring]
    split <;> rfl

theorem isingLoop_preserving (hL : ∀ d, Even (L d)) (beta : ℝ) (own : PSite L → R) (stale : PSite L → Fin 2 → Bool → Bool) {p : Parity}
    (hp : p = .even ∨ p = .odd) (sites : List (PSite L)) (hs : ∀ x ∈ sites, VisitsPar p x) :
    MeasurePreserving (isingLoop beta own stale sites) ((boltzmann (isingSpins L) (isingAction beta)).prod (rankStreams R))
      ((boltzmann (isingSpins L) (isingAction beta)).prod (rankStreams R)) := by
  have e : isingLoop beta own stale sites = fun st => sites.foldl (fun st x => isingSite beta own stale st.1 st x) st := by
    funext st
    refine stale_loop hL hp (fun old st x y hy => ?_) (fun old st x h => ?_) sites hs st.1 st (fun _ _ => rfl)
    · obtain ⟨c, hc⟩ := isingSite_upd beta own stale old st x
      rw [hc]
      exact update_of_ne hy _ _
    · unfold isingSite readNb
      simp only [if_true, Bool.false_eq_true, if_false, (h _).1, (h _).2, ite_self]
  rw [e]
  exact foldl_preserving _ (fun x st => isingSite beta own stale st.1 st x) sites fun x _ => isingSite_preserving hL beta own stale x

theorem oppParity_eo {p : Parity} (hp : p = .even ∨ p = .odd) : oppParity p = .even ∨ oppParity p = .odd := by
  rcases hp with rfl | rfl
  · exact Or.inr rfl
  · exact Or.inl rfl

/-! ### xy -/

/-- The cosines with the neighbours of a site. -/
noncomputable def nbCos (s : PSite L → ℝ) (x : PSite L) (t : ℝ) : ℝ := xySum (fun d up => s (if up then x + unitStep d else x - unitStep d)) t

/-- The angle after the step of the program. -/
noncomputable def xyNew (c a : ℝ) : ℝ :=
  let t := c + Real.pi * (1 - 2 * a)
  if t < -Real.pi then t + 2.0 * Real.pi else if t > Real.pi then t - 2.0 * Real.pi else t

theorem nbCos_new (s : PSite L → ℝ) (x : PSite L) (c a : ℝ) : nbCos s x (xyNew c a) = nbCos s x (c + Real.pi * (1 - 2 * a)) := by
  have h1 : ∀ y t : ℝ, Real.cos (y - (t + 2.0 * Real.pi)) = Real.cos (y - t) := fun y t => by
    rw [show y - (t + 2.0 * Real.pi) = y - t - 2 * Real.pi by norm_num; ring, Real.cos_sub_two_pi]
  have h2 : ∀ y t : ℝ, Real.cos (y - (t - 2.0 * Real.pi)) = Real.cos (y - t) := fun y t => by
    rw [show y - (t - 2.0 * Real.pi) = y - t + 2 * Real.pi by norm_num; ring, Real.cos_add_two_pi]
  have h3 : ∀ t, (xyNew c a = t + 2.0 * Real.pi ∨ xyNew c a = t - 2.0 * Real.pi ∨ xyNew c a = t) → nbCos s x (xyNew c a) = nbCos s x t := by
    unfold nbCos xySum
    rintro t (h | h | h) <;> rw [h]
    · simp only [h1]
    · simp only [h2]
  refine h3 _ ?_
  unfold xyNew
  extract_lets t
  by_cases h : t < -Real.pi
  · rw [if_pos h]; exact Or.inl rfl
  · rw [if_neg h]
    by_cases h' : t > Real.pi
    · rw [if_pos h']; exact Or.inr (Or.inl rfl)
    · rw [if_neg h']; exact Or.inr (Or.inr rfl)

theorem xyAction_update (hL : ∀ d, Even (L d)) (beta : ℝ) (s : PSite L → ℝ) (x : PSite L) (c : ℝ) :
    xyAction beta (update s x c) = xyAction beta s - beta * (nbCos s x c - nbCos s x (s x)) := by
  unfold xyAction nbCos xySum
  rw [pair_update hL (fun a b => -beta * Real.cos (a - b)), Fin.sum_univ_two]
  simp only [if_true, Bool.false_eq_true, if_false]
  rw [← Real.cos_neg (c - _), ← Real.cos_neg (s x - s (x + unitStep 0)), ← Real.cos_neg (s x - s (x + unitStep 1)), ← Real.cos_neg (c - s (x + unitStep 1))]
  simp only [neg_sub]
  ring

theorem nbCos_update (hL : ∀ d, Even (L d)) (s : PSite L → ℝ) (x : PSite L) (c t : ℝ) : nbCos (update s x c) x t = nbCos s x t := by
  have h1 : ∀ d, x + unitStep d ≠ x := fun d h => spinStep_ne hL d (by simpa using h)
  have h2 : ∀ d, x - unitStep d ≠ x := fun d h => spinStep_ne hL d (by simpa using h)
  unfold nbCos xySum
  simp only [if_true, Bool.false_eq_true, if_false]
  rw [update_of_ne (h1 0), update_of_ne (h2 0), update_of_ne (h1 1), update_of_ne (h2 1)]

/-- The difference that the program computes. -/
noncomputable def xyDelta (s : PSite L → ℝ) (x : PSite L) (c a : ℝ) : ℝ := nbCos s x c - nbCos s x (xyNew c a)

theorem xySite_cur (beta : ℝ) (own : PSite L → R) (stale : PSite L → Fin 2 → Bool → Bool) (st : SpinState L R) (x : PSite L) :
    xySite beta own stale st.1 st x =
      (update st.1 x (if xyDelta st.1 x (st.1 x) (drawAt (own x) st.2).1 < 0 then xyNew (st.1 x) (drawAt (own x) st.2).1
        else if (drawAt (own x) (drawAt (own x) st.2).2).1 < Real.exp (-beta * xyDelta st.1 x (st.1 x) (drawAt (own x) st.2).1)
          then xyNew (st.1 x) (drawAt (own x) st.2).1 else st.1 x),
      if xyDelta st.1 x (st.1 x) (drawAt (own x) st.2).1 < 0 then (drawAt (own x) st.2).2 else (drawAt (own x) (drawAt (own x) st.2).2).2) := by
  unfold xySite xyDelta
  rw [nbCos_new]
  unfold readNb nbCos
  simp only [ite_self]
  split
  · rfl
  · split
    · rfl
    · rw [update_eq_self]

theorem xySite_upd (beta : ℝ) (own : PSite L → R) (stale : PSite L → Fin 2 → Bool → Bool) (old : PSite L → ℝ) (st : SpinState L R) (x : PSite L) :
    ∃ c, (xySite beta own stale old st x).1 = update st.1 x c := by
  unfold xySite
  extract_lets rd tspin r tnspin deltaS new q
  by_cases h : deltaS < 0
  · rw [if_pos h]; exact ⟨_, rfl⟩
  · rw [if_neg h]
    by_cases h2 : q.1 < Real.exp (-beta * deltaS)
    · rw [if_pos h2]; exact ⟨_, rfl⟩
    · rw [if_neg h2]; exact ⟨st.1 x, (update_eq_self _ _).symm⟩

/-- The proposed angle is uniform. -/
theorem xyNew_lintegral {c : ℝ} (hc : c ∈ Set.Icc (-Real.pi) Real.pi) (G : ℝ → ℝ≥0∞) :
    ENNReal.ofReal (2 * Real.pi) * ∫⁻ a, G (xyNew c a) ∂unif01 = ∫⁻ t in Set.Icc (-Real.pi) Real.pi, G t := by
  have hpi := Real.pi_pos
  have hT : (0 : ℝ) < 2 * Real.pi := by positivity
  have h := lintegral_image_eq_lintegral_abs_deriv_mul (s := Set.Ico (0 : ℝ) 1) (f := fun a => c + Real.pi * (1 - 2 * a)) (f' := fun _ => -(2 * Real.pi))
    measurableSet_Ico (fun a _ => by
      have h1 := ((((hasDerivAt_id a).const_mul 2).const_sub 1).const_mul Real.pi).const_add c
      have h2 : HasDerivAt (fun a : ℝ => c + Real.pi * (1 - 2 * a)) (-(2 * Real.pi)) a := by
        exact h1.congr_deriv (by ring)
      exact h2.hasDerivWithinAt) (fun a _ b _ hab => by
      have : Real.pi * (1 - 2 * a) = Real.pi * (1 - 2 * b) := by simpa using hab
      have := mul_left_cancel₀ hpi.ne' this
      linarith) (fun t => G (toIocMod hT (-Real.pi) t))
  have himg : (fun a : ℝ => c + Real.pi * (1 - 2 * a)) '' Set.Ico (0 : ℝ) 1 = Set.Ioc (c - Real.pi) (c - Real.pi + 2 * Real.pi) := by
    ext t
    constructor
    · rintro ⟨a, ⟨h1, h2⟩, rfl⟩
      constructor <;> simp only [] <;> nlinarith
    · rintro ⟨h1, h2⟩
      refine ⟨(c + Real.pi - t) / (2 * Real.pi), ⟨div_nonneg (by linarith) hT.le, (div_lt_one hT).2 (by linarith)⟩, ?_⟩
      simp only []
      field_simp
      ring
  rw [himg] at h
  have hdom := (isAddFundamentalDomain_Ioc hT (c - Real.pi)).setLIntegral_eq (isAddFundamentalDomain_Ioc hT (-Real.pi)) (μ := volume)
    (fun t => G (toIocMod hT (-Real.pi) t)) (by
      rintro ⟨g, hg⟩ t
      obtain ⟨k, rfl⟩ := AddSubgroup.mem_zmultiples_iff.1 hg
      show G (toIocMod hT (-Real.pi) (k • (2 * Real.pi) + t)) = _
      rw [toIocMod_zsmul_add])
  rw [hdom] at h
  have e1 : ∫⁻ t in Set.Ioc (-Real.pi) (-Real.pi + 2 * Real.pi), G (toIocMod hT (-Real.pi) t) = ∫⁻ t in Set.Icc (-Real.pi) Real.pi, G t := by
    rw [show -Real.pi + 2 * Real.pi = Real.pi by ring, ← restrict_Ioc_eq_restrict_Icc]
    refine setLIntegral_congr_fun measurableSet_Ioc fun t ht => ?_
    rw [(toIocMod_eq_self hT).2 (by rw [show -Real.pi + 2 * Real.pi = Real.pi by ring]; exact ht)]
  rw [← e1, h, lintegral_const_mul' _ _ ENNReal.ofReal_ne_top, abs_neg, abs_of_pos hT]
  congr 1
  refine setLIntegral_congr_fun_ae measurableSet_Ico ?_
  have hz : ∀ᵐ a : ℝ, a ≠ (c + Real.pi + Real.pi) / (2 * Real.pi) := by
    rw [ae_iff]; simp
  filter_upwards [hz] with a ha hab
  have ht : c + Real.pi * (1 - 2 * a) ≠ -Real.pi := fun h => ha (by field_simp; linarith)
  have hb1 : -Real.pi - Real.pi < c + Real.pi * (1 - 2 * a) := by nlinarith [hab.1, hab.2, hc.1, hc.2]
  have hb2 : c + Real.pi * (1 - 2 * a) ≤ Real.pi + Real.pi := by nlinarith [hab.1, hab.2, hc.1, hc.2]
  congr 1
  unfold xyNew
  extract_lets t
  have ht' : t ≠ -Real.pi := ht
  have hb1' : -Real.pi - Real.pi < t := hb1
  have hb2' : t ≤ Real.pi + Real.pi := hb2
  show _ = toIocMod hT (-Real.pi) t
  split
  · rw [← toIocMod_add_right hT, (toIocMod_eq_self hT).2 ⟨by linarith, by linarith⟩]; norm_num
  · split
    · rw [← toIocMod_sub hT, (toIocMod_eq_self hT).2 ⟨by linarith, by linarith⟩]; norm_num
    · rw [(toIocMod_eq_self hT).2 ⟨lt_of_le_of_ne (by linarith) ht'.symm, by linarith⟩]

theorem xyNew_measurable : Measurable fun z : ℝ × ℝ => xyNew z.1 z.2 := by
  unfold xyNew
  exact Measurable.ite (measurableSet_lt (by fun_prop) (by fun_prop)) (by fun_prop) (Measurable.ite (measurableSet_lt (by fun_prop) (by fun_prop)) (by fun_prop) (by fun_prop))

theorem nbCos_measurable (x : PSite L) : Measurable fun z : (PSite L → ℝ) × ℝ => nbCos z.1 x z.2 := by
  unfold nbCos xySum; fun_prop

theorem xyAction_measurable (beta : ℝ) : Measurable (xyAction (L := L) beta) := by
  unfold xyAction; fun_prop

attribute [local irreducible] nbCos xyNew drawAt

/-- The value and the streams after one site. -/
noncomputable def xyVal (beta : ℝ) (r : R) (x : PSite L) (s : PSite L → ℝ) (c : ℝ) (ω : R → ℕ → ℝ) : ℝ :=
  if xyDelta s x c (drawAt r ω).1 < 0 then xyNew c (drawAt r ω).1
  else if (drawAt r (drawAt r ω).2).1 < Real.exp (-beta * xyDelta s x c (drawAt r ω).1) then xyNew c (drawAt r ω).1 else c

/-- The streams after one site. -/
noncomputable def xyRest (r : R) (x : PSite L) (s : PSite L → ℝ) (c : ℝ) (ω : R → ℕ → ℝ) : R → ℕ → ℝ :=
  if xyDelta s x c (drawAt r ω).1 < 0 then (drawAt r ω).2 else (drawAt r (drawAt r ω).2).2

theorem xyDelta_measurable (x : PSite L) : Measurable fun z : (PSite L → ℝ) × ℝ × ℝ => xyDelta z.1 x z.2.1 z.2.2 := by
  unfold xyDelta
  have h1 : Measurable fun z : (PSite L → ℝ) × ℝ × ℝ => nbCos z.1 x z.2.1 :=
    (nbCos_measurable x).comp (by fun_prop : Measurable fun z : (PSite L → ℝ) × ℝ × ℝ => (z.1, z.2.1))
  have h3 : Measurable fun z : (PSite L → ℝ) × ℝ × ℝ => xyNew z.2.1 z.2.2 := xyNew_measurable.comp measurable_snd
  have h2 : Measurable fun z : (PSite L → ℝ) × ℝ × ℝ => nbCos z.1 x (xyNew z.2.1 z.2.2) :=
    (nbCos_measurable x).comp (measurable_fst.prodMk h3)
  exact h1.sub h2

attribute [local irreducible] xyDelta

/-- One site of xy: the number of the acceptance is as good as always drawn. -/
theorem xySite_lintegral {beta : ℝ} (hb : 0 ≤ beta) (r : R) (x : PSite L) (s : PSite L → ℝ) (c : ℝ) (F : ℝ × (R → ℕ → ℝ) → ℝ≥0∞) (hF : Measurable F) :
    ∫⁻ ω, F (xyVal beta r x s c ω, xyRest r x s c ω) ∂rankStreams R = ∫⁻ a, (∫⁻ b, (if b < Real.exp (-beta * xyDelta s x c a) then
      ∫⁻ ω, F (xyNew c a, ω) ∂rankStreams R else ∫⁻ ω, F (c, ω) ∂rankStreams R) ∂unif01) ∂unif01 := by
  have hN : Measurable fun a => xyNew c a := xyNew_measurable.comp (by fun_prop : Measurable fun a : ℝ => (c, a))
  have hD : Measurable fun a => xyDelta s x c a := (xyDelta_measurable x).comp (by fun_prop : Measurable fun a : ℝ => (s, c, a))
  have hd := drawAt_measurable r
  have m1 : Measurable fun z : ℝ × (R → ℕ → ℝ) => F (xyNew c z.1, z.2) := hF.comp ((hN.comp measurable_fst).prodMk measurable_snd)
  have m2 : Measurable fun z : ℝ × (R → ℕ → ℝ) => F (c, z.2) := hF.comp (by fun_prop)
  have m3 : Measurable fun z : ℝ × (R → ℕ → ℝ) => (if (drawAt r z.2).1 < Real.exp (-beta * xyDelta s x c z.1) then F (xyNew c z.1, (drawAt r z.2).2)
      else F (c, (drawAt r z.2).2)) := by
    refine Measurable.ite (measurableSet_lt (by fun_prop) (by fun_prop)) ?_ ?_
    · exact m1.comp (by fun_prop : Measurable fun z : ℝ × (R → ℕ → ℝ) => (z.1, (drawAt r z.2).2))
    · exact hF.comp (by fun_prop : Measurable fun z : ℝ × (R → ℕ → ℝ) => (c, (drawAt r z.2).2))
  have e := lintegral_drawAt r (fun a ω => if xyDelta s x c a < 0 then F (xyNew c a, ω) else
      if (drawAt r ω).1 < Real.exp (-beta * xyDelta s x c a) then F (xyNew c a, (drawAt r ω).2) else F (c, (drawAt r ω).2))
    (Measurable.ite (measurableSet_lt (by fun_prop) (by fun_prop)) m1 m3)
  refine Eq.trans ?_ (e.trans ?_)
  rotate_left
  · refine lintegral_congr fun a => ?_
    by_cases h : xyDelta s x c a < 0
    · simp only [if_pos h]
      show _ = ∫⁻ b in Set.Ico (0 : ℝ) 1, _
      rw [accept_lintegral _ (Real.exp_pos _).le, min_eq_left]
      · simp
      · exact Real.one_le_exp (by nlinarith)
    · simp only [if_neg h]
      have e2 := lintegral_drawAt r (fun b ω => if b < Real.exp (-beta * xyDelta s x c a) then F (xyNew c a, ω) else F (c, ω)) (by
        refine Measurable.ite (measurableSet_lt (by fun_prop) (by fun_prop)) ?_ m2
        exact m1.comp (by fun_prop : Measurable fun z : ℝ × (R → ℕ → ℝ) => (a, z.2)))
      rw [e2]
      refine lintegral_congr fun b => ?_
      split <;> rfl
  · refine lintegral_congr fun ω => ?_
    unfold xyVal xyRest
    by_cases h : xyDelta s x c (drawAt r ω).1 < 0
    · simp only [if_pos h]
    · simp only [if_neg h]
      split <;> rfl

/-- One site of xy keeps the weight. -/
theorem xySite_preserving (hL : ∀ d, Even (L d)) {beta : ℝ} (hb : 0 ≤ beta) (own : PSite L → R) (stale : PSite L → Fin 2 → Bool → Bool) (x : PSite L) :
    MeasurePreserving (fun st => xySite beta own stale st.1 st x) ((boltzmann (xyAngles L) (xyAction beta)).prod (rankStreams R))
      ((boltzmann (xyAngles L) (xyAction beta)).prod (rankStreams R)) := by
  simp only [xySite_cur]
  have hS := xyAction_measurable (L := L) beta
  have hd := drawAt_measurable (own x)
  have hN := xyNew_measurable
  have hD : Measurable fun z : (PSite L → ℝ) × (R → ℕ → ℝ) => xyDelta z.1 x (z.1 x) (drawAt (own x) z.2).1 :=
    (xyDelta_measurable x).comp (by fun_prop : Measurable fun z : (PSite L → ℝ) × (R → ℕ → ℝ) => (z.1, z.1 x, (drawAt (own x) z.2).1))
  have hN2 : Measurable fun z : (PSite L → ℝ) × (R → ℕ → ℝ) => xyNew (z.1 x) (drawAt (own x) z.2).1 :=
    hN.comp (by fun_prop : Measurable fun z : (PSite L → ℝ) × (R → ℕ → ℝ) => (z.1 x, (drawAt (own x) z.2).1))
  refine site_keeps (fun _ => volume.restrict (Set.Icc (-Real.pi) Real.pi)) (rankStreams R) (fun U => ENNReal.ofReal (Real.exp (-xyAction beta U)))
    (by fun_prop) x (fun s ω => xyVal beta (own x) x s (s x) ω) (fun s ω => xyRest (own x) x s (s x) ω) ?_ ?_ ?_
  · exact Measurable.ite (measurableSet_lt (by fun_prop) (by fun_prop)) (by fun_prop) (Measurable.ite (measurableSet_lt (by fun_prop) (by fun_prop)) hN2 (by fun_prop))
  · exact Measurable.ite (measurableSet_lt (by fun_prop) (by fun_prop)) (by fun_prop) (by fun_prop)
  · intro s F hF
    have eval : ∀ c ω, xyVal beta (own x) x (update s x c) (update s x c x) ω = xyVal beta (own x) x s c ω := fun c ω => by
      unfold xyVal xyDelta; simp only [nbCos_update hL, update_self]
    have erest : ∀ c ω, xyRest (own x) x (update s x c) (update s x c x) ω = xyRest (own x) x s c ω := fun c ω => by
      unfold xyRest xyDelta; simp only [nbCos_update hL, update_self]
    simp only [eval, erest, xySite_lintegral hb _ x s _ F hF]
    set Φ : ℝ → ℝ≥0∞ := fun c => ∫⁻ ω, F (c, ω) ∂rankStreams R with hΦdef
    have hΦ : Measurable Φ := hF.lintegral_prod_right'
    set H : ℝ → ℝ := fun c => xyAction beta (update s x c) with hHdef
    have hH : Measurable H := hS.comp (measurable_update s)
    set m : Measure ℝ := volume.restrict (Set.Icc (-Real.pi) Real.pi) with hm
    have hmet := metropolis_lintegral (m.prod m) (R := Prod.swap) Measure.measurePreserving_swap (fun z => Prod.swap_swap z) (H := fun z => H z.1)
      (hH.comp measurable_fst) (f := fun z => Φ z.1) (hΦ.comp measurable_fst)
    have h2pi : (0 : ℝ) < 2 * Real.pi := by have := Real.pi_pos; positivity
    have hdel : ∀ c a, -beta * xyDelta s x c a = -(H (xyNew c a) - H c) := fun c a => by
      simp only [hHdef, xyAction_update hL]
      unfold xyDelta
      ring
    have hmeas : Measurable fun z : ℝ × ℝ => ∫⁻ b in Set.Ico (0 : ℝ) 1, if b < Real.exp (-(H z.2 - H z.1)) then Φ z.2 else Φ z.1 := by
      simp only [accept_lintegral _ (Real.exp_pos _).le]
      fun_prop
    have k1 : ENNReal.ofReal (2 * Real.pi) * ∫⁻ c, ENNReal.ofReal (Real.exp (-H c)) * (∫⁻ a, (∫⁻ b, (if b < Real.exp (-beta * xyDelta s x c a) then
        Φ (xyNew c a) else Φ c) ∂unif01) ∂unif01) ∂m = ∫⁻ z, ENNReal.ofReal (Real.exp (-H z.1)) *
          (∫⁻ b in Set.Ico (0 : ℝ) 1, if b < Real.exp (-(H z.2 - H z.1)) then Φ z.2 else Φ z.1) ∂(m.prod m) := by
      rw [lintegral_prod _ (by fun_prop), ← lintegral_const_mul' _ _ ENNReal.ofReal_ne_top]
      refine setLIntegral_congr_fun measurableSet_Icc fun c hc => ?_
      simp only [hdel]
      rw [lintegral_const_mul' _ _ ENNReal.ofReal_ne_top, mul_left_comm]
      congr 1
      exact xyNew_lintegral hc (fun t => ∫⁻ b in Set.Ico (0 : ℝ) 1, if b < Real.exp (-(H t - H c)) then Φ t else Φ c)
    have k2 : ∫⁻ z, ENNReal.ofReal (Real.exp (-H z.1)) * Φ z.1 ∂(m.prod m) = ENNReal.ofReal (2 * Real.pi) * ∫⁻ c, ENNReal.ofReal (Real.exp (-H c)) * Φ c ∂m := by
      rw [lintegral_prod _ (by fun_prop), ← lintegral_const_mul' _ _ ENNReal.ofReal_ne_top]
      refine lintegral_congr fun c => ?_
      show ∫⁻ _, ENNReal.ofReal (Real.exp (-H c)) * Φ c ∂m = _
      rw [lintegral_const, hm, Measure.restrict_apply_univ, Real.volume_Icc, mul_comm, show Real.pi - -Real.pi = 2 * Real.pi by ring]
    exact (ENNReal.mul_right_inj (by simpa using h2pi) ENNReal.ofReal_ne_top).1 (k1.trans (hmet.trans k2))

theorem xyLoop_preserving (hL : ∀ d, Even (L d)) {beta : ℝ} (hb : 0 ≤ beta) (own : PSite L → R) (stale : PSite L → Fin 2 → Bool → Bool) {p : Parity}
    (hp : p = .even ∨ p = .odd) (sites : List (PSite L)) (hs : ∀ x ∈ sites, VisitsPar p x) :
    MeasurePreserving (xyLoop beta own stale sites) ((boltzmann (xyAngles L) (xyAction beta)).prod (rankStreams R))
      ((boltzmann (xyAngles L) (xyAction beta)).prod (rankStreams R)) := by
  have e : xyLoop beta own stale sites = fun st => sites.foldl (fun st x => xySite beta own stale st.1 st x) st := by
    funext st
    refine stale_loop hL hp (fun old st x y hy => ?_) (fun old st x h => ?_) sites hs st.1 st (fun _ _ => rfl)
    · obtain ⟨c, hc⟩ := xySite_upd beta own stale old st x
      rw [hc]
      exact update_of_ne hy _ _
    · unfold xySite readNb xySum
      simp only [if_true, Bool.false_eq_true, if_false, (h _).1, (h _).2, ite_self]
  rw [e]
  exact foldl_preserving _ (fun x st => xySite beta own stale st.1 st x) sites fun x _ => xySite_preserving hL hb own stale x

/-- Drawing a number with the state. -/
theorem drawState_preserving (B : Measure (PSite L → ℝ)) [SFinite B] (r : R) :
    MeasurePreserving (fun st : SpinState L R => ((drawAt r st.2).1, (st.1, (drawAt r st.2).2))) (B.prod (rankStreams R)) (unif01.prod (B.prod (rankStreams R))) := by
  have h1 := (MeasurePreserving.id B).prod (drawAt_preserving r)
  have h2 := (measurePreserving_prodAssoc B unif01 (rankStreams R)).symm MeasurableEquiv.prodAssoc
  have h3 := (Measure.measurePreserving_swap (μ := B) (ν := unif01)).prod (MeasurePreserving.id (rankStreams R))
  have h4 := measurePreserving_prodAssoc unif01 B (rankStreams R)
  exact h4.comp (h3.comp (h2.comp h1))

end Hila
