import Verif.Model.MucaExSpec
import Verif.Lemmas.SiteChain
import Verif.Lemmas.PlaqSplit
import Verif.Props.Muca

/-!
# Lemmas for C95: the proposal of the multicanonical program
-/

set_option linter.unusedSectionVars false

namespace Hila

open MeasureTheory Function ProbabilityTheory
open scoped ENNReal

variable {n : ℕ} {L : Fin n → ℕ} [∀ d, NeZero (L d)]

/-! ### The local action -/

/-- The terms of the action with the value `v` at the site `x`. -/
def siteAction (phi : PSite L → ℝ) (x : PSite L) (v : ℝ) : ℝ :=
  -v ^ 2 + v ^ 4 + ∑ d, ((v - phi (x - unitStep d)) ^ 2 + (phi (x + unitStep d) - v) ^ 2)

theorem mcLocal_eq (phi : PSite L → ℝ) (x : PSite L) : mcLocalAction phi x = siteAction phi x (phi x) := by
  have key : ∀ (l : List (Fin n)) (a : PSite L → ℝ),
      l.foldl (fun a d x => a x + (phi x - phi (x - unitStep d)) ^ 2 + (phi (x + unitStep d) - phi x) ^ 2) a x =
        a x + (l.map fun d => ((phi x - phi (x - unitStep d)) ^ 2 + (phi (x + unitStep d) - phi x) ^ 2)).sum := by
    intro l
    induction l with
    | nil => simp
    | cons d l ih => intro a; rw [List.foldl_cons, ih, List.map_cons, List.sum_cons]; ring
  unfold mcLocalAction siteAction
  rw [key, ← Fin.sum_univ_def]

theorem siteAction_congr {phi psi : PSite L → ℝ} {x : PSite L} (h1 : ∀ d, phi (x - unitStep d) = psi (x - unitStep d))
    (h2 : ∀ d, phi (x + unitStep d) = psi (x + unitStep d)) : siteAction phi x = siteAction psi x := by
  funext v
  unfold siteAction
  simp only [h1, h2]

theorem site_sub_ne (hL : ∀ d, Even (L d)) (d : Fin n) (x : PSite L) : x - unitStep d ≠ x := fun h => gaugeStep_ne hL d (by simpa using h)

theorem site_add_ne (hL : ∀ d, Even (L d)) (d : Fin n) (x : PSite L) : x + unitStep d ≠ x := fun h => gaugeStep_ne hL d (by simpa using h)

/-- The action as a function of the field at one site. -/
theorem phi4Action_update (hL : ∀ d, Even (L d)) (phi : PSite L → ℝ) (x : PSite L) (v : ℝ) :
    phi4Action (update phi x v) = siteAction phi x v + (phi4Action (update phi x 0) - siteAction phi x 0) := by
  have h1 : ∑ y, ((-update phi x v y ^ 2 + update phi x v y ^ 4) - (-update phi x 0 y ^ 2 + update phi x 0 y ^ 4)) = -v ^ 2 + v ^ 4 := by
    rw [Finset.sum_eq_single x]
    · simp
    · intro y _ hy; simp [update_of_ne hy]
    · simp
  have h2 : ∀ d, ∑ y, ((update phi x v (y + unitStep d) - update phi x v y) ^ 2 - (update phi x 0 (y + unitStep d) - update phi x 0 y) ^ 2) =
      ((v - phi (x - unitStep d)) ^ 2 + (phi (x + unitStep d) - v) ^ 2) - ((0 - phi (x - unitStep d)) ^ 2 + (phi (x + unitStep d) - 0) ^ 2) := by
    intro d
    rw [Finset.sum_eq_add (x - unitStep d) x (site_sub_ne hL d x)]
    · simp only [sub_add_cancel, update_self, update_of_ne (site_sub_ne hL d x), update_of_ne (site_add_ne hL d x)]
      ring
    · rintro y _ ⟨hy1, hy2⟩
      have : y + unitStep d ≠ x := fun h => hy1 (by rw [← h]; simp)
      simp [update_of_ne hy2, update_of_ne this]
    · simp
    · simp
  have e : phi4Action (update phi x v) - phi4Action (update phi x 0) = siteAction phi x v - siteAction phi x 0 := by
    have e1 : phi4Action (update phi x v) - phi4Action (update phi x 0) =
        ∑ y, ((-update phi x v y ^ 2 + update phi x v y ^ 4) - (-update phi x 0 y ^ 2 + update phi x 0 y ^ 4)) +
        ∑ d, ∑ y, ((update phi x v (y + unitStep d) - update phi x v y) ^ 2 - (update phi x 0 (y + unitStep d) - update phi x 0 y) ^ 2) := by
      unfold phi4Action
      simp only [Finset.sum_sub_distrib]
      ring
    rw [e1, h1, Finset.sum_congr rfl fun d _ => h2 d, Finset.sum_sub_distrib]
    unfold siteAction
    ring
  linarith

/-! ### The proposal at one site -/

open Classical in
/-- The new value at a site: old value, gaussian number, uniform number. -/
noncomputable def mcMove (l : ℝ → ℝ) (c : ℝ × ℝ × ℝ) : ℝ :=
  if mcReject c.2.2 (-(l (c.1 + 0.5 * c.2.1) - l c.1)) then c.1 else c.1 + 0.5 * c.2.1

theorem mcReject_def (u p : ℝ) : mcReject u p ↔ u ≠ 0 ∧ p < Real.log u := by
  unfold mcReject mcLog
  by_cases h : u = 0 <;> simp [h]

theorem mcReject_iff {u : ℝ} (hu : 0 ≤ u) (p : ℝ) : mcReject u p ↔ Real.exp p < u := by
  rw [mcReject_def]
  rcases hu.eq_or_lt with rfl | h
  · simp [Real.exp_pos, not_lt.2 (Real.exp_pos p).le]
  · rw [Real.lt_log_iff_exp_lt h]
    exact and_iff_right h.ne'

theorem mcMove_measurable {l : ℝ → ℝ} (hl : Measurable l) : Measurable (mcMove l) := by
  unfold mcMove
  refine Measurable.ite ?_ (by fun_prop) (by fun_prop)
  have : {c : ℝ × ℝ × ℝ | mcReject c.2.2 (-(l (c.1 + 0.5 * c.2.1) - l c.1))} =
      {c | c.2.2 = 0}ᶜ ∩ {c | -(l (c.1 + 0.5 * c.2.1) - l c.1) < Real.log c.2.2} := by
    ext c
    exact mcReject_def _ _
  rw [this]
  refine MeasurableSet.inter ?_ (measurableSet_lt (by fun_prop) (by fun_prop))
  exact (measurableSet_eq_fun (by fun_prop) (by fun_prop)).compl

theorem mcMove_lintegral (l : ℝ → ℝ) (x w : ℝ) (y : ℝ → ℝ≥0∞) :
    ∫⁻ u, y (mcMove l (x, w, u)) ∂unif01 =
      ENNReal.ofReal (min 1 (Real.exp (-(l (x + 0.5 * w) - l x)))) * y (x + 0.5 * w) +
      ENNReal.ofReal (1 - min 1 (Real.exp (-(l (x + 0.5 * w) - l x)))) * y x := by
  rw [← accept_lintegral _ (Real.exp_pos _).le]
  unfold unif01
  refine lintegral_congr_ae ?_
  have h1 : ∀ᵐ u ∂(volume.restrict (Set.Ico (0 : ℝ) 1)), u ∈ Set.Ico (0 : ℝ) 1 := ae_restrict_mem measurableSet_Ico
  have h2 : ∀ᵐ u ∂(volume.restrict (Set.Ico (0 : ℝ) 1)), u ≠ Real.exp (-(l (x + 0.5 * w) - l x)) := by
    refine compl_mem_ae_iff.2 (measure_singleton _)
  filter_upwards [h1, h2] with u hu hne
  unfold mcMove
  simp only [mcReject_iff hu.1]
  rcases lt_or_gt_of_ne hne with h | h
  · rw [if_pos h, if_neg (not_lt.2 h.le)]
  · rw [if_neg (not_lt.2 h.le), if_pos h]

theorem mcFlip_preserving : MeasurePreserving (fun z : ℝ × ℝ => (z.1 + 0.5 * z.2, -z.2)) (volume.prod (gaussianReal 0 1)) (volume.prod (gaussianReal 0 1)) := by
  have hm : Measurable fun z : ℝ × ℝ => (z.1 + 0.5 * z.2, -z.2) := by fun_prop
  have hneg : MeasurePreserving (fun x : ℝ => -x) (gaussianReal 0 1) (gaussianReal 0 1) := ⟨measurable_neg, by simpa using gaussianReal_map_neg (μ := 0) (v := 1)⟩
  refine ⟨hm, Measure.ext_of_lintegral _ fun F hF => ?_⟩
  rw [lintegral_map hF hm, lintegral_prod_symm' (fun z : ℝ × ℝ => F (z.1 + 0.5 * z.2, -z.2)) (hF.comp hm), lintegral_prod_symm' _ hF]
  have h1 : ∀ w : ℝ, ∫⁻ x : ℝ, F (x + 0.5 * w, -w) = ∫⁻ x : ℝ, F (x, -w) := fun w =>
    lintegral_add_right_eq_self (fun x => F (x, -w)) (0.5 * w)
  simp only [h1]
  exact hneg.lintegral_comp (f := fun w => ∫⁻ x, F (x, w)) hF.lintegral_prod_left'

/-- Old and new value at a site can be exchanged. -/
theorem mcMove_reversible {l : ℝ → ℝ} (hl : Measurable l) {F : ℝ × ℝ → ℝ≥0∞} (hF : Measurable F) :
    ∫⁻ c, ENNReal.ofReal (Real.exp (-l c.1)) * F (c.1, mcMove l c) ∂((volume : Measure ℝ).prod ((gaussianReal 0 1).prod unif01)) =
      ∫⁻ c, ENNReal.ofReal (Real.exp (-l c.1)) * F (mcMove l c, c.1) ∂((volume : Measure ℝ).prod ((gaussianReal 0 1).prod unif01)) := by
  have hmv := mcMove_measurable hl
  have m1 : Measurable fun c : ℝ × ℝ × ℝ => ENNReal.ofReal (Real.exp (-l c.1)) * F (c.1, mcMove l c) := by fun_prop
  have m2 : Measurable fun c : ℝ × ℝ × ℝ => ENNReal.ofReal (Real.exp (-l c.1)) * F (mcMove l c, c.1) := by fun_prop
  have as : ∀ f : ℝ × ℝ × ℝ → ℝ≥0∞, Measurable f → ∫⁻ c, f c ∂((volume : Measure ℝ).prod ((gaussianReal 0 1).prod unif01)) =
      ∫⁻ z, ∫⁻ u, f (z.1, z.2, u) ∂unif01 ∂((volume : Measure ℝ).prod (gaussianReal 0 1)) := by
    intro f hf
    have hg : Measurable fun z : ℝ × ℝ => ∫⁻ u, f (z.1, z.2, u) ∂unif01 :=
      Measurable.lintegral_prod_right' (f := fun p : (ℝ × ℝ) × ℝ => f (p.1.1, p.1.2, p.2)) (by fun_prop)
    rw [lintegral_prod _ hf.aemeasurable, lintegral_prod _ hg.aemeasurable]
    refine lintegral_congr fun x => ?_
    exact lintegral_prod _ (by fun_prop)
  rw [as _ m1, as _ m2]
  have a1 : ∀ z : ℝ × ℝ, ∫⁻ u, ENNReal.ofReal (Real.exp (-l z.1)) * F (z.1, mcMove l (z.1, z.2, u)) ∂unif01 =
      ENNReal.ofReal (Real.exp (-l z.1)) * ENNReal.ofReal (min 1 (Real.exp (-(l (z.1 + 0.5 * z.2) - l z.1)))) * F (z.1, z.1 + 0.5 * z.2) +
      ENNReal.ofReal (Real.exp (-l z.1)) * ENNReal.ofReal (1 - min 1 (Real.exp (-(l (z.1 + 0.5 * z.2) - l z.1)))) * F (z.1, z.1) := by
    intro z
    rw [lintegral_const_mul _ (by fun_prop), mcMove_lintegral l z.1 z.2 fun v => F (z.1, v), mul_add, mul_assoc, mul_assoc]
  have a2 : ∀ z : ℝ × ℝ, ∫⁻ u, ENNReal.ofReal (Real.exp (-l z.1)) * F (mcMove l (z.1, z.2, u), z.1) ∂unif01 =
      ENNReal.ofReal (Real.exp (-l z.1)) * ENNReal.ofReal (min 1 (Real.exp (-(l (z.1 + 0.5 * z.2) - l z.1)))) * F (z.1 + 0.5 * z.2, z.1) +
      ENNReal.ofReal (Real.exp (-l z.1)) * ENNReal.ofReal (1 - min 1 (Real.exp (-(l (z.1 + 0.5 * z.2) - l z.1)))) * F (z.1, z.1) := by
    intro z
    rw [lintegral_const_mul _ (by fun_prop), mcMove_lintegral l z.1 z.2 fun v => F (v, z.1), mul_add, mul_assoc, mul_assoc]
  simp only [a1, a2]
  rw [lintegral_add_left (by fun_prop), lintegral_add_left (by fun_prop)]
  congr 1
  have hG : Measurable fun z : ℝ × ℝ => ENNReal.ofReal (Real.exp (-l z.1)) *
      ENNReal.ofReal (min 1 (Real.exp (-(l (z.1 + 0.5 * z.2) - l z.1)))) * F (z.1 + 0.5 * z.2, z.1) := by fun_prop
  rw [← mcFlip_preserving.lintegral_comp hG]
  refine lintegral_congr fun z => ?_
  have e : z.1 + 0.5 * z.2 + 0.5 * -z.2 = z.1 := by ring
  simp only [e]
  rw [weights_symm]

/-! ### The proposal of all sites -/

variable {par : Parity}

theorem nbr_sub (hL : ∀ d, Even (L d)) (hp : par = .even ∨ par = .odd) {x : PSite L} (hx : VisitsPar par x) (d : Fin n) : ¬ VisitsPar par (x - unitStep d) := by
  intro h
  have h1 := visits_opp par x d (Or.inr (hL d).two_dvd) hx
  rcases hp with rfl | rfl <;> simp [oppParity, Parity.ofBits, Parity.bits, VisitsPar] at h h1 <;> omega

theorem nbr_add (hL : ∀ d, Even (L d)) (hp : par = .even ∨ par = .odd) {x : PSite L} (hx : VisitsPar par x) (d : Fin n) : ¬ VisitsPar par (x + unitStep d) := by
  intro h
  have := nbr_sub hL hp h d
  rw [add_sub_cancel_right] at this
  exact this hx

theorem mcPropose_at (hL : ∀ d, Even (L d)) (hp : par = .even ∨ par = .odd) (phi delta u : PSite L → ℝ) (x : PSite L) :
    mcPropose par phi delta u x = if VisitsPar par x then mcMove (siteAction phi x) (phi x, delta x, u x) else phi x := by
  unfold mcPropose assignOn
  by_cases hx : VisitsPar par x
  · simp only [if_pos hx]
    unfold mcMove
    have e : siteAction (fun y => phi y + 0.5 * (if VisitsPar par y then delta y else 0)) x = siteAction phi x :=
      siteAction_congr (fun d => by simp [if_neg (nbr_sub hL hp hx d)]) fun d => by simp [if_neg (nbr_add hL hp hx d)]
    have e2 : phi x + 0.5 * (if VisitsPar par x then delta x else 0) = phi x + 0.5 * delta x := by rw [if_pos hx]
    rw [mcLocal_eq, mcLocal_eq, e, e2]
  · simp [if_neg hx]

/-- Field and random numbers at every site. -/
abbrev McConf (L : Fin n → ℕ) := PSite L → ℝ × ℝ × ℝ

def mcOld (z : McConf L) : PSite L → ℝ := fun x => (z x).1

noncomputable def mcNew (par : Parity) (z : McConf L) : PSite L → ℝ := mcPropose par (mcOld z) (fun x => (z x).2.1) fun x => (z x).2.2

theorem mcOld_update (z : McConf L) (x : PSite L) (c : ℝ × ℝ × ℝ) : mcOld (update z x c) = update (mcOld z) x c.1 := by
  funext y
  unfold mcOld
  by_cases h : y = x
  · subst h; simp
  · simp [h]

theorem mcNew_update (hL : ∀ d, Even (L d)) (hp : par = .even ∨ par = .odd) (z : McConf L) {x : PSite L} (hx : VisitsPar par x) (c : ℝ × ℝ × ℝ) :
    mcNew par (update z x c) = update (mcNew par z) x (mcMove (siteAction (mcOld z) x) c) := by
  have hs : ∀ y, VisitsPar par y → siteAction (update (mcOld z) x c.1) y = siteAction (mcOld z) y := by
    intro y hy
    refine siteAction_congr (fun d => ?_) fun d => ?_
    · exact update_of_ne (fun h => nbr_sub hL hp hy d (by rw [h]; exact hx)) _ _
    · exact update_of_ne (fun h => nbr_add hL hp hy d (by rw [h]; exact hx)) _ _
  funext y
  unfold mcNew
  rw [mcPropose_at hL hp, mcOld_update]
  by_cases h : y = x
  · subst h
    rw [if_pos hx, hs _ hx]
    simp
  · simp only [update_of_ne h]
    rw [mcPropose_at hL hp]
    split
    · next hy => rw [hs _ hy]
    · rfl

theorem siteAction_measurable (x : PSite L) : Measurable fun p : (PSite L → ℝ) × ℝ => siteAction p.1 x p.2 := by
  unfold siteAction
  fun_prop

theorem mcOld_measurable : Measurable (mcOld : McConf L → PSite L → ℝ) := by
  unfold mcOld
  fun_prop

theorem mcNew_measurable (hL : ∀ d, Even (L d)) (hp : par = .even ∨ par = .odd) : Measurable (mcNew par : McConf L → PSite L → ℝ) := by
  refine measurable_pi_lambda _ fun x => ?_
  unfold mcNew
  simp only [mcPropose_at hL hp]
  split
  · unfold mcMove
    have h1 : Measurable fun z : McConf L => siteAction (mcOld z) x (mcOld z x) :=
      (siteAction_measurable x).comp (g := fun p : (PSite L → ℝ) × ℝ => siteAction p.1 x p.2)
        (mcOld_measurable.prodMk ((measurable_pi_apply x).comp mcOld_measurable))
    have h2 : Measurable fun z : McConf L => siteAction (mcOld z) x (mcOld z x + 0.5 * (z x).2.1) :=
      (siteAction_measurable x).comp (g := fun p : (PSite L → ℝ) × ℝ => siteAction p.1 x p.2)
        (mcOld_measurable.prodMk (((measurable_pi_apply x).comp mcOld_measurable).add (by fun_prop)))
    have h3 : Measurable fun z : McConf L => mcOld z x := (measurable_pi_apply x).comp mcOld_measurable
    refine Measurable.ite ?_ h3 (h3.add (by fun_prop))
    have : {z : McConf L | mcReject (z x).2.2 (-(siteAction (mcOld z) x (mcOld z x + 0.5 * (z x).2.1) - siteAction (mcOld z) x (mcOld z x)))} =
        {z | (z x).2.2 = 0}ᶜ ∩ {z | -(siteAction (mcOld z) x (mcOld z x + 0.5 * (z x).2.1) - siteAction (mcOld z) x (mcOld z x)) < Real.log (z x).2.2} := by
      ext z
      exact mcReject_def _ _
    rw [this]
    refine MeasurableSet.inter ?_ (measurableSet_lt (h2.sub h1).neg (by fun_prop))
    exact (measurableSet_eq_fun (by fun_prop) (by fun_prop)).compl
  · exact (measurable_pi_apply x).comp mcOld_measurable

theorem phi4Action_measurable : Measurable (phi4Action : (PSite L → ℝ) → ℝ) := by
  unfold phi4Action
  fun_prop

theorem mc_site_step {F : (PSite L → ℝ) × (PSite L → ℝ) → ℝ≥0∞} (hF : Measurable F) (phi qa qb : PSite L → ℝ) (x : PSite L) (k : ℝ≥0∞) :
    ∫⁻ c, ENNReal.ofReal (Real.exp (-siteAction phi x c.1)) * (k * F (update qa x c.1, update qb x (mcMove (siteAction phi x) c)))
        ∂((volume : Measure ℝ).prod ((gaussianReal 0 1).prod unif01)) =
      ∫⁻ c, ENNReal.ofReal (Real.exp (-siteAction phi x c.1)) * (k * F (update qa x (mcMove (siteAction phi x) c), update qb x c.1))
        ∂((volume : Measure ℝ).prod ((gaussianReal 0 1).prod unif01)) := by
  have h1 : Measurable fun v : ℝ => update qa x v := measurable_update qa
  have h2 : Measurable fun v : ℝ => update qb x v := measurable_update qb
  have h3 : Measurable fun p : ℝ × ℝ => (update qa x p.1, update qb x p.2) := (h1.comp measurable_fst).prodMk (h2.comp measurable_snd)
  have hG : Measurable fun p : ℝ × ℝ => k * F (update qa x p.1, update qb x p.2) := (hF.comp h3).const_mul k
  have hl : Measurable (siteAction phi x) := by unfold siteAction; fun_prop
  exact mcMove_reversible hl hG

/-- Old field and proposed field can be exchanged. -/
theorem mc_reversible (hL : ∀ d, Even (L d)) (hp : par = .even ∨ par = .odd) {F : (PSite L → ℝ) × (PSite L → ℝ) → ℝ≥0∞} (hF : Measurable F) :
    ∫⁻ z, ENNReal.ofReal (Real.exp (-phi4Action (mcOld z))) * F (mcOld z, mcNew par z)
        ∂(Measure.pi fun _ : PSite L => (volume : Measure ℝ).prod ((gaussianReal 0 1).prod unif01)) =
      ∫⁻ z, ENNReal.ofReal (Real.exp (-phi4Action (mcOld z))) * F (mcNew par z, mcOld z)
        ∂(Measure.pi fun _ : PSite L => (volume : Measure ℝ).prod ((gaussianReal 0 1).prod unif01)) := by
  classical
  have hO := mcOld_measurable (L := L)
  have hN := mcNew_measurable (L := L) hL hp
  have hS := phi4Action_measurable (L := L)
  let a : Finset (PSite L) → McConf L → PSite L → ℝ := fun A z y => if y ∈ A then mcNew par z y else mcOld z y
  let b : Finset (PSite L) → McConf L → PSite L → ℝ := fun A z y => if y ∈ A then mcOld z y else mcNew par z y
  have ha : ∀ A, Measurable (a A) := fun A => measurable_pi_lambda _ fun y => by
    by_cases h : y ∈ A
    · simp only [a, if_pos h]; exact (measurable_pi_apply y).comp hN
    · simp only [a, if_neg h]; exact (measurable_pi_apply y).comp hO
  have hb : ∀ A, Measurable (b A) := fun A => measurable_pi_lambda _ fun y => by
    by_cases h : y ∈ A
    · simp only [b, if_pos h]; exact (measurable_pi_apply y).comp hO
    · simp only [b, if_neg h]; exact (measurable_pi_apply y).comp hN
  have hI : ∀ A, Measurable fun z : McConf L => ENNReal.ofReal (Real.exp (-phi4Action (mcOld z))) * F (a A z, b A z) := fun A =>
    (hS.comp hO).neg.exp.ennreal_ofReal.mul (hF.comp ((ha A).prodMk (hb A)))
  have key : ∀ A : Finset (PSite L), (∀ x ∈ A, VisitsPar par x) →
      ∫⁻ z, ENNReal.ofReal (Real.exp (-phi4Action (mcOld z))) * F (mcOld z, mcNew par z)
        ∂(Measure.pi fun _ : PSite L => (volume : Measure ℝ).prod ((gaussianReal 0 1).prod unif01)) =
      ∫⁻ z, ENNReal.ofReal (Real.exp (-phi4Action (mcOld z))) * F (a A z, b A z)
        ∂(Measure.pi fun _ : PSite L => (volume : Measure ℝ).prod ((gaussianReal 0 1).prod unif01)) := by
    intro A
    induction A using Finset.induction_on with
    | empty => intro _; simp [a, b]
    | insert x A hxA ih =>
      intro hA
      rw [ih fun y hy => hA y (Finset.mem_insert_of_mem hy)]
      have hx := hA x (Finset.mem_insert_self _ _)
      refine lintegral_pi_site _ x _ _ (hI A) (hI (insert x A)) fun z => ?_
      have e1 : ∀ c, a A (update z x c) = update (a A z) x c.1 := by
        intro c
        funext y
        by_cases h : y = x
        · subst h; simp [a, hxA, mcOld_update]
        · simp [a, mcOld_update, mcNew_update hL hp z hx, update_of_ne h]
      have e2 : ∀ c, b A (update z x c) = update (b A z) x (mcMove (siteAction (mcOld z) x) c) := by
        intro c
        funext y
        by_cases h : y = x
        · subst h; simp [b, hxA, mcNew_update hL hp z hx]
        · simp [b, mcOld_update, mcNew_update hL hp z hx, update_of_ne h]
      have e3 : ∀ c, a (insert x A) (update z x c) = update (a A z) x (mcMove (siteAction (mcOld z) x) c) := by
        intro c
        funext y
        by_cases h : y = x
        · subst h; simp [a, mcNew_update hL hp z hx]
        · simp [a, mcOld_update, mcNew_update hL hp z hx, h]
      have e4 : ∀ c, b (insert x A) (update z x c) = update (b A z) x c.1 := by
        intro c
        funext y
        by_cases h : y = x
        · subst h; simp [b, mcOld_update]
        · simp [b, mcOld_update, mcNew_update hL hp z hx, h]
      have e5 : ∀ v, ENNReal.ofReal (Real.exp (-phi4Action (update (mcOld z) x v))) = ENNReal.ofReal (Real.exp (-siteAction (mcOld z) x v)) *
          ENNReal.ofReal (Real.exp (-(phi4Action (update (mcOld z) x 0) - siteAction (mcOld z) x 0))) := by
        intro v
        rw [phi4Action_update hL (mcOld z) x v, neg_add, Real.exp_add, ENNReal.ofReal_mul (Real.exp_pos _).le]
      simp only [e1, e2, e3, e4, mcOld_update, e5, mul_assoc]
      generalize a A z = qa
      generalize b A z = qb
      generalize ENNReal.ofReal (Real.exp (-(phi4Action (update (mcOld z) x 0) - siteAction (mcOld z) x 0))) = k
      exact mc_site_step hF (mcOld z) qa qb x k
  rw [key (Finset.univ.filter fun x => VisitsPar par x) fun x hx => (Finset.mem_filter.1 hx).2]
  refine lintegral_congr fun z => ?_
  have e1 : a (Finset.univ.filter fun x => VisitsPar par x) z = mcNew par z := by
    funext y
    by_cases h : VisitsPar par y
    · simp [a, h]
    · simp [a, h, mcNew, mcPropose_at hL hp]
  have e2 : b (Finset.univ.filter fun x => VisitsPar par x) z = mcOld z := by
    funext y
    by_cases h : VisitsPar par y
    · simp [b, h]
    · simp [b, h, mcNew, mcPropose_at hL hp]
  rw [e1, e2]

end Hila
