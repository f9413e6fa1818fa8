import Verif.Lemmas.ZLink
import Verif.Lemmas.SpinSim
import Verif.Lemmas.GaugeChain

/-!
# Lemmas for C94: the updates of one link and of one shift
-/

set_option linter.unusedSectionVars false

namespace Hila

open MeasureTheory Function
open scoped ENNReal

variable {R : Type} [Fintype R] [DecidableEq R]

/-! ### Rounding and the candidates of the overrelaxation -/

theorem lround_int (k : ℤ) : lround (k : ℝ) = k := by
  unfold lround
  split
  · rw [Int.floor_intCast_add, Int.floor_eq_zero_iff.2 ⟨by norm_num, by norm_num⟩, add_zero]
  · rw [Int.ceil_eq_iff]
    constructor <;> linarith

theorem zDisc (n : ℕ) (st : ℝ) (h : ℤ) :
    4.0 * (((n : ℝ) - 1) * 2.0) * zLinkAction n st h + st * st = (2 * (((n : ℝ) - 1) * 2.0) * h + st) ^ 2 := by
  unfold zLinkAction
  norm_num
  ring

/-- One of the candidates is the link itself. -/
theorem zRoot_self {n : ℕ} (hn : 2 ≤ n) (st : ℝ) (h : ℤ) : zRootUp n st (zLinkAction n st h) = h ∨ zRootDown n st (zLinkAction n st h) = h := by
  have hp : (0 : ℝ) < ((n : ℝ) - 1) * 2.0 := by
    have : (2 : ℝ) ≤ n := by exact_mod_cast hn
    norm_num
    linarith
  unfold zRootUp zRootDown
  simp only [zDisc, Real.sqrt_sq_eq_abs]
  rcases le_total 0 (2 * (((n : ℝ) - 1) * 2.0) * h + st) with h1 | h1
  · left
    rw [abs_of_nonneg h1]
    convert lround_int h using 2
    rw [div_eq_iff (ne_of_gt (mul_pos (by norm_num) hp))]
    norm_num
    ring
  · right
    rw [abs_of_nonpos h1]
    convert lround_int h using 2
    rw [div_eq_iff (ne_of_gt (mul_pos (by norm_num) hp))]
    norm_num
    ring

/-- The link that the overrelaxation proposes; the link itself if the move is not invertible. -/
noncomputable def zMirror (n : ℕ) (st : ℝ) (h : ℤ) : ℤ :=
  if zRootUp n st (zLinkAction n st h) ≠ h then
    if zRootDown n st (zLinkAction n st (zRootUp n st (zLinkAction n st h))) ≠ h then h else zRootUp n st (zLinkAction n st h)
  else if zRootUp n st (zLinkAction n st (zRootDown n st (zLinkAction n st h))) ≠ h then h else zRootDown n st (zLinkAction n st h)

theorem mirror_involutive {α : Type} (up dn : α → α) [DecidableEq α] (hs : ∀ h, up h = h ∨ dn h = h) (h : α) :
    (fun T : α → α => T (T h) = h) fun h => if up h ≠ h then (if dn (up h) ≠ h then h else up h) else if up (dn h) ≠ h then h else dn h := by
  dsimp only
  by_cases h1 : up h = h
  · simp only [h1, ne_eq, not_true, if_false]
    by_cases h2 : up (dn h) = h
    · simp only [h2, ne_eq, not_true, if_false]
      by_cases h3 : dn h = h
      · simp [h3, h1]
      · have h4 : h ≠ dn h := fun e => h3 e.symm
        simp [h4]
    · simp [h1, h2]
  · by_cases h2 : dn (up h) = h
    · have h3 : up (up h) = up h := by
        rcases hs (up h) with h4 | h4
        · exact h4
        · exact absurd (h4.symm.trans h2) h1
      simp [h1, h2, h3]
    · simp [h1, h2]

theorem zMirror_mirror {n : ℕ} (hn : 2 ≤ n) (st : ℝ) (h : ℤ) : zMirror n st (zMirror n st h) = h :=
  mirror_involutive (fun h => zRootUp n st (zLinkAction n st h)) (fun h => zRootDown n st (zLinkAction n st h)) (zRoot_self hn st) h

/-! ### The decision -/

theorem zDecide_map {T T' : Type} (g : T → T') (beta nds : ℝ) (a b : T) (r : R) (ω : R → ℕ → ℝ) :
    zDecide beta nds (g a) (g b) r ω = (g (zDecide beta nds a b r ω).1, (zDecide beta nds a b r ω).2) := by
  unfold zDecide
  split
  · rfl
  · dsimp only
    split <;> rfl

theorem zDecide_measurable {X : Type} [MeasurableSpace X] (beta : ℝ) (nds : X → ℝ) (hn : Measurable nds) (a b : X → ℤ) (ha : Measurable a) (hb : Measurable b)
    (w : X → R → ℕ → ℝ) (hw : Measurable w) (r : R) : Measurable fun x => zDecide beta (nds x) (a x) (b x) r (w x) := by
  have hd := drawAt_measurable r
  unfold zDecide
  refine Measurable.ite (measurableSet_lt hn measurable_const) (hb.prodMk hw) ?_
  refine Measurable.ite (measurableSet_lt (by fun_prop) (by fun_prop)) (hb.prodMk (by fun_prop)) (ha.prodMk (by fun_prop))

theorem zDecide_lintegral {beta : ℝ} (hb : 0 ≤ beta) (nds : ℝ) (a b : ℤ) (r : R) (F : ℤ × (R → ℕ → ℝ) → ℝ≥0∞) (hF : Measurable F) :
    ∫⁻ ω, F (zDecide beta nds a b r ω) ∂rankStreams R =
      ∫⁻ t in Set.Ico (0 : ℝ) 1, (if t < Real.exp (-(beta / 2 * nds)) then ∫⁻ ω, F (b, ω) ∂rankStreams R else ∫⁻ ω, F (a, ω) ∂rankStreams R) := by
  unfold zDecide
  by_cases h : nds < 0
  · simp only [if_pos h]
    rw [accept_lintegral _ (Real.exp_pos _).le]
    have : (1 : ℝ) ≤ Real.exp (-(beta / 2 * nds)) := Real.one_le_exp (by nlinarith)
    rw [min_eq_left this]
    simp
  · simp only [if_neg h]
    have e := lintegral_drawAt r (fun t ω => F (if t < Real.exp (-0.5 * beta * nds) then (b, ω) else (a, ω))) (by
      refine hF.comp (Measurable.ite (measurableSet_lt (by fun_prop) (by fun_prop)) (by fun_prop) (by fun_prop)))
    refine Eq.trans e ?_
    show ∫⁻ t, _ ∂unif01 = ∫⁻ t, _ ∂unif01
    refine lintegral_congr fun t => ?_
    rw [show -0.5 * beta * nds = -(beta / 2 * nds) by rw [show (-0.5 : ℝ) = -(1 / 2) by norm_num]; ring]
    split <;> rfl

theorem int_count_preserving (T : ℤ → ℤ) (h : ∀ k, T (T k) = k) : MeasurePreserving T Measure.count Measure.count := by
  refine ⟨measurable_of_countable _, ?_⟩
  ext A hA
  rw [Measure.map_apply (measurable_of_countable _) hA]
  have e : T ⁻¹' A = (Equiv.ofBijective T (Function.Involutive.bijective h)).symm '' A := by
    rw [Equiv.image_symm_eq_preimage]
    rfl
  rw [e, Measure.count_injective_image (Equiv.injective _)]

/-- The overrelaxation of one link keeps the weight. -/
theorem zOverrelax_keeps {n : ℕ} (hn : 2 ≤ n) {beta : ℝ} (hb : 0 ≤ beta) (C st : ℝ) (r : R) (F : ℤ × (R → ℕ → ℝ) → ℝ≥0∞) (hF : Measurable F) :
    ∫⁻ k : ℤ, ENNReal.ofReal (Real.exp (-(C + beta / 2 * zLinkAction n st k))) * ∫⁻ ω, F (zOverrelax n k st beta r ω) ∂rankStreams R ∂Measure.count =
      ∫⁻ k : ℤ, ENNReal.ofReal (Real.exp (-(C + beta / 2 * zLinkAction n st k))) * ∫⁻ ω, F (k, ω) ∂rankStreams R ∂Measure.count := by
  have h := metropolis_lintegral Measure.count (int_count_preserving _ (zMirror_mirror hn st)) (zMirror_mirror hn st)
    (H := fun k : ℤ => C + beta / 2 * zLinkAction n st k) (measurable_of_countable _) (f := fun k => ∫⁻ ω, F (k, ω) ∂rankStreams R) (measurable_of_countable _)
  rw [← h]
  refine lintegral_congr fun k => ?_
  congr 1
  have hsame : zMirror n st k = k → ∀ Φ : ℤ → ℝ≥0∞, ∫⁻ t in Set.Ico (0 : ℝ) 1, (if t < Real.exp (-(C + beta / 2 * zLinkAction n st (zMirror n st k) -
      (C + beta / 2 * zLinkAction n st k))) then Φ (zMirror n st k) else Φ k) = Φ k := by
    intro h Φ
    rw [h]
    simp only [ite_self]
    have hP : IsProbabilityMeasure unif01 := inferInstance
    show ∫⁻ _, Φ k ∂unif01 = _
    simp
  unfold zOverrelax
  dsimp only
  by_cases h1 : zRootUp n st (zLinkAction n st k) ≠ k
  · simp only [if_pos h1]
    by_cases h2 : zRootDown n st (zLinkAction n st (zRootUp n st (zLinkAction n st k))) ≠ k
    · simp only [if_pos h2]
      exact (hsame (by unfold zMirror; rw [if_pos h1, if_pos h2]) fun k => ∫⁻ ω, F (k, ω) ∂rankStreams R).symm
    · simp only [if_neg h2]
      rw [zDecide_lintegral hb _ _ _ _ F hF]
      have hm : zMirror n st k = zRootUp n st (zLinkAction n st k) := by unfold zMirror; rw [if_pos h1, if_neg h2]
      rw [hm, add_sub_add_left_eq_sub, mul_sub]
  · simp only [if_neg h1]
    by_cases h2 : zRootUp n st (zLinkAction n st (zRootDown n st (zLinkAction n st k))) ≠ k
    · simp only [if_pos h2]
      exact (hsame (by unfold zMirror; rw [if_neg h1, if_pos h2]) fun k => ∫⁻ ω, F (k, ω) ∂rankStreams R).symm
    · simp only [if_neg h2]
      rw [zDecide_lintegral hb _ _ _ _ F hF]
      have hm : zMirror n st k = zRootDown n st (zLinkAction n st k) := by unfold zMirror; rw [if_neg h1, if_neg h2]
      rw [hm, add_sub_add_left_eq_sub, mul_sub]

/-- The step up or down. -/
def zPlus (b : Bool) (k : ℤ) : ℤ := if b then k + 1 else k - 1

theorem zMetropolis_lintegral {n : ℕ} {beta : ℝ} (hb : 0 ≤ beta) (st : ℝ) (k : ℤ) (r : R) (F : ℤ × (R → ℕ → ℝ) → ℝ≥0∞) (hF : Measurable F) :
    ∫⁻ ω, F (zMetropolis n k st beta r ω) ∂rankStreams R = ENNReal.ofReal (1 / 2) * ∑ b, ∫⁻ t in Set.Ico (0 : ℝ) 1,
      (if t < Real.exp (-(beta / 2 * (zLinkAction n st (zPlus b k) - zLinkAction n st k))) then ∫⁻ ω, F (zPlus b k, ω) ∂rankStreams R
        else ∫⁻ ω, F (k, ω) ∂rankStreams R) := by
  unfold zMetropolis
  have e := lintegral_drawAt r (fun a ω => F (zDecide beta (zLinkAction n st (k + (1 - 2 * ⌊a * 2.0⌋)) - zLinkAction n st k) k (k + (1 - 2 * ⌊a * 2.0⌋)) r ω)) (by
    refine hF.comp ?_
    have hfl : Measurable fun z : ℝ × (R → ℕ → ℝ) => k + (1 - 2 * ⌊z.1 * 2.0⌋) :=
      (measurable_of_countable fun j : ℤ => k + (1 - 2 * j)).comp (Int.measurable_floor.comp (by fun_prop))
    exact zDecide_measurable beta _ ((measurable_of_countable fun j : ℤ => zLinkAction n st j - zLinkAction n st k).comp hfl) (fun _ => k) _ measurable_const hfl _ measurable_snd r)
  refine Eq.trans e ?_
  simp only [zDecide_lintegral hb _ _ _ _ F hF]
  set Ψ : ℤ → ℝ≥0∞ := fun j => ∫⁻ t in Set.Ico (0 : ℝ) 1, (if t < Real.exp (-(beta / 2 * (zLinkAction n st j - zLinkAction n st k))) then
    ∫⁻ ω, F (j, ω) ∂rankStreams R else ∫⁻ ω, F (k, ω) ∂rankStreams R) with hΨ
  have e2 : ∫⁻ a, Ψ (k + (1 - 2 * ⌊a * 2.0⌋)) ∂unif01 = ∫⁻ a in Set.Ico (0 : ℝ) 1, (if a < 1 / 2 then Ψ (k + 1) else Ψ (k - 1)) := by
    show ∫⁻ a in Set.Ico (0 : ℝ) 1, _ = _
    refine setLIntegral_congr_fun measurableSet_Ico fun a ha => ?_
    by_cases h : a < 1 / 2
    · have : ⌊a * 2.0⌋ = 0 := by
        rw [Int.floor_eq_zero_iff]
        constructor <;> norm_num <;> linarith [ha.1]
      rw [if_pos h, this]
      simp
    · have : ⌊a * 2.0⌋ = 1 := by
        rw [Int.floor_eq_iff]
        constructor <;> norm_num <;> linarith [ha.2]
      rw [if_neg h, this]
      norm_num
      rfl
  refine Eq.trans e2 ?_
  rw [accept_lintegral _ (by norm_num), min_eq_right (by norm_num), show (1 : ℝ) - 1 / 2 = 1 / 2 by norm_num, ← mul_add, Fintype.sum_bool]
  rfl

/-- The Metropolis update of one link keeps the weight. -/
theorem zMetropolis_keeps {n : ℕ} {beta : ℝ} (hb : 0 ≤ beta) (C st : ℝ) (r : R) (F : ℤ × (R → ℕ → ℝ) → ℝ≥0∞) (hF : Measurable F) :
    ∫⁻ k : ℤ, ENNReal.ofReal (Real.exp (-(C + beta / 2 * zLinkAction n st k))) * ∫⁻ ω, F (zMetropolis n k st beta r ω) ∂rankStreams R ∂Measure.count =
      ∫⁻ k : ℤ, ENNReal.ofReal (Real.exp (-(C + beta / 2 * zLinkAction n st k))) * ∫⁻ ω, F (k, ω) ∂rankStreams R ∂Measure.count := by
  have hinv : ∀ z : ℤ × Bool, (fun z : ℤ × Bool => (zPlus z.2 z.1, !z.2)) ((fun z : ℤ × Bool => (zPlus z.2 z.1, !z.2)) z) = z := by
    rintro ⟨k, b⟩
    cases b <;> simp [zPlus]
  have hmp : MeasurePreserving (fun z : ℤ × Bool => (zPlus z.2 z.1, !z.2)) (Measure.count.prod Measure.count) (Measure.count.prod Measure.count) := by
    have e : (Measure.count : Measure ℤ).prod (Measure.count : Measure Bool) = Measure.count := by
      refine Measure.ext_of_singleton fun z => ?_
      rw [← Set.singleton_prod_singleton, Measure.prod_prod]
      simp [Set.singleton_prod_singleton]
    rw [e]
    refine ⟨measurable_of_countable _, ?_⟩
    ext A hA
    rw [Measure.map_apply (measurable_of_countable _) hA]
    have e : (fun z : ℤ × Bool => (zPlus z.2 z.1, !z.2)) ⁻¹' A =
        (Equiv.ofBijective (fun z : ℤ × Bool => (zPlus z.2 z.1, !z.2)) (Function.Involutive.bijective hinv)).symm '' A := by
      rw [Equiv.image_symm_eq_preimage]
      rfl
    rw [e, Measure.count_injective_image (Equiv.injective _)]
  have h := metropolis_lintegral _ hmp hinv (H := fun z : ℤ × Bool => C + beta / 2 * zLinkAction n st z.1) (measurable_of_countable _)
    (f := fun z => ∫⁻ ω, F (z.1, ω) ∂rankStreams R) (measurable_of_countable _)
  rw [lintegral_prod _ (measurable_of_countable _).aemeasurable, lintegral_prod _ (measurable_of_countable _).aemeasurable] at h
  simp only [lintegral_count (α := Bool), tsum_fintype] at h
  have e1 : ∀ x : ℝ≥0∞, ∑ _b : Bool, x = 2 * x := fun x => by rw [Fintype.sum_bool, two_mul]
  rw [lintegral_congr fun k => e1 _, lintegral_const_mul _ (measurable_of_countable _)] at h
  have h2 : ENNReal.ofReal (1 / 2) * 2 = 1 := by
    rw [show (2 : ℝ≥0∞) = ENNReal.ofReal 2 by simp, ← ENNReal.ofReal_mul (by norm_num)]
    norm_num
  have h3 := congrArg (ENNReal.ofReal (1 / 2) * ·) h
  simp only [← mul_assoc, h2, one_mul] at h3
  rw [← h3, ← lintegral_const_mul _ (measurable_of_countable _)]
  refine lintegral_congr fun k => ?_
  rw [zMetropolis_lintegral hb st k r F hF, ← Finset.mul_sum, mul_left_comm]
  congr 2
  refine Finset.sum_congr rfl fun b _ => ?_
  simp only [add_sub_add_left_eq_sub, mul_sub]

end Hila
