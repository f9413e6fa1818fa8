import Verif.Model.GradFlow
import Verif.Props.Clover
import Verif.Props.Degauss
import Verif.Props.Reunit
import Mathlib.Analysis.Matrix.Spectrum
import Mathlib.Analysis.Normed.Algebra.MatrixExponential
import Mathlib.Analysis.CStarAlgebra.Matrix

/-!
# Forces of the gradient flow: gradient, covariance, bound
-/

set_option linter.unusedSectionVars false

namespace Hila

open Matrix

variable {n : ℕ} {L : Fin n → ℕ} {N : ℕ}

theorem allSome_some {α : Type} {f : Fin n → PSite L → Option α} {F : Fin n → PSite L → α} (h : ∀ d x, f d x = some (F d x)) :
    allSome f = some F := by
  have h1 : ∀ d x, (f d x).isSome := fun d x => by rw [h]; rfl
  unfold allSome
  rw [dif_pos h1]
  congr 1
  funext d x
  exact Option.get_of_eq_some _ (h d x)

/-- The constant curve. -/
theorem const_curve (V : GField L N) (hN : 0 < N) : LinkCurve (fun _ => V) (fun _ _ => expand (0 : Alg N)) := by
  intro d x i j
  have : expand (0 : Alg N) = 0 := by simpa using expand_smul hN 0 (0 : Alg N)
  rw [this, Matrix.zero_mul]
  exact hasDerivAt_const _ _

/-- The coefficients of the actions. -/
noncomputable def gfCoef : GfAction → ℝ × ℝ
  | .wilson => (1, 0)
  | .luscherWeisz => (5 / 3, -1 / 12)
  | .zeuthen => (5 / 3, -1 / 12)
  | .iwasaki => (1 + 8 * 0.331, -0.331)
  | .dbw2 => (1 + 8 * 1.4088, -1.4088)

theorem gfS_eq [∀ d, NeZero (L d)] (a : GfAction) (U : GField L N) (hU : IsUnitaryField U) :
    gfS a U = measureSImpr U (gfCoef a).1 (gfCoef a).2 := by
  cases a
  · show measureSWplaq U = measureSImpr U 1 0
    rw [measureSImpr_eq hU, one_mul, zero_mul, add_zero]
  all_goals
    unfold gfS gfCoef
    norm_num

/-- The force of all actions but the last is the gradient. -/
theorem gfForce_deriv [∀ d, NeZero (L d)] (hN : 0 < N) (hn : 2 ≤ n) (act : GfAction) (hz : act ≠ .zeuthen) (U : ℝ → GField L N) (a : AlgField L N)
    (hU : LinkCurve U fun d x => expand (a d x)) (hu : ∀ t, IsUnitaryField (U t)) :
    ∃ F, gfForce act (U 0) = some F ∧ HasDerivAt (fun t => gfS act (U t)) (-(pairK a F) / (2 * N)) 0 := by
  have key : ∀ c11 c12 : ℝ, ∃ F, forceImpr (U 0) c11 c12 = some F ∧ HasDerivAt (fun t => measureSImpr (U t) c11 c12) (-(pairK a F) / (2 * N)) 0 := by
    intro c11 c12
    obtain ⟨F, _, h1, -, h2, -⟩ := C57_impr hN hn U a hU hu c11 c12 (fun _ _ => 0)
    exact ⟨F, h1, h2⟩
  cases act
  · obtain ⟨F, h1, h2⟩ := C57_wplaq hN hn U a hU 1.0
    refine ⟨F, allSome_some h1, ?_⟩
    have : (fun t => gfS GfAction.wilson (U t)) = fun t => 1.0 * measureSWplaq (U t) := by
      funext t; unfold gfS; norm_num
    rw [this]
    exact h2
  · obtain ⟨F, h1, h2⟩ := key (1.0 * (1.0 - 8.0 * (-1.0 / 12.0))) (1.0 * (-1.0 / 12.0))
    refine ⟨F, h1, ?_⟩
    rw [show (1.0 * (1.0 - 8.0 * (-1.0 / 12.0)) : ℝ) = 1.0 - 8.0 * (-1.0 / 12.0) by norm_num, show (1.0 * (-1.0 / 12.0) : ℝ) = -1.0 / 12.0 by norm_num] at h2
    exact h2
  · obtain ⟨F, h1, h2⟩ := key (1.0 * (1.0 - 8.0 * -0.331)) (1.0 * -0.331)
    refine ⟨F, h1, ?_⟩
    rw [show (1.0 * (1.0 - 8.0 * -0.331) : ℝ) = 1.0 - 8.0 * -0.331 by norm_num, show (1.0 * -0.331 : ℝ) = -0.331 by norm_num] at h2
    exact h2
  · obtain ⟨F, h1, h2⟩ := key (1.0 * (1.0 - 8.0 * -1.4088)) (1.0 * -1.4088)
    refine ⟨F, h1, ?_⟩
    rw [show (1.0 * (1.0 - 8.0 * -1.4088) : ℝ) = 1.0 - 8.0 * -1.4088 by norm_num, show (1.0 * -1.4088 : ℝ) = -1.4088 by norm_num] at h2
    exact h2
  · exact absurd rfl hz

/-- The improved force exists. -/
theorem forceImpr_some [∀ d, NeZero (L d)] (hN : 0 < N) (hn : 2 ≤ n) {V : GField L N} (hV : IsUnitaryField V) (c11 c12 : ℝ) :
    ∃ F, forceImpr V c11 c12 = some F := by
  obtain ⟨F, _, h1, -⟩ := C57_impr hN hn (fun _ => V) 0 (const_curve V hN) (fun _ => hV) c11 c12 (fun _ _ => 0)
  exact ⟨F, h1⟩

theorem zeuthen_impr (V : GField L N) : forceImpr V (1.0 * (5.0 / 3.0)) (1.0 * (-1.0 / 12.0)) = gfForce .luscherWeisz V := by
  unfold gfForce
  norm_num

/-- All forces exist. -/
theorem gfForce_some [∀ d, NeZero (L d)] (hN : 0 < N) (hn : 2 ≤ n) (act : GfAction) {V : GField L N} (hV : IsUnitaryField V) :
    ∃ F, gfForce act V = some F := by
  by_cases hz : act = .zeuthen
  · subst hz
    obtain ⟨F, h⟩ := forceImpr_some hN hn hV (1.0 * (5.0 / 3.0)) (1.0 * (-1.0 / 12.0))
    refine ⟨fun d x => F d x + (1.0 / 12.0 : ℝ) • (leftConj (V d x) (F d x) - (2.0 : ℝ) • F d x + rightConj (V d (x - unitStep d)) (F d (x - unitStep d))), ?_⟩
    unfold gfForce zeuthenForce
    dsimp only
    rw [h]; rfl
  · obtain ⟨F, h, -⟩ := gfForce_deriv hN hn act hz (fun _ => V) 0 (const_curve V hN) (fun _ => hV)
    exact ⟨F, h⟩

/-- The exponential curve through a field. -/
theorem exp_curve_alg (V : GField L N) (hN : 0 < N) (hV : IsUnitaryField V) (a : AlgField L N) :
    ∃ U : ℝ → GField L N, U 0 = V ∧ (LinkCurve U fun d x => expand (a d x)) ∧ ∀ t, IsUnitaryField (U t) := by
  refine ⟨fun t d x => NormedSpace.exp (t • expand (a d x)) * V d x, ?_, exp_curve V _, fun t => ?_⟩
  · funext d x; simp
  · have := exp_field_unitary hV a t
    simpa only [expand_eq hN] using this

/-! ### Gauge covariance -/

theorem wplaq_gauge [∀ d, NeZero (L d)] (U : GField L N) (g : PSite L → Mat N) (hg : IsGauge g) :
    measureSWplaq (gaugeT g U) = measureSWplaq U := by
  unfold measureSWplaq
  refine Finset.sum_congr rfl fun d1 _ => Finset.sum_congr rfl fun d2 _ => ?_
  split_ifs
  · refine Finset.sum_congr rfl fun x _ => ?_
    have e : ∀ V : GField L N, V d1 x * V d2 (x + unitStep d1) * (V d2 x * V d1 (x + unitStep d2))ᴴ =
        pathM V [(d1, true), (d2, true), (d1, false), (d2, false)] x := by
      intro V
      simp only [pathM, linkM, stepVec, if_true, Bool.false_eq_true, if_false, unitStep, Matrix.mul_one, Matrix.conjTranspose_mul, Matrix.mul_assoc]
      have e1 : x + Pi.single d1 1 + Pi.single d2 1 - Pi.single d1 1 = x + Pi.single d2 1 := by abel
      have e2 : x + Pi.single d1 1 + Pi.single d2 1 + -Pi.single d1 1 - Pi.single d2 1 = x := by abel
      rw [e1, e2]
    have h0 : disp [(d1, true), (d2, true), (d1, false), (d2, false)] = (0 : PSite L) := by
      simp only [disp, stepVec, if_true, Bool.false_eq_true, if_false]
      abel
    rw [e, e, C56_covariant U g hg, h0, add_zero, trace_conj hg]
  · rfl

theorem impr_gauge [∀ d, NeZero (L d)] {U : GField L N} (hU : IsUnitaryField U) (g : PSite L → Mat N) (hg : IsGauge g) (c11 c12 : ℝ) :
    measureSImpr (gaugeT g U) c11 c12 = measureSImpr U c11 c12 := by
  rw [measureSImpr_eq hU, measureSImpr_eq (gaugeT_unitary hU hg), wplaq_gauge U g hg]
  simp only [C56_covariant U g hg, disp_rect, add_zero, trace_conj hg]

theorem rotE_pair [∀ d, NeZero (L d)] (hN : 0 < N) {g : PSite L → Mat N} (hg : IsGauge g) (a F : AlgField L N) :
    pairK (rotE g a) (rotE g F) = pairK a F := by
  rw [pairK_eq, pairK_eq]
  refine Finset.sum_congr rfl fun d _ => Finset.sum_congr rfl fun x _ => ?_
  unfold rotE
  rw [conj_dot hN (hg x), (C50_conjugation hN (hg x) (F d x) 0).2.2.1]

theorem rotE_inv (hN : 0 < N) {g : PSite L → Mat N} (hg : IsGauge g) (b : AlgField L N) : rotE g (fun d x => rightConj (g x) (b d x)) = b := by
  funext d x
  exact (C50_conjugation hN (hg x) (b d x) 0).2.2.2.1

/-- A rotated curve. -/
theorem LinkCurve.gauge (hN : 0 < N) {U : ℝ → GField L N} {a : AlgField L N} (hU : LinkCurve U fun d x => expand (a d x)) {g : PSite L → Mat N}
    (hg : IsGauge g) : LinkCurve (fun t => gaugeT g (U t)) fun d x => expand (rotE g a d x) := by
  intro d x
  have c1 : MDeriv (fun _ : ℝ => g x) 0 := fun i j => hasDerivAt_const _ _
  have c2 : MDeriv (fun _ : ℝ => (g (x + Pi.single d 1))ᴴ) 0 := fun i j => hasDerivAt_const _ _
  have h := (c1.mul (hU d x)).mul c2
  have e : expand (rotE g a d x) * gaugeT g (U 0) d x = (0 * U 0 d x + g x * (expand (a d x) * U 0 d x)) * (g (x + Pi.single d 1))ᴴ + g x * U 0 d x * 0 := by
    unfold rotE gaugeT
    rw [(C50_conjugation hN (hg x) (a d x) 0).1, Matrix.zero_mul, zero_add, Matrix.mul_zero, add_zero]
    simp only [Matrix.mul_assoc]
    rw [← Matrix.mul_assoc (g x)ᴴ, hg.left, Matrix.one_mul]
  rw [e]
  exact h

/-- The forces are gauge covariant. -/
theorem gfForce_gauge [∀ d, NeZero (L d)] (hN : 0 < N) (hn : 2 ≤ n) (act : GfAction) (hz : act ≠ .zeuthen) {V : GField L N} (hV : IsUnitaryField V)
    {g : PSite L → Mat N} (hg : IsGauge g) {F : AlgField L N} (hF : gfForce act V = some F) : gfForce act (gaugeT g V) = some (rotE g F) := by
  obtain ⟨F', hF'⟩ := gfForce_some hN hn act (gaugeT_unitary hV hg)
  rw [hF']
  refine congrArg some (pairK_ext fun b => ?_)
  obtain ⟨a, ha⟩ : ∃ a, rotE g a = b := ⟨_, rotE_inv hN hg b⟩
  obtain ⟨U, h0, h1, h2⟩ := exp_curve_alg V hN hV a
  obtain ⟨F1, e1, d1⟩ := gfForce_deriv hN hn act hz U a h1 h2
  obtain ⟨F2, e2, d2⟩ := gfForce_deriv hN hn act hz (fun t => gaugeT g (U t)) (rotE g a) (h1.gauge hN hg) (fun t => gaugeT_unitary (h2 t) hg)
  rw [h0, hF] at e1
  rw [h0, hF'] at e2
  obtain rfl := Option.some.inj e1
  obtain rfl := Option.some.inj e2
  have hS : (fun t => gfS act (gaugeT g (U t))) = fun t => gfS act (U t) := by
    funext t
    rw [gfS_eq act _ (h2 t), gfS_eq act _ (gaugeT_unitary (h2 t) hg), impr_gauge (h2 t) g hg]
  rw [hS] at d2
  have := d2.unique d1
  have hN' : (N : ℝ) ≠ 0 := Nat.cast_ne_zero.2 (by omega)
  rw [← ha, rotE_pair hN hg]
  field_simp at this
  linarith

/-! ### The forces are bounded -/

/-- Bounded on unitary fields. -/
def Bd (f : GField L N → Mat N) : Prop := ∃ c, ∀ U, IsUnitaryField U → ∀ i j, ‖f U i j‖ ≤ c

/-- Bounded on unitary fields. -/
def Br (f : GField L N → ℝ) : Prop := ∃ c, ∀ U, IsUnitaryField U → |f U| ≤ c

theorem Bd.link (d : Fin n) (x : PSite L) : Bd fun U : GField L N => U d x :=
  ⟨1, fun _ hU i j => entry_norm_bound_of_unitary (hU d x) i j⟩

theorem Bd.const (A : Mat N) : Bd fun _ : GField L N => A := by
  refine ⟨∑ i, ∑ j, ‖A i j‖, fun U _ i j => ?_⟩
  refine le_trans ?_ (Finset.single_le_sum (f := fun i => ∑ j, ‖A i j‖) (fun i _ => Finset.sum_nonneg fun j _ => norm_nonneg _) (Finset.mem_univ i))
  exact Finset.single_le_sum (f := fun j => ‖A i j‖) (fun j _ => norm_nonneg _) (Finset.mem_univ j)

theorem Bd.mul {f g : GField L N → Mat N} (hf : Bd f) (hg : Bd g) : Bd fun U => f U * g U := by
  obtain ⟨c, hc⟩ := hf
  obtain ⟨c', hc'⟩ := hg
  refine ⟨N * (c * c'), fun U hU i j => ?_⟩
  show ‖(f U * g U) i j‖ ≤ _
  rw [Matrix.mul_apply]
  refine (norm_sum_le _ _).trans ((Finset.sum_le_card_nsmul _ _ (c * c') fun k _ => ?_).trans (le_of_eq ?_))
  · rw [norm_mul]
    exact mul_le_mul (hc U hU i k) (hc' U hU k j) (norm_nonneg _) ((norm_nonneg _).trans (hc U hU i k))
  · rw [Finset.card_univ, Fintype.card_fin, nsmul_eq_mul]

theorem Bd.add {f g : GField L N → Mat N} (hf : Bd f) (hg : Bd g) : Bd fun U => f U + g U := by
  obtain ⟨c, hc⟩ := hf
  obtain ⟨c', hc'⟩ := hg
  exact ⟨c + c', fun U hU i j => (norm_add_le _ _).trans (add_le_add (hc U hU i j) (hc' U hU i j))⟩

theorem Bd.star {f : GField L N → Mat N} (hf : Bd f) : Bd fun U => (f U)ᴴ := by
  obtain ⟨c, hc⟩ := hf
  refine ⟨c, fun U hU i j => ?_⟩
  show ‖(f U)ᴴ i j‖ ≤ _
  rw [Matrix.conjTranspose_apply, norm_star]
  exact hc U hU j i

theorem Bd.sum {ι : Type} (s : Finset ι) {f : ι → GField L N → Mat N} (hf : ∀ i, Bd (f i)) : Bd fun U => ∑ i ∈ s, f i U := by
  classical
  induction s using Finset.induction_on with
  | empty => simpa using Bd.const (L := L) (0 : Mat N)
  | insert i s hi ih => simpa only [Finset.sum_insert hi] using (hf i).add ih

theorem Bd.trace {f : GField L N → Mat N} (hf : Bd f) : Br fun U => (f U).trace.re := by
  obtain ⟨c, hc⟩ := hf
  refine ⟨N * c, fun U hU => ?_⟩
  refine (Complex.abs_re_le_norm _).trans ?_
  unfold Matrix.trace
  refine (norm_sum_le _ _).trans ((Finset.sum_le_card_nsmul _ _ c fun k _ => hc U hU k k).trans (le_of_eq ?_))
  rw [Finset.card_univ, Fintype.card_fin, nsmul_eq_mul]

theorem Br.add {f g : GField L N → ℝ} (hf : Br f) (hg : Br g) : Br fun U => f U + g U := by
  obtain ⟨c, hc⟩ := hf
  obtain ⟨c', hc'⟩ := hg
  exact ⟨c + c', fun U hU => (abs_add_le _ _).trans (add_le_add (hc U hU) (hc' U hU))⟩

theorem Br.cmul {f : GField L N → ℝ} (a : ℝ) (hf : Br f) : Br fun U => a * f U := by
  obtain ⟨c, hc⟩ := hf
  refine ⟨|a| * c, fun U hU => ?_⟩
  rw [abs_mul]
  exact mul_le_mul_of_nonneg_left (hc U hU) (abs_nonneg a)

theorem Br.sum {ι : Type} (s : Finset ι) {f : ι → GField L N → ℝ} (hf : ∀ i, Br (f i)) : Br fun U => ∑ i ∈ s, f i U := by
  classical
  induction s using Finset.induction_on with
  | empty => exact ⟨0, fun U _ => by simp⟩
  | insert i s hi ih => simpa only [Finset.sum_insert hi] using (hf i).add ih

theorem Bd.linkM (s : PStep n) (x : PSite L) : Bd fun U : GField L N => Hila.linkM U s x := by
  unfold Hila.linkM
  split_ifs
  · exact Bd.link _ _
  · exact (Bd.link _ _).star

theorem Bd.path (l : List (PStep n)) (x : PSite L) : Bd fun U : GField L N => pathM U l x := by
  induction l generalizing x with
  | nil => exact Bd.const 1
  | cons s l ih => exact (Bd.linkM s x).mul (ih _)

theorem Bd.dpath (A : GField L N) (l : List (PStep n)) (x : PSite L) : Bd fun U : GField L N => dpathM A U l x := by
  induction l generalizing x with
  | nil => exact Bd.const 0
  | cons s l ih =>
    refine Bd.add (Bd.mul ?_ (Bd.path l _)) ((Bd.linkM s x).mul (ih _))
    unfold dlinkM
    split_ifs
    · exact (Bd.const _).mul (Bd.link _ _)
    · exact ((Bd.const _).mul (Bd.link _ _)).star

theorem Bd.staple (w : Fin n → PSite L → ℝ) (d : Fin n) (x : PSite L) : Bd fun U : GField L N => stapleSpec w U d x := by
  refine Bd.sum _ fun d2 => Bd.add ?_ ?_
  · have h := ((Bd.const ((w d2 x : ℂ) • (1 : Mat N))).mul (((Bd.link (N := N) d2 x).mul (Bd.link d (x + Pi.single d2 1))).mul (Bd.link d2 (x + Pi.single d 1)).star))
    simpa only [Matrix.smul_mul, Matrix.one_mul] using h
  · have h := ((Bd.const ((w d2 (x - Pi.single d2 1) : ℂ) • (1 : Mat N))).mul (((Bd.link (N := N) d2 (x - Pi.single d2 1)).star.mul
      (Bd.link d (x - Pi.single d2 1))).mul (Bd.link d2 (x - Pi.single d2 1 + Pi.single d 1))))
    simpa only [Matrix.smul_mul, Matrix.one_mul] using h

/-- A force is bounded on unitary fields. -/
theorem gfForce_bounded_grad [∀ d, NeZero (L d)] (hN : 0 < N) (hn : 2 ≤ n) (act : GfAction) (hz : act ≠ .zeuthen) :
    ∃ M : ℝ, ∀ (V : GField L N), IsUnitaryField V → ∀ F, gfForce act V = some F → ∀ d x k, |F d x k| ≤ M := by
  have h1 : ∀ a : AlgField L N, ∃ c : ℝ, ∀ (V : GField L N), IsUnitaryField V → ∀ F, gfForce act V = some F → |pairK a F| ≤ c := by
    intro a
    have hb : Br fun V : GField L N => ((gfCoef act).1 * ∑ d, ∑ x, (expand (a d x) * (V d x * (stapleSpec (fun _ _ => 1) V d x)ᴴ)).trace.re +
        (gfCoef act).2 * ∑ d1, ∑ d2 ∈ Finset.univ.erase d1, ∑ x, (dpathM (fun d x => expand (a d x)) V (rectPath d1 d2) x).trace.re) :=
      Br.add (Br.cmul _ (Br.sum _ fun d => Br.sum _ fun x => Bd.trace ((Bd.const _).mul ((Bd.link d x).mul (Bd.staple _ d x).star))))
        (Br.cmul _ (Br.sum _ fun d1 => Br.sum _ fun d2 => Br.sum _ fun x => Bd.trace (Bd.dpath _ _ x)))
    obtain ⟨c, hc⟩ := hb
    refine ⟨2 * c, fun V hV F hF => ?_⟩
    obtain ⟨U, h0, h1, h2⟩ := exp_curve_alg V hN hV a
    obtain ⟨F1, e1, d1⟩ := gfForce_deriv hN hn act hz U a h1 h2
    rw [h0, hF] at e1
    obtain rfl := Option.some.inj e1
    have d2 := impr_deriv hN h1 h2 (gfCoef act).1 (gfCoef act).2
    have hS : (fun t => gfS act (U t)) = fun t => measureSImpr (U t) (gfCoef act).1 (gfCoef act).2 := by
      funext t; exact gfS_eq act _ (h2 t)
    rw [hS] at d1
    have e := d1.unique d2
    have hN' : (N : ℝ) ≠ 0 := Nat.cast_ne_zero.2 (by omega)
    have e' := hc V hV
    dsimp only at e'
    rw [h0] at e
    generalize (gfCoef act).1 * _ + _ = z at e e'
    have : pairK a F = 2 * z := by
      field_simp at e
      linarith
    rw [this, abs_mul, abs_two]
    linarith
  choose c hc using h1
  obtain ⟨u, hu⟩ : ∃ u : Fin n → PSite L → Fin (N * N - 1) → AlgField L N, ∀ d x k, ∀ F : AlgField L N, pairK (u d x k) F = F d x k := by
    refine ⟨fun d x k d' x' k' => if d' = d ∧ x' = x ∧ k' = k then 1 else 0, fun d x k F => ?_⟩
    unfold pairK
    rw [Finset.sum_eq_single d, Finset.sum_eq_single x, Finset.sum_eq_single k]
    · simp
    · intro b _ hb; simp [hb]
    · intro h; exact absurd (Finset.mem_univ _) h
    · intro b _ hb; simp [hb]
    · intro h; exact absurd (Finset.mem_univ _) h
    · intro b _ hb; simp [hb]
    · intro h; exact absurd (Finset.mem_univ _) h
  refine ⟨∑ d, ∑ x, ∑ k, |c (u d x k)|, fun V hV F hF d x k => ?_⟩
  have := hc (u d x k) V hV F hF
  rw [hu] at this
  refine this.trans ((le_abs_self _).trans ?_)
  refine le_trans ?_ (Finset.single_le_sum (f := fun d => ∑ x, ∑ k, |c (u d x k)|)
    (fun d _ => Finset.sum_nonneg fun x _ => Finset.sum_nonneg fun k _ => abs_nonneg _) (Finset.mem_univ d))
  refine le_trans ?_ (Finset.single_le_sum (f := fun x => ∑ k, |c (u d x k)|) (fun x _ => Finset.sum_nonneg fun k _ => abs_nonneg _) (Finset.mem_univ x))
  exact Finset.single_le_sum (f := fun k => |c (u d x k)|) (fun k _ => abs_nonneg _) (Finset.mem_univ k)

theorem sdot_coord (a : Alg N) (k : Fin (N * N - 1)) : |a k| ^ 2 ≤ sdot a a := by
  rw [sq_abs, pow_two]
  exact Finset.single_le_sum (f := fun k => a k * a k) (fun k _ => mul_self_nonneg _) (Finset.mem_univ k)

theorem sdot_bound {a : Alg N} {M : ℝ} (h : ∀ k, |a k| ≤ M) : sdot a a ≤ (N * N - 1 : ℕ) * M ^ 2 := by
  unfold sdot
  refine (Finset.sum_le_card_nsmul _ _ (M ^ 2) fun k _ => ?_).trans (le_of_eq ?_)
  · rw [← pow_two, ← sq_abs]; exact pow_le_pow_left₀ (abs_nonneg _) (h k) 2
  · rw [Finset.card_univ, Fintype.card_fin, nsmul_eq_mul]

/-- All forces are bounded. -/
theorem gfForce_bounded [∀ d, NeZero (L d)] (hN : 0 < N) (hn : 2 ≤ n) (act : GfAction) :
    ∃ M : ℝ, 0 ≤ M ∧ ∀ (V : GField L N), IsUnitaryField V → ∀ F, gfForce act V = some F → ∀ d x k, |F d x k| ≤ M := by
  by_cases hz : act = .zeuthen
  · subst hz
    obtain ⟨M, hM⟩ := gfForce_bounded_grad (L := L) hN hn .luscherWeisz (by simp)
    obtain ⟨C, hC⟩ : ∃ C : ℝ, C = (N * N - 1 : ℕ) * M ^ 2 := ⟨_, rfl⟩
    have hC0 : 0 ≤ C := by rw [hC]; positivity
    refine ⟨|M| + 1 / 12 * (Real.sqrt C + 2 * |M| + Real.sqrt C), by positivity, fun V hV F hF d x k => ?_⟩
    obtain ⟨F0, h0⟩ := gfForce_some hN hn .luscherWeisz hV
    have hb := hM V hV F0 h0
    have hF' : F = fun d x => F0 d x + (1.0 / 12.0 : ℝ) • (leftConj (V d x) (F0 d x) - (2.0 : ℝ) • F0 d x + rightConj (V d (x - unitStep d)) (F0 d (x - unitStep d))) := by
      unfold gfForce zeuthenForce at hF
      dsimp only at hF
      rw [zeuthen_impr, h0] at hF
      exact (Option.some.inj hF).symm
    have hl : |leftConj (V d x) (F0 d x) k| ≤ Real.sqrt C := by
      refine Real.le_sqrt_of_sq_le ((sdot_coord _ k).trans ?_)
      rw [conj_norm hN (hV d x), hC]
      exact sdot_bound (hb d x)
    have hr : |rightConj (V d (x - unitStep d)) (F0 d (x - unitStep d)) k| ≤ Real.sqrt C := by
      refine Real.le_sqrt_of_sq_le ((sdot_coord _ k).trans ?_)
      rw [conj_norm_right hN (hV d _), hC]
      exact sdot_bound (hb d _)
    have h1 := (hb d x k).trans (le_abs_self M)
    rw [hF']
    simp only [Pi.add_apply, Pi.smul_apply, Pi.sub_apply, smul_eq_mul]
    rw [abs_le] at hl hr h1 ⊢
    norm_num
    constructor <;> linarith [hl.1, hl.2, hr.1, hr.2, h1.1, h1.2]
  · obtain ⟨M, hM⟩ := gfForce_bounded_grad (L := L) hN hn act hz
    exact ⟨|M|, abs_nonneg _, fun V hV F hF d x k => (hM V hV F hF d x k).trans (le_abs_self _)⟩

/-! ### The exponential -/

theorem exp_antiherm_det {A : Mat N} (hA : Aᴴ = -A) (ht : A.trace = 0) : (NormedSpace.exp A).det = 1 := by
  have hH : (Complex.I • A).IsHermitian := by
    unfold Matrix.IsHermitian
    rw [Matrix.conjTranspose_smul, hA, RCLike.star_def, Complex.conj_I, smul_neg, neg_smul, neg_neg]
  have hs := hH.spectral_theorem
  obtain ⟨D, hD⟩ : ∃ D : Fin N → ℂ, D = fun i => -Complex.I * (hH.eigenvalues i : ℂ) := ⟨_, rfl⟩
  obtain ⟨P, hP⟩ : ∃ P : Matrix.unitaryGroup (Fin N) ℂ, P = hH.eigenvectorUnitary := ⟨_, rfl⟩
  have h1 : (P : Mat N) * star (P : Mat N) = 1 := Matrix.mem_unitaryGroup_iff.1 P.2
  have h2 : star (P : Mat N) * (P : Mat N) = 1 := Matrix.mem_unitaryGroup_iff'.1 P.2
  have hA' : A = (P : Mat N) * Matrix.diagonal D * star (P : Mat N) := by
    have e : A = -Complex.I • (Complex.I • A) := by rw [smul_smul, neg_mul, Complex.I_mul_I, neg_neg, one_smul]
    have e2 : Complex.I • A = (P : Mat N) * Matrix.diagonal (RCLike.ofReal ∘ hH.eigenvalues) * star (P : Mat N) := by
      rw [hP]; exact hs
    rw [e, e2, ← Matrix.smul_mul, ← Matrix.mul_smul, hD]
    congr 2
    rw [← Matrix.diagonal_smul]
    rfl
  have hinv : (P : Mat N)⁻¹ = star (P : Mat N) := Matrix.inv_eq_right_inv h1
  have hu : IsUnit (P : Mat N) := IsUnit.of_mul_eq_one _ h1
  have hexp : NormedSpace.exp A = (P : Mat N) * Matrix.diagonal (NormedSpace.exp D) * star (P : Mat N) := by
    rw [hA', ← hinv, Matrix.exp_conj _ _ hu, Matrix.exp_diagonal]
  rw [hexp, Matrix.det_mul, Matrix.det_mul, mul_right_comm, ← Matrix.det_mul, h1, Matrix.det_one, one_mul, Matrix.det_diagonal]
  have htr : ∑ i, D i = 0 := by
    rw [← ht, hA', Matrix.trace_mul_cycle, h2, Matrix.one_mul, Matrix.trace_diagonal]
  have : ∀ i, NormedSpace.exp D i = Complex.exp (D i) := by
    intro i
    rw [Pi.coe_exp, Complex.exp_eq_exp_ℂ]
  rw [Finset.prod_congr rfl fun i _ => this i, ← Complex.exp_sum, htr, Complex.exp_zero]

/-- The exponential of an algebra element. -/
noncomputable def expAlg (a : Alg N) : Mat N := NormedSpace.exp (expand a)

theorem expAlg_mem (hN : 0 < N) (a : Alg N) : expAlg a ∈ Matrix.specialUnitaryGroup (Fin N) ℂ := by
  unfold expAlg
  rw [expand_eq hN, Matrix.mem_specialUnitaryGroup_iff]
  refine ⟨?_, exp_antiherm_det (algMat_conj a) (algMat_trace hN a)⟩
  rw [Matrix.mem_unitaryGroup_iff, Matrix.star_eq_conjTranspose, ← Matrix.exp_conjTranspose, algMat_conj,
    ← Matrix.exp_add_of_commute _ _ (show _ * _ = _ * _ by rw [Matrix.mul_neg, Matrix.neg_mul]), add_neg_cancel, NormedSpace.exp_zero]

theorem expAlg_conj (hN : 0 < N) {g : Mat N} (hg : g ∈ Matrix.unitaryGroup (Fin N) ℂ) (a : Alg N) : expAlg (leftConj g a) = g * expAlg a * gᴴ := by
  have h1 : g * star g = 1 := Matrix.mem_unitaryGroup_iff.1 hg
  have hinv : g⁻¹ = gᴴ := Matrix.inv_eq_right_inv h1
  unfold expAlg
  rw [(C50_conjugation hN hg a 0).1, ← hinv, Matrix.exp_conj _ _ (IsUnit.of_mul_eq_one _ h1)]

theorem expAlg_zero (hN : 0 < N) : expAlg (0 : Alg N) = 1 := by
  have : expand (0 : Alg N) = 0 := by simpa using expand_smul hN 0 (0 : Alg N)
  unfold expAlg
  rw [this, NormedSpace.exp_zero]

theorem expAlg_add_smul (hN : 0 < N) (s t : ℝ) (a : Alg N) : expAlg ((s + t) • a) = expAlg (s • a) * expAlg (t • a) := by
  unfold expAlg
  rw [add_smul, expand_add hN, Matrix.exp_add_of_commute]
  rw [expand_smul hN, expand_smul hN]
  show _ * _ = _ * _
  rw [Matrix.smul_mul, Matrix.smul_mul, Matrix.mul_smul, Matrix.mul_smul, smul_comm]

end Hila
