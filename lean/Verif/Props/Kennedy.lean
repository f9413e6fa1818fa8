import Verif.Props.HeatBath

/-!
# C87: the heat bath of SU(2)
-/

namespace Hila

open MeasureTheory ProbabilityTheory Set Matrix
open scoped ENNReal

/-- The test of a trial in `KennedyPendleton`. -/
def kenAcc (α : ℝ) (u : ℕ → ℝ) : Prop := u 3 * u 3 ≤ 1 - 0.5 * kpValue α (u 0) (u 1) (u 2)

theorem kenAcc_measurable (α : ℝ) : MeasurableSet {u : ℕ → ℝ | kenAcc α u} := by
  have : Measurable fun u : ℕ → ℝ => kpValue α (u 0) (u 1) (u 2) := kpValue_measurable (by fun_prop) (by fun_prop) (by fun_prop) (by fun_prop)
  unfold kenAcc
  exact measurableSet_le (by fun_prop) (by fun_prop)

open Classical in
theorem ken_trial {α : ℝ} (hα : 0 < α) : ∃ κ q : ℝ≥0∞, κ ≠ 0 ∧ q = ∫⁻ u, (if kenAcc α u then 0 else 1) ∂uniformStream ∧
    TrialLaw 4 (kenAcc α) (kpVal α) κ q (heatM α) := by
  obtain ⟨κ, q, hκ, hq, hk0⟩ := kp_trialLaw hα (fun d x => x * x ≤ 1 - 0.5 * d) (measurableSet_le (by fun_prop) (by fun_prop))
    (fun d hd => unif_sq_le (by norm_num; exact hd))
  exact ⟨κ, q, hκ, hq, hk0⟩

open Classical in
/-- The trials of `KennedyPendleton`, if one of the first 99 is accepted. -/
noncomputable def kenTry (α : ℝ) (u : ℕ → ℝ) : Option (ℝ × ℕ) := tryLoop 4 (kenAcc α) (kpVal α) 99 u

open Classical in
theorem kennedyLoop_try (rnd : ℕ → ℝ) (α : ℝ) (m n k : ℕ) (hm : m + n = 99) :
    match tryLoop 4 (kenAcc α) (kpVal α) m (shiftBy k rnd) with
    | some x => ((kennedyLoop rnd α (m + 1) n k).1 = x.1 ∧ (kennedyLoop rnd α (m + 1) n k).2.1 < 100 ∧ (kennedyLoop rnd α (m + 1) n k).2.2 = k + x.2) ∧
        ∃ j < m, kenAcc α (shiftBy (k + 4 * j) rnd)
    | none => (kennedyLoop rnd α (m + 1) n k).2.1 = 100 ∧ ¬ ∃ j < m, kenAcc α (shiftBy (k + 4 * j) rnd) := by
  induction m generalizing n k with
  | zero =>
    refine ⟨?_, by rintro ⟨j, hj, _⟩; omega⟩
    unfold kennedyLoop
    simp only []
    rw [if_neg (by omega)]
    show n + 1 = 100
    omega
  | succ m ih =>
    have hd : (-Real.log (1 - rnd k) * (Real.cos (2 * Real.pi * rnd (k + 2)) * Real.cos (2 * Real.pi * rnd (k + 2))) + -Real.log (1 - rnd (k + 1))) / α =
        kpVal α (shiftBy k rnd) := by
      show _ = -(Real.log (1 - rnd (k + 1)) + Real.log (1 - rnd (k + 0)) * Real.cos (2 * Real.pi * rnd (k + 2)) * Real.cos (2 * Real.pi * rnd (k + 2))) / α
      rw [Nat.add_zero]
      congr 1
      ring
    by_cases h : kenAcc α (shiftBy k rnd)
    · rw [show tryLoop 4 (kenAcc α) (kpVal α) (m + 1) (shiftBy k rnd) = some (kpVal α (shiftBy k rnd), 4) from if_pos h]
      have e : kennedyLoop rnd α (m + 1 + 1) n k = (kpVal α (shiftBy k rnd), n + 1, k + 4) := by
        conv_lhs => unfold kennedyLoop
        simp only []
        rw [hd]
        have h' : ¬ rnd (k + 3) * rnd (k + 3) > 1 - 0.5 * kpVal α (shiftBy k rnd) := not_lt.2 h
        rw [if_neg (fun c => h' c.2)]
      refine ⟨by rw [e]; exact ⟨rfl, by show n + 1 < 100; omega, rfl⟩, 0, by omega, by simpa using h⟩
    · have e : kennedyLoop rnd α (m + 1 + 1) n k = kennedyLoop rnd α (m + 1) (n + 1) (k + 4) := by
        conv_lhs => unfold kennedyLoop
        simp only []
        rw [hd]
        have h' : rnd (k + 3) * rnd (k + 3) > 1 - 0.5 * kpVal α (shiftBy k rnd) := not_le.1 h
        rw [if_pos ⟨by omega, h'⟩]
      have ex : (∃ j < m + 1, kenAcc α (shiftBy (k + 4 * j) rnd)) ↔ ∃ j < m, kenAcc α (shiftBy (k + 4 + 4 * j) rnd) := by
        constructor
        · rintro ⟨j, hj, ha⟩
          cases j with
          | zero => exact absurd (by simpa using ha) h
          | succ j => exact ⟨j, by omega, by rw [show k + 4 + 4 * j = k + 4 * (j + 1) by ring]; exact ha⟩
        · rintro ⟨j, hj, ha⟩
          exact ⟨j + 1, by omega, by rw [show k + 4 * (j + 1) = k + 4 + 4 * j by ring]; exact ha⟩
      rw [show tryLoop 4 (kenAcc α) (kpVal α) (m + 1) (shiftBy k rnd) =
        (tryLoop 4 (kenAcc α) (kpVal α) m (shiftBy 4 (shiftBy k rnd))).map fun x => (x.1, 4 + x.2) from if_neg h, shiftBy_shiftBy, e, ex]
      have := ih (n + 1) (k + 4) (by omega)
      revert this
      generalize tryLoop 4 (kenAcc α) (kpVal α) m (shiftBy (k + 4) rnd) = o
      intro this
      cases o with
      | none => exact this
      | some x => exact ⟨⟨this.1.1, this.1.2.1, by rw [this.1.2.2]; simp [Nat.add_assoc]⟩, this.2⟩

theorem kennedyAccepts_iff (rnd : ℕ → ℝ) (α : ℝ) : KennedyAccepts rnd α ↔ ∃ j < 99, kenAcc α (shiftBy (0 + 4 * j) rnd) := by
  unfold KennedyAccepts
  refine exists_congr fun j => and_congr_right fun _ => ?_
  rw [Nat.zero_add]
  exact Iff.rfl

/-- Minus the unit matrix. -/
noncomputable def minusOne : SUN 2 := toSU ![0, 0, 0, -1]

theorem minusOne_val : minusOne.1 = (SU2.ofScalar (-1)).toMatrix := by
  unfold minusOne
  rw [toSU_unit (by simp [Fin.sum_univ_four])]
  rfl

theorem qVec_ne {x : SU2} (hx : 0 < x.det) : qVec x ≠ 0 := by
  intro e
  have := qOf_qVec x
  rw [e] at this
  rw [← this, qOf_det] at hx
  simp at hx

theorem toSU_qVec {x : SU2} (hx : 0 < x.det) : (toSU (qVec x)).1 = (x.div (Real.sqrt x.det)).toMatrix := by
  unfold toSU
  rw [dif_neg (qVec_ne hx)]
  rfl

/-- The value of `KennedyPendleton` for a value `a0`. -/
theorem kennedy_value (rnd : ℕ → ℝ) (h : ∀ k, 0 ≤ rnd k ∧ rnd k < 1) (staple : SU2) (hs : 0 < staple.det) (a0 : ℝ) (ha : a0 ^ 2 ≤ 1) (k : ℕ) :
    (SU2.mul (SU2.neg ⟨Real.sqrt ((if 1 - a0 * a0 ≤ 0 then 0 else 1 - a0 * a0) * (1 - (2 * rnd k - 1) * (2 * rnd k - 1))) * Real.sin (2 * Real.pi * rnd (k + 1)),
      Real.sqrt ((if 1 - a0 * a0 ≤ 0 then 0 else 1 - a0 * a0) * (1 - (2 * rnd k - 1) * (2 * rnd k - 1))) * Real.cos (2 * Real.pi * rnd (k + 1)),
      Real.sqrt (if 1 - a0 * a0 ≤ 0 then 0 else 1 - a0 * a0) * (2 * rnd k - 1), a0⟩) (staple.div (Real.sqrt staple.det))).toMatrix =
    (minusOne * toSU (spherePt (angleDir true (2 * Real.pi * rnd (k + 1))) (2 * rnd k - 1) a0) * toSU (qVec staple)).1 := by
  have hz : (2 * rnd k - 1) ^ 2 ≤ 1 := by nlinarith [(h k).1, (h k).2]
  have hr : (if 1 - a0 * a0 ≤ 0 then (0 : ℝ) else 1 - a0 * a0) = 1 - a0 ^ 2 := by
    split
    · nlinarith
    · ring
  show _ = minusOne.1 * (toSU _).1 * (toSU (qVec staple)).1
  rw [toSU_qVec hs, toSU_unit (spherePt_norm true _ _ _ hz ha), minusOne_val, ← toMatrix_mul, ← toMatrix_mul, hr]
  congr 2
  rw [Real.sqrt_mul (by linarith), show 1 - (2 * rnd k - 1) * (2 * rnd k - 1) = 1 - (2 * rnd k - 1) ^ 2 by ring]
  unfold SU2.neg SU2.mul SU2.ofScalar qOf spherePt angleDir
  ext <;> simp

theorem toMatrix_trace_re (x : SU2) : x.toMatrix.trace.re = 2 * x.d := by
  simp [SU2.toMatrix, Matrix.trace_fin_two]
  ring_nf

/-- The action in terms of the element `a`. -/
theorem kennedy_action (staple : SU2) (hs : 0 < staple.det) (g : SUN 2) :
    ((minusOne * g * toSU (qVec staple)).1 * staple.toMatrixᴴ).trace.re = -(2 * Real.sqrt staple.det * halfTr g) := by
  have hp := Real.sqrt_pos.2 hs
  have hq : Real.sqrt staple.det * Real.sqrt staple.det = staple.det := Real.mul_self_sqrt hs.le
  obtain ⟨x, hx, _⟩ := C28_group.2.1 g.1 g.2
  have e : (minusOne * g * toSU (qVec staple)).1 = minusOne.1 * g.1 * (toSU (qVec staple)).1 := rfl
  unfold halfTr
  rw [e, minusOne_val, toSU_qVec hs, ← hx, ← toMatrix_dagger, ← toMatrix_mul, ← toMatrix_mul, ← toMatrix_mul, toMatrix_trace_re, toMatrix_trace_re]
  have hd : staple.det = staple.a * staple.a + staple.b * staple.b + staple.c * staple.c + staple.d * staple.d := rfl
  have hz : ∃ z, z = Real.sqrt staple.det := ⟨_, rfl⟩
  obtain ⟨z, hz⟩ := hz
  rw [← hz] at hp hq ⊢
  simp only [SU2.mul, SU2.ofScalar, SU2.div, SU2.dagger]
  field_simp
  rw [hd] at hq
  linear_combination x.d * hq

/-- The whole routine, if one of the first 99 trials is accepted. -/
noncomputable def kenRun (staple : SU2) (u : ℕ → ℝ) : Option (SUN 2 × ℕ) :=
  thenRun (thenRun (kenTry (2 * Real.sqrt staple.det) u) (ptRun true) u) (fun g _ => some (minusOne * g * toSU (qVec staple), 0)) u

open Classical in
theorem kenRun_spec (u : ℕ → ℝ) (hu : ∀ k, 0 ≤ u k ∧ u k < 1) (staple : SU2) (hs : 0 < staple.det) :
    match kenRun staple u with
    | some x => KennedyAccepts u (2 * Real.sqrt staple.det) ∧ ∃ y, kennedyPendleton u staple = some y ∧ y.toMatrix = x.1.1
    | none => ¬ KennedyAccepts u (2 * Real.sqrt staple.det) ∧ ∃ y, kennedyPendleton u staple = some y ∧
        ∃ g, y.toMatrix = (minusOne * g * toSU (qVec staple)).1 ∧ halfTr g = 1e-9 := by
  have hp := Real.sqrt_pos.2 hs
  have h := kennedyLoop_try u (2 * Real.sqrt staple.det) 99 0 0 rfl
  have hrange := kennedyLoop_range u hu (2 * Real.sqrt staple.det) (by linarith) 100 0 0 rfl (by norm_num)
  rw [← kennedyAccepts_iff, shiftBy_zero] at h
  have hk : kenRun staple u = thenRun (thenRun (tryLoop 4 (kenAcc (2 * Real.sqrt staple.det)) (kpVal (2 * Real.sqrt staple.det)) 99 u) (ptRun true) u)
    (fun g _ => some (minusOne * g * toSU (qVec staple), 0)) u := rfl
  rw [hk]
  unfold kennedyPendleton
  simp only [if_neg hp.ne']
  generalize tryLoop 4 (kenAcc (2 * Real.sqrt staple.det)) (kpVal (2 * Real.sqrt staple.det)) 99 u = o at h
  rw [show (99 + 1 : ℕ) = 100 from rfl] at h
  generalize kennedyLoop u (2 * Real.sqrt staple.det) 100 0 0 = l at *
  cases o with
  | none =>
    refine ⟨h.2, _, rfl, ?_⟩
    simp only [if_pos (show l.2.1 ≥ 100 from h.1.ge)]
    refine ⟨_, kennedy_value u hu staple hs 1e-9 (by norm_num) l.2.2, ?_⟩
    exact halfTr_spherePt true _ _ _ (by nlinarith [(hu l.2.2).1, (hu l.2.2).2]) (by norm_num)
  | some x =>
    obtain ⟨⟨h1, h2, h3⟩, h4⟩ := h
    refine ⟨h4, _, rfl, ?_⟩
    simp only [if_neg (show ¬ l.2.1 ≥ 100 by omega)]
    have hd : 0 ≤ l.1 ∧ l.1 ≤ 2 := by
      rcases hrange with hr | hr
      · omega
      · exact hr
    rw [kennedy_value u hu staple hs (1 - l.1) (by nlinarith [hd.1, hd.2]) l.2.2, h1, h3, Nat.zero_add]
    rfl

theorem LawAt.then_map {α β : Type} [MeasurableSpace α] [MeasurableSpace β] {p : (ℕ → ℝ) → Option (α × ℕ)} {μ : Measure α} (h : LawAt p μ) (f : α → β)
    (hf : Measurable f) : LawAt (fun u => thenRun (p u) (fun a _ => some (f a, 0)) u) (μ.map f) := by
  intro F hF
  have hF2 : Measurable fun x : α × (ℕ → ℝ) => F (f x.1) x.2 := hF.comp ((hf.comp measurable_fst).prodMk measurable_snd)
  have hΦ : Measurable fun a => ∫⁻ u, F a u ∂uniformStream := hF.lintegral_prod_right'
  have := h (fun a v => F (f a) v) hF2
  rw [lintegral_map hΦ hf, ← this]
  refine lintegral_congr fun u => ?_
  rw [afterRun_then]
  congr 1
  funext a v
  simp only [afterRun, shiftBy_zero]

/-- The probability of a result in a set. -/
theorem LawAt.event {β : Type} [MeasurableSpace β] {p : (ℕ → ℝ) → Option (β × ℕ)} {μ : Measure β} (h : LawAt p μ) (hm : StreamMeas fun _ : Unit => p)
    (B : Set β) (hB : MeasurableSet B) : uniformStream {u | ∃ x, p u = some x ∧ x.1 ∈ B} = μ B := by
  have h1 := h (fun b _ => B.indicator 1 b) ((measurable_one.indicator hB).comp measurable_fst)
  simp only [lintegral_const, measure_univ, mul_one] at h1
  rw [lintegral_indicator_one hB] at h1
  have hm0 := hm (fun _ b _ => B.indicator 1 b) ((measurable_one.indicator hB).comp (measurable_fst.comp measurable_snd))
  have hm1 : Measurable fun u => afterRun (fun b _ => B.indicator 1 b) u (p u) :=
    hm0.comp (measurable_const.prodMk measurable_id : Measurable fun u : ℕ → ℝ => ((), u))
  have e : {u | ∃ x, p u = some x ∧ x.1 ∈ B} = {u | afterRun (fun b _ => B.indicator (1 : β → ℝ≥0∞) b) u (p u) = 1} := by
    ext u
    show (∃ x, p u = some x ∧ x.1 ∈ B) ↔ afterRun (fun b _ => B.indicator (1 : β → ℝ≥0∞) b) u (p u) = 1
    cases hp : p u with
    | none =>
      simp only [afterRun]
      constructor
      · rintro ⟨x, hx, _⟩; cases hx
      · intro c; exact absurd c (by norm_num)
    | some x =>
      simp only [afterRun]
      constructor
      · rintro ⟨y, hy, hyB⟩
        rw [Option.some.inj hy, indicator_of_mem hyB]; rfl
      · intro c
        refine ⟨x, rfl, ?_⟩
        by_contra hx
        rw [indicator_of_notMem hx] at c
        exact absurd c (by norm_num)
  have hE : MeasurableSet {u | afterRun (fun b _ => B.indicator (1 : β → ℝ≥0∞) b) u (p u) = 1} := measurableSet_eq_fun hm1 measurable_const
  rw [← h1, e, ← lintegral_indicator_one hE]
  refine lintegral_congr fun u => ?_
  by_cases hu : afterRun (fun b _ => B.indicator (1 : β → ℝ≥0∞) b) u (p u) = 1
  · rw [hu]; exact indicator_of_mem (by exact hu) _
  · rw [indicator_of_notMem (by exact hu)]
    cases hp : p u with
    | none => rfl
    | some x =>
      rw [hp] at hu
      exact (indicator_of_notMem (fun hx => hu (indicator_of_mem hx _)) _).symm

theorem shift_measurable (V W : SUN 2) : Measurable fun g : SUN 2 => W * g * V :=
  (by fun_prop : Continuous fun g : SUN 2 => W * g * V).measurable

theorem kenShift_measurable (staple : SU2) : Measurable fun g : SUN 2 => minusOne * g * toSU (qVec staple) :=
  shift_measurable _ _

open Classical in
theorem kenRun_meas (staple : SU2) : StreamMeas fun _ : Unit => kenRun staple := by
  have h1 : StreamMeas fun _ : Unit => kenTry (2 * Real.sqrt staple.det) := by
    refine tryLoop_meas 4 (fun _ => kenAcc (2 * Real.sqrt staple.det)) (fun _ => kpVal (2 * Real.sqrt staple.det)) ?_ ?_ 99
    · exact (kenAcc_measurable _).preimage measurable_snd
    · exact kpVal_measurable.comp (measurable_const.prodMk measurable_snd)
  have hp : StreamMeas fun (x : Unit × ℝ) => ptRun true x.2 :=
    StreamMeas.value 2 (fun (x : Unit × ℝ) v => toSU (spherePt (angleDir true (2 * Real.pi * v 1)) (2 * v 0 - 1) (1 - x.2)))
      (toSU_pt_measurable true (by fun_prop) (by fun_prop) (by fun_prop))
  have h2 := StreamMeas.after (q := fun _ => ptRun true) h1 hp
  have hg : StreamMeas fun (x : Unit × SUN 2) (_ : ℕ → ℝ) => some (minusOne * x.2 * toSU (qVec staple), 0) :=
    StreamMeas.value 0 (fun (x : Unit × SUN 2) _ => minusOne * x.2 * toSU (qVec staple)) ((kenShift_measurable staple).comp (measurable_snd.comp measurable_fst))
  exact StreamMeas.after (q := fun _ g _ => some (minusOne * g * toSU (qVec staple), 0)) h2 hg

open Classical in
theorem kenTry_law {α : ℝ} (hα : 0 < α) : ∃ c : ℝ≥0∞, c ≠ 0 ∧ LawAt (kenTry α) (c • heatM α) := by
  obtain ⟨κ, q, hκ, _, hk⟩ := ken_trial hα
  have v1 : Measurable fun u : ℕ → ℝ => kpVal α u := kpVal_measurable.comp (measurable_const.prodMk measurable_id)
  refine ⟨κ * ∑ j ∈ Finset.range 99, q ^ j, mul_ne_zero hκ ?_, tryLoop_law hk (kenAcc_measurable α) v1 99⟩
  intro e
  have := Finset.sum_eq_zero_iff.1 e 0 (by simp)
  simp at this

theorem kenRun_law (haar : Measure (SUN 2)) [IsProbabilityMeasure haar] [haar.IsMulLeftInvariant] (staple : SU2) (hs : 0 < staple.det) :
    ∃ κ : ℝ≥0∞, κ ≠ 0 ∧ LawAt (kenRun staple) (κ • boltzmann haar fun U => (U.1 * staple.toMatrixᴴ).trace.re) := by
  have hp := Real.sqrt_pos.2 hs
  obtain ⟨c, hc0, hc⟩ := kenTry_law (by linarith : 0 < 2 * Real.sqrt staple.det)
  obtain ⟨κ, hκ, hl⟩ := point_law haar true hc0 hc
  refine ⟨κ, hκ, ?_⟩
  have := hl.then_map (fun g => minusOne * g * toSU (qVec staple)) (kenShift_measurable staple)
  have e : (κ • haar.withDensity fun g => ENNReal.ofReal (Real.exp (2 * Real.sqrt staple.det * halfTr g))).map (fun g => minusOne * g * toSU (qVec staple)) =
      κ • boltzmann haar fun U => (U.1 * staple.toMatrixᴴ).trace.re := by
    rw [Measure.map_smul]
    congr 1
    have hw1 : Measurable fun g : SUN 2 => ENNReal.ofReal (Real.exp (2 * Real.sqrt staple.det * halfTr g)) := by
      have := halfTr_continuous.measurable
      fun_prop
    have hcont := linkAction_continuous staple.toMatrix
    have hw2 : Measurable fun U : SUN 2 => ENNReal.ofReal (Real.exp (-(U.1 * staple.toMatrixᴴ).trace.re)) :=
      (by fun_prop : Continuous fun U : SUN 2 => Real.exp (-(U.1 * staple.toMatrixᴴ).trace.re)).measurable.ennreal_ofReal
    refine Measure.ext_of_lintegral _ fun Φ hΦ => ?_
    unfold boltzmann
    rw [lintegral_map hΦ (kenShift_measurable staple)]
    have l1 := lintegral_withDensity_eq_lintegral_mul haar hw1 (hΦ.comp (kenShift_measurable staple))
    have l2 := lintegral_withDensity_eq_lintegral_mul haar hw2 hΦ
    refine l1.trans (Eq.trans ?_ l2.symm)
    have hm : haar.map (fun g => minusOne * g * toSU (qVec staple)) = haar := by
      have h1 : (fun g => minusOne * g * toSU (qVec staple)) = (fun g => g * toSU (qVec staple)) ∘ fun g : SUN 2 => minusOne * g := rfl
      rw [h1, ← Measure.map_map (continuous_mul_const _).measurable (measurable_const_mul _), map_mul_left_eq_self, invariant_right]
    conv_rhs => rw [← hm]
    rw [lintegral_map (hw2.mul hΦ) (kenShift_measurable staple)]
    refine lintegral_congr fun g => ?_
    simp only [Pi.mul_apply, Function.comp_apply]
    rw [kennedy_action staple hs g, neg_neg]
  rw [e] at this
  exact this

/-- **C87 (heat bath for SU(2)).** Let the staple be any nonzero multiple of an element of SU(2) and the random numbers independent and uniform. Given that one of the
first 99 trials is accepted, which has positive probability, the result of `KennedyPendleton` has exactly the distribution with weight `exp(-Re Tr U S†)`.
Missing (`_partial`): the case that they all fail, see `C87_kennedy_wrong`. -/
theorem C87_kennedy_partial (haar : Measure (SUN 2)) [IsProbabilityMeasure haar] [haar.IsMulLeftInvariant] (staple : SU2) (hs : 0 < staple.det) :
    uniformStream {u | KennedyAccepts u (2 * Real.sqrt staple.det)} ≠ 0 ∧
    ∀ B : Set (SUN 2), MeasurableSet B →
      uniformStream {u | KennedyAccepts u (2 * Real.sqrt staple.det) ∧ ∃ V ∈ B, ∃ y, kennedyPendleton u staple = some y ∧ y.toMatrix = V.1} =
        uniformStream {u | KennedyAccepts u (2 * Real.sqrt staple.det)} * normalised (boltzmann haar fun U => (U.1 * staple.toMatrixᴴ).trace.re) B := by
  obtain ⟨κ, hκ, hl⟩ := kenRun_law haar staple hs
  obtain ⟨h0, ht, _⟩ := normalised_prob haar (fun U => (U.1 * staple.toMatrixᴴ).trace.re) (linkAction_continuous staple.toMatrix)
  have hset : ∀ B : Set (SUN 2), MeasurableSet B →
      uniformStream {u | KennedyAccepts u (2 * Real.sqrt staple.det) ∧ ∃ V ∈ B, ∃ y, kennedyPendleton u staple = some y ∧ y.toMatrix = V.1} =
        κ * boltzmann haar (fun U => (U.1 * staple.toMatrixᴴ).trace.re) B := by
    intro B hB
    have hv := hl.event (kenRun_meas staple) B hB
    rw [Measure.smul_apply, smul_eq_mul] at hv
    rw [← hv]
    refine measure_congr (Filter.eventuallyEq_set.2 ?_)
    filter_upwards [stream_ae] with u hu
    show (KennedyAccepts u (2 * Real.sqrt staple.det) ∧ ∃ V ∈ B, ∃ y, kennedyPendleton u staple = some y ∧ y.toMatrix = V.1) ↔
      ∃ x, kenRun staple u = some x ∧ x.1 ∈ B
    have h := kenRun_spec u hu staple hs
    cases hk : kenRun staple u with
    | none =>
      rw [hk] at h
      exact ⟨fun c => absurd c.1 h.1, by rintro ⟨x, hx, _⟩; cases hx⟩
    | some x =>
      rw [hk] at h
      obtain ⟨ha, y, hy, hyx⟩ := h
      constructor
      · rintro ⟨_, V, hV, y', hy', hyV⟩
        refine ⟨x, rfl, ?_⟩
        rw [hy] at hy'
        rw [← Option.some.inj hy', hyx] at hyV
        rw [Subtype.ext hyV]; exact hV
      · rintro ⟨z, hz, hzB⟩
        rw [Option.some.inj hz] at hyx
        exact ⟨ha, z.1, hzB, y, hy, hyx⟩
  have hacc : uniformStream {u | KennedyAccepts u (2 * Real.sqrt staple.det)} = κ * boltzmann haar (fun U => (U.1 * staple.toMatrixᴴ).trace.re) univ := by
    rw [← hset univ MeasurableSet.univ]
    refine measure_congr (Filter.eventuallyEq_set.2 ?_)
    filter_upwards [stream_ae] with u hu
    refine ⟨fun c => ⟨c, ?_⟩, fun c => c.1⟩
    have h := kenRun_spec u hu staple hs
    cases hk : kenRun staple u with
    | none => rw [hk] at h; exact absurd c h.1
    | some x =>
      rw [hk] at h
      obtain ⟨_, y, hy, hyx⟩ := h
      exact ⟨x.1, mem_univ _, y, hy, hyx⟩
  rw [hacc]
  refine ⟨mul_ne_zero hκ h0, fun B hB => ?_⟩
  rw [hset B hB]
  unfold normalised
  rw [Measure.smul_apply, smul_eq_mul, mul_assoc, ← mul_assoc (boltzmann haar _ univ), ENNReal.mul_inv_cancel h0 ht, one_mul]

example : ∃ haar : Measure (SUN 2), IsProbabilityMeasure haar ∧
    uniformStream {u | KennedyAccepts u (2 * Real.sqrt (⟨1, -2, 3, 4⟩ : SU2).det)} ≠ 0 ∧
    normalised (boltzmann haar fun U => (U.1 * (⟨1, -2, 3, 4⟩ : SU2).toMatrixᴴ).trace.re) univ = 1 := by
  obtain ⟨haar, hp, hi⟩ := exists_haar 2
  refine ⟨haar, hp, (C87_kennedy_partial haar ⟨1, -2, 3, 4⟩ (by norm_num [SU2.det])).1, ?_⟩
  have := (normalised_prob haar (fun U => (U.1 * (⟨1, -2, 3, 4⟩ : SU2).toMatrixᴴ).trace.re) (linkAction_continuous _)).2.2
  exact this.measure_univ

/-- Elements with a given trace are improbable. -/
theorem haar_slice (haar : Measure (SUN 2)) [IsProbabilityMeasure haar] [haar.IsMulLeftInvariant] (c : ℝ) : haar {g | halfTr g = c} = 0 := by
  obtain ⟨C, _, _, hC⟩ := haar_coords haar true
  have hE : MeasurableSet {g : SUN 2 | halfTr g = c} := measurableSet_eq_fun halfTr_continuous.measurable measurable_const
  rw [← lintegral_indicator_one hE, hC _ (measurable_one.indicator hE)]
  have : ∀ t ∈ Ioo (-1 : ℝ) 1, t ≠ c → ENNReal.ofReal (Real.sqrt (1 - t ^ 2)) *
      ∫⁻ x, ∫⁻ w, {g : SUN 2 | halfTr g = c}.indicator (1 : SUN 2 → ℝ≥0∞) (toSU (spherePt (angleDir true (2 * Real.pi * w)) (2 * x - 1) t)) ∂unif01 ∂unif01 = 0 := by
    intro t ht htc
    have ht2 : t ^ 2 ≤ 1 := by have := ht.1; have := ht.2; nlinarith
    have e : ∫⁻ x, ∫⁻ w, {g : SUN 2 | halfTr g = c}.indicator (1 : SUN 2 → ℝ≥0∞) (toSU (spherePt (angleDir true (2 * Real.pi * w)) (2 * x - 1) t)) ∂unif01 ∂unif01 =
        ∫⁻ _, ∫⁻ _, 0 ∂unif01 ∂unif01 := by
      refine lintegral_congr_ae ?_
      filter_upwards [unif_ae] with x hx
      refine lintegral_congr fun w => indicator_of_notMem ?_ _
      have hz : (2 * x - 1) ^ 2 ≤ 1 := by nlinarith
      show ¬ halfTr _ = c
      rw [halfTr_spherePt true _ _ _ hz ht2]
      exact htc
    rw [e]
    simp
  have h0 : ∫⁻ t in Ioo (-1 : ℝ) 1, ENNReal.ofReal (Real.sqrt (1 - t ^ 2)) *
      ∫⁻ x, ∫⁻ w, {g : SUN 2 | halfTr g = c}.indicator (1 : SUN 2 → ℝ≥0∞) (toSU (spherePt (angleDir true (2 * Real.pi * w)) (2 * x - 1) t)) ∂unif01 ∂unif01 =
      ∫⁻ _ in Ioo (-1 : ℝ) 1, 0 := by
    refine lintegral_congr_ae ?_
    filter_upwards [ae_restrict_mem measurableSet_Ioo, Measure.ae_ne (volume.restrict (Ioo (-1 : ℝ) 1)) c] with t ht htc
    exact this t ht htc
  rw [h0]
  simp

/-- A trial with a large second number fails. -/
theorem kenAcc_fails {α : ℝ} (hα : 0 < α) (u : ℕ → ℝ) (hu : ∀ k, 0 ≤ u k ∧ u k < 1) (h1 : 1 - Real.exp (-2 * α) < u 1) : ¬ kenAcc α u := by
  unfold kenAcc
  intro h
  have hl : Real.log (1 - u 1) < -2 * α := by
    rw [Real.log_lt_iff_lt_exp (by linarith [(hu 1).2])]
    linarith
  have hl0 : Real.log (1 - u 0) ≤ 0 := Real.log_nonpos (by linarith [(hu 0).2]) (by linarith [(hu 0).1])
  have hk : 2 < kpValue α (u 0) (u 1) (u 2) := by
    unfold kpValue
    rw [lt_div_iff₀ hα]
    have := mul_nonneg (neg_nonneg.2 hl0) (mul_self_nonneg (Real.cos (2 * Real.pi * u 2)))
    nlinarith
  have := mul_self_nonneg (u 3)
  norm_num at h
  linarith

/-- **C87 (negation for SU(2)).** For every nonzero staple there is a set of links without weight in the right distribution which `KennedyPendleton` hits with positive
probability: after 100 trials without success it takes the trace `1e-9`, and it treats a success in the last trial alike. -/
theorem C87_kennedy_wrong (haar : Measure (SUN 2)) [IsProbabilityMeasure haar] [haar.IsMulLeftInvariant] (staple : SU2) (hs : 0 < staple.det) :
    ∃ B : Set (SUN 2), MeasurableSet B ∧ normalised (boltzmann haar fun U => (U.1 * staple.toMatrixᴴ).trace.re) B = 0 ∧
      uniformStream {u | ∃ V ∈ B, ∃ y, kennedyPendleton u staple = some y ∧ y.toMatrix = V.1} ≠ 0 := by
  have hp := Real.sqrt_pos.2 hs
  set α := 2 * Real.sqrt staple.det with hαd
  have hα : 0 < α := by rw [hαd]; linarith
  have hf : Measurable fun U : SUN 2 => minusOne⁻¹ * (U * (toSU (qVec staple))⁻¹) :=
    (by fun_prop : Continuous fun U : SUN 2 => minusOne⁻¹ * (U * (toSU (qVec staple))⁻¹)).measurable
  have hE : MeasurableSet {g : SUN 2 | halfTr g = 1e-9} := measurableSet_eq_fun halfTr_continuous.measurable measurable_const
  refine ⟨(fun U : SUN 2 => minusOne⁻¹ * (U * (toSU (qVec staple))⁻¹)) ⁻¹' {g | halfTr g = 1e-9}, hf hE, ?_, ?_⟩
  · have hm : haar.map (fun U : SUN 2 => minusOne⁻¹ * (U * (toSU (qVec staple))⁻¹)) = haar := by
      have h1 : (fun U : SUN 2 => minusOne⁻¹ * (U * (toSU (qVec staple))⁻¹)) = (fun g => minusOne⁻¹ * g) ∘ fun U : SUN 2 => U * (toSU (qVec staple))⁻¹ := rfl
      rw [h1, ← Measure.map_map (measurable_const_mul _) (continuous_mul_const _).measurable, invariant_right, map_mul_left_eq_self]
    have h0 : haar ((fun U : SUN 2 => minusOne⁻¹ * (U * (toSU (qVec staple))⁻¹)) ⁻¹' {g | halfTr g = 1e-9}) = 0 := by
      rw [← Measure.map_apply hf hE, hm]
      exact haar_slice haar _
    unfold normalised boltzmann
    rw [Measure.smul_apply, withDensity_absolutelyContinuous _ _ h0, smul_zero]
  · have hcyl : uniformStream (Set.pi (Finset.range 400 : Set ℕ) fun _ => Ioo (1 - Real.exp (-2 * α)) 1) ≠ 0 := by
      unfold uniformStream
      rw [Measure.infinitePi_pi (fun _ => unif01) (fun i _ => measurableSet_Ioo), Finset.prod_ne_zero_iff]
      intro i _
      have he : Real.exp (-2 * α) < 1 := by rw [Real.exp_lt_one_iff]; linarith
      have hsub : Ioo (1 - Real.exp (-2 * α)) 1 ⊆ Ico (0 : ℝ) 1 := fun x hx => ⟨by linarith [hx.1], hx.2⟩
      unfold unif01
      rw [Measure.restrict_apply measurableSet_Ioo, inter_eq_left.2 hsub, Real.volume_Ioo, Ne, ENNReal.ofReal_eq_zero, not_le]
      have := Real.exp_pos (-2 * α)
      linarith
    intro h0
    apply hcyl
    refine measure_mono_null_ae ?_ h0
    filter_upwards [stream_ae] with u hu hmem
    have hna : ¬ KennedyAccepts u α := by
      rw [kennedyAccepts_iff]
      rintro ⟨j, hj, ha⟩
      refine kenAcc_fails hα (shiftBy (0 + 4 * j) u) (fun k => hu _) ?_ ha
      have := hmem (0 + 4 * j + 1) (by simp; omega)
      exact this.1
    have h := kenRun_spec u hu staple hs
    cases hk : kenRun staple u with
    | some x => rw [hk] at h; exact absurd h.1 hna
    | none =>
      rw [hk] at h
      obtain ⟨_, y, hy, g, hg, hgt⟩ := h
      refine ⟨minusOne * g * toSU (qVec staple), ?_, y, hy, hg⟩
      show halfTr (minusOne⁻¹ * (minusOne * g * toSU (qVec staple) * (toSU (qVec staple))⁻¹)) = 1e-9
      rw [mul_inv_cancel_right, inv_mul_cancel_left]
      exact hgt

end Hila
