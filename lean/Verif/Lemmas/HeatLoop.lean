import Verif.Lemmas.HeatTrial
import Verif.Model.HeatSpec

/-!
# The trial loops of the heat bath
-/

namespace Hila

open MeasureTheory ProbabilityTheory Set
open scoped ENNReal

/-- The distribution of `d`, not normalised. -/
noncomputable def heatM (α : ℝ) : Measure ℝ := ((volume.restrict (Ioo (-1 : ℝ) 1)).withDensity (heatW α)).map fun t => 1 - t

theorem lintegral_heatM (α : ℝ) (g : ℝ → ℝ≥0∞) (hg : Measurable g) : ∫⁻ d, g d ∂heatM α = ∫⁻ t in Ioo (-1 : ℝ) 1, heatW α t * g (1 - t) := by
  have hw : Measurable fun t => heatW α t := by unfold heatW; fun_prop
  unfold heatM
  rw [lintegral_map hg (by fun_prop), lintegral_withDensity_eq_lintegral_mul _ hw (by fun_prop)]
  rfl

theorem mul_four (h : ℝ → ℝ → ℝ → ℝ → ℝ≥0∞) (hh : Measurable fun x : ℝ × ℝ × ℝ × ℝ => h x.1 x.2.1 x.2.2.1 x.2.2.2) (c : ℝ≥0∞) :
    ∫⁻ x0, ∫⁻ x1, ∫⁻ x2, ∫⁻ x3, h x0 x1 x2 x3 * c ∂unif01 ∂unif01 ∂unif01 ∂unif01 =
      (∫⁻ x0, ∫⁻ x1, ∫⁻ x2, ∫⁻ x3, h x0 x1 x2 x3 ∂unif01 ∂unif01 ∂unif01 ∂unif01) * c := by
  have m3 : ∀ x0 x1 x2, Measurable fun x3 => h x0 x1 x2 x3 := fun x0 x1 x2 =>
    hh.comp (measurable_const.prodMk (measurable_const.prodMk (measurable_const.prodMk measurable_id)))
  have m2 : ∀ x0 x1, Measurable fun x2 => ∫⁻ x3, h x0 x1 x2 x3 ∂unif01 := fun x0 x1 =>
    (hh.comp (measurable_const.prodMk (measurable_const.prodMk measurable_id)) : Measurable fun p : ℝ × ℝ => h x0 x1 p.1 p.2).lintegral_prod_right'
  have m1 : ∀ x0, Measurable fun x1 => ∫⁻ x2, ∫⁻ x3, h x0 x1 x2 x3 ∂unif01 ∂unif01 := fun x0 => by
    have a : Measurable fun p : (ℝ × ℝ) × ℝ => h x0 p.1.1 p.1.2 p.2 :=
      hh.comp (measurable_const.prodMk ((measurable_fst.comp measurable_fst).prodMk ((measurable_snd.comp measurable_fst).prodMk measurable_snd)))
    exact (a.lintegral_prod_right' : Measurable fun p : ℝ × ℝ => ∫⁻ x3, h x0 p.1 p.2 x3 ∂unif01).lintegral_prod_right'
  have m0 : Measurable fun x0 => ∫⁻ x1, ∫⁻ x2, ∫⁻ x3, h x0 x1 x2 x3 ∂unif01 ∂unif01 ∂unif01 := by
    have a : Measurable fun p : ((ℝ × ℝ) × ℝ) × ℝ => h p.1.1.1 p.1.1.2 p.1.2 p.2 :=
      hh.comp ((measurable_fst.comp (measurable_fst.comp measurable_fst)).prodMk ((measurable_snd.comp (measurable_fst.comp measurable_fst)).prodMk
        ((measurable_snd.comp measurable_fst).prodMk measurable_snd)))
    have b : Measurable fun p : (ℝ × ℝ) × ℝ => ∫⁻ x3, h p.1.1 p.1.2 p.2 x3 ∂unif01 := a.lintegral_prod_right'
    exact (b.lintegral_prod_right' : Measurable fun p : ℝ × ℝ => ∫⁻ x2, ∫⁻ x3, h p.1 p.2 x2 x3 ∂unif01 ∂unif01).lintegral_prod_right'
  rw [← lintegral_mul_const _ m0]
  refine lintegral_congr fun x0 => ?_
  rw [← lintegral_mul_const _ (m1 x0)]
  refine lintegral_congr fun x1 => ?_
  rw [← lintegral_mul_const _ (m2 x0 x1)]
  refine lintegral_congr fun x2 => ?_
  rw [← lintegral_mul_const _ (m3 x0 x1 x2)]

/-- A trial of the Kennedy-Pendleton method. -/
theorem kp_trialLaw {α : ℝ} (hα : 0 < α) (A : ℝ → ℝ → Prop) [∀ d x, Decidable (A d x)] (hA : MeasurableSet {p : ℝ × ℝ | A p.1 p.2})
    (hp : ∀ d, 0 < d → unif01 {x | A d x} = ENNReal.ofReal (Real.sqrt (1 - 0.5 * d))) :
    ∃ κ q : ℝ≥0∞, κ ≠ 0 ∧ q = ∫⁻ u, (if A (kpValue α (u 0) (u 1) (u 2)) (u 3) then 0 else 1) ∂uniformStream ∧
      TrialLaw 4 (fun u => A (kpValue α (u 0) (u 1) (u 2)) (u 3)) (fun u => kpValue α (u 0) (u 1) (u 2)) κ q (heatM α) := by
  have mv : Measurable fun x : ℝ × ℝ × ℝ × ℝ => kpValue α x.1 x.2.1 x.2.2.1 := kpValue_measurable (by fun_prop) (by fun_prop) (by fun_prop) (by fun_prop)
  have hs : MeasurableSet {x : ℝ × ℝ × ℝ × ℝ | A (kpValue α x.1 x.2.1 x.2.2.1) x.2.2.2} := hA.preimage (mv.prodMk (by fun_prop))
  have mv' : Measurable fun x : ℝ × ℝ × ℝ × ℝ × (ℕ → ℝ) => kpValue α x.1 x.2.1 x.2.2.1 := kpValue_measurable (by fun_prop) (by fun_prop) (by fun_prop) (by fun_prop)
  have hs' : MeasurableSet {x : ℝ × ℝ × ℝ × ℝ × (ℕ → ℝ) | A (kpValue α x.1 x.2.1 x.2.2.1) x.2.2.2.1} := hA.preimage (mv'.prodMk (by fun_prop))
  refine ⟨ENNReal.ofReal (2 * α * Real.sqrt (α / Real.pi) * (Real.exp (-α) / Real.sqrt 2)), _, ?_, rfl, ?_, ?_⟩
  · have := Real.pi_pos
    rw [Ne, ENNReal.ofReal_eq_zero, not_le]; positivity
  · intro F hF
    have hm : Measurable fun x : ℝ × ℝ × ℝ × ℝ × (ℕ → ℝ) =>
        if A (kpValue α x.1 x.2.1 x.2.2.1) x.2.2.2.1 then F (kpValue α x.1 x.2.1 x.2.2.1) x.2.2.2.2 else 0 :=
      Measurable.ite hs' (hF.comp (mv'.prodMk (by fun_prop))) measurable_const
    rw [stream_four (fun x0 x1 x2 x3 u => if A (kpValue α x0 x1 x2) x3 then F (kpValue α x0 x1 x2) u else 0) hm]
    have hg : Measurable fun d => ∫⁻ u, F d u ∂uniformStream := hF.lintegral_prod_right'
    rw [lintegral_heatM α _ hg, ← kp_accept hα A hA hp _ hg]
    refine lintegral_congr fun x0 => lintegral_congr fun x1 => lintegral_congr fun x2 => lintegral_congr fun x3 => ?_
    split
    · rfl
    · simp
  · intro G hG
    have hm : Measurable fun x : ℝ × ℝ × ℝ × ℝ × (ℕ → ℝ) => if A (kpValue α x.1 x.2.1 x.2.2.1) x.2.2.2.1 then 0 else G x.2.2.2.2 :=
      Measurable.ite hs' measurable_const (hG.comp (by fun_prop))
    have hm1 : Measurable fun x : ℝ × ℝ × ℝ × ℝ × (ℕ → ℝ) => if A (kpValue α x.1 x.2.1 x.2.2.1) x.2.2.2.1 then (0 : ℝ≥0∞) else 1 :=
      Measurable.ite hs' measurable_const measurable_const
    have hm2 : Measurable fun x : ℝ × ℝ × ℝ × ℝ => if A (kpValue α x.1 x.2.1 x.2.2.1) x.2.2.2 then (0 : ℝ≥0∞) else 1 :=
      Measurable.ite hs measurable_const measurable_const
    rw [stream_four (fun x0 x1 x2 x3 u => if A (kpValue α x0 x1 x2) x3 then 0 else G u) hm,
      stream_four (fun x0 x1 x2 x3 _ => if A (kpValue α x0 x1 x2) x3 then (0 : ℝ≥0∞) else 1) hm1]
    simp only [lintegral_const, measure_univ, mul_one]
    rw [← mul_four (fun x0 x1 x2 x3 => if A (kpValue α x0 x1 x2) x3 then (0 : ℝ≥0∞) else 1) hm2]
    refine lintegral_congr fun x0 => lintegral_congr fun x1 => lintegral_congr fun x2 => lintegral_congr fun x3 => ?_
    split
    · simp
    · simp

/-- A trial of the Creutz method; the value is `1 - a0`. -/
theorem creutz_trialLaw {α : ℝ} (hα : 0 < α) :
    ∃ κ q : ℝ≥0∞, κ ≠ 0 ∧ TrialLaw 2 (fun u => 1 - creutzValue α (u 0) * creutzValue α (u 0) > u 1 * u 1) (fun u => 1 - creutzValue α (u 0)) κ q (heatM α) := by
  have mv : Measurable fun x : ℝ => creutzValue α x := by unfold creutzValue; fun_prop
  have hs : MeasurableSet {x : ℝ × ℝ | 1 - creutzValue α x.1 * creutzValue α x.1 > x.2 * x.2} := measurableSet_lt (by fun_prop) (by fun_prop)
  have hs' : MeasurableSet {x : ℝ × ℝ × (ℕ → ℝ) | 1 - creutzValue α x.1 * creutzValue α x.1 > x.2.1 * x.2.1} := measurableSet_lt (by fun_prop) (by fun_prop)
  refine ⟨ENNReal.ofReal (α * Real.exp (-α) / (1 - Real.exp (-2 * α))),
    ∫⁻ x0, ∫⁻ x1, (if 1 - creutzValue α x0 * creutzValue α x0 > x1 * x1 then 0 else 1) ∂unif01 ∂unif01, ?_, ?_, ?_⟩
  · have : Real.exp (-2 * α) < 1 := by rw [Real.exp_lt_one_iff]; linarith
    rw [Ne, ENNReal.ofReal_eq_zero, not_le]
    exact div_pos (by positivity) (by linarith)
  · intro F hF
    have hm : Measurable fun x : ℝ × ℝ × (ℕ → ℝ) =>
        if 1 - creutzValue α x.1 * creutzValue α x.1 > x.2.1 * x.2.1 then F (1 - creutzValue α x.1) x.2.2 else 0 :=
      Measurable.ite hs' (hF.comp (((by fun_prop : Measurable fun x : ℝ × ℝ × (ℕ → ℝ) => 1 - creutzValue α x.1)).prodMk (by fun_prop))) measurable_const
    rw [stream_two (fun x0 x1 u => if 1 - creutzValue α x0 * creutzValue α x0 > x1 * x1 then F (1 - creutzValue α x0) u else 0) hm]
    have hg : Measurable fun d => ∫⁻ u, F d u ∂uniformStream := hF.lintegral_prod_right'
    rw [lintegral_heatM α _ hg, ← creutz_accept hα (fun t => ∫⁻ u, F (1 - t) u ∂uniformStream) (hg.comp (by fun_prop))]
    refine lintegral_congr fun x0 => lintegral_congr fun x1 => ?_
    split
    · rfl
    · simp
  · intro G hG
    have hm : Measurable fun x : ℝ × ℝ × (ℕ → ℝ) => if 1 - creutzValue α x.1 * creutzValue α x.1 > x.2.1 * x.2.1 then 0 else G x.2.2 :=
      Measurable.ite hs' measurable_const (hG.comp (by fun_prop))
    have hm2 : Measurable fun x : ℝ × ℝ => if 1 - creutzValue α x.1 * creutzValue α x.1 > x.2 * x.2 then (0 : ℝ≥0∞) else 1 :=
      Measurable.ite hs measurable_const measurable_const
    have hm3 : ∀ x0, Measurable fun x1 : ℝ => if 1 - creutzValue α x0 * creutzValue α x0 > x1 * x1 then (0 : ℝ≥0∞) else 1 := fun x0 =>
      hm2.comp (measurable_const.prodMk measurable_id)
    rw [stream_two (fun x0 x1 u => if 1 - creutzValue α x0 * creutzValue α x0 > x1 * x1 then 0 else G u) hm]
    rw [← lintegral_mul_const _ hm2.lintegral_prod_right']
    refine lintegral_congr fun x0 => ?_
    rw [← lintegral_mul_const _ (hm3 x0)]
    refine lintegral_congr fun x1 => ?_
    split
    · simp
    · simp

/-! ### `suN_heatbath` -/

/-- A Kennedy–Pendleton trial on the first numbers of a stream passes its test. -/
def kpAcc (α : ℝ) (u : ℕ → ℝ) : Prop := 1 - 0.5 * kpValue α (u 0) (u 1) (u 2) > u 3 * u 3

/-- The value of a Kennedy–Pendleton trial. -/
noncomputable def kpVal (α : ℝ) (u : ℕ → ℝ) : ℝ := kpValue α (u 0) (u 1) (u 2)

/-- A Creutz trial passes its test. -/
def crAcc (α : ℝ) (u : ℕ → ℝ) : Prop := 1 - creutzValue α (u 0) * creutzValue α (u 0) > u 1 * u 1

/-- The value of a Creutz trial. -/
noncomputable def crVal (α : ℝ) (u : ℕ → ℝ) : ℝ := 1 - creutzValue α (u 0)

open Classical in
/-- The value `d` of a hit if some trial passes its test. -/
noncomputable def heatTry (n : ℕ) (α : ℝ) (u : ℕ → ℝ) : Option (ℝ × ℕ) :=
  if kpAcc α u then some (kpVal α u, 4)
  else
    (if α > 2 then tryLoop 4 (kpAcc α) (kpVal α) n (shiftBy 4 u)
      else tryLoop 2 (crAcc α) (crVal α) n (shiftBy 4 u)).map
      fun x => (x.1, 4 + x.2)

theorem kpTrial_shift (rnd : ℕ → ℝ) (al : ℝ) (k : ℕ) :
    kpTrial rnd al k = (kpValue al (shiftBy k rnd 0) (shiftBy k rnd 1) (shiftBy k rnd 2), shiftBy k rnd 3) := rfl

theorem kpAccepts_iff (rnd : ℕ → ℝ) (al : ℝ) (k : ℕ) : KpAccepts rnd al k ↔ kpAcc al (shiftBy k rnd) := Iff.rfl

open Classical in
/-- The loop of further trials. -/
theorem kpLoop_try (rnd : ℕ → ℝ) (al : ℝ) (n k : ℕ) (d : ℝ) :
    match tryLoop 4 (kpAcc al) (kpVal al) n (shiftBy k rnd) with
    | some x => kpLoop rnd al n k d = (x.1, k + x.2) ∧ ∃ j < n, KpAccepts rnd al (k + 4 * j)
    | none => ¬ ∃ j < n, KpAccepts rnd al (k + 4 * j) := by
  induction n generalizing k d with
  | zero => simp [tryLoop]
  | succ n ih =>
    rw [tryLoop]
    by_cases h : KpAccepts rnd al k
    · rw [if_pos ((kpAccepts_iff rnd al k).1 h)]
      refine ⟨?_, 0, Nat.succ_pos n, by simpa using h⟩
      unfold kpLoop
      have h' : 1 - 0.5 * (kpTrial rnd al k).1 > (kpTrial rnd al k).2 * (kpTrial rnd al k).2 := h
      simp only []
      rw [if_pos h']
      rfl
    · rw [if_neg (fun c => h ((kpAccepts_iff rnd al k).2 c)), shiftBy_shiftBy]
      have := ih (k + 4) (kpTrial rnd al k).1
      have e : kpLoop rnd al (n + 1) k d = kpLoop rnd al n (k + 4) (kpTrial rnd al k).1 := by
        have h' : ¬ 1 - 0.5 * (kpTrial rnd al k).1 > (kpTrial rnd al k).2 * (kpTrial rnd al k).2 := h
        conv_lhs => unfold kpLoop
        simp only []
        rw [if_neg h']
      have ex : (∃ j < n + 1, KpAccepts rnd al (k + 4 * j)) ↔ ∃ j < n, KpAccepts rnd al (k + 4 + 4 * j) := by
        constructor
        · rintro ⟨j, hj, ha⟩
          cases j with
          | zero => exact absurd (by simpa using ha) h
          | succ j => exact ⟨j, by omega, by rw [show k + 4 + 4 * j = k + 4 * (j + 1) by ring]; exact ha⟩
        · rintro ⟨j, hj, ha⟩
          exact ⟨j + 1, by omega, by rw [show k + 4 * (j + 1) = k + 4 + 4 * j by ring]; exact ha⟩
      rw [e, ex]
      cases ht : tryLoop 4 (kpAcc al) (kpVal al) n (shiftBy (k + 4) rnd) with
      | none => rw [ht] at this; exact this
      | some x =>
        rw [ht] at this
        exact ⟨by rw [this.1]; simp [Nat.add_assoc], this.2⟩

theorem creutzAccepts_iff (rnd : ℕ → ℝ) (al : ℝ) (k : ℕ) : CreutzAccepts rnd al k ↔ crAcc al (shiftBy k rnd) := Iff.rfl

open Classical in
theorem creutzLoop_try (rnd : ℕ → ℝ) (al : ℝ) (n k : ℕ) (d : ℝ) :
    match tryLoop 2 (crAcc al) (crVal al) n (shiftBy k rnd) with
    | some x => (1 - (creutzLoop rnd al n k d).1, (creutzLoop rnd al n k d).2) = (x.1, k + x.2) ∧ ∃ j < n, CreutzAccepts rnd al (k + 2 * j)
    | none => ¬ ∃ j < n, CreutzAccepts rnd al (k + 2 * j) := by
  induction n generalizing k d with
  | zero => simp [tryLoop]
  | succ n ih =>
    rw [tryLoop]
    by_cases h : CreutzAccepts rnd al k
    · rw [if_pos ((creutzAccepts_iff rnd al k).1 h)]
      refine ⟨?_, 0, Nat.succ_pos n, by simpa using h⟩
      unfold creutzLoop
      have h' : 1 - (1 + Real.log (Real.exp (-2 * al) + (1 - Real.exp (-2 * al)) * rnd k) / al) *
        (1 + Real.log (Real.exp (-2 * al) + (1 - Real.exp (-2 * al)) * rnd k) / al) > rnd (k + 1) * rnd (k + 1) := h
      simp only []
      rw [if_pos h']
      rfl
    · rw [if_neg (fun c => h ((creutzAccepts_iff rnd al k).2 c)), shiftBy_shiftBy]
      have e : creutzLoop rnd al (n + 1) k d = creutzLoop rnd al n (k + 2) (creutzTrial rnd al k) := by
        have h' : ¬ 1 - (1 + Real.log (Real.exp (-2 * al) + (1 - Real.exp (-2 * al)) * rnd k) / al) *
          (1 + Real.log (Real.exp (-2 * al) + (1 - Real.exp (-2 * al)) * rnd k) / al) > rnd (k + 1) * rnd (k + 1) := h
        conv_lhs => unfold creutzLoop
        simp only []
        rw [if_neg h']
        rfl
      have := ih (k + 2) (creutzTrial rnd al k)
      have ex : (∃ j < n + 1, CreutzAccepts rnd al (k + 2 * j)) ↔ ∃ j < n, CreutzAccepts rnd al (k + 2 + 2 * j) := by
        constructor
        · rintro ⟨j, hj, ha⟩
          cases j with
          | zero => exact absurd (by simpa using ha) h
          | succ j => exact ⟨j, by omega, by rw [show k + 2 + 2 * j = k + 2 * (j + 1) by ring]; exact ha⟩
        · rintro ⟨j, hj, ha⟩
          exact ⟨j + 1, by omega, by rw [show k + 2 * (j + 1) = k + 2 + 2 * j by ring]; exact ha⟩
      rw [e, ex]
      cases ht : tryLoop 2 (crAcc al) (crVal al) n (shiftBy (k + 2) rnd) with
      | none => rw [ht] at this; exact this
      | some x =>
        rw [ht] at this
        exact ⟨by rw [this.1]; simp [Nat.add_assoc], this.2⟩

open Classical in
/-- The value `d` of the program, where some trial passes its test. -/
theorem heatTry_eq (rnd : ℕ → ℝ) (al : ℝ) (k : ℕ) :
    match heatTry 40 al (shiftBy k rnd) with
    | some x => heatbathD rnd al k = (x.1, k + x.2) ∧ HeatAccepts rnd al k
    | none => ¬ HeatAccepts rnd al k := by
  unfold heatTry
  by_cases h : KpAccepts rnd al k
  · rw [if_pos ((kpAccepts_iff rnd al k).1 h)]
    refine ⟨?_, Or.inl h⟩
    unfold heatbathD
    have h' : ¬ 1 - 0.5 * (kpTrial rnd al k).1 ≤ (kpTrial rnd al k).2 * (kpTrial rnd al k).2 := not_le.2 h
    simp only []
    rw [if_neg h']
    rfl
  · rw [if_neg (fun c => h ((kpAccepts_iff rnd al k).2 c)), shiftBy_shiftBy]
    have h' : 1 - 0.5 * (kpTrial rnd al k).1 ≤ (kpTrial rnd al k).2 * (kpTrial rnd al k).2 := not_lt.1 h
    by_cases h2 : al > 2
    · rw [if_pos h2]
      have e : heatbathD rnd al k = kpLoop rnd al 40 (k + 4) (kpTrial rnd al k).1 := by
        unfold heatbathD; simp only []; rw [if_pos h', if_pos h2]
      have ha : HeatAccepts rnd al k ↔ ∃ j < 40, KpAccepts rnd al (k + 4 + 4 * j) :=
        ⟨fun c => by rcases c with c | c | c
                     · exact absurd c h
                     · exact c.2
                     · exact absurd h2 c.1, fun c => Or.inr (Or.inl ⟨h2, c⟩)⟩
      rw [e, ha]
      have := kpLoop_try rnd al 40 (k + 4) (kpTrial rnd al k).1
      revert this
      generalize tryLoop 4 (kpAcc al) (kpVal al) 40 (shiftBy (k + 4) rnd) = o
      intro this
      cases o with
      | none => exact this
      | some x => exact ⟨by rw [this.1]; simp [Nat.add_assoc], this.2⟩
    · rw [if_neg h2]
      have e : heatbathD rnd al k = (1 - (creutzLoop rnd al 40 (k + 4) 0).1, (creutzLoop rnd al 40 (k + 4) 0).2) := by
        unfold heatbathD; simp only []; rw [if_pos h', if_neg h2]
      have ha : HeatAccepts rnd al k ↔ ∃ j < 40, CreutzAccepts rnd al (k + 4 + 2 * j) :=
        ⟨fun c => by rcases c with c | c | c
                     · exact absurd c h
                     · exact absurd c.1 h2
                     · exact c.2, fun c => Or.inr (Or.inr ⟨h2, c⟩)⟩
      rw [e, ha]
      have := creutzLoop_try rnd al 40 (k + 4) 0
      revert this
      generalize tryLoop 2 (crAcc al) (crVal al) 40 (shiftBy (k + 4) rnd) = o
      intro this
      cases o with
      | none => exact this
      | some x => exact ⟨by rw [this.1]; simp [Nat.add_assoc], this.2⟩

theorem kpAcc_measurable : MeasurableSet {x : ℝ × (ℕ → ℝ) | kpAcc x.1 x.2} := by
  have : Measurable fun x : ℝ × (ℕ → ℝ) => kpValue x.1 (x.2 0) (x.2 1) (x.2 2) :=
    kpValue_measurable (by fun_prop) (by fun_prop) (by fun_prop) (by fun_prop)
  unfold kpAcc
  exact measurableSet_lt (by fun_prop) (by fun_prop)

theorem kpVal_measurable : Measurable fun x : ℝ × (ℕ → ℝ) => kpVal x.1 x.2 := by
  unfold kpVal
  exact kpValue_measurable (by fun_prop) (by fun_prop) (by fun_prop) (by fun_prop)

theorem creutzVal_measurable : Measurable fun x : ℝ × (ℕ → ℝ) => creutzValue x.1 (x.2 0) := by
  unfold creutzValue; fun_prop

theorem crVal_measurable : Measurable fun x : ℝ × (ℕ → ℝ) => crVal x.1 x.2 := by
  have := creutzVal_measurable
  unfold crVal
  fun_prop

theorem crAcc_measurable : MeasurableSet {x : ℝ × (ℕ → ℝ) | crAcc x.1 x.2} := by
  have := creutzVal_measurable
  unfold crAcc
  exact measurableSet_lt (by fun_prop) (by fun_prop)

open Classical in
theorem afterRun_heatTry (n : ℕ) (α : ℝ) (u : ℕ → ℝ) (F : ℝ → (ℕ → ℝ) → ℝ≥0∞) :
    afterRun F u (heatTry n α u) =
      (if kpAcc α u then F (kpVal α u) (shiftBy 4 u) else 0) +
      (if kpAcc α u then 0
        else if α > 2 then afterRun F (shiftBy 4 u) (tryLoop 4 (kpAcc α) (kpVal α) n (shiftBy 4 u))
          else afterRun F (shiftBy 4 u) (tryLoop 2 (crAcc α) (crVal α) n (shiftBy 4 u))) := by
  unfold heatTry
  split
  · simp only [afterRun, add_zero]
  · rw [afterRun_map_add, zero_add]
    split <;> rfl

open Classical in
theorem heatTry_meas (n : ℕ) {P : Type} [MeasurableSpace P] (f : P → ℝ) (hf : Measurable f) : StreamMeas fun p => heatTry n (f p) := by
  intro F hF
  simp only [afterRun_heatTry]
  have hs : Measurable fun x : P × (ℕ → ℝ) => shiftBy 4 x.2 := (shiftBy_measurable 4).comp measurable_snd
  have hfu : Measurable fun x : P × (ℕ → ℝ) => (f x.1, x.2) := (hf.comp measurable_fst).prodMk measurable_snd
  have a1 : MeasurableSet {x : P × (ℕ → ℝ) | kpAcc (f x.1) x.2} := kpAcc_measurable.preimage hfu
  have v1 : Measurable fun x : P × (ℕ → ℝ) => kpVal (f x.1) x.2 := kpVal_measurable.comp hfu
  have a2 : MeasurableSet {x : P × (ℕ → ℝ) | crAcc (f x.1) x.2} := crAcc_measurable.preimage hfu
  have v2 : Measurable fun x : P × (ℕ → ℝ) => crVal (f x.1) x.2 := crVal_measurable.comp hfu
  have m1 := tryLoop_meas 4 (fun p => kpAcc (f p)) (fun p => kpVal (f p)) a1 v1 n F hF
  have m2 := tryLoop_meas 2 (fun p => crAcc (f p)) (fun p => crVal (f p)) a2 v2 n F hF
  have hs2 : Measurable fun x : P × (ℕ → ℝ) => (x.1, shiftBy 4 x.2) := measurable_fst.prodMk hs
  refine Measurable.add (Measurable.ite a1 ?_ measurable_const) (Measurable.ite a1 measurable_const
    (Measurable.ite (measurableSet_lt measurable_const (hf.comp measurable_fst)) ?_ ?_))
  · exact hF.comp (measurable_fst.prodMk (v1.prodMk hs))
  · exact m1.comp hs2
  · exact m2.comp hs2

open Classical in
theorem kp_trial {α : ℝ} (hα : 0 < α) : ∃ κ q : ℝ≥0∞, κ ≠ 0 ∧ TrialLaw 4 (kpAcc α) (kpVal α) κ q (heatM α) := by
  obtain ⟨κ, q, hκ, _, hk0⟩ := kp_trialLaw hα (fun d x => 1 - 0.5 * d > x * x) (measurableSet_lt (by fun_prop) (by fun_prop))
    (fun d hd => unif_sq_lt (by norm_num; exact hd.le))
  exact ⟨κ, q, hκ, hk0⟩

open Classical in
theorem cr_trial {α : ℝ} (hα : 0 < α) : ∃ κ q : ℝ≥0∞, TrialLaw 2 (crAcc α) (crVal α) κ q (heatM α) := by
  obtain ⟨κ', q', _, hk0'⟩ := creutz_trialLaw hα
  exact ⟨κ', q', hk0'⟩

attribute [local irreducible] crAcc crVal kpAcc kpVal tryLoop

open Classical in
theorem kpTry_meas (n : ℕ) (α : ℝ) (F : ℝ → (ℕ → ℝ) → ℝ≥0∞) (hF : Measurable fun x : ℝ × (ℕ → ℝ) => F x.1 x.2) :
    Measurable fun u => afterRun F u (tryLoop 4 (kpAcc α) (kpVal α) n u) := by
  have h := tryLoop_meas 4 kpAcc kpVal kpAcc_measurable kpVal_measurable n (fun _ => F) (hF.comp measurable_snd)
  have hu : Measurable fun u : ℕ → ℝ => (α, u) := measurable_const.prodMk measurable_id
  exact Measurable.comp (g := fun x : ℝ × (ℕ → ℝ) => afterRun F x.2 (tryLoop 4 (kpAcc x.1) (kpVal x.1) n x.2)) h hu

open Classical in
theorem crTry_meas (n : ℕ) (α : ℝ) (F : ℝ → (ℕ → ℝ) → ℝ≥0∞) (hF : Measurable fun x : ℝ × (ℕ → ℝ) => F x.1 x.2) :
    Measurable fun u => afterRun F u (tryLoop 2 (crAcc α) (crVal α) n u) := by
  have h := tryLoop_meas 2 crAcc crVal crAcc_measurable crVal_measurable n (fun _ => F) (hF.comp measurable_snd)
  have hu : Measurable fun u : ℕ → ℝ => (α, u) := measurable_const.prodMk measurable_id
  exact Measurable.comp (g := fun x : ℝ × (ℕ → ℝ) => afterRun F x.2 (tryLoop 2 (crAcc x.1) (crVal x.1) n x.2)) h hu

set_option maxHeartbeats 800000 in
open Classical in
/-- Where some trial passes its test, `d` has the right distribution. -/
theorem heatTry_law (n : ℕ) {α : ℝ} (hα : 0 < α) : ∃ c : ℝ≥0∞, c ≠ 0 ∧ LawAt (heatTry n α) (c • heatM α) := by
  obtain ⟨κ, q, hκ, hk⟩ := kp_trial hα
  obtain ⟨κ', q', hk'⟩ := cr_trial hα
  have hu : Measurable fun u : ℕ → ℝ => (α, u) := measurable_const.prodMk measurable_id
  have a1 : MeasurableSet {u : ℕ → ℝ | kpAcc α u} := kpAcc_measurable.preimage hu
  have v1 : Measurable fun u : ℕ → ℝ => kpVal α u := kpVal_measurable.comp hu
  have a2 : MeasurableSet {u : ℕ → ℝ | crAcc α u} := crAcc_measurable.preimage hu
  have v2 : Measurable fun u : ℕ → ℝ => crVal α u := crVal_measurable.comp hu
  have l1 := tryLoop_law hk a1 v1 n
  have l2 := tryLoop_law hk' a2 v2 n
  refine ⟨κ + q * (if α > 2 then κ * ∑ j ∈ Finset.range n, q ^ j else κ' * ∑ j ∈ Finset.range n, q' ^ j),
    fun e => hκ (add_eq_zero.1 e).1, fun F hF => ?_⟩
  simp only [afterRun_heatTry]
  have hm2 : Measurable fun u : ℕ → ℝ => if kpAcc α u then F (kpVal α u) (shiftBy 4 u) else 0 :=
    Measurable.ite a1 (hF.comp (v1.prodMk (shiftBy_measurable 4))) measurable_const
  rw [lintegral_add_left hm2, hk.accept F hF, lintegral_smul_measure, smul_eq_mul, add_mul]
  congr 1
  by_cases h2 : α > 2
  · simp only [if_pos h2]
    rw [hk.reject (fun u => afterRun F u (tryLoop 4 (kpAcc α) (kpVal α) n u)) (kpTry_meas n α F hF), l1 F hF, lintegral_smul_measure,
      smul_eq_mul]
    ring
  · simp only [if_neg h2]
    rw [hk.reject (fun u => afterRun F u (tryLoop 2 (crAcc α) (crVal α) n u)) (crTry_meas n α F hF), l2 F hF, lintegral_smul_measure,
      smul_eq_mul]
    ring

end Hila
