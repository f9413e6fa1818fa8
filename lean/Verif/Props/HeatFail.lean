import Verif.Lemmas.HeatFail
import Verif.Props.Reunit

/-!
# C87: the trials of the heat bath seldom fail
-/

namespace Hila

open MeasureTheory ProbabilityTheory Set Matrix
open scoped ENNReal

variable {N : ℕ}

/-- One if the program has no result. -/
noncomputable def noRun {α : Type} (p : Option (α × ℕ)) : ℝ≥0∞ := if p.isNone then 1 else 0

theorem noRun_eq {α : Type} (u : ℕ → ℝ) (p : Option (α × ℕ)) : noRun p = 1 - afterRun (fun _ _ => 1) u p := by
  cases p <;> simp [noRun, afterRun]

theorem noRun_measurable {P α : Type} [MeasurableSpace P] [MeasurableSpace α] {prog : P → (ℕ → ℝ) → Option (α × ℕ)} (h : StreamMeas prog) :
    Measurable fun x : P × (ℕ → ℝ) => noRun (prog x.1 x.2) := by
  have := h (fun _ _ _ => 1) measurable_const
  simp only [fun x : P × (ℕ → ℝ) => noRun_eq x.2 (prog x.1 x.2)]
  exact measurable_const.sub this

theorem noRun_tryLoop {m : ℕ} {Acc : (ℕ → ℝ) → Prop} [DecidablePred Acc] {val : (ℕ → ℝ) → ℝ} {κ q : ℝ≥0∞} {W : Measure ℝ}
    (h : TrialLaw m Acc val κ q W) (hA : MeasurableSet {u | Acc u}) (hv : Measurable val) (n : ℕ) :
    ∫⁻ u, noRun (tryLoop m Acc val n u) ∂uniformStream = q ^ n := by
  induction n with
  | zero => simp [tryLoop, noRun]
  | succ n ih =>
    have hm : Measurable fun u => noRun (tryLoop m Acc val n u) := by
      have := noRun_measurable (tryLoop_meas (P := Unit) m (fun _ => Acc) (fun _ => val) (hA.preimage measurable_snd) (hv.comp measurable_snd) n)
      exact this.comp (measurable_const.prodMk measurable_id : Measurable fun u : ℕ → ℝ => ((), u))
    have e : ∀ u, noRun (tryLoop m Acc val (n + 1) u) = if Acc u then 0 else noRun (tryLoop m Acc val n (shiftBy m u)) := by
      intro u
      rw [show tryLoop m Acc val (n + 1) u = if Acc u then some (val u, m) else (tryLoop m Acc val n (shiftBy m u)).map fun x => (x.1, m + x.2) from rfl]
      split
      · simp [noRun]
      · simp [noRun, Option.isNone_map]
    simp only [e]
    rw [h.reject _ hm, ih, pow_succ, mul_comm]

theorem trial_q {m : ℕ} {Acc : (ℕ → ℝ) → Prop} [DecidablePred Acc] {val : (ℕ → ℝ) → ℝ} {κ q : ℝ≥0∞} {W : Measure ℝ}
    (h : TrialLaw m Acc val κ q W) : q = ∫⁻ u, (if Acc u then 0 else 1) ∂uniformStream := by
  have := h.reject (fun _ => 1) measurable_const
  simpa using this.symm

theorem trial_q_le {m : ℕ} {Acc : (ℕ → ℝ) → Prop} [DecidablePred Acc] {val : (ℕ → ℝ) → ℝ} {κ q : ℝ≥0∞} {W : Measure ℝ}
    (h : TrialLaw m Acc val κ q W) : q ≤ 1 := by
  rw [trial_q h]
  calc ∫⁻ u, (if Acc u then 0 else 1) ∂uniformStream ≤ ∫⁻ _, 1 ∂uniformStream := lintegral_mono fun u => by split <;> simp
    _ = 1 := by simp

open Classical in
theorem noRun_heatTry (n : ℕ) (α : ℝ) (u : ℕ → ℝ) : noRun (heatTry n α u) = if kpAcc α u then 0 else
    if α > 2 then noRun (tryLoop 4 (kpAcc α) (kpVal α) n (shiftBy 4 u)) else noRun (tryLoop 2 (crAcc α) (crVal α) n (shiftBy 4 u)) := by
  unfold heatTry
  split
  · simp [noRun]
  · split <;> simp [noRun, Option.isNone_map]

attribute [local irreducible] crAcc crVal kpAcc kpVal tryLoop

open Classical in
theorem heatTry_fail {α : ℝ} (hα : 0 < α) (n : ℕ) : ∫⁻ u, noRun (heatTry n α u) ∂uniformStream ≤ ENNReal.ofReal (0.64 ^ n) := by
  obtain ⟨κ, q, _, hk⟩ := kp_trial hα
  obtain ⟨κ', q', hk'⟩ := cr_trial hα
  have hu : Measurable fun u : ℕ → ℝ => (α, u) := measurable_const.prodMk measurable_id
  have a1 : MeasurableSet {u : ℕ → ℝ | kpAcc α u} := kpAcc_measurable.preimage hu
  have v1 : Measurable fun u : ℕ → ℝ => kpVal α u := kpVal_measurable.comp hu
  have a2 : MeasurableSet {u : ℕ → ℝ | crAcc α u} := crAcc_measurable.preimage hu
  have v2 : Measurable fun u : ℕ → ℝ => crVal α u := crVal_measurable.comp hu
  have hz : Measurable fun u : ℕ → ℝ => ((), u) := measurable_const.prodMk measurable_id
  have m1 : Measurable fun u => noRun (tryLoop 4 (kpAcc α) (kpVal α) n u) :=
    (noRun_measurable (tryLoop_meas (P := Unit) 4 (fun _ => kpAcc α) (fun _ => kpVal α) (a1.preimage measurable_snd) (v1.comp measurable_snd) n)).comp hz
  have m2 : Measurable fun u => noRun (tryLoop 2 (crAcc α) (crVal α) n u) :=
    (noRun_measurable (tryLoop_meas (P := Unit) 2 (fun _ => crAcc α) (fun _ => crVal α) (a2.preimage measurable_snd) (v2.comp measurable_snd) n)).comp hz
  have hq1 := trial_q_le hk
  rw [ENNReal.ofReal_pow (by norm_num)]
  simp only [noRun_heatTry]
  by_cases h2 : α > 2
  · simp only [if_pos h2]
    rw [hk.reject _ m1, noRun_tryLoop hk a1 v1 n]
    have hq : q ≤ ENNReal.ofReal 0.64 := by
      rw [trial_q hk]
      refine le_trans (kp_reject h2.le) ?_
      rw [show (2⁻¹ : ℝ≥0∞) = ENNReal.ofReal (2⁻¹) by rw [ENNReal.ofReal_inv_of_pos (by norm_num)]; norm_num]
      exact ENNReal.ofReal_le_ofReal (by norm_num)
    calc q * q ^ n ≤ 1 * q ^ n := mul_le_mul' hq1 le_rfl
      _ ≤ ENNReal.ofReal 0.64 ^ n := by rw [one_mul]; exact pow_le_pow_left' hq n
  · simp only [if_neg h2]
    rw [hk.reject _ m2, noRun_tryLoop hk' a2 v2 n]
    have hq : q' ≤ ENNReal.ofReal 0.64 := by
      rw [trial_q hk']
      exact cr_reject hα (not_lt.1 h2)
    calc q * q' ^ n ≤ 1 * q' ^ n := mul_le_mul' hq1 le_rfl
      _ ≤ ENNReal.ofReal 0.64 ^ n := by rw [one_mul]; exact pow_le_pow_left' hq n

/-! ### All hits -/

open Classical in
/-- The number of hits in which all trials fail, up to the first such one. -/
noncomputable def hitsFail (b3 : ℝ) (S : Matrix (Fin N) (Fin N) ℂ) : List (Fin N × Fin N) → SUN N → (ℕ → ℝ) → ℝ≥0∞
  | [], _, _ => 0
  | pq :: l, U, u => (if b3 * hitLength (U.1 * Sᴴ) pq = 0 then 0 else noRun (heatTry 40 (b3 * hitLength (U.1 * Sᴴ) pq) u)) +
      afterRun (hitsFail b3 S l) u (hitTry b3 S pq U u)

theorem hitsFail_meas (b3 : ℝ) (S : Matrix (Fin N) (Fin N) ℂ) (l : List (Fin N × Fin N)) :
    Measurable fun x : SUN N × (ℕ → ℝ) => hitsFail b3 S l x.1 x.2 := by
  induction l with
  | nil => exact measurable_const
  | cons pq l ih =>
    have hA : Continuous fun U : SUN N => U.1 * Sᴴ := (continuous_subtype_val : Continuous fun h : SUN N => h.1).mul continuous_const
    have hent : ∀ i j, Measurable fun p : SUN N => (p.1 * Sᴴ) i j := fun i j => (hA.matrix_elem i j).measurable
    have hz : Measurable fun p : SUN N => b3 * hitLength (p.1 * Sᴴ) pq := (hitLength_measurable pq hent).const_mul b3
    have h1 := noRun_measurable (heatTry_meas 40 (fun p : SUN N => b3 * hitLength (p.1 * Sᴴ) pq) hz)
    have h2 := hitTry_meas b3 S pq (fun U : SUN N => U) measurable_id (fun _ => hitsFail b3 S l) (ih.comp measurable_snd)
    refine Measurable.add (Measurable.ite ?_ measurable_const h1) h2
    exact measurableSet_eq_fun (hz.comp measurable_fst) measurable_const

theorem hitsFail_le (haar2 : Measure (SUN 2)) [IsProbabilityMeasure haar2] [haar2.IsMulLeftInvariant] {b3 : ℝ} (hb : 0 < b3)
    (S : Matrix (Fin N) (Fin N) ℂ) (l : List (Fin N × Fin N)) (hl : ∀ pq ∈ l, pq.1 ≠ pq.2) (U : SUN N) :
    ∫⁻ u, hitsFail b3 S l U u ∂uniformStream ≤ l.length * ENNReal.ofReal (0.64 ^ 40) := by
  induction l generalizing U with
  | nil => simp [hitsFail]
  | cons pq l ih =>
    have ih' := ih fun x hx => hl x (List.mem_cons_of_mem _ hx)
    obtain ⟨_, μ, hμ, _⟩ := hit_law haar2 hb S (hl pq (List.mem_cons_self ..)) U
    have hm := hitsFail_meas b3 S l
    have e1 := hμ (hitsFail b3 S l) hm
    have e0 := hμ (fun _ _ => 1) measurable_const
    simp only [lintegral_const, measure_univ, mul_one, one_mul] at e0
    have hmass : μ univ ≤ 1 := by
      rw [← e0]
      calc ∫⁻ u, afterRun (fun _ _ => 1) u (hitTry b3 S pq U u) ∂uniformStream ≤ ∫⁻ _, 1 ∂uniformStream := lintegral_mono fun u => by
            cases hitTry b3 S pq U u <;> simp [afterRun]
        _ = 1 := by simp
    have hms : Measurable fun u => afterRun (hitsFail b3 S l) u (hitTry b3 S pq U u) := by
      have := hitTry_meas b3 S pq (fun _ : Unit => U) measurable_const (fun _ => hitsFail b3 S l) (hm.comp measurable_snd)
      exact this.comp (measurable_const.prodMk measurable_id : Measurable fun u : ℕ → ℝ => ((), u))
    simp only [hitsFail]
    rw [lintegral_add_right _ hms, e1, List.length_cons, Nat.cast_add, Nat.cast_one, add_mul, one_mul, add_comm]
    refine add_le_add ?_ ?_
    · calc ∫⁻ V, ∫⁻ u, hitsFail b3 S l V u ∂uniformStream ∂μ ≤ ∫⁻ _, l.length * ENNReal.ofReal (0.64 ^ 40) ∂μ := lintegral_mono fun V => ih' V
        _ = l.length * ENNReal.ofReal (0.64 ^ 40) * μ univ := by rw [lintegral_const]
        _ ≤ l.length * ENNReal.ofReal (0.64 ^ 40) * 1 := mul_le_mul' le_rfl hmass
        _ = _ := mul_one _
    · by_cases hz : b3 * hitLength (U.1 * Sᴴ) pq = 0
      · simp only [if_pos hz, lintegral_zero]; exact bot_le
      · simp only [if_neg hz]
        exact heatTry_fail (lt_of_le_of_ne (mul_nonneg hb.le (Real.sqrt_nonneg _)) (Ne.symm hz)) 40

/-- Without a length there is no risk. -/
theorem heatAccepts_zero (rnd : ℕ → ℝ) (h : ∀ k, 0 ≤ rnd k ∧ rnd k < 1) (k : ℕ) : HeatAccepts rnd 0 k := by
  left
  unfold KpAccepts kpTrial
  simp only [div_zero, mul_zero, sub_zero]
  have := h (k + 3)
  nlinarith [this.1, this.2]

theorem hitsFail_of (rnd : ℕ → ℝ) (h : ∀ k, 0 ≤ rnd k ∧ rnd k < 1) {b3 : ℝ} (hb : 0 < b3) (S : Matrix (Fin N) (Fin N) ℂ) (l : List (Fin N × Fin N))
    (hl : ∀ pq ∈ l, pq.1 ≠ pq.2) (U : SUN N) (k : ℕ) (hn : ¬ HitsAccept rnd b3 l ((U.1, U.1 * Sᴴ), k)) : 1 ≤ hitsFail b3 S l U (shiftBy k rnd) := by
  induction l generalizing U k with
  | nil => exact absurd trivial hn
  | cons pq l ih =>
    rw [hitsFail]
    by_cases ha : HeatAccepts rnd (b3 * hitLength (U.1 * Sᴴ) pq) k
    · refine le_trans ?_ le_add_self
      have h1 := hitTry_spec rnd h hb S (hl pq (List.mem_cons_self ..)) U k
      have hn' : ¬ ∀ s', heatbathHit rnd b3 ((U.1, U.1 * Sᴴ), k) pq = some s' → HitsAccept rnd b3 l s' := fun c => hn ⟨ha, c⟩
      cases ht : hitTry b3 S pq U (shiftBy k rnd) with
      | none =>
        rw [ht] at h1
        rcases h1 with h1 | h1
        · exact absurd (fun s' hs' => by rw [h1] at hs'; cases hs') hn'
        · exact absurd ha h1
      | some x =>
        rw [ht] at h1
        simp only [afterRun, shiftBy_shiftBy]
        refine ih (fun y hy => hl y (List.mem_cons_of_mem _ hy)) x.1 (k + x.2) fun c => hn' fun s' hs' => ?_
        rw [h1.1] at hs'
        rw [← Option.some.inj hs']
        exact c
    · refine le_trans ?_ le_self_add
      by_cases hz : b3 * hitLength (U.1 * Sᴴ) pq = 0
      · rw [hz] at ha; exact absurd (heatAccepts_zero rnd h k) ha
      · rw [if_neg hz]
        have h1 := heatTry_eq rnd (b3 * hitLength (U.1 * Sᴴ) pq) k
        cases ht : heatTry 40 (b3 * hitLength (U.1 * Sᴴ) pq) (shiftBy k rnd) with
        | none => simp [noRun]
        | some x => rw [ht] at h1; exact absurd h1.2 ha

/-- **C87 (failed trials).** For every N, coupling, staple and link the probability that in some hit of the update all trials fail is at most `2e-8` times the
number of hits. -/
theorem C87_failure (beta : ℝ) (hbeta : 0 < beta) (S : Matrix (Fin N) (Fin N) ℂ) (U : SUN N) :
    uniformStream {u | ¬ UpdateAccepts u beta U.1 S} ≤ ENNReal.ofReal ((N * (N - 1) / 2 : ℕ) * 2e-8) := by
  rcases Nat.eq_zero_or_pos N with rfl | hN
  · have : {u | ¬ UpdateAccepts u beta U.1 S} = ∅ := by
      ext u
      exact ⟨fun c => c trivial, fun c => absurd c (Set.notMem_empty u)⟩
    rw [this, measure_empty]
    exact bot_le
  have hb : 0 < beta / N := div_pos hbeta (by exact_mod_cast hN)
  obtain ⟨haar2, hp2, hi2⟩ := exists_haar 2
  have h1 := hitsFail_le haar2 hb S (subgroups N) (fun pq hpq => subgroups_ne pq hpq) U
  have hm : Measurable fun u => hitsFail (beta / N) S (subgroups N) U u :=
    (hitsFail_meas (beta / N) S (subgroups N)).comp (measurable_const.prodMk measurable_id : Measurable fun u : ℕ → ℝ => (U, u))
  have h2 : uniformStream {u | ¬ UpdateAccepts u beta U.1 S} ≤ uniformStream {u | 1 ≤ hitsFail (beta / N) S (subgroups N) U u} := by
    refine measure_mono_ae ?_
    filter_upwards [stream_ae] with u hu hn
    have := hitsFail_of u hu hb S (subgroups N) (fun pq hpq => subgroups_ne pq hpq) U 0 hn
    rw [shiftBy_zero] at this
    exact this
  have h3 := mul_meas_ge_le_lintegral hm (μ := uniformStream) 1
  rw [one_mul] at h3
  refine le_trans (le_trans h2 h3) (le_trans h1 ?_)
  have hlen : (subgroups N).length = N * (N - 1) / 2 := by
    have h := length_upperPairs (N := N)
    have : subgroups N = upperPairs N := rfl
    rw [this]
    omega
  rw [hlen, ENNReal.ofReal_mul (by positivity), ENNReal.ofReal_natCast]
  exact mul_le_mul' le_rfl (ENNReal.ofReal_le_ofReal (by norm_num))

example : ∃ haar : Measure (SUN 3), IsProbabilityMeasure haar ∧ haar.IsMulLeftInvariant ∧
    uniformStream {u | ¬ UpdateAccepts u 6 (1 : SUN 3).1 (Matrix.of fun i j => (i.val : ℂ) + 2 * j.val)} ≤ ENNReal.ofReal 6e-8 := by
  obtain ⟨haar, h1, h2⟩ := exists_haar 3
  refine ⟨haar, h1, h2, le_trans (C87_failure 6 (by norm_num) _ 1) (ENNReal.ofReal_le_ofReal ?_)⟩
  norm_num

end Hila
