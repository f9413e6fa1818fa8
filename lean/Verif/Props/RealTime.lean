import Verif.Lemmas.RealTimeEnergy

/-!
# C81: evolution in real time

`Leapfrog dt s s'` is the specification of one step: half a step of the links with the electric field, a step of the electric
field with the sum of the plaquettes through each link, and half a step of the links again. `expAlg` is the exact exponential.
-/

set_option linter.unusedSectionVars false

namespace Hila

open Matrix

variable {n : ℕ} {L : Fin n → ℕ} {N : ℕ}

/-- The sum of the plaquettes that start at `x` with the link in direction `d`. -/
noncomputable def linkLoops (U : GField L N) (d : Fin n) (x : PSite L) : Mat N :=
  ∑ e ∈ Finset.univ.erase d, (pathM U [(d, true), (e, true), (d, false), (e, false)] x +
    pathM U [(d, true), (e, false), (d, false), (e, true)] x)

/-- One step of the leapfrog integrator. -/
def Leapfrog (dt : ℝ) (s s' : RtState L N) : Prop :=
  ∃ V : GField L N, (∀ d x, V d x = NormedSpace.exp (((dt / 2 : ℝ) : ℂ) • expand (s.E d x)) * s.U d x) ∧
    (∀ d x, expand (s'.E d x) = expand (s.E d x) - (dt : ℂ) • algPart (linkLoops V d x)) ∧
    ∀ d x, s'.U d x = NormedSpace.exp (((dt / 2 : ℝ) : ℂ) • expand (s'.E d x)) * V d x

theorem force_loops (hN : 0 < N) (U : GField L N) (d : Fin n) (x : PSite L) :
    expand (rtForce U d x) = algPart (linkLoops U d x) := by
  unfold rtForce linkLoops
  rw [expand_project hN, stapleSpec_star, Finset.mul_sum]
  exact congrArg _ (Finset.sum_congr rfl fun e _ => rterm_sq U d e x)

theorem run_leapfrog (hN : 0 < N) (dt : ℝ) (s s' : RtState L N) : Leapfrog dt s s' ↔ s' = rtRun expAlg dt 0 s := by
  have hr : rtRun expAlg dt 0 s = rtUpdateU expAlg (dt / 2) (rtKick dt (rtUpdateU expAlg (dt / 2) s)) := rfl
  constructor
  · rintro ⟨V, h1, h2, h3⟩
    have hV : V = (rtUpdateU expAlg (dt / 2) s).U := by
      funext d x
      rw [h1, ← expand_smul hN]
      rfl
    have hE : s'.E = (rtKick dt (rtUpdateU expAlg (dt / 2) s)).E := by
      funext d x
      refine expand_inj hN ?_
      rw [h2, hV]
      show _ = expand (s.E d x - dt • rtForce (rtUpdateU expAlg (dt / 2) s).U d x)
      rw [expand_sub hN, expand_smul hN, force_loops hN]
    have hU : s'.U = (rtUpdateU expAlg (dt / 2) (rtKick dt (rtUpdateU expAlg (dt / 2) s))).U := by
      funext d x
      rw [h3, hV, hE, ← expand_smul hN]
      rfl
    rw [hr]
    cases s'
    congr 1
  · rintro rfl
    refine ⟨(rtUpdateU expAlg (dt / 2) s).U, fun d x => ?_, fun d x => ?_, fun d x => ?_⟩
    · rw [← expand_smul hN]; rfl
    · rw [hr]
      show expand (s.E d x - dt • rtForce (rtUpdateU expAlg (dt / 2) s).U d x) = _
      rw [expand_sub hN, expand_smul hN, force_loops hN]
    · rw [hr, ← expand_smul hN]; rfl

theorem drift_drift (hN : 0 < N) (a b : ℝ) (s : RtState L N) :
    rtUpdateU expAlg a (rtUpdateU expAlg b s) = rtUpdateU expAlg (a + b) s := by
  unfold rtUpdateU
  simp only [expAlg_add_smul hN, Matrix.mul_assoc]

/-- A turn with several steps is the same as several turns with one step. -/
theorem run_iterate (hN : 0 < N) (dt : ℝ) (k : ℕ) (s : RtState L N) :
    rtRun expAlg dt k s = (rtRun expAlg dt 0)^[k + 1] s := by
  have hh : ∀ s : RtState L N, rtUpdateU expAlg (dt / 2) (rtUpdateU expAlg (dt / 2) s) = rtUpdateU expAlg dt s := by
    intro s
    rw [drift_drift hN, add_halves]
  have key : ∀ k : ℕ, rtUpdateU expAlg (dt / 2) ((rtRun expAlg dt 0)^[k] s) =
      (fun s => rtUpdateU expAlg dt (rtKick dt s))^[k] (rtUpdateU expAlg (dt / 2) s) := by
    intro k
    induction k with
    | zero => rfl
    | succ k ih =>
      rw [Function.iterate_succ_apply', Function.iterate_succ_apply', ← ih]
      exact hh _
  rw [Function.iterate_succ_apply']
  unfold rtRun
  rw [← key k]
  rfl

theorem rtLoop_spec [∀ d, NeZero (L d)] (hN : 0 < N) (hn : 2 ≤ n) (dt : ℝ) (trajlen : ℤ) (m : ℕ) (hm : 1 ≤ m) :
    ∀ (fuel : ℕ) (i : ℤ) (t : ℝ) (s : RtState L N), trajlen - i ≤ fuel →
      rtLoop expAlg dt trajlen m fuel i t s =
        some ((List.range ((trajlen - i + m - 1) / m).toNat).map fun j =>
          (t + dt * (m * ((j + 1 : ℕ) : ℝ)), (rtRun expAlg dt 0)^[m * (j + 1)] s)) := by
  intro fuel
  induction fuel with
  | zero =>
    intro i t s h
    have h0 : ((trajlen - i + m - 1) / m).toNat = 0 := by
      have : (trajlen - i + m - 1) / m < 1 := Int.ediv_lt_of_lt_mul (by omega) (by push_cast at h; omega)
      omega
    rw [rtLoop, if_neg (by push_cast at h; omega), h0]
    rfl
  | succ fuel ih =>
    intro i t s h
    by_cases hi : i < trajlen
    · have h1 : ((trajlen - i + m - 1) / m).toNat = ((trajlen - (i + m) + m - 1) / m).toNat + 1 := by
        have : trajlen - i + m - 1 = trajlen - (i + m) + m - 1 + m * 1 := by ring
        rw [this, Int.add_mul_ediv_left _ _ (by omega)]
        have : 0 ≤ (trajlen - (i + m) + m - 1) / m := Int.ediv_nonneg (by omega) (by omega)
        omega
      have hk : ((m : ℤ) - 1).toNat + 1 = m := by omega
      rw [rtLoop, if_pos hi, rtLeap_eq hn, Option.bind_some, run_iterate hN, hk,
        ih (i + m) _ _ (by push_cast at h; omega), h1, List.range_succ_eq_map]
      simp only [Option.map_some, List.map_cons, List.map_map]
      congr 2
      · push_cast
        congr 1
        · ring
        · rw [mul_one]
      · refine List.map_congr_left fun j _ => ?_
        simp only [Function.comp]
        congr 1
        · push_cast
          ring
        · rw [← Function.iterate_add_apply]
          congr 1
    · have h0 : ((trajlen - i + m - 1) / m).toNat = 0 := by
        have : (trajlen - i + m - 1) / m < 1 := Int.ediv_lt_of_lt_mul (by omega) (by omega)
        omega
      rw [rtLoop, if_neg hi, h0]
      rfl

/-- **C81.** A trajectory: the fields that are measured are those of the leapfrog integrator after `0`, `m`, `2 m`, … steps, where `m`
is the interval of the measurements, with the times that belong to them. There are `⌈trajlen / m⌉` measurements after the first
one. The measurements do not influence the evolution. -/
theorem C81_trajectory_partial [∀ d, NeZero (L d)] (hN : 0 < N) (hn : 2 ≤ n) (dt : ℝ) (trajlen : ℤ) (m : ℕ) (hm : 1 ≤ m)
    (fuel : ℕ) (hf : trajlen ≤ fuel) (s : RtState L N) :
    ∃ st : ℕ → RtState L N, st 0 = s ∧ (∀ j, Leapfrog dt (st j) (st (j + 1))) ∧
      rtTrajectory expAlg dt trajlen m fuel s =
        some ((List.range (1 + ⌈(trajlen : ℚ) / m⌉.toNat)).map fun j => (dt * ((m * j : ℕ) : ℝ), st (m * j))) := by
  refine ⟨fun j => (rtRun expAlg dt 0)^[j] s, rfl, fun j => ?_, ?_⟩
  · rw [run_leapfrog hN]
    exact Function.iterate_succ_apply' _ _ _
  · have hc : ⌈(trajlen : ℚ) / m⌉ = (trajlen - 0 + m - 1) / m := by
      rw [show ((m : ℕ) : ℚ) = ((m : ℤ) : ℚ) by push_cast; rfl]
      rw [Int.ceil_eq_iff]
      have hm' : (0 : ℚ) < ((m : ℤ) : ℚ) := by exact_mod_cast hm
      rw [lt_div_iff₀ hm', div_le_iff₀ hm']
      have h1 := Int.mul_ediv_add_emod (trajlen - 0 + m - 1) m
      have h2 := Int.emod_nonneg (trajlen - 0 + m - 1) (show (m : ℤ) ≠ 0 by omega)
      have h3 := Int.emod_lt_of_pos (trajlen - 0 + m - 1) (show (0 : ℤ) < m by omega)
      generalize hq : (trajlen - 0 + m - 1) / (m : ℤ) = q at *
      have e : (q - 1) * (m : ℤ) = m * q - m := by ring
      have e' : q * (m : ℤ) = m * q := by ring
      constructor
      · have : (q - 1) * (m : ℤ) < trajlen := by omega
        exact_mod_cast this
      · have : trajlen ≤ q * (m : ℤ) := by omega
        exact_mod_cast this
    rw [rtTrajectory, rtLoop_spec hN hn dt trajlen m hm fuel 0 0 s (by omega), hc, add_comm 1, List.range_succ_eq_map]
    simp only [Option.map_some, List.map_cons, List.map_map, mul_zero, Nat.cast_zero, Function.iterate_zero, id]
    congr 2
    refine List.map_congr_left fun j _ => ?_
    simp only [Function.comp]
    congr 1
    push_cast
    ring

/-- **C81.** What is wrong: a trajectory of length `10` with measurements every `4` steps ends after `12` steps. -/
theorem C81_length_wrong [∀ d, NeZero (L d)] (hN : 0 < N) (hn : 2 ≤ n) (dt : ℝ) (hdt : 0 < dt) (s : RtState L N) :
    ∃ l, rtTrajectory expAlg dt 10 4 10 s = some l ∧ (l.map Prod.fst) = [0, dt * 4, dt * 8, dt * 12] ∧
      ∃ r, l.getLast? = some r ∧ dt * 10 < r.1 := by
  obtain ⟨st, -, -, h⟩ := C81_trajectory_partial hN hn dt 10 4 (by omega) 10 (by omega) s
  have hc : ⌈((10 : ℤ) : ℚ) / ((4 : ℕ) : ℚ)⌉ = 3 := by
    rw [Int.ceil_eq_iff]
    norm_num
  rw [hc] at h
  refine ⟨_, h, ?_, (dt * ((4 * 3 : ℕ) : ℝ), st (4 * 3)), rfl, ?_⟩
  · simp [List.range_succ]
    norm_num
  · push_cast
    linarith

/-- **C81.** What is wrong: with an interval that is not positive a trajectory does not end. -/
theorem C81_endless [∀ d, NeZero (L d)] (ex : Alg N → Mat N) (hn : 2 ≤ n) (dt : ℝ) (trajlen m : ℤ) (hl : 0 < trajlen) (hm : m ≤ 0) (fuel : ℕ)
    (s : RtState L N) : rtTrajectory ex dt trajlen m fuel s = none := by
  have key : ∀ (fuel : ℕ) (i : ℤ) (t : ℝ) (s : RtState L N), i ≤ 0 → rtLoop ex dt trajlen m fuel i t s = none := by
    intro fuel
    induction fuel with
    | zero => intro i t s hi; rw [rtLoop, if_pos (by omega)]
    | succ fuel ih =>
      intro i t s hi
      rw [rtLoop, if_pos (by omega), rtLeap_eq hn, Option.bind_some, ih _ _ _ (by omega), Option.map_none]
  rw [rtTrajectory, key fuel 0 0 s le_rfl, Option.map_none]

/-- **C81.** The evolution between two drawings of the electric field takes `⌈1 / dt - 1⌉ + 1` steps, which is the time `1` exactly if `1 / dt` is a
whole number. -/
theorem C81_thermalize [∀ d, NeZero (L d)] (hN : 0 < N) (hn : 2 ≤ n) (dt : ℝ) (hdt : 0 < dt) (s : RtState L N) :
    (∃ st : ℕ → RtState L N, st 0 = s ∧ (∀ j, Leapfrog dt (st j) (st (j + 1))) ∧
      rtTherm expAlg dt s = some (st (⌈1 / dt - 1⌉₊ + 1))) ∧
    ((((⌈1 / dt - 1⌉₊ + 1 : ℕ) : ℝ) * dt = 1) ↔ ∃ k : ℕ, 1 / dt = k) := by
  refine ⟨⟨fun j => (rtRun expAlg dt 0)^[j] s, rfl, fun j => ?_, ?_⟩, fun h => ⟨⌈1 / dt - 1⌉₊ + 1, ?_⟩, ?_⟩
  · rw [run_leapfrog hN]
    exact Function.iterate_succ_apply' _ _ _
  · rw [rtTherm_eq hn, run_iterate hN]
    rfl
  · rw [div_eq_iff hdt.ne', h]
  · rintro ⟨k, hk⟩
    have hk1 : 1 ≤ k := by
      rcases Nat.eq_zero_or_pos k with h0 | h0
      · rw [h0, Nat.cast_zero, div_eq_zero_iff] at hk
        rcases hk with hk | hk <;> linarith
      · exact h0
    have e : 1 / dt - 1 = ((k - 1 : ℕ) : ℝ) := by
      rw [hk]
      push_cast [hk1]
      ring
    rw [e, Nat.ceil_natCast, Nat.sub_add_cancel hk1, ← hk, one_div, inv_mul_cancel₀ hdt.ne']

/-- **C81.** Gauss' law: all fields that are measured have unitary links and the same violation as the fields at the start, at every site. -/
theorem C81_gauss [∀ d, NeZero (L d)] (hN : 0 < N) (hn : 2 ≤ n) (dt : ℝ) (trajlen m : ℤ) (fuel : ℕ) (s : RtState L N)
    (hU : IsUnitaryField s.U) (l : List (ℝ × RtState L N)) (hl : rtTrajectory expAlg dt trajlen m fuel s = some l) :
    ∀ r ∈ l, IsUnitaryField r.2.U ∧ ∀ x,
      ∑ d, (expand (r.2.E d x) - (r.2.U d (x - Pi.single d 1))ᴴ * expand (r.2.E d (x - Pi.single d 1)) * r.2.U d (x - Pi.single d 1)) =
      ∑ d, (expand (s.E d x) - (s.U d (x - Pi.single d 1))ᴴ * expand (s.E d (x - Pi.single d 1)) * s.U d (x - Pi.single d 1)) := by
  have key : ∀ (fuel : ℕ) (i : ℤ) (t : ℝ) (r : RtState L N) (l : List (ℝ × RtState L N)), IsUnitaryField r.U →
      gaussViolation r.U r.E = gaussViolation s.U s.E → rtLoop expAlg dt trajlen m fuel i t r = some l →
      ∀ q ∈ l, IsUnitaryField q.2.U ∧ gaussViolation q.2.U q.2.E = gaussViolation s.U s.E := by
    intro fuel
    induction fuel with
    | zero =>
      intro i t r l h1 h2 h3
      rw [rtLoop] at h3
      split at h3
      · cases h3
      · cases h3; intro q hq; cases hq
    | succ fuel ih =>
      intro i t r l h1 h2 h3
      rw [rtLoop] at h3
      split at h3
      · rw [rtLeap_eq hn, Option.bind_some] at h3
        obtain ⟨l', h4, h5⟩ := Option.map_eq_some_iff.1 h3
        have hg := rtRun_gauss hN dt (m - 1).toNat r h1
        rw [h2] at hg
        rw [← h5]
        intro q hq
        rcases List.mem_cons.1 hq with rfl | hq
        · exact hg
        · exact ih _ _ _ l' hg.1 hg.2 h4 q hq
      · cases h3; intro q hq; cases hq
  intro r hr
  obtain ⟨l', h1, h2⟩ := Option.map_eq_some_iff.1 hl
  have h : IsUnitaryField r.2.U ∧ gaussViolation r.2.U r.2.E = gaussViolation s.U s.E := by
    rw [← h2] at hr
    rcases List.mem_cons.1 hr with rfl | hr
    · exact ⟨hU, rfl⟩
    · exact key _ _ _ _ _ hU rfl h1 r hr
  refine ⟨h.1, fun x => ?_⟩
  rw [← C59_divergence hN h.1, ← C59_divergence hN hU, h.2]

/-- **C81.** Time reversal: when the electric field is given the opposite sign after a turn, the same turn leads back to the start. -/
theorem C81_reversible [∀ d, NeZero (L d)] (hN : 0 < N) (hn : 2 ≤ n) (dt : ℝ) (m : ℤ) (s s' : RtState L N)
    (h : rtLeap expAlg dt m s = some s') :
    rtLeap expAlg dt m ⟨s'.U, fun d x => -s'.E d x⟩ = some ⟨s.U, fun d x => -s.E d x⟩ := by
  rw [rtLeap_eq hn] at h ⊢
  cases h
  exact congrArg some (flip_run hN dt _ s)

/-! ### Gauge transformation -/

theorem energy_gauge [∀ d, NeZero (L d)] (hN : 0 < N) {g : PSite L → Mat N} (hg : IsGauge g) (s : RtState L N) :
    rtEnergy (rtGauge g s) = rtEnergy s := by
  unfold rtEnergy
  have h1 : rtPlaq (rtGauge g s).U = rtPlaq s.U := by
    show rtPlaq (gaugeT g s.U) = _
    rw [rtPlaq_eq hN, rtPlaq_eq hN, (C33_plaquette_same _).1, (C33_plaquette_same _).1, C33_plaquette _ g hg]
  have h2 : ∀ d x, ((rtGauge g s).E d x).squarenorm = (s.E d x).squarenorm :=
    fun d x => leftConj_squarenorm hN (hg x) _
  simp only [h1, h2]

theorem clover_loops (U : GField L N) (d e : Fin n) (x : PSite L) : rtClover U d e x =
    pathM U [(d, true), (e, true), (d, false), (e, false)] x + pathM U [(e, true), (d, false), (e, false), (d, true)] x +
      pathM U [(d, false), (e, false), (d, true), (e, true)] x + pathM U [(e, false), (d, true), (e, true), (d, false)] x := by
  rw [leaf0, leaf1, leaf2, leaf3]
  unfold rtClover unitStep
  rw [show x + Pi.single e 1 - Pi.single d 1 = x - Pi.single d 1 + (Pi.single e 1 : PSite L) by abel,
    show x - Pi.single d 1 - Pi.single e 1 = x - Pi.single e 1 - (Pi.single d 1 : PSite L) by abel,
    show x + Pi.single d 1 - Pi.single e 1 = x - Pi.single e 1 + (Pi.single d 1 : PSite L) by abel]
  simp only [Matrix.mul_assoc]

theorem trace_mul_algPart (hN : 0 < N) (a : Alg N) (M : Mat N) :
    (expand a * algPart M).trace = (1 / 2 : ℂ) * (expand a * (M - Mᴴ)).trace := by
  unfold algPart
  rw [Matrix.mul_sub, Matrix.trace_sub, Matrix.mul_smul _ _ (1 : Mat N), Matrix.mul_one, Matrix.trace_smul _ (expand a),
    expand_eq hN, algMat_trace hN, smul_zero, sub_zero, Matrix.mul_smul, Matrix.trace_smul, smul_eq_mul]

theorem trace_clover (hN : 0 < N) (a : Alg N) (U : GField L N) (d e : Fin n) (x : PSite L) :
    (expand a * (rtClover U d e x - (rtClover U d e x)ᴴ)).trace = 8 * (expand a * fieldStrength U d e x).trace := by
  have h : fieldStrength U d e x = (1 / 4 : ℂ) • algPart (rtClover U d e x) := by
    rw [clover_loops]
    have := algPart_smul (1 / 4) (pathM U [(d, true), (e, true), (d, false), (e, false)] x + pathM U [(e, true), (d, false), (e, false), (d, true)] x +
      pathM U [(d, false), (e, false), (d, true), (e, true)] x + pathM U [(e, false), (d, true), (e, true), (d, false)] x)
    push_cast at this
    rw [← this]
    rfl
  rw [h, Matrix.mul_smul, Matrix.trace_smul, trace_mul_algPart hN, smul_eq_mul]
  ring

theorem trace_magnetic (hN : 0 < N) (a : Alg N) (U : GField L N) (d : Fin n) (x : PSite L) :
    (expand a * rtMagnetic U d x).trace = ∑ d2, ∑ d3, if d ≠ d2 ∧ d ≠ d3 ∧ d2 < d3 then
      -(rtSign d d2 d3 : ℂ) * (expand a * fieldStrength U d2 d3 x).trace else 0 := by
  unfold rtMagnetic
  rw [Finset.mul_sum, Matrix.trace_sum]
  refine Finset.sum_congr rfl fun d2 _ => ?_
  rw [Finset.mul_sum, Matrix.trace_sum]
  refine Finset.sum_congr rfl fun d3 _ => ?_
  split_ifs
  · rw [Matrix.mul_smul, Matrix.trace_smul, trace_clover hN, smul_eq_mul]
    norm_num
    ring
  · rw [Matrix.mul_zero, Matrix.trace_zero]

theorem rtImproved_eq (s : RtState L N) (d : Fin n) (x : PSite L) : rtImproved s d x =
    (1 / 2 : ℝ) • (s.E d x + rightConj (s.U d (x - Pi.single d 1)) (s.E d (x - Pi.single d 1))) := by
  unfold rtImproved rightConj unitStep
  norm_num

theorem improved_gauge (hN : 0 < N) {g : PSite L → Mat N} (hg : IsGauge g) (s : RtState L N) (hU : IsUnitaryField s.U) :
    rtImproved (rtGauge g s) = rotE g (rtImproved s) := by
  funext d x
  show _ = leftConj (g x) (rtImproved s d x)
  rw [rtImproved_eq, rtImproved_eq, leftConj_smul hN, leftConj_add hN]
  have c : x - Pi.single d 1 + Pi.single d 1 = x := by abel
  have h : rightConj ((rtGauge g s).U d (x - Pi.single d 1)) ((rtGauge g s).E d (x - Pi.single d 1)) =
      leftConj (g x) (rightConj (s.U d (x - Pi.single d 1)) (s.E d (x - Pi.single d 1))) := by
    have hg' : IsUnitaryField (rtGauge g s).U := gaugeT_unitary hU hg
    refine expand_inj hN ?_
    rw [(C50_conjugation hN (hg' d _) _ 0).2.1, (C50_conjugation hN (hg x) _ 0).1, (C50_conjugation hN (hU d _) _ 0).2.1]
    show (gaugeT g s.U d (x - Pi.single d 1))ᴴ * expand (leftConj (g (x - Pi.single d 1)) (s.E d (x - Pi.single d 1))) *
      gaugeT g s.U d (x - Pi.single d 1) = _
    rw [(C50_conjugation hN (hg _) _ 0).1]
    unfold gaugeT
    rw [c]
    simp only [Matrix.conjTranspose_mul, Matrix.conjTranspose_conjTranspose, Matrix.mul_assoc, hg.cancel]
  rw [h]
  rfl

theorem charge_gauge (hN : 0 < N) {g : PSite L → Mat N} (hg : IsGauge g) (U : GField L N) (E : AlgField L N) (x : PSite L) :
    rtCharge (gaugeT g U) (rotE g E) x = rtCharge U E x := by
  unfold rtCharge
  dsimp only
  refine Finset.sum_congr rfl fun d _ => ?_
  rw [trace_magnetic hN, trace_magnetic hN]
  have h : ∀ d2 d3, (expand (rotE g E d x) * fieldStrength (gaugeT g U) d2 d3 x).trace = (expand (E d x) * fieldStrength U d2 d3 x).trace := by
    intro d2 d3
    show (expand (leftConj (g x) (E d x)) * _).trace = _
    rw [(C50_conjugation hN (hg x) _ 0).1, C58_covariant U g hg]
    simp only [Matrix.mul_assoc]
    rw [← Matrix.mul_assoc (g x)ᴴ, hg.left, Matrix.one_mul, Matrix.trace_mul_comm]
    simp only [Matrix.mul_assoc]
    rw [hg.left, Matrix.mul_one]
  simp only [h]

/-- **C81.** Gauge invariance: the evolution commutes with gauge transformations, and the energy and the topological charge do not change. -/
theorem C81_gauge [∀ d, NeZero (L d)] (hN : 0 < N) (hn : 2 ≤ n) (g : PSite L → Mat N) (hg : IsGauge g) (dt : ℝ) (m : ℤ)
    (s : RtState L N) :
    rtLeap expAlg dt m ⟨gaugeT g s.U, rotE g s.E⟩ = (rtLeap expAlg dt m s).map (fun r => ⟨gaugeT g r.U, rotE g r.E⟩) ∧
      rtEnergy ⟨gaugeT g s.U, rotE g s.E⟩ = rtEnergy s ∧
      (IsUnitaryField s.U → rtChi ⟨gaugeT g s.U, rotE g s.E⟩ = rtChi s) := by
  refine ⟨?_, energy_gauge hN hg s, fun hU => ?_⟩
  · rw [rtLeap_eq hn, rtLeap_eq hn]
    exact congrArg some (run_gauge hN hg dt _ s)
  · have h := improved_gauge hN hg s hU
    unfold rtChi
    congr 1
    refine Finset.sum_congr rfl fun x => ?_
    intro _
    show rtCharge (gaugeT g s.U) (rtImproved (rtGauge g s)) x = _
    rw [h]
    exact charge_gauge hN hg _ _ x

/-! ### Energy -/

/-- **C81.** The energy is the sum of the squares of the electric field and of the plaquettes. -/
theorem C81_energy_value [∀ d, NeZero (L d)] (hN : 0 < N) (s : RtState L N) :
    rtEnergy s = (∑ d, ∑ x, ((expand (s.E d x))ᴴ * expand (s.E d x)).trace.re) +
      2 * ∑ d1, ∑ d2, if d1 < d2 then
        ∑ x, (N - (pathM s.U [(d1, true), (d2, true), (d1, false), (d2, false)] x).trace.re) else 0 := by
  have h1 : ∀ d x, (s.E d x).squarenorm = 2 * ((expand (s.E d x))ᴴ * expand (s.E d x)).trace.re := by
    intro d x
    have he : expandRun (s.E d x) = some (expand (s.E d x)) := by
      unfold expand expandRun
      rw [expandScaledRun_eq hN]
      rfl
    exact (C50_dot hN (s.E d x) (s.E d x) he he).2
  unfold rtEnergy rtPlaq unitStep
  simp only [h1, leaf0, ← Finset.mul_sum, Matrix.mul_assoc]
  norm_num

/-- **C81.** Energy: after a turn with any number of steps the energy agrees with that at the start up to second order in the step. -/
theorem C81_energy_partial [∀ d, NeZero (L d)] (hN : 0 < N) (hn : 2 ≤ n) (m : ℤ) (s : RtState L N) :
    ∃ f : ℝ → RtState L N, (∀ dt, rtLeap expAlg dt m s = some (f dt)) ∧ f 0 = s ∧ HasDerivAt (fun dt => rtEnergy (f dt)) 0 0 := by
  refine ⟨fun dt => rtRun expAlg dt (m - 1).toNat s, fun dt => rtLeap_eq hn _ _ _ _, ?_, ?_⟩
  · have h : ∀ s : RtState L N, rtRun expAlg 0 0 s = s := by
      intro s
      show rtUpdateU expAlg (0 / 2) (rtKick 0 (rtUpdateU expAlg (0 / 2) s)) = s
      rw [zero_div, drift_zero hN, kick_zero, drift_zero hN]
    show rtRun expAlg 0 _ s = s
    rw [run_iterate hN]
    exact Function.iterate_fixed (h s) _
  · have := (rtRun_curve hN (m - 1).toNat s).energy hN
    rwa [sub_self, zero_mul] at this

/-! ### Magnetic field and topological charge -/

theorem fieldStrength_swap (U : GField L N) (d e : Fin n) (x : PSite L) :
    fieldStrength U e d x = -fieldStrength U d e x := by
  have h0 := sq_rev U d e true true x
  have h1 := sq_rev U e d false true x
  have h2 := sq_rev U d e false false x
  have h3 := sq_rev U e d true false x
  simp only [sq, Bool.not_true, Bool.not_false] at h0 h1 h2 h3
  unfold fieldStrength
  rw [h0, h1, h2, h3, ← algPart_star]
  congr 1
  rw [Matrix.conjTranspose_smul]
  simp only [Matrix.conjTranspose_add]
  rw [show star (1 / 4 : ℂ) = 1 / 4 by simp]
  congr 1
  abel

/-- **C81.** In three dimensions the topological charge is the product of the electric field with the components `F_12`, `F_20` and `F_01` of
the field strength. -/
theorem C81_charge {L : Fin 3 → ℕ} (hN : 0 < N) (U : GField L N) (E : AlgField L N) (x : PSite L) :
    rtCharge U E x = -(1 / (4 * Real.pi ^ 2)) * ((expand (E 0 x) * fieldStrength U 1 2 x).trace +
      (expand (E 1 x) * fieldStrength U 2 0 x).trace + (expand (E 2 x) * fieldStrength U 0 1 x).trace).re := by
  have hp : Real.pi ≠ 0 := Real.pi_ne_zero
  rw [fieldStrength_swap U 0 2]
  unfold rtCharge
  dsimp only
  simp only [trace_magnetic hN, Fin.sum_univ_three]
  simp [rtSign]
  norm_num
  field_simp
  ring

/-! ### Examples -/

/-- Fields with unitary links that violate Gauss' law at the start (`C81_gauss`, `C81_gauge`). -/
example (dt : ℝ) : ∃ s : RtState (fun _ : Fin 3 => 2) 2, IsUnitaryField s.U ∧ gaussViolation s.U s.E ≠ 0 ∧
    (rtTrajectory expAlg dt 10 5 10 s).isSome := by
  refine ⟨⟨oneU 3 2, staggE 3 (fun _ => 1 : Alg 2) 1⟩, oneU_unitary, fun h => ?_, ?_⟩
  · have h1 := stagg_sq (n := 3) (N := 2) (by norm_num) (fun _ => 1) 1
    dsimp only at h
    rw [h, squarenorm_eq, map_zero] at h1
    have hcard : (0 : ℝ) < Fintype.card (PSite fun _ : Fin 3 => 2) := Nat.cast_pos.2 Fintype.card_pos
    have : (0 : ℝ) < Alg.squarenorm (fun _ => 1 : Alg 2) := by
      unfold Alg.squarenorm
      simp
    have : (0 : ℝ) < Fintype.card (PSite fun _ : Fin 3 => 2) * ((2 * (3 : ℕ) * 1) ^ 2 * Alg.squarenorm (fun _ => 1 : Alg 2)) := by
      positivity
    linarith
  · obtain ⟨st, -, -, h⟩ := C81_trajectory_partial (by norm_num) (by norm_num) dt 10 5 (by omega) 10 (by omega)
      (⟨oneU 3 2, staggE 3 (fun _ => 1 : Alg 2) 1⟩ : RtState (fun _ : Fin 3 => 2) 2)
    push_cast at h
    rw [h]
    rfl

/-- A trajectory of length `10` with measurements every `5` steps ends at the length it was asked for (`C81_trajectory_partial`). -/
example : ⌈((10 : ℤ) : ℚ) / (5 : ℕ)⌉.toNat * 5 = 10 := by
  have hc : ⌈((10 : ℤ) : ℚ) / ((5 : ℕ) : ℚ)⌉ = 2 := by
    rw [Int.ceil_eq_iff]
    norm_num
  rw [hc]
  rfl

/-- A turn that is defined (`C81_reversible`, `C81_energy_partial`). -/
example (dt : ℝ) (s : RtState (fun _ : Fin 3 => 4) 3) : ∃ s', rtLeap expAlg dt 5 s = some s' := ⟨_, rtLeap_eq (by norm_num) _ _ _ _⟩

/-- A step size for which the time of thermalisation is not `1` (`C81_thermalize`). -/
example : ¬∃ k : ℕ, 1 / (0.3 : ℝ) = k := by
  rintro ⟨k, hk⟩
  have h1 : (10 : ℝ) = 3 * k := by rw [← hk]; norm_num
  have h2 : 10 = 3 * k := by exact_mod_cast h1
  omega

end Hila
