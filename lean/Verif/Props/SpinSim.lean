import Verif.Lemmas.SpinSim

/-!
# C88: the programs ising and xy keep the distribution of their models
-/

namespace Hila

open MeasureTheory Function
open scoped ENNReal

variable {R : Type} [Fintype R] [DecidableEq R] {L : Fin 2 → ℕ} [∀ d, NeZero (L d)]

attribute [local irreducible] nbCos xyNew drawAt xyDelta

/-- **C88 (ising).** On every lattice with even extents, distributed to ranks in any way, visited in any order and with neighbours read from halos or not: if the spins
have the distribution with weight `exp(-S)` and the numbers of the ranks are independent and uniform, then so after any number of updates of ising, and the numbers
not yet used are again uniform and independent of the spins. -/
theorem C88_ising (hL : ∀ d, Even (L d)) (beta : ℝ) (own : PSite L → R) (stale : ℕ → PSite L → Fin 2 → Bool → Bool)
    (vis : ℕ → Parity → List (PSite L)) (hvis : ∀ j p, ∀ x ∈ vis j p, VisitsPar p x) (k : ℕ) :
    MeasurePreserving (isingUpdates beta own stale vis k 0 .even) ((boltzmann (isingSpins L) (isingAction beta)).prod (rankStreams R))
      ((boltzmann (isingSpins L) (isingAction beta)).prod (rankStreams R)) := by
  have : ∀ k j p, (p = .even ∨ p = .odd) → MeasurePreserving (isingUpdates beta own stale vis k j p)
      ((boltzmann (isingSpins L) (isingAction beta)).prod (rankStreams R)) ((boltzmann (isingSpins L) (isingAction beta)).prod (rankStreams R)) := by
    intro k
    induction k with
    | zero => intro j p _; exact MeasurePreserving.id _
    | succ k ih =>
      intro j p hp
      exact (ih (j + 1) (oppParity p) (oppParity_eo hp)).comp (isingLoop_preserving hL beta own (stale j) hp (vis j p) (hvis j p))
  exact this k 0 .even (Or.inl rfl)

/-- **C88 (ising, one site).** The spin is turned with the probability of the Metropolis rule: 1 if the action gets smaller, otherwise the exponential of minus its
change. -/
theorem C88_ising_accept (hL : ∀ d, Even (L d)) (beta : ℝ) (own : PSite L → R) (stale : PSite L → Fin 2 → Bool → Bool) (s : PSite L → ℝ) (x : PSite L)
    (hs : s x ≠ 0) : rankStreams R {ω | (isingSite beta own stale s (s, ω) x).1 = update s x (-s x)} =
      ENNReal.ofReal (min 1 (Real.exp (-(isingAction beta (update s x (-s x)) - isingAction beta s)))) := by
  have e : {ω : R → ℕ → ℝ | (isingSite beta own stale s (s, ω) x).1 = update s x (-s x)} =
      {ω | (drawAt (own x) ω).1 < Real.exp (-beta * (2.0 * s x * nbSum s x))} := by
    ext ω
    have h := isingSite_cur beta own stale (s, ω) x
    show _ ↔ (drawAt (own x) ω).1 < Real.exp (-beta * (2.0 * s x * nbSum s x))
    show (isingSite beta own stale s (s, ω) x).1 = update s x (-s x) ↔ _
    have h' : (isingSite beta own stale s (s, ω) x).1 = update s x (if (drawAt (own x) ω).1 < Real.exp (-beta * (2.0 * s x * nbSum s x)) then -s x else s x) :=
      congrArg Prod.fst h
    rw [h']
    by_cases hlt : (drawAt (own x) ω).1 < Real.exp (-beta * (2.0 * s x * nbSum s x))
    · simp only [hlt, if_true]
    · simp only [hlt, if_false, iff_false]
      intro h2
      have h3 := congrFun h2 x
      rw [update_self, update_self] at h3
      exact hs (by linarith)
  have hm : MeasurableSet {ω : R → ℕ → ℝ | (drawAt (own x) ω).1 < Real.exp (-beta * (2.0 * s x * nbSum s x))} :=
    measurableSet_lt (drawAt_measurable (own x)).fst measurable_const
  rw [e, ← lintegral_indicator_one hm]
  have h := lintegral_drawAt (own x) (fun a _ => if a < Real.exp (-beta * (2.0 * s x * nbSum s x)) then 1 else 0)
    (Measurable.ite (measurableSet_lt measurable_fst measurable_const) measurable_const measurable_const)
  refine Eq.trans (lintegral_congr fun ω => ?_) (h.trans ?_)
  · simp [Set.indicator]
  · simp only [lintegral_const, measure_univ, mul_one]
    have h2 := accept_lintegral (Real.exp (-beta * (2.0 * s x * nbSum s x))) (Real.exp_pos _).le 1 0
    refine h2.trans ?_
    rw [mul_one, mul_zero, add_zero, isingAction_update hL]
    congr 4
    norm_num
    ring

/-- **C88 (xy, one site).** A uniformly distributed angle is accepted with the probability of the Metropolis rule. -/
theorem C88_xy_accept (hL : ∀ d, Even (L d)) {beta : ℝ} (hb : 0 ≤ beta) (own : PSite L → R) (stale : PSite L → Fin 2 → Bool → Bool) (s : PSite L → ℝ) (x : PSite L)
    (hs : s x ∈ Set.Icc (-Real.pi) Real.pi) (G : ℝ → ℝ≥0∞) (hG : Measurable G) :
    ENNReal.ofReal (2 * Real.pi) * ∫⁻ ω, G ((xySite beta own stale s (s, ω) x).1 x) ∂rankStreams R =
      ∫⁻ t in Set.Icc (-Real.pi) Real.pi, (ENNReal.ofReal (min 1 (Real.exp (-(xyAction beta (update s x t) - xyAction beta s)))) * G t +
        ENNReal.ofReal (1 - min 1 (Real.exp (-(xyAction beta (update s x t) - xyAction beta s)))) * G (s x)) := by
  have h := xySite_lintegral hb (own x) x s (s x) (fun z => G z.1) (hG.comp measurable_fst)
  have e : ∀ ω, (xySite beta own stale s (s, ω) x).1 x = xyVal beta (own x) x s (s x) ω := fun ω => by
    have h1 := congrArg (fun z : SpinState L R => z.1 x) (xySite_cur beta own stale (s, ω) x)
    simp only [update_self] at h1
    exact h1
  simp only [e]
  rw [h, ← xyNew_lintegral hs]
  congr 1
  refine lintegral_congr fun a => ?_
  simp only [lintegral_const, measure_univ, mul_one]
  refine (accept_lintegral _ (Real.exp_pos _).le _ _).trans ?_
  rw [xyAction_update hL, show -beta * xyDelta s x (s x) a = -(xyAction beta s - beta * (nbCos s x (xyNew (s x) a) - nbCos s x (s x)) - xyAction beta s) by
    unfold xyDelta; ring]

/-- **C88 (xy).** The same for xy on one rank, with nonnegative `beta`. -/
theorem C88_xy_partial (hL : ∀ d, Even (L d)) {beta : ℝ} (hb : 0 ≤ beta) (stale : ℕ → PSite L → Fin 2 → Bool → Bool)
    (vis : ℕ → Parity → List (PSite L)) (hvis : ∀ j p, ∀ x ∈ vis j p, VisitsPar p x) (k : ℕ) :
    MeasurePreserving (xyUpdates beta stale vis k 0 .even) ((boltzmann (xyAngles L) (xyAction beta)).prod (rankStreams Unit))
      ((boltzmann (xyAngles L) (xyAction beta)).prod (rankStreams Unit)) := by
  have : ∀ k j p, (p = .even ∨ p = .odd) → MeasurePreserving (xyUpdates beta stale vis k j p)
      ((boltzmann (xyAngles L) (xyAction beta)).prod (rankStreams Unit)) ((boltzmann (xyAngles L) (xyAction beta)).prod (rankStreams Unit)) := by
    intro k
    induction k with
    | zero => intro j p _; exact MeasurePreserving.id _
    | succ k ih =>
      intro j p hp
      have h1 := xyLoop_preserving hL hb (fun _ => ()) (stale j) hp (vis j p) (hvis j p)
      have : SFinite (boltzmann (xyAngles L) (xyAction beta)) := by unfold boltzmann xyAngles; infer_instance
      have h2 := drawState_preserving (boltzmann (xyAngles L) (xyAction beta)) ()
      have h3 : ∀ a : ℝ, MeasurePreserving (xyUpdates beta stale vis k (j + 1) (if a < 0.5 then oppParity p else p))
          ((boltzmann (xyAngles L) (xyAction beta)).prod (rankStreams Unit)) ((boltzmann (xyAngles L) (xyAction beta)).prod (rankStreams Unit)) := fun a => by
        split
        · exact ih _ _ (oppParity_eo hp)
        · exact ih _ _ hp
      have h4 : Measurable (uncurry fun (a : ℝ) st => xyUpdates beta stale vis k (j + 1) (if a < 0.5 then oppParity p else p) st) := by
        have e : (uncurry fun (a : ℝ) st => xyUpdates beta stale vis k (j + 1) (if a < 0.5 then oppParity p else p) st) =
            fun z : ℝ × SpinState L Unit => if z.1 < 0.5 then xyUpdates beta stale vis k (j + 1) (oppParity p) z.2 else xyUpdates beta stale vis k (j + 1) p z.2 := by
          funext z
          simp only [uncurry]
          split <;> rfl
        rw [e]
        exact Measurable.ite (measurableSet_lt measurable_fst measurable_const) ((ih _ _ (oppParity_eo hp)).measurable.comp measurable_snd)
          ((ih _ _ hp).measurable.comp measurable_snd)
      have h5 := (MeasurePreserving.id unif01).skew_product h4 (Filter.Eventually.of_forall fun a => (h3 a).map_eq)
      exact measurePreserving_snd.comp (h5.comp (h2.comp h1))
  exact this k 0 .even (Or.inl rfl)

/-- **C88 is false for xy on more ranks.** Every rank draws its own parity for the next loop. On two ranks they are different with probability 1/2, and then the loop
visits neighbouring sites of the two ranks at the same time. -/
theorem C88_xy_ranks_wrong (p : Parity) (hp : p = .even ∨ p = .odd) :
    rankStreams Bool {ω | xyRankParity p ω false ≠ xyRankParity p ω true} = 1 / 2 ∧
      ∀ ω : Bool → ℕ → ℝ, xyRankParity p ω false ≠ xyRankParity p ω true → ∀ (L : Fin 2 → ℕ) [∀ d, NeZero (L d)], (∀ d, Even (L d)) →
        ∀ (own : PSite L → Bool) (x : PSite L) (d : Fin 2), own x ≠ own (x + unitStep d) → VisitsPar (xyRankParity p ω (own x)) x →
          VisitsPar (xyRankParity p ω (own (x + unitStep d))) (x + unitStep d) := by
  have hne : oppParity p ≠ p := by rcases hp with rfl | rfl <;> decide
  have hpar : ∀ (ω : Bool → ℕ → ℝ) r, xyRankParity p ω r = if ω r 0 < 0.5 then oppParity p else p := fun ω r => by
    unfold xyRankParity xyParity drawAt; rfl
  have hopp : ∀ q : Parity, (q = .even ∨ q = .odd) → oppParity (oppParity q) = q := by rintro q (rfl | rfl) <;> rfl
  constructor
  · have hset : {ω : Bool → ℕ → ℝ | xyRankParity p ω false ≠ xyRankParity p ω true} =
        Set.univ.pi (fun r => if r = false then {u : ℕ → ℝ | u 0 < 0.5} else {u | ¬ u 0 < 0.5}) ∪
          Set.univ.pi (fun r => if r = false then {u : ℕ → ℝ | ¬ u 0 < 0.5} else {u | u 0 < 0.5}) := by
      ext ω
      simp only [Set.mem_ofPred_eq, hpar, Set.mem_union, Set.mem_univ_pi, Bool.forall_bool, if_true, Bool.true_eq_false, if_false]
      by_cases h1 : ω false 0 < 0.5 <;> by_cases h2 : ω true 0 < 0.5 <;> simp [h1, h2, hne, hne.symm]
    have hm1 : MeasurableSet {u : ℕ → ℝ | u 0 < 0.5} := measurableSet_lt (measurable_pi_apply 0) measurable_const
    have hfst : MeasurePreserving (fun u : ℕ → ℝ => u 0) uniformStream unif01 := measurePreserving_fst.comp stream_next
    have hp1 : uniformStream {u : ℕ → ℝ | u 0 < 0.5} = 1 / 2 := by
      have h := hfst.measure_preimage (measurableSet_Iio (a := (0.5 : ℝ))).nullMeasurableSet
      refine Eq.trans h ?_
      have e : Set.Iio (0.5 : ℝ) ∩ Set.Ico 0 1 = Set.Ico 0 0.5 := by
        ext t
        simp only [Set.mem_inter_iff, Set.mem_Iio, Set.mem_Ico]
        constructor
        · rintro ⟨h1, h2, h3⟩; exact ⟨h2, h1⟩
        · rintro ⟨h1, h2⟩; exact ⟨h2, h1, by norm_num at h2 ⊢; linarith⟩
      unfold unif01
      rw [Measure.restrict_apply measurableSet_Iio, e, Real.volume_Ico, show (0.5 : ℝ) - 0 = 1 / 2 by norm_num, ENNReal.ofReal_div_of_pos two_pos]
      simp
    have hp2 : uniformStream {u : ℕ → ℝ | ¬ u 0 < 0.5} = 1 / 2 := by
      have h := prob_compl_eq_one_sub (μ := uniformStream) hm1
      rw [hp1] at h
      refine Eq.trans (by rfl) (h.trans ?_)
      simp
    rw [hset, measure_union]
    · unfold rankStreams
      rw [Measure.pi_pi, Measure.pi_pi, Fintype.prod_bool, Fintype.prod_bool]
      simp only [Bool.true_eq_false, if_true, if_false, hp1, hp2]
      rw [← mul_add, ENNReal.add_halves, mul_one]
    · rw [Set.disjoint_left]
      intro ω h1 h2
      have h1' := h1 false (Set.mem_univ _)
      have h2' := h2 false (Set.mem_univ _)
      simp only [if_true] at h1' h2'
      exact h2' h1'
    · refine MeasurableSet.univ_pi fun r => ?_
      split
      · exact hm1.compl
      · exact hm1
  · intro ω hω L _ hL own x d hown hx
    have hq : ∀ r, xyRankParity p ω r = .even ∨ xyRankParity p ω r = .odd := fun r => by
      rw [hpar]
      split
      · exact oppParity_eo hp
      · exact hp
    have hd : xyRankParity p ω (own (x + unitStep d)) = oppParity (xyRankParity p ω (own x)) := by
      have h1 : xyRankParity p ω (own (x + unitStep d)) ≠ xyRankParity p ω (own x) := by
        intro h
        apply hω
        revert hown h
        cases own x <;> cases own (x + unitStep d) <;> simp [eq_comm]
      rcases hq (own x) with h2 | h2 <;> rcases hq (own (x + unitStep d)) with h3 | h3 <;> rw [h2, h3] at h1 ⊢ <;> first | rfl | exact absurd rfl h1
    rw [hd]
    exact (visits_fwd (Or.inr hL) x d).2 hx

instance exExtents (d : Fin 2) : NeZero (![4, 6] d) := ⟨by fin_cases d <;> simp⟩

/-- The sites of a parity on a lattice of 4 by 6 sites. -/
noncomputable def exSites (p : Parity) : List (PSite ![4, 6]) := by
  classical exact ((Finset.univ : Finset (PSite ![4, 6])).filter (VisitsPar p)).toList

theorem exSites_ok (p : Parity) : ∀ x ∈ exSites p, VisitsPar p x := by
  intro x hx
  unfold exSites at hx
  simpa using hx

/-- Two ranks that share a lattice of 4 by 6 sites, all neighbours of other ranks read from halos, 100 loops. -/
example : MeasurePreserving (isingUpdates 0.4 (fun x : PSite ![4, 6] => decide ((x 0).val < 2))
      (fun _ x d up => d = 0 ∧ (if up then (x 0).val % 2 = 1 else (x 0).val % 2 = 0)) (fun _ => exSites) 100 0 .even)
    ((boltzmann (isingSpins ![4, 6]) (isingAction 0.4)).prod (rankStreams Bool)) ((boltzmann (isingSpins ![4, 6]) (isingAction 0.4)).prod (rankStreams Bool)) :=
  C88_ising (fun d => by fin_cases d <;> decide) _ _ _ _ (fun _ => exSites_ok) 100

example : MeasurePreserving (xyUpdates 1 (fun _ _ _ _ => false) (fun _ => exSites) 100 0 .even)
    ((boltzmann (xyAngles ![4, 6]) (xyAction 1)).prod (rankStreams Unit)) ((boltzmann (xyAngles ![4, 6]) (xyAction 1)).prod (rankStreams Unit)) :=
  C88_xy_partial (fun d => by fin_cases d <;> decide) zero_le_one _ _ (fun _ => exSites_ok) 100

/-- All spins are 1: turning one costs `8 beta`. -/
example : rankStreams Bool {ω | (isingSite 0.4 (fun _ : PSite ![4, 6] => true) (fun _ _ _ => false) (fun _ => 1) (fun _ => 1, ω) 0).1 = update (fun _ => 1) 0 (-1)} =
    ENNReal.ofReal (min 1 (Real.exp (-(isingAction 0.4 (update (fun _ : PSite ![4, 6] => (1 : ℝ)) 0 (-1)) - isingAction (L := ![4, 6]) 0.4 fun _ => 1)))) :=
  C88_ising_accept (fun d => by fin_cases d <;> decide) 0.4 _ _ (fun _ => 1) 0 one_ne_zero

example : ENNReal.ofReal (2 * Real.pi) * ∫⁻ ω, ENNReal.ofReal |(xySite 1 (fun _ : PSite ![4, 6] => true) (fun _ _ _ => false) (fun _ => 0) (fun _ => 0, ω) 0).1 0|
      ∂rankStreams Bool = ∫⁻ t in Set.Icc (-Real.pi) Real.pi,
    (ENNReal.ofReal (min 1 (Real.exp (-(xyAction 1 (update (fun _ : PSite ![4, 6] => (0 : ℝ)) 0 t) - xyAction (L := ![4, 6]) 1 fun _ => 0)))) * ENNReal.ofReal |t| +
      ENNReal.ofReal (1 - min 1 (Real.exp (-(xyAction 1 (update (fun _ : PSite ![4, 6] => (0 : ℝ)) 0 t) - xyAction (L := ![4, 6]) 1 fun _ => 0)))) * ENNReal.ofReal |0|) :=
  C88_xy_accept (fun d => by fin_cases d <;> decide) zero_le_one _ _ (fun _ => 0) 0 ⟨by linarith [Real.pi_pos], Real.pi_pos.le⟩ (fun t => ENNReal.ofReal |t|) (by fun_prop)

example : rankStreams Bool {ω | xyRankParity .even ω false ≠ xyRankParity .even ω true} = 1 / 2 := (C88_xy_ranks_wrong .even (Or.inl rfl)).1


end Hila
