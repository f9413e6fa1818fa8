import Verif.Lemmas.GaugeChain
import Verif.Props.HeatBath
import Verif.Props.Shuffle

/-!
# C89: the updates of suN_gauge.cpp keep the distribution of Wilson's action
-/

set_option linter.unusedSectionVars false

namespace Hila

open MeasureTheory ProbabilityTheory Set Matrix Function
open scoped ENNReal

variable {R : Type} [Fintype R] [DecidableEq R] {n : ℕ} {L : Fin n → ℕ} [∀ d, NeZero (L d)] {N : ℕ}

/-- All numbers are at least 0 and less than 1. -/
def GoodStreams (ω : R → ℕ → ℝ) : Prop := ∀ r k, 0 ≤ ω r k ∧ ω r k < 1

/-- Matrices of group elements, with the streams. -/
def asLinks (z : (Fin n × PSite L → SUN N) × (R → ℕ → ℝ)) : LinkState L N R := (asField z.1, z.2)

theorem good_update {ω : R → ℕ → ℝ} (h : GoodStreams ω) (r : R) (k : ℕ) : GoodStreams (update ω r (shiftBy k (ω r))) := by
  intro s i
  by_cases hs : s = r
  · subst hs; rw [update_self]; exact h _ _
  · rw [update_of_ne hs]; exact h _ _

/-- The update of a link, if every hit accepts. -/
theorem linkStep_lift (hN : 0 < N) {beta : ℝ} (hb : 0 < beta) (own : PSite L → R) (relax : Bool) (d : Fin n) (staples : PSite L → Option (Mat N))
    (z : (Fin n × PSite L → SUN N) × (R → ℕ → ℝ)) (hz : GoodStreams z.2) (x : PSite L) (hs : staples x = some (stapleAt z.1 d x)) :
    guardStep (linkStep beta own relax d staples) (LinkAccepts beta own relax d staples) (asLinks z) x = (suLink beta own relax d z x).map asLinks ∧
      ∀ z', suLink beta own relax d z x = some z' → GoodStreams z'.2 ∧ ∀ i, i ≠ (d, x) → z'.1 i = z.1 i := by
  have hb3 : 0 < beta / N := div_pos hb (by exact_mod_cast hN)
  unfold guardStep linkStep suLink
  rw [hs]
  cases relax with
  | true =>
    rw [if_pos (by intro h; cases h)]
    simp only [if_true, Option.bind_some]
    show (suNOverrelax (z.1 (d, x)).1 (stapleAt z.1 d x)).map _ = _ ∧ _
    rw [suNOverrelax_eq]
    cases orHits (stapleAt z.1 d x) (subgroups N) (z.1 (d, x)) with
    | none => exact ⟨rfl, fun z' h => by cases h⟩
    | some V =>
      refine ⟨?_, fun z' h => ?_⟩
      · simp only [Option.map_some]
        unfold asLinks
        rw [asField_update]
      · simp only [Option.map_some, Option.some.injEq] at h
        subst h
        exact ⟨hz, fun i hi => update_of_ne hi _ _⟩
  | false =>
    have hspec := hitsTry_spec (z.2 (own x)) (hz (own x)) hb3 (stapleAt z.1 d x) (subgroups N) (fun pq hpq => subgroups_ne pq hpq) (z.1 (d, x)) 0
    rw [shiftBy_zero] at hspec
    have hacc : LinkAccepts beta own false d staples (asLinks z) x ↔
        HitsAccept (z.2 (own x)) (beta / N) (subgroups N) (((z.1 (d, x)).1, (z.1 (d, x)).1 * (stapleAt z.1 d x)ᴴ), 0) := by
      unfold LinkAccepts UpdateAccepts
      rw [hs]
      exact ⟨fun h => h rfl _ rfl, fun h _ S hS => Option.some.inj hS ▸ h⟩
    unfold hitsRank
    simp only [Bool.false_eq_true, if_false, Option.bind_some]
    change (@ite _ _ (Classical.propDecidable _) ((suNHeatbathRun (z.2 (own x)) beta (z.1 (d, x)).1 (stapleAt z.1 d x)).map _) none) = _ ∧ _
    unfold suNHeatbathRun
    cases ht : hitsTry (beta / N) (stapleAt z.1 d x) (subgroups N) (z.1 (d, x)) (z.2 (own x)) with
    | none =>
      rw [ht] at hspec
      refine ⟨?_, fun z' h => by cases h⟩
      rcases hspec with h | h
      · rw [h]; split <;> rfl
      · rw [if_neg (fun hc => h (hacc.1 hc))]; rfl
    | some y =>
      rw [ht] at hspec
      obtain ⟨h1, h2⟩ := hspec
      rw [if_pos (hacc.2 h2), h1]
      refine ⟨?_, fun z' h => ?_⟩
      · simp only [Option.map_some, Nat.zero_add]
        unfold asLinks
        rw [asField_update]
        rfl
      · simp only [Option.map_some, Option.some.injEq] at h
        subst h
        exact ⟨good_update hz _ _, fun i hi => update_of_ne hi _ _⟩

theorem dir_lift (hL : ∀ d, Even (L d)) (hn : 2 ≤ n) (hN : 0 < N) {beta : ℝ} (hb : 0 < beta) (own : PSite L → R) (relax : Bool)
    (vis : Fin n × Bool → List (PSite L)) (dp : Fin n × Bool) (hvis : ∀ x ∈ vis dp, VisitsPar (parityOf dp.2) x)
    (z : (Fin n × PSite L → SUN N) × (R → ℕ → ℝ)) (hz : GoodStreams z.2) :
    guardStep (updateParityDir beta own relax vis) (ParityDirAccepts beta own relax vis) (asLinks z) dp = (suDir beta own relax vis z dp).map asLinks ∧
      ∀ z', suDir beta own relax vis z dp = some z' → GoodStreams z'.2 := by
  have h := foldlM_lift (asLinks (R := R) (L := L) (N := N))
    (fun w => GoodStreams w.2 ∧ (∀ e, e ≠ dp.1 → ∀ y, w.1 (e, y) = z.1 (e, y)) ∧ ∀ y, ¬ VisitsPar (parityOf dp.2) y → w.1 (dp.1, y) = z.1 (dp.1, y))
    (guardStep (linkStep beta own relax dp.1 (staplesum (asField z.1) (fun _ => none) dp.1 (parityOf dp.2)))
      (LinkAccepts beta own relax dp.1 (staplesum (asField z.1) (fun _ => none) dp.1 (parityOf dp.2))))
    (suLink beta own relax dp.1) (vis dp) ?_ z ⟨hz, fun _ _ _ => rfl, fun _ _ => rfl⟩
  · refine ⟨?_, fun z' hz' => (h.2 z' hz').1⟩
    rw [suDir, ← h.1, ← foldlM_guard]
    rfl
  · rintro w ⟨hw, h1, h2⟩ x hx
    have hxp := hvis x hx
    have hst : staplesum (asField z.1) (fun _ => none) dp.1 (parityOf dp.2) x = some (stapleAt w.1 dp.1 x) := by
      rw [((C33_staplesum hn (asField z.1) (fun _ => none) dp.1 (fun _ _ _ => 1) (parityOf dp.2) (Or.inr fun d => (hL d).two_dvd) x).1 hxp).1]
      rw [stapleAt_congr hL dp.2 w.1 z.1 dp.1 x hxp h1 h2]
      rfl
    obtain ⟨h3, h4⟩ := linkStep_lift hN hb own relax dp.1 _ w hw x hst
    refine ⟨h3, fun w' hw' => ?_⟩
    obtain ⟨h5, h6⟩ := h4 w' hw'
    refine ⟨h5, fun e he y => ?_, fun y hy => ?_⟩
    · rw [h6 _ (fun hc => he (congrArg Prod.fst hc)), h1 e he y]
    · rw [h6 _ (fun hc => hy (by rw [show y = x from congrArg Prod.snd hc]; exact hxp)), h2 y hy]

theorem sweep_lift (hL : ∀ d, Even (L d)) (hn : 2 ≤ n) (hN : 0 < N) {beta : ℝ} (hb : 0 < beta) (own : PSite L → R) (root : R) (relax : Bool)
    (vis : Fin n × Bool → List (PSite L)) (hvis : ∀ dp, ∀ x ∈ vis dp, VisitsPar (parityOf dp.2) x) (z : (Fin n × PSite L → SUN N) × (R → ℕ → ℝ)) (hz : GoodStreams z.2) :
    (open Classical in if SweepAccepts beta own root vis relax (asLinks z) then sweepUpdate beta own root vis relax (asLinks z) else none) =
        (suUpdate beta own root vis relax z).map asLinks ∧ ∀ z', suUpdate beta own root vis relax z = some z' → GoodStreams z'.2 := by
  classical
  cases ho : shuffledDirs n (z.2 root) with
  | none =>
    have h1 : sweepUpdate beta own root vis relax (asLinks z) = none := by
      unfold sweepUpdate
      rw [show shuffledDirs n ((asLinks z).2 root) = none from ho]
      rfl
    have h2 : suUpdate beta own root vis relax z = none := by
      unfold suUpdate
      rw [ho]
      rfl
    rw [h1, h2]
    exact ⟨by split <;> rfl, fun z' h => by cases h⟩
  | some order =>
    have hz2 : GoodStreams (fun r => shiftBy (2 * n - 1) (z.2 r)) := fun r k => hz r _
    have h := foldlM_lift (asLinks (R := R) (L := L) (N := N)) (fun w => GoodStreams w.2)
      (guardStep (updateParityDir beta own relax vis) (ParityDirAccepts beta own relax vis)) (suDir beta own relax vis) order
      (fun w hw dp _ => dir_lift hL hn hN hb own relax vis dp (hvis dp) w hw) (z.1, fun r => shiftBy (2 * n - 1) (z.2 r)) hz2
    have h1 : sweepUpdate beta own root vis relax (asLinks z) =
        order.foldlM (updateParityDir beta own relax vis) (asLinks (z.1, fun r => shiftBy (2 * n - 1) (z.2 r))) := by
      unfold sweepUpdate
      rw [show shuffledDirs n ((asLinks z).2 root) = some order from ho]
      rfl
    have h2 : suUpdate beta own root vis relax z = order.foldlM (suDir beta own relax vis) (z.1, fun r => shiftBy (2 * n - 1) (z.2 r)) := by
      unfold suUpdate
      rw [ho]
      rfl
    have e : SweepAccepts beta own root vis relax (asLinks z) ↔ AllSteps (updateParityDir beta own relax vis) (ParityDirAccepts beta own relax vis) order
        (asLinks (z.1, fun r => shiftBy (2 * n - 1) (z.2 r))) := by
      unfold SweepAccepts
      exact ⟨fun h => h _ ho, fun h o ho' => by
        have := Option.some.inj (ho.symm.trans ho')
        exact this ▸ h⟩
    rw [h2]
    refine ⟨?_, h.2⟩
    rw [← h.1, ← foldlM_guard]
    exact if_congr e h1 rfl

/-- All updates of a trajectory on group elements. -/
noncomputable def suTrajectory (beta : ℝ) (own : PSite L → R) (root : R) (vis : ℕ → Fin n × Bool → List (PSite L)) (nUpdate nRelax : ℕ)
    (z : (Fin n × PSite L → SUN N) × (R → ℕ → ℝ)) : Option ((Fin n × PSite L → SUN N) × (R → ℕ → ℝ)) :=
  (trajectoryOps nUpdate nRelax).zipIdx.foldlM (fun z op => suUpdate beta own root (vis op.2) op.1 z) z

theorem trajectory_lift (hL : ∀ d, Even (L d)) (hn : 2 ≤ n) (hN : 0 < N) {beta : ℝ} (hb : 0 < beta) (own : PSite L → R) (root : R)
    (vis : ℕ → Fin n × Bool → List (PSite L)) (hvis : ∀ k dp, ∀ x ∈ vis k dp, VisitsPar (parityOf dp.2) x) (nUpdate nRelax : ℕ)
    (z : (Fin n × PSite L → SUN N) × (R → ℕ → ℝ)) (hz : GoodStreams z.2) :
    (open Classical in if TrajectoryAccepts beta own root vis nUpdate nRelax (asLinks z) then gaugeTrajectory beta own root vis nUpdate nRelax (asLinks z) else none) =
      (suTrajectory beta own root vis nUpdate nRelax z).map asLinks := by
  classical
  have h := foldlM_lift (asLinks (R := R) (L := L) (N := N)) (fun w => GoodStreams w.2)
    (guardStep (fun s (op : Bool × ℕ) => sweepUpdate beta own root (vis op.2) op.1 s) (fun s op => SweepAccepts beta own root (vis op.2) op.1 s))
    (fun z (op : Bool × ℕ) => suUpdate beta own root (vis op.2) op.1 z) (trajectoryOps nUpdate nRelax).zipIdx
    (fun w hw op _ => sweep_lift hL hn hN hb own root op.1 (vis op.2) (hvis op.2) w hw) z hz
  have h1 := h.1
  rw [← foldlM_guard] at h1
  unfold suTrajectory gaugeTrajectory TrajectoryAccepts
  by_cases ha : AllSteps (fun s op => sweepUpdate beta own root (vis op.2) op.1 s) (fun s op => SweepAccepts beta own root (vis op.2) op.1 s)
    (trajectoryOps nUpdate nRelax).zipIdx (asLinks z)
  · rw [if_pos ha] at h1
    rw [if_pos ha, h1]
    cases (trajectoryOps nUpdate nRelax).zipIdx.foldlM (fun z op => suUpdate beta own root (vis op.2) op.1 z) z with
    | none => rfl
    | some w =>
      have hr : (allSome fun d x => reunitarize ((asLinks w).1 d x)) = some (asField w.1) := allSome_some fun d x => by
        have := C55_reunitarize_fixes hN (w.1 (d, x)).1 (w.1 (d, x)).2 1 one_pos
        rwa [Complex.ofReal_one, one_smul] at this
      show (Option.map _ (allSome fun d x => reunitarize ((asLinks w).1 d x))) = some (asLinks w)
      rw [hr]
      rfl
  · rw [if_neg ha] at h1
    rw [if_neg ha, h1]

theorem streams_good : ∀ᵐ ω ∂rankStreams R, GoodStreams ω := by
  unfold GoodStreams rankStreams
  rw [ae_all_iff]
  intro r
  exact (measurePreserving_eval (fun _ : R => uniformStream) r).quasiMeasurePreserving.ae stream_ae

theorem asField_injective : Injective (asField : (Fin n × PSite L → SUN N) → GField L N) := by
  intro U V h
  funext i
  exact Subtype.ext (congrFun (congrFun h i.1) i.2)

theorem wilson_prob (haar : Measure (SUN N)) [IsProbabilityMeasure haar] (beta : ℝ) :
    IsProbabilityMeasure (normalised (boltzmann (Measure.pi fun _ => haar) fun U : Fin n × PSite L → SUN N => beta * measurePlaq (asField U))) := by
  have hcont := wilson_continuous (L := L) (N := N)
  have hc : Continuous fun U : Fin n × PSite L → SUN N => Real.exp (-(beta * measurePlaq (asField U))) := by fun_prop
  have h0 : boltzmann (Measure.pi fun _ => haar) (fun U : Fin n × PSite L → SUN N => beta * measurePlaq (asField U)) univ ≠ 0 := by
    unfold boltzmann
    rw [withDensity_apply _ MeasurableSet.univ, Measure.restrict_univ, Ne, lintegral_eq_zero_iff hc.measurable.ennreal_ofReal]
    intro e
    have : ∀ᵐ _ ∂(Measure.pi fun _ : Fin n × PSite L => haar), False := by
      filter_upwards [e] with U hU
      have hp := Real.exp_pos (-(beta * measurePlaq (asField U)))
      simp only [Pi.zero_apply, ENNReal.ofReal_eq_zero] at hU
      linarith
    rw [Filter.eventually_false_iff_eq_bot, ae_eq_bot] at this
    exact IsProbabilityMeasure.ne_zero _ this
  have ht : boltzmann (Measure.pi fun _ => haar) (fun U : Fin n × PSite L → SUN N => beta * measurePlaq (asField U)) univ ≠ ⊤ := by
    unfold boltzmann
    rw [withDensity_apply _ MeasurableSet.univ, Measure.restrict_univ]
    obtain ⟨M, hM⟩ := (isCompact_range hc).bddAbove
    have : ∫⁻ U, ENNReal.ofReal (Real.exp (-(beta * measurePlaq (asField U)))) ∂(Measure.pi fun _ : Fin n × PSite L => haar) ≤
        ∫⁻ _, ENNReal.ofReal M ∂(Measure.pi fun _ : Fin n × PSite L => haar) := lintegral_mono fun U => ENNReal.ofReal_le_ofReal (hM ⟨U, rfl⟩)
    rw [lintegral_const, measure_univ, mul_one] at this
    exact ne_top_of_le_ne_top ENNReal.ofReal_ne_top this
  refine ⟨?_⟩
  unfold normalised
  rw [Measure.smul_apply, smul_eq_mul]
  exact ENNReal.inv_mul_cancel h0 ht

theorem dom_normalised {X Y : Type} [MeasurableSpace X] [MeasurableSpace Y] {μ : Measure X} {ν : Measure Y} [SFinite μ] [SFinite ν]
    {p : X × Y → Option (X × Y)} (h : DomStep (μ.prod ν) p) : DomStep ((normalised μ).prod ν) p := by
  intro F hF
  obtain ⟨h1, h2⟩ := h F hF
  refine ⟨h1, ?_⟩
  unfold normalised
  rw [Measure.prod_smul_left, lintegral_smul_measure, lintegral_smul_measure]
  exact mul_le_mul' le_rfl h2

/-- A program that, for good streams, is the given program on group elements. -/
theorem lifted_bounds (π : Measure (Fin n × PSite L → SUN N)) [IsProbabilityMeasure π]
    {p : (Fin n × PSite L → SUN N) × (R → ℕ → ℝ) → Option ((Fin n × PSite L → SUN N) × (R → ℕ → ℝ))} (hp : DomStep (π.prod (rankStreams R)) p)
    (q : LinkState L N R → Option (LinkState L N R)) (A : LinkState L N R → Prop)
    (hq : ∀ z, GoodStreams z.2 → (open Classical in if A (asLinks z) then q (asLinks z) else none) = (p z).map asLinks)
    (B : Set (Fin n × PSite L → SUN N)) (hB : MeasurableSet B) :
    (π.prod (rankStreams R)) {z | A (asField z.1, z.2) ∧ ∃ V ∈ B, ∃ ω, q (asField z.1, z.2) = some (asField V, ω)} ≤ π B ∧
      π B ≤ (π.prod (rankStreams R)) {z | A (asField z.1, z.2) ∧ ∃ V ∈ B, ∃ ω, q (asField z.1, z.2) = some (asField V, ω)} +
        (π.prod (rankStreams R)) {z | ¬ (A (asField z.1, z.2) ∧ ∃ s, q (asField z.1, z.2) = some s)} := by
  classical
  have hP : IsProbabilityMeasure (rankStreams R) := by unfold rankStreams; infer_instance
  obtain ⟨h1, h2⟩ := hp.bounds Prod.fst measurable_fst B hB
  have hBm : (π.prod (rankStreams R)) {z | z.1 ∈ B} = π B := by
    have : {z : (Fin n × PSite L → SUN N) × (R → ℕ → ℝ) | z.1 ∈ B} = B ×ˢ univ := by ext z; simp
    rw [this, Measure.prod_prod, measure_univ, mul_one]
  rw [hBm] at h1 h2
  have hgood : ∀ᵐ z ∂π.prod (rankStreams R), GoodStreams z.2 := Measure.quasiMeasurePreserving_snd.ae streams_good
  have e1 : (π.prod (rankStreams R)) {z | A (asField z.1, z.2) ∧ ∃ V ∈ B, ∃ ω, q (asField z.1, z.2) = some (asField V, ω)} =
      (π.prod (rankStreams R)) {z | ∃ y, p z = some y ∧ y.1 ∈ B} := by
    refine measure_congr (Filter.eventuallyEq_set.2 ?_)
    filter_upwards [hgood] with z hz
    have hl := hq z hz
    show (A (asLinks z) ∧ ∃ V ∈ B, ∃ ω, q (asLinks z) = some (asField V, ω)) ↔ ∃ y, p z = some y ∧ y.1 ∈ B
    constructor
    · rintro ⟨ha, V, hV, ω, hg⟩
      rw [if_pos ha, hg] at hl
      obtain ⟨y, hy, hy2⟩ := Option.map_eq_some_iff.1 hl.symm
      refine ⟨y, hy, ?_⟩
      rw [asField_injective (congrArg Prod.fst hy2)]
      exact hV
    · rintro ⟨y, hy, hyB⟩
      rw [hy] at hl
      by_cases ha : A (asLinks z)
      · rw [if_pos ha] at hl
        exact ⟨ha, y.1, hyB, y.2, hl⟩
      · rw [if_neg ha] at hl
        cases hl
  have e2 : (π.prod (rankStreams R)) {z | ¬ (A (asField z.1, z.2) ∧ ∃ s, q (asField z.1, z.2) = some s)} = (π.prod (rankStreams R)) {z | p z = none} := by
    refine measure_congr (Filter.eventuallyEq_set.2 ?_)
    filter_upwards [hgood] with z hz
    have hl := hq z hz
    show ¬ (A (asLinks z) ∧ ∃ s, q (asLinks z) = some s) ↔ p z = none
    constructor
    · intro h
      by_contra hc
      obtain ⟨y, hy⟩ := Option.ne_none_iff_exists'.1 hc
      rw [hy] at hl
      by_cases ha : A (asLinks z)
      · rw [if_pos ha] at hl
        exact h ⟨ha, _, hl⟩
      · rw [if_neg ha] at hl
        cases hl
    · rintro hy ⟨ha, s, hs⟩
      rw [if_pos ha, hy, hs] at hl
      cases hl
  rw [e1, e2]
  exact ⟨h1, h2⟩

/-- **C89 (trajectories of suN_gauge).** Let the links before a trajectory have the distribution of Wilson's action, for any number of colours, at least two
dimensions, even sizes, any positive coupling and any ownership of the sites by ranks, and let the random numbers of all ranks be independent and uniform. The
loops visit only sites of their parity, in any order. Then for every set `B` of gauge fields the probability that every hit of the heat bath accepts one of its trials
and that the new field is in `B` is at most the probability of `B` in this distribution, and it is smaller at most by the probability that there is no result or that
in some hit of the heat bath all trials fail. Missing (`_partial`): in that case the program goes on with the last trial, see
`C48_heatbath_leaves_group`. -/
theorem C89_trajectory_partial (hL : ∀ d, Even (L d)) (hn : 2 ≤ n) (hN : 0 < N) (haar : Measure (SUN N)) [IsProbabilityMeasure haar] [haar.IsMulLeftInvariant]
    {beta : ℝ} (hb : 0 < beta) (own : PSite L → R) (root : R) (vis : ℕ → Fin n × Bool → List (PSite L)) (hvis : ∀ k dp, ∀ x ∈ vis k dp, VisitsPar (parityOf dp.2) x)
    (nUpdate nRelax : ℕ) (B : Set (Fin n × PSite L → SUN N)) (hB : MeasurableSet B) :
    let π := normalised (boltzmann (Measure.pi fun _ => haar) fun U : Fin n × PSite L → SUN N => beta * measurePlaq (asField U))
    let hit := (π.prod (rankStreams R)) {z | TrajectoryAccepts beta own root vis nUpdate nRelax (asField z.1, z.2) ∧
      ∃ V ∈ B, ∃ ω, gaugeTrajectory beta own root vis nUpdate nRelax (asField z.1, z.2) = some (asField V, ω)}
    let fail := (π.prod (rankStreams R)) {z | ¬ (TrajectoryAccepts beta own root vis nUpdate nRelax (asField z.1, z.2) ∧
      ∃ s, gaugeTrajectory beta own root vis nUpdate nRelax (asField z.1, z.2) = some s)}
    IsProbabilityMeasure π ∧ hit ≤ π B ∧ π B ≤ hit + fail := by
  intro π hit fail
  have hpr : IsProbabilityMeasure π := wilson_prob haar beta
  have hS : SFinite (boltzmann (Measure.pi fun _ => haar) fun U : Fin n × PSite L → SUN N => beta * measurePlaq (asField U)) := by
    unfold boltzmann; infer_instance
  have hP : SFinite (rankStreams R) := by unfold rankStreams; infer_instance
  have hdom : DomStep (π.prod (rankStreams R)) (suTrajectory beta own root vis nUpdate nRelax) :=
    dom_normalised (DomStep.foldlM _ _ fun op _ => suUpdate_dom hL hN haar hb own root (vis op.2) op.1)
  exact ⟨hpr, lifted_bounds π hdom (gaugeTrajectory beta own root vis nUpdate nRelax) (TrajectoryAccepts beta own root vis nUpdate nRelax)
    (fun z hz => trajectory_lift hL hn hN hb own root vis hvis nUpdate nRelax z hz) B hB⟩

theorem allSteps_true {S A : Type} (step : S → A → Option S) (ok : S → A → Prop) (h : ∀ s a, ok s a) : ∀ (l : List A) (s : S), AllSteps step ok l s
  | [], _ => trivial
  | a :: l, s => ⟨h s a, fun s' _ => allSteps_true step ok h l s'⟩

/-- **C89 (sweeps of overrelaxation).** A sweep that only relaxes uses random numbers for the order of its loops, no more. There is no trial that could fail: for every
set `B` of gauge fields the probability that the new field is in `B` is at most the probability of `B` and smaller at most by the probability that there is no
result. -/
theorem C89_overrelax_sweep (hL : ∀ d, Even (L d)) (hn : 2 ≤ n) (hN : 0 < N) (haar : Measure (SUN N)) [IsProbabilityMeasure haar] [haar.IsMulLeftInvariant]
    {beta : ℝ} (hb : 0 < beta) (own : PSite L → R) (root : R) (vis : Fin n × Bool → List (PSite L)) (hvis : ∀ dp, ∀ x ∈ vis dp, VisitsPar (parityOf dp.2) x)
    (B : Set (Fin n × PSite L → SUN N)) (hB : MeasurableSet B) :
    let π := normalised (boltzmann (Measure.pi fun _ => haar) fun U : Fin n × PSite L → SUN N => beta * measurePlaq (asField U))
    let hit := (π.prod (rankStreams R)) {z | ∃ V ∈ B, ∃ ω, sweepUpdate beta own root vis true (asField z.1, z.2) = some (asField V, ω)}
    let fail := (π.prod (rankStreams R)) {z | sweepUpdate beta own root vis true (asField z.1, z.2) = none}
    hit ≤ π B ∧ π B ≤ hit + fail := by
  classical
  intro π hit fail
  have hpr : IsProbabilityMeasure π := wilson_prob haar beta
  have hS : SFinite (boltzmann (Measure.pi fun _ => haar) fun U : Fin n × PSite L → SUN N => beta * measurePlaq (asField U)) := by
    unfold boltzmann; infer_instance
  have hP : SFinite (rankStreams R) := by unfold rankStreams; infer_instance
  have hdom : DomStep (π.prod (rankStreams R)) (suUpdate beta own root vis true) := dom_normalised (suUpdate_dom hL hN haar hb own root vis true)
  have hall : ∀ s : LinkState L N R, SweepAccepts beta own root vis true s := fun s order _ =>
    allSteps_true _ _ (fun s dp => allSteps_true _ _ (fun s x h => by cases h) _ _) _ _
  have h := lifted_bounds π hdom (sweepUpdate beta own root vis true) (fun _ => True)
    (fun z hz => by rw [← (sweep_lift hL hn hN hb own root true vis hvis z hz).1, if_pos trivial, if_pos (hall _)]) B hB
  simp only [true_and] at h
  have e : {z : (Fin n × PSite L → SUN N) × (R → ℕ → ℝ) | ¬ ∃ s, sweepUpdate beta own root vis true (asField z.1, z.2) = some s} =
      {z | sweepUpdate beta own root vis true (asField z.1, z.2) = none} := by
    ext z
    show ¬ (∃ s, _) ↔ _ = none
    rw [← Option.not_isSome_iff_eq_none, Option.isSome_iff_exists]
  rw [e] at h
  exact h

theorem setLink_mem {U : GField L N} (hU : ∀ d x, U d x ∈ SUN N) (d : Fin n) (x : PSite L) {V : Mat N} (hV : V ∈ SUN N) (e : Fin n) (y : PSite L) :
    setLink U d x V e y ∈ SUN N := by
  unfold setLink
  by_cases hd : e = d
  · subst hd
    rw [update_self]
    by_cases hy : y = x
    · subst hy; rw [update_self]; exact hV
    · rw [update_of_ne hy]; exact hU _ _
  · rw [update_of_ne hd]; exact hU _ _

/-- Relaxing the links of a direction and a parity. -/
theorem relax_dir (hL : ∀ d, Even (L d)) (hn : 2 ≤ n) (beta : ℝ) (own : PSite L → R) (vis : Fin n × Bool → List (PSite L)) (dp : Fin n × Bool)
    (hvis : ∀ x ∈ vis dp, VisitsPar (parityOf dp.2) x) (t t' : LinkState L N R) (ht : ∀ d x, t.1 d x ∈ SUN N)
    (h : updateParityDir beta own true vis t dp = some t') : (∀ d x, t'.1 d x ∈ SUN N) ∧ measurePlaq t'.1 = measurePlaq t.1 := by
  have key := foldlM_some_inv (fun s : LinkState L N R => ((∀ d x, s.1 d x ∈ SUN N) ∧ measurePlaq s.1 = measurePlaq t.1) ∧
    (∀ e, e ≠ dp.1 → ∀ y, s.1 e y = t.1 e y) ∧ ∀ y, ¬ VisitsPar (parityOf dp.2) y → s.1 dp.1 y = t.1 dp.1 y)
    (linkStep beta own true dp.1 (staplesum t.1 (fun _ => none) dp.1 (parityOf dp.2))) (vis dp) t t'
    ⟨⟨ht, rfl⟩, fun _ _ _ => rfl, fun _ _ => rfl⟩ ?_ h
  · exact key.1
  intro w x w' hx hw hlink
  obtain ⟨⟨hw1, hw2⟩, hw3, hw4⟩ := hw
  have hxp := hvis x hx
  have hst : staplesum t.1 (fun _ => none) dp.1 (parityOf dp.2) x = some (stapleSpec (fun _ _ => 1) w.1 dp.1 x) := by
    rw [((C33_staplesum hn t.1 (fun _ => none) dp.1 (fun _ _ _ => 1) (parityOf dp.2) (Or.inr fun d => (hL d).two_dvd) x).1 hxp).1]
    have e := stapleAt_congr hL dp.2 (fun i => ⟨w.1 i.1 i.2, hw1 i.1 i.2⟩) (fun i => ⟨t.1 i.1 i.2, ht i.1 i.2⟩) dp.1 x hxp
      (fun e he y => Subtype.ext (hw3 e he y)) (fun y hy => Subtype.ext (hw4 y hy))
    exact congrArg some e.symm
  unfold linkStep at hlink
  rw [hst] at hlink
  simp only [Option.bind_some, if_true] at hlink
  obtain ⟨V, hV, rfl⟩ := Option.map_eq_some_iff.1 hlink
  obtain ⟨hVu, hVs⟩ := C29_overrelax_partial _ _ _ (hw1 dp.1 x) hV
  refine ⟨⟨setLink_mem hw1 dp.1 x hVu, ?_⟩, fun e he y => ?_, fun y hy => ?_⟩
  · show measurePlaq (setLink w.1 dp.1 x V) = measurePlaq t.1
    rw [measurePlaq_update hL, Matrix.sub_mul, Matrix.trace_sub, Complex.sub_re, hVs, sub_self, zero_div, sub_zero, hw2]
  · show update w.1 dp.1 _ e y = _
    rw [update_of_ne he]; exact hw3 e he y
  · show update w.1 dp.1 (update (w.1 dp.1) x V) dp.1 y = _
    rw [update_self, update_of_ne (fun hc => hy (by rw [hc]; exact hxp))]
    exact hw4 y hy

/-- **C89 (overrelaxation keeps the action).** Whatever the random numbers, if a sweep that relaxes has a result then its links are in SU(N) and the sum of all
plaquettes is the same as before, for every state and not only on the average. -/
theorem C89_relax_keeps_action (hL : ∀ d, Even (L d)) (hn : 2 ≤ n) (beta : ℝ) (own : PSite L → R) (root : R) (vis : Fin n × Bool → List (PSite L))
    (hvis : ∀ dp, ∀ x ∈ vis dp, VisitsPar (parityOf dp.2) x) (U : GField L N) (hU : ∀ d x, U d x ∈ SUN N) (ω : R → ℕ → ℝ) (s : LinkState L N R)
    (h : sweepUpdate beta own root vis true (U, ω) = some s) : (∀ d x, s.1 d x ∈ SUN N) ∧ measurePlaq s.1 = measurePlaq U := by
  unfold sweepUpdate at h
  obtain ⟨order, _, h⟩ := Option.bind_eq_some_iff.1 h
  refine foldlM_some_inv (fun s : LinkState L N R => (∀ d x, s.1 d x ∈ SUN N) ∧ measurePlaq s.1 = measurePlaq U) (updateParityDir beta own true vis) order
    (U, fun r k => ω r (2 * n - 1 + k)) s ⟨hU, rfl⟩ ?_ h
  rintro t dp t' _ ⟨ht1, ht2⟩ hstep
  obtain ⟨h1, h2⟩ := relax_dir hL hn beta own vis dp (hvis dp) t t' ht1 hstep
  exact ⟨h1, h2.trans ht2⟩

/-- A hit on a positive multiple of the unit matrix. -/
theorem overrelaxHit_unit (c : ℝ) (hc : 0 < c) (pq : Fin N × Fin N) (hpq : pq.1 ≠ pq.2) :
    overrelaxHit ((1 : Mat N), (c : ℂ) • (1 : Mat N)) pq = some (1, (c : ℂ) • 1) := by
  have hp : SU2.projectFromMatrix ((c : ℂ) • (1 : Mat N)) pq.1 pq.2 = ⟨0, 0, 0, c⟩ := by
    unfold SU2.projectFromMatrix
    ext <;> simp [hpq, hpq.symm]
    norm_num
    ring
  have hs : Real.sqrt (SU2.det ⟨0, 0, 0, c⟩) = c := by
    unfold SU2.det
    rw [show (0 : ℝ) * 0 + 0 * 0 + 0 * 0 + c * c = c ^ 2 by ring, Real.sqrt_sq hc.le]
  have hone : ∀ A : Mat N, multBy2x2Left A pq.1 pq.2 (⟨0, 0, 0, 1⟩ : SU2).toMatrix = A := by
    intro A
    funext r i
    unfold multBy2x2Left SU2.toMatrix
    by_cases h1 : r = pq.2
    · subst h1
      simp [show (⟨0, 0⟩ : ℂ) = 0 from rfl, show (⟨1, 0⟩ : ℂ) = 1 from rfl]
    · by_cases h2 : r = pq.1
      · subst h2
        simp [hpq, show (⟨0, 0⟩ : ℂ) = 0 from rfl, show (⟨1, 0⟩ : ℂ) = 1 from rfl]
      · simp [h1, h2]
  unfold overrelaxHit SU2.normalize
  simp only [hp, hs, if_neg hc.ne']
  unfold SU2.div
  simp only [zero_div, div_self hc.ne', mul_one, zero_mul, sub_zero]
  rw [hone, hone]

/-- **C89 (a sweep has a result).** From unit links, and with numbers in [0, 1), a sweep that relaxes gives unit links; every rank has used `2 n - 1` numbers. -/
theorem C89_relax_unit (hL : ∀ d, Even (L d)) (hn : 2 ≤ n) (beta : ℝ) (own : PSite L → R) (root : R) (vis : Fin n × Bool → List (PSite L))
    (hvis : ∀ dp, ∀ x ∈ vis dp, VisitsPar (parityOf dp.2) x) (ω : R → ℕ → ℝ) (hω : ∀ r k, 0 ≤ ω r k ∧ ω r k < 1) :
    sweepUpdate beta own root vis true ((fun _ _ => 1 : GField L N), ω) = some ((fun _ _ => 1), fun r k => ω r (2 * n - 1 + k)) := by
  obtain ⟨order, ho, _⟩ := C21_shuffle_perm (dirParities n) (fun j => ⌊((j : ℝ) + 1) * ω root (2 * n - 1 - j)⌋₊) fun j => by
    have h := hω root (2 * n - 1 - j)
    have : ⌊((j : ℝ) + 1) * ω root (2 * n - 1 - j)⌋₊ < j + 1 := by
      rw [Nat.floor_lt (mul_nonneg (by positivity) h.1)]
      push_cast
      nlinarith [h.2, (Nat.cast_nonneg j : (0 : ℝ) ≤ j)]
    omega
  have hfix : ∀ {S A : Type} (f : S → A → Option S) (l : List A) (s : S) (_ : ∀ a ∈ l, f s a = some s), l.foldlM f s = some s := by
    intro S A f l s
    induction l with
    | nil => intro _; rfl
    | cons a l ih =>
      intro hf
      rw [List.foldlM_cons, hf a List.mem_cons_self]
      exact ih fun b hb => hf b (List.mem_cons_of_mem _ hb)
  unfold sweepUpdate shuffledDirs
  rw [ho]
  refine hfix _ _ _ fun dp _ => hfix _ _ _ fun x hx => ?_
  have hst : stapleSpec (fun _ _ => 1) (fun _ _ => 1 : GField L N) dp.1 x = ((2 * (n - 1) : ℝ) : ℂ) • 1 := by
    unfold stapleSpec
    simp only [Complex.ofReal_one, one_smul, Matrix.conjTranspose_one, Matrix.mul_one]
    rw [Finset.sum_const, Finset.card_erase_of_mem (Finset.mem_univ _), Finset.card_univ, Fintype.card_fin, ← Nat.cast_smul_eq_nsmul ℂ, Nat.cast_sub (by omega),
      ← two_smul ℂ (1 : Mat N), smul_smul]
    congr 1
    push_cast
    ring
  unfold linkStep
  rw [((C33_staplesum hn _ (fun _ => none) dp.1 (fun _ _ _ => 1) (parityOf dp.2) (Or.inr fun d => (hL d).two_dvd) x).1 (hvis dp x hx)).1, hst]
  have hc : (0 : ℝ) < 2 * (n - 1) := by
    have : (2 : ℝ) ≤ n := by exact_mod_cast hn
    linarith
  have hor : suNOverrelax (1 : Mat N) (((2 * (n - 1) : ℝ) : ℂ) • 1) = some 1 := by
    unfold suNOverrelax
    rw [Matrix.conjTranspose_smul, Matrix.conjTranspose_one, Matrix.one_mul, Complex.star_def, Complex.conj_ofReal,
      hfix overrelaxHit (subgroups N) _ fun pq hpq => overrelaxHit_unit _ hc pq (subgroups_ne pq hpq)]
    rfl
  simp only [Option.bind_some, if_true]
  rw [hor]
  show some (setLink _ dp.1 x 1, _) = _
  congr 2
  unfold setLink
  rw [update_eq_self_iff.2 rfl]
  exact update_eq_self_iff.2 rfl

/-- An update with the right staple is an update with the staple of the present links. -/
theorem linkStep_fresh (beta : ℝ) (own : PSite L → R) (relax : Bool) (d : Fin n) (staples : PSite L → Option (Mat N)) (s : LinkState L N R) (x : PSite L)
    (hs : staples x = some (stapleSpec (fun _ _ => 1) s.1 d x)) : linkStep beta own relax d staples s x = linkFresh beta own relax s (d, x) := by
  have hS : stapleSpec (fun _ _ => 1) s.1 d x = ∑ e ∈ Finset.univ.erase d, (s.1 e x * s.1 d (x + Pi.single e 1) * (s.1 e (x + Pi.single d 1)).conjTranspose +
      (s.1 e (x - Pi.single e 1)).conjTranspose * s.1 d (x - Pi.single e 1) * s.1 e (x - Pi.single e 1 + Pi.single d 1)) := by
    unfold stapleSpec
    simp only [Complex.ofReal_one, one_smul]
  have hset : ∀ V : Mat N, setLink s.1 d x V = fun e y => if e = d ∧ y = x then V else s.1 e y := by
    intro V
    funext e y
    unfold setLink
    by_cases he : e = d
    · subst he
      rw [update_self]
      by_cases hy : y = x
      · subst hy; simp
      · rw [update_of_ne hy]; simp [hy]
    · rw [update_of_ne he]; simp [he]
  have hupd : ∀ m : ℕ, update s.2 (own x) (fun k => s.2 (own x) (m + k)) = fun r k => if r = own x then s.2 r (m + k) else s.2 r k := by
    intro m
    funext r k
    by_cases hr : r = own x
    · subst hr; rw [update_self, if_pos rfl]
    · rw [update_of_ne hr, if_neg hr]
  unfold linkStep linkFresh
  rw [hs, hS]
  simp only [Option.bind_some, hset, hupd]

theorem foldlM_flatMap {S A B : Type} (f : S → B → Option S) (g : A → List B) (l : List A) (s : S) :
    (l.flatMap g).foldlM f s = l.foldlM (fun s a => (g a).foldlM f s) s := by
  induction l generalizing s with
  | nil => rfl
  | cons a l ih =>
    rw [List.flatMap_cons, List.foldlM_append, List.foldlM_cons]
    congr 1
    funext t
    exact ih t

theorem dir_fresh (hL : ∀ d, Even (L d)) (hn : 2 ≤ n) (beta : ℝ) (own : PSite L → R) (relax : Bool) (vis : Fin n × Bool → List (PSite L)) (dp : Fin n × Bool)
    (hvis : ∀ x ∈ vis dp, VisitsPar (parityOf dp.2) x) (s : LinkState L N R) :
    updateParityDir beta own relax vis s dp = ((vis dp).map fun x => (dp.1, x)).foldlM (linkFresh beta own relax) s := by
  unfold updateParityDir
  rw [List.foldlM_map]
  have key := foldlM_lift (id : LinkState L N R → LinkState L N R)
    (fun w => (∀ e, e ≠ dp.1 → w.1 e = s.1 e) ∧ ∀ y, ¬ VisitsPar (parityOf dp.2) y → w.1 dp.1 y = s.1 dp.1 y)
    (linkStep beta own relax dp.1 (staplesum s.1 (fun _ => none) dp.1 (parityOf dp.2))) (fun w x => linkFresh beta own relax w (dp.1, x)) (vis dp) ?_ s
    ⟨fun _ _ => rfl, fun _ _ => rfl⟩
  · simpa using key.1
  rintro w ⟨h1, h2⟩ x hx
  have hxp := hvis x hx
  refine ⟨?_, fun w' hw' => ?_⟩
  · rw [Option.map_id_fun, id, id, linkStep_fresh]
    rw [((C33_staplesum hn s.1 (fun _ => none) dp.1 (fun _ _ _ => 1) (parityOf dp.2) (Or.inr fun d => (hL d).two_dvd) x).1 hxp).1,
      stapleSpec_congr hL dp.2 w.1 s.1 dp.1 x hxp h1 h2]
  · have hw : ∃ V, w'.1 = fun d y => if d = dp.1 ∧ y = x then V else w.1 d y := by
      unfold linkFresh at hw'
      split at hw'
      · obtain ⟨V, _, rfl⟩ := Option.map_eq_some_iff.1 hw'
        exact ⟨V, rfl⟩
      · obtain ⟨V, _, rfl⟩ := Option.map_eq_some_iff.1 hw'
        exact ⟨V.1, rfl⟩
    obtain ⟨V, hV⟩ := hw
    rw [hV]
    refine ⟨fun e he => ?_, fun y hy => ?_⟩
    · funext y
      show (if e = dp.1 ∧ y = x then V else w.1 e y) = _
      rw [if_neg (fun h => he h.1)]
      exact congrFun (h1 e he) y
    · show (if dp.1 = dp.1 ∧ y = x then V else w.1 dp.1 y) = _
      rw [if_neg (fun h => hy (by rw [h.2]; exact hxp))]
      exact h2 y hy

/-- **C89 (a sweep updates every link once).** For numbers in [0, 1) and loops that visit every site of their parity once, a sweep is a sequence of updates of single
links, each with the staple of the links as they are at its turn, in which every link of the lattice has exactly one turn. -/
theorem C89_sweep_sequential (hL : ∀ d, Even (L d)) (hn : 2 ≤ n) (beta : ℝ) (own : PSite L → R) (root : R) (relax : Bool) (vis : Fin n × Bool → List (PSite L))
    (hvis : ∀ dp, (vis dp).Nodup ∧ ∀ x, x ∈ vis dp ↔ VisitsPar (parityOf dp.2) x) (U : GField L N) (ω : R → ℕ → ℝ) (hω : ∀ k, 0 ≤ ω root k ∧ ω root k < 1) :
    ∃ links : List (Fin n × PSite L), links.Nodup ∧ (∀ l, l ∈ links) ∧
      sweepUpdate beta own root vis relax (U, ω) = links.foldlM (linkFresh beta own relax) (U, fun r k => ω r (2 * n - 1 + k)) := by
  obtain ⟨order, ho, hperm⟩ := C21_shuffle_perm (dirParities n) (fun j => ⌊((j : ℝ) + 1) * ω root (2 * n - 1 - j)⌋₊) fun j => by
    have h := hω (2 * n - 1 - j)
    have : ⌊((j : ℝ) + 1) * ω root (2 * n - 1 - j)⌋₊ < j + 1 := by
      rw [Nat.floor_lt (mul_nonneg (by positivity) h.1)]
      push_cast
      nlinarith [h.2, (Nat.cast_nonneg j : (0 : ℝ) ≤ j)]
    omega
  have hnd : order.Nodup := by
    rw [hperm.nodup_iff]
    unfold dirParities
    rw [List.nodup_flatMap]
    refine ⟨fun d _ => by simp, ?_⟩
    apply List.Pairwise.imp_of_mem _ (List.nodup_finRange n)
    intro a b _ _ hab
    simp [Function.onFun, hab.symm]
  have hmem : ∀ dp, dp ∈ order := by
    rintro ⟨d, b⟩
    rw [hperm.mem_iff]
    unfold dirParities
    refine List.mem_flatMap.2 ⟨d, List.mem_finRange d, ?_⟩
    cases b <;> simp
  have hone : ∀ (x : PSite L) (b c : Bool), VisitsPar (parityOf b) x → VisitsPar (parityOf c) x → b = c := by
    intro x b c h1 h2
    cases b <;> cases c <;> first | rfl | (simp [parityOf, VisitsPar] at h1 h2; omega)
  refine ⟨order.flatMap fun dp => (vis dp).map fun x => (dp.1, x), ?_, ?_, ?_⟩
  · rw [List.nodup_flatMap]
    refine ⟨fun dp _ => (hvis dp).1.map fun x y h => congrArg Prod.snd h, ?_⟩
    apply List.Pairwise.imp_of_mem _ hnd
    intro a b _ _ hab
    rw [Function.onFun, List.disjoint_left]
    intro l h1 h2
    obtain ⟨x, hx, rfl⟩ := List.mem_map.1 h1
    obtain ⟨y, hy, e⟩ := List.mem_map.1 h2
    obtain ⟨e1, e2⟩ := Prod.mk.inj e
    subst e2
    exact hab (Prod.ext e1.symm (hone y a.2 b.2 (((hvis a).2 y).1 hx) (((hvis b).2 y).1 hy)))
  · rintro ⟨d, x⟩
    obtain ⟨b, hb⟩ := exists_parity x
    exact List.mem_flatMap.2 ⟨(d, b), hmem _, List.mem_map.2 ⟨x, ((hvis (d, b)).2 x).2 hb, rfl⟩⟩
  · rw [foldlM_flatMap]
    unfold sweepUpdate shuffledDirs
    rw [ho, Option.bind_some]
    congr 1
    funext s dp
    exact dir_fresh hL hn beta own relax vis dp (fun x hx => ((hvis dp).2 x).1 hx) s

/-- **C89 (the heat bath of the sweeps).** The new link is that of the heat bath of C87. -/
theorem C89_heatbath_run (rnd : ℕ → ℝ) (beta : ℝ) (U S : Mat N) : (suNHeatbathRun rnd beta U S).map Prod.fst = suNHeatbath rnd beta U S := by
  unfold suNHeatbathRun suNHeatbath
  rw [Option.map_map]
  rfl

/-- **C89 (the sweeps of a trajectory).** A trajectory has `nUpdate` rounds of `nRelax` sweeps of overrelaxation and one of heat bath. -/
theorem C89_trajectory_sweeps (nUpdate nRelax i : ℕ) :
    (trajectoryOps nUpdate nRelax)[i]? = if i < nUpdate * (nRelax + 1) then some (decide (i % (nRelax + 1) ≠ nRelax)) else none := by
  induction nUpdate generalizing i with
  | zero => simp [trajectoryOps]
  | succ k ih =>
    have e : trajectoryOps (k + 1) nRelax = (List.replicate nRelax true ++ [false]) ++ trajectoryOps k nRelax := by
      unfold trajectoryOps
      rw [List.replicate_succ, List.flatten_cons]
    rw [e, List.getElem?_append]
    have hlen : (List.replicate nRelax true ++ [false]).length = nRelax + 1 := by simp
    rw [hlen]
    by_cases h : i < nRelax + 1
    · rw [if_pos h, if_pos (by nlinarith), Nat.mod_eq_of_lt h, List.getElem?_append, List.length_replicate]
      by_cases h2 : i < nRelax
      · rw [if_pos h2, List.getElem?_replicate, if_pos h2, decide_eq_true h2.ne]
      · have : i = nRelax := by omega
        subst this
        simp
    · rw [if_neg h, ih]
      obtain ⟨j, rfl⟩ : ∃ j, i = j + (nRelax + 1) := ⟨i - (nRelax + 1), by omega⟩
      rw [Nat.add_sub_cancel, Nat.add_mod_right]
      have : j + (nRelax + 1) < (k + 1) * (nRelax + 1) ↔ j < k * (nRelax + 1) := by
        rw [add_mul, one_mul]; omega
      simp only [this]

instance gaugeExtents (d : Fin 2) : NeZero (![4, 6] d) := ⟨by fin_cases d <;> simp⟩

/-- The sites of a parity on a lattice of 4 by 6 sites. -/
noncomputable def gaugeSites (p : Parity) : List (PSite ![4, 6]) := by
  classical exact ((Finset.univ : Finset (PSite ![4, 6])).filter (VisitsPar p)).toList

theorem gaugeSites_ok (p : Parity) : ∀ x ∈ gaugeSites p, VisitsPar p x := by
  intro x hx
  unfold gaugeSites at hx
  simpa using hx

theorem gaugeSites_all (p : Parity) : (gaugeSites p).Nodup ∧ ∀ x, x ∈ gaugeSites p ↔ VisitsPar p x := by
  unfold gaugeSites
  exact ⟨Finset.nodup_toList _, fun x => by simp⟩

/-- A sweep of heat bath on 4 by 6 sites. -/
example : ∃ links : List (Fin 2 × PSite ![4, 6]), links.Nodup ∧ (∀ l, l ∈ links) ∧
    sweepUpdate 6 (fun x : PSite ![4, 6] => decide ((x 0).val < 2)) true (fun dp => gaugeSites (parityOf dp.2)) false ((fun _ _ => 1 : GField ![4, 6] 3), fun _ _ => 1 / 2) =
      links.foldlM (linkFresh 6 (fun x : PSite ![4, 6] => decide ((x 0).val < 2)) false) ((fun _ _ => 1 : GField ![4, 6] 3), fun _ _ => 1 / 2) :=
  C89_sweep_sequential (fun d => by fin_cases d <;> decide) le_rfl 6 _ true false _ (fun dp => gaugeSites_all _) _ _ (fun _ => by norm_num)

/-- Unit links, all random numbers 1/2: the sweep has a result and its action is that of the unit links. -/
example : ∃ s, sweepUpdate 6 (fun x : PSite ![4, 6] => decide ((x 0).val < 2)) true (fun dp => gaugeSites (parityOf dp.2)) true
    ((fun _ _ => 1 : GField ![4, 6] 3), fun _ _ => 1 / 2) = some s ∧ measurePlaq s.1 = measurePlaq (fun _ _ => 1 : GField ![4, 6] 3) := by
  have hL : ∀ d, Even ((![4, 6] : Fin 2 → ℕ) d) := fun d => by fin_cases d <;> decide
  have h := C89_relax_unit (N := 3) hL le_rfl 6 (fun x => decide ((x 0).val < 2)) true (fun dp => gaugeSites (parityOf dp.2)) (fun _ => gaugeSites_ok _)
    (fun _ _ => 1 / 2) (fun _ _ => by norm_num)
  exact ⟨_, h, (C89_relax_keeps_action hL le_rfl 6 _ true _ (fun _ => gaugeSites_ok _) _ (fun _ _ => one_mem _) _ _ h).2⟩

/-- SU(3) on 4 by 6 sites that two ranks share: 2 updates, each with 3 sweeps of overrelaxation. -/
example : ∃ haar : Measure (SUN 3), IsProbabilityMeasure haar ∧ haar.IsMulLeftInvariant ∧
    let π := normalised (boltzmann (Measure.pi fun _ => haar) fun U : Fin 2 × PSite ![4, 6] → SUN 3 => 6 * measurePlaq (asField U))
    IsProbabilityMeasure π ∧ ∀ B : Set (Fin 2 × PSite ![4, 6] → SUN 3), MeasurableSet B →
      π B ≤ (π.prod (rankStreams Bool)) {z | TrajectoryAccepts 6 (fun x => decide ((x 0).val < 2)) true (fun _ dp => gaugeSites (parityOf dp.2)) 2 3 (asField z.1, z.2) ∧
        ∃ V ∈ B, ∃ ω, gaugeTrajectory 6 (fun x => decide ((x 0).val < 2)) true (fun _ dp => gaugeSites (parityOf dp.2)) 2 3 (asField z.1, z.2) = some (asField V, ω)} +
        (π.prod (rankStreams Bool)) {z | ¬ (TrajectoryAccepts 6 (fun x => decide ((x 0).val < 2)) true (fun _ dp => gaugeSites (parityOf dp.2)) 2 3 (asField z.1, z.2) ∧
          ∃ s, gaugeTrajectory 6 (fun x => decide ((x 0).val < 2)) true (fun _ dp => gaugeSites (parityOf dp.2)) 2 3 (asField z.1, z.2) = some s)} := by
  obtain ⟨haar, h1, h2⟩ := exists_haar 3
  refine ⟨haar, h1, h2, ?_⟩
  have h := fun B hB => C89_trajectory_partial (L := ![4, 6]) (fun d => by fin_cases d <;> decide) le_rfl three_pos haar (beta := 6) (by norm_num)
    (fun x => decide ((x 0).val < 2)) true (fun _ dp => gaugeSites (parityOf dp.2)) (fun _ dp => gaugeSites_ok _) 2 3 B hB
  exact ⟨(h univ MeasurableSet.univ).1, fun B hB => (h B hB).2.2⟩

end Hila
