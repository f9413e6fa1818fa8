import Verif.Lemmas.SurfPlaq
import Verif.Props.GaugeUpdate

/-!
# Lemmas for C92: updates of links for an action that is linear in every link
-/

set_option linter.unusedSectionVars false

namespace Hila

open MeasureTheory ProbabilityTheory Set Matrix Function
open scoped ENNReal

variable {R : Type} [Fintype R] [DecidableEq R] {n : ℕ} {L : Fin n → ℕ} [∀ d, NeZero (L d)] {N : ℕ}

/-- An action of the links and the matrices `S` that multiply one link in it. -/
structure LinearAction (A : (Fin n × PSite L → SUN N) → ℝ) (S : (Fin n × PSite L → SUN N) → Fin n → PSite L → Mat N) : Prop where
  upd : ∀ U d x (c : SUN N), A (update U (d, x) c) = A U - ((c.1 - (U (d, x)).1) * (S U d x).conjTranspose).trace.re / N
  congr : ∀ (b : Bool) U V d x, VisitsPar (parityOf b) x → (∀ e, e ≠ d → ∀ y, U (e, y) = V (e, y)) → (∀ y, ¬ VisitsPar (parityOf b) y → U (d, y) = V (d, y)) →
    S U d x = S V d x
  contA : Continuous A
  contS : ∀ d x, Continuous fun U => S U d x

variable {A : (Fin n × PSite L → SUN N) → ℝ} {S : (Fin n × PSite L → SUN N) → Fin n → PSite L → Mat N}

theorem LinearAction.self (h : LinearAction A S) (U : Fin n × PSite L → SUN N) (d : Fin n) (x : PSite L) (c : SUN N) : S (update U (d, x) c) d x = S U d x := by
  obtain ⟨b, hb⟩ := exists_parity x
  refine h.congr b _ _ d x hb (fun e he y => ?_) (fun y hy => ?_)
  · exact update_of_ne (fun h => he (congrArg Prod.fst h)) _ _
  · exact update_of_ne (fun h => hy (by rw [show y = x from congrArg Prod.snd h]; exact hb)) _ _

theorem LinearAction.weight (h : LinearAction A S) (beta : ℝ) (U : Fin n × PSite L → SUN N) (d : Fin n) (x : PSite L) : ∃ K : ℝ≥0∞, K ≠ ⊤ ∧ ∀ c : SUN N,
    ENNReal.ofReal (Real.exp (-(beta * A (update U (d, x) c)))) = K * linkWeight (beta / N) (S U d x) c := by
  refine ⟨ENNReal.ofReal (Real.exp (-(beta * (A U + ((U (d, x)).1 * (S U d x).conjTranspose).trace.re / N)))), ENNReal.ofReal_ne_top, fun c => ?_⟩
  unfold linkWeight
  rw [← ENNReal.ofReal_mul (Real.exp_pos _).le, ← Real.exp_add, h.upd, Matrix.sub_mul, Matrix.trace_sub, Complex.sub_re]
  congr 2
  ring

theorem LinearAction.entries (h : LinearAction A S) (d : Fin n) (x : PSite L) (i j : Fin N) : Measurable fun U : Fin n × PSite L → SUN N => S U d x i j :=
  ((h.contS d x).matrix_elem i j).measurable

/-- The update of a link with its current staple. -/
noncomputable def suLinkA (S : (Fin n × PSite L → SUN N) → Fin n → PSite L → Mat N) (beta : ℝ) (own : PSite L → R) (relax : Bool) (d : Fin n) (z : (Fin n × PSite L → SUN N) × (R → ℕ → ℝ)) (x : PSite L) :
    Option ((Fin n × PSite L → SUN N) × (R → ℕ → ℝ)) :=
  if relax then ((orHits (S z.1 d x) (subgroups N) (z.1 (d, x))).map fun V => (V, z.2)).map fun y => (update z.1 (d, x) y.1, y.2)
  else (hitsRank (beta / N) (S z.1 d x) (subgroups N) (own x) (z.1 (d, x)) z.2).map fun y => (update z.1 (d, x) y.1, y.2)

noncomputable def suDirA (S : (Fin n × PSite L → SUN N) → Fin n → PSite L → Mat N) (beta : ℝ) (own : PSite L → R) (relax : Bool) (vis : Fin n × Bool → List (PSite L)) (z : (Fin n × PSite L → SUN N) × (R → ℕ → ℝ))
    (dp : Fin n × Bool) : Option ((Fin n × PSite L → SUN N) × (R → ℕ → ℝ)) :=
  (vis dp).foldlM (suLinkA S beta own relax dp.1) z

noncomputable def suUpdateA (S : (Fin n × PSite L → SUN N) → Fin n → PSite L → Mat N) (beta : ℝ) (own : PSite L → R) (root : R) (vis : Fin n × Bool → List (PSite L)) (relax : Bool)
    (z : (Fin n × PSite L → SUN N) × (R → ℕ → ℝ)) : Option ((Fin n × PSite L → SUN N) × (R → ℕ → ℝ)) :=
  (shuffledDirs n (z.2 root)).bind fun order => order.foldlM (suDirA S beta own relax vis) (z.1, fun r => shiftBy (2 * n - 1) (z.2 r))

theorem suLinkA_dom (hA : LinearAction A S) (hN : 0 < N) (haar : Measure (SUN N)) [IsProbabilityMeasure haar] [haar.IsMulLeftInvariant] {beta : ℝ} (hb : 0 < beta)
    (own : PSite L → R) (relax : Bool) (d : Fin n) (x : PSite L) :
    DomStep ((boltzmann (Measure.pi fun _ => haar) fun U => beta * A U).prod (rankStreams R)) fun z => suLinkA S beta own relax d z x := by
  have : SFinite (rankStreams R) := by unfold rankStreams; infer_instance
  have hb3 : 0 < beta / N := div_pos hb (by exact_mod_cast hN)
  have hW : Measurable fun U : Fin n × PSite L → SUN N => ENNReal.ofReal (Real.exp (-(beta * A U))) := by
    have := hA.contA
    have h2 : Continuous fun U : Fin n × PSite L → SUN N => Real.exp (-(beta * A U)) := by fun_prop
    exact h2.measurable.ennreal_ofReal
  have hev : Measurable fun U : Fin n × PSite L → SUN N => U (d, x) := measurable_pi_apply (d, x)
  have hl : ∀ pq ∈ subgroups N, pq.1 ≠ pq.2 := fun pq hpq => subgroups_ne pq hpq
  unfold boltzmann
  cases relax with
  | true =>
    refine site_dom (fun _ => haar) (rankStreams R) _ hW (d, x)
      (fun U ω => (orHits (S U d x) (subgroups N) (U (d, x))).map fun V => (V, ω)) (fun F hF => ?_) (fun U F hF => ?_)
    · simp only [atResult_map]
      exact orHits_meas (subgroups N) (P := (Fin n × PSite L → SUN N) × (R → ℕ → ℝ)) (fun z => z.1 (d, x)) (hev.comp measurable_fst) (fun z => S z.1 d x)
        (fun i j => (hA.entries d x i j).comp measurable_fst) (fun z V => F z.1 (V, z.2))
        (hF.comp ((measurable_fst.comp measurable_fst).prodMk (measurable_snd.prodMk (measurable_snd.comp measurable_fst))))
    · obtain ⟨K, hK, hWK⟩ := hA.weight beta U d x
      have hG : Measurable fun V => ∫⁻ ω, F (V, ω) ∂rankStreams R := hF.lintegral_prod_right'
      have e : ∀ c, ∫⁻ ω, atResult F ((orHits (S (update U (d, x) c) d x) (subgroups N) (update U (d, x) c (d, x))).map fun V => (V, ω)) ∂rankStreams R =
          atResult (fun V => ∫⁻ ω, F (V, ω) ∂rankStreams R) (orHits (S U d x) (subgroups N) c) := by
        intro c
        rw [hA.self, update_self]
        cases orHits (S U d x) (subgroups N) c with
        | none => simp [atResult]
        | some V => rfl
      simp only [e, hWK, mul_assoc]
      rw [lintegral_const_mul' _ _ hK, lintegral_const_mul' _ _ hK]
      exact mul_le_mul' le_rfl (orHits_dom haar (beta / N) (S U d x) (subgroups N) hl _ hG)
  | false =>
    refine site_dom (fun _ => haar) (rankStreams R) _ hW (d, x)
      (fun U ω => hitsRank (beta / N) (S U d x) (subgroups N) (own x) (U (d, x)) ω) (fun F hF => ?_) (fun U F hF => ?_)
    · exact hitsRank_meas (beta / N) (subgroups N) (own x) (fun U : Fin n × PSite L → SUN N => U (d, x)) hev (fun U => S U d x)
        (fun i j => hA.entries d x i j) F hF
    · obtain ⟨K, hK, hWK⟩ := hA.weight beta U d x
      simp only [hA.self, update_self, hWK, mul_assoc]
      rw [lintegral_const_mul' _ _ hK, lintegral_const_mul' _ _ hK]
      exact mul_le_mul' le_rfl (hitsRank_dom haar hb3 (S U d x) (subgroups N) hl (own x) F hF)

theorem suUpdateA_dom (hA : LinearAction A S) (hN : 0 < N) (haar : Measure (SUN N)) [IsProbabilityMeasure haar] [haar.IsMulLeftInvariant] {beta : ℝ} (hb : 0 < beta)
    (own : PSite L → R) (root : R) (vis : Fin n × Bool → List (PSite L)) (relax : Bool) :
    DomStep ((boltzmann (Measure.pi fun _ => haar) fun U => beta * A U).prod (rankStreams R)) (suUpdateA S beta own root vis relax) := by
  let : MeasurableSpace (Option (List (Fin n × Bool))) := ⊤
  have : DiscreteMeasurableSpace (Option (List (Fin n × Bool))) := ⟨fun _ => trivial⟩
  have : SFinite (boltzmann (Measure.pi fun _ : Fin n × PSite L => haar) fun U => beta * A U) := by unfold boltzmann; infer_instance
  refine dom_choice _ root (2 * n - 1) (shuffledDirs n) (shuffledDirs_measurable n) (shuffledDirs_congr n)
    (fun o z => o.bind fun order => order.foldlM (suDirA S beta own relax vis) z) fun o => ?_
  cases o with
  | none =>
    intro F hF
    exact ⟨measurable_const, by simp [atResult]⟩
  | some order =>
    exact DomStep.foldlM _ order fun dp _ => DomStep.foldlM _ (vis dp) fun x _ => suLinkA_dom hA hN haar hb own relax dp.1 x

theorem linkStepA_lift (hN : 0 < N) {beta : ℝ} (hb : 0 < beta) (own : PSite L → R) (relax : Bool) (d : Fin n) (staples : PSite L → Option (Mat N))
    (z : (Fin n × PSite L → SUN N) × (R → ℕ → ℝ)) (hz : GoodStreams z.2) (x : PSite L) (hs : staples x = some (S z.1 d x)) :
    guardStep (linkStep beta own relax d staples) (LinkAccepts beta own relax d staples) (asLinks z) x = (suLinkA S beta own relax d z x).map asLinks ∧
      ∀ z', suLinkA S beta own relax d z x = some z' → GoodStreams z'.2 ∧ ∀ i, i ≠ (d, x) → z'.1 i = z.1 i := by
  have hb3 : 0 < beta / N := div_pos hb (by exact_mod_cast hN)
  unfold guardStep linkStep suLinkA
  rw [hs]
  cases relax with
  | true =>
    rw [if_pos (by intro h; cases h)]
    simp only [if_true, Option.bind_some]
    show (suNOverrelax (z.1 (d, x)).1 (S z.1 d x)).map _ = _ ∧ _
    rw [suNOverrelax_eq]
    cases orHits (S z.1 d x) (subgroups N) (z.1 (d, x)) with
    | none => exact ⟨rfl, fun z' h => by cases h⟩
    | some V =>
      refine ⟨?_, fun z' h => ?_⟩
      · simp only [Option.map_some]
        unfold asLinks
        rw [asField_update]
      · simp only [Option.map_some, Option.some.injEq] at h
        subst h
        exact ⟨hz, fun i hi => update_of_ne hi _ _⟩
  | false =>
    have hspec := hitsTry_spec (z.2 (own x)) (hz (own x)) hb3 (S z.1 d x) (subgroups N) (fun pq hpq => subgroups_ne pq hpq) (z.1 (d, x)) 0
    rw [shiftBy_zero] at hspec
    have hacc : LinkAccepts beta own false d staples (asLinks z) x ↔
        HitsAccept (z.2 (own x)) (beta / N) (subgroups N) (((z.1 (d, x)).1, (z.1 (d, x)).1 * (S z.1 d x)ᴴ), 0) := by
      unfold LinkAccepts UpdateAccepts
      rw [hs]
      exact ⟨fun h => h rfl _ rfl, fun h _ S hS => Option.some.inj hS ▸ h⟩
    unfold hitsRank
    simp only [Bool.false_eq_true, if_false, Option.bind_some]
    change (@ite _ _ (Classical.propDecidable _) ((suNHeatbathRun (z.2 (own x)) beta (z.1 (d, x)).1 (S z.1 d x)).map _) none) = _ ∧ _
    unfold suNHeatbathRun
    cases ht : hitsTry (beta / N) (S z.1 d x) (subgroups N) (z.1 (d, x)) (z.2 (own x)) with
    | none =>
      rw [ht] at hspec
      refine ⟨?_, fun z' h => by cases h⟩
      rcases hspec with h | h
      · rw [h]; split <;> rfl
      · rw [if_neg (fun hc => h (hacc.1 hc))]; rfl
    | some y =>
      rw [ht] at hspec
      obtain ⟨h1, h2⟩ := hspec
      rw [if_pos (hacc.2 h2), h1]
      refine ⟨?_, fun z' h => ?_⟩
      · simp only [Option.map_some, Nat.zero_add]
        unfold asLinks
        rw [asField_update]
        rfl
      · simp only [Option.map_some, Option.some.injEq] at h
        subst h
        exact ⟨good_update hz _ _, fun i hi => update_of_ne hi _ _⟩

theorem dirA_lift (hA : LinearAction A S) (st : GField L N → Fin n → Parity → PSite L → Option (Mat N))
    (hst : ∀ U : Fin n × PSite L → SUN N, ∀ d b x, VisitsPar (parityOf b) x → st (asField U) d (parityOf b) x = some (S U d x)) (hN : 0 < N) {beta : ℝ} (hb : 0 < beta) (own : PSite L → R) (relax : Bool)
    (vis : Fin n × Bool → List (PSite L)) (dp : Fin n × Bool) (hvis : ∀ x ∈ vis dp, VisitsPar (parityOf dp.2) x)
    (z : (Fin n × PSite L → SUN N) × (R → ℕ → ℝ)) (hz : GoodStreams z.2) :
    guardStep (dirUpdate st beta own relax vis) (DirAccepts st beta own relax vis) (asLinks z) dp = (suDirA S beta own relax vis z dp).map asLinks ∧
      ∀ z', suDirA S beta own relax vis z dp = some z' → GoodStreams z'.2 := by
  have h := foldlM_lift (asLinks (R := R) (L := L) (N := N))
    (fun w => GoodStreams w.2 ∧ (∀ e, e ≠ dp.1 → ∀ y, w.1 (e, y) = z.1 (e, y)) ∧ ∀ y, ¬ VisitsPar (parityOf dp.2) y → w.1 (dp.1, y) = z.1 (dp.1, y))
    (guardStep (linkStep beta own relax dp.1 (st (asField z.1) dp.1 (parityOf dp.2)))
      (LinkAccepts beta own relax dp.1 (st (asField z.1) dp.1 (parityOf dp.2))))
    (suLinkA S beta own relax dp.1) (vis dp) ?_ z ⟨hz, fun _ _ _ => rfl, fun _ _ => rfl⟩
  · refine ⟨?_, fun z' hz' => (h.2 z' hz').1⟩
    rw [suDirA, ← h.1, ← foldlM_guard]
    rfl
  · rintro w ⟨hw, h1, h2⟩ x hx
    have hxp := hvis x hx
    have hst2 : st (asField z.1) dp.1 (parityOf dp.2) x = some (S w.1 dp.1 x) := by
      rw [hst z.1 dp.1 dp.2 x hxp, hA.congr dp.2 w.1 z.1 dp.1 x hxp h1 h2]
    obtain ⟨h3, h4⟩ := linkStepA_lift (S := S) hN hb own relax dp.1 _ w hw x hst2
    refine ⟨h3, fun w' hw' => ?_⟩
    obtain ⟨h5, h6⟩ := h4 w' hw'
    refine ⟨h5, fun e he y => ?_, fun y hy => ?_⟩
    · rw [h6 _ (fun hc => he (congrArg Prod.fst hc)), h1 e he y]
    · rw [h6 _ (fun hc => hy (by rw [show y = x from congrArg Prod.snd hc]; exact hxp)), h2 y hy]

theorem sweepA_lift (hA : LinearAction A S) (st : GField L N → Fin n → Parity → PSite L → Option (Mat N))
    (hst : ∀ U : Fin n × PSite L → SUN N, ∀ d b x, VisitsPar (parityOf b) x → st (asField U) d (parityOf b) x = some (S U d x)) (hN : 0 < N) {beta : ℝ} (hb : 0 < beta) (own : PSite L → R) (root : R) (relax : Bool)
    (vis : Fin n × Bool → List (PSite L)) (hvis : ∀ dp, ∀ x ∈ vis dp, VisitsPar (parityOf dp.2) x) (z : (Fin n × PSite L → SUN N) × (R → ℕ → ℝ)) (hz : GoodStreams z.2) :
    (open Classical in if SurfSweepAccepts st beta own root vis relax (asLinks z) then surfUpdate st beta own root vis relax (asLinks z) else none) =
        (suUpdateA S beta own root vis relax z).map asLinks ∧ ∀ z', suUpdateA S beta own root vis relax z = some z' → GoodStreams z'.2 := by
  classical
  cases ho : shuffledDirs n (z.2 root) with
  | none =>
    have h1 : surfUpdate st beta own root vis relax (asLinks z) = none := by
      unfold surfUpdate
      rw [show shuffledDirs n ((asLinks z).2 root) = none from ho]
      rfl
    have h2 : suUpdateA S beta own root vis relax z = none := by
      unfold suUpdateA
      rw [ho]
      rfl
    rw [h1, h2]
    exact ⟨by split <;> rfl, fun z' h => by cases h⟩
  | some order =>
    have hz2 : GoodStreams (fun r => shiftBy (2 * n - 1) (z.2 r)) := fun r k => hz r _
    have h := foldlM_lift (asLinks (R := R) (L := L) (N := N)) (fun w => GoodStreams w.2)
      (guardStep (dirUpdate st beta own relax vis) (DirAccepts st beta own relax vis)) (suDirA S beta own relax vis) order
      (fun w hw dp _ => dirA_lift hA st hst hN hb own relax vis dp (hvis dp) w hw) (z.1, fun r => shiftBy (2 * n - 1) (z.2 r)) hz2
    have h1 : surfUpdate st beta own root vis relax (asLinks z) =
        order.foldlM (dirUpdate st beta own relax vis) (asLinks (z.1, fun r => shiftBy (2 * n - 1) (z.2 r))) := by
      unfold surfUpdate
      rw [show shuffledDirs n ((asLinks z).2 root) = some order from ho]
      rfl
    have h2 : suUpdateA S beta own root vis relax z = order.foldlM (suDirA S beta own relax vis) (z.1, fun r => shiftBy (2 * n - 1) (z.2 r)) := by
      unfold suUpdateA
      rw [ho]
      rfl
    have e : SurfSweepAccepts st beta own root vis relax (asLinks z) ↔ AllSteps (dirUpdate st beta own relax vis) (DirAccepts st beta own relax vis) order
        (asLinks (z.1, fun r => shiftBy (2 * n - 1) (z.2 r))) := by
      unfold SurfSweepAccepts
      exact ⟨fun h => h _ ho, fun h o ho' => by
        have := Option.some.inj (ho.symm.trans ho')
        exact this ▸ h⟩
    rw [h2]
    refine ⟨?_, h.2⟩
    rw [← h.1, ← foldlM_guard]
    exact if_congr e h1 rfl

/-- All updates of a trajectory on group elements. -/
noncomputable def suTrajectoryA (S : (Fin n × PSite L → SUN N) → Fin n → PSite L → Mat N) (beta : ℝ) (own : PSite L → R) (root : R) (vis : ℕ → Fin n × Bool → List (PSite L)) (nUpdate nRelax : ℕ)
    (z : (Fin n × PSite L → SUN N) × (R → ℕ → ℝ)) : Option ((Fin n × PSite L → SUN N) × (R → ℕ → ℝ)) :=
  (trajectoryOps nUpdate nRelax).zipIdx.foldlM (fun z op => suUpdateA S beta own root (vis op.2) op.1 z) z

theorem trajectoryA_lift (ez : Fin n) (deltab : ℝ) (hA : LinearAction A S)
    (hst : ∀ U : Fin n × PSite L → SUN N, ∀ d b x, VisitsPar (parityOf b) x → surfStaples ez deltab (asField U) d (parityOf b) x = some (S U d x)) (hN : 0 < N) {beta : ℝ} (hb : 0 < beta) (own : PSite L → R) (root : R)
    (vis : ℕ → Fin n × Bool → List (PSite L)) (hvis : ∀ k dp, ∀ x ∈ vis k dp, VisitsPar (parityOf dp.2) x) (nUpdate nRelax : ℕ)
    (z : (Fin n × PSite L → SUN N) × (R → ℕ → ℝ)) (hz : GoodStreams z.2) :
    (open Classical in if SurfTrajectoryAccepts ez deltab beta own root vis nUpdate nRelax (asLinks z) then surfTrajectory ez deltab beta own root vis nUpdate nRelax (asLinks z) else none) =
      (suTrajectoryA S beta own root vis nUpdate nRelax z).map asLinks := by
  classical
  have h := foldlM_lift (asLinks (R := R) (L := L) (N := N)) (fun w => GoodStreams w.2)
    (guardStep (fun s (op : Bool × ℕ) => surfUpdate (surfStaples ez deltab) beta own root (vis op.2) op.1 s) (fun s op => SurfSweepAccepts (surfStaples ez deltab) beta own root (vis op.2) op.1 s))
    (fun z (op : Bool × ℕ) => suUpdateA S beta own root (vis op.2) op.1 z) (trajectoryOps nUpdate nRelax).zipIdx
    (fun w hw op _ => sweepA_lift hA _ hst hN hb own root op.1 (vis op.2) (hvis op.2) w hw) z hz
  have h1 := h.1
  rw [← foldlM_guard] at h1
  unfold suTrajectoryA surfTrajectory SurfTrajectoryAccepts
  by_cases ha : AllSteps (fun s op => surfUpdate (surfStaples ez deltab) beta own root (vis op.2) op.1 s) (fun s op => SurfSweepAccepts (surfStaples ez deltab) beta own root (vis op.2) op.1 s)
    (trajectoryOps nUpdate nRelax).zipIdx (asLinks z)
  · rw [if_pos ha] at h1
    rw [if_pos ha, h1]
    cases (trajectoryOps nUpdate nRelax).zipIdx.foldlM (fun z op => suUpdateA S beta own root (vis op.2) op.1 z) z with
    | none => rfl
    | some w =>
      have hr : (allSome fun d x => reunitarize ((asLinks w).1 d x)) = some (asField w.1) := allSome_some fun d x => by
        have := C55_reunitarize_fixes hN (w.1 (d, x)).1 (w.1 (d, x)).2 1 one_pos
        rwa [Complex.ofReal_one, one_smul] at this
      show (Option.map _ (allSome fun d x => reunitarize ((asLinks w).1 d x))) = some (asLinks w)
      rw [hr]
      rfl
  · rw [if_neg ha] at h1
    rw [if_neg ha, h1]

theorem LinearAction.prob (hA : LinearAction A S) (haar : Measure (SUN N)) [IsProbabilityMeasure haar] (beta : ℝ) :
    IsProbabilityMeasure (normalised (boltzmann (Measure.pi fun _ => haar) fun U : Fin n × PSite L → SUN N => beta * A U)) := by
  have hcont := hA.contA
  have hc : Continuous fun U : Fin n × PSite L → SUN N => Real.exp (-(beta * A U)) := by fun_prop
  have h0 : boltzmann (Measure.pi fun _ => haar) (fun U : Fin n × PSite L → SUN N => beta * A U) univ ≠ 0 := by
    unfold boltzmann
    rw [withDensity_apply _ MeasurableSet.univ, Measure.restrict_univ, Ne, lintegral_eq_zero_iff hc.measurable.ennreal_ofReal]
    intro e
    have : ∀ᵐ _ ∂(Measure.pi fun _ : Fin n × PSite L => haar), False := by
      filter_upwards [e] with U hU
      have hp := Real.exp_pos (-(beta * A U))
      simp only [Pi.zero_apply, ENNReal.ofReal_eq_zero] at hU
      linarith
    rw [Filter.eventually_false_iff_eq_bot, ae_eq_bot] at this
    exact IsProbabilityMeasure.ne_zero _ this
  have ht : boltzmann (Measure.pi fun _ => haar) (fun U : Fin n × PSite L → SUN N => beta * A U) univ ≠ ⊤ := by
    unfold boltzmann
    rw [withDensity_apply _ MeasurableSet.univ, Measure.restrict_univ]
    obtain ⟨M, hM⟩ := (isCompact_range hc).bddAbove
    have : ∫⁻ U, ENNReal.ofReal (Real.exp (-(beta * A U))) ∂(Measure.pi fun _ : Fin n × PSite L => haar) ≤
        ∫⁻ _, ENNReal.ofReal M ∂(Measure.pi fun _ : Fin n × PSite L => haar) := lintegral_mono fun U => ENNReal.ofReal_le_ofReal (hM ⟨U, rfl⟩)
    rw [lintegral_const, measure_univ, mul_one] at this
    exact ne_top_of_le_ne_top ENNReal.ofReal_ne_top this
  refine ⟨?_⟩
  unfold normalised
  rw [Measure.smul_apply, smul_eq_mul]
  exact ENNReal.inv_mul_cancel h0 ht

end Hila
