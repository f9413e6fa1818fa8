import Verif.Lemmas.HeatParam
import Verif.Lemmas.PlaqSplit
import Verif.Model.GaugeUpdSpec
import Verif.Props.HmcSample
import Mathlib.MeasureTheory.Function.Floor

/-!
# Lemmas for C89: updates of links of a lattice as steps on group elements
-/

set_option linter.unusedSectionVars false

namespace Hila

open MeasureTheory ProbabilityTheory Set Matrix Function
open scoped ENNReal

variable {R : Type} [Fintype R] [DecidableEq R] {n : ℕ} {L : Fin n → ℕ} [∀ d, NeZero (L d)] {N : ℕ}

/-! ### Folds with conditions -/

open Classical in
/-- A step that is only taken under a condition. -/
noncomputable def guardStep {S A : Type} (step : S → A → Option S) (ok : S → A → Prop) (s : S) (a : A) : Option S := if ok s a then step s a else none

open Classical in
theorem foldlM_guard {S A : Type} (step : S → A → Option S) (ok : S → A → Prop) (l : List A) (s : S) :
    (if AllSteps step ok l s then l.foldlM step s else none) = l.foldlM (guardStep step ok) s := by
  induction l generalizing s with
  | nil => exact if_pos trivial
  | cons a l ih =>
    rw [List.foldlM_cons, List.foldlM_cons]
    unfold guardStep
    by_cases h : ok s a
    · rw [if_pos h]
      cases hs : step s a with
      | none =>
        show (if _ then none else none) = none
        split <;> rfl
      | some t =>
        show (if AllSteps step ok (a :: l) s then l.foldlM step t else none) = l.foldlM (guardStep step ok) t
        rw [← ih t]
        have : AllSteps step ok (a :: l) s ↔ AllSteps step ok l t :=
          ⟨fun h1 => h1.2 t hs, fun h1 => ⟨h, fun s' hs' => by rw [hs] at hs'; exact Option.some.inj hs' ▸ h1⟩⟩
        simp only [this]
    · rw [if_neg h, if_neg fun h1 => h h1.1]
      rfl

/-- Two programs that agree step by step. -/
theorem foldlM_lift {S T A : Type} (lift : S → T) (good : S → Prop) (f : T → A → Option T) (g : S → A → Option S) (l : List A)
    (h : ∀ s, good s → ∀ a ∈ l, f (lift s) a = (g s a).map lift ∧ ∀ s', g s a = some s' → good s') (s : S) (hs : good s) :
    l.foldlM f (lift s) = (l.foldlM g s).map lift ∧ ∀ s', l.foldlM g s = some s' → good s' := by
  induction l generalizing s with
  | nil => exact ⟨rfl, fun s' h' => Option.some.inj h' ▸ hs⟩
  | cons a l ih =>
    obtain ⟨h1, h2⟩ := h s hs a List.mem_cons_self
    rw [List.foldlM_cons, List.foldlM_cons, h1]
    cases hg : g s a with
    | none => exact ⟨rfl, fun s' h' => by cases h'⟩
    | some t => exact ih (fun s hs b hb => h s hs b (List.mem_cons_of_mem _ hb)) t (h2 t hg)

/-! ### The steps -/

/-- The staple of a link. -/
noncomputable def stapleAt (U : Fin n × PSite L → SUN N) (d : Fin n) (x : PSite L) : Mat N := stapleSpec (fun _ _ => 1) (asField U) d x

/-- The update of a link with its current staple. -/
noncomputable def suLink (beta : ℝ) (own : PSite L → R) (relax : Bool) (d : Fin n) (z : (Fin n × PSite L → SUN N) × (R → ℕ → ℝ)) (x : PSite L) :
    Option ((Fin n × PSite L → SUN N) × (R → ℕ → ℝ)) :=
  if relax then ((orHits (stapleAt z.1 d x) (subgroups N) (z.1 (d, x))).map fun V => (V, z.2)).map fun y => (update z.1 (d, x) y.1, y.2)
  else (hitsRank (beta / N) (stapleAt z.1 d x) (subgroups N) (own x) (z.1 (d, x)) z.2).map fun y => (update z.1 (d, x) y.1, y.2)

noncomputable def suDir (beta : ℝ) (own : PSite L → R) (relax : Bool) (vis : Fin n × Bool → List (PSite L)) (z : (Fin n × PSite L → SUN N) × (R → ℕ → ℝ))
    (dp : Fin n × Bool) : Option ((Fin n × PSite L → SUN N) × (R → ℕ → ℝ)) :=
  (vis dp).foldlM (suLink beta own relax dp.1) z

noncomputable def suUpdate (beta : ℝ) (own : PSite L → R) (root : R) (vis : Fin n × Bool → List (PSite L)) (relax : Bool)
    (z : (Fin n × PSite L → SUN N) × (R → ℕ → ℝ)) : Option ((Fin n × PSite L → SUN N) × (R → ℕ → ℝ)) :=
  (shuffledDirs n (z.2 root)).bind fun order => order.foldlM (suDir beta own relax vis) (z.1, fun r => shiftBy (2 * n - 1) (z.2 r))

/-! ### The weight of one link -/

theorem asField_update (U : Fin n × PSite L → SUN N) (d : Fin n) (x : PSite L) (c : SUN N) : asField (update U (d, x) c) = setLink (asField U) d x c.1 := by
  funext e y
  unfold asField setLink
  by_cases he : e = d
  · subst he
    by_cases hy : y = x
    · subst hy; simp
    · simp [hy]
  · simp [he]

theorem exists_parity (x : PSite L) : ∃ b, VisitsPar (parityOf b) x := by
  rcases Nat.mod_two_eq_zero_or_one (∑ d, (x d).val) with h | h
  · exact ⟨false, h⟩
  · exact ⟨true, h⟩

theorem stapleAt_congr (hL : ∀ d, Even (L d)) (b : Bool) (U V : Fin n × PSite L → SUN N) (d : Fin n) (x : PSite L) (hx : VisitsPar (parityOf b) x)
    (h1 : ∀ e, e ≠ d → ∀ y, U (e, y) = V (e, y)) (h2 : ∀ y, ¬ VisitsPar (parityOf b) y → U (d, y) = V (d, y)) : stapleAt U d x = stapleAt V d x := by
  refine stapleSpec_congr hL b _ _ d x hx (fun e he => ?_) (fun y hy => ?_)
  · funext y
    unfold asField
    rw [h1 e he]
  · unfold asField
    rw [h2 y hy]

theorem stapleAt_update (hL : ∀ d, Even (L d)) (U : Fin n × PSite L → SUN N) (d : Fin n) (x : PSite L) (c : SUN N) : stapleAt (update U (d, x) c) d x = stapleAt U d x := by
  obtain ⟨b, hb⟩ := exists_parity x
  refine stapleAt_congr hL b _ _ d x hb (fun e he y => ?_) (fun y hy => ?_)
  · exact update_of_ne (fun h => he (congrArg Prod.fst h)) _ _
  · exact update_of_ne (fun h => hy (by rw [show y = x from congrArg Prod.snd h]; exact hb)) _ _

theorem action_update (hL : ∀ d, Even (L d)) (beta : ℝ) (U : Fin n × PSite L → SUN N) (d : Fin n) (x : PSite L) : ∃ K : ℝ≥0∞, K ≠ ⊤ ∧ ∀ c : SUN N,
    ENNReal.ofReal (Real.exp (-(beta * measurePlaq (asField (update U (d, x) c))))) = K * linkWeight (beta / N) (stapleAt U d x) c := by
  refine ⟨ENNReal.ofReal (Real.exp (-(beta * (measurePlaq (asField U) + (asField U d x * (stapleAt U d x).conjTranspose).trace.re / N)))), ENNReal.ofReal_ne_top, fun c => ?_⟩
  unfold linkWeight
  rw [← ENNReal.ofReal_mul (Real.exp_pos _).le, ← Real.exp_add, asField_update, measurePlaq_update hL, Matrix.sub_mul, Matrix.trace_sub, Complex.sub_re]
  congr 2
  unfold stapleAt
  ring

/-! ### Continuity -/

theorem asField_continuous (d : Fin n) (x : PSite L) : Continuous fun U : Fin n × PSite L → SUN N => asField U d x :=
  continuous_subtype_val.comp (continuous_apply (d, x))

theorem wilson_continuous : Continuous fun U : Fin n × PSite L → SUN N => measurePlaq (asField U) := by
  have h := fun d x => asField_continuous (L := L) (N := N) d x
  unfold measurePlaq
  refine continuous_finsetSum _ fun d1 _ => continuous_finsetSum _ fun d2 _ => ?_
  split
  · refine continuous_finsetSum _ fun x _ => ?_
    have h2 : Continuous fun U : Fin n × PSite L → SUN N => (asField U d1 x * asField U d2 (x + unitStep d1) * (asField U d1 (x + unitStep d2)).conjTranspose *
        (asField U d2 x).conjTranspose).trace := ((((h _ _).mul (h _ _)).mul (h _ _).matrix_conjTranspose).mul (h _ _).matrix_conjTranspose).matrix_trace
    fun_prop
  · exact continuous_const

theorem stapleAt_continuous (d : Fin n) (x : PSite L) : Continuous fun U : Fin n × PSite L → SUN N => stapleAt U d x := by
  have h := fun d x => asField_continuous (L := L) (N := N) d x
  unfold stapleAt
  simp only [stapleSpec_terms]
  refine continuous_finsetSum _ fun e _ => ?_
  unfold stapleTerm
  exact (((h _ _).mul (h _ _)).mul (h _ _).matrix_conjTranspose).add (((h _ _).matrix_conjTranspose.mul (h _ _)).mul (h _ _))

theorem stapleAt_entries (d : Fin n) (x : PSite L) (i j : Fin N) : Measurable fun U : Fin n × PSite L → SUN N => stapleAt U d x i j :=
  ((stapleAt_continuous d x).matrix_elem i j).measurable

/-! ### One link -/

theorem suLink_dom (hL : ∀ d, Even (L d)) (hN : 0 < N) (haar : Measure (SUN N)) [IsProbabilityMeasure haar] [haar.IsMulLeftInvariant] {beta : ℝ} (hb : 0 < beta)
    (own : PSite L → R) (relax : Bool) (d : Fin n) (x : PSite L) :
    DomStep ((boltzmann (Measure.pi fun _ => haar) fun U => beta * measurePlaq (asField U)).prod (rankStreams R)) fun z => suLink beta own relax d z x := by
  have : SFinite (rankStreams R) := by unfold rankStreams; infer_instance
  have hb3 : 0 < beta / N := div_pos hb (by exact_mod_cast hN)
  have hW : Measurable fun U : Fin n × PSite L → SUN N => ENNReal.ofReal (Real.exp (-(beta * measurePlaq (asField U)))) := by
    have := wilson_continuous (L := L) (N := N)
    have h2 : Continuous fun U : Fin n × PSite L → SUN N => Real.exp (-(beta * measurePlaq (asField U))) := by fun_prop
    exact h2.measurable.ennreal_ofReal
  have hev : Measurable fun U : Fin n × PSite L → SUN N => U (d, x) := measurable_pi_apply (d, x)
  have hl : ∀ pq ∈ subgroups N, pq.1 ≠ pq.2 := fun pq hpq => subgroups_ne pq hpq
  unfold boltzmann
  cases relax with
  | true =>
    refine site_dom (fun _ => haar) (rankStreams R) _ hW (d, x)
      (fun U ω => (orHits (stapleAt U d x) (subgroups N) (U (d, x))).map fun V => (V, ω)) (fun F hF => ?_) (fun U F hF => ?_)
    · simp only [atResult_map]
      exact orHits_meas (subgroups N) (P := (Fin n × PSite L → SUN N) × (R → ℕ → ℝ)) (fun z => z.1 (d, x)) (hev.comp measurable_fst) (fun z => stapleAt z.1 d x)
        (fun i j => (stapleAt_entries d x i j).comp measurable_fst) (fun z V => F z.1 (V, z.2))
        (hF.comp ((measurable_fst.comp measurable_fst).prodMk (measurable_snd.prodMk (measurable_snd.comp measurable_fst))))
    · obtain ⟨K, hK, hWK⟩ := action_update hL beta U d x
      have hG : Measurable fun V => ∫⁻ ω, F (V, ω) ∂rankStreams R := hF.lintegral_prod_right'
      have e : ∀ c, ∫⁻ ω, atResult F ((orHits (stapleAt (update U (d, x) c) d x) (subgroups N) (update U (d, x) c (d, x))).map fun V => (V, ω)) ∂rankStreams R =
          atResult (fun V => ∫⁻ ω, F (V, ω) ∂rankStreams R) (orHits (stapleAt U d x) (subgroups N) c) := by
        intro c
        rw [stapleAt_update hL, update_self]
        cases orHits (stapleAt U d x) (subgroups N) c with
        | none => simp [atResult]
        | some V => rfl
      simp only [e, hWK, mul_assoc]
      rw [lintegral_const_mul' _ _ hK, lintegral_const_mul' _ _ hK]
      exact mul_le_mul' le_rfl (orHits_dom haar (beta / N) (stapleAt U d x) (subgroups N) hl _ hG)
  | false =>
    refine site_dom (fun _ => haar) (rankStreams R) _ hW (d, x)
      (fun U ω => hitsRank (beta / N) (stapleAt U d x) (subgroups N) (own x) (U (d, x)) ω) (fun F hF => ?_) (fun U F hF => ?_)
    · exact hitsRank_meas (beta / N) (subgroups N) (own x) (fun U : Fin n × PSite L → SUN N => U (d, x)) hev (fun U => stapleAt U d x)
        (fun i j => stapleAt_entries d x i j) F hF
    · obtain ⟨K, hK, hWK⟩ := action_update hL beta U d x
      simp only [stapleAt_update hL, update_self, hWK, mul_assoc]
      rw [lintegral_const_mul' _ _ hK, lintegral_const_mul' _ _ hK]
      exact mul_le_mul' le_rfl (hitsRank_dom haar hb3 (stapleAt U d x) (subgroups N) hl (own x) F hF)

/-! ### Numbers that all ranks use up -/

theorem ranks_cons : MeasurePreserving (fun (p : (R → ℝ) × (R → ℕ → ℝ)) r => consS (p.1 r) (p.2 r)) ((Measure.pi fun _ => unif01).prod (rankStreams R)) (rankStreams R) := by
  have h1 : MeasurePreserving (fun (a : R → ℝ × (ℕ → ℝ)) r => consS (a r).1 (a r).2) (Measure.pi fun _ => unif01.prod uniformStream) (Measure.pi fun _ => uniformStream) :=
    measurePreserving_pi (fun _ => unif01.prod uniformStream) (fun _ => uniformStream) fun _ => ⟨consS_measurable, consS_law⟩
  have h2 := (measurePreserving_arrowProdEquivProdArrow ℝ (ℕ → ℝ) R (fun _ => unif01) (fun _ => uniformStream)).symm
  exact h1.comp h2

theorem shift_consS (k : ℕ) (x : ℝ) (u : ℕ → ℝ) : shiftBy (k + 1) (consS x u) = shiftBy k u := by
  funext i
  unfold shiftBy
  rw [show k + 1 + i = (k + i) + 1 by omega]
  rfl

theorem streams_after (root : R) (C : ℝ≥0∞) (k : ℕ) (H : (ℕ → ℝ) → (R → ℕ → ℝ) → ℝ≥0∞) (hH : Measurable fun z : (ℕ → ℝ) × (R → ℕ → ℝ) => H z.1 z.2)
    (hk : ∀ u v, (∀ i < k, u i = v i) → H u = H v) (h : ∀ u, ∫⁻ ω, H u ω ∂rankStreams R ≤ C) :
    ∫⁻ ω, H (ω root) (fun r => shiftBy k (ω r)) ∂rankStreams R ≤ C := by
  have hP : IsProbabilityMeasure (rankStreams R) := by unfold rankStreams; infer_instance
  induction k generalizing H with
  | zero =>
    have e : ∀ ω : R → ℕ → ℝ, H (ω root) (fun r => shiftBy 0 (ω r)) = H (fun _ => 0) ω := fun ω => by
      rw [hk (ω root) (fun _ => 0) fun i hi => absurd hi (by omega)]
      simp only [shiftBy_zero]
    simp only [e]
    exact h _
  | succ k ih =>
    have hs : Measurable fun ω : R → ℕ → ℝ => H (ω root) (fun r => shiftBy (k + 1) (ω r)) := by
      have h1 : Measurable fun ω : R → ℕ → ℝ => fun r => shiftBy (k + 1) (ω r) :=
        measurable_pi_lambda _ fun r => (shiftBy_measurable (k + 1)).comp (measurable_pi_apply r)
      exact Measurable.comp (g := fun z : (ℕ → ℝ) × (R → ℕ → ℝ) => H z.1 z.2) hH ((measurable_pi_apply root).prodMk h1)
    have e := (ranks_cons (R := R)).lintegral_comp hs
    have hsc : Measurable fun a : (R → ℝ) × (R → ℕ → ℝ) => H (consS (a.1 root) (a.2 root)) fun r => shiftBy (k + 1) (consS (a.1 r) (a.2 r)) :=
      hs.comp ranks_cons.measurable
    rw [← e]
    refine le_trans (le_of_eq (lintegral_prod _ hsc.aemeasurable)) ?_
    simp only [shift_consS]
    have h1 : ∀ x : R → ℝ, ∫⁻ ω : R → ℕ → ℝ, H (consS (x root) (ω root)) (fun r => shiftBy k (ω r)) ∂rankStreams R ≤ C := by
      intro x
      refine ih (fun u ω => H (consS (x root) u) ω) ?_ (fun u v huv => hk _ _ fun i hi => ?_) fun u => h _
      · exact hH.comp ((consS_measurable.comp (measurable_const.prodMk measurable_fst)).prodMk measurable_snd)
      · cases i with
        | zero => rfl
        | succ j => exact huv j (by omega)
    calc _ ≤ ∫⁻ _ : R → ℝ, C ∂Measure.pi fun _ => unif01 := lintegral_mono h1
      _ = C := by rw [lintegral_const, measure_univ, mul_one]

/-- A step that is chosen with the first numbers of one rank; all ranks use up as many. -/
theorem dom_choice {X O : Type} [MeasurableSpace X] [Countable O] [MeasurableSpace O] [DiscreteMeasurableSpace O] (A : Measure X) [SFinite A] (root : R) (k : ℕ)
    (ord : (ℕ → ℝ) → O) (hord : Measurable ord) (hk : ∀ u v, (∀ i < k, u i = v i) → ord u = ord v) (step : O → X × (R → ℕ → ℝ) → Option (X × (R → ℕ → ℝ)))
    (h : ∀ o, DomStep (A.prod (rankStreams R)) (step o)) :
    DomStep (A.prod (rankStreams R)) fun z => step (ord (z.2 root)) (z.1, fun r => shiftBy k (z.2 r)) := by
  have hP : IsProbabilityMeasure (rankStreams R) := by unfold rankStreams; infer_instance
  intro F hF
  have hm : Measurable fun p : O × (X × (R → ℕ → ℝ)) => atResult F (step p.1 p.2) := measurable_from_prod_countable_right fun o => (h o F hF).1
  have hsh : Measurable fun ω : R → ℕ → ℝ => fun r => shiftBy k (ω r) := measurable_pi_lambda _ fun r => (shiftBy_measurable k).comp (measurable_pi_apply r)
  have hmz : Measurable fun z : X × (R → ℕ → ℝ) => atResult F (step (ord (z.2 root)) (z.1, fun r => shiftBy k (z.2 r))) :=
    hm.comp ((hord.comp ((measurable_pi_apply root).comp measurable_snd)).prodMk (measurable_fst.prodMk (hsh.comp measurable_snd)))
  refine ⟨hmz, ?_⟩
  rw [lintegral_prod_symm _ hmz.aemeasurable]
  have hj : Measurable fun y : ((ℕ → ℝ) × (R → ℕ → ℝ)) × X => atResult F (step (ord y.1.1) (y.2, y.1.2)) :=
    hm.comp ((hord.comp (measurable_fst.comp measurable_fst)).prodMk (measurable_snd.prodMk (measurable_snd.comp measurable_fst)))
  refine streams_after root _ k (fun u ω => ∫⁻ x, atResult F (step (ord u) (x, ω)) ∂A) hj.lintegral_prod_right' (fun u v huv => ?_) (fun u => ?_)
  · rw [hk u v huv]
  · have h2 := (h (ord u) F hF)
    rw [← lintegral_prod_symm _ h2.1.aemeasurable]
    exact h2.2

theorem shuffleLoop_congr {α : Type} (c c' : ℕ → ℕ) (j : ℕ) (h : ∀ i, 1 ≤ i → i ≤ j → c i = c' i) (l : List α) : shuffleLoop c j l = shuffleLoop c' j l := by
  induction j generalizing l with
  | zero => rfl
  | succ j ih =>
    rw [shuffleLoop, shuffleLoop, h (j + 1) (by omega) le_rfl]
    have := fun l => ih (fun i h1 h2 => h i h1 (by omega)) l
    rw [show shuffleLoop c j = shuffleLoop c' j from funext this]

theorem dirParities_length (n : ℕ) : (dirParities n).length = 2 * n := by
  unfold dirParities
  rw [List.length_flatMap]
  simp [Nat.mul_comm]

theorem shuffledDirs_congr (n : ℕ) (u v : ℕ → ℝ) (h : ∀ i < 2 * n - 1, u i = v i) : shuffledDirs n u = shuffledDirs n v := by
  unfold shuffledDirs shuffle
  refine shuffleLoop_congr _ _ _ (fun i h1 h2 => ?_) _
  rw [dirParities_length] at h2
  rw [h (2 * n - 1 - i) (by omega)]

theorem shuffledDirs_measurable (n : ℕ) : Measurable[_, ⊤] (shuffledDirs n) := by
  let := (⊤ : MeasurableSpace (Option (List (Fin n × Bool))))
  have e : shuffledDirs n = (fun c : Fin (2 * n) → ℕ => shuffle (fun j => if h : j < 2 * n then c ⟨j, h⟩ else 0) (dirParities n)) ∘
      fun u j => ⌊((j.1 : ℝ) + 1) * u (2 * n - 1 - j.1)⌋₊ := by
    funext u
    unfold shuffledDirs shuffle
    refine shuffleLoop_congr _ _ _ (fun i h1 h2 => ?_) _
    rw [dirParities_length] at h2
    have h3 : i < 2 * n := by omega
    simp only [dif_pos h3]
  rw [e]
  refine Measurable.comp (measurable_of_countable _) (measurable_pi_lambda _ fun j => ?_)
  exact Nat.measurable_floor.comp ((measurable_pi_apply _).const_mul _)

theorem suUpdate_dom (hL : ∀ d, Even (L d)) (hN : 0 < N) (haar : Measure (SUN N)) [IsProbabilityMeasure haar] [haar.IsMulLeftInvariant] {beta : ℝ} (hb : 0 < beta)
    (own : PSite L → R) (root : R) (vis : Fin n × Bool → List (PSite L)) (relax : Bool) :
    DomStep ((boltzmann (Measure.pi fun _ => haar) fun U => beta * measurePlaq (asField U)).prod (rankStreams R)) (suUpdate beta own root vis relax) := by
  let : MeasurableSpace (Option (List (Fin n × Bool))) := ⊤
  have : DiscreteMeasurableSpace (Option (List (Fin n × Bool))) := ⟨fun _ => trivial⟩
  have : SFinite (boltzmann (Measure.pi fun _ : Fin n × PSite L => haar) fun U => beta * measurePlaq (asField U)) := by unfold boltzmann; infer_instance
  refine dom_choice _ root (2 * n - 1) (shuffledDirs n) (shuffledDirs_measurable n) (shuffledDirs_congr n)
    (fun o z => o.bind fun order => order.foldlM (suDir beta own relax vis) z) fun o => ?_
  cases o with
  | none =>
    intro F hF
    exact ⟨measurable_const, by simp [atResult]⟩
  | some order =>
    exact DomStep.foldlM _ order fun dp _ => DomStep.foldlM _ (vis dp) fun x _ => suLink_dom hL hN haar hb own relax dp.1 x

end Hila
