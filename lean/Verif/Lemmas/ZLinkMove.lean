import Verif.Lemmas.ZLinkChain

/-!
# Lemmas for C94: the move of all links, and the choice of the update
-/

set_option linter.unusedSectionVars false

namespace Hila

open MeasureTheory Function
open scoped ENNReal

variable {R : Type} [Fintype R] [DecidableEq R] {n : ℕ} {L : Fin n → ℕ} [∀ d, NeZero (L d)]

/-! ### The move -/

/-- A permutation of coordinates, followed by a map of every coordinate. -/
theorem pi_move_preserving {ι C : Type} [Fintype ι] [DecidableEq ι] [MeasurableSpace C] (m : ι → Measure C) [∀ i, SigmaFinite (m i)] (e : ι ≃ ι) (hm : ∀ i, m (e i) = m i)
    (g : ι → C → C) (hg : ∀ i, MeasurePreserving (g i) (m i) (m i)) : MeasurePreserving (fun (c : ι → C) i => g i (c (e i))) (Measure.pi m) (Measure.pi m) := by
  have hT : Measurable fun (c : ι → C) i => g i (c (e i)) := measurable_pi_lambda _ fun i => (hg i).measurable.comp (measurable_pi_apply _)
  refine ⟨hT, (Measure.pi_eq fun s hs => ?_).symm⟩
  rw [Measure.map_apply hT (MeasurableSet.univ_pi hs)]
  have e1 : (fun (c : ι → C) i => g i (c (e i))) ⁻¹' Set.univ.pi s = Set.univ.pi fun j => g (e.symm j) ⁻¹' s (e.symm j) := by
    ext c
    simp only [Set.mem_preimage, Set.mem_univ_pi]
    constructor
    · intro h j
      simpa using h (e.symm j)
    · intro h i
      simpa using h (e i)
  rw [e1, Measure.pi_pi, ← Equiv.prod_comp e]
  refine Finset.prod_congr rfl fun i _ => ?_
  rw [Equiv.symm_apply_apply, hm, (hg i).measure_preimage (hs i).nullMeasurableSet]

/-- The move on configurations. -/
def zMoveR (et d : Fin n) (back : Bool) (c : ZIdx L → ℤ) : ZIdx L → ℤ
  | .inl i => zMoved et (zLinks c) d back i.1 i.2
  | .inr i => c (.inr i)

/-- The site from which the link comes. -/
def zFrom (d : Fin n) (back : Bool) : PSite L ≃ PSite L := if back then Equiv.subRight (unitStep d) else Equiv.addRight (unitStep d)

/-- What is added to the link. -/
def zAdded (et : Fin n) (back : Bool) (d : Fin n) (x : PSite L) : ℤ :=
  if d = et then (if back then (if uEven et x then 0 else -1) else if uEven et x then 1 else 0) else 0

theorem zMoved_eq (et : Fin n) (H : ZField L) (d : Fin n) (back : Bool) (d1 : Fin n) (x : PSite L) :
    zMoved et H d back d1 x = H d1 (zFrom d back x) + zAdded et back d1 x := by
  have e : ∀ x : PSite L, (if back then x - unitStep d else x + unitStep d) = zFrom d back x := fun x => by
    unfold zFrom
    cases back <;> rfl
  unfold zMoved zAdded
  simp only [e]
  by_cases h : d1 = et
  · subst h
    rw [update_self, if_pos rfl]
    cases back <;> simp <;> split <;> ring
  · rw [update_of_ne h, if_neg h, add_zero]

theorem zMoveR_pi (dynamic : Bool) (et d : Fin n) (back : Bool) :
    MeasurePreserving (zMoveR (L := L) et d back) (Measure.pi (zCount dynamic)) (Measure.pi (zCount dynamic)) := by
  let e : ZIdx L ≃ ZIdx L := Equiv.sumCongr (Equiv.prodCongr (Equiv.refl _) (zFrom d back)) (Equiv.refl _)
  let g : ZIdx L → ℤ → ℤ := fun i k => match i with
    | .inl i => k + zAdded et back i.1 i.2
    | .inr _ => k
  have h := pi_move_preserving (zCount (L := L) dynamic) e (fun i => by cases i <;> rfl) g (fun i => by
    rcases i with i | i
    · show MeasurePreserving (fun k : ℤ => k + zAdded et back i.1 i.2) Measure.count Measure.count
      refine ⟨measurable_of_countable _, ?_⟩
      ext A hA
      rw [Measure.map_apply (measurable_of_countable _) hA]
      have e : (fun k : ℤ => k + zAdded et back i.1 i.2) ⁻¹' A = (Equiv.addRight (zAdded et back i.1 i.2)).symm '' A := by
        rw [Equiv.image_symm_eq_preimage]
        rfl
      rw [e, Measure.count_injective_image (Equiv.injective _)]
    · exact MeasurePreserving.id _)
  have e2 : (fun (c : ZIdx L → ℤ) i => g i (c (e i))) = zMoveR et d back := by
    funext c i
    rcases i with i | i
    · exact (zMoved_eq et (zLinks c) d back i.1 i.2).symm
    · rfl
  rw [e2] at h
  exact h

theorem uEven_add (hL : ∀ d, Even (L d)) {et d : Fin n} (hd : d ≠ et) (x : PSite L) : uEven et (x + unitStep d) ↔ ¬ uEven et x := by
  have h := parSum_add hL x d
  have h1 := Finset.add_sum_erase Finset.univ (fun e => (x e).val) (Finset.mem_univ et)
  have h2 := Finset.add_sum_erase Finset.univ (fun e => ((x + unitStep d : PSite L) e).val) (Finset.mem_univ et)
  have h3 : (x + unitStep d : PSite L) et = x et := by
    simp [unitStep, Pi.single_eq_of_ne hd.symm]
  simp only [h3] at h2
  unfold uEven
  omega

theorem uEven_sub (hL : ∀ d, Even (L d)) {et d : Fin n} (hd : d ≠ et) (x : PSite L) : uEven et (x - unitStep d) ↔ ¬ uEven et x := by
  have h := uEven_add hL hd (x - unitStep d)
  rw [sub_add_cancel] at h
  tauto

theorem uEven_from (hL : ∀ d, Even (L d)) {et d : Fin n} (hd : d ≠ et) (back : Bool) (x : PSite L) : uEven et (zFrom d back x) ↔ ¬ uEven et x := by
  unfold zFrom
  cases back
  · exact uEven_add hL hd x
  · exact uEven_sub hL hd x

theorem zFrom_add (d : Fin n) (back : Bool) (x u : PSite L) : zFrom d back (x + u) = zFrom d back x + u := by
  unfold zFrom
  cases back
  · exact add_right_comm x u _
  · show x + u - _ = x - _ + u
    abel

theorem staggered_anti (et : Fin n) : AntiShift (staggered et : ZShift L) := by
  intro a b x
  unfold staggered
  by_cases h : a = b
  · subst h; simp
  · have h' : b ≠ a := fun e => h e.symm
    rw [if_neg h, if_neg h']
    by_cases h1 : b = et
    · subst h1
      rw [if_neg h, if_pos rfl, if_pos rfl]
      split <;> norm_num
    · by_cases h2 : a = et
      · subst h2
        rw [if_pos rfl, if_neg h1, if_pos rfl]
        split <;> norm_num
      · simp [h1, h2]

/-- After the move a plaquette is the one at the site from which the links come. -/
theorem zMoved_plaq (hL : ∀ d, Even (L d)) {et d : Fin n} (hd : d ≠ et) (H : ZField L) (back : Bool) {a b : Fin n} (ha : a ≠ et) (hab : b ≠ a) (x : PSite L) :
    (zCurl (zMoved et H d back) a b x : ℝ) + staggered et a b x = (zCurl H a b (zFrom d back x) : ℝ) + staggered et a b (zFrom d back x) := by
  unfold zCurl
  simp only [zMoved_eq, zFrom_add]
  unfold staggered zAdded
  rw [if_neg ha, if_neg (Ne.symm hab), if_neg (Ne.symm hab), if_neg ha]
  by_cases hb : b = et
  · subst hb
    simp only [if_true, uEven_from hL hd, uEven_add hL ha]
    by_cases hx : uEven b x <;> cases back <;> simp [hx] <;> ring
  · simp only [if_neg hb, if_neg ha]
    push_cast
    ring

theorem zMoved_plane (hL : ∀ d, Even (L d)) {et d : Fin n} (hd : d ≠ et) (H : ZField L) (back : Bool) {a b : Fin n} (ha : a ≠ et) (hab : b ≠ a) :
    planeSum (zMoved et H d back) (staggered et) a b = planeSum H (staggered et) a b := by
  unfold planeSum
  simp only [zMoved_plaq hL hd H back ha hab]
  exact Equiv.sum_comp (zFrom d back) fun x => ((zCurl H a b x : ℝ) + staggered et a b x) ^ 2

/-- The move keeps the action with the staggered shifts. -/
theorem zMoved_action (hL : ∀ d, Even (L d)) {et d : Fin n} (hd : d ≠ et) (beta : ℝ) (H : ZField L) (back : Bool) :
    zAction beta (zMoved et H d back) (staggered et) = zAction beta H (staggered et) := by
  rw [zAction_planes, zAction_planes]
  congr 1
  refine Finset.sum_congr rfl fun a _ => Finset.sum_congr rfl fun b _ => ?_
  split
  · next h =>
    by_cases ha : a = et
    · rw [planeSum_symm _ (staggered_anti et) a b, planeSum_symm H (staggered_anti et) a b, zMoved_plane hL hd H back (fun e => h.ne (ha.trans e.symm)) h.ne]
    · exact zMoved_plane hL hd H back ha h.ne'
  · rfl

theorem zSigns_one (i : Fin n × Fin n × PSite L) : ∀ᵐ c ∂Measure.pi (zCount (L := L) false), c (.inr i) = 1 := by
  have h := Measure.quasiMeasurePreserving_eval (μ := zCount (L := L) false) (.inr i)
  refine h.ae (p := fun k => k = 1) ?_
  show ∀ᵐ k ∂Measure.dirac (1 : ℤ), k = 1
  simp [ae_dirac_eq]

theorem zShifts_one (s0 : ZShift L) (c : ZIdx L → ℤ) (h : ∀ i, c (.inr i) = 1) : zShifts s0 c = s0 := by
  funext a b x
  unfold zShifts
  simp [h]

theorem zMoveR_preserving (hL : ∀ d, Even (L d)) {et d : Fin n} (hd : d ≠ et) (beta : ℝ) (back : Bool) :
    MeasurePreserving (zMoveR (L := L) et d back) (zWeights false beta (staggered et)) (zWeights false beta (staggered et)) := by
  have h := zMoveR_pi (L := L) false et d back
  have h1 : ∀ᵐ c ∂Measure.pi (zCount (L := L) false), ∀ i, c (.inr i) = 1 := ae_all_iff.2 zSigns_one
  refine ⟨measurable_of_countable _, ?_⟩
  unfold zWeights boltzmann
  ext A hA
  rw [Measure.map_apply (measurable_of_countable _) hA, withDensity_apply _ (h.measurable hA), withDensity_apply _ hA, ← lintegral_indicator (h.measurable hA),
    ← lintegral_indicator hA]
  have e := h.lintegral_comp (f := A.indicator fun c => ENNReal.ofReal (Real.exp (-zAction beta (zLinks c) (zShifts (staggered et) c)))) (measurable_of_countable _)
  rw [← e]
  refine lintegral_congr_ae ?_
  filter_upwards [h1] with c hc
  have e1 : zShifts (staggered et) c = staggered et := zShifts_one _ _ hc
  have e2 : zShifts (staggered et) (zMoveR et d back c) = staggered et := zShifts_one _ _ hc
  have e3 : zAction beta (zLinks (zMoveR et d back c)) (staggered et) = zAction beta (zLinks c) (staggered et) := zMoved_action hL hd beta (zLinks c) back
  by_cases hA' : zMoveR et d back c ∈ A
  · rw [Set.indicator_of_mem hA', Set.indicator_of_mem (show c ∈ zMoveR et d back ⁻¹' A from hA'), e1, e2, e3]
  · rw [Set.indicator_of_notMem hA', Set.indicator_of_notMem (show c ∉ zMoveR et d back ⁻¹' A from hA')]

/-! ### Choices -/

theorem zDrawAll_preserving (root : R) : MeasurePreserving (fun ω : R → ℕ → ℝ => (ω root 0, zDrawAll 1 ω)) (rankStreams R) (unif01.prod (rankStreams R)) := by
  have hm : Measurable fun ω : R → ℕ → ℝ => ((fun r => ω r 0 : R → ℝ), zDrawAll 1 ω) := by
    unfold zDrawAll
    fun_prop
  have h1 : MeasurePreserving (fun ω : R → ℕ → ℝ => ((fun r => ω r 0 : R → ℝ), zDrawAll 1 ω)) (rankStreams R) ((Measure.pi fun _ => unif01).prod (rankStreams R)) := by
    refine ⟨hm, ?_⟩
    conv_lhs => rw [← (ranks_cons (R := R)).map_eq]
    rw [Measure.map_map hm ranks_cons.measurable]
    have : (fun ω : R → ℕ → ℝ => ((fun r => ω r 0 : R → ℝ), zDrawAll 1 ω)) ∘ (fun (p : (R → ℝ) × (R → ℕ → ℝ)) r => consS (p.1 r) (p.2 r)) = id := by
      funext p
      refine Prod.ext rfl ?_
      funext r i
      show consS (p.1 r) (p.2 r) (1 + i) = p.2 r i
      rw [add_comm]
      rfl
    rw [this, Measure.map_id]
  exact ((measurePreserving_eval (fun _ : R => unif01) root).prod (MeasurePreserving.id (rankStreams R))).comp h1

/-- A step that is chosen with a number which all ranks draw. -/
theorem choice_preserving {X : Type} [MeasurableSpace X] (A : Measure X) [SFinite A] (root : R) (pick : ℝ → ℕ) (hpick : Measurable pick)
    (step : ℕ → X × (R → ℕ → ℝ) → X × (R → ℕ → ℝ)) (h : ∀ o, MeasurePreserving (step o) (A.prod (rankStreams R)) (A.prod (rankStreams R))) :
    MeasurePreserving (fun z => step (pick (z.2 root 0)) (z.1, zDrawAll 1 z.2)) (A.prod (rankStreams R)) (A.prod (rankStreams R)) := by
  have h1 := (MeasurePreserving.id A).prod (zDrawAll_preserving root)
  have h2 := (measurePreserving_prodAssoc A unif01 (rankStreams R)).symm MeasurableEquiv.prodAssoc
  have h3 := (Measure.measurePreserving_swap (μ := A) (ν := unif01)).prod (MeasurePreserving.id (rankStreams R))
  have h4 := measurePreserving_prodAssoc unif01 A (rankStreams R)
  have hd := h4.comp (h3.comp (h2.comp h1))
  have hm : Measurable (uncurry fun (a : ℝ) y => step (pick a) y) := by
    have hm0 : Measurable fun p : ℕ × (X × (R → ℕ → ℝ)) => step p.1 p.2 := measurable_from_prod_countable_right fun o => (h o).measurable
    exact hm0.comp ((hpick.comp measurable_fst).prodMk measurable_snd)
  have h5 := (MeasurePreserving.id unif01).skew_product hm (Filter.Eventually.of_forall fun a => (h (pick a)).map_eq)
  exact measurePreserving_snd.comp (h5.comp hd)

theorem pick_measurable (m : ℝ) : Measurable fun a : ℝ => ⌊a * m⌋.toNat :=
  (measurable_of_countable Int.toNat).comp (Int.measurable_floor.comp (by fun_prop))

theorem pick2_measurable (m : ℝ) : Measurable fun a : ℝ => ⌊a * 2 * m⌋.toNat :=
  (measurable_of_countable Int.toNat).comp (Int.measurable_floor.comp (by fun_prop))

end Hila
