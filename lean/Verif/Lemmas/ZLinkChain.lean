import Verif.Lemmas.ZLinkStep

/-!
# Lemmas for C94: the loops of the updates
-/

set_option linter.unusedSectionVars false

namespace Hila

open MeasureTheory Function
open scoped ENNReal

variable {R : Type} [Fintype R] [DecidableEq R] {n : ℕ} {L : Fin n → ℕ} [∀ d, NeZero (L d)]

/-- The program's state of a configuration. -/
def zLift (s0 : ZShift L) (z : (ZIdx L → ℤ) × (R → ℕ → ℝ)) : ZState L R := (zLinks z.1, zShifts s0 z.1, z.2)

instance zCount_sigmaFinite (dynamic : Bool) (i : ZIdx L) : SigmaFinite (zCount dynamic i) := by
  rcases i with i | i
  · show SigmaFinite Measure.count
    infer_instance
  · unfold zCount
    cases dynamic <;> simp <;> infer_instance

theorem zLinks_link (c : ZIdx L → ℤ) (d : Fin n) (x : PSite L) (k : ℤ) : zLinks (update c (.inl (d, x)) k) = zSetLink (zLinks c) d x k := by
  funext e y
  by_cases he : e = d
  · subst he
    rw [zSetLink_same]
    unfold zLinks
    rw [update_apply]
    simp
  · rw [zSetLink_ne _ he]
    exact update_of_ne (by simp [he]) _ _

theorem zShifts_link (s0 : ZShift L) (c : ZIdx L → ℤ) (d : Fin n) (x : PSite L) (k : ℤ) : zShifts s0 (update c (.inl (d, x)) k) = zShifts s0 c := by
  funext a b y
  unfold zShifts
  rw [update_of_ne (by simp), update_of_ne (by simp)]

theorem zLinks_shift (c : ZIdx L → ℤ) (i : Fin n × Fin n × PSite L) (k : ℤ) : zLinks (update c (.inr i) k) = zLinks c := by
  funext e y
  exact update_of_ne (by simp) _ _

theorem zShifts_anti {s0 : ZShift L} (hs : AntiShift s0) (c : ZIdx L → ℤ) : AntiShift (zShifts s0 c) := by
  intro a b x
  unfold zShifts
  rcases lt_trichotomy a b with h | h | h
  · rw [if_pos h, if_neg h.not_gt, hs]; ring
  · subst h
    have : s0 a a x = 0 := by linarith [hs a a x]
    rw [this]
    simp
  · rw [if_pos h, if_neg h.not_gt, hs]; ring

/-! ### Links -/

theorem zMetropolis_measurable (n : ℕ) (k : ℤ) (st beta : ℝ) (r : R) : Measurable fun ω : R → ℕ → ℝ => zMetropolis n k st beta r ω := by
  have hd := drawAt_measurable r
  have hfl : Measurable fun ω : R → ℕ → ℝ => k + (1 - 2 * ⌊(drawAt r ω).1 * 2.0⌋) :=
    (measurable_of_countable fun j : ℤ => k + (1 - 2 * j)).comp (Int.measurable_floor.comp (by fun_prop))
  exact zDecide_measurable beta _ ((measurable_of_countable fun j : ℤ => zLinkAction n st j - zLinkAction n st k).comp hfl) (fun _ => k) _ measurable_const hfl _ (by fun_prop) r

theorem zOverrelax_measurable (n : ℕ) (k : ℤ) (st beta : ℝ) (r : R) : Measurable fun ω : R → ℕ → ℝ => zOverrelax n k st beta r ω := by
  unfold zOverrelax
  dsimp only
  have h : ∀ nds k', Measurable fun ω : R → ℕ → ℝ => zDecide beta nds k k' r ω := fun nds k' =>
    zDecide_measurable beta _ measurable_const _ _ measurable_const measurable_const _ measurable_id r
  refine Measurable.ite (MeasurableSet.const _) (Measurable.ite (MeasurableSet.const _) (by fun_prop) (h _ _)) (Measurable.ite (MeasurableSet.const _) (by fun_prop) (h _ _))

/-- The new link and the numbers that are left. -/
noncomputable def zNewLink (n : ℕ) (relax : Bool) (k : ℤ) (st beta : ℝ) (r : R) (ω : R → ℕ → ℝ) : ℤ × (R → ℕ → ℝ) :=
  if relax then zOverrelax n k st beta r ω else zMetropolis n k st beta r ω

theorem zNewLink_measurable (n : ℕ) (relax : Bool) (k : ℤ) (st beta : ℝ) (r : R) : Measurable fun ω : R → ℕ → ℝ => zNewLink n relax k st beta r ω := by
  cases relax
  · exact zMetropolis_measurable n k st beta r
  · exact zOverrelax_measurable n k st beta r

/-- The step of the loop on configurations, with the staples of the moment. -/
noncomputable def zLinkR (s0 : ZShift L) (beta : ℝ) (own : PSite L → R) (relax : Bool) (d : Fin n) (z : (ZIdx L → ℤ) × (R → ℕ → ℝ)) (x : PSite L) :
    (ZIdx L → ℤ) × (R → ℕ → ℝ) :=
  let y := zNewLink n relax (zLinks z.1 d x) (zStapleSpec (zLinks z.1) (zShifts s0 z.1) d x) beta (own x) z.2
  (update z.1 (.inl (d, x)) y.1, y.2)

theorem zLinkR_preserving (hL : ∀ d, Even (L d)) (hn : 2 ≤ n) {beta : ℝ} (hb : 0 ≤ beta) (dynamic : Bool) {s0 : ZShift L} (hs : AntiShift s0) (own : PSite L → R) (relax : Bool)
    (d : Fin n) (x : PSite L) :
    MeasurePreserving (fun z => zLinkR s0 beta own relax d z x) ((zWeights dynamic beta s0).prod (rankStreams R)) ((zWeights dynamic beta s0).prod (rankStreams R)) := by
  unfold zWeights boltzmann zLinkR
  have hm : Measurable fun z : (ZIdx L → ℤ) × (R → ℕ → ℝ) =>
      zNewLink n relax (zLinks z.1 d x) (zStapleSpec (zLinks z.1) (zShifts s0 z.1) d x) beta (own x) z.2 :=
    measurable_from_prod_countable_right fun c =>
      zNewLink_measurable n relax (zLinks c d x) (zStapleSpec (zLinks c) (zShifts s0 c) d x) beta (own x)
  refine site_keeps (zCount dynamic) (rankStreams R) _ (measurable_of_countable _) (.inl (d, x))
    (fun c ω => (zNewLink n relax (zLinks c d x) (zStapleSpec (zLinks c) (zShifts s0 c) d x) beta (own x) ω).1)
    (fun c ω => (zNewLink n relax (zLinks c d x) (zStapleSpec (zLinks c) (zShifts s0 c) d x) beta (own x) ω).2) hm.fst hm.snd ?_
  intro c F hF
  have e1 : ∀ k, zLinks (update c (.inl (d, x)) k) d x = k := fun k => update_self _ _ _
  simp only [zLinks_link, zShifts_link, zStapleSpec_zSetLink hL, zAction_zSetLink hL (by omega : 1 ≤ n) beta _ (zShifts_anti hs c), zSetLink_same, if_true]
  set st := zStapleSpec (zLinks c) (zShifts s0 c) d x
  set A := zAction beta (zLinks c) (zShifts s0 c)
  have e2 : ∀ k : ℤ, A + beta / 2 * (zLinkAction n st k - zLinkAction n st (zLinks c d x)) = (A - beta / 2 * zLinkAction n st (zLinks c d x)) + beta / 2 * zLinkAction n st k :=
    fun k => by ring
  simp only [e2]
  cases relax
  · exact zMetropolis_keeps hb _ st (own x) F hF
  · exact zOverrelax_keeps hn hb _ st (own x) F hF

theorem zLinkStep_lift (s0 : ZShift L) (beta : ℝ) (own : PSite L → R) (relax : Bool) (d : Fin n) (st : PSite L → Option ℝ) (z : (ZIdx L → ℤ) × (R → ℕ → ℝ)) (x : PSite L)
    (h : st x = some (zStapleSpec (zLinks z.1) (zShifts s0 z.1) d x)) :
    zLinkStep beta own relax d st (zLift s0 z) x = some (zLift s0 (zLinkR s0 beta own relax d z x)) := by
  unfold zLinkStep zLift zLinkR
  rw [h]
  simp only [Option.map_some, zLinks_link, zShifts_link]
  rfl

theorem visits_opp_ne {p : Parity} (hp : p = .even ∨ p = .odd) (x y : PSite L) (hx : VisitsPar p x) (hy : VisitsPar (oppParity p) y) : y ≠ x := by
  rintro rfl
  rcases hp with rfl | rfl
  · have h1' : (∑ d, (y d).val) % 2 = 1 := hy
    have h2' : (∑ d, (y d).val) % 2 = 0 := hx
    omega
  · have h1' : (∑ d, (y d).val) % 2 = 0 := hy
    have h2' : (∑ d, (y d).val) % 2 = 1 := hx
    omega

theorem zLinks_lift (hL : ∀ d, Even (L d)) (s0 : ZShift L) (beta : ℝ) (own : PSite L → R) (relax : Bool) (d : Fin n) {p : Parity} (hp : p = .even ∨ p = .odd)
    (st : PSite L → Option ℝ) (l : List (PSite L)) (hl : ∀ x ∈ l, VisitsPar p x) (z : (ZIdx L → ℤ) × (R → ℕ → ℝ))
    (h : ∀ x ∈ l, st x = some (zStapleSpec (zLinks z.1) (zShifts s0 z.1) d x)) :
    l.foldlM (zLinkStep beta own relax d st) (zLift s0 z) = some (zLift s0 (l.foldl (zLinkR s0 beta own relax d) z)) := by
  induction l generalizing z with
  | nil => rfl
  | cons x l ih =>
    rw [List.foldlM_cons, zLinkStep_lift _ _ _ _ _ _ _ _ (h x List.mem_cons_self), List.foldl_cons]
    refine ih (fun y hy => hl y (List.mem_cons_of_mem _ hy)) _ fun y hy => ?_
    rw [h y (List.mem_cons_of_mem _ hy)]
    congr 1
    have hx := hl x List.mem_cons_self
    have hy' := hl y (List.mem_cons_of_mem _ hy)
    unfold zLinkR
    simp only [zShifts_link, zLinks_link]
    refine zStapleSpec_congr _ _ _ _ _ (fun b hb => (zSetLink_ne _ hb _ _).symm) fun b _ => ?_
    rw [zSetLink_same, zSetLink_same, if_neg (visits_opp_ne hp x _ hx ((visits_fwd (Or.inr hL) y b).2 hy')),
      if_neg (visits_opp_ne hp x _ hx ((visits_bwd (Or.inr hL) y b).2 hy'))]
    exact ⟨rfl, rfl⟩

/-- A loop over links is the loop on configurations. -/
theorem zUpdateDir_lift (hL : ∀ d, Even (L d)) (hn : 2 ≤ n) (s0 : ZShift L) (beta : ℝ) (own : PSite L → R) (relax : Bool) (d : Fin n) {p : Parity}
    (hp : p = .even ∨ p = .odd) (l : List (PSite L)) (hl : ∀ x ∈ l, VisitsPar p x) (z : (ZIdx L → ℤ) × (R → ℕ → ℝ)) :
    zUpdateDir beta own relax d p l (zLift s0 z) = some (zLift s0 (l.foldl (zLinkR s0 beta own relax d) z)) :=
  zLinks_lift hL s0 beta own relax d hp _ l hl z fun x hx => zStaples_eq hL hn _ _ d p x (hl x hx)

/-! ### Shifts -/

/-- The sign of the shift of a plaquette. -/
def zSign (d1 d2 : Fin n) (x : PSite L) : ZIdx L := .inr (if d1 < d2 then (d1, d2, x) else (d2, d1, x))

theorem zShifts_sign (s0 : ZShift L) (c : ZIdx L → ℤ) (d1 d2 : Fin n) (x : PSite L) : zShifts s0 c d1 d2 x = c (zSign d1 d2 x) * s0 d1 d2 x := by
  unfold zShifts zSign
  split <;> rfl

theorem zShifts_set {s0 : ZShift L} (hs : AntiShift s0) (c : ZIdx L → ℤ) {d1 d2 : Fin n} (hd : d2 ≠ d1) (x : PSite L) (k : ℤ) :
    setShift (zShifts s0 c) d1 d2 x (k * s0 d1 d2 x) = zShifts s0 (update c (zSign d1 d2 x) k) := by
  funext a b y
  unfold setShift
  rw [zShifts_sign, zShifts_sign, update_apply]
  by_cases h1 : a = d2 ∧ b = d1 ∧ y = x
  · obtain ⟨rfl, rfl, rfl⟩ := h1
    have : zSign a b y = zSign b a y := by
      unfold zSign
      rcases lt_or_gt_of_ne hd with h | h
      · rw [if_pos h, if_neg h.not_gt]
      · rw [if_pos h, if_neg h.not_gt]
    rw [if_pos ⟨rfl, rfl, rfl⟩, if_pos this, hs]
    ring
  · rw [if_neg h1]
    by_cases h2 : a = d1 ∧ b = d2 ∧ y = x
    · obtain ⟨rfl, rfl, rfl⟩ := h2
      rw [if_pos ⟨rfl, rfl, rfl⟩, if_pos rfl]
    · rw [if_neg h2, if_neg]
      unfold zSign
      intro h
      apply h1
      by_contra h1
      simp only [Sum.inr.injEq] at h
      split at h <;> split at h <;> simp only [Prod.mk.injEq] at h <;> tauto

theorem zAction_sign {s0 : ZShift L} (hs : AntiShift s0) (beta : ℝ) (c : ZIdx L → ℤ) {d1 d2 : Fin n} (hd : d2 ≠ d1) (x : PSite L) (k : ℤ) :
    zAction beta (zLinks (update c (zSign d1 d2 x) k)) (zShifts s0 (update c (zSign d1 d2 x) k)) = zAction beta (zLinks c) (zShifts s0 c) +
      beta / 2 * (((zCurl (zLinks c) d1 d2 x : ℝ) + k * s0 d1 d2 x) ^ 2 - ((zCurl (zLinks c) d1 d2 x : ℝ) + c (zSign d1 d2 x) * s0 d1 d2 x) ^ 2) := by
  wlog h : d1 < d2 generalizing d1 d2
  · have h' : d2 < d1 := lt_of_le_of_ne (not_lt.1 h) hd
    have e : zSign d1 d2 x = zSign d2 d1 x := by
      unfold zSign
      rw [if_neg h, if_pos h']
    rw [e, this hd.symm h', zCurl_anti (zLinks c) d2 d1, hs d2 d1]
    push_cast
    ring
  · have e0 : zLinks (update c (zSign d1 d2 x) k) = zLinks c := zLinks_shift c _ k
    rw [zAction_planes, zAction_planes, ← sub_eq_iff_eq_add', ← mul_sub, e0]
    congr 1
    rw [← Finset.sum_sub_distrib, Finset.sum_eq_single d1 _ (by simp), ← Finset.sum_sub_distrib, Finset.sum_eq_single d2 _ (by simp)]
    · rw [if_pos h, if_pos h]
      unfold planeSum
      rw [← Finset.sum_sub_distrib, Finset.sum_eq_single x _ (by simp)]
      · rw [zShifts_sign, zShifts_sign, update_self]
      · intro y _ hy
        rw [zShifts_sign, zShifts_sign, update_of_ne, sub_self]
        unfold zSign
        simp [h, hy]
    · intro b _ hb
      split
      · next h2 =>
        unfold planeSum
        rw [← Finset.sum_sub_distrib]
        refine Finset.sum_eq_zero fun y _ => ?_
        rw [zShifts_sign, zShifts_sign, update_of_ne, sub_self]
        unfold zSign
        simp [h, h2, hb]
      · ring
    · intro a _ ha
      rw [← Finset.sum_sub_distrib]
      refine Finset.sum_eq_zero fun b _ => ?_
      split
      · next h2 =>
        unfold planeSum
        rw [← Finset.sum_sub_distrib]
        refine Finset.sum_eq_zero fun y _ => ?_
        rw [zShifts_sign, zShifts_sign, update_of_ne, sub_self]
        unfold zSign
        simp [h, h2, ha]
      · ring

/-- The step of the loop over shifts on configurations. -/
noncomputable def zShiftR (s0 : ZShift L) (beta : ℝ) (own : PSite L → R) (d1 d2 : Fin n) (z : (ZIdx L → ℤ) × (R → ℕ → ℝ)) (x : PSite L) :
    (ZIdx L → ℤ) × (R → ℕ → ℝ) :=
  let t : ℝ := zCurl (zLinks z.1) d1 d2 x
  let v : ℝ := z.1 (zSign d1 d2 x) * s0 d1 d2 x
  let y := zDecide beta ((t - v) * (t - v) - (t + v) * (t + v)) (z.1 (zSign d1 d2 x)) (-z.1 (zSign d1 d2 x)) (own x) z.2
  (update z.1 (zSign d1 d2 x) y.1, y.2)

theorem zShiftStep_lift {s0 : ZShift L} (hs : AntiShift s0) (beta : ℝ) (own : PSite L → R) {d1 d2 : Fin n} (hd : d2 ≠ d1) (z : (ZIdx L → ℤ) × (R → ℕ → ℝ)) (x : PSite L) :
    zShiftStep beta own d1 d2 (zLift s0 z) x = zLift s0 (zShiftR s0 beta own d1 d2 z x) := by
  unfold zShiftStep zLift zShiftR swMetropolis
  simp only [zShifts_sign]
  have e0 : ∀ k, zLinks (update z.1 (zSign d1 d2 x) k) = zLinks z.1 := fun k => zLinks_shift z.1 _ k
  rw [e0]
  have e := fun nds => zDecide_map (fun k : ℤ => (k : ℝ) * s0 d1 d2 x) beta nds (z.1 (zSign d1 d2 x)) (-z.1 (zSign d1 d2 x)) (own x) z.2
  simp only [Int.cast_neg, neg_mul] at e
  rw [e]
  simp only [zShifts_set hs _ hd]

theorem zShifts_lift {s0 : ZShift L} (hs : AntiShift s0) (beta : ℝ) (own : PSite L → R) {d1 d2 : Fin n} (hd : d2 ≠ d1) (l : List (PSite L))
    (z : (ZIdx L → ℤ) × (R → ℕ → ℝ)) : l.foldl (zShiftStep beta own d1 d2) (zLift s0 z) = zLift s0 (l.foldl (zShiftR s0 beta own d1 d2) z) := by
  induction l generalizing z with
  | nil => rfl
  | cons x l ih => rw [List.foldl_cons, List.foldl_cons, zShiftStep_lift hs _ _ hd, ih]

theorem zUpdateShifts_lift {s0 : ZShift L} (hs : AntiShift s0) (beta : ℝ) (own : PSite L → R) (d1 : Fin n) (vis : Fin n → List (PSite L)) (z : (ZIdx L → ℤ) × (R → ℕ → ℝ)) :
    zUpdateShifts beta own d1 vis (zLift s0 z) =
      zLift s0 (((List.finRange n).filter (· ≠ d1)).foldl (fun z d2 => (vis d2).foldl (zShiftR s0 beta own d1 d2) z) z) := by
  unfold zUpdateShifts
  have : ∀ ds : List (Fin n), (∀ d ∈ ds, d ≠ d1) → ∀ z, ds.foldl (fun s d2 => (vis d2).foldl (zShiftStep beta own d1 d2) s) (zLift s0 z) =
      zLift s0 (ds.foldl (fun z d2 => (vis d2).foldl (zShiftR s0 beta own d1 d2) z) z) := by
    intro ds hds
    induction ds with
    | nil => intro z; rfl
    | cons d ds ih =>
      intro z
      rw [List.foldl_cons, List.foldl_cons, zShifts_lift hs _ _ (hds d List.mem_cons_self), ih fun e he => hds e (List.mem_cons_of_mem _ he)]
  exact this _ (fun d hd => by simpa using (List.mem_filter.1 hd).2) z

theorem zShiftR_preserving {beta : ℝ} (hb : 0 ≤ beta) {s0 : ZShift L} (hs : AntiShift s0) (own : PSite L → R) {d1 d2 : Fin n} (hd : d2 ≠ d1) (x : PSite L) :
    MeasurePreserving (fun z => zShiftR s0 beta own d1 d2 z x) ((zWeights true beta s0).prod (rankStreams R)) ((zWeights true beta s0).prod (rankStreams R)) := by
  unfold zWeights boltzmann zShiftR
  have hm : Measurable fun z : (ZIdx L → ℤ) × (R → ℕ → ℝ) =>
      zDecide beta (((zCurl (zLinks z.1) d1 d2 x : ℝ) - z.1 (zSign d1 d2 x) * s0 d1 d2 x) * ((zCurl (zLinks z.1) d1 d2 x : ℝ) - z.1 (zSign d1 d2 x) * s0 d1 d2 x) -
        ((zCurl (zLinks z.1) d1 d2 x : ℝ) + z.1 (zSign d1 d2 x) * s0 d1 d2 x) * ((zCurl (zLinks z.1) d1 d2 x : ℝ) + z.1 (zSign d1 d2 x) * s0 d1 d2 x))
        (z.1 (zSign d1 d2 x)) (-z.1 (zSign d1 d2 x)) (own x) z.2 :=
    measurable_from_prod_countable_right fun c => zDecide_measurable beta (fun _ => ((zCurl (zLinks c) d1 d2 x : ℝ) - c (zSign d1 d2 x) * s0 d1 d2 x) *
      ((zCurl (zLinks c) d1 d2 x : ℝ) - c (zSign d1 d2 x) * s0 d1 d2 x) - ((zCurl (zLinks c) d1 d2 x : ℝ) + c (zSign d1 d2 x) * s0 d1 d2 x) *
      ((zCurl (zLinks c) d1 d2 x : ℝ) + c (zSign d1 d2 x) * s0 d1 d2 x)) measurable_const (fun _ => c (zSign d1 d2 x)) (fun _ => -c (zSign d1 d2 x)) measurable_const
      measurable_const (fun ω => ω) measurable_id (own x)
  refine site_keeps (zCount true) (rankStreams R) _ (measurable_of_countable _) (zSign d1 d2 x) (fun c ω => (zDecide beta
    (((zCurl (zLinks c) d1 d2 x : ℝ) - c (zSign d1 d2 x) * s0 d1 d2 x) * ((zCurl (zLinks c) d1 d2 x : ℝ) - c (zSign d1 d2 x) * s0 d1 d2 x) -
      ((zCurl (zLinks c) d1 d2 x : ℝ) + c (zSign d1 d2 x) * s0 d1 d2 x) * ((zCurl (zLinks c) d1 d2 x : ℝ) + c (zSign d1 d2 x) * s0 d1 d2 x))
      (c (zSign d1 d2 x)) (-c (zSign d1 d2 x)) (own x) ω).1) (fun c ω => (zDecide beta
    (((zCurl (zLinks c) d1 d2 x : ℝ) - c (zSign d1 d2 x) * s0 d1 d2 x) * ((zCurl (zLinks c) d1 d2 x : ℝ) - c (zSign d1 d2 x) * s0 d1 d2 x) -
      ((zCurl (zLinks c) d1 d2 x : ℝ) + c (zSign d1 d2 x) * s0 d1 d2 x) * ((zCurl (zLinks c) d1 d2 x : ℝ) + c (zSign d1 d2 x) * s0 d1 d2 x))
      (c (zSign d1 d2 x)) (-c (zSign d1 d2 x)) (own x) ω).2) hm.fst hm.snd ?_
  intro c F hF
  have e0 : ∀ k, zLinks (update c (zSign d1 d2 x) k) = zLinks c := fun k => zLinks_shift c _ k
  have e3 := fun k => zAction_sign hs beta c hd x k
  simp only [e0] at e3
  simp only [e0, e3, update_self]
  set t : ℝ := (zCurl (zLinks c) d1 d2 x : ℝ)
  set v := s0 d1 d2 x
  have hneg : Measurable fun k : ℤ => -k := measurable_of_countable _
  have hR : MeasurePreserving (fun k : ℤ => -k) (zCount true (zSign d1 d2 x)) (zCount true (zSign d1 d2 x)) := by
    show MeasurePreserving (fun k : ℤ => -k) (Measure.dirac (1 : ℤ) + Measure.dirac (-1)) (Measure.dirac (1 : ℤ) + Measure.dirac (-1))
    refine ⟨hneg, ?_⟩
    rw [Measure.map_add _ _ hneg, Measure.map_dirac' hneg, Measure.map_dirac' hneg, neg_neg, add_comm]
  have h := metropolis_lintegral _ hR (fun k => neg_neg k) (H := fun k : ℤ => zAction beta (zLinks c) (zShifts s0 c) +
    beta / 2 * ((t + k * v) ^ 2 - (t + c (zSign d1 d2 x) * v) ^ 2)) (measurable_of_countable _) (f := fun k => ∫⁻ ω, F (k, ω) ∂rankStreams R) (measurable_of_countable _)
  rw [← h]
  refine lintegral_congr fun k => ?_
  congr 1
  have e4 := zDecide_lintegral hb ((t - k * v) * (t - k * v) - (t + k * v) * (t + k * v)) k (-k) (own x) F hF
  refine Eq.trans e4 ?_
  refine lintegral_congr fun u => ?_
  push_cast
  congr 4
  ring

end Hila
