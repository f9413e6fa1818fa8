import Verif.Lemmas.ZLinkTurn

/-!
# C94: the program z_link_model samples its action
-/

set_option linter.unusedSectionVars false

namespace Hila

open MeasureTheory Function
open scoped ENNReal

variable {R : Type} [Fintype R] [DecidableEq R] {n : ℕ} {L : Fin n → ℕ} [∀ d, NeZero (L d)]

/-- **C94, staples.** At every site of the parity that is updated the sum of the staples exists, and it gives exactly the change of the action when the link gets another
value. -/
theorem C94_staples (hL : ∀ d, Even (L d)) (hn : 2 ≤ n) (beta : ℝ) (H : ZField L) {sw : ZShift L} (hs : AntiShift sw) (d : Fin n) (par : Parity) (x : PSite L)
    (hx : VisitsPar par x) :
    ∃ st, zStaples H sw d par x = some st ∧ ∀ k : ℤ, zAction beta (update H d (update (H d) x k)) sw - zAction beta H sw =
      beta / 2 * ((2 * (n - 1) * (k : ℝ) ^ 2 + k * st) - (2 * (n - 1) * (H d x : ℝ) ^ 2 + H d x * st)) := by
  refine ⟨_, zStaples_eq hL hn H sw d par x hx, fun k => ?_⟩
  have h := zAction_zSetLink hL (by omega : 1 ≤ n) beta H hs d x k
  unfold zSetLink at h
  rw [h]
  unfold zLinkAction
  norm_num
  left
  ring

example : ∃ (L : Fin 4 → ℕ), (∀ d, Even (L d)) ∧ (∀ d, NeZero (L d)) ∧ ∃ H : ZField L, zCurl H 0 1 0 ≠ 0 ∧ AntiShift (staggered 3 : ZShift L) :=
  ⟨fun _ => 4, fun _ => ⟨2, rfl⟩, fun _ => ⟨by norm_num⟩, fun d x => if d = 0 ∧ x = 0 then 1 else 0, by decide +kernel, by
    have : ∀ d : Fin 4, NeZero ((fun _ => 4 : Fin 4 → ℕ) d) := fun _ => ⟨by norm_num⟩
    exact staggered_anti 3⟩

theorem zUpdates_lift (hL : ∀ d, Even (L d)) (hn : 2 ≤ n) (p : ZPars) (et : Fin n) {s0 : ZShift L} (hs : AntiShift s0)
    (own : PSite L → R) (root : R) (vis : ℕ → Fin n → Bool → List (PSite L)) (hvis : ∀ j d b, ∀ x ∈ vis j d b, VisitsPar (parityOf b) x)
    (l : List ℕ) (hp : l = [] ∨ 0 < p.nUpdate + p.nOr + p.nPs + p.nSs) (z : (ZIdx L → ℤ) × (R → ℕ → ℝ)) (hz : GoodStreams z.2) :
    l.foldlM (fun s j => zTurn p et own root (vis j) s) (zLift s0 z) = some (zLift s0 (l.foldl (fun z j => zTurnR p s0 et own root (vis j) z) z)) := by
  induction l generalizing z with
  | nil => rfl
  | cons j l ih =>
    have hp' : 0 < p.nUpdate + p.nOr + p.nPs + p.nSs := hp.resolve_left (List.cons_ne_nil _ _)
    rw [List.foldlM_cons, zTurn_lift hL hn p hp' et hs own root (vis j) (hvis j) z hz, List.foldl_cons]
    exact ih (Or.inr hp') _ (good_chosen p s0 et own root (vis j) _ _ _ (good_drawAll hz 2))

/-- **C94.** All configurations of integer links, and of the signs of the shifts if they are dynamic, have the weight `exp(-action)`. With independent uniform numbers on
all ranks, the updates of a trajectory never use an element that has not been assigned, and they keep this weight: a set of configurations has the same weight before
and after them. This holds for every order in which the loops visit the sites, for every numbers of updates of the four types and for every distribution of the sites
to ranks. -/
theorem C94_samples (hL : ∀ d, Even (L d)) (hn : 2 ≤ n) (p : ZPars) (hb : 0 ≤ p.beta) (dynamic : Bool) (et : Fin n) (het : et.val + 1 = n) (s0 : ZShift L)
    (hs : AntiShift s0) (hsound : ZSound p dynamic et s0) (own : PSite L → R) (root : R) (vis : ℕ → Fin n → Bool → List (PSite L))
    (hvis : ∀ j d b, ∀ x ∈ vis j d b, VisitsPar (parityOf b) x) :
    (∀ᵐ z ∂(zWeights dynamic p.beta s0).prod (rankStreams R), (zUpdates p et own root vis (zLinks z.1, zShifts s0 z.1, z.2)).isSome) ∧
    ∀ B : Set (ZState L R), MeasurableSet {z : (ZIdx L → ℤ) × (R → ℕ → ℝ) | (zLinks z.1, zShifts s0 z.1, z.2) ∈ B} →
      ((zWeights dynamic p.beta s0).prod (rankStreams R)) {z | ∃ s ∈ B, zUpdates p et own root vis (zLinks z.1, zShifts s0 z.1, z.2) = some s} =
        ((zWeights dynamic p.beta s0).prod (rankStreams R)) {z | (zLinks z.1, zShifts s0 z.1, z.2) ∈ B} := by
  set N := p.nUpdate + p.nOr + p.nPs + p.nSs with hN
  set T : (ZIdx L → ℤ) × (R → ℕ → ℝ) → (ZIdx L → ℤ) × (R → ℕ → ℝ) := fun z => (List.range (N * (2 * n))).foldl (fun z j => zTurnR p s0 et own root (vis j) z) z with hT
  have hmp : MeasurePreserving T ((zWeights dynamic p.beta s0).prod (rankStreams R)) ((zWeights dynamic p.beta s0).prod (rankStreams R)) :=
    foldl_preserving _ (fun j z => zTurnR p s0 et own root (vis j) z) _ fun j _ => zTurnR_preserving hL hn hb het hs hsound own root (vis j)
  have hgood : ∀ᵐ z ∂(zWeights dynamic p.beta s0).prod (rankStreams R), GoodStreams z.2 := Measure.quasiMeasurePreserving_snd.ae streams_good
  have hrun : ∀ z : (ZIdx L → ℤ) × (R → ℕ → ℝ), GoodStreams z.2 → zUpdates p et own root vis (zLinks z.1, zShifts s0 z.1, z.2) = some (zLift s0 (T z)) := by
    intro z hz
    refine zUpdates_lift hL hn p et hs own root vis hvis _ ?_ z hz
    rcases Nat.eq_zero_or_pos N with h | h
    · left
      rw [← hN, h]
      simp
    · exact Or.inr h
  constructor
  · filter_upwards [hgood] with z hz
    rw [hrun z hz]
    rfl
  · intro B hB
    rw [← hmp.measure_preimage hB.nullMeasurableSet]
    refine measure_congr ?_
    filter_upwards [hgood] with z hz
    refine propext ?_
    show (∃ s ∈ B, zUpdates p et own root vis (zLinks z.1, zShifts s0 z.1, z.2) = some s) ↔ zLift s0 (T z) ∈ B
    rw [hrun z hz]
    constructor
    · rintro ⟨s, hs, h⟩
      rwa [Option.some.inj h]
    · exact fun h => ⟨_, h, rfl⟩

/-- The hypotheses hold for the program with shifts of type 2, with the move and without updates of the shifts, and for the program with updates of the shifts without
the move. -/
example : ZSound ⟨1.5, 4, 2, 0, 1, true⟩ false (3 : Fin 4) (staggered 3 : ZShift fun _ => 4) ∧ ZSound ⟨1.5, 4, 2, 1, 0, true⟩ true (3 : Fin 4) (staggered 3 : ZShift fun _ => 4) :=
  ⟨⟨Or.inl rfl, Or.inr (Or.inr ⟨rfl, rfl⟩)⟩, Or.inr rfl, Or.inr (Or.inl rfl)⟩

/-! ### The move -/

/-- **C94, the shifts at the start.** With `PLAQ_SHIFT` 2 the shift of a plaquette with the last direction has the sign of the parity of the other coordinates of its
site: it does not change along the last direction, and plaquettes without the last direction have none. -/
theorem C94_start (et d : Fin n) (hd : d ≠ et) (x : PSite L) :
    (staggered et d et x : ℝ) = (-1) ^ (∑ e ∈ Finset.univ.erase et, (x e).val) / 2 ∧ (staggered et et d x : ℝ) = -staggered et d et x ∧
      ∀ e, e ≠ et → (staggered et d e x : ℝ) = 0 := by
  refine ⟨?_, ?_, ?_⟩
  · unfold staggered
    rw [if_neg hd, if_pos rfl]
    by_cases h : uEven et x
    · rw [if_pos h, Even.neg_one_pow (Nat.even_iff.2 h)]
    · rw [if_neg h, Odd.neg_one_pow (Nat.odd_iff.2 (by unfold uEven at h; omega))]
  · unfold staggered
    rw [if_neg hd.symm, if_neg hd, if_pos rfl, if_neg hd, if_pos rfl]
    split <;> norm_num
  · intro e he
    unfold staggered
    rw [if_neg he, if_neg hd]
    split <;> rfl

/-- **C94, the move.** With the shifts for which it was written the move of all links in a direction other than the last keeps the action, and the move back is its
inverse. -/
theorem C94_site_shift (hL : ∀ d, Even (L d)) (et d : Fin n) (hd : d ≠ et) (H : ZField L) (back : Bool) :
    (∀ beta, zAction beta (zMoved et H d back) (staggered et) = zAction beta H (staggered et)) ∧ zMoved et (zMoved et H d back) d (!back) = H := by
  refine ⟨fun beta => zMoved_action hL hd beta H back, ?_⟩
  funext a x
  have e : zFrom d back (zFrom d (!back) x) = x := by
    unfold zFrom
    cases back
    · show x - unitStep d + unitStep d = x
      abel
    · show x + unitStep d - unitStep d = x
      abel
  rw [zMoved_eq, zMoved_eq, e, add_assoc]
  unfold zAdded
  by_cases ha : a = et
  · simp only [if_pos ha, uEven_from hL hd]
    by_cases hx : uEven et x <;> cases back <;> simp [hx]
  · simp [ha]

/-- **The move changes the action when the shifts have changed.** It always takes the shifts to be those of the start. After updates of the shifts they need not be: when
all have changed their sign the move multiplies the action of the configuration without links by 9. It is accepted always, so it does not keep the weights. -/
theorem C94_site_shift_wrong (hL : ∀ d, Even (L d)) (hn : 2 ≤ n) (beta : ℝ) (hb : 0 < beta) (et d : Fin n) (het : et.val + 1 = n) (hd : d ≠ et) :
    zAction beta (zMoved et (fun _ _ => 0 : ZField L) d false) (fun a b x => -staggered et a b x) = 9 * zAction beta (fun _ _ => 0 : ZField L) (fun a b x => -staggered et a b x) ∧
      0 < zAction beta (fun _ _ => 0 : ZField L) (fun a b x => -staggered et a b x) := by
  have hmax : ∀ a b : Fin n, a < b → a ≠ et := fun a b h e => by
    subst e
    have := b.isLt
    have : a.val < b.val := h
    omega
  have hpl : ∀ a b : Fin n, a < b → ∀ x : PSite L, ((zCurl (zMoved et (fun _ _ => 0 : ZField L) d false) a b x : ℝ) + -staggered et a b x) ^ 2 =
      9 * ((zCurl (fun _ _ => 0 : ZField L) a b x : ℝ) + -staggered et a b x) ^ 2 := by
    intro a b hab x
    have ha := hmax a b hab
    unfold zCurl
    simp only [zMoved_eq]
    unfold zAdded staggered
    simp only [if_neg hab.ne, if_neg ha]
    by_cases hb' : b = et
    · subst hb'
      simp only [if_true, uEven_add hL ha]
      by_cases hx : uEven b x <;> simp [hx] <;> norm_num
    · simp [hb']
  constructor
  · rw [zAction_planes, zAction_planes, mul_left_comm]
    congr 1
    rw [Finset.mul_sum]
    refine Finset.sum_congr rfl fun a _ => ?_
    rw [Finset.mul_sum]
    refine Finset.sum_congr rfl fun b _ => ?_
    split
    · next h =>
      unfold planeSum
      rw [Finset.mul_sum]
      exact Finset.sum_congr rfl fun x _ => hpl a b h x
    · rw [mul_zero]
  · rw [zAction_planes]
    refine mul_pos (by linarith) ?_
    have hnn : ∀ a b : Fin n, 0 ≤ if a < b then planeSum (fun _ _ => 0 : ZField L) (fun a b x => -staggered et a b x) a b else 0 := by
      intro a b
      split
      · unfold planeSum
        exact Finset.sum_nonneg fun x _ => sq_nonneg _
      · exact le_rfl
    have hlt : d < et := by
      have := d.isLt
      have h2 : d.val ≠ et.val := fun e => hd (Fin.ext e)
      exact Fin.lt_def.2 (by omega)
    refine Finset.sum_pos' (fun a _ => Finset.sum_nonneg fun b _ => hnn a b) ⟨d, Finset.mem_univ _, Finset.sum_pos' (fun b _ => hnn d b) ⟨et, Finset.mem_univ _, ?_⟩⟩
    rw [if_pos hlt]
    unfold planeSum
    refine Finset.sum_pos (fun x _ => ?_) Finset.univ_nonempty
    have : (staggered et d et x : ℝ) ^ 2 = 1 / 4 := by
      unfold staggered
      rw [if_neg hlt.ne, if_pos rfl]
      split <;> norm_num
    unfold zCurl
    norm_num
    nlinarith

/-! ### The shift of all links of a direction -/

/-- **C94, the shift of all links of a direction.** After it the links at the origin are zero, and no plaquette and no action has changed. -/
theorem C94_normalise (H : ZField L) (d : Fin n) : zNormalise H d 0 = 0 ∧ (∀ a b x, zCurl (zNormalise H) a b x = zCurl H a b x) ∧
    ∀ beta sw, zAction beta (zNormalise H) sw = zAction beta H sw := by
  have e : ∀ a x, zNormalise H a x = H a x - H a 0 := by
    intro a x
    unfold zNormalise
    dsimp only
    split
    · ring
    · next h =>
      have : H a 0 = 0 := by
        by_contra h2
        exact h (by simpa using h2)
      rw [this, sub_zero]
  have h2 : ∀ a b x, zCurl (zNormalise H) a b x = zCurl H a b x := by
    intro a b x
    unfold zCurl
    simp only [e]
    ring
  refine ⟨by rw [e, sub_self], h2, fun beta sw => ?_⟩
  rw [zAction_planes, zAction_planes]
  unfold planeSum
  simp only [h2]

/-- **C94, a trajectory.** For everything that the shift of all links of a direction does not change, like the plaquettes, a trajectory keeps the weights. -/
theorem C94_trajectory_partial (hL : ∀ d, Even (L d)) (hn : 2 ≤ n) (p : ZPars) (hb : 0 ≤ p.beta) (dynamic : Bool) (et : Fin n) (het : et.val + 1 = n) (s0 : ZShift L)
    (hs : AntiShift s0) (hsound : ZSound p dynamic et s0) (own : PSite L → R) (root : R) (vis : ℕ → Fin n → Bool → List (PSite L))
    (hvis : ∀ j d b, ∀ x ∈ vis j d b, VisitsPar (parityOf b) x) (B : Set (ZState L R))
    (hinv : ∀ (H : ZField L) (a : Fin n → ℤ) sw ω, (fun d x => H d x + a d, sw, ω) ∈ B ↔ (H, sw, ω) ∈ B)
    (hB : MeasurableSet {z : (ZIdx L → ℤ) × (R → ℕ → ℝ) | (zLinks z.1, zShifts s0 z.1, z.2) ∈ B}) :
    ((zWeights dynamic p.beta s0).prod (rankStreams R)) {z | ∃ s ∈ B, zTrajectory p et own root vis (zLinks z.1, zShifts s0 z.1, z.2) = some s ∧ ∀ d, s.1 d 0 = 0} =
      ((zWeights dynamic p.beta s0).prod (rankStreams R)) {z | (zLinks z.1, zShifts s0 z.1, z.2) ∈ B} := by
  rw [← (C94_samples hL hn p hb dynamic et het s0 hs hsound own root vis hvis).2 B hB]
  congr 1
  ext z
  show (∃ s ∈ B, zTrajectory p et own root vis (zLinks z.1, zShifts s0 z.1, z.2) = some s ∧ ∀ d, s.1 d 0 = 0) ↔
    ∃ s ∈ B, zUpdates p et own root vis (zLinks z.1, zShifts s0 z.1, z.2) = some s
  unfold zTrajectory
  have e : ∀ s : ZState L R, (zNormalise s.1, s.2) ∈ B ↔ s ∈ B := by
    intro s
    have h := hinv s.1 (fun d => -s.1 d 0) s.2.1 s.2.2
    rw [← h]
    have : zNormalise s.1 = fun d x => s.1 d x + -s.1 d 0 := by
      funext d x
      unfold zNormalise
      dsimp only
      split
      · rfl
      · next h2 => rw [not_not.1 h2, add_zero]
    rw [this]
  constructor
  · rintro ⟨s, h1, h2, -⟩
    obtain ⟨t, h3, rfl⟩ := Option.map_eq_some_iff.1 h2
    exact ⟨t, (e t).1 h1, h3⟩
  · rintro ⟨t, h1, h2⟩
    exact ⟨_, (e t).2 h1, by rw [h2]; rfl, fun d => (C94_normalise t.1 d).1⟩

/-- Sets of plaquettes are such sets. -/
example (C : Set (Fin n → Fin n → PSite L → ℤ)) (H : ZField L) (a : Fin n → ℤ) (sw : ZShift L) (ω : R → ℕ → ℝ) :
    (fun d x => H d x + a d, sw, ω) ∈ {s : ZState L R | zCurl s.1 ∈ C} ↔ (H, sw, ω) ∈ {s : ZState L R | zCurl s.1 ∈ C} := by
  have : zCurl (fun d x => H d x + a d) = zCurl H := by
    funext b c x
    unfold zCurl
    ring
  show zCurl (fun d x => H d x + a d) ∈ C ↔ zCurl H ∈ C
  rw [this]

/-- Under a shift of the links of a direction by `a` the staples change by `-4 (n - 1) a`. -/
theorem C94_staples_shifted (hL : ∀ d, Even (L d)) (hn : 2 ≤ n) (H : ZField L) (sw : ZShift L) (d : Fin n) (par : Parity) (x : PSite L) (hx : VisitsPar par x) (a : ℤ) :
    zStaples (update H d fun y => H d y + a) sw d par x = (zStaples H sw d par x).map fun st => st - 4 * ((n : ℝ) - 1) * a := by
  rw [zStaples_eq hL hn _ _ _ _ _ hx, zStaples_eq hL hn _ _ _ _ _ hx, Option.map_some]
  congr 1
  unfold zStapleSpec
  rw [eq_sub_iff_add_eq]
  have e : (4 * ((n : ℝ) - 1) * a) = ∑ b : Fin n, if b ≠ d then 4 * (a : ℝ) else 0 := by
    rw [Finset.sum_ite, Finset.sum_const_zero, add_zero, Finset.sum_const, Finset.filter_ne', Finset.card_erase_of_mem (Finset.mem_univ _), Finset.card_univ,
      Fintype.card_fin, nsmul_eq_mul, Nat.cast_sub (by omega)]
    push_cast
    ring
  rw [e, ← Finset.sum_add_distrib]
  refine Finset.sum_congr rfl fun b _ => ?_
  by_cases hb : b = d
  · simp [hb]
  · rw [if_pos hb, if_pos hb, if_pos hb]
    simp only [update_self, update_of_ne hb]
    push_cast
    ring

theorem lround_val {x : ℝ} {k : ℤ} (h : (0 ≤ x ∧ (k : ℝ) ≤ x + 1 / 2 ∧ x + 1 / 2 < k + 1) ∨ (x < 0 ∧ (k : ℝ) - 1 < x - 1 / 2 ∧ x - 1 / 2 ≤ k)) : lround x = k := by
  unfold lround
  rcases h with ⟨h0, h1, h2⟩ | ⟨h0, h1, h2⟩
  · rw [if_pos h0, Int.floor_eq_iff]
    exact ⟨h1, h2⟩
  · rw [if_neg (not_le.2 h0), Int.ceil_eq_iff]
    exact ⟨h1, h2⟩

/-- **The overrelaxation depends on the shift of all links.** The comment says that the values may be shifted because the action does not change. But the rounding is away
from zero: in four dimensions a link 1 with staples -15 is moved to 2 if the drawn number is small enough, and the same link after a shift by -2, which has the staples
-15 + 24, stays as it is. So the shift at the end of a trajectory changes what the next one does. -/
theorem C94_relax_shift_wrong (beta : ℝ) (r : R) (ω : R → ℕ → ℝ) (h : (drawAt r ω).1 < Real.exp (-0.5 * beta * 3)) :
    (zOverrelax 4 1 (-15) beta r ω).1 = 2 ∧ (zOverrelax 4 (1 + (-2)) (-15 - 4 * (4 - 1) * (-2)) beta r ω).1 = 1 + (-2) := by
  have hs3 : Real.sqrt 9 = 3 := by
    rw [show (9 : ℝ) = 3 ^ 2 by norm_num, Real.sqrt_sq (by norm_num)]
  have hs9 : Real.sqrt 81 = 9 := by
    rw [show (81 : ℝ) = 9 ^ 2 by norm_num, Real.sqrt_sq (by norm_num)]
  have a1 : zLinkAction 4 (-15) 1 = -9 := by unfold zLinkAction; norm_num
  have a2 : zLinkAction 4 (-15) 2 = -6 := by unfold zLinkAction; norm_num
  have u1 : zRootUp 4 (-15) (-9) = 2 := by
    unfold zRootUp
    norm_num [hs3]
    exact lround_val (Or.inl (by norm_num))
  have d2 : zRootDown 4 (-15) (-6) = 1 := by
    unfold zRootDown
    norm_num [hs9]
    exact lround_val (Or.inl (by norm_num))
  have b1 : zLinkAction 4 9 (-1) = -3 := by unfold zLinkAction; norm_num
  have v1 : zRootUp 4 9 (-3) = -1 := by
    unfold zRootUp
    norm_num [hs3]
    exact lround_val (Or.inr (by norm_num))
  have w1 : zRootDown 4 9 (-3) = -1 := by
    unfold zRootDown
    norm_num [hs3]
    exact lround_val (Or.inr (by norm_num))
  constructor
  · unfold zOverrelax
    dsimp only
    rw [a1, u1, if_pos (by norm_num), a2, d2, if_neg (by norm_num)]
    unfold zDecide
    rw [if_neg (by norm_num)]
    dsimp only
    rw [if_pos (by rw [show (-6 : ℝ) - -9 = 3 by norm_num]; exact h)]
  · rw [show (1 : ℤ) + (-2) = -1 by norm_num, show (-15 : ℝ) - 4 * (4 - 1) * (-2) = 9 by norm_num]
    unfold zOverrelax
    dsimp only
    rw [b1, v1, if_neg (by norm_num), w1, b1, v1, if_neg (by norm_num)]
    unfold zDecide
    rw [if_neg (by norm_num)]
    dsimp only
    split <;> rfl

example : ∃ ω : Unit → ℕ → ℝ, (drawAt () ω).1 < Real.exp (-0.5 * 2 * 3) := ⟨fun _ _ => 0, Real.exp_pos _⟩

/-! ### Measurements -/

/-- **C94, the density of the action.** What is measured is the action divided by `beta / 2` and the number of plaquettes. -/
theorem C94_density (hn : 2 ≤ n) (beta : ℝ) (H : ZField L) (sw : ZShift L) :
    beta / 2 * (Fintype.card (PSite L) * (n * (n - 1) / 2)) * zPlaqDens (zPlaqField H sw) = zAction beta H sw := by
  have hV : (0 : ℝ) < Fintype.card (PSite L) := by exact_mod_cast Fintype.card_pos
  have hn' : (2 : ℝ) ≤ n := by exact_mod_cast hn
  have e : (∑ d1, ∑ d2, if d1 < d2 then ∑ x, zPlaqField H sw d1 d2 x ^ 2 else 0) = ∑ a, ∑ b, if a < b then planeSum H sw a b else 0 := by
    refine Finset.sum_congr rfl fun a _ => Finset.sum_congr rfl fun b _ => ?_
    split
    · next h =>
      unfold planeSum zPlaqField
      simp only [if_neg h.ne, if_pos h]
    · rfl
  unfold zPlaqDens
  rw [e, zAction_planes]
  have hne : (Fintype.card (PSite L) : ℝ) * n * (n - 1) * 0.5 ≠ 0 := by
    have h1 : (0 : ℝ) < (n : ℝ) - 1 := by linarith
    have h2 : (0 : ℝ) < (n : ℝ) := by linarith
    positivity
  rw [show (Fintype.card (PSite L) : ℝ) * (n * (n - 1) / 2) = Fintype.card (PSite L) * n * (n - 1) * 0.5 by norm_num; ring, mul_assoc, mul_div_cancel₀ _ hne]

/-- The plaquettes change their sign when the directions are exchanged. -/
theorem C94_plaq_anti (H : ZField L) (sw : ZShift L) : AntiShift (zPlaqField H sw) := by
  intro a b x
  unfold zPlaqField
  rcases lt_trichotomy a b with h | h | h
  · rw [if_neg h.ne', if_neg h.not_gt, if_neg h.ne, if_pos h]
  · subst h; simp
  · rw [if_neg h.ne, if_pos h, if_neg h.ne', if_neg h.not_gt, neg_neg]

/-- All permutations of the four directions with their signs. -/
theorem perms_four (σ : Equiv.Perm (Fin 4)) : (σ 0, σ 1, σ 2, σ 3, (Equiv.Perm.sign σ : ℤ)) ∈
    ([(0, 1, 2, 3, 1), (0, 1, 3, 2, -1), (0, 2, 1, 3, -1), (0, 2, 3, 1, 1), (0, 3, 1, 2, 1), (0, 3, 2, 1, -1),
      (1, 0, 2, 3, -1), (1, 0, 3, 2, 1), (1, 2, 0, 3, 1), (1, 2, 3, 0, -1), (1, 3, 0, 2, -1), (1, 3, 2, 0, 1),
      (2, 0, 1, 3, 1), (2, 0, 3, 1, -1), (2, 1, 0, 3, -1), (2, 1, 3, 0, 1), (2, 3, 0, 1, 1), (2, 3, 1, 0, -1),
      (3, 0, 1, 2, -1), (3, 0, 2, 1, 1), (3, 1, 0, 2, 1), (3, 1, 2, 0, -1), (3, 2, 0, 1, -1), (3, 2, 1, 0, 1)] : List (Fin 4 × Fin 4 × Fin 4 × Fin 4 × ℤ)) := by
  revert σ
  decide +kernel

/-- **C94, the dual.** The dual of a plaquette is, up to one common sign, the plaquette in the other two directions with the sign of the permutation; what the field
contained before does not matter. -/
theorem C94_dual {X : Type} (plaq old : Fin 4 → Fin 4 → X → ℝ) (ha : ∀ a b x, plaq b a x = -plaq a b x) (σ : Equiv.Perm (Fin 4)) (x : X) :
    dualPlaq plaq old (σ 0) (σ 1) x = -((Equiv.Perm.sign σ : ℤ) : ℝ) * plaq (σ 2) (σ 3) x ∧ dualPlaq plaq old (σ 0) (σ 0) x = 0 := by
  have h := perms_four σ
  generalize (Equiv.Perm.sign σ : ℤ) = s at h ⊢
  generalize σ 0 = a at h ⊢
  generalize σ 1 = b at h ⊢
  generalize σ 2 = c at h ⊢
  generalize σ 3 = d at h ⊢
  have h10 := ha 0 1 x
  have h20 := ha 0 2 x
  have h30 := ha 0 3 x
  have h21 := ha 1 2 x
  have h31 := ha 1 3 x
  have h32 := ha 2 3 x
  simp only [List.mem_cons, List.not_mem_nil, or_false, Prod.mk.injEq] at h
  rcases h with h | h | h | h | h | h | h | h | h | h | h | h | h | h | h | h | h | h | h | h | h | h | h | h <;> obtain ⟨rfl, rfl, rfl, rfl, rfl⟩ := h <;>
    constructor <;> simp [dualPlaq, dualTurn, List.finRange_succ, h10, h20, h30, h21, h31, h32]

/-- **C94, the dual of the dual** is the field itself. -/
theorem C94_dual_dual {X : Type} (plaq old old' : Fin 4 → Fin 4 → X → ℝ) (ha : ∀ a b x, plaq b a x = -plaq a b x) : dualPlaq (dualPlaq plaq old) old' = plaq := by
  have h1 := fun a b x => ha a b x
  funext a b x
  have h10 := ha 0 1 x
  have h20 := ha 0 2 x
  have h30 := ha 0 3 x
  have h21 := ha 1 2 x
  have h31 := ha 1 3 x
  have h32 := ha 2 3 x
  have hd : ∀ a, plaq a a x = 0 := fun a => by linarith [ha a a x]
  fin_cases a <;> fin_cases b <;> simp [dualPlaq, dualTurn, List.finRange_succ, h10, h20, h30, h21, h31, h32, hd]

/-- The plaquettes of the program satisfy the hypothesis. -/
example {L : Fin 4 → ℕ} [∀ d, NeZero (L d)] (H : ZField L) (sw old : ZShift L) (x : PSite L) :
    dualPlaq (zPlaqField H sw) old 0 1 x = -zPlaqField H sw 2 3 x := by
  have h := (C94_dual (zPlaqField H sw) old (C94_plaq_anti H sw) 1 x).1
  simpa using h

end Hila
