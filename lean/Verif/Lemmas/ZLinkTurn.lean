import Verif.Lemmas.ZLinkMove
import Verif.Props.GaugeUpdate

/-!
# Lemmas for C94: a turn of the update
-/

set_option linter.unusedSectionVars false

namespace Hila

open MeasureTheory Function
open scoped ENNReal

variable {R : Type} [Fintype R] [DecidableEq R] {n : ℕ} {L : Fin n → ℕ} [∀ d, NeZero (L d)]

/-- The move for the drawn number. -/
def zMoveStep (et : Fin n) (tdp : ℕ) (z : (ZIdx L → ℤ) × (R → ℕ → ℝ)) : (ZIdx L → ℤ) × (R → ℕ → ℝ) :=
  if h : tdp / 2 + 1 < n then (zMoveR et ⟨tdp / 2, by omega⟩ (tdp % 2 = 1) z.1, z.2) else z

/-- The move with its draw. -/
noncomputable def zSiteShiftR (enabled : Bool) (et : Fin n) (root : R) (z : (ZIdx L → ℤ) × (R → ℕ → ℝ)) : (ZIdx L → ℤ) × (R → ℕ → ℝ) :=
  if enabled then zMoveStep et ⌊z.2 root 0 * 2 * ((n - 1 : ℕ) : ℝ)⌋.toNat (z.1, zDrawAll 1 z.2) else z

/-- The update that was chosen. -/
noncomputable def zChosen (p : ZPars) (s0 : ZShift L) (et : Fin n) (own : PSite L → R) (root : R) (vis : Fin n → Bool → List (PSite L)) (ty tdp : ℕ)
    (z : (ZIdx L → ℤ) × (R → ℕ → ℝ)) : (ZIdx L → ℤ) × (R → ℕ → ℝ) :=
  if h : tdp / 2 < n then
    if ty < p.nUpdate then (vis ⟨tdp / 2, h⟩ (tdp % 2 = 1)).foldl (zLinkR s0 p.beta own false ⟨tdp / 2, h⟩) z
    else if ty < p.nUpdate + p.nOr then (vis ⟨tdp / 2, h⟩ (tdp % 2 = 1)).foldl (zLinkR s0 p.beta own true ⟨tdp / 2, h⟩) z
    else if ty < p.nUpdate + p.nOr + p.nPs then
      ((List.finRange n).filter (· ≠ ⟨tdp / 2, h⟩)).foldl (fun z d2 => (vis d2 (tdp % 2 = 1)).foldl (zShiftR s0 p.beta own ⟨tdp / 2, h⟩ d2) z) z
    else if ty < p.nUpdate + p.nOr + p.nPs + p.nSs then zSiteShiftR p.shiftOn et root z
    else z
  else z

/-- The turn on configurations. -/
noncomputable def zTurnR (p : ZPars) (s0 : ZShift L) (et : Fin n) (own : PSite L → R) (root : R) (vis : Fin n → Bool → List (PSite L))
    (z : (ZIdx L → ℤ) × (R → ℕ → ℝ)) : (ZIdx L → ℤ) × (R → ℕ → ℝ) :=
  zChosen p s0 et own root vis ⌊z.2 root 0 * ((p.nUpdate + p.nOr + p.nPs + p.nSs : ℕ) : ℝ)⌋.toNat ⌊z.2 root 1 * 2 * (n : ℝ)⌋.toNat (z.1, zDrawAll 2 z.2)

instance zWeights_sfinite (dynamic : Bool) (beta : ℝ) (s0 : ZShift L) : SFinite (zWeights dynamic beta s0) := by
  unfold zWeights boltzmann
  infer_instance

theorem zMoveStep_preserving (hL : ∀ d, Even (L d)) {et : Fin n} (het : et.val + 1 = n) (beta : ℝ) (tdp : ℕ) :
    MeasurePreserving (zMoveStep (L := L) (R := R) et tdp) ((zWeights false beta (staggered et)).prod (rankStreams R))
      ((zWeights false beta (staggered et)).prod (rankStreams R)) := by
  unfold zMoveStep
  by_cases h : tdp / 2 + 1 < n
  · simp only [dif_pos h]
    have hd : (⟨tdp / 2, by omega⟩ : Fin n) ≠ et := fun e => by
      have := congrArg Fin.val e
      simp only at this
      omega
    exact (zMoveR_preserving hL hd beta _).prod (MeasurePreserving.id _)
  · simp only [dif_neg h]
    exact MeasurePreserving.id _

theorem zSiteShiftR_preserving (hL : ∀ d, Even (L d)) {et : Fin n} (het : et.val + 1 = n) (beta : ℝ) (root : R) (enabled : Bool) :
    MeasurePreserving (zSiteShiftR (L := L) enabled et root) ((zWeights false beta (staggered et)).prod (rankStreams R))
      ((zWeights false beta (staggered et)).prod (rankStreams R)) := by
  unfold zSiteShiftR
  cases enabled
  · exact MeasurePreserving.id _
  · exact choice_preserving _ root _ (pick2_measurable _) _ fun o => zMoveStep_preserving hL het beta o

theorem zChosen_preserving (hL : ∀ d, Even (L d)) (hn : 2 ≤ n) {p : ZPars} (hb : 0 ≤ p.beta) {dynamic : Bool} {et : Fin n} (het : et.val + 1 = n) {s0 : ZShift L}
    (hs : AntiShift s0) (hsound : ZSound p dynamic et s0) (own : PSite L → R) (root : R) (vis : Fin n → Bool → List (PSite L)) (ty tdp : ℕ) :
    MeasurePreserving (zChosen p s0 et own root vis ty tdp) ((zWeights dynamic p.beta s0).prod (rankStreams R)) ((zWeights dynamic p.beta s0).prod (rankStreams R)) := by
  unfold zChosen
  by_cases h : tdp / 2 < n
  · simp only [dif_pos h]
    by_cases h1 : ty < p.nUpdate
    · simp only [if_pos h1]
      exact foldl_preserving _ (fun x z => zLinkR s0 p.beta own false ⟨tdp / 2, h⟩ z x) _ fun x _ => zLinkR_preserving hL hn hb dynamic hs own false _ x
    · simp only [if_neg h1]
      by_cases h2 : ty < p.nUpdate + p.nOr
      · simp only [if_pos h2]
        exact foldl_preserving _ (fun x z => zLinkR s0 p.beta own true ⟨tdp / 2, h⟩ z x) _ fun x _ => zLinkR_preserving hL hn hb dynamic hs own true _ x
      · simp only [if_neg h2]
        by_cases h3 : ty < p.nUpdate + p.nOr + p.nPs
        · simp only [if_pos h3]
          have hdyn : dynamic = true := by
            rcases hsound.1 with h4 | h4
            · omega
            · exact h4
          subst hdyn
          refine foldl_preserving _ (fun d2 z => (vis d2 (tdp % 2 = 1)).foldl (zShiftR s0 p.beta own ⟨tdp / 2, h⟩ d2) z) _ fun d2 hd2 => ?_
          have hne : d2 ≠ ⟨tdp / 2, h⟩ := by simpa using (List.mem_filter.1 hd2).2
          exact foldl_preserving _ (fun x z => zShiftR s0 p.beta own ⟨tdp / 2, h⟩ d2 z x) _ fun x _ => zShiftR_preserving hb hs own hne x
        · simp only [if_neg h3]
          by_cases h4 : ty < p.nUpdate + p.nOr + p.nPs + p.nSs
          · simp only [if_pos h4]
            rcases hsound.2 with h5 | h5 | ⟨h5, h6⟩
            · rw [h5]
              exact MeasurePreserving.id _
            · omega
            · subst h5 h6
              exact zSiteShiftR_preserving hL het p.beta root p.shiftOn
          · simp only [if_neg h4]
            exact MeasurePreserving.id _
  · simp only [dif_neg h]
    exact MeasurePreserving.id _

theorem zDrawAll_two (ω : R → ℕ → ℝ) : zDrawAll 2 ω = zDrawAll 1 (zDrawAll 1 ω) := by
  funext r i
  show ω r (2 + i) = ω r (1 + (1 + i))
  congr 1
  omega

theorem zTurnR_preserving (hL : ∀ d, Even (L d)) (hn : 2 ≤ n) {p : ZPars} (hb : 0 ≤ p.beta) {dynamic : Bool} {et : Fin n} (het : et.val + 1 = n) {s0 : ZShift L}
    (hs : AntiShift s0) (hsound : ZSound p dynamic et s0) (own : PSite L → R) (root : R) (vis : Fin n → Bool → List (PSite L)) :
    MeasurePreserving (zTurnR p s0 et own root vis) ((zWeights dynamic p.beta s0).prod (rankStreams R)) ((zWeights dynamic p.beta s0).prod (rankStreams R)) := by
  have h1 := fun ty => choice_preserving (zWeights dynamic p.beta s0) root _ (pick2_measurable (n : ℝ)) _ fun tdp => zChosen_preserving hL hn hb het hs hsound own root vis ty tdp
  have h2 := choice_preserving (zWeights dynamic p.beta s0) root _ (pick_measurable ((p.nUpdate + p.nOr + p.nPs + p.nSs : ℕ) : ℝ)) _ h1
  have e : zTurnR p s0 et own root vis = fun z => zChosen p s0 et own root vis ⌊z.2 root 0 * ((p.nUpdate + p.nOr + p.nPs + p.nSs : ℕ) : ℝ)⌋.toNat
      ⌊(zDrawAll 1 z.2) root 0 * 2 * (n : ℝ)⌋.toNat (z.1, zDrawAll 1 (zDrawAll 1 z.2)) := by
    funext z
    unfold zTurnR
    rw [zDrawAll_two]
    rfl
  rw [e]
  exact h2

/-! ### The program's turn -/

theorem good_drawAll {ω : R → ℕ → ℝ} (h : GoodStreams ω) (k : ℕ) : GoodStreams (zDrawAll k ω) := fun r i => h r (k + i)

theorem good_draw {ω : R → ℕ → ℝ} (h : GoodStreams ω) (r : R) : GoodStreams (drawAt r ω).2 := by
  intro r' i
  rw [drawAt_eq]
  by_cases e : r' = r
  · subst e
    simp only [update_self]
    exact h r' (1 + i)
  · simp only [update_of_ne e]
    exact h r' i

theorem good_decide {T : Type} {ω : R → ℕ → ℝ} (h : GoodStreams ω) (beta nds : ℝ) (a b : T) (r : R) : GoodStreams (zDecide beta nds a b r ω).2 := by
  unfold zDecide
  split
  · exact h
  · dsimp only
    split <;> exact good_draw h r

theorem good_newLink {ω : R → ℕ → ℝ} (h : GoodStreams ω) (n : ℕ) (relax : Bool) (k : ℤ) (st beta : ℝ) (r : R) : GoodStreams (zNewLink n relax k st beta r ω).2 := by
  unfold zNewLink
  split
  · unfold zOverrelax
    dsimp only
    split
    · split
      · exact h
      · exact good_decide h _ _ _ _ _
    · split
      · exact h
      · exact good_decide h _ _ _ _ _
  · exact good_decide (good_draw h r) _ _ _ _ _

theorem good_foldl {X A : Type} (f : X × (R → ℕ → ℝ) → A → X × (R → ℕ → ℝ)) (l : List A) (hf : ∀ a ∈ l, ∀ z, GoodStreams z.2 → GoodStreams (f z a).2)
    (z : X × (R → ℕ → ℝ)) (h : GoodStreams z.2) : GoodStreams (l.foldl f z).2 := by
  induction l generalizing z with
  | nil => exact h
  | cons a l ih => exact ih (fun b hb => hf b (List.mem_cons_of_mem _ hb)) _ (hf a List.mem_cons_self z h)

theorem good_chosen (p : ZPars) (s0 : ZShift L) (et : Fin n) (own : PSite L → R) (root : R) (vis : Fin n → Bool → List (PSite L)) (ty tdp : ℕ)
    (z : (ZIdx L → ℤ) × (R → ℕ → ℝ)) (h : GoodStreams z.2) : GoodStreams (zChosen p s0 et own root vis ty tdp z).2 := by
  unfold zChosen
  have hl : ∀ (relax : Bool) d (l : List (PSite L)), GoodStreams (l.foldl (zLinkR s0 p.beta own relax d) z).2 := fun relax d l =>
    good_foldl (zLinkR s0 p.beta own relax d) l (fun x _ z hz => good_newLink hz n relax _ _ _ _) z h
  split
  · split
    · exact hl _ _ _
    · split
      · exact hl _ _ _
      · split
        · next hd _ _ _ =>
          exact good_foldl (fun z d2 => (vis d2 (tdp % 2 = 1)).foldl (zShiftR s0 p.beta own ⟨tdp / 2, hd⟩ d2) z) _
            (fun d2 _ z hz => good_foldl (zShiftR s0 p.beta own ⟨tdp / 2, hd⟩ d2) _ (fun x _ z hz => good_decide hz _ _ _ _ _) z hz) z h
        · split
          · unfold zSiteShiftR
            split
            · unfold zMoveStep
              split <;> exact good_drawAll h 1
            · exact h
          · exact h
  · exact h

theorem floor_lt_of {a : ℝ} (h0 : 0 ≤ a) (h1 : a < 1) {m : ℕ} (hm : 0 < m) : 0 ≤ ⌊a * (m : ℝ)⌋ ∧ ⌊a * (m : ℝ)⌋.toNat < m := by
  have hm' : (0 : ℝ) < m := by exact_mod_cast hm
  have h2 : 0 ≤ ⌊a * (m : ℝ)⌋ := Int.floor_nonneg.2 (by positivity)
  have h3 : ⌊a * (m : ℝ)⌋ < m := Int.floor_lt.2 (by push_cast; nlinarith)
  exact ⟨h2, by omega⟩

theorem zSiteShift_lift {et : Fin n} (hn : 2 ≤ n) (s0 : ZShift L) (root : R) (enabled : Bool) (z : (ZIdx L → ℤ) × (R → ℕ → ℝ)) (hz : GoodStreams z.2) :
    zSiteShift enabled et root (zLift s0 z) = some (zLift s0 (zSiteShiftR enabled et root z)) := by
  unfold zSiteShift zSiteShiftR
  cases enabled
  · rfl
  · have h1 := floor_lt_of (hz root 0).1 (hz root 0).2 (m := 2 * (n - 1)) (by omega)
    have e : z.2 root 0 * 2 * ((n - 1 : ℕ) : ℝ) = z.2 root 0 * ((2 * (n - 1) : ℕ) : ℝ) := by push_cast; ring
    have h2 : ⌊z.2 root 0 * 2 * ((n - 1 : ℕ) : ℝ)⌋.toNat / 2 + 1 < n := by
      rw [e]
      omega
    simp only [if_true]
    unfold zMoveStep
    rw [dif_pos h2]
    exact dif_pos (by exact (by omega : ⌊z.2 root 0 * 2 * ((n - 1 : ℕ) : ℝ)⌋.toNat / 2 < n))

theorem zTurn_lift (hL : ∀ d, Even (L d)) (hn : 2 ≤ n) (p : ZPars) (hp : 0 < p.nUpdate + p.nOr + p.nPs + p.nSs) (et : Fin n) {s0 : ZShift L} (hs : AntiShift s0)
    (own : PSite L → R) (root : R) (vis : Fin n → Bool → List (PSite L)) (hvis : ∀ d b, ∀ x ∈ vis d b, VisitsPar (parityOf b) x)
    (z : (ZIdx L → ℤ) × (R → ℕ → ℝ)) (hz : GoodStreams z.2) :
    zTurn p et own root vis (zLift s0 z) = some (zLift s0 (zTurnR p s0 et own root vis z)) := by
  have h1 := floor_lt_of (hz root 0).1 (hz root 0).2 hp
  have h2 := floor_lt_of (hz root 1).1 (hz root 1).2 (m := 2 * n) (by omega)
  have e : z.2 root 1 * 2 * (n : ℝ) = z.2 root 1 * ((2 * n : ℕ) : ℝ) := by push_cast; ring
  have hpar : ∀ b, parityOf b = .even ∨ parityOf b = .odd := fun b => by cases b <;> simp [parityOf]
  unfold zTurn zTurnR zChosen
  have h3 : ⌊z.2 root 1 * 2 * (n : ℝ)⌋.toNat / 2 < n := by
    rw [e]
    omega
  have e2 : ∀ m : ℕ, ⌊z.2 root 0 * ((p.nUpdate + p.nOr + p.nPs + p.nSs : ℕ) : ℝ)⌋ < (m : ℤ) ↔
      ⌊z.2 root 0 * ((p.nUpdate + p.nOr + p.nPs + p.nSs : ℕ) : ℝ)⌋.toNat < m := fun m => by omega
  rw [dif_pos h3]
  refine (dif_pos h3).trans ?_
  have el : ((zLift s0 z).1, (zLift s0 z).2.1, zDrawAll 2 (zLift s0 z).2.2) = zLift s0 (z.1, zDrawAll 2 z.2) := rfl
  have e3 := e2 p.nUpdate
  have e4 := e2 (p.nUpdate + p.nOr)
  have e5 := e2 (p.nUpdate + p.nOr + p.nPs)
  push_cast at e3 e4 e5
  have e6 : (zLift s0 z).2.2 = z.2 := rfl
  rw [el]
  simp only [e6, Nat.cast_add]
  simp only [e3, e4, e5]
  simp only [Nat.cast_add] at h1
  rw [if_pos h1.2]
  split
  · exact zUpdateDir_lift hL hn s0 p.beta own false _ (hpar _) _ (hvis _ _) _
  · split
    · exact zUpdateDir_lift hL hn s0 p.beta own true _ (hpar _) _ (hvis _ _) _
    · split
      · exact congrArg some (zUpdateShifts_lift hs p.beta own _ _ _)
      · exact zSiteShift_lift hn s0 root p.shiftOn _ (good_drawAll hz 2)

end Hila
