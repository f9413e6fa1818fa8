import Verif.Model.HaloState
import Mathlib.Tactic.Tauto

/-! Invariant of the halo bookkeeping. -/

set_option linter.unusedSectionVars false

namespace Hila

section
variable {S D R V : Type} [DecidableEq D] [DecidableEq R] (g : Geo S D R)

/-- What the decomposition guarantees (shown for `Layout` in Props/HaloState). -/
structure Geo.OK : Prop where
  own : ∀ r d c, g.comm r d = false → g.owner c = r → g.owner (g.nb d c) = r
  part : ∀ d c, g.owner (g.nb d c) ≠ g.owner c → g.owner (g.nb d c) = g.partner (g.owner c) d
  commp : ∀ r d, g.comm r d = true → g.comm (g.partner r d) d = true
  par : ∀ c, g.parity c = .even ∨ g.parity c = .odd

/-- Neighbours on another rank have the opposite parity. -/
def Geo.Flip : Prop := ∀ d c, g.owner (g.nb d c) ≠ g.owner c →
  g.parity (g.nb d c) ≠ g.parity c

/-- Status table part of the invariant for one direction. -/
structure InvS (s : HState S D R V) (d : D) (σ : Parity → GStatus) : Prop where
  st : ∀ r, g.comm r d = true → (s.loc r).status d = σ
  infl : ∀ r, g.comm r d = true → ∀ p, (s.loc r).inflight d p = decide (σ p = .started)
  excl : σ .all ≠ .notDone → σ .even = .notDone ∧ σ .odd = .notDone

/-- Messages in flight and finished halos hold the current values. -/
structure DataOK (s : HState S D R V) (d : D) (σ : Parity → GStatus) (q : Parity) : Prop where
  buf : σ q = .started → ∀ c, g.owner (g.nb d c) ≠ g.owner c → q.visits (g.parity c) = true →
    (s.loc (g.partner (g.owner c) d)).sendbuf d q (g.nb d c) = s.val (g.nb d c)
  halo : σ q = .done → ∀ c, g.owner (g.nb d c) ≠ g.owner c → q.visits (g.parity c) = true →
    (s.loc (g.owner c)).halo d c = s.val (g.nb d c)

theorem DataOK.of_notDone {s : HState S D R V} {d : D} {σ : Parity → GStatus} {q : Parity}
    (h : σ q = .notDone) : DataOK g s d σ q := by
  refine ⟨fun h' => ?_, fun h' => ?_⟩ <;> rw [h] at h' <;> cases h'

/-- A proper parity. -/
def Parity.ok (p : Parity) : Prop := p ≠ .none

def NoErr (s : HState S D R V) : Prop := ∀ r, (s.loc r).err = false

def Full (s : HState S D R V) (d : D) : Prop :=
  ∃ σ, InvS g s d σ ∧ ∀ q, q.ok → DataOK g s d σ q

def Inv (s : HState S D R V) : Prop := (∀ d, Full g s d) ∧ NoErr s

/-! ### The status functions -/

/-- Parity `p` has been gathered or is being gathered. -/
def Under (σ : Parity → GStatus) (p : Parity) : Prop :=
  σ .all ≠ .notDone ∨ (p ≠ .all ∧ σ p ≠ .notDone) ∨
    (p = .all ∧ σ .even ≠ .notDone ∧ σ .odd ≠ .notDone)

theorem gs3 (x : GStatus) : x = .notDone ∨ x = .started ∨ x = .done := by cases x <;> simp

/-- On all communicating ranks parity `p` of direction `d` is gathered or under way. -/
def UnderS (s : HState S D R V) (d : D) (p : Parity) : Prop :=
  ∀ r, g.comm r d = true → Under ((s.loc r).status d) p

/-- On all communicating ranks parity `p` of direction `d` is gathered. -/
def GatheredS (s : HState S D R V) (d : D) (p : Parity) : Prop :=
  ∀ r, g.comm r d = true → isGathered ((s.loc r).status d) p = true

theorem check_post (σ : Parity → GStatus) (p q : Parity) (hp : p.ok)
    (h : checkCommunication true σ p = .post q) :
    q.ok ∧ σ q = .notDone ∧ σ .all = .notDone ∧
      (q = .all → σ .even = .notDone ∧ σ .odd = .notDone) ∧
      Under (Function.update σ q .started) p := by
  unfold checkCommunication at h
  cases p
  · exact absurd rfl hp
  all_goals
    revert h
    simp only [isGathered, Under, Parity.ok]
    rcases gs3 (σ .even) with h1 | h1 | h1 <;> rcases gs3 (σ .odd) with h2 | h2 | h2 <;>
      rcases gs3 (σ .all) with h3 | h3 | h3 <;>
      simp [h1, h2, h3] <;> rintro rfl <;> simp [h1, h2, h3, Function.update]

theorem check_nothing (σ : Parity → GStatus) (p : Parity) (hp : p.ok)
    (h : checkCommunication true σ p = .nothing) : Under σ p := by
  unfold checkCommunication at h
  cases p
  · exact absurd rfl hp
  all_goals
    revert h
    simp only [isGathered, Under]
    rcases gs3 (σ .even) with h1 | h1 | h1 <;> rcases gs3 (σ .odd) with h2 | h2 | h2 <;>
      rcases gs3 (σ .all) with h3 | h3 | h3 <;> simp [h1, h2, h3]

theorem check_not_mark (σ : Parity → GStatus) (p : Parity) :
    checkCommunication true σ p ≠ .markDone := by
  unfold checkCommunication
  split
  · simp
  · simp only [Bool.not_true, Bool.false_eq_true, if_false]
    split
    · simp
    · split
      · split
        · simp
        · split
          · simp
          · split <;> simp
      · simp

theorem resolve_spec (σ : Parity → GStatus) (p : Parity) (hp : p.ok)
    (hex : σ .all ≠ .notDone → σ .even = .notDone ∧ σ .odd = .notDone)
    (hu : Under σ p) (hg : isGathered σ p = false) :
    (∃ q, q.ok ∧ resolveStarted σ p = some [q] ∧ σ q = .started ∧
      isGathered (Function.update σ q .done) p = true) ∨
    (resolveStarted σ p = some [.even, .odd] ∧ σ .even = .started ∧ σ .odd = .started ∧ p = .all) := by
  revert hg hu hex
  cases p
  · exact absurd rfl hp
  all_goals
    simp only [isGathered, Under, resolveStarted, Parity.ok]
    rcases gs3 (σ .even) with h1 | h1 | h1 <;> rcases gs3 (σ .odd) with h2 | h2 | h2 <;>
      rcases gs3 (σ .all) with h3 | h3 | h3 <;>
      simp [h1, h2, h3, Function.update]

theorem resolve_started (σ : Parity → GStatus) (q : Parity) (hq : q.ok)
    (hex : σ .all ≠ .notDone → σ .even = .notDone ∧ σ .odd = .notDone) (h : σ q = .started) :
    resolveStarted σ q = some [q] ∧ isGathered σ q = false := by
  revert h hex
  cases q
  · exact absurd rfl hq
  all_goals
    simp only [isGathered, resolveStarted]
    rcases gs3 (σ .even) with h1 | h1 | h1 <;> rcases gs3 (σ .odd) with h2 | h2 | h2 <;>
      rcases gs3 (σ .all) with h3 | h3 | h3 <;>
      simp [h1, h2, h3]

theorem under_mono (σ σ' : Parity → GStatus) (p : Parity)
    (h : ∀ q, σ q ≠ .notDone → σ' q ≠ .notDone) (hu : Under σ p) : Under σ' p := by
  unfold Under at *
  rcases hu with hu | ⟨h1, h2⟩ | ⟨h1, h2, h3⟩
  · exact Or.inl (h _ hu)
  · exact Or.inr (Or.inl ⟨h1, h _ h2⟩)
  · exact Or.inr (Or.inr ⟨h1, h _ h2, h _ h3⟩)

theorem gathered_mono (σ σ' : Parity → GStatus) (p : Parity)
    (h : ∀ q, σ q = .done → σ' q = .done) (hu : isGathered σ p = true) : isGathered σ' p = true := by
  unfold isGathered at *
  split at hu
  · rename_i hp
    rw [if_pos hp]
    simp only [Bool.or_eq_true, beq_iff_eq] at *
    rcases hu with hu | hu
    · exact Or.inl (h _ hu)
    · exact Or.inr (h _ hu)
  · rename_i hp
    rw [if_neg hp]
    simp only [Bool.or_eq_true, Bool.and_eq_true, beq_iff_eq] at *
    rcases hu with hu | hu
    · exact Or.inl (h _ hu)
    · exact Or.inr ⟨h _ hu.1, h _ hu.2⟩

theorem upd2_same {P A : Type} [DecidableEq P] (f : D → P → A) (d : D) (p : P) (a : A) :
    upd2 f d p a d = Function.update (f d) p a := by unfold upd2; rw [Function.update_self]

theorem upd2_other {P A : Type} [DecidableEq P] (f : D → P → A) (d d' : D) (p : P) (a : A)
    (h : d' ≠ d) : upd2 f d p a d' = f d' := by unfold upd2; rw [Function.update_of_ne h]

/-! ### Waiting for one parity on all ranks -/

/-- All communicating ranks wait for parity `q`. -/
def waitQ (s : HState S D R V) (d : D) (q : Parity) : HState S D R V :=
  { s with loc := fun r => if g.comm r d then waitOne g s r d (s.loc r) q else s.loc r }

theorem waitQ_val (s : HState S D R V) (d : D) (q : Parity) : (waitQ g s d q).val = s.val := rfl

theorem waitQ_invS (s : HState S D R V) (d : D) (q : Parity) (σ : Parity → GStatus)
    (hi : InvS g s d σ) (hq : σ q = .started) :
    InvS g (waitQ g s d q) d (Function.update σ q .done) := by
  refine ⟨fun r hr => ?_, fun r hr p => ?_, fun h => ?_⟩
  · simp only [waitQ, hr, if_true, waitOne]
    rw [upd2_same, hi.st r hr]
  · simp only [waitQ, hr, if_true, waitOne]
    rw [upd2_same]
    by_cases hp : p = q
    · subst hp; simp
    · rw [Function.update_of_ne hp, Function.update_of_ne hp, hi.infl r hr p]
  · have hex := hi.excl
    by_cases hqa : q = .all
    · subst hqa
      simp only [Function.update, reduceCtorEq, dite_false]
      exact hex (by rw [hq]; simp)
    · rw [Function.update_of_ne (Ne.symm hqa)] at h
      obtain ⟨h1, h2⟩ := hex h
      constructor
      · rw [Function.update_of_ne]; exact h1
        rintro rfl; rw [h1] at hq; cases hq
      · rw [Function.update_of_ne]; exact h2
        rintro rfl; rw [h2] at hq; cases hq

theorem waitQ_noErr (hok : g.OK) (s : HState S D R V) (d : D) (q : Parity) (σ : Parity → GStatus)
    (hi : InvS g s d σ) (hq : σ q = .started) (he : NoErr s) : NoErr (waitQ g s d q) := by
  intro r
  simp only [waitQ]
  split
  · rename_i hr
    simp only [waitOne]
    rw [he r, hi.infl r hr q, hi.infl _ (hok.commp r d hr) q, hq]; rfl
  · exact he r

theorem waitQ_data_self (hok : g.OK) (s : HState S D R V) (d : D) (q : Parity)
    (σ : Parity → GStatus) (hq : σ q = .started)
    (hd : DataOK g s d σ q) : DataOK g (waitQ g s d q) d (Function.update σ q .done) q := by
  refine ⟨fun h => ?_, fun _ c hc hv => ?_⟩
  · simp at h
  · have hcomm : g.comm (g.owner c) d = true := by
      by_contra hcon
      exact hc (hok.own _ d c (by simpa using hcon) rfl)
    simp only [waitQ, hcomm, if_true, waitOne, Function.update_self, hv]
    exact hd.buf hq c hc hv

theorem waitQ_data_other (s : HState S D R V) (d : D) (q q₀ : Parity) (hq0 : q₀.ok) (hqok : q.ok)
    (σ : Parity → GStatus) (hi : InvS g s d σ) (hq : σ q = .started)
    (hne : q₀ ≠ q) (hd : DataOK g s d σ q₀) :
    DataOK g (waitQ g s d q) d (Function.update σ q .done) q₀ := by
  -- exclusion: the two parities are EVEN and ODD, or q₀ is not done
  have hcase : σ q₀ = .notDone ∨ (∀ x : Parity, q₀.visits x = true → q.visits x = false) := by
    have hex := hi.excl
    cases q <;> cases q₀ <;> simp_all [Parity.ok, Parity.visits]
  refine ⟨fun h c hc hv => ?_, fun h c hc hv => ?_⟩
  · rw [Function.update_of_ne hne] at h
    have := hd.buf h c hc hv
    simp only [waitQ]
    split
    · exact this
    · exact this
  · rw [Function.update_of_ne hne] at h
    rcases hcase with hcase | hcase
    · rw [hcase] at h; cases h
    · simp only [waitQ]
      split
      · simp only [waitOne, Function.update_self, hcase _ hv]
        exact hd.halo h c hc hv
      · exact hd.halo h c hc hv

theorem waitQ_otherDir_S (s : HState S D R V) (d d' : D) (q : Parity) (h : d' ≠ d)
    (σ : Parity → GStatus) (hi : InvS g s d' σ) : InvS g (waitQ g s d q) d' σ := by
  refine ⟨fun r hr => ?_, fun r hr p => ?_, hi.excl⟩
  · simp only [waitQ]; split
    · simp only [waitOne]; rw [upd2_other _ _ _ _ _ h]; exact hi.st r hr
    · exact hi.st r hr
  · simp only [waitQ]; split
    · simp only [waitOne]; rw [upd2_other _ _ _ _ _ h]; exact hi.infl r hr p
    · exact hi.infl r hr p

theorem waitQ_otherDir_D (s : HState S D R V) (d d' : D) (q q₀ : Parity) (h : d' ≠ d)
    (σ : Parity → GStatus) (hd : DataOK g s d' σ q₀) : DataOK g (waitQ g s d q) d' σ q₀ := by
  refine ⟨fun hs c hc hv => ?_, fun hs c hc hv => ?_⟩
  · have := hd.buf hs c hc hv
    simp only [waitQ]; split <;> exact this
  · have := hd.halo hs c hc hv
    simp only [waitQ]; split
    · simp only [waitOne]; rw [Function.update_of_ne h]; exact this
    · exact this

theorem waitQ_full (hok : g.OK) (s : HState S D R V) (d : D) (q : Parity) (hqok : q.ok)
    (σ : Parity → GStatus) (hi : InvS g s d σ) (hd : ∀ q, q.ok → DataOK g s d σ q)
    (hq : σ q = .started) :
    InvS g (waitQ g s d q) d (Function.update σ q .done) ∧
    ∀ q₀, q₀.ok → DataOK g (waitQ g s d q) d (Function.update σ q .done) q₀ := by
  refine ⟨waitQ_invS g s d q σ hi hq, fun q₀ hq0 => ?_⟩
  by_cases hne : q₀ = q
  · subst hne; exact waitQ_data_self g hok s d q₀ σ hq (hd _ hq0)
  · exact waitQ_data_other g s d q q₀ hq0 hqok σ hi hq hne (hd _ hq0)

/-! ### wait_gather and drop_comms in terms of `waitQ` -/

theorem loc_ext {s s' : HState S D R V} (hv : s.val = s'.val) (hl : ∀ r, s.loc r = s'.loc r) :
    s = s' := by
  cases s; cases s'; simp only at hv hl
  rw [hv, funext hl]

theorem wait_cases (s : HState S D R V) (d : D) (p : Parity) (hp : p.ok)
    (σ : Parity → GStatus) (hi : InvS g s d σ) (hu : UnderS g s d p) :
    (wait g s d p = s ∧ GatheredS g s d p) ∨
    (∃ q, q.ok ∧ σ q = .started ∧ wait g s d p = waitQ g s d q ∧
      isGathered (Function.update σ q .done) p = true) ∨
    (σ .even = .started ∧ σ .odd = .started ∧ p = .all ∧
      wait g s d p = waitQ g (waitQ g s d .even) d .odd) := by
  have hnc : ∀ r, g.comm r d = false → waitLoc g s d p r = s.loc r := by
    intro r hr; unfold waitLoc; simp [hr]
  by_cases hex : ∃ r, g.comm r d = true
  swap
  · left
    refine ⟨loc_ext rfl fun r => hnc r ?_, fun r hr => absurd ⟨r, hr⟩ hex⟩
    by_contra hcon
    exact hex ⟨r, by simpa using hcon⟩
  replace hu : Under σ p := by
    obtain ⟨r, hr⟩ := hex
    have := hu r hr
    rwa [hi.st r hr] at this
  by_cases hg : isGathered σ p = true
  · left
    refine ⟨loc_ext rfl fun r => ?_, fun r hr => by rw [hi.st r hr]; exact hg⟩
    show waitLoc g s d p r = s.loc r
    cases hr : g.comm r d
    · exact hnc r hr
    · unfold waitLoc; simp only [hi.st r hr, hg, if_true]
  · have hg' : isGathered σ p = false := by simpa using hg
    right
    rcases resolve_spec σ p hp hi.excl hu hg' with ⟨q, hqok, hres, hq, hgq⟩ | ⟨hres, h1, h2, h3⟩
    · left
      refine ⟨q, hqok, hq, loc_ext rfl fun r => ?_, hgq⟩
      show waitLoc g s d p r = if g.comm r d then waitOne g s r d (s.loc r) q else s.loc r
      cases hr : g.comm r d
      · simp [hnc r hr]
      · unfold waitLoc; simp only [hi.st r hr, hg', hres, hr]; simp
    · right
      refine ⟨h1, h2, h3, loc_ext rfl fun r => ?_⟩
      show waitLoc g s d p r = if g.comm r d then waitOne g (waitQ g s d .even) r d
        ((waitQ g s d .even).loc r) .odd else (waitQ g s d .even).loc r
      cases hr : g.comm r d
      · simp [hnc r hr, waitQ, hr]
      · unfold waitLoc; simp only [hi.st r hr, hg', hres, hr]
        have e1 : (waitQ g s d .even).loc r = waitOne g s r d (s.loc r) .even := by
          simp [waitQ, hr]
        simp only [Bool.not_true, Bool.false_eq_true, if_false, List.foldl_cons, List.foldl_nil,
          if_true]
        rw [e1]
        -- the partner's odd buffer and request are untouched by the first wait
        have e2 : ((waitQ g s d .even).loc (g.partner r d)).sendbuf =
            (s.loc (g.partner r d)).sendbuf := by
          simp only [waitQ]; split <;> rfl
        have e3 : ((waitQ g s d .even).loc (g.partner r d)).inflight d .odd =
            (s.loc (g.partner r d)).inflight d .odd := by
          simp only [waitQ]; split
          · simp only [waitOne]; rw [upd2_same, Function.update_of_ne (by simp)]
          · rfl
        simp only [waitOne, e2, e3]

theorem dropOne_cases (s : HState S D R V) (d : D) (q : Parity) (hq : q.ok)
    (σ : Parity → GStatus) (hi : InvS g s d σ) :
    (dropOne g s d q = s ∧ σ q ≠ .started) ∨ (dropOne g s d q = waitQ g s d q ∧ σ q = .started) := by
  have hnc : ∀ r, g.comm r d = false → waitLoc g s d q r = s.loc r := by
    intro r hr; unfold waitLoc; simp [hr]
  by_cases hs : σ q = .started
  · right
    refine ⟨loc_ext rfl fun r => ?_, hs⟩
    obtain ⟨hres, hg⟩ := resolve_started σ q hq hi.excl hs
    show (if (s.loc r).status d q = .started then waitLoc g s d q r else s.loc r) =
      if g.comm r d then waitOne g s r d (s.loc r) q else s.loc r
    cases hr : g.comm r d
    · simp [hnc r hr]
    · rw [hi.st r hr, hs]
      unfold waitLoc; simp only [hi.st r hr, hg, hres, hr]; simp
  · left
    refine ⟨loc_ext rfl fun r => ?_, hs⟩
    show (if (s.loc r).status d q = .started then waitLoc g s d q r else s.loc r) = s.loc r
    cases hr : g.comm r d
    · simp [hnc r hr]
    · rw [hi.st r hr, if_neg hs]

/-! ### start_gather -/

theorem start_invariant (hok : g.OK) (s : HState S D R V) (d : D) (p : Parity) (hp : p.ok)
    (h : Inv g s) : Inv g (start g s d p) ∧ (start g s d p).val = s.val ∧
      UnderS g (start g s d p) d p ∧
      (∀ d' p', UnderS g s d' p' → UnderS g (start g s d p) d' p') := by
  obtain ⟨hf, he⟩ := h
  obtain ⟨σ, hi, hd⟩ := hf d
  have hnc : ∀ r, g.comm r d = false → ((startLoc g s d p r).err = (s.loc r).err ∧
      (∀ d', d' ≠ d → (startLoc g s d p r).status d' = (s.loc r).status d' ∧
        (startLoc g s d p r).inflight d' = (s.loc r).inflight d') ∧
      (startLoc g s d p r).sendbuf = (s.loc r).sendbuf ∧
      (startLoc g s d p r).halo = (s.loc r).halo) := by
    intro r hr
    unfold startLoc
    rw [hr]
    cases hc : checkCommunication false ((s.loc r).status d) p with
    | nothing => simp only [hc]; simp
    | markDone =>
      simp only [hc, true_and, and_true]; intro d' hd'; rw [upd2_other _ _ _ _ _ hd']
    | post q =>
      exfalso
      unfold checkCommunication at hc
      split at hc
      · cases hc
      · simp at hc
  cases hc : checkCommunication true σ p with
  | markDone => exact absurd hc (check_not_mark σ p)
  | nothing =>
    have hcm : ∀ r, g.comm r d = true → startLoc g s d p r = s.loc r := by
      intro r hr; unfold startLoc; simp only [hi.st r hr, hr, hc]
    have hS : ∀ d' σ', InvS g s d' σ' → InvS g (start g s d p) d' σ' := by
      intro d' σ' hi'
      refine ⟨fun r hr => ?_, fun r hr q => ?_, hi'.excl⟩
      · show (startLoc g s d p r).status d' = σ'
        cases hrd : g.comm r d
        · have hdd : d' ≠ d := by rintro rfl; rw [hrd] at hr; cases hr
          rw [((hnc r hrd).2.1 d' hdd).1]; exact hi'.st r hr
        · rw [hcm r hrd]; exact hi'.st r hr
      · show (startLoc g s d p r).inflight d' q = _
        cases hrd : g.comm r d
        · have hdd : d' ≠ d := by rintro rfl; rw [hrd] at hr; cases hr
          rw [((hnc r hrd).2.1 d' hdd).2]; exact hi'.infl r hr q
        · rw [hcm r hrd]; exact hi'.infl r hr q
    have hbh : ∀ r, (startLoc g s d p r).sendbuf = (s.loc r).sendbuf ∧
        (startLoc g s d p r).halo = (s.loc r).halo ∧ (startLoc g s d p r).err = (s.loc r).err := by
      intro r
      cases hrd : g.comm r d
      · exact ⟨(hnc r hrd).2.2.1, (hnc r hrd).2.2.2, (hnc r hrd).1⟩
      · rw [hcm r hrd]; exact ⟨rfl, rfl, rfl⟩
    have hst : ∀ d' r, g.comm r d' = true →
        (startLoc g s d p r).status d' = (s.loc r).status d' := by
      intro d' r hr
      cases hrd : g.comm r d
      · have hdd : d' ≠ d := by rintro rfl; rw [hrd] at hr; cases hr
        exact ((hnc r hrd).2.1 d' hdd).1
      · rw [hcm r hrd]
    refine ⟨⟨fun d' => ?_, fun r => ?_⟩, rfl, fun r hr => ?_, fun d' p' hu' r hr => ?_⟩
    · obtain ⟨σ', hi', hd'⟩ := hf d'
      refine ⟨σ', hS d' σ' hi', fun q hq => ⟨fun h1 c hcc hv => ?_, fun h1 c hcc hv => ?_⟩⟩
      · show (startLoc g s d p _).sendbuf d' q _ = _
        rw [(hbh _).1]; exact (hd' q hq).buf h1 c hcc hv
      · show (startLoc g s d p _).halo d' c = _
        rw [(hbh _).2.1]; exact (hd' q hq).halo h1 c hcc hv
    · show (startLoc g s d p r).err = false
      rw [(hbh r).2.2]; exact he r
    · show Under ((startLoc g s d p r).status d) p
      rw [hst d r hr, hi.st r hr]; exact check_nothing σ p hp hc
    · show Under ((startLoc g s d p r).status d') p'
      rw [hst d' r hr]; exact hu' r hr
  | post q =>
    obtain ⟨hqok, hq1, hq2, hq3, hund⟩ := check_post σ p q hp hc
    have hcm : ∀ r, g.comm r d = true → startLoc g s d p r =
        { s.loc r with
          status := upd2 (s.loc r).status d q .started
          inflight := upd2 (s.loc r).inflight d q true
          sendbuf := upd2 (s.loc r).sendbuf d q fun c =>
            if g.owner c = r then s.val c else (s.loc r).sendbuf d q c
          err := (s.loc r).err || busy (s.loc r) d q } := by
      intro r hr; unfold startLoc; simp only [hi.st r hr, hr, hc]
    have hbusy : ∀ r, g.comm r d = true → busy (s.loc r) d q = false := by
      intro r hr
      unfold busy
      rw [hi.infl r hr, hi.infl r hr, hi.infl r hr]
      cases q
      · exact absurd rfl hqok
      · rw [hq1, hq2]; simp [Parity.overlaps]
      · rw [hq1, hq2]; simp [Parity.overlaps]
      · rw [hq1, (hq3 rfl).1, (hq3 rfl).2]; simp
    have hSd : InvS g (start g s d p) d (Function.update σ q .started) := by
      refine ⟨fun r hr => ?_, fun r hr q' => ?_, fun hne => ?_⟩
      · show (startLoc g s d p r).status d = _
        rw [hcm r hr]; simp only; rw [upd2_same, hi.st r hr]
      · show (startLoc g s d p r).inflight d q' = _
        rw [hcm r hr]; simp only; rw [upd2_same]
        by_cases hqq : q' = q
        · subst hqq; simp
        · rw [Function.update_of_ne hqq, Function.update_of_ne hqq, hi.infl r hr]
      · by_cases hqa : q = .all
        · subst hqa
          simp only [Function.update, reduceCtorEq, dite_false]
          exact hq3 rfl
        · rw [Function.update_of_ne (Ne.symm hqa)] at hne
          exact absurd hq2 hne
    have hSo : ∀ d', d' ≠ d → ∀ σ', InvS g s d' σ' → InvS g (start g s d p) d' σ' := by
      intro d' hdd σ' hi'
      refine ⟨fun r hr => ?_, fun r hr q' => ?_, hi'.excl⟩
      · show (startLoc g s d p r).status d' = σ'
        cases hrd : g.comm r d
        · rw [((hnc r hrd).2.1 d' hdd).1]; exact hi'.st r hr
        · rw [hcm r hrd]; simp only; rw [upd2_other _ _ _ _ _ hdd]; exact hi'.st r hr
      · show (startLoc g s d p r).inflight d' q' = _
        cases hrd : g.comm r d
        · rw [((hnc r hrd).2.1 d' hdd).2]; exact hi'.infl r hr q'
        · rw [hcm r hrd]; simp only; rw [upd2_other _ _ _ _ _ hdd]; exact hi'.infl r hr q'
    have hhalo : ∀ r, (startLoc g s d p r).halo = (s.loc r).halo := by
      intro r
      cases hrd : g.comm r d
      · exact (hnc r hrd).2.2.2
      · rw [hcm r hrd]
    have hbufo : ∀ r d' q', (d' ≠ d ∨ q' ≠ q) →
        (startLoc g s d p r).sendbuf d' q' = (s.loc r).sendbuf d' q' := by
      intro r d' q' hor
      cases hrd : g.comm r d
      · rw [(hnc r hrd).2.2.1]
      · rw [hcm r hrd]; simp only
        by_cases hdd : d' = d
        · subst hdd
          rw [upd2_same, Function.update_of_ne]
          rcases hor with hor | hor
          · exact absurd rfl hor
          · exact hor
        · rw [upd2_other _ _ _ _ _ hdd]
    refine ⟨⟨fun d' => ?_, fun r => ?_⟩, rfl, fun r hr => ?_, fun d' p' hu' r hr => ?_⟩
    · by_cases hdd : d' = d
      · subst hdd
        refine ⟨_, hSd, fun q' hq' => ⟨fun h1 c hcc hv => ?_, fun h1 c hcc hv => ?_⟩⟩
        · show (startLoc g s d' p _).sendbuf d' q' _ = _
          by_cases hqq : q' = q
          · subst hqq
            have hcomm : g.comm (g.owner c) d' = true := by
              by_contra hcon
              exact hcc (hok.own _ d' c (by simpa using hcon) rfl)
            rw [hcm _ (hok.commp _ _ hcomm)]
            simp only
            rw [upd2_same, Function.update_self, if_pos (hok.part d' c hcc)]; rfl
          · rw [hbufo _ _ _ (Or.inr hqq)]
            rw [Function.update_of_ne hqq] at h1
            exact (hd q' hq').buf h1 c hcc hv
        · show (startLoc g s d' p _).halo d' c = _
          rw [hhalo]
          have hqq : q' ≠ q := by rintro rfl; simp at h1
          rw [Function.update_of_ne hqq] at h1
          exact (hd q' hq').halo h1 c hcc hv
      · obtain ⟨σ', hi', hd'⟩ := hf d'
        refine ⟨σ', hSo d' hdd σ' hi', fun q' hq' => ⟨fun h1 c hcc hv => ?_, fun h1 c hcc hv => ?_⟩⟩
        · show (startLoc g s d p _).sendbuf d' q' _ = _
          rw [hbufo _ _ _ (Or.inl hdd)]; exact (hd' q' hq').buf h1 c hcc hv
        · show (startLoc g s d p _).halo d' c = _
          rw [hhalo]; exact (hd' q' hq').halo h1 c hcc hv
    · show (startLoc g s d p r).err = false
      cases hrd : g.comm r d
      · rw [(hnc r hrd).1]; exact he r
      · rw [hcm r hrd]; simp only; rw [he r, hbusy r hrd]; rfl
    · rw [hSd.st r hr]; exact hund
    · have h0 := hu' r hr
      by_cases hdd : d' = d
      · subst hdd
        rw [hSd.st r hr]
        rw [hi.st r hr] at h0
        refine under_mono _ _ p' (fun q' h' => ?_) h0
        by_cases hqq : q' = q
        · subst hqq; simp
        · rw [Function.update_of_ne hqq]; exact h'
      · obtain ⟨σ', hi', _⟩ := hf d'
        rw [(hSo d' hdd σ' hi').st r hr, ← hi'.st r hr]; exact h0


/-! ### wait_gather -/

theorem waitQ_full_other (s : HState S D R V) (d d' : D) (q : Parity) (h : d' ≠ d)
    (hf : Full g s d') : Full g (waitQ g s d q) d' := by
  obtain ⟨σ, hi, hd⟩ := hf
  exact ⟨σ, waitQ_otherDir_S g s d d' q h σ hi,
    fun q₀ hq => waitQ_otherDir_D g s d d' q q₀ h σ (hd q₀ hq)⟩

theorem waitQ_inv (hok : g.OK) (s : HState S D R V) (d : D) (q : Parity) (hqok : q.ok)
    (σ : Parity → GStatus) (hi : InvS g s d σ) (hq : σ q = .started) (h : Inv g s) :
    Inv g (waitQ g s d q) := by
  obtain ⟨hf, he⟩ := h
  refine ⟨fun d' => ?_, waitQ_noErr g hok s d q σ hi hq he⟩
  by_cases hdd : d' = d
  · subst hdd
    obtain ⟨σ', hi', hd'⟩ := hf d'
    by_cases hex : ∃ r, g.comm r d' = true
    · obtain ⟨r, hr⟩ := hex
      have e : σ' = σ := by rw [← hi'.st r hr, hi.st r hr]
      subst e
      exact ⟨_, waitQ_full g hok s d' q hqok σ' hi' hd' hq⟩
    · refine ⟨fun _ => .notDone, ⟨fun r hr => absurd ⟨r, hr⟩ hex, fun r hr => absurd ⟨r, hr⟩ hex,
        fun h => absurd rfl h⟩, fun q₀ _ => .of_notDone g rfl⟩
  · exact waitQ_full_other g s d d' q hdd (hf d')

theorem waitQ_status (s : HState S D R V) (d d' : D) (q : Parity) (r : R) :
    (∀ p, ((s.loc r).status d' p ≠ .notDone → ((waitQ g s d q).loc r).status d' p ≠ .notDone) ∧
      ((s.loc r).status d' p = .done → ((waitQ g s d q).loc r).status d' p = .done)) := by
  intro p
  simp only [waitQ]
  split
  · simp only [waitOne]
    by_cases hdd : d' = d
    · subst hdd
      rw [upd2_same]
      by_cases hpq : p = q
      · subst hpq; simp
      · rw [Function.update_of_ne hpq]; exact ⟨id, id⟩
    · rw [upd2_other _ _ _ _ _ hdd]; exact ⟨id, id⟩
  · exact ⟨id, id⟩

theorem waitQ_underS (s : HState S D R V) (d d' : D) (q p : Parity) (h : UnderS g s d' p) :
    UnderS g (waitQ g s d q) d' p := fun r hr =>
  under_mono _ _ p (fun p' => (waitQ_status g s d d' q r p').1) (h r hr)

theorem waitQ_gatheredS (s : HState S D R V) (d d' : D) (q p : Parity) (h : GatheredS g s d' p) :
    GatheredS g (waitQ g s d q) d' p := fun r hr =>
  gathered_mono _ _ p (fun p' => (waitQ_status g s d d' q r p').2) (h r hr)

theorem wait_invariant (hok : g.OK) (s : HState S D R V) (d : D) (p : Parity) (hp : p.ok)
    (h : Inv g s) (hu : UnderS g s d p) :
    Inv g (wait g s d p) ∧ (wait g s d p).val = s.val ∧ GatheredS g (wait g s d p) d p ∧
      (∀ d' p', UnderS g s d' p' → UnderS g (wait g s d p) d' p') ∧
      (∀ d' p', GatheredS g s d' p' → GatheredS g (wait g s d p) d' p') := by
  obtain ⟨σ, hi, hd⟩ := h.1 d
  rcases wait_cases g s d p hp σ hi hu with ⟨e, hg⟩ | ⟨q, hqok, hq, e, hg⟩ | ⟨h1, h2, h3, e⟩
  · rw [e]; exact ⟨h, rfl, hg, fun _ _ => id, fun _ _ => id⟩
  · rw [e]
    refine ⟨waitQ_inv g hok s d q hqok σ hi hq h, rfl, fun r hr => ?_,
      fun d' p' => waitQ_underS g s d d' q p', fun d' p' => waitQ_gatheredS g s d d' q p'⟩
    rw [(waitQ_invS g s d q σ hi hq).st r hr]; exact hg
  · rw [e]
    have hE : Parity.even.ok := by simp [Parity.ok]
    have hO : Parity.odd.ok := by simp [Parity.ok]
    have i1 := waitQ_invS g s d .even σ hi h1
    have o1 : Function.update σ .even .done .odd = .started := by
      rw [Function.update_of_ne (by simp)]; exact h2
    have inv1 := waitQ_inv g hok s d .even hE σ hi h1 h
    refine ⟨waitQ_inv g hok _ d .odd hO _ i1 o1 inv1, rfl, fun r hr => ?_,
      fun d' p' hh => waitQ_underS g _ d d' .odd p' (waitQ_underS g s d d' .even p' hh),
      fun d' p' hh => waitQ_gatheredS g _ d d' .odd p' (waitQ_gatheredS g s d d' .even p' hh)⟩
    rw [(waitQ_invS g _ d .odd _ i1 o1).st r hr, h3]
    simp [isGathered, Function.update]

/-! ### mark_changed -/

/-- What is known of one direction between the assignment and the end of `mark_changed(p)`. -/
def Pre (s : HState S D R V) (p : Parity) (d : D) : Prop :=
  ∃ σ, InvS g s d σ ∧ (p ≠ .all → DataOK g s d σ p)

/-- The same with a given status table. -/
def PreAt (s : HState S D R V) (p : Parity) (d : D) (σ : Parity → GStatus) : Prop :=
  InvS g s d σ ∧ (p ≠ .all → DataOK g s d σ p)

/-- After dropping, parity `q` is not in flight; everything else is kept. -/
theorem dropOne_pre (hok : g.OK) (s : HState S D R V) (d : D) (q p : Parity) (hq : q.ok) (hp : p.ok)
    (hqp : q ≠ p ∨ p = .all) (he : NoErr s) (σ : Parity → GStatus) (h : PreAt g s p d σ) :
    NoErr (dropOne g s d q) ∧ (dropOne g s d q).val = s.val ∧
    (∃ σ', PreAt g (dropOne g s d q) p d σ' ∧ σ' q ≠ .started ∧
      ∀ q', σ q' ≠ .started → σ' q' ≠ .started) ∧
    (∀ d', d' ≠ d → Full g s d' → Full g (dropOne g s d q) d') ∧
    (∀ d', d' ≠ d → Pre g s p d' → Pre g (dropOne g s d q) p d') := by
  obtain ⟨hi, hd⟩ := h
  rcases dropOne_cases g s d q hq σ hi with ⟨e, hn⟩ | ⟨e, hs⟩
  · rw [e]
    exact ⟨he, rfl, ⟨σ, ⟨hi, hd⟩, hn, fun _ => id⟩, fun _ _ => id, fun _ _ => id⟩
  · rw [e]
    refine ⟨waitQ_noErr g hok s d q σ hi hs he, rfl,
      ⟨_, ⟨waitQ_invS g s d q σ hi hs, fun hpa => ?_⟩, by simp, fun q' hq' => ?_⟩,
      fun d' hdd hf => waitQ_full_other g s d d' q hdd hf, fun d' hdd hpre => ?_⟩
    · rcases hqp with hqp | hqp
      · exact waitQ_data_other g s d q p hp hq σ hi hs (Ne.symm hqp) (hd hpa)
      · exact absurd hqp hpa
    · by_cases hqq : q' = q
      · subst hqq; simp
      · rw [Function.update_of_ne hqq]; exact hq'
    · obtain ⟨σ', hi', hd'⟩ := hpre
      exact ⟨σ', waitQ_otherDir_S g s d d' q hdd σ' hi',
        fun hpa => waitQ_otherDir_D g s d d' q p hdd σ' (hd' hpa)⟩

theorem markChangedDir_spec (hok : g.OK) (s : HState S D R V) (d : D) (p : Parity) (hp : p.ok)
    (he : NoErr s) (h : Pre g s p d) :
    NoErr (markChangedDir g p s d) ∧ (markChangedDir g p s d).val = s.val ∧
    Full g (markChangedDir g p s d) d ∧
    (∀ d', d' ≠ d → Full g s d' → Full g (markChangedDir g p s d) d') ∧
    (∀ d', d' ≠ d → Pre g s p d' → Pre g (markChangedDir g p s d) p d') := by
  obtain ⟨σ₀, h0⟩ := h
  -- the state after drop_comms
  have hdrop : ∃ s', s' = dropComms g s d (oppParity p) ∧ NoErr s' ∧ s'.val = s.val ∧
      (∃ σ', PreAt g s' p d σ' ∧ σ' .all ≠ .started ∧ σ' (oppParity p) ≠ .started ∧
        (p = .all → σ' .even ≠ .started ∧ σ' .odd ≠ .started)) ∧
      (∀ d', d' ≠ d → Full g s d' → Full g s' d') ∧
      (∀ d', d' ≠ d → Pre g s p d' → Pre g s' p d') := by
    have hA : Parity.all.ok := by simp [Parity.ok]
    have hE : Parity.even.ok := by simp [Parity.ok]
    have hO : Parity.odd.ok := by simp [Parity.ok]
    obtain ⟨e1, v1, ⟨σ₁, p1, n1, m1⟩, f1, q1⟩ := dropOne_pre g hok s d .all p hA hp
      (by cases p <;> simp) he σ₀ h0
    refine ⟨_, rfl, ?_⟩
    unfold dropComms
    by_cases hpa : p = .all
    · subst hpa
      simp only [show oppParity .all = .all from rfl, ne_eq, not_true_eq_false, if_false]
      obtain ⟨e2, v2, ⟨σ₂, p2, n2, m2⟩, f2, q2⟩ := dropOne_pre g hok _ d .even .all hE hp
        (Or.inr rfl) e1 σ₁ p1
      obtain ⟨e3, v3, ⟨σ₃, p3, n3, m3⟩, f3, q3⟩ := dropOne_pre g hok _ d .odd .all hO hp
        (Or.inr rfl) e2 σ₂ p2
      refine ⟨e3, by rw [v3, v2, v1], ⟨σ₃, p3, m3 _ (m2 _ n1), m3 _ (m2 _ n1),
        fun _ => ⟨m3 _ n2, n3⟩⟩, fun d' hdd hf => f3 d' hdd (f2 d' hdd (f1 d' hdd hf)),
        fun d' hdd hf => q3 d' hdd (q2 d' hdd (q1 d' hdd hf))⟩
    · have hopp : oppParity p ≠ .all ∧ oppParity p ≠ p ∧ (oppParity p).ok := by
        cases p
        · exact absurd rfl hp
        · simp [oppParity, Parity.ofBits, Parity.bits, Parity.ok]
        · simp [oppParity, Parity.ofBits, Parity.bits, Parity.ok]
        · exact absurd rfl hpa
      rw [if_pos hopp.1]
      obtain ⟨e2, v2, ⟨σ₂, p2, n2, m2⟩, f2, q2⟩ := dropOne_pre g hok _ d (oppParity p) p hopp.2.2 hp
        (Or.inl hopp.2.1) e1 σ₁ p1
      exact ⟨e2, by rw [v2, v1], ⟨σ₂, p2, m2 _ n1, n2, fun h => absurd h hpa⟩,
        fun d' hdd hf => f2 d' hdd (f1 d' hdd hf), fun d' hdd hf => q2 d' hdd (q1 d' hdd hf)⟩
  obtain ⟨s', hs', e', v', ⟨σ, ⟨hi, hd⟩, nA, nO, nEO⟩, f', q'⟩ := hdrop
  -- the new status table
  have hmk : markChangedDir g p s d =
      { s' with loc := fun r => { s'.loc r with status := markStatus p d (s'.loc r).status } } := by
    unfold markChangedDir; rw [← hs']
  rw [hmk]
  refine ⟨fun r => e' r, v', ?_, fun d' hdd hf => ?_, fun d' hdd hpre => ?_⟩
  · by_cases hpa : p = .all
    · subst hpa
      refine ⟨Function.update (Function.update (Function.update σ .all .notDone) .even .notDone)
        .odd .notDone, ⟨fun r hr => ?_, fun r hr q => ?_, fun _ => ?_⟩, fun q hq => ?_⟩
      · simp only [markStatus, ne_eq, not_true_eq_false, if_false, show oppParity .all = .all from rfl]
        rw [upd2_same, upd2_same, upd2_same, hi.st r hr]
      · have := hi.infl r hr q
        simp only
        rw [this]
        have hEO := nEO rfl
        cases q <;> simp [Function.update, nA, hEO]
      · simp [Function.update]
      · have : Function.update (Function.update (Function.update σ .all .notDone) .even .notDone)
            .odd .notDone q = .notDone := by
          cases q
          · exact absurd rfl hq
          all_goals simp [Function.update]
        exact .of_notDone g this
    · have hcs : (p = .even ∧ oppParity p = .odd) ∨ (p = .odd ∧ oppParity p = .even) := by
        cases p
        · exact absurd rfl hp
        · left; exact ⟨rfl, rfl⟩
        · right; exact ⟨rfl, rfl⟩
        · exact absurd rfl hpa
      refine ⟨Function.update (Function.update σ (oppParity p) .notDone) .all .notDone,
        ⟨fun r hr => ?_, fun r hr q => ?_, fun h => ?_⟩, fun q hq => ?_⟩
      · simp only [markStatus, ne_eq, hpa, not_false_eq_true, if_true]
        rw [upd2_same, upd2_same, hi.st r hr]
      · have := hi.infl r hr q
        simp only
        rw [this]
        by_cases h1 : q = .all
        · subst h1; simp [nA]
        · rw [Function.update_of_ne h1]
          by_cases h2 : q = oppParity p
          · rw [h2]; simp [nO]
          · rw [Function.update_of_ne h2]
      · simp at h
      · by_cases h1 : q = .all
        · subst h1; exact ⟨fun h => by simp at h, fun h => by simp at h⟩
        · by_cases h2 : q = oppParity p
          · have : Function.update (Function.update σ (oppParity p) .notDone) .all .notDone q =
                .notDone := by rw [Function.update_of_ne h1, h2]; simp
            exact .of_notDone g this
          · have h3 : q = p := by
              rcases hcs with ⟨a, b⟩ | ⟨a, b⟩ <;> rw [b] at h2 <;> cases q <;>
                simp_all [Parity.ok]
            have hk := hd hpa
            have : Function.update (Function.update σ (oppParity p) .notDone) .all .notDone q =
                σ p := by rw [Function.update_of_ne h1, Function.update_of_ne h2, h3]
            refine ⟨fun h c hc hv => ?_, fun h c hc hv => ?_⟩
            · rw [this] at h; rw [h3] at hv ⊢; exact hk.buf h c hc hv
            · rw [this] at h; rw [h3] at hv; exact hk.halo h c hc hv
  · obtain ⟨σ', hi', hd'⟩ := f' d' hdd hf
    refine ⟨σ', ⟨fun r hr => ?_, fun r hr => hi'.infl r hr, hi'.excl⟩,
      fun q hq => ⟨(hd' q hq).buf, (hd' q hq).halo⟩⟩
    simp only [markStatus]
    split
    · rw [upd2_other _ _ _ _ _ hdd, upd2_other _ _ _ _ _ hdd]; exact hi'.st r hr
    · rw [upd2_other _ _ _ _ _ hdd, upd2_other _ _ _ _ _ hdd, upd2_other _ _ _ _ _ hdd]
      exact hi'.st r hr
  · obtain ⟨σ', hi', hd'⟩ := q' d' hdd hpre
    refine ⟨σ', ⟨fun r hr => ?_, fun r hr => hi'.infl r hr, hi'.excl⟩,
      fun hpa => ⟨(hd' hpa).buf, (hd' hpa).halo⟩⟩
    simp only [markStatus]
    split
    · rw [upd2_other _ _ _ _ _ hdd, upd2_other _ _ _ _ _ hdd]; exact hi'.st r hr
    · rw [upd2_other _ _ _ _ _ hdd, upd2_other _ _ _ _ _ hdd, upd2_other _ _ _ _ _ hdd]
      exact hi'.st r hr

theorem markChanged_spec (hok : g.OK) (p : Parity) (hp : p.ok) (dirs : List D) :
    ∀ s : HState S D R V, NoErr s → (∀ d, Pre g s p d) →
      NoErr (markChanged g dirs p s) ∧ (markChanged g dirs p s).val = s.val ∧
      (∀ d, Pre g (markChanged g dirs p s) p d) ∧
      (∀ d, (d ∈ dirs ∨ Full g s d) → Full g (markChanged g dirs p s) d) := by
  induction dirs with
  | nil =>
    intro s he hpre
    exact ⟨he, rfl, hpre, fun d hd => by
      rcases hd with hd | hd
      · simp at hd
      · exact hd⟩
  | cons d dirs ih =>
    intro s he hpre
    obtain ⟨e1, v1, f1, o1, q1⟩ := markChangedDir_spec g hok s d p hp he (hpre d)
    have full_pre : ∀ d' (t : HState S D R V), Full g t d' → Pre g t p d' := by
      rintro d' t ⟨σ, hi, hd⟩
      exact ⟨σ, hi, fun _ => hd p hp⟩
    have hpre1 : ∀ d', Pre g (markChangedDir g p s d) p d' := fun d' => by
      by_cases hdd : d' = d
      · subst hdd; exact full_pre _ _ f1
      · exact q1 d' hdd (hpre d')
    obtain ⟨e2, v2, q2, f2⟩ := ih _ e1 hpre1
    refine ⟨e2, v2.trans v1, q2, fun d' hd' => f2 d' ?_⟩
    by_cases hdd : d' = d
    · subst hdd; exact Or.inr f1
    · rcases hd' with hd' | hd'
      · left
        rcases List.mem_cons.1 hd' with h | h
        · exact absurd h hdd
        · exact h
      · exact Or.inr (o1 d' hdd hd')

end

end Hila
