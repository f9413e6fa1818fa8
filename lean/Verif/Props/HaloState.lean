import Verif.Lemmas.HaloState
import Verif.Props.Gather

/-!
# C05: neighbour reads are never stale
-/

set_option linter.unusedSectionVars false

namespace Hila

open BigOperators

section
variable {S D R V : Type} [DecidableEq D] [DecidableEq R] (g : Geo S D R)

/-- Specification: the field content after a sequence of operations, each assignment replacing the
values at the sites of its parity. No halo, no messages. -/
def contentAfter (parity : S → Parity) (val : S → V) : List (FOp S D V) → (S → V)
  | [] => val
  | .assign p new :: ops =>
    contentAfter parity (fun c => if p.visits (parity c) then new c else val c) ops
  | _ :: ops => contentAfter parity val ops

/-- The parity argument of an operation. -/
def FOp.parity : FOp S D V → Parity
  | .assign p _ => p
  | .start _ p => p
  | .read _ p => p

theorem gathered_read (hok : g.OK) (s : HState S D R V) (h : Inv g s) (d : D) (p : Parity)
    (hp : p.ok) (hg : GatheredS g s d p) (c : S) (hv : p.visits (g.parity c) = true) :
    readAt g s d c = s.val (g.nb d c) := by
  unfold readAt
  split
  · rfl
  · rename_i hc
    have hcomm : g.comm (g.owner c) d = true := by
      by_contra hcon
      exact hc (hok.own _ d c (by simpa using hcon) rfl)
    obtain ⟨σ, hi, hd⟩ := h.1 d
    have hgg := hg _ hcomm
    rw [hi.st _ hcomm] at hgg
    have hA : Parity.all.ok := by simp [Parity.ok]
    have hE : Parity.even.ok := by simp [Parity.ok]
    have hO : Parity.odd.ok := by simp [Parity.ok]
    unfold isGathered at hgg
    split at hgg
    · simp only [Bool.or_eq_true, beq_iff_eq] at hgg
      rcases hgg with h1 | h1
      · exact (hd p hp).halo h1 c hc hv
      · exact (hd _ hA).halo h1 c hc (by simp [Parity.visits])
    · simp only [Bool.or_eq_true, Bool.and_eq_true, beq_iff_eq] at hgg
      rcases hgg with h1 | ⟨h1, h2⟩
      · exact (hd _ hA).halo h1 c hc (by simp [Parity.visits])
      · rcases hok.par c with h3 | h3
        · exact (hd _ hE).halo h1 c hc (by simp [Parity.visits, h3])
        · exact (hd _ hO).halo h2 c hc (by simp [Parity.visits, h3])

theorem starts_inv (hok : g.OK) (p : Parity) (hp : p.ok) (ds : List D) :
    ∀ s : HState S D R V, Inv g s → Inv g (ds.foldl (fun s d => start g s d p) s) ∧
      (ds.foldl (fun s d => start g s d p) s).val = s.val ∧
      (∀ d ∈ ds, UnderS g (ds.foldl (fun s d => start g s d p) s) d p) ∧
      (∀ d', UnderS g s d' p → UnderS g (ds.foldl (fun s d => start g s d p) s) d' p) := by
  induction ds with
  | nil => intro s h; exact ⟨h, rfl, by simp, fun _ => id⟩
  | cons d ds ih =>
    intro s h
    obtain ⟨h1, h2, h3, h4⟩ := start_invariant g hok s d p hp h
    obtain ⟨k1, k2, k3, k4⟩ := ih _ h1
    refine ⟨k1, k2.trans h2, fun d' hd' => ?_, fun d' hu => k4 d' (h4 d' p hu)⟩
    rcases List.mem_cons.1 hd' with e | e
    · subst e; exact k4 d' h3
    · exact k3 d' e

theorem waits_inv (hok : g.OK) (p : Parity) (hp : p.ok) (ds : List D) :
    ∀ s : HState S D R V, Inv g s → (∀ d ∈ ds, UnderS g s d p) →
      Inv g (ds.foldl (fun s d => wait g s d p) s) ∧
      (ds.foldl (fun s d => wait g s d p) s).val = s.val ∧
      (∀ d ∈ ds, GatheredS g (ds.foldl (fun s d => wait g s d p) s) d p) ∧
      (∀ d', GatheredS g s d' p → GatheredS g (ds.foldl (fun s d => wait g s d p) s) d' p) := by
  induction ds with
  | nil => intro s h _; exact ⟨h, rfl, by simp, fun _ => id⟩
  | cons d ds ih =>
    intro s h hu
    obtain ⟨h1, h2, h3, h4, h5⟩ := wait_invariant g hok s d p hp h (hu d (by simp))
    obtain ⟨k1, k2, k3, k4⟩ := ih _ h1 (fun d' hd' => h4 d' p (hu d' (by simp [hd'])))
    refine ⟨k1, k2.trans h2, fun d' hd' => ?_, fun d' hg => k4 d' (h5 d' p hg)⟩
    rcases List.mem_cons.1 hd' with e | e
    · subst e; exact k4 d' h3
    · exact k3 d' e

/-- An assignment keeps the invariant (needs opposite parity across rank boundaries). -/
theorem assign_inv (hok : g.OK) (hflip : g.Flip) (dirs : List D) (hdirs : ∀ d, d ∈ dirs)
    (s : HState S D R V) (h : Inv g s) (p : Parity) (hp : p.ok) (new : S → V) :
    Inv g (markChanged g dirs p
      { s with val := fun c => if p.visits (g.parity c) then new c else s.val c }) := by
  have hpre : ∀ d, Pre g { s with val := fun c => if p.visits (g.parity c) then new c else s.val c }
      p d := by
    intro d
    obtain ⟨σ, hi, hd⟩ := h.1 d
    refine ⟨σ, ⟨hi.st, hi.infl, hi.excl⟩, fun hpa => ?_⟩
    have hun : ∀ c, g.owner (g.nb d c) ≠ g.owner c → p.visits (g.parity c) = true →
        p.visits (g.parity (g.nb d c)) = false := by
      intro c hc hv
      have hfl := hflip d c hc
      have hpc : g.parity c = p := by cases p <;> simp_all [Parity.visits]
      rw [hpc] at hfl
      cases p <;> simp_all [Parity.visits]
    refine ⟨fun h1 c hc hv => ?_, fun h1 c hc hv => ?_⟩
    · simp only [hun c hc hv]; exact (hd p hp).buf h1 c hc hv
    · simp only [hun c hc hv]; exact (hd p hp).halo h1 c hc hv
  obtain ⟨k1, _, _, k4⟩ := markChanged_spec g hok p hp dirs
    { s with val := fun c => if p.visits (g.parity c) then new c else s.val c } (fun r => h.2 r) hpre
  exact ⟨fun d => k4 d (Or.inl (hdirs d)), k1⟩

theorem markChanged_val (dirs : List D) (p : Parity) (s : HState S D R V) :
    (markChanged g dirs p s).val = s.val := by
  unfold markChanged
  induction dirs generalizing s with
  | nil => rfl
  | cons d dirs ih =>
    rw [List.foldl_cons, ih]
    unfold markChangedDir dropComms
    simp only
    split <;> rfl

/-- What one operation does to the content and what a reading loop sees. -/
theorem fstep_spec (hok : g.OK) (dirs : List D) (s : HState S D R V) (h : Inv g s)
    (op : FOp S D V) (hop : op.parity ≠ .none) :
    (fstep g dirs s op).1.val = contentAfter g.parity s.val [op] ∧
    ∀ ds p, op = .read ds p → ∃ o, (fstep g dirs s op).2 = some o ∧
      ∀ d ∈ ds, ∀ c, p.visits (g.parity c) = true → o d c = s.val (g.nb d c) := by
  cases op with
  | assign p new =>
    refine ⟨?_, fun ds p hh => by cases hh⟩
    simp only [fstep, contentAfter, markChanged_val]
  | start d p =>
    refine ⟨?_, fun ds p hh => by cases hh⟩
    simp only [fstep, contentAfter]
    exact (start_invariant g hok s d p hop h).2.1
  | read ds p =>
    obtain ⟨a1, a2, a3, _⟩ := starts_inv g hok p hop ds s h
    obtain ⟨b1, b2, b3, _⟩ := waits_inv g hok p hop ds _ a1 a3
    refine ⟨?_, fun ds' p' hh => ?_⟩
    · simp only [fstep, contentAfter]
      exact b2.trans a2
    · cases hh
      refine ⟨_, rfl, fun d hd c hv => ?_⟩
      rw [gathered_read g hok _ b1 d p hop (b3 d hd) c hv, b2, a2]

theorem contentAfter_cons (parity : S → Parity) (val : S → V) (op : FOp S D V)
    (ops : List (FOp S D V)) : contentAfter parity val (op :: ops) =
      contentAfter parity (contentAfter parity val [op]) ops := by
  cases op <;> rfl

/-- Core statement: any invariant `J` kept by the operations and implying `Inv` gives correct
reads. -/
theorem run_reads (hok : g.OK) (dirs : List D) (J : HState S D R V → Prop)
    (Q : FOp S D V → Prop) (hJ : ∀ s, J s → Inv g s) (hQ : ∀ op, Q op → op.parity ≠ .none)
    (hstep : ∀ s op, J s → Q op → J (fstep g dirs s op).1)
    (ops : List (FOp S D V)) (hops : ∀ op ∈ ops, Q op) :
    ∀ s : HState S D R V, J s →
      J (frun g dirs s ops).1 ∧ (frun g dirs s ops).2.length = ops.length ∧
      ∀ (k : ℕ) (ds : List D) (p : Parity), ops[k]? = some (.read ds p) →
        ∃ o, (frun g dirs s ops).2[k]? = some (some o) ∧
          ∀ d ∈ ds, ∀ c, p.visits (g.parity c) = true →
            o d c = contentAfter g.parity s.val (ops.take k) (g.nb d c) := by
  induction ops with
  | nil => intro s h; exact ⟨h, rfl, by simp⟩
  | cons op ops ih =>
    intro s h
    have hop := hops op (by simp)
    obtain ⟨e1, e2⟩ := fstep_spec g hok dirs s (hJ s h) op (hQ op hop)
    obtain ⟨k1, k2, k3⟩ := ih (fun o ho => hops o (by simp [ho])) _ (hstep s op h hop)
    refine ⟨k1, by simp only [frun, List.length_cons]; exact congrArg (· + 1) k2,
      fun k ds q hk => ?_⟩
    cases k with
    | zero =>
      simp only [List.getElem?_cons_zero, Option.some.injEq] at hk
      obtain ⟨o, ho, hoo⟩ := e2 ds q hk
      refine ⟨o, ?_, hoo⟩
      simp only [frun, List.getElem?_cons_zero]; exact congrArg some ho
    | succ k =>
      rw [List.getElem?_cons_succ] at hk
      obtain ⟨o, ho, hoo⟩ := k3 k ds q hk
      refine ⟨o, by simp only [frun, List.getElem?_cons_succ]; exact ho, ?_⟩
      intro d' hd c hv
      rw [hoo d' hd c hv, List.take_succ_cons, contentAfter_cons, e1]

theorem fstep_inv (hok : g.OK) (hflip : g.Flip) (dirs : List D) (hdirs : ∀ d, d ∈ dirs)
    (s : HState S D R V) (op : FOp S D V) (h : Inv g s) (hop : op.parity ≠ .none) :
    Inv g (fstep g dirs s op).1 := by
  cases op with
  | assign p new => exact assign_inv g hok hflip dirs hdirs s h p hop new
  | start d p => exact (start_invariant g hok s d p hop h).1
  | read ds p =>
    obtain ⟨a1, a2, a3, _⟩ := starts_inv g hok p hop ds s h
    exact (waits_inv g hok p hop ds _ a1 a3).1

/-! ### Programs that gather only `ALL` -/

/-- No even-only or odd-only gather has been started. -/
def OnlyAll (s : HState S D R V) : Prop :=
  ∀ r d, g.comm r d = true → (s.loc r).status d .even = .notDone ∧ (s.loc r).status d .odd = .notDone

theorem onlyAll_start (s : HState S D R V) (h : OnlyAll g s) (d : D) :
    OnlyAll g (start g s d .all) := by
  intro r d' hr
  obtain ⟨h1, h2⟩ := h r d' hr
  simp only [start, startLoc]
  by_cases hd : d' = d
  · subst hd
    rcases gs3 ((s.loc r).status d' .all) with h3 | h3 | h3 <;>
      simp [checkCommunication, isGathered, h1, h2, h3, hr, upd2]
  · split
    · exact ⟨h1, h2⟩
    · simp only [upd2_other _ _ _ _ _ hd]; exact ⟨h1, h2⟩
    · simp only [upd2_other _ _ _ _ _ hd]; exact ⟨h1, h2⟩

theorem onlyAll_waitLoc (s : HState S D R V) (h : OnlyAll g s) (d d' : D) (r : R)
    (hr : g.comm r d' = true) :
    (waitLoc g s d .all r).status d' .even = .notDone ∧
      (waitLoc g s d .all r).status d' .odd = .notDone := by
  obtain ⟨h1, h2⟩ := h r d' hr
  unfold waitLoc
  by_cases hd : d' = d
  · subst hd
    rcases gs3 ((s.loc r).status d' .all) with h3 | h3 | h3 <;>
      simp [resolveStarted, isGathered, h1, h2, h3, hr, upd2, waitOne]
  · have hone : ∀ (l : Loc S D V) (q : Parity), (waitOne g s r d l q).status d' = l.status d' := by
      intro l q; simp only [waitOne, upd2_other _ _ _ _ _ hd]
    have hfold : ∀ (qs : List Parity) (l : Loc S D V),
        (qs.foldl (waitOne g s r d) l).status d' = l.status d' := by
      intro qs; induction qs with
      | nil => intro l; rfl
      | cons q qs ih => intro l; rw [List.foldl_cons, ih, hone]
    dsimp only
    split
    · exact ⟨h1, h2⟩
    · split
      · exact ⟨h1, h2⟩
      · split
        · exact ⟨h1, h2⟩
        · rw [hfold]; exact ⟨h1, h2⟩

theorem onlyAll_dropOne (s : HState S D R V) (h : OnlyAll g s) (d : D) (q : Parity)
    (hq : q = .all ∨ q = .even ∨ q = .odd) : OnlyAll g (dropOne g s d q) := by
  intro r d' hr
  obtain ⟨h1, h2⟩ := h r d' hr
  simp only [dropOne]
  split
  · rename_i hs
    rcases hq with hq | hq
    · subst hq; exact onlyAll_waitLoc g s h d d' r hr
    · by_cases hcd : g.comm r d = true
      · obtain ⟨h3, h4⟩ := h r d hcd
        rcases hq with hq | hq <;> subst hq
        · rw [h3] at hs; cases hs
        · rw [h4] at hs; cases hs
      · unfold waitLoc
        simp only [hcd]
        split <;> exact ⟨h1, h2⟩
  · exact ⟨h1, h2⟩

theorem onlyAll_markChanged (p : Parity) (hp : p ≠ .none) (dirs : List D) :
    ∀ s : HState S D R V, OnlyAll g s → OnlyAll g (markChanged g dirs p s) := by
  have hopp : oppParity p = .all ∨ oppParity p = .even ∨ oppParity p = .odd := by
    cases p <;> first | (exact absurd rfl hp) | decide
  unfold markChanged
  induction dirs with
  | nil => intro s h; exact h
  | cons d dirs ih =>
    intro s h
    rw [List.foldl_cons]
    apply ih
    have h1 : OnlyAll g (dropComms g s d (oppParity p)) := by
      unfold dropComms
      simp only
      have h0 := onlyAll_dropOne g s h d .all (Or.inl rfl)
      split
      · exact onlyAll_dropOne g _ h0 d _ hopp
      · exact onlyAll_dropOne g _ (onlyAll_dropOne g _ h0 d _ (by simp)) d _ (by simp)
    intro r d' hr
    obtain ⟨h2, h3⟩ := h1 r d' hr
    simp only [markChangedDir, markStatus]
    by_cases hd : d' = d
    · subst hd
      rcases hopp with ho | ho | ho <;> rw [ho] at h2 h3 ⊢ <;>
        by_cases hpa : p = .all <;> simp [hpa, upd2, h2, h3]
    · split
      · simp only [upd2_other _ _ _ _ _ hd]; exact ⟨h2, h3⟩
      · simp only [upd2_other _ _ _ _ _ hd]; exact ⟨h2, h3⟩

/-- The operation gathers, if at all, both parities. -/
def FOp.gathersAll : FOp S D V → Prop
  | .assign p _ => p ≠ .none
  | .start _ p => p = .all
  | .read _ p => p = .all

theorem fstep_onlyAll (hok : g.OK) (dirs : List D) (hdirs : ∀ d, d ∈ dirs)
    (s : HState S D R V) (op : FOp S D V) (h : Inv g s ∧ OnlyAll g s) (hop : op.gathersAll) :
    Inv g (fstep g dirs s op).1 ∧ OnlyAll g (fstep g dirs s op).1 := by
  obtain ⟨h, ha⟩ := h
  have hA : Parity.all.ok := by simp [Parity.ok]
  cases op with
  | assign p new =>
    have hp : p ≠ .none := hop
    refine ⟨?_, onlyAll_markChanged g p hop dirs _ ha⟩
    have hpre : ∀ d, Pre g
        { s with val := fun c => if p.visits (g.parity c) then new c else s.val c } p d := by
      intro d
      obtain ⟨σ, hi, _⟩ := h.1 d
      by_cases hc : ∃ r, g.comm r d = true
      · obtain ⟨r, hr⟩ := hc
        refine ⟨σ, ⟨hi.st, hi.infl, hi.excl⟩, fun hpa => ?_⟩
        have h1 := ha r d hr
        rw [hi.st r hr] at h1
        apply DataOK.of_notDone
        cases p
        · exact absurd rfl hp
        · exact h1.1
        · exact h1.2
        · exact absurd rfl hpa
      · refine ⟨σ, ⟨hi.st, hi.infl, hi.excl⟩, fun _ => ⟨fun _ c hcc _ => ?_, fun _ c hcc _ => ?_⟩⟩
        all_goals
          exact absurd (hok.own _ d c (by simpa using fun hh => hc ⟨_, hh⟩) rfl) hcc
    obtain ⟨k1, _, _, k4⟩ := markChanged_spec g hok p hp dirs
      { s with val := fun c => if p.visits (g.parity c) then new c else s.val c }
      (fun r => h.2 r) hpre
    exact ⟨fun d => k4 d (Or.inl (hdirs d)), k1⟩
  | start d p =>
    have hp : p = .all := hop
    subst hp
    exact ⟨(start_invariant g hok s d _ hA h).1, onlyAll_start g s ha d⟩
  | read ds p =>
    have hp : p = .all := hop
    subst hp
    obtain ⟨a1, a2, a3, _⟩ := starts_inv g hok .all hA ds s h
    refine ⟨(waits_inv g hok .all hA ds _ a1 a3).1, ?_⟩
    simp only [fstep]
    have h1 : ∀ (l : List D) (s : HState S D R V), OnlyAll g s →
        OnlyAll g (l.foldl (fun s d => start g s d .all) s) := by
      intro l; induction l with
      | nil => intro s h; exact h
      | cons d l ih => intro s h; exact ih _ (onlyAll_start g s h d)
    have h2 : ∀ (l : List D) (s : HState S D R V), OnlyAll g s →
        OnlyAll g (l.foldl (fun s d => wait g s d .all) s) := by
      intro l; induction l with
      | nil => intro s h; exact h
      | cons d l ih =>
        intro s h; exact ih _ (fun r d' hr => onlyAll_waitLoc g s h d d' r hr)
    exact h2 ds _ (h1 ds s ha)

theorem finit_inv (val : S → V) (halo : R → D → S → V) (buf : R → D → Parity → S → V) :
    Inv g (finit val halo buf) :=
  ⟨fun _ => ⟨fun _ => .notDone, ⟨fun _ _ => rfl, fun _ _ _ => rfl, fun h => absurd rfl h⟩,
    fun _ _ => .of_notDone g rfl⟩, fun _ => rfl⟩

end

/-! ## The geometry of a layout -/

/-- The geometry of a layout: sites of the lattice, directions, ranks. -/
def layoutGeo {n : ℕ} (lay : Layout n) (h : lay.WF) :
    Geo {c : Site n // lay.InLattice c} (Dir n) (Fin lay.numNodes) where
  nb d c := ⟨lay.neighbour c.1 d, neighbour_inLattice lay h c.1 c.2 d⟩
  owner c := ⟨lay.nodeRank c.1, nodeRank_lt lay h c.1 c.2⟩
  parity c := c.1.parity
  comm r d := !((fromNode lay r d).rank == r.val && (toNode lay r d).rank == r.val)
  partner r d := ⟨(fromNode lay r d).rank, by
    rcases C04_expected_is_sent lay h r.1 r.2 d with ⟨e, _⟩ | ⟨_, e, _⟩
    · exact lt_of_eq_of_lt e r.2
    · exact e⟩

theorem layoutGeo_ok {n : ℕ} (lay : Layout n) (h : lay.WF) : (layoutGeo lay h).OK where
  own r d c hc ho := by
    simp only [layoutGeo, Bool.not_eq_false', Bool.and_eq_true, beq_iff_eq] at hc ho ⊢
    apply Fin.ext
    have hr : lay.nodeRank c.1 = r.1 := congrArg Fin.val ho
    rcases C04_single_partner lay h r.1 r.2 d c.1 (lay.neighbour c.1 d) c.2 hr
      (neighbour_isPeriodic lay h d c.1) with e | e
    · exact e
    · exact e.trans hc.1
  part d c hc := by
    simp only [layoutGeo] at hc ⊢
    apply Fin.ext
    rcases C04_single_partner lay h _ (nodeRank_lt lay h c.1 c.2) d c.1 (lay.neighbour c.1 d) c.2 rfl
      (neighbour_isPeriodic lay h d c.1) with e | e
    · exact absurd (Fin.ext e) hc
    · exact e
  commp r d hc := by
    simp only [layoutGeo, Bool.not_eq_true', Bool.and_eq_false_iff, beq_eq_false_iff_ne] at hc ⊢
    rcases C04_expected_is_sent lay h r.1 r.2 d with ⟨e, _⟩ | ⟨e1, _, _, e2, _⟩
    · rcases hc with hc | hc
      · exact absurd e hc
      · simp only [e]; exact Or.inr hc
    · right
      rw [e2]; exact fun hh => e1 hh.symm
  par c := Site.parity_cases c.1

/-- If every extent that is divided between ranks is even, neighbours on different ranks have
opposite parity. -/
theorem layoutGeo_flip {n : ℕ} (lay : Layout n) (h : lay.WF)
    (heven : ∀ a, lay.L a % 2 = 0 ∨ lay.ndiv a = 1) : (layoutGeo lay h).Flip := by
  intro d c hc
  simp only [layoutGeo] at hc ⊢
  have hcl := c.2
  have hce := hcl (axis d)
  rcases heven (axis d) with hev | hone
  · intro hpar
    have hsum : (∑ b, lay.neighbour c.1 d b) + c.1 (axis d) =
        (∑ b, c.1 b) + pstep (isUp d) (lay.L (axis d)) (c.1 (axis d)) := by
      rw [neighbour_eq lay h c.1 hcl, Finset.sum_update_of_mem (Finset.mem_univ _),
        ← Finset.sum_sdiff (Finset.subset_univ {axis d}) (f := c.1), Finset.sum_singleton]
      omega
    have hp : pstep (isUp d) (lay.L (axis d)) (c.1 (axis d)) % 2 ≠ c.1 (axis d) % 2 := by
      cases isUp d
      · rw [pstep_down _ _ hce]; split <;> omega
      · rw [pstep_up _ _ hce]; split <;> omega
    rcases Site.parity_cases c.1 with h1 | h1
    · rw [h1] at hpar
      rw [Site.parity_even_iff] at h1 hpar
      omega
    · rw [h1] at hpar
      rw [Site.parity_odd_iff] at h1 hpar
      omega
  · exfalso
    apply hc
    apply Fin.ext
    simp only
    rw [nodeRank_eq, nodeRank_eq]
    congr 2
    funext b
    have hb0 : ∀ x : Site n, lay.InLattice x → lay.nodeCoord x (axis d) = 0 := by
      intro x hx
      have := nodeCoord_lt lay h x hx (axis d)
      omega
    by_cases hb : b = axis d
    · subst hb
      rw [hb0 _ (neighbour_inLattice lay h c.1 hcl d), hb0 _ hcl]
    · unfold Layout.nodeCoord
      rw [neighbour_eq lay h c.1 hcl, Function.update_of_ne hb]

/-! ## The property -/

/-- Specification: output list `outs` of the program `ops` started with content `val` is right:
each reading loop saw, at each site it visits and in each direction it reads, the value the
periodic neighbour has after the assignments that precede the loop. -/
def ReadsLatest {n : ℕ} {V : Type} (lay : Layout n)
    (val : {c : Site n // lay.InLattice c} → V)
    (ops : List (FOp {c : Site n // lay.InLattice c} (Dir n) V))
    (outs : List (Option (Dir n → {c : Site n // lay.InLattice c} → V))) : Prop :=
  ∀ (k : ℕ) (ds : List (Dir n)) (p : Parity), ops[k]? = some (.read ds p) →
    ∃ o, outs[k]? = some (some o) ∧
      ∀ d ∈ ds, ∀ c e : {c : Site n // lay.InLattice c}, Visits p c.1 →
        IsPeriodicNeighbour lay.L d c.1 e.1 →
        o d c = contentAfter (fun c => c.1.parity) val (ops.take k) e

theorem readsLatest_of {n : ℕ} {V : Type} (lay : Layout n) (h : lay.WF)
    (val : {c : Site n // lay.InLattice c} → V)
    (ops : List (FOp {c : Site n // lay.InLattice c} (Dir n) V))
    (outs : List (Option (Dir n → {c : Site n // lay.InLattice c} → V)))
    (h3 : ∀ (k : ℕ) (ds : List (Dir n)) (p : Parity), ops[k]? = some (.read ds p) →
      ∃ o, outs[k]? = some (some o) ∧
        ∀ d ∈ ds, ∀ c, p.visits ((layoutGeo lay h).parity c) = true →
          o d c = contentAfter (layoutGeo lay h).parity val (ops.take k) ((layoutGeo lay h).nb d c)) :
    ReadsLatest lay val ops outs := by
  intro k ds p hk
  obtain ⟨o, ho, hoo⟩ := h3 k ds p hk
  refine ⟨o, ho, fun d hd c e hv he => ?_⟩
  have hv' : p.visits c.1.parity = true := by
    unfold Visits at hv; unfold Parity.visits
    rcases hv with hv | hv
    · simp [hv]
    · simp [hv]
  rw [hoo d hd c hv']
  have : e = (layoutGeo lay h).nb d c := by
    apply Subtype.ext
    exact (C03_neighbour_is_periodic lay h d c.1 e.1).1 he
  rw [this]; rfl

/-- For every layout in which the divided extents are even and every sequence of assignments,
explicit gathers and reading loops on any parity: no rank exits, waits for a message that was not
posted or overwrites one in flight, and every loop sees current neighbour values.
(`_partial`: for odd divided extents the statement is false, see `C05_stale_halo`.) -/
theorem C05_reads_latest_partial {n : ℕ} {V : Type} (lay : Layout n) (h : lay.WF)
    (heven : ∀ a, lay.L a % 2 = 0 ∨ lay.ndiv a = 1)
    (val : {c : Site n // lay.InLattice c} → V)
    (halo : Fin lay.numNodes → Dir n → {c : Site n // lay.InLattice c} → V)
    (buf : Fin lay.numNodes → Dir n → Parity → {c : Site n // lay.InLattice c} → V)
    (ops : List (FOp {c : Site n // lay.InLattice c} (Dir n) V))
    (hops : ∀ op ∈ ops, op.parity ≠ .none) :
    let run := frun (layoutGeo lay h) (List.finRange (2 * n)) (finit val halo buf) ops
    (∀ r, (run.1.loc r).err = false) ∧ ReadsLatest lay val ops run.2 := by
  intro run
  obtain ⟨h1, _, h3⟩ := run_reads (layoutGeo lay h) (layoutGeo_ok lay h)
    (List.finRange (2 * n)) (Inv (layoutGeo lay h)) (fun op => op.parity ≠ .none) (fun _ => id)
    (fun _ => id) (fun s op hs hop => fstep_inv _ (layoutGeo_ok lay h)
      (layoutGeo_flip lay h heven) _ (fun d => List.mem_finRange d) s op hs hop)
    ops hops _ (finit_inv _ val halo buf)
  exact ⟨h1.2, readsLatest_of lay h val ops _ h3⟩

/-- For any extents, odd ones included: programs that gather and read with `ALL` only (they may
assign single parities) read current values. -/
theorem C05_all_gathers_any_extent {n : ℕ} {V : Type} (lay : Layout n) (h : lay.WF)
    (val : {c : Site n // lay.InLattice c} → V)
    (halo : Fin lay.numNodes → Dir n → {c : Site n // lay.InLattice c} → V)
    (buf : Fin lay.numNodes → Dir n → Parity → {c : Site n // lay.InLattice c} → V)
    (ops : List (FOp {c : Site n // lay.InLattice c} (Dir n) V))
    (hops : ∀ op ∈ ops, match op with
      | .assign p _ => p ≠ .none | .start _ p => p = .all | .read _ p => p = .all) :
    let run := frun (layoutGeo lay h) (List.finRange (2 * n)) (finit val halo buf) ops
    (∀ r, (run.1.loc r).err = false) ∧ ReadsLatest lay val ops run.2 := by
  intro run
  obtain ⟨h1, _, h3⟩ := run_reads (layoutGeo lay h) (layoutGeo_ok lay h)
    (List.finRange (2 * n)) (fun s => Inv (layoutGeo lay h) s ∧ OnlyAll (layoutGeo lay h) s)
    FOp.gathersAll (fun _ hs => hs.1)
    (fun op hop => by cases op <;> simp_all [FOp.gathersAll, FOp.parity])
    (fun s op hs hop => fstep_onlyAll _ (layoutGeo_ok lay h) _
      (fun d => List.mem_finRange d) s op hs hop)
    ops (fun op ho => by have := hops op ho; cases op <;> exact this) _
    ⟨finit_inv _ val halo buf, fun _ _ _ => ⟨rfl, rfl⟩⟩
  exact ⟨h1.1.2, readsLatest_of lay h val ops _ h3⟩

/-! ### The negation for odd extents -/

/-- A one-dimensional lattice of three sites on three ranks. -/
def ring3 : Layout 1 := ⟨fun _ => 3, fun _ => 3, id, id⟩

theorem ring3_wf : ring3.WF :=
  ⟨by decide, by decide, fun _ h => h, fun _ h => h, fun _ _ => rfl, fun _ _ => rfl⟩

/-- The sites of the ring. -/
def ring3Site (i : Fin 3) : {c : Site 1 // ring3.InLattice c} := ⟨fun _ => i.1, fun _ => i.2⟩

/-- Assign 0 everywhere, loop over the even sites reading `f[X+e_x]`, assign 1 on the even sites,
loop again. -/
def staleProgram : List (FOp {c : Site 1 // ring3.InLattice c} (Dir 1) ℕ) :=
  [.assign .all (fun _ => 0), .read [0] .even, .assign .even (fun _ => 1), .read [0] .even]

/-- The code violates the property on lattices with an odd divided extent: writing the even sites
invalidates only odd and full gathers, yet across the odd boundary an even site has an even
neighbour. On the ring of three sites the second loop of `staleProgram` reads, at site 2, the old
value of site 0. -/
theorem C05_stale_halo :
    ¬ ReadsLatest ring3 (fun _ => 0) staleProgram
      (frun (layoutGeo ring3 ring3_wf) (List.finRange 2) (finit (fun _ => 0) (fun _ _ _ => 0)
        (fun _ _ _ _ => 0)) staleProgram).2 := by
  intro hh
  obtain ⟨o, ho, hoo⟩ := hh 3 [0] .even rfl
  have h1 := hoo 0 (by simp) (ring3Site 2) (ring3Site 0) (by decide)
    (by unfold IsPeriodicNeighbour; decide)
  have h2 : (match (frun (layoutGeo ring3 ring3_wf) (List.finRange 2) (finit (fun _ => 0)
      (fun _ _ _ => 0) (fun _ _ _ _ => 0)) staleProgram).2[3]? with
      | some (some o) => o 0 (ring3Site 2) | _ => 7) = 0 := by decide +kernel
  rw [ho] at h2
  have h3 : contentAfter (fun c : {c : Site 1 // ring3.InLattice c} => c.1.parity) (fun _ => 0)
      (staleProgram.take 3) (ring3Site 0) = 1 := by decide +kernel
  simp only at h2
  omega

/-- A lattice of 4 x 3 sites on 2 x 1 ranks meets the hypothesis of `C05_reads_latest_partial`
(the odd extent is not divided). -/
def evenSplit : Layout 2 := ⟨![4, 3], ![2, 1], id, id⟩

theorem evenSplit_wf : evenSplit.WF :=
  ⟨by decide, by decide, fun _ h => h, fun _ h => h, fun _ _ => rfl, fun _ _ => rfl⟩

example : ∀ a, evenSplit.L a % 2 = 0 ∨ evenSplit.ndiv a = 1 := by decide

/-- The hypotheses of both theorems on a program with messages in flight over an assignment. -/
example (f : {c : Site 2 // evenSplit.InLattice c} → ℕ) :
    ∀ op ∈ ([.assign .all f, .start 0 .even, .start 1 .all, .assign .odd f, .read [0, 1, 3] .even] :
      List (FOp {c : Site 2 // evenSplit.InLattice c} (Dir 2) ℕ)), op.parity ≠ .none := by
  simp [FOp.parity]

example (f : {c : Site 1 // ring3.InLattice c} → ℕ) :
    ∀ op ∈ ([.assign .all f, .start 0 .all, .assign .odd f, .read [0, 1] .all] :
      List (FOp {c : Site 1 // ring3.InLattice c} (Dir 1) ℕ)), match op with
      | .assign p _ => p ≠ .none | .start _ p => p = .all | .read _ p => p = .all := by
  simp

end Hila
