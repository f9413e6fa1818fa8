import Verif.Model.CpuLoopSpec
import Verif.Props.HaloState

/-!
# Lemmas about the generated site loop
-/

set_option linter.unusedSectionVars false

namespace Hila
section
variable {Φ S D R V : Type} [DecidableEq Φ] [DecidableEq S] [DecidableEq D] [DecidableEq R]
  (g : Geo S D R) (bit : D → ℕ)

/-- Starting further gathers keeps what is gathered. -/
theorem start_gatheredS (s : HState S D R V) (d d' : D) (p p' : Parity) (hp : p.ok)
    (h : GatheredS g s d' p') : GatheredS g (start g s d p) d' p' := by
  intro r hr
  refine gathered_mono _ _ p' (fun q hq => ?_) (h r hr)
  simp only [start, startLoc]
  split
  · exact hq
  · by_cases hd : d' = d
    · subst hd
      by_cases e : q = p
      · subst e; simp [upd2]
      · simpa [upd2, Function.update_of_ne e] using hq
    · simpa only [upd2_other _ _ _ _ _ hd] using hq
  · rename_i q' hc
    by_cases hd : d' = d
    · subst hd
      rw [hr] at hc
      have := check_post _ p q' hp hc
      by_cases e : q = q'
      · subst e; rw [this.2.1] at hq; cases hq
      · simpa [upd2, Function.update_of_ne e] using hq
    · simpa only [upd2_other _ _ _ _ _ hd] using hq

/-- All communicating ranks agree on what is gathered. -/
theorem gatheredS_of_one (s : HState S D R V) (h : Inv g s) (d : D) (p : Parity) (r : R)
    (hr : g.comm r d = true) (hg : isGathered ((s.loc r).status d) p = true) : GatheredS g s d p := by
  obtain ⟨σ, hi, -⟩ := h.1 d
  intro r' hr'
  rw [hi.st r' hr']; rwa [hi.st r hr] at hg

/-- No message under way touches a halo slot that is gathered. -/
theorem not_unstable (s : HState S D R V) (h : Inv g s) (d : D) (p : Parity) (hp : p.ok)
    (hg : GatheredS g s d p) (c : S) (hr : g.comm (g.owner c) d = true)
    (hv : p.visits (g.parity c) = true) : unstable g (s.loc (g.owner c)) d c = false := by
  obtain ⟨σ, hi, -⟩ := h.1 d
  have hgg := hg _ hr
  rw [hi.st _ hr] at hgg
  have hex := hi.excl
  unfold unstable
  simp only [hi.infl _ hr]
  unfold isGathered at hgg
  generalize g.parity c = q at hv ⊢
  rcases gs3 (σ .all) with a | a | a <;> rcases gs3 (σ .even) with b | b | b <;>
    rcases gs3 (σ .odd) with e | e | e <;> cases p <;> cases q <;>
    simp_all [Parity.visits, Parity.ok]

theorem shift_bit (k : ℕ) (hk : k < 8) : (1#8 <<< k).getLsbD k = true := by
  rw [BitVec.getLsbD_shiftLeft]; simp [hk]

/-- The bit of a direction in which the neighbour is on another rank is set. -/
theorem waitBits_bit (dirs : List D) (c : S) (d : D) (hd : d ∈ dirs) (hb : bit d < 8)
    (ho : g.owner (g.nb d c) ≠ g.owner c) : (waitBits g bit dirs c).getLsbD (bit d) = true := by
  have key : ∀ (l : List D) (w : BitVec 8), (w.getLsbD (bit d) = true ∨ d ∈ l) →
      (l.foldl (fun w d => if g.owner (g.nb d c) = g.owner c then w else w ||| 1#8 <<< bit d)
        w).getLsbD (bit d) = true := by
    intro l
    induction l with
    | nil => intro w hw; rcases hw with hw | hw
             · exact hw
             · simp at hw
    | cons e l ih =>
      intro w hw
      rw [List.foldl_cons]
      apply ih
      rcases hw with hw | hw
      · left
        split
        · exact hw
        · rw [BitVec.getLsbD_or, hw, Bool.true_or]
      · rcases List.mem_cons.1 hw with rfl | hw
        · left
          rw [if_neg ho, BitVec.getLsbD_or, shift_bit _ hb, Bool.or_true]
        · exact Or.inr hw
  exact key dirs 0#8 (Or.inr hd)

/-- State after the gathers have been started: everything asked for is gathered or under way, and a bit
that is not set means gathered. -/
theorem gatherSteps_spec (hok : g.OK) (p : Parity) (hp : p.ok) (gs : List (Φ × D))
    (hb : ∀ fd ∈ gs, bit fd.2 < 8) :
    ∀ (s : Φ → HState S D R V) (m : R → BitVec 8), (∀ f, Inv g (s f)) →
      let a := gs.foldl (gatherStep g bit p) (s, m)
      (∀ f, Inv g (a.1 f)) ∧ (∀ f, (a.1 f).val = (s f).val) ∧
      (∀ fd ∈ gs, UnderS g (a.1 fd.1) fd.2 p) ∧
      (∀ fd ∈ gs, ∀ r, g.comm r fd.2 = true → (a.2 r).getLsbD (bit fd.2) = false →
        GatheredS g (a.1 fd.1) fd.2 p) ∧
      (∀ f d, UnderS g (s f) d p → UnderS g (a.1 f) d p) ∧
      (∀ f d, GatheredS g (s f) d p → GatheredS g (a.1 f) d p) ∧
      (∀ r k, (m r).getLsbD k = true → (a.2 r).getLsbD k = true) := by
  induction gs with
  | nil =>
    intro s m h
    exact ⟨h, fun _ => rfl, by simp, by simp, fun _ _ => id, fun _ _ => id, fun _ _ => id⟩
  | cons fd gs ih =>
    intro s m h
    obtain ⟨f, d⟩ := fd
    have hbd : bit d < 8 := hb (f, d) (by simp)
    obtain ⟨h1, h2, h3, h4⟩ := start_invariant g hok (s f) d p hp (h f)
    have hInv : ∀ f', Inv g (Function.update s f (start g (s f) d p) f') := by
      intro f'
      by_cases e : f' = f
      · subst e; simpa using h1
      · simpa [Function.update_of_ne e] using h f'
    obtain ⟨k1, k2, k3, k4, k5, k6, k7⟩ := ih (fun fd hfd => hb fd (by simp [hfd]))
      (Function.update s f (start g (s f) d p))
      (fun r => m r ||| startMask bit (g.comm r d) (((s f).loc r).status d) p d) hInv
    have hG : ∀ f' d', GatheredS g (s f') d' p →
        GatheredS g (Function.update s f (start g (s f) d p) f') d' p := by
      intro f' d' hg
      by_cases e : f' = f
      · subst e; simpa using start_gatheredS g (s f') d d' p p hp hg
      · simpa [Function.update_of_ne e] using hg
    have hU : ∀ f' d', UnderS g (s f') d' p →
        UnderS g (Function.update s f (start g (s f) d p) f') d' p := by
      intro f' d' hg
      by_cases e : f' = f
      · subst e; simpa using h4 d' p hg
      · simpa [Function.update_of_ne e] using hg
    refine ⟨k1, ?_, ?_, ?_, fun f' d' hh => k5 f' d' (hU f' d' hh),
      fun f' d' hh => k6 f' d' (hG f' d' hh), ?_⟩
    · intro f'
      refine (k2 f').trans ?_
      by_cases e : f' = f
      · subst e; simpa using h2
      · simp [Function.update_of_ne e]
    · intro fd' hfd'
      rcases List.mem_cons.1 hfd' with rfl | hfd'
      · exact k5 f d (by simpa using h3)
      · exact k3 fd' hfd'
    · intro fd' hfd' r hr hbit
      rcases List.mem_cons.1 hfd' with rfl | hfd'
      · refine k6 f d (hG f d ?_)
        refine gatheredS_of_one g (s f) (h f) d p r hr ?_
        by_contra hng
        have := k7 r (bit d) (by
          simp only [Bool.not_eq_true] at hng
          simp only at hr
          rw [BitVec.getLsbD_or, startMask, hng, hr]
          simp [shift_bit _ hbd])
        exact absurd (this.symm.trans hbit) (by simp)
      · exact k4 fd' hfd' r hr hbit
    · intro r k hk
      exact k7 r k (by rw [BitVec.getLsbD_or, hk, Bool.true_or])

/-- `wait_gather` for one field on all ranks. -/
def waitAll (p : Parity) (s : Φ → HState S D R V) (fd : Φ × D) : Φ → HState S D R V :=
  Function.update s fd.1 (wait g (s fd.1) fd.2 p)

theorem waitLoc_gathered (s : HState S D R V) (d : D) (p : Parity) (h : GatheredS g s d p) (r : R) :
    waitLoc g s d p r = s.loc r := by
  unfold waitLoc
  dsimp only
  by_cases hr : g.comm r d = true
  · rw [if_pos (h r hr)]
  · simp only [Bool.not_eq_true] at hr
    simp [hr]

/-- State after the waits: everything asked for is gathered. -/
theorem waitSteps_spec (hok : g.OK) (p : Parity) (hp : p.ok) (m : R → BitVec 8)
    (gs : List (Φ × D)) :
    ∀ (s : Φ → HState S D R V), (∀ f, Inv g (s f)) → (∀ fd ∈ gs, UnderS g (s fd.1) fd.2 p) →
      (∀ fd ∈ gs, ∀ r, g.comm r fd.2 = true → m r = 0#8 → GatheredS g (s fd.1) fd.2 p) →
      let t := gs.foldl (waitStep g m p) s
      (∀ f, Inv g (t f)) ∧ (∀ f, (t f).val = (s f).val) ∧
      (∀ fd ∈ gs, GatheredS g (t fd.1) fd.2 p) ∧
      (∀ f d, GatheredS g (s f) d p → GatheredS g (t f) d p) := by
  induction gs with
  | nil => intro s h _ _; exact ⟨h, fun _ => rfl, by simp, fun _ _ => id⟩
  | cons fd gs ih =>
    intro s h hu hm
    obtain ⟨f, d⟩ := fd
    have hstep : waitStep g m p s (f, d) = waitAll g p s (f, d) := by
      unfold waitStep waitAll wait
      congr 1
      refine loc_ext rfl fun r => ?_
      show (if m r = 0#8 then (s f).loc r else waitLoc g (s f) d p r) = waitLoc g (s f) d p r
      by_cases hr : m r = 0#8
      · rw [if_pos hr]
        by_cases hc : g.comm r d = true
        · exact (waitLoc_gathered g (s f) d p (hm (f, d) (by simp) r hc hr) r).symm
        · simp only [Bool.not_eq_true] at hc
          simp [waitLoc, hc]
      · rw [if_neg hr]
    obtain ⟨h1, h2, h3, h4, h5⟩ := wait_invariant g hok (s f) d p hp (h f) (hu (f, d) (by simp))
    have hG : ∀ f' d', GatheredS g (s f') d' p →
        GatheredS g (waitAll g p s (f, d) f') d' p := by
      intro f' d' hg
      unfold waitAll
      by_cases e : f' = f
      · subst e; simpa using h5 d' p hg
      · simpa [Function.update_of_ne e] using hg
    obtain ⟨k1, k2, k3, k4⟩ := ih (waitAll g p s (f, d)) (by
        intro f'
        unfold waitAll
        by_cases e : f' = f
        · subst e; simpa using h1
        · simpa [Function.update_of_ne e] using h f') (by
        intro fd' hfd'
        have hg := hu fd' (by simp [hfd'])
        unfold waitAll
        by_cases e : fd'.1 = f
        · obtain ⟨f', d'⟩ := fd'
          subst e; simpa using h4 d' p hg
        · simpa [Function.update_of_ne e] using hg) (by
        intro fd' hfd' r hr hmr
        exact hG _ _ (hm fd' (by simp [hfd']) r hr hmr))
    rw [List.foldl_cons, hstep]
    refine ⟨k1, ?_, ?_, fun f' d' hg => k4 f' d' (hG f' d' hg)⟩
    · intro f'
      refine (k2 f').trans ?_
      unfold waitAll
      by_cases e : f' = f
      · subst e; simpa using h2
      · simp [Function.update_of_ne e]
    · intro fd' hfd'
      rcases List.mem_cons.1 hfd' with rfl | hfd'
      · exact k4 f d (by unfold waitAll; simpa using h3)
      · exact k3 fd' hfd'

/-- Halo slots that are gathered are read right. -/
theorem haloNow_gathered (hok : g.OK) (garb : R → Φ → D → S → V) (s : Φ → HState S D R V) (f : Φ)
    (h : Inv g (s f)) (d : D) (p : Parity) (hp : p.ok) (hg : GatheredS g (s f) d p) (c : S)
    (hv : p.visits (g.parity c) = true) (ho : g.owner (g.nb d c) ≠ g.owner c) :
    haloNow g garb s (g.owner c) f d c = (s f).val (g.nb d c) := by
  have hcomm : g.comm (g.owner c) d = true := by
    by_contra hcon
    exact ho (hok.own _ d c (by simpa using hcon) rfl)
  have h1 := gathered_read g hok (s f) h d p hp hg c hv
  unfold readAt at h1
  rw [if_neg ho] at h1
  unfold haloNow
  rw [not_unstable g (s f) h d p hp hg c hcomm hv, ← h1]
  rfl

/-! ### The meaning of a loop -/

/-- Doing sites one after another gives each its new value, as long as the halo slots that are read are
right and no assigned field is read at a neighbour of the same parity. -/
theorem visitSite_update (L : SiteLoop Φ S D V) (halo : Φ → D → S → V) (v : Φ → S → V) (c : S) (f : Φ) :
    visitSite g L halo v c f = if f ∈ L.writes then
      Function.update (v f) c
        (L.body c (fun f => v f c)
          (L.reads.map fun fd =>
            if g.owner (g.nb fd.2 c) = g.owner c then v fd.1 (g.nb fd.2 c) else halo fd.1 fd.2 c) f)
    else v f := by
  funext x
  unfold visitSite
  by_cases hf : f ∈ L.writes
  · by_cases hx : x = c
    · subst hx; simp [hf]
    · simp [hf, hx]
  · simp [hf]

theorem visitSites_spec (L : SiteLoop Φ S D V) (v0 : Φ → S → V)
    (hself : ∀ fd ∈ L.reads, fd.1 ∈ L.writes → L.par ≠ .all ∧ ∀ c, g.parity (g.nb fd.2 c) ≠ g.parity c)
    (halo : Φ → D → S → V) (sites : List S) :
    ∀ (pre : List S) (v : Φ → S → V), (pre ++ sites).Nodup →
      (∀ c ∈ pre ++ sites, L.par.visits (g.parity c) = true) →
      (∀ c ∈ sites, ∀ fd ∈ L.reads, g.owner (g.nb fd.2 c) ≠ g.owner c →
        halo fd.1 fd.2 c = v0 fd.1 (g.nb fd.2 c)) →
      (∀ f c, v f c = if c ∈ pre then L.apply g.parity g.nb v0 f c else v0 f c) →
      ∀ f c, (sites.foldl (visitSite g L halo) v) f c =
        if c ∈ pre ++ sites then L.apply g.parity g.nb v0 f c else v0 f c := by
  induction sites with
  | nil => intro pre v _ _ _ hv f c; simpa using hv f c
  | cons x sites ih =>
    intro pre v hnd hpar hh hv f c
    rw [List.foldl_cons]
    have hx : x ∉ pre := by
      intro hx
      exact (List.nodup_append.1 hnd).2.2 x hx x (by simp) rfl
    have hxp : L.par.visits (g.parity x) = true := hpar x (by simp)
    have := ih (pre ++ [x]) (visitSite g L halo v x) (by simpa using hnd) (by simpa using hpar)
      (fun c hc => hh c (by simp [hc])) (by
        intro f' c'
        rw [visitSite_update]
        by_cases hf : f' ∈ L.writes
        · rw [if_pos hf]
          by_cases hc : c' = x
          · subst hc
            rw [Function.update_self, if_pos (by simp), SiteLoop.apply, if_pos ⟨hf, hxp⟩]
            have e1 : (fun f => v f c') = fun f => v0 f c' := by
              funext f; rw [hv f c', if_neg hx]
            have e2 : (L.reads.map fun fd =>
                if g.owner (g.nb fd.2 c') = g.owner c' then v fd.1 (g.nb fd.2 c')
                else halo fd.1 fd.2 c') = L.reads.map fun fd => v0 fd.1 (g.nb fd.2 c') := by
              refine List.map_congr_left fun fd hfd => ?_
              split
              · rw [hv]
                split
                · rename_i hin
                  unfold SiteLoop.apply
                  rw [if_neg]
                  rintro ⟨hw, hvis⟩
                  obtain ⟨hne, hpf⟩ := hself fd hfd hw
                  have h1 := hpf c'
                  generalize g.parity (g.nb fd.2 c') = a at h1 hvis
                  generalize g.parity c' = b at h1 hxp
                  revert h1 hvis hxp hne
                  cases L.par <;> cases a <;> cases b <;> simp [Parity.visits]
                · rfl
              · rename_i ho
                exact hh c' (by simp) fd hfd ho
            rw [e1, e2]
          · rw [Function.update_of_ne hc, hv f' c']
            have : c' ∈ pre ++ [x] ↔ c' ∈ pre := by simp [hc]
            simp only [this]
        · rw [if_neg hf, hv f' c']
          have : ∀ c, L.apply g.parity g.nb v0 f' c = v0 f' c := fun c => by
            unfold SiteLoop.apply; rw [if_neg (fun h => hf h.1)]
          simp only [this, ite_self])
    have := this f c
    simpa using this

end
end Hila

namespace Hila
section
variable {Φ S D R V : Type} [DecidableEq Φ] [DecidableEq S] [DecidableEq D] [DecidableEq R]
  (g : Geo S D R) (bit : D → ℕ)

/-- One generated loop: every field keeps a consistent communication state and gets the content the loop
means. -/
theorem cpuLoop_spec (hok : g.OK) (hflip : g.Flip) (dirs : List D) (hdirs : ∀ d, d ∈ dirs)
    (hbit : ∀ d, bit d < 8) (L : SiteLoop Φ S D V) (hp : L.par.ok)
    (hreads : ∀ fd ∈ L.reads, fd ∈ L.gathers)
    (hself : ∀ fd ∈ L.reads, fd.1 ∈ L.writes → L.par ≠ .all ∧ ∀ c, g.parity (g.nb fd.2 c) ≠ g.parity c)
    (order : Bool → R → List S) (hord : GoodOrder L g.parity g.owner order)
    (garb : R → Φ → D → S → V) (s : Φ → HState S D R V) (h : ∀ f, Inv g (s f)) :
    (∀ f, Inv g (cpuLoop g bit dirs L order garb s f)) ∧
    ∀ f c, (cpuLoop g bit dirs L order garb s f).val c =
      L.apply g.parity g.nb (fun f => (s f).val) f c := by
  obtain ⟨a1, a2, a3, a4, -, -, -⟩ := gatherSteps_spec g bit hok L.par hp L.gathers
    (fun fd _ => hbit fd.2) s (fun _ => 0#8) h
  unfold cpuLoop
  dsimp only
  set a := L.gathers.foldl (gatherStep g bit L.par) (s, fun _ => 0#8) with ha
  obtain ⟨b1, b2, b3, -⟩ := waitSteps_spec g hok L.par hp a.2 L.gathers a.1 a1 a3 (by
    intro fd hfd r hr hm
    exact a4 fd hfd r hr (by rw [hm]; simp))
  set s2 := L.gathers.foldl (waitStep g a.2 L.par) a.1 with hs2
  -- the content after the passes of a rank
  have hval : ∀ f c, (if a.2 (g.owner c) = 0#8 then
        passRun g bit dirs L false (a.2 (g.owner c)) (order false (g.owner c))
          (haloNow g garb a.1 (g.owner c)) (fun f => (s f).val)
      else passRun g bit dirs L true (a.2 (g.owner c)) (order true (g.owner c))
          (haloNow g garb s2 (g.owner c))
          (passRun g bit dirs L false (a.2 (g.owner c)) (order false (g.owner c))
            (haloNow g garb a.1 (g.owner c)) (fun f => (s f).val))) f c =
      L.apply g.parity g.nb (fun f => (s f).val) f c := by
    intro f c
    generalize hr : g.owner c = r
    have happ : L.par.visits (g.parity c) ≠ true →
        L.apply g.parity g.nb (fun f => (s f).val) f c = (s f).val c := by
      intro hv
      unfold SiteLoop.apply; rw [if_neg (fun h => hv h.2)]
    obtain ⟨n0, o0⟩ := hord false r
    obtain ⟨n1, o1⟩ := hord true r
    set F0 := (order false r).filter fun c =>
      (waitBits g bit dirs c &&& a.2 r != 0#8) == false with hF0
    set F1 := (order true r).filter fun c =>
      (waitBits g bit dirs c &&& a.2 r != 0#8) == true with hF1
    have m0 : ∀ x, x ∈ F0 ↔ (g.owner x = r ∧ L.par.visits (g.parity x) = true) ∧
        waitBits g bit dirs x &&& a.2 r = 0#8 := by
      intro x; rw [hF0, List.mem_filter, o0]; simp
    have m1 : ∀ x, x ∈ F1 ↔ (g.owner x = r ∧ L.par.visits (g.parity x) = true) ∧
        waitBits g bit dirs x &&& a.2 r ≠ 0#8 := by
      intro x; rw [hF1, List.mem_filter, o1]; simp
    have r0 := visitSites_spec g L (fun f => (s f).val) hself (haloNow g garb a.1 r) F0 []
      (fun f => (s f).val) (by simpa using n0.filter _) (by
        intro x hx
        exact ((m0 x).1 (by simpa using hx)).1.2) (by
        intro x hx fd hfd ho
        obtain ⟨⟨e1, e2⟩, e3⟩ := (m0 x).1 hx
        have hcomm : g.comm (g.owner x) fd.2 = true := by
          by_contra hcon
          exact ho (hok.own _ fd.2 x (by simpa using hcon) rfl)
        have hw := waitBits_bit g bit dirs x fd.2 (hdirs _) (hbit _) ho
        have hm : (a.2 r).getLsbD (bit fd.2) = false := by
          have := congrArg (fun b => b.getLsbD (bit fd.2)) e3
          simpa [hw] using this
        have hg := a4 fd (hreads fd hfd) r (e1 ▸ hcomm) hm
        have := haloNow_gathered g hok garb a.1 fd.1 (a1 _) fd.2 L.par hp hg x e2 ho
        rw [e1] at this
        rw [this, a2]) (by intro f c; simp)
    by_cases hm : a.2 r = 0#8
    · rw [if_pos hm]
      have := r0 f c
      simp only [List.nil_append, m0, hm, BitVec.and_zero, and_true, hr, true_and] at this
      unfold passRun
      rw [← hF0, this]
      by_cases hv : L.par.visits (g.parity c) = true
      · rw [if_pos hv]
      · rw [if_neg hv, happ hv]
    · rw [if_neg hm]
      have r1 := visitSites_spec g L (fun f => (s f).val) hself (haloNow g garb s2 r) F1 F0
        (F0.foldl (visitSite g L (haloNow g garb a.1 r)) fun f => (s f).val) (by
          refine List.nodup_append.2 ⟨n0.filter _, n1.filter _, ?_⟩
          rintro x hx y hy rfl
          exact ((m1 x).1 hy).2 ((m0 x).1 hx).2) (by
          intro x hx
          rcases List.mem_append.1 hx with hx | hx
          · exact ((m0 x).1 hx).1.2
          · exact ((m1 x).1 hx).1.2) (by
          intro x hx fd hfd ho
          obtain ⟨⟨e1, e2⟩, -⟩ := (m1 x).1 hx
          have := haloNow_gathered g hok garb s2 fd.1 (b1 _) fd.2 L.par hp
            (b3 fd (hreads fd hfd)) x e2 ho
          rw [e1] at this
          rw [this, b2, a2]) (by
          intro f c
          have := r0 f c
          simpa using this)
      unfold passRun
      rw [← hF0, ← hF1, r1 f c]
      by_cases hv : L.par.visits (g.parity c) = true
      · rw [if_pos]
        rw [List.mem_append, m0, m1]
        by_cases hz : waitBits g bit dirs c &&& a.2 r = 0#8
        · exact Or.inl ⟨⟨hr, hv⟩, hz⟩
        · exact Or.inr ⟨⟨hr, hv⟩, hz⟩
      · rw [if_neg, happ hv]
        rw [List.mem_append, m0, m1]
        tauto
  have hT : ∀ f, ({ s2 f with val := fun c => (if a.2 (g.owner c) = 0#8 then
        passRun g bit dirs L false (a.2 (g.owner c)) (order false (g.owner c))
          (haloNow g garb a.1 (g.owner c)) (fun f => (s f).val)
      else passRun g bit dirs L true (a.2 (g.owner c)) (order true (g.owner c))
          (haloNow g garb s2 (g.owner c))
          (passRun g bit dirs L false (a.2 (g.owner c)) (order false (g.owner c))
            (haloNow g garb a.1 (g.owner c)) (fun f => (s f).val))) f c } : HState S D R V) =
      { s2 f with val := fun c => L.apply g.parity g.nb (fun f => (s f).val) f c } := by
    intro f
    refine loc_ext ?_ fun _ => rfl
    funext c
    exact hval f c
  refine ⟨fun f => ?_, fun f c => ?_⟩
  · rw [hT f]
    by_cases hf : f ∈ L.writes
    · rw [if_pos hf]
      have := assign_inv g hok hflip dirs hdirs (s2 f) (b1 f) L.par hp
        (fun c => L.apply g.parity g.nb (fun f => (s f).val) f c)
      have e : ({ s2 f with val := fun c => L.apply g.parity g.nb (fun f => (s f).val) f c } :
          HState S D R V) = { s2 f with
            val := fun c => if L.par.visits (g.parity c) = true then
              L.apply g.parity g.nb (fun f => (s f).val) f c else (s2 f).val c } := by
        refine loc_ext (funext fun c => ?_) fun _ => rfl
        show L.apply g.parity g.nb (fun f => (s f).val) f c = if L.par.visits (g.parity c) = true then
          L.apply g.parity g.nb (fun f => (s f).val) f c else (s2 f).val c
        split
        · rfl
        · rename_i hv
          unfold SiteLoop.apply
          rw [if_neg (fun h => hv h.2), b2, a2]
      rw [e]; exact this
    · rw [if_neg hf]
      have : ({ s2 f with val := fun c => L.apply g.parity g.nb (fun f => (s f).val) f c } :
          HState S D R V) = s2 f := by
        refine loc_ext ?_ fun _ => rfl
        funext c
        show L.apply g.parity g.nb (fun f => (s f).val) f c = (s2 f).val c
        unfold SiteLoop.apply
        rw [if_neg (fun h => hf h.1), b2, a2]
      rw [this]; exact b1 f
  · rw [hT f]
    split
    · rw [markChanged_val]
    · rfl

end
end Hila
