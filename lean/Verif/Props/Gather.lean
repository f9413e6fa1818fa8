import Verif.Lemmas.GatherLink
import Verif.Props.Layout

/-!
# C03, C04: neighbour access and halo messages
-/

namespace Hila

open BigOperators

/-- Specification of the periodic nearest neighbour, without reference to the model: every
coordinate of `e` is inside the lattice and congruent to that of `c` plus the unit vector. -/
def IsPeriodicNeighbour {n : ℕ} (L : Site n) (d : Dir n) (c e : Site n) : Prop :=
  ∀ b, e b < L b ∧ (L b : ℤ) ∣ ((c b : ℤ) + CV.ofDir d b) - e b

theorem neighbour_isPeriodic {n : ℕ} (lay : Layout n) (h : lay.WF) (d : Dir n) (c : Site n) :
    IsPeriodicNeighbour lay.L d c (lay.neighbour c d) := by
  intro b
  have hL := h.L_pos b
  have hm : CV.mod (CV.addDir (Site.toCV c) d) (Site.toCV lay.L) b =
      ((c b : ℤ) + CV.ofDir d b) % (lay.L b : ℤ) := by
    unfold CV.mod
    rw [pmod_eq_emod _ _ (by unfold Site.toCV; exact_mod_cast hL), addDir_eq]; rfl
  have hnn : 0 ≤ ((c b : ℤ) + CV.ofDir d b) % (lay.L b : ℤ) :=
    Int.emod_nonneg _ (by omega)
  have hlt : ((c b : ℤ) + CV.ofDir d b) % (lay.L b : ℤ) < lay.L b := Int.emod_lt_of_pos _ (by omega)
  have he : ((lay.neighbour c d b : ℕ) : ℤ) = ((c b : ℤ) + CV.ofDir d b) % (lay.L b : ℤ) := by
    unfold Layout.neighbour; rw [hm]; omega
  constructor
  · omega
  · rw [he]; exact Int.dvd_self_sub_emod

theorem isPeriodic_unique {n : ℕ} (L : Site n) (d : Dir n) (c e e' : Site n)
    (h : IsPeriodicNeighbour L d c e) (h' : IsPeriodicNeighbour L d c e') : e = e' := by
  funext b
  obtain ⟨h1, k1⟩ := h b
  obtain ⟨h2, k2⟩ := h' b
  have hd : (L b : ℤ) ∣ (e' b : ℤ) - e b := by
    have := dvd_sub k1 k2
    rwa [show ((c b : ℤ) + CV.ofDir d b) - e b - (((c b : ℤ) + CV.ofDir d b) - e' b) =
      (e' b : ℤ) - e b by ring] at this
  have := Int.eq_zero_of_abs_lt_dvd hd (by rw [abs_lt]; omega)
  omega

/-- The code's neighbour is the periodic neighbour. -/
theorem C03_neighbour_is_periodic {n : ℕ} (lay : Layout n) (h : lay.WF) (d : Dir n) (c e : Site n) :
    IsPeriodicNeighbour lay.L d c e ↔ e = lay.neighbour c d :=
  ⟨fun he => isPeriodic_unique lay.L d c e _ he (neighbour_isPeriodic lay h d c),
    fun he => he ▸ neighbour_isPeriodic lay h d c⟩

/-! ## C04 -/

/-- A rank either expects nothing (no off-node neighbour in that direction) or names a partner
that names it back and sends the same number of even, odd and all sites. -/
theorem C04_expected_is_sent {n : ℕ} (lay : Layout n) (h : lay.WF) (r : ℕ) (hr : r < lay.numNodes)
    (d : Dir n) :
    ((fromNode lay r d).rank = r ∧ (fromNode lay r d).sites = 0) ∨
    ((fromNode lay r d).rank ≠ r ∧ (fromNode lay r d).rank < lay.numNodes ∧
      0 < (fromNode lay r d).sites ∧ (toNode lay (fromNode lay r d).rank d).rank = r ∧
      ∀ par, (toNode lay (fromNode lay r d).rank d).nSites par = (fromNode lay r d).nSites par) := by
  by_cases hne : (pass1 lay r d).rank = r
  · left
    refine ⟨hne, ?_⟩
    show (pass1 lay r d).fromEven + (pass1 lay r d).fromOdd = 0
    rw [from_sites]
    by_contra hcon
    exact (fromNode_rank_iff lay h r hr d).2 ((count_pos_iff lay r d).1 (by omega)) hne
  · right
    obtain ⟨h1, h2, h3, h4, _, _⟩ := partner_spec lay h r hr d hne
    refine ⟨hne, h1, ?_, h2, fun par => ?_⟩
    · show 0 < (pass1 lay r d).fromEven + (pass1 lay r d).fromOdd
      rw [from_sites, count_pos_iff]
      exact (fromNode_rank_iff lay h r hr d).1 hne
    · unfold CommNode.nSites fromNode toNode
      simp only [h3, h4]

/-- Nothing is sent that is not expected. -/
theorem C04_sent_is_expected {n : ℕ} (lay : Layout n) (h : lay.WF) (s : ℕ) (hs : s < lay.numNodes)
    (d : Dir n) :
    ((toNode lay s d).rank = s ∧ (toNode lay s d).sites = 0) ∨
    ((toNode lay s d).rank ≠ s ∧ (toNode lay s d).rank < lay.numNodes ∧
      0 < (toNode lay s d).sites ∧ (fromNode lay (toNode lay s d).rank d).rank = s ∧
      ∀ par, (fromNode lay (toNode lay s d).rank d).nSites par = (toNode lay s d).nSites par) := by
  by_cases hne : (pass1 lay s (oppDir d)).rank = s
  · left
    refine ⟨hne, ?_⟩
    show (pass1 lay s (oppDir d)).toEven + (pass1 lay s (oppDir d)).toOdd = 0
    rw [to_sites]
    by_contra hcon
    exact (fromNode_rank_iff lay h s hs _).2 ((count_pos_iff lay s _).1 (by omega)) hne
  · right
    obtain ⟨h1, h2, _, _, h3, h4⟩ := partner_spec lay h s hs (oppDir d) hne
    rw [oppDir_oppDir] at h2 h3 h4
    refine ⟨hne, h1, ?_, h2, fun par => ?_⟩
    · show 0 < (pass1 lay s (oppDir d)).toEven + (pass1 lay s (oppDir d)).toOdd
      rw [to_sites, count_pos_iff]
      exact (fromNode_rank_iff lay h s hs _).1 hne
    · unfold CommNode.nSites fromNode toNode
      simp only [h3, h4]

/-- The assertion `from_node.sites == to_node.sites` of one loop iteration (lattice.cpp:690)
never fires. -/
theorem C04_assert_holds {n : ℕ} (lay : Layout n) (r : ℕ) (d : Dir n) :
    (fromNode lay r d).sites = (toNode lay r (oppDir d)).sites := by
  show (pass1 lay r d).fromEven + (pass1 lay r d).fromOdd =
    (pass1 lay r (oppDir (oppDir d))).toEven + (pass1 lay r (oppDir (oppDir d))).toOdd
  rw [oppDir_oppDir, from_sites, to_sites]

/-- All off-node neighbours of a rank in one direction belong to one rank, the one named in
`from_node`. -/
theorem C04_single_partner {n : ℕ} (lay : Layout n) (h : lay.WF) (r : ℕ) (hr : r < lay.numNodes)
    (d : Dir n) (c e : Site n) (hcl : lay.InLattice c) (hc : lay.nodeRank c = r)
    (he : IsPeriodicNeighbour lay.L d c e) :
    lay.nodeRank e = r ∨ lay.nodeRank e = (fromNode lay r d).rank := by
  rw [C03_neighbour_is_periodic lay h] at he
  subst he
  by_cases hin : lay.nodeRank (lay.neighbour c d) = r
  · exact Or.inl hin
  · right
    have hb := (inBox_iff_nodeRank lay h r hr c hcl).2 hc
    obtain ⟨h1, h2⟩ := coord_siteIndex lay r c hb
    have ho : Off lay r d ((lay.nodeinfo r).siteIndex c) := by
      rw [off_iff, h2]
      exact fun hbx => hin ((inBox_iff_nodeRank lay h r hr _
        (neighbour_inLattice lay h c hcl d)).1 hbx)
    have := pass1_rank lay h r hr d _ h1 ho
    rw [h2] at this
    exact this.symm

/-- Messages for one gather: a rank receives from at most one rank and sends to at most one. -/
theorem C04_one_sender_one_receiver {n : ℕ} {V : Type} (lay : Layout n) (h : lay.WF) (mem : ℕ → Mem V)
    (d : Dir n) (par : Parity) (s r : ℕ) (hs : s < lay.numNodes) (l : List V)
    (hm : sentMessage lay mem d par s r = some l) :
    (∀ r' l', sentMessage lay mem d par s r' = some l' → r' = r) ∧
    (∀ s' l', s' < lay.numNodes → sentMessage lay mem d par s' r = some l' → s' = s) := by
  have key : ∀ x y l', sentMessage lay mem d par x y = some l' →
      (toNode lay x d).rank ≠ x ∧ (toNode lay x d).rank = y := by
    intro x y l' hx
    unfold sentMessage at hx
    by_contra hcon
    simp only [if_neg hcon] at hx
    cases hx
  have hfrom : ∀ x l', x < lay.numNodes → sentMessage lay mem d par x r = some l' →
      (fromNode lay r d).rank = x := by
    intro x l' hx hx'
    obtain ⟨k1, k2⟩ := key x r l' hx'
    rcases C04_sent_is_expected lay h x hx d with ⟨h1, _⟩ | ⟨_, _, _, h4, _⟩
    · exact absurd h1 k1
    · rw [k2] at h4; exact h4
  refine ⟨fun r' l' hr' => ?_, fun s' l' hs' hm' => ?_⟩
  · rw [← (key s r' l' hr').2, (key s r l hm).2]
  · rw [← hfrom s' l' hs' hm', hfrom s l hs hm]

/-- Order of the message: the `k`-th element of the partner's full send list is the neighbour of
the site whose neighbour table entry is `buffer + k`; the even receiving sites come first. -/
theorem C04_order {n : ℕ} (lay : Layout n) (h : lay.WF) (r : ℕ) (hr : r < lay.numNodes) (d : Dir n)
    (c e : Site n) (hcl : lay.InLattice c) (hc : lay.nodeRank c = r)
    (he : IsPeriodicNeighbour lay.L d c e) (hoff : lay.nodeRank e ≠ r) :
    ∃ k, k < (fromNode lay r d).sites ∧
      neighb lay r d ((lay.nodeinfo r).siteIndex c) = (fromNode lay r d).buffer + k ∧
      (toNode lay (fromNode lay r d).rank d).sitelist k =
        (lay.nodeinfo (lay.nodeRank e)).siteIndex e ∧
      (k < (fromNode lay r d).evensites ↔ c.parity = .even) := by
  rw [C03_neighbour_is_periodic lay h] at he
  subst he
  have hb := (inBox_iff_nodeRank lay h r hr c hcl).2 hc
  obtain ⟨h1, h2⟩ := coord_siteIndex lay r c hb
  set i := (lay.nodeinfo r).siteIndex c with hi
  have ho : Off lay r d i := by
    rw [off_iff, h2]
    exact fun hbx => hoff ((inBox_iff_nodeRank lay h r hr _
      (neighbour_inLattice lay h c hcl d)).1 hbx)
  refine ⟨haloPos lay r d i, haloPos_lt lay r d i h1 ho, neighb_off lay r d i h1 ho, ?_, ?_⟩
  · have := sitelist_haloPos lay h r hr d i h1 ho
    unfold partnerSlot at this
    rw [h2] at this
    exact this
  · have hev : Ev lay r i ↔ c.parity = .even := by unfold Ev; rw [h2]
    rw [← hev]
    show haloPos lay r d i < (pass1 lay r d).fromEven ↔ _
    by_cases hE : Ev lay r i
    · exact iff_of_true (haloPos_even lay r d i h1 ho hE) hE
    · exact iff_of_false (by have := (haloPos_odd lay r d i h1 ho hE).1; omega) hE

/-- Every entry of the send list that is used is a slot of the sending rank (no out-of-range or
unset element is sent). -/
theorem C04_sitelist_entries {n : ℕ} (lay : Layout n) (s : ℕ) (d : Dir n) (par : Parity) (j : ℕ)
    (hj : j ∈ (toNode lay s d).getSitelist par) : j < (lay.nodeinfo s).volume := by
  have key : ∀ k, k < (toNode lay s d).sites → (toNode lay s d).sitelist k < (lay.nodeinfo s).volume := by
    intro k hk
    obtain ⟨i, hi, _, e, _⟩ := sitelist_entry lay s (oppDir d) k hk
    show (pass2 lay s (oppDir d) _).sitelist k < _
    rw [e]; exact hi
  have hsum : (toNode lay s d).sites = (toNode lay s d).evensites + (toNode lay s d).oddsites := rfl
  unfold CommNode.getSitelist at hj
  split at hj
  · obtain ⟨k, hk, rfl⟩ := List.mem_map.1 hj
    exact key k (List.mem_range.1 hk)
  · split at hj
    · obtain ⟨k, hk, rfl⟩ := List.mem_map.1 hj
      have := List.mem_range.1 hk
      exact key k (by omega)
    · obtain ⟨k, hk, rfl⟩ := List.mem_map.1 hj
      have := List.mem_range.1 hk
      exact key _ (by omega)

/-- Halo slots are inside the allocated field, never overlap the sites of the rank, and different
directions or sites never share a halo slot. -/
theorem C04_halo_slots {n : ℕ} (lay : Layout n) (r : ℕ) (d : Dir n) (i : ℕ)
    (hi : i < (lay.nodeinfo r).volume)
    (ho : (lay.nodeinfo r).isOnNode (lay.neighbour ((lay.nodeinfo r).coord i) d) = false) :
    (lay.nodeinfo r).volume ≤ neighb lay r d i ∧ neighb lay r d i < fieldAllocSize lay r ∧
    ∀ (d' : Dir n) (i' : ℕ), i' < (lay.nodeinfo r).volume →
      neighb lay r d' i' = neighb lay r d i → d' = d ∧ i' = i := by
  have hoff : Off lay r d i := ho
  have hn := neighb_off lay r d i hi hoff
  have hlt := haloPos_lt lay r d i hi hoff
  have hge := cOffset_ge lay r d.val
  have hsucc := cOffset_succ lay r d
  have hmono := cOffset_mono lay r (d.val + 1) (2 * n) d.isLt
  refine ⟨by omega, by unfold fieldAllocSize; omega, fun d' i' hi' heq => ?_⟩
  by_cases ho' : Off lay r d' i'
  · have hn' := neighb_off lay r d' i' hi' ho'
    have hlt' := haloPos_lt lay r d' i' hi' ho'
    have hsucc' := cOffset_succ lay r d'
    rcases Nat.lt_trichotomy d'.val d.val with hlt2 | heq2 | hgt2
    · have := cOffset_mono lay r (d'.val + 1) d.val hlt2; omega
    · have hd : d' = d := Fin.ext heq2
      subst hd
      exact ⟨rfl, haloPos_inj lay r d' i' i hi' hi ho' hoff (by omega)⟩
    · have := cOffset_mono lay r (d.val + 1) d'.val hgt2; omega
  · rw [neighb_spec lay r d' i' hi', if_neg ho'] at heq
    have := onIdx_lt lay r d' i' ho'
    omega

/-! ## C03 -/

/-- The sites a loop with parity `par` visits. -/
def Visits {n : ℕ} (par : Parity) (c : Site n) : Prop := par = .all ∨ c.parity = par

instance {n : ℕ} (par : Parity) (c : Site n) : Decidable (Visits par c) := by
  unfold Visits; infer_instance

/-- `mem` stores the field `f`: on the owning rank of each site, in its slot. -/
def Stores {n : ℕ} {V : Type} (lay : Layout n) (mem : ℕ → Mem V) (f : Site n → V) : Prop :=
  ∀ c, lay.InLattice c →
    mem (lay.nodeRank c) ((lay.nodeinfo (lay.nodeRank c)).siteIndex c) = f c

theorem getSitelist_length (t : CommNode) (par : Parity) :
    (t.getSitelist par).length = t.nSites par := by
  unfold CommNode.getSitelist CommNode.nSites; split
  · simp
  · split <;> simp

/-- Reading element `k` of the list for `par` (helper for the theorem below). -/
theorem getSitelist_get (t : CommNode) (par : Parity) (hpar : par ≠ .none) (k : ℕ)
    (hk : k < (t.getSitelist par).length) :
    (t.getSitelist par)[k] = t.sitelist ((if par = .odd then t.evensites else 0) + k) := by
  cases par
  · exact absurd rfl hpar
  · simp [CommNode.getSitelist]
  · simp [CommNode.getSitelist]
  · simp [CommNode.getSitelist]

/-- The gather always completes (no missing message, no length mismatch), leaves the rank's own
sites and all other halo slots alone, and afterwards reading `X + d` at any visited site of the
rank gives the value the field has at the periodic neighbour. -/
theorem C03_gather_reads_neighbour {n : ℕ} {V : Type} (lay : Layout n) (h : lay.WF)
    (mem : ℕ → Mem V) (f : Site n → V) (hf : Stores lay mem f) (d : Dir n) (par : Parity)
    (hpar : par ≠ .none) (r : ℕ) (hr : r < lay.numNodes) :
    ∃ m', gatherResult lay mem d par r = some m' ∧
      (∀ j, j < (lay.nodeinfo r).volume → m' j = mem r j) ∧
      (∀ c e, lay.InLattice c → lay.nodeRank c = r → Visits par c →
        IsPeriodicNeighbour lay.L d c e →
        m' (neighb lay r d ((lay.nodeinfo r).siteIndex c)) = f e) ∧
      (∀ c d', lay.InLattice c → lay.nodeRank c = r → (d' ≠ d ∨ ¬ Visits par c) →
        m' (neighb lay r d' ((lay.nodeinfo r).siteIndex c)) =
          mem r (neighb lay r d' ((lay.nodeinfo r).siteIndex c))) := by
  -- facts about one site
  have hon : ∀ c d', lay.InLattice c → lay.nodeRank c = r →
      ¬ Off lay r d' ((lay.nodeinfo r).siteIndex c) →
      neighb lay r d' ((lay.nodeinfo r).siteIndex c) < (lay.nodeinfo r).volume ∧
      mem r (neighb lay r d' ((lay.nodeinfo r).siteIndex c)) = f (lay.neighbour c d') := by
    intro c d' hcl hc ho
    have hb := (inBox_iff_nodeRank lay h r hr c hcl).2 hc
    obtain ⟨h1, h2⟩ := coord_siteIndex lay r c hb
    rw [neighb_spec lay r d' _ h1, if_neg ho]
    refine ⟨onIdx_lt lay r d' _ ho, ?_⟩
    rw [h2]
    rw [off_iff, not_not, h2] at ho
    have hnl := neighbour_inLattice lay h c hcl d'
    have e := (inBox_iff_nodeRank lay h r hr _ hnl).1 ho
    have := hf _ hnl
    rw [e] at this
    exact this
  by_cases hne : (pass1 lay r d).rank = r
  · refine ⟨mem r, ?_, fun _ _ => rfl, ?_, fun _ _ _ _ _ => rfl⟩
    · unfold gatherResult; simp only [fromNode, hne]; simp
    · intro c e hcl hc _ he
      rw [C03_neighbour_is_periodic lay h] at he
      subst he
      have hb := (inBox_iff_nodeRank lay h r hr c hcl).2 hc
      obtain ⟨h1, h2⟩ := coord_siteIndex lay r c hb
      exact (hon c d hcl hc fun ho =>
        (fromNode_rank_iff lay h r hr d).2 ⟨_, h1, ho⟩ hne).2
  · obtain ⟨p1, p2, p3, p4, p5, p6⟩ := partner_spec lay h r hr d hne
    set S := (pass1 lay r d).rank with hSdef
    set l := ((toNode lay S d).getSitelist par).map (mem S) with hl
    have hrk : (toNode lay S d).rank = r := p2
    have hSr : r ≠ S := fun e => hne e.symm
    have hsent : sentMessage lay mem d par S r = some l := by
      unfold sentMessage
      simp only [hrk]
      rw [if_pos ⟨hSr, trivial⟩]
    have hte : (toNode lay S d).evensites = (pass1 lay r d).fromEven := p3.symm
    have hto : (toNode lay S d).oddsites = (pass1 lay r d).fromOdd := p4.symm
    have hlen : l.length = (fromNode lay r d).nSites par := by
      rw [hl, List.length_map, getSitelist_length]
      unfold CommNode.nSites
      rw [hte, hto]
      show (if par = .all then (pass1 lay S (oppDir d)).toEven + (pass1 lay S (oppDir d)).toOdd
        else _) = _
      rw [← p3, ← p4]; rfl
    have hres : gatherResult lay mem d par r =
        some (placeAt (mem r) ((fromNode lay r d).offset par) l) := by
      unfold gatherResult
      have : (fromNode lay r d).rank = S := rfl
      simp only [this, hsent, hlen, if_true, ne_eq, hne, not_false_eq_true]
    have hoffge : (lay.nodeinfo r).volume ≤ (fromNode lay r d).offset par := by
      have : cOffset lay r d.val ≤ (fromNode lay r d).offset par := by
        unfold CommNode.offset fromNode; simp only; split <;> omega
      exact le_trans (cOffset_ge lay r d.val) this
    -- the region written
    have hreg : (fromNode lay r d).offset par =
        cOffset lay r d.val + (if par = .odd then (pass1 lay r d).fromEven else 0) := by
      unfold CommNode.offset fromNode; simp only; split <;> omega
    have hlen2 : l.length = if par = .all then (pass1 lay r d).fromEven + (pass1 lay r d).fromOdd
        else if par = .even then (pass1 lay r d).fromEven else (pass1 lay r d).fromOdd := hlen
    refine ⟨_, hres, ?_, ?_, ?_⟩
    · intro j hj
      unfold placeAt
      rw [dif_neg (fun hh => by omega)]
    · intro c e hcl hc hv he
      rw [C03_neighbour_is_periodic lay h] at he
      subst he
      have hb := (inBox_iff_nodeRank lay h r hr c hcl).2 hc
      obtain ⟨h1, h2⟩ := coord_siteIndex lay r c hb
      set i := (lay.nodeinfo r).siteIndex c with hi
      by_cases ho : Off lay r d i
      · have hnb := neighb_off lay r d i h1 ho
        have hlt := haloPos_lt lay r d i h1 ho
        have hev : Ev lay r i ↔ c.parity = .even := by unfold Ev; rw [h2]
        have hpos : (if par = .odd then (pass1 lay r d).fromEven else 0) ≤ haloPos lay r d i ∧
            haloPos lay r d i < (if par = .odd then (pass1 lay r d).fromEven else 0) + l.length := by
          rw [hlen2]
          rcases hv with hv | hv
          · subst hv; simp; omega
          · by_cases hE : Ev lay r i
            · have : par = .even := by rw [← hv]; exact hev.1 hE
              subst this
              simp; exact haloPos_even lay r d i h1 ho hE
            · have : par = .odd := by
                rcases Site.parity_cases c with hc' | hc'
                · exact absurd (hev.2 hc') hE
                · rw [← hv, hc']
              subst this
              simp; exact haloPos_odd lay r d i h1 ho hE
        have hcond : (fromNode lay r d).offset par ≤ neighb lay r d i ∧
            neighb lay r d i - (fromNode lay r d).offset par < l.length := by
          rw [hreg, hnb]; omega
        unfold placeAt
        rw [dif_pos hcond]
        simp only [hl, List.getElem_map]
        rw [getSitelist_get _ _ hpar]
        have hidx : (if par = .odd then (toNode lay S d).evensites else 0) +
            (neighb lay r d i - (fromNode lay r d).offset par) = haloPos lay r d i := by
          rw [hte, hreg, hnb]; omega
        rw [hidx, hSdef, sitelist_haloPos lay h r hr d i h1 ho, ← hSdef]
        have hSeq : S = lay.nodeRank (lay.neighbour c d) := by
          have := pass1_rank lay h r hr d i h1 ho
          rw [h2] at this; exact this
        unfold partnerSlot
        rw [h2, hSeq]
        exact hf _ (neighbour_inLattice lay h c hcl d)
      · obtain ⟨k1, k2⟩ := hon c d hcl hc ho
        unfold placeAt
        rw [dif_neg (fun hh => by rw [← hi] at k1; omega)]
        exact k2
    · intro c d' hcl hc hv
      have hb := (inBox_iff_nodeRank lay h r hr c hcl).2 hc
      obtain ⟨h1, h2⟩ := coord_siteIndex lay r c hb
      set i := (lay.nodeinfo r).siteIndex c with hi
      unfold placeAt
      rw [dif_neg]
      rintro ⟨q1, q2⟩
      by_cases ho : Off lay r d' i
      · have hnb := neighb_off lay r d' i h1 ho
        have hlt := haloPos_lt lay r d' i h1 ho
        have hsucc := cOffset_succ lay r d
        have hsucc' := cOffset_succ lay r d'
        have hll : l.length ≤ (pass1 lay r d).fromEven + (pass1 lay r d).fromOdd -
            (if par = .odd then (pass1 lay r d).fromEven else 0) := by
          rw [hlen2]; cases par <;> simp_all
        rcases Nat.lt_trichotomy d'.val d.val with hlt2 | heq2 | hgt2
        · have := cOffset_mono lay r (d'.val + 1) d.val hlt2; omega
        · have hd : d' = d := Fin.ext heq2
          subst hd
          have hnv : ¬ Visits par c := by
            rcases hv with hv | hv
            · exact absurd rfl hv
            · exact hv
          have hev : Ev lay r i ↔ c.parity = .even := by unfold Ev; rw [h2]
          unfold Visits at hnv
          push Not at hnv
          by_cases hE : Ev lay r i
          · have hp : par = .odd := by
              have := hev.1 hE
              cases par <;> simp_all
            have := haloPos_even lay r d' i h1 ho hE
            subst hp
            simp only [if_true] at hreg
            omega
          · have hp : par = .even := by
              rcases Site.parity_cases c with hc' | hc'
              · exact absurd (hev.2 hc') hE
              · cases par <;> simp_all
            have := (haloPos_odd lay r d' i h1 ho hE).1
            subst hp
            simp at hreg hlen2
            omega
        · have := cOffset_mono lay r (d.val + 1) d'.val hgt2; omega
      · have k1 := (hon c d' hcl hc ho).1
        rw [← hi] at k1
        omega

/-! ## Non-vacuity -/

/-- A field stored on the example layout of `Props/Layout` (5×3 sites, six ranks, two of different
size): the memory that stores `f` exists. -/
example : ∃ mem : ℕ → Mem ℕ, Stores exampleLayout mem (fun c => 10 * c 0 + c 1) :=
  ⟨fun r i => 10 * ((exampleLayout.nodeinfo r).coord i) 0 + ((exampleLayout.nodeinfo r).coord i) 1,
    fun c hc => by
      have hb := box_nodeRank exampleLayout exampleLayout_wf c hc
      simp only [(coord_siteIndex exampleLayout _ c hb).2]⟩

/-- On that layout rank 0 expects a message from another rank and the even/odd counts differ. -/
example : (fromNode exampleLayout 0 ⟨0, by omega⟩).rank ≠ 0 ∧
    (fromNode exampleLayout 0 ⟨0, by omega⟩).sites = 1 := by decide +kernel

end Hila
