import Verif.Lemmas.VecGather
import Verif.Props.Antiper

/-!
# C69: vectorised layout
-/

namespace Hila

open BigOperators

/-- `mem` stores the field `f` in the subnode layout: on the owning rank of each site, in its slot. -/
def StoresSub {n : ℕ} {T : Type} (lay : Layout n) (sd : SubDiv n) (mem : ℕ → Mem T) (f : Site n → T) : Prop :=
  ∀ c, lay.InLattice c → mem (lay.nodeRank c) ((lay.nodeinfo (lay.nodeRank c)).siteIndexSub sd c) = f c

section
variable {n : ℕ} {lay : Layout n} {sd : SubDiv n}

theorem onRank_iff (h : VecOK lay sd) (r : ℕ) (hr : r < lay.numNodes) (c : Site n) : BoxOf lay r c ↔ lay.InLattice c ∧ lay.nodeRank c = r := by
  constructor
  · intro hc
    have hl := inBox_inLattice lay h.wf r c hc
    exact ⟨hl, (inBox_iff_nodeRank lay h.wf r hr c hl).1 hc⟩
  · rintro ⟨hl, hc⟩
    exact (inBox_iff_nodeRank lay h.wf r hr c hl).2 hc

/-- **C69.** The site index of the subnode layout numbers the sites of a rank by 0, …, volume - 1, the coordinate table is its inverse, and the
even sites come first. -/
theorem C69_site_index (h : VecOK lay sd) (r : ℕ) (hr : r < lay.numNodes) :
    (∀ c, lay.InLattice c → lay.nodeRank c = r →
      (lay.nodeinfo r).siteIndexSub sd c < (lay.nodeinfo r).volume ∧ (lay.nodeinfo r).coordSub sd ((lay.nodeinfo r).siteIndexSub sd c) = c) ∧
    (∀ i, i < (lay.nodeinfo r).volume →
      lay.InLattice ((lay.nodeinfo r).coordSub sd i) ∧ lay.nodeRank ((lay.nodeinfo r).coordSub sd i) = r ∧
      (lay.nodeinfo r).siteIndexSub sd ((lay.nodeinfo r).coordSub sd i) = i ∧
      (((lay.nodeinfo r).coordSub sd i).parity = .even ↔ i < (lay.nodeinfo r).volume / 2)) := by
  refine ⟨fun c hl hc => ?_, fun i hi => ?_⟩
  · have hb := (onRank_iff h r hr c).2 ⟨hl, hc⟩
    exact ⟨rank_index_lt h r hr hb, rank_coord h r hr hb⟩
  · obtain ⟨hb, e⟩ := rank_spec h r hr i hi
    obtain ⟨h1, h2⟩ := (onRank_iff h r hr _).1 hb
    refine ⟨h1, h2, e, ?_⟩
    rw [← vec_even_iff false h r hr i hi, Nat.div_lt_iff_lt_mul ((h.sub r hr).vecSize_pos false)]
    have h3 := vol_eq false h r hr
    have h4 : (lay.nodeinfo r).vSites sd false % 2 = 0 := vSites_even (h.sub r hr) false
    rw [← h3]
    obtain ⟨k, hk⟩ := Nat.dvd_of_mod_eq_zero h4
    rw [hk, Nat.mul_div_cancel_left k (by omega), Nat.mul_assoc, Nat.mul_div_cancel_left _ (by omega)]

/-- **C69.** The node is cut into equal subnodes. Two sites of a rank are in the same vector exactly if they have the same place in their subnodes,
and then they have the same parity. Lane `k` of every vector belongs to one and the same subnode, and the coordinates that a vectorised loop
reads for lane `k` of vector `i` are those of the site with index `V i + k`. -/
theorem C69_vectors (dbl : Bool) (h : VecOK lay sd) (r : ℕ) (hr : r < lay.numNodes) :
    (∀ b, (lay.nodeinfo r).subnodeSize sd dbl b * sd.subdivisions dbl b = (lay.nodeinfo r).size b) ∧
    (∀ c c', lay.InLattice c → lay.nodeRank c = r → lay.InLattice c' → lay.nodeRank c' = r →
      ((lay.nodeinfo r).siteIndexSub sd c / sd.vecSize dbl = (lay.nodeinfo r).siteIndexSub sd c' / sd.vecSize dbl ↔
        ∀ b, (c b - (lay.nodeinfo r).min b) % (lay.nodeinfo r).subnodeSize sd dbl b =
          (c' b - (lay.nodeinfo r).min b) % (lay.nodeinfo r).subnodeSize sd dbl b) ∧
      ((lay.nodeinfo r).siteIndexSub sd c / sd.vecSize dbl = (lay.nodeinfo r).siteIndexSub sd c' / sd.vecSize dbl → c.parity = c'.parity) ∧
      ((lay.nodeinfo r).siteIndexSub sd c % sd.vecSize dbl = (lay.nodeinfo r).siteIndexSub sd c' % sd.vecSize dbl ↔
        ∀ b, (c b - (lay.nodeinfo r).min b) / (lay.nodeinfo r).subnodeSize sd dbl b =
          (c' b - (lay.nodeinfo r).min b) / (lay.nodeinfo r).subnodeSize sd dbl b)) ∧
    (∀ i k b, i < (lay.nodeinfo r).vSites sd dbl → k < sd.vecSize dbl →
      vecCoordinate lay sd dbl r i k b = (lay.nodeinfo r).coordSub sd (sd.vecSize dbl * i + k) b) := by
  have hsub := h.sub r hr
  have hV := hsub.vecSize_pos dbl
  have hsz : (lay.nodeinfo r).subnodeSize sd dbl = rS lay sd dbl r := subnodeSize_eq dbl
  have hmin : (lay.nodeinfo r).min = lay.boxMin r := by rw [nodeinfo_eq, ofBox_min]
  have hsize : (lay.nodeinfo r).size = lay.boxSize r := by rw [nodeinfo_eq, ofBox_size]
  rw [hsz, hmin, hsize]
  refine ⟨fun b => box_mul dbl h r hr b, fun c c' hl hc hl' hc' => ?_, fun i k b hi hk => ?_⟩
  · have hb := (onRank_iff h r hr c).2 ⟨hl, hc⟩
    have hb' := (onRank_iff h r hr c').2 ⟨hl', hc'⟩
    refine ⟨?_, ?_, ?_⟩
    · rw [rank_vec_iff dbl h r hr hb hb', funext_iff]; rfl
    · intro e
      have h1 := vec_even_iff dbl h r hr _ (rank_index_lt h r hr hb)
      have h2 := vec_even_iff dbl h r hr _ (rank_index_lt h r hr hb')
      rw [rank_coord h r hr hb] at h1
      rw [rank_coord h r hr hb'] at h2
      rw [e, h2] at h1
      rcases Site.parity_cases c with hp | hp <;> rcases Site.parity_cases c' with hp' | hp'
      · rw [hp, hp']
      · exact absurd (h1.2 hp) (by rw [hp']; simp)
      · exact absurd (h1.1 hp') (by rw [hp]; simp)
      · rw [hp, hp']
    · rw [rank_index dbl h r hr hb, rank_index dbl h r hr hb']
      constructor
      · intro e b
        exact congrFun (vLane_inj hsub dbl (rank_Q_lt dbl h r hr hb) (rank_Q_lt dbl h r hr hb') e) b
      · intro e
        have : rQ lay sd dbl r c = rQ lay sd dbl r c' := funext e
        rw [this]
  · have hvp : 0 < (lay.nodeinfo r).vSites sd dbl := by omega
    obtain ⟨c, hc, e1, _, l1⟩ := lane_surj dbl h r hr i k hi hk
    obtain ⟨c0, hc0, e0, _, l0⟩ := lane_surj dbl h r hr i 0 hi hV
    obtain ⟨z, hz, ez, _, lz⟩ := lane_surj dbl h r hr 0 k hvp hk
    obtain ⟨z0, hz0, ez0, _, lz0⟩ := lane_surj dbl h r hr 0 0 hvp hV
    have q1 := vLane_inj hsub dbl (rank_Q_lt dbl h r hr hc) (rank_Q_lt dbl h r hr hz) (l1.trans lz.symm)
    have q0 := vLane_inj hsub dbl (rank_Q_lt dbl h r hr hc0) (rank_Q_lt dbl h r hr hz0) (l0.trans lz0.symm)
    have r1 := (rank_vec_iff dbl h r hr hc hc0).1 (by rw [e1, e0, Nat.mul_add_div hV, Nat.div_eq_of_lt hk, Nat.mul_add_div hV, Nat.div_eq_of_lt hV])
    have r0 := (rank_vec_iff dbl h r hr hz hz0).1 (by rw [ez, ez0, Nat.mul_add_div hV, Nat.div_eq_of_lt hk, Nat.mul_add_div hV, Nat.div_eq_of_lt hV])
    unfold vecCoordinate
    dsimp only
    rw [← e1, rank_coord h r hr hc]
    rw [add_zero] at e0
    rw [mul_zero, zero_add] at ez
    rw [mul_zero, zero_add] at ez0
    have f0 := rank_coord h r hr hc0
    have fz := rank_coord h r hr hz
    have fz0 := rank_coord h r hr hz0
    rw [e0] at f0
    rw [ez] at fz
    rw [ez0] at fz0
    rw [f0, fz, fz0]
    have s1 := site_of_QR (sd := sd) dbl hc b
    have s0 := site_of_QR (sd := sd) dbl hc0 b
    have t1 := site_of_QR (sd := sd) dbl hz b
    have t0 := site_of_QR (sd := sd) dbl hz0 b
    change vQ _ _ _ _ _ = vQ _ _ _ _ _ at q1
    change vQ _ _ _ _ _ = vQ _ _ _ _ _ at q0
    change vR _ _ _ _ _ = vR _ _ _ _ _ at r1
    change vR _ _ _ _ _ = vR _ _ _ _ _ at r0
    rw [q1, r1] at s1
    rw [q0] at s0
    rw [r0] at t1
    omega

/-- **C69.** The vectors in `[loop_begin, loop_end)` are those of the sites of the requested parity, whole vectors each. -/
theorem C69_loops (dbl : Bool) (h : VecOK lay sd) (r : ℕ) (hr : r < lay.numNodes) (P : Parity) (hP : P ≠ .none) :
    (lay.nodeinfo r).vecLoopEnd sd dbl P * sd.vecSize dbl ≤ (lay.nodeinfo r).volume ∧
    ∀ i, i < (lay.nodeinfo r).volume → ((lay.nodeinfo r).vecLoopBegin sd dbl P ≤ i / sd.vecSize dbl ∧
      i / sd.vecSize dbl < (lay.nodeinfo r).vecLoopEnd sd dbl P ↔ Visits P ((lay.nodeinfo r).coordSub sd i)) := by
  have hV := (h.sub r hr).vecSize_pos dbl
  have hvol := vol_eq dbl h r hr
  refine ⟨?_, fun i hi => ?_⟩
  · rw [← hvol]
    refine Nat.mul_le_mul_right _ ?_
    unfold NodeInfo.vecLoopEnd
    split <;> omega
  · have hev := vec_even_iff dbl h r hr i hi
    have hlt : i / sd.vecSize dbl < (lay.nodeinfo r).vSites sd dbl := by rw [Nat.div_lt_iff_lt_mul hV, hvol]; exact hi
    unfold NodeInfo.vecLoopBegin NodeInfo.vecLoopEnd Visits
    rcases Site.parity_cases ((lay.nodeinfo r).coordSub sd i) with hp | hp
    · have := hev.2 hp
      rw [hp]
      cases P <;> simp at hP ⊢ <;> omega
    · have : ¬ _ := fun hh => absurd (hp.symm.trans (hev.1 hh)) (by simp)
      rw [hp]
      cases P <;> simp at hP ⊢ <;> omega

/-- **C69.** Every neighbour access of a vectorised loop is inside the allocated memory. Two accesses that do not go to the own sites of the rank go to
different slots, unless site and direction are the same. -/
theorem C69_slots (dbl : Bool) (h : VecOK lay sd) (r : ℕ) (hr : r < lay.numNodes) (d : Dir n) (c : Site n) (hl : lay.InLattice c) (hc : lay.nodeRank c = r) :
    siteNeighbour lay sd dbl r d ((lay.nodeinfo r).siteIndexSub sd c) < allocSizeVec lay sd dbl r ∧
    (∀ d' c', lay.InLattice c' → lay.nodeRank c' = r → (lay.nodeinfo r).volume ≤ siteNeighbour lay sd dbl r d ((lay.nodeinfo r).siteIndexSub sd c) →
      siteNeighbour lay sd dbl r d' ((lay.nodeinfo r).siteIndexSub sd c') = siteNeighbour lay sd dbl r d ((lay.nodeinfo r).siteIndexSub sd c) →
      d' = d ∧ c' = c) := by
  have hb := (onRank_iff h r hr c).2 ⟨hl, hc⟩
  have hV := (h.sub r hr).vecSize_pos dbl
  have hvol := vol_eq dbl h r hr
  have hin : ∀ (d : Dir n) (c : Site n), BoxOf lay r c → ¬ EdgeV lay sd dbl r d c →
      siteNeighbour lay sd dbl r d ((lay.nodeinfo r).siteIndexSub sd c) < (lay.nodeinfo r).volume := by
    intro d c hb he
    rw [siteNeighbour_in dbl h r hr d hb he]
    exact rank_index_lt h r hr (step_in dbl h r hr c d hb he).1
  have hrange : ∀ (d : Dir n) (c : Site n), BoxOf lay r c → EdgeV lay sd dbl r d c → haloOffset lay sd dbl r d.val * sd.vecSize dbl ≤
      siteNeighbour lay sd dbl r d ((lay.nodeinfo r).siteIndexSub sd c) ∧
      siteNeighbour lay sd dbl r d ((lay.nodeinfo r).siteIndexSub sd c) < haloOffset lay sd dbl r (d.val + 1) * sd.vecSize dbl :=
    fun d c hb he => slot_range dbl h r hr d hb he
  refine ⟨?_, fun d' c' hl' hc' hge e => ?_⟩
  · unfold allocSizeVec
    by_cases he : EdgeV lay sd dbl r d c
    · refine lt_of_lt_of_le (hrange d c hb he).2 (Nat.mul_le_mul_right _ (haloOffset_mono dbl h r hr _ _ ?_))
      have := d.isLt; omega
    · refine lt_of_lt_of_le (hin d c hb he) ?_
      rw [← hvol]
      exact Nat.mul_le_mul_right _ (haloOffset_ge dbl h r hr _)
  · have hb' := (onRank_iff h r hr c').2 ⟨hl', hc'⟩
    have he : EdgeV lay sd dbl r d c := by
      by_contra hcon; have := hin d c hb hcon; omega
    have he' : EdgeV lay sd dbl r d' c' := by
      by_contra hcon; have := hin d' c' hb' hcon; omega
    have h1 := hrange d c hb he
    have h2 := hrange d' c' hb' he'
    have hdd : d' = d := by
      by_contra hne
      have hne' : d'.val ≠ d.val := fun hh => hne (Fin.ext hh)
      rcases Nat.lt_or_gt_of_ne hne' with hh | hh
      · have := Nat.mul_le_mul_right (sd.vecSize dbl) (haloOffset_mono dbl h r hr (d'.val + 1) d.val hh)
        omega
      · have := Nat.mul_le_mul_right (sd.vecSize dbl) (haloOffset_mono dbl h r hr (d.val + 1) d'.val hh)
        omega
    subst hdd
    exact ⟨rfl, slotVec_inj dbl h r hr d' hb' hb he' he e⟩

/-- Common part of the gather theorems: what is read afterwards, with the sign that the code chooses. -/
theorem gatherVec_reads (dbl : Bool) (h : VecOK lay sd) {T : Type} [Neg T] (mem : ℕ → Mem T) (f : Site n → T) (hf : StoresSub lay sd mem f) (d : Dir n)
    (par : Parity) (hpar : par ≠ .none) (anti : Bool) (r : ℕ) (hr : r < lay.numNodes) :
    ∃ m', gatherVec lay sd dbl mem d par anti r = some m' ∧
      (∀ j, j < (lay.nodeinfo r).volume → m' j = mem r j) ∧
      (∀ c, BoxOf lay r c → Visits par c → m' (siteNeighbour lay sd dbl r d ((lay.nodeinfo r).siteIndexSub sd c)) =
        signed (anti && decide (EdgeV lay sd dbl r d c) && (if lay.nodeRank (lay.neighbour c d) = r then isOnEdge lay r d else
          isOnEdge lay (lay.nodeRank (lay.neighbour c d)) (oppDir d))) (f (lay.neighbour c d))) ∧
      (∀ c d', BoxOf lay r c → (d' ≠ d ∨ ¬ Visits par c) →
        m' (siteNeighbour lay sd dbl r d' ((lay.nodeinfo r).siteIndexSub sd c)) = mem r (siteNeighbour lay sd dbl r d' ((lay.nodeinfo r).siteIndexSub sd c))) := by
  have hvol := vol_eq dbl h r hr
  obtain ⟨m', e1, e2, e3, e4, e5⟩ := gatherVec_spec dbl h r hr d par hpar mem anti
  have hown : ∀ j, j < (lay.nodeinfo r).volume → m' j = mem r j := by
    intro j hj
    apply e5
    left
    rw [← hvol] at hj
    exact lt_of_lt_of_le hj (Nat.mul_le_mul_right _ (haloOffset_ge dbl h r hr _))
  refine ⟨m', e1, hown, fun c hc hv => ?_, fun c d' hc hor => ?_⟩
  · have hl := inBox_inLattice lay h.wf r c hc
    have hnl := neighbour_inLattice lay h.wf c hl d
    have hst := hf _ hnl
    by_cases he : EdgeV lay sd dbl r d c
    · by_cases hb : BoxOf lay r (lay.neighbour c d)
      · have hrk := (inBox_iff_nodeRank lay h.wf r hr _ hnl).1 hb
        rw [hrk] at hst
        have := e2 c hc he hv hb
        unfold slotOf at this
        rw [this, hst, if_pos hrk, decide_eq_true he, Bool.and_true]
      · have hrk : lay.nodeRank (lay.neighbour c d) ≠ r := fun hh => hb ((inBox_iff_nodeRank lay h.wf r hr _ hnl).2 hh)
        have := e3 c hc he hv hb
        unfold slotOf at this
        rw [this, hst, if_neg hrk, decide_eq_true he, Bool.and_true]
    · obtain ⟨hb, _⟩ := step_in dbl h r hr c d hc he
      have hrk := (inBox_iff_nodeRank lay h.wf r hr _ hnl).1 hb
      rw [hrk] at hst
      rw [siteNeighbour_in dbl h r hr d hc he, hown _ (rank_index_lt h r hr hb), hst, decide_eq_false he, Bool.and_false, Bool.false_and]
      rfl
  · by_cases he : EdgeV lay sd dbl r d' c
    · have h1 := slot_range dbl h r hr d' hc he
      by_cases hdd : d' = d
      · subst hdd
        rcases hor with hh | hh
        · exact absurd rfl hh
        · exact e4 c hc he hh
      · apply e5
        have hne' : d'.val ≠ d.val := fun hh => hdd (Fin.ext hh)
        unfold slotOf at h1
        rcases Nat.lt_or_gt_of_ne hne' with hh | hh
        · left
          exact lt_of_lt_of_le h1.2 (Nat.mul_le_mul_right _ (haloOffset_mono dbl h r hr _ _ hh))
        · right
          exact le_trans (Nat.mul_le_mul_right _ (haloOffset_mono dbl h r hr _ _ hh)) h1.1
    · obtain ⟨hb, _⟩ := step_in dbl h r hr c d' hc he
      rw [siteNeighbour_in dbl h r hr d' hc he]
      exact hown _ (rank_index_lt h r hr hb)

/-- **C69.** The gather of a vectorised field completes on every rank, no assertion fails, and none of the own sites changes. Afterwards `X + d`
reads at every visited site the value at the periodic neighbour; what is read in other directions or at other sites is unchanged. -/
theorem C69_gather (dbl : Bool) (h : VecOK lay sd) {T : Type} [Neg T] (mem : ℕ → Mem T) (f : Site n → T) (hf : StoresSub lay sd mem f) (d : Dir n)
    (par : Parity) (hpar : par ≠ .none) (r : ℕ) (hr : r < lay.numNodes) :
    ∃ m', gatherVec lay sd dbl mem d par false r = some m' ∧
      (∀ j, j < (lay.nodeinfo r).volume → m' j = mem r j) ∧
      (∀ c e, lay.InLattice c → lay.nodeRank c = r → Visits par c → IsPeriodicNeighbour lay.L d c e →
        m' (siteNeighbour lay sd dbl r d ((lay.nodeinfo r).siteIndexSub sd c)) = f e) ∧
      (∀ c d', lay.InLattice c → lay.nodeRank c = r → (d' ≠ d ∨ ¬ Visits par c) →
        m' (siteNeighbour lay sd dbl r d' ((lay.nodeinfo r).siteIndexSub sd c)) =
          mem r (siteNeighbour lay sd dbl r d' ((lay.nodeinfo r).siteIndexSub sd c))) := by
  obtain ⟨m', e1, e2, e3, e4⟩ := gatherVec_reads dbl h mem f hf d par hpar false r hr
  refine ⟨m', e1, e2, fun c e hl hc hv hp => ?_, fun c d' hl hc => e4 c d' ((onRank_iff h r hr c).2 ⟨hl, hc⟩)⟩
  rw [C03_neighbour_is_periodic lay h.wf] at hp
  rw [e3 c ((onRank_iff h r hr c).2 ⟨hl, hc⟩) hv, hp]
  rfl

/-- **C69, part.** With an antiperiodic direction that is not divided into subnodes the sign is right: minus exactly for a step out of the lattice.
Missing: directions divided into subnodes, where it fails (`C69_antiperiodic_wrong`). -/
theorem C69_antiperiodic_partial (dbl : Bool) (h : VecOK lay sd) {T : Type} [Neg T] (mem : ℕ → Mem T) (f : Site n → T) (hf : StoresSub lay sd mem f) (d : Dir n)
    (hD : sd.subdivisions dbl (axis d) = 1) (par : Parity) (hpar : par ≠ .none) (r : ℕ) (hr : r < lay.numNodes) :
    ∃ m', gatherVec lay sd dbl mem d par true r = some m' ∧
      (∀ j, j < (lay.nodeinfo r).volume → m' j = mem r j) ∧
      (∀ c e, lay.InLattice c → lay.nodeRank c = r → Visits par c → IsPeriodicNeighbour lay.L d c e →
        (CrossesBoundary lay.L d c → m' (siteNeighbour lay sd dbl r d ((lay.nodeinfo r).siteIndexSub sd c)) = -f e) ∧
        (¬ CrossesBoundary lay.L d c → m' (siteNeighbour lay sd dbl r d ((lay.nodeinfo r).siteIndexSub sd c)) = f e)) := by
  obtain ⟨m', e1, e2, e3, _⟩ := gatherVec_reads dbl h mem f hf d par hpar true r hr
  refine ⟨m', e1, e2, fun c e hl hc hv hp => ?_⟩
  rw [C03_neighbour_is_periodic lay h.wf] at hp
  have hb := (onRank_iff h r hr c).2 ⟨hl, hc⟩
  have hnl := neighbour_inLattice lay h.wf c hl d
  obtain ⟨i1, i2⟩ := coord_siteIndex lay r c hb
  rw [e3 c hb hv, ← hp]
  have key : (true && decide (EdgeV lay sd dbl r d c) && (if lay.nodeRank e = r then isOnEdge lay r d else isOnEdge lay (lay.nodeRank e) (oppDir d))) = true ↔
      CrossesBoundary lay.L d c := by
    rw [crosses_iff lay h.wf d c hl, Bool.true_and, Bool.and_eq_true, decide_eq_true_iff]
    have hEdge : Edge lay r d ((lay.nodeinfo r).siteIndex c) ↔ c (axis d) = edgeCoord lay d := by unfold Edge; rw [i2]
    by_cases hrk : lay.nodeRank e = r
    · have hbn : BoxOf lay r (lay.neighbour c d) := (onRank_iff h r hr _).2 ⟨hnl, hp ▸ hrk⟩
      rw [if_pos hrk]
      constructor
      · rintro ⟨he, _⟩
        exact (single_wrap dbl h r hr c d hb he hD hbn).1
      · intro he
        refine ⟨?_, edge_onEdge lay h.wf r d _ i1 (hEdge.2 he)⟩
        by_contra hcon
        obtain ⟨_, hq, hR⟩ := step_in dbl h r hr c d hb hcon
        -- a step inside a subnode does not wrap
        have s1 := site_of_QR (sd := sd) dbl hb (axis d)
        have s2 := site_of_QR (sd := sd) dbl hbn (axis d)
        have hq' : vQ (lay.boxMin r) (lay.boxSize r) sd dbl (lay.neighbour c d) (axis d) = vQ (lay.boxMin r) (lay.boxSize r) sd dbl c (axis d) := congrFun hq (axis d)
        have hR' : vR (lay.boxMin r) (lay.boxSize r) sd dbl (lay.neighbour c d) (axis d) =
            if isUp d then vR (lay.boxMin r) (lay.boxSize r) sd dbl c (axis d) + 1 else vR (lay.boxMin r) (lay.boxSize r) sd dbl c (axis d) - 1 := by
          have := congrFun hR (axis d)
          rw [Function.update_self] at this
          exact this
        rw [hq', hR', neighbour_eq lay h.wf c hl, Function.update_self] at s2
        have hL := h.wf.L_pos (axis d)
        have hne : vR (lay.boxMin r) (lay.boxSize r) sd dbl c (axis d) ≠ lastOf (isUp d) (rS lay sd dbl r (axis d)) := hcon
        unfold edgeCoord at he
        unfold lastOf at hne
        cases hu : isUp d
        · simp only [hu, Bool.false_eq_true, if_false] at s2 he hne
          rw [he] at s1
          omega
        · simp only [hu, if_true] at s2 he hne
          have hx := hl (axis d)
          rw [pstep_up _ _ hx, if_pos (by omega)] at s2
          omega
    · have hbn : ¬ BoxOf lay r (lay.neighbour c d) := fun hh => hrk (hp ▸ ((onRank_iff h r hr _).1 hh).2)
      rw [if_neg hrk]
      have := off_edge_iff lay h.wf r hr d _ i1 (by rw [off_iff, i2]; exact hbn)
      rw [i2, ← hp, hEdge] at this
      rw [this]
      exact and_iff_right (step_leave dbl h r hr c d hb hbn).1
  constructor
  · intro hx; rw [key.2 hx]; rfl
  · intro hx; rw [Bool.eq_false_iff.2 (fun hh => hx (key.1 hh))]; rfl

/-- **C69, counterexample (general form).** With an antiperiodic direction divided into subnodes, on every rank that has the edge of the lattice:
the value read over each *inner* subnode boundary has a minus sign too, although the step does not leave the lattice. -/
theorem antiperiodic_inner (dbl : Bool) (h : VecOK lay sd) {T : Type} [Neg T] (mem : ℕ → Mem T) (f : Site n → T) (hf : StoresSub lay sd mem f) (d : Dir n)
    (par : Parity) (hpar : par ≠ .none) (r : ℕ) (hr : r < lay.numNodes) (hedge : isOnEdge lay r d = true) :
    ∃ m', gatherVec lay sd dbl mem d par true r = some m' ∧
      (∀ c, BoxOf lay r c → BoxOf lay r (lay.neighbour c d) → Visits par c → EdgeV lay sd dbl r d c →
        m' (siteNeighbour lay sd dbl r d ((lay.nodeinfo r).siteIndexSub sd c)) = -f (lay.neighbour c d)) := by
  obtain ⟨m', e1, _, e3, _⟩ := gatherVec_reads dbl h mem f hf d par hpar true r hr
  refine ⟨m', e1, fun c hb hbn hv he => ?_⟩
  rw [e3 c hb hv, decide_eq_true he, if_pos ((onRank_iff h r hr _).1 hbn).2, hedge]
  rfl

end

/-! ### Counterexample -/

/-- One rank, 8 × 4 sites, two subnodes of 4 × 4 sites. -/
def vecBox : Layout 2 := ⟨![8, 4], ![1, 1], id, id⟩

def vecTwo : SubDiv 2 := ⟨![2, 1], 0⟩

theorem vecBox_ok : VecOK vecBox vecTwo where
  wf := ⟨by decide, by decide, fun _ h => h, fun _ h => h, fun _ _ => rfl, fun _ _ => rfl⟩
  le := by decide
  sub := by
    intro r hr
    have h1 : vecBox.numNodes = 1 := by decide
    rw [h1] at hr
    obtain rfl : r = 0 := by omega
    exact ⟨by decide, by decide, by decide, by decide, 0, 1, by decide, by decide, by decide⟩

/-- **C69, counterexample.** Antiperiodic in direction 0, the field `x`: the site (3, 0) is not at the boundary of the lattice, its neighbour is (4, 0)
with the value 4, but `X + e_x` reads -4. -/
theorem C69_antiperiodic_wrong : ∃ (mem : ℕ → Mem ℤ) (m' : Mem ℤ), StoresSub vecBox vecTwo mem (fun c => (c 0 : ℤ)) ∧
    gatherVec vecBox vecTwo false mem 0 .all true 0 = some m' ∧ ¬ CrossesBoundary vecBox.L 0 ![3, 0] ∧
    IsPeriodicNeighbour vecBox.L 0 ![3, 0] ![4, 0] ∧ m' (siteNeighbour vecBox vecTwo false 0 0 ((vecBox.nodeinfo 0).siteIndexSub vecTwo ![3, 0])) = -4 := by
  have hst : StoresSub vecBox vecTwo (fun r i => (((vecBox.nodeinfo r).coordSub vecTwo i 0 : ℕ) : ℤ)) (fun c => (c 0 : ℤ)) := by
    intro c hc
    have hb := box_nodeRank vecBox vecBox_ok.wf c hc
    show (((vecBox.nodeinfo (vecBox.nodeRank c)).coordSub vecTwo ((vecBox.nodeinfo (vecBox.nodeRank c)).siteIndexSub vecTwo c) 0 : ℕ) : ℤ) = _
    rw [rank_coord vecBox_ok _ (nodeRank_lt vecBox vecBox_ok.wf c hc) hb]
  have hl : vecBox.InLattice ![3, 0] := by unfold Layout.InLattice; decide
  have hl' : vecBox.InLattice ![4, 0] := by unfold Layout.InLattice; decide
  have hn : IsPeriodicNeighbour vecBox.L 0 ![3, 0] ![4, 0] := by unfold IsPeriodicNeighbour; decide
  have hne := (C03_neighbour_is_periodic vecBox vecBox_ok.wf 0 _ _).1 hn
  obtain ⟨m', h1, h2⟩ := antiperiodic_inner false vecBox_ok _ _ hst 0 .all (by decide) 0 (by decide) (by decide +kernel)
  refine ⟨_, m', hst, h1, ?_, hn, ?_⟩
  · rw [crosses_iff vecBox vecBox_ok.wf 0 _ hl]; decide
  · have := h2 ![3, 0] ((onRank_iff vecBox_ok 0 (by decide) _).2 ⟨hl, by decide +kernel⟩)
      ((onRank_iff vecBox_ok 0 (by decide) _).2 (by rw [← hne]; exact ⟨hl', by decide +kernel⟩)) (Or.inl rfl) (by decide +kernel)
    rw [this, ← hne]
    decide

/-! ### Storage -/

section
variable {B : Type} {V E : ℕ}

theorem elemAddr_inj (hV : 0 < V) {idx idx' e e' : ℕ} (he : e < E) (he' : e' < E) (hh : elemAddr V E idx e = elemAddr V E idx' e') : idx = idx' ∧ e = e' := by
  unfold elemAddr at hh
  have h1 : V * (idx / V * E + e) + idx % V = V * (idx' / V * E + e') + idx' % V := by
    calc _ = idx / V * V * E + idx % V + e * V := by ring
      _ = _ := hh
      _ = _ := by ring
  obtain ⟨h2, h3⟩ := mul_add_inj (Nat.mod_lt _ hV) (Nat.mod_lt _ hV) h1
  rw [mul_comm, mul_comm (idx' / V)] at h2
  obtain ⟨h4, h5⟩ := mul_add_inj he he' h2
  have f1 := Nat.div_add_mod idx V
  have f2 := Nat.div_add_mod idx' V
  rw [h4, h3] at f1
  exact ⟨f1.symm.trans f2, h5⟩

theorem setElement_spec (hV : 0 < V) (value : ℕ → B) (idx : ℕ) (buf : ℕ → B) (m : ℕ) (hm : m ≤ E) :
    (∀ e, e < m → (List.range m).foldl (fun b e => Function.update b (elemAddr V E idx e) (value e)) buf (elemAddr V E idx e) = value e) ∧
    (∀ a, (∀ e, e < m → a ≠ elemAddr V E idx e) → (List.range m).foldl (fun b e => Function.update b (elemAddr V E idx e) (value e)) buf a = buf a) := by
  induction m with
  | zero => exact ⟨fun e he => absurd he (by omega), fun _ _ => rfl⟩
  | succ m ih =>
    obtain ⟨i1, i2⟩ := ih (by omega)
    rw [List.range_succ, List.foldl_append, List.foldl_cons, List.foldl_nil]
    refine ⟨fun e he => ?_, fun a ha => ?_⟩
    · by_cases h1 : e = m
      · rw [h1, Function.update_self]
      · rw [Function.update_of_ne (fun hh => h1 (elemAddr_inj hV (by omega) (by omega) hh).2)]
        exact i1 e (by omega)
    · rw [Function.update_of_ne (ha m (by omega))]
      exact i2 a (fun e he => ha e (by omega))

/-- **C69.** Element access: what `set_element` writes, `get_element` reads at the same site, other sites are not affected, and all numbers are in the
memory of the `N` sites (a multiple of the vector length) if the site is. Lane `k` of `get_vector(i)` is the element of site `V i + k`, and `set_vector`
sets its `V` sites and no others. -/
theorem C69_storage (hV : 0 < V) :
    (∀ (value : ℕ → B) idx (buf : ℕ → B) e, e < E → getElement V E (setElement V E value idx buf) idx e = value e) ∧
    (∀ (value : ℕ → B) idx idx' (buf : ℕ → B) e, e < E → idx' ≠ idx → getElement V E (setElement V E value idx buf) idx' e = getElement V E buf idx' e) ∧
    (∀ N idx e, e < E → idx < N → V ∣ N → elemAddr V E idx e < N * E) ∧
    (∀ (buf : ℕ → B) i e k, k < V → loadVector V E buf i e k = getElement V E buf (V * i + k) e) ∧
    (∀ (value : ℕ → ℕ → B) i (buf : ℕ → B) e k, e < E → k < V → getElement V E (setVector V E value i buf) (V * i + k) e = value e k) ∧
    (∀ (value : ℕ → ℕ → B) i idx (buf : ℕ → B) e, e < E → idx / V ≠ i → getElement V E (setVector V E value i buf) idx e = getElement V E buf idx e) := by
  have hva : ∀ i e k, k < V → vectorAddr V E i e k = elemAddr V E (V * i + k) e := by
    intro i e k hk
    unfold vectorAddr elemAddr
    rw [Nat.mul_add_div hV, Nat.div_eq_of_lt hk, Nat.mul_add_mod, Nat.mod_eq_of_lt hk]
    ring
  -- the inner loop of `set_vector`
  have inner : ∀ (val : ℕ → B) (i e : ℕ) (buf : ℕ → B) (m : ℕ), m ≤ V → e < E →
      (∀ k, k < m → (List.range m).foldl (fun b k => Function.update b (vectorAddr V E i e k) (val k)) buf (vectorAddr V E i e k) = val k) ∧
      (∀ a, (∀ k, k < m → a ≠ vectorAddr V E i e k) → (List.range m).foldl (fun b k => Function.update b (vectorAddr V E i e k) (val k)) buf a = buf a) := by
    intro val i e buf m hm he
    induction m with
    | zero => exact ⟨fun k hk => absurd hk (by omega), fun _ _ => rfl⟩
    | succ m ih =>
      obtain ⟨i1, i2⟩ := ih (by omega)
      rw [List.range_succ, List.foldl_append, List.foldl_cons, List.foldl_nil]
      refine ⟨fun k hk => ?_, fun a ha => ?_⟩
      · by_cases h1 : k = m
        · rw [h1, Function.update_self]
        · rw [Function.update_of_ne]
          · exact i1 k (by omega)
          · unfold vectorAddr; omega
      · rw [Function.update_of_ne (ha m (by omega))]
        exact i2 a (fun k hk => ha k (by omega))
  have outer : ∀ (value : ℕ → ℕ → B) (i : ℕ) (buf : ℕ → B) (m : ℕ), m ≤ E →
      (∀ e k, e < m → k < V → (List.range m).foldl (fun b e => (List.range V).foldl (fun b k => Function.update b (vectorAddr V E i e k) (value e k)) b) buf
        (vectorAddr V E i e k) = value e k) ∧
      (∀ a, (∀ e k, e < m → k < V → a ≠ vectorAddr V E i e k) →
        (List.range m).foldl (fun b e => (List.range V).foldl (fun b k => Function.update b (vectorAddr V E i e k) (value e k)) b) buf a = buf a) := by
    intro value i buf m hm
    induction m with
    | zero => exact ⟨fun e k he => absurd he (by omega), fun _ _ => rfl⟩
    | succ m ih =>
      obtain ⟨i1, i2⟩ := ih (by omega)
      rw [List.range_succ, List.foldl_append, List.foldl_cons, List.foldl_nil]
      have hin := inner (value m) i m ((List.range m).foldl (fun b e => (List.range V).foldl (fun b k => Function.update b (vectorAddr V E i e k) (value e k)) b) buf)
        V (le_refl _) (by omega)
      refine ⟨fun e k he hk => ?_, fun a ha => ?_⟩
      · by_cases h1 : e = m
        · subst h1; exact hin.1 k hk
        · rw [hin.2 _ (fun k' hk' hh => h1 (elemAddr_inj hV (by omega) (by omega) ((hva i e k hk).symm.trans (hh.trans (hva i m k' hk')))).2)]
          exact i1 e k (by omega) hk
      · rw [hin.2 a (fun k hk => ha m k (by omega) hk)]
        exact i2 a (fun e k he hk => ha e k (by omega) hk)
  refine ⟨fun value idx buf e he => (setElement_spec hV value idx buf E (le_refl _)).1 e he, fun value idx idx' buf e he hne => ?_, ?_, ?_, ?_, ?_⟩
  · exact (setElement_spec hV value idx buf E (le_refl _)).2 _ (fun e' he' hh => hne (elemAddr_inj hV he he' hh).1)
  · rintro N idx e he hidx ⟨M, rfl⟩
    unfold elemAddr
    have h1 : idx / V < M := by rw [Nat.div_lt_iff_lt_mul hV, mul_comm]; exact hidx
    have h2 := Nat.mod_lt idx hV
    have h3 : V * (idx / V * E + e + 1) ≤ V * (M * E) := by
      refine Nat.mul_le_mul_left _ ?_
      have h4 : (idx / V + 1) * E ≤ M * E := Nat.mul_le_mul_right _ h1
      rw [Nat.add_mul, one_mul] at h4
      omega
    calc idx / V * V * E + idx % V + e * V < V * (idx / V * E + e + 1) := by
            have : V * (idx / V * E + e + 1) = idx / V * V * E + e * V + V := by ring
            omega
      _ ≤ V * (M * E) := h3
      _ = V * M * E := by ring
  · intro buf i e k hk
    unfold loadVector getElement
    rw [hva i e k hk]
  · intro value i buf e k he hk
    unfold getElement setVector
    rw [← hva i e k hk]
    exact (outer value i buf E (le_refl _)).1 e k he hk
  · intro value i idx buf e he hne
    unfold getElement setVector
    refine (outer value i buf E (le_refl _)).2 _ (fun e' k he' hk hh => hne ?_)
    rw [hva i e' k hk] at hh
    rw [(elemAddr_inj hV he he' hh).1, Nat.mul_add_div hV, Nat.div_eq_of_lt hk, add_zero]

end

/-! ### Concrete cases -/

/-- Two ranks of 8 × 4 × 4 sites, eight lanes: 4 subnodes along direction 0, 2 along direction 1; direction 2 is not divided into subnodes. -/
def vecCube : Layout 3 := ⟨![16, 4, 4], ![2, 1, 1], id, id⟩

def vecEight : SubDiv 3 := ⟨![4, 2, 1], 0⟩

theorem vecCube_ok : VecOK vecCube vecEight where
  wf := ⟨by decide, by decide, fun _ h => h, fun _ h => h, fun _ _ => rfl, fun _ _ => rfl⟩
  le := by decide
  sub := by
    intro r hr
    have h1 : vecCube.numNodes = 2 := by decide
    rw [h1] at hr
    have : r = 0 ∨ r = 1 := by omega
    rcases this with rfl | rfl <;> exact ⟨by decide, by decide, by decide, by decide, 0, 2, by decide, by decide, by decide⟩

/-- The assumptions of the gather theorems are met, for float and double lanes: the site (7, 0, 0) of rank 0 reads (8, 0, 0) of rank 1, the site (1, 0, 0) reads
(2, 0, 0) in the next lane of its rank, both through the halo. Direction 2 has one subnode (`C69_antiperiodic_partial`). -/
example : vecEight.vecSize false = 8 ∧ vecEight.vecSize true = 4 ∧ vecEight.subdivisions true 0 = 2 ∧ vecEight.subdivisions false (axis (n := 3) 2) = 1 ∧
    vecCube.nodeRank ![7, 0, 0] = 0 ∧ vecCube.nodeRank ![8, 0, 0] = 1 ∧ EdgeV vecCube vecEight false 0 0 ![1, 0, 0] ∧
    (vecCube.nodeinfo 0).siteIndexSub vecEight ![2, 0, 0] = 4 ∧ (vecCube.nodeinfo 0).vSites vecEight false = 16 := by
  decide +kernel

end Hila
