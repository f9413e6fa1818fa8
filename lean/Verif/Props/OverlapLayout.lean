import Verif.Lemmas.OverlapLayout
import Verif.Props.Gather

/-!
# C75: the storage order for overlapping communication
-/

namespace Hila

open BigOperators

/-- The example: 8 × 6 sites on two ranks with 4 × 6 sites. -/
def overlapExample : Layout 2 where
  L := ![8, 6]
  ndiv := ![2, 1]
  remap := id
  invRemap := id

theorem overlapExample_wf : overlapExample.WF where
  L_pos := by decide
  ndiv_pos := by decide
  remap_lt := fun _ hi => hi
  inv_lt := fun _ hi => hi
  remap_inv := fun _ _ => rfl
  inv_remap := fun _ _ => rfl

/-- Both ranks have eight inner sites, four of each parity, out of 24. -/
example : (overlapExample.nodeinfo 1).loopRanges .even true = [(0, 4), (8, 16)] := by
  decide +kernel

/-- The neighbour of (3, 2) to the right is on the other rank, and there is a halo of three sites. -/
example : overlapExample.nodeRank ![3, 2] = 0 ∧
    overlapExample.nodeRank (overlapExample.neighbour ![3, 2] (upDir 0)) = 1 ∧
    overlapExample.ovFrom 0 (upDir 0) .odd = [17, 19, 21] := by decide +kernel

/-- **C75, slots.** On every rank, sites and slots are in one-to-one correspondence: a site of the rank
has a slot below the volume (inside of the table), the list of coordinates leads back from the slot
to the site, every slot below the volume has a site, and the assertion at the end of the
construction holds. -/
theorem C75_slots {n : ℕ} (lay : Layout n) (h : lay.WF) (r : ℕ) (hr : r < lay.numNodes) :
    (∀ c, lay.InLattice c → lay.nodeRank c = r →
      ∃ i < (lay.nodeinfo r).volume, (lay.nodeinfo r).ovSiteIndex c = some i ∧
        (lay.nodeinfo r).ovCoordinates i = some c) ∧
    (∀ i < (lay.nodeinfo r).volume, ∃ c, lay.InLattice c ∧ lay.nodeRank c = r ∧
      (lay.nodeinfo r).ovSiteIndex c = some i ∧ (lay.nodeinfo r).ovCoordinates i = some c) ∧
    (lay.nodeinfo r).ovAssert := by
  refine ⟨?_, ?_, ?_⟩
  · intro c hc hcr
    have hb := (inBox_iff_nodeRank lay h r hr c hc).2 hcr
    exact ⟨_, ovSlot_lt _ _ c hb, ovSiteIndex_eq _ _ c hb, ovCoordinates_slot _ _ c hb⟩
  · intro i hi
    obtain ⟨c, hb, rfl⟩ := ovSlot_surj _ _ i hi
    have hc := inBox_inLattice lay h r c hb
    exact ⟨c, hc, (inBox_iff_nodeRank lay h r hr c hc).1 hb, ovSiteIndex_eq _ _ c hb,
      ovCoordinates_slot _ _ c hb⟩
  · unfold NodeInfo.ovAssert
    have h1 := (ovFill_inv (lay.boxMin r) (lay.boxSize r) (∏ d, lay.boxSize r d) le_rfl).2.1 3
      (by omega)
    have h2 := gStart_succ (lay.boxMin r) (lay.boxSize r) 3 (by omega)
    have h3 := (ovCount_inv (lay.boxMin r) (lay.boxSize r) (∏ d, lay.boxSize r d) le_rfl).2 3
      (by omega)
    rw [ofBox_volume, h3] at h2
    rw [nodeinfo_eq]
    have h4 := volume_eq_gStart (lay.boxMin r) (lay.boxSize r)
    rw [h2, ← h1] at h4
    rw [ofBox_volume] at h4 ⊢
    exact h4.symm

/-- **C75, ranges.** For each parity of a loop, and whether or not data is gathered, the ranges of slots
that the loop runs over together contain the slots of exactly the sites of that parity, each once. -/
theorem C75_ranges {n : ℕ} (lay : Layout n) (r : ℕ) (par : Parity) (gather : Bool)
    (hpar : par ≠ .none) (i : ℕ) :
    ((lay.nodeinfo r).loopRanges par gather).countP (fun p => decide (p.1 ≤ i ∧ i < p.2)) =
      if ∃ c, (lay.nodeinfo r).ovCoordinates i = some c ∧ i < (lay.nodeinfo r).volume ∧
        Visits par c then 1 else 0 := by
  have m12 := clsStart_mono (boxGroup (lay.boxMin r) (lay.boxSize r)) (∏ d, lay.boxSize r d)
    (show 1 ≤ 2 by omega)
  have m23 := clsStart_mono (boxGroup (lay.boxMin r) (lay.boxSize r)) (∏ d, lay.boxSize r d)
    (show 2 ≤ 3 by omega)
  have m34 := clsStart_mono (boxGroup (lay.boxMin r) (lay.boxSize r)) (∏ d, lay.boxSize r d)
    (show 3 ≤ 4 by omega)
  have e4 := volume_eq_gStart (lay.boxMin r) (lay.boxSize r)
  unfold NodeInfo.loopRanges
  rw [nodeinfo_eq, innerStartOdd_eq, boundaryStartEven_eq, boundaryStartOdd_eq]
  by_cases hi : i < (NodeInfo.ofBox (lay.boxMin r) (lay.boxSize r)).volume
  · obtain ⟨c, hb, rfl⟩ := ovSlot_surj _ _ i hi
    have g1 := ovSlot_ge_iff _ _ c hb 1
    have g2 := ovSlot_ge_iff _ _ c hb 2
    have g3 := ovSlot_ge_iff _ _ c hb 3
    have hex : (∃ c', (NodeInfo.ofBox (lay.boxMin r) (lay.boxSize r)).ovCoordinates
        (ovSlot (lay.boxMin r) (lay.boxSize r) c) = some c' ∧
        ovSlot (lay.boxMin r) (lay.boxSize r) c <
          (NodeInfo.ofBox (lay.boxMin r) (lay.boxSize r)).volume ∧ Visits par c') ↔
        Visits par c := by
      rw [ovCoordinates_slot _ _ c hb]
      constructor
      · rintro ⟨c', hc', _, hv⟩
        injection hc' with hc'
        rwa [hc']
      · intro hv
        exact ⟨c, rfl, hi, hv⟩
    simp only [hex]
    have hg : (c.parity = .even ∧ (siteGroup (lay.boxMin r) (lay.boxSize r) c = 0 ∨
        siteGroup (lay.boxMin r) (lay.boxSize r) c = 2)) ∨
        (c.parity = .odd ∧ (siteGroup (lay.boxMin r) (lay.boxSize r) c = 1 ∨
        siteGroup (lay.boxMin r) (lay.boxSize r) c = 3)) := by
      unfold siteGroup
      rcases Site.parity_cases c with hp | hp <;> rw [hp] <;> simp
    unfold gStart at *
    generalize clsStart (boxGroup (lay.boxMin r) (lay.boxSize r)) (∏ d, lay.boxSize r d) 1 = s1 at *
    generalize clsStart (boxGroup (lay.boxMin r) (lay.boxSize r)) (∏ d, lay.boxSize r d) 2 = s2 at *
    generalize clsStart (boxGroup (lay.boxMin r) (lay.boxSize r)) (∏ d, lay.boxSize r d) 3 = s3 at *
    generalize (NodeInfo.ofBox (lay.boxMin r) (lay.boxSize r)).volume = v at *
    generalize ovSlot (lay.boxMin r) (lay.boxSize r) c = i at *
    generalize siteGroup (lay.boxMin r) (lay.boxSize r) c = g at *
    cases par
    · exact absurd rfl hpar
    all_goals
      rcases hg with ⟨hp, hg | hg⟩ | ⟨hp, hg | hg⟩ <;> cases gather <;>
        simp [Visits, hp, List.countP_cons] <;> (repeat' split) <;> omega
  · have hex : ¬ ∃ c', (NodeInfo.ofBox (lay.boxMin r) (lay.boxSize r)).ovCoordinates i = some c' ∧
        i < (NodeInfo.ofBox (lay.boxMin r) (lay.boxSize r)).volume ∧ Visits par c' := by
      rintro ⟨_, _, h, _⟩
      exact hi h
    rw [if_neg hex]
    unfold gStart at *
    generalize clsStart (boxGroup (lay.boxMin r) (lay.boxSize r)) (∏ d, lay.boxSize r d) 1 = s1 at *
    generalize clsStart (boxGroup (lay.boxMin r) (lay.boxSize r)) (∏ d, lay.boxSize r d) 2 = s2 at *
    generalize clsStart (boxGroup (lay.boxMin r) (lay.boxSize r)) (∏ d, lay.boxSize r d) 3 = s3 at *
    generalize (NodeInfo.ofBox (lay.boxMin r) (lay.boxSize r)).volume = v at *
    cases par
    · exact absurd rfl hpar
    all_goals
      cases gather <;> simp [List.countP_cons] <;> omega

/-- **C75, the first range.** If a loop gathers data, it runs over two ranges, and at the sites of the
first one no neighbour in any direction is on another rank: the first kernel does not read the
halo, so that it may run while the halo is being filled. -/
theorem C75_first_range {n : ℕ} (lay : Layout n) (h : lay.WF) (r : ℕ) (hr : r < lay.numNodes)
    (par : Parity) (hpar : par ≠ .none) :
    ∃ p q, (lay.nodeinfo r).loopRanges par true = [p, q] ∧
      ∀ i, p.1 ≤ i → i < p.2 → ∃ c, (lay.nodeinfo r).ovCoordinates i = some c ∧
        ∀ d e, IsPeriodicNeighbour lay.L d c e → lay.nodeRank e = r := by
  have m12 := clsStart_mono (boxGroup (lay.boxMin r) (lay.boxSize r)) (∏ d, lay.boxSize r d)
    (show 1 ≤ 2 by omega)
  have m24 := clsStart_mono (boxGroup (lay.boxMin r) (lay.boxSize r)) (∏ d, lay.boxSize r d)
    (show 2 ≤ 4 by omega)
  have e4 := volume_eq_gStart (lay.boxMin r) (lay.boxSize r)
  have key : ∀ i, i < (lay.nodeinfo r).boundaryStartEven →
      ∃ c, (lay.nodeinfo r).ovCoordinates i = some c ∧
        ∀ d e, IsPeriodicNeighbour lay.L d c e → lay.nodeRank e = r := by
    intro i hi
    rw [nodeinfo_eq, boundaryStartEven_eq] at hi
    rw [nodeinfo_eq]
    obtain ⟨c, hb, rfl⟩ := ovSlot_surj (lay.boxMin r) (lay.boxSize r) i
      (by rw [e4]; exact lt_of_lt_of_le hi m24)
    refine ⟨c, ovCoordinates_slot _ _ c hb, ?_⟩
    intro d e he
    rw [C03_neighbour_is_periodic lay h] at he
    have g2 := (ovSlot_ge_iff _ _ c hb 2).not.1 (by omega)
    have hf : isBoundarySite (lay.boxMin r) (lay.boxSize r) c = false := by
      unfold siteGroup at g2
      by_contra hne
      have hne' : isBoundarySite (lay.boxMin r) (lay.boxSize r) c = true := by simpa using hne
      rw [hne'] at g2
      split at g2 <;> simp at g2
    rw [he]
    have hin := inner_stays lay h r c d hb hf
    exact (inBox_iff_nodeRank lay h r hr _ (neighbour_inLattice lay h c
      (inBox_inLattice lay h r c hb) d)).1 hin
  have e1 : (lay.nodeinfo r).innerStartOdd ≤ (lay.nodeinfo r).boundaryStartEven := by
    rw [nodeinfo_eq, innerStartOdd_eq, boundaryStartEven_eq]; exact m12
  cases par
  · exact absurd rfl hpar
  · exact ⟨_, _, rfl, fun i _ hi => key i (lt_of_lt_of_le hi e1)⟩
  · exact ⟨_, _, rfl, fun i _ hi => key i hi⟩
  · exact ⟨_, _, rfl, fun i _ hi => key i hi⟩

theorem mem_ovFrom {n : ℕ} (lay : Layout n) (r : ℕ) (d : Dir n) (par : Parity) (i : ℕ) :
    i ∈ lay.ovFrom r d par ↔ ∃ l, BoxOf lay r l ∧ i = ovSlot (lay.boxMin r) (lay.boxSize r) l ∧
      ¬ BoxOf lay r (lay.neighbour l d) ∧ l.parity = par := by
  unfold Layout.ovFrom
  rw [List.mem_filter, List.mem_range]
  constructor
  · rintro ⟨hi, hp⟩
    obtain ⟨l, hb, rfl⟩ := ovSlot_surj (lay.boxMin r) (lay.boxSize r) i hi
    rw [nodeinfo_eq, ovCoordinates_slot _ _ l hb, ← nodeinfo_eq] at hp
    dsimp only at hp
    rw [Bool.and_eq_true, decide_eq_true_eq, Bool.not_eq_true', ← Bool.not_eq_true,
      onNode_iff] at hp
    exact ⟨l, hb, rfl, hp.1, hp.2⟩
  · rintro ⟨l, hb, rfl, ho, hp⟩
    refine ⟨ovSlot_lt _ _ l hb, ?_⟩
    rw [nodeinfo_eq, ovCoordinates_slot _ _ l hb, ← nodeinfo_eq]
    dsimp only
    rw [Bool.and_eq_true, decide_eq_true_eq, Bool.not_eq_true', ← Bool.not_eq_true, onNode_iff]
    exact ⟨ho, hp⟩

theorem mem_ovTo {n : ℕ} (lay : Layout n) (r : ℕ) (d : Dir n) (par : Parity) (i : ℕ) :
    i ∈ lay.ovTo r d par ↔ ∃ l, BoxOf lay r l ∧ i = ovSlot (lay.boxMin r) (lay.boxSize r) l ∧
      ¬ BoxOf lay r (lay.neighbour l d) ∧ (lay.neighbour l d).parity = par := by
  unfold Layout.ovTo
  rw [List.mem_filter, List.mem_range]
  constructor
  · rintro ⟨hi, hp⟩
    obtain ⟨l, hb, rfl⟩ := ovSlot_surj (lay.boxMin r) (lay.boxSize r) i hi
    rw [nodeinfo_eq, ovCoordinates_slot _ _ l hb, ← nodeinfo_eq] at hp
    dsimp only at hp
    rw [Bool.and_eq_true, decide_eq_true_eq, Bool.not_eq_true', ← Bool.not_eq_true,
      onNode_iff] at hp
    exact ⟨l, hb, rfl, hp.1, hp.2⟩
  · rintro ⟨l, hb, rfl, ho, hp⟩
    refine ⟨ovSlot_lt _ _ l hb, ?_⟩
    rw [nodeinfo_eq, ovCoordinates_slot _ _ l hb, ← nodeinfo_eq]
    dsimp only
    rw [Bool.and_eq_true, decide_eq_true_eq, Bool.not_eq_true', ← Bool.not_eq_true, onNode_iff]
    exact ⟨ho, hp⟩

theorem parity_eq_mod {n : ℕ} {c c' : Site n} (h : c.parity = c'.parity) :
    (∑ d, c d) % 2 = (∑ d, c' d) % 2 := by
  rcases Site.parity_cases c with hp | hp
  · rw [(Site.parity_even_iff c).1 hp, (Site.parity_even_iff c').1 (h ▸ hp)]
  · rw [(Site.parity_odd_iff c).1 hp, (Site.parity_odd_iff c').1 (h ▸ hp)]

/-- **C75, halo.** If rank `s` has the neighbour in direction `d` of some site of rank `r`, then for each
parity the sites that `s` sends are, in this order, the neighbours that the slots of the halo of `r`
stand for: the message can be copied into the halo as it is, also with this storage order. -/
theorem C75_halo_order {n : ℕ} (lay : Layout n) (h : lay.WF) (r : ℕ) (hr : r < lay.numNodes)
    (d : Dir n) (par : Parity) (c : Site n) (hcl : lay.InLattice c) (hc : lay.nodeRank c = r)
    (hs : lay.nodeRank (lay.neighbour c d) ≠ r) :
    (lay.ovFrom r d par).map
        (fun i => ((lay.nodeinfo r).ovCoordinates i).map fun l => lay.neighbour l d) =
      (lay.ovTo (lay.nodeRank (lay.neighbour c d)) (oppDir d) par).map
        (lay.nodeinfo (lay.nodeRank (lay.neighbour c d))).ovCoordinates := by
  have hcb := (inBox_iff_nodeRank lay h r hr c hcl).2 hc
  have hnl := neighbour_inLattice lay h c hcl d
  have hco : ¬ BoxOf lay r (lay.neighbour c d) := fun hb =>
    hs ((inBox_iff_nodeRank lay h r hr _ hnl).1 hb)
  have hslt := nodeRank_lt lay h _ hnl
  obtain ⟨s, hsdef⟩ : ∃ s, s = lay.nodeRank (lay.neighbour c d) := ⟨_, rfl⟩
  rw [← hsdef] at hslt hs ⊢
  -- the neighbour of an off-node site of the face
  have hface : ∀ l, BoxOf lay r l → ¬ BoxOf lay r (lay.neighbour l d) →
      BoxOf lay s (lay.neighbour l d) ∧ lay.neighbour (lay.neighbour l d) (oppDir d) = l ∧
      ¬ BoxOf lay s (lay.neighbour (lay.neighbour l d) (oppDir d)) := by
    intro l hb ho
    have hll := inBox_inLattice lay h r l hb
    have e := off_same_rank lay h r c l d hcb hb hco ho
    have h1 := box_nodeRank lay h _ (neighbour_inLattice lay h l hll d)
    have h2 := off_partner lay h r hr l d hb ho
    rw [← e, ← hsdef] at h1 h2
    exact ⟨h1, neighbour_back lay h l hll d, h2⟩
  have hcs := hface c hcb hco
  let φ : ℕ → ℕ := fun i => match (lay.nodeinfo r).ovCoordinates i with
    | some l => ovSlot (lay.boxMin s) (lay.boxSize s) (lay.neighbour l d)
    | none => 0
  have hφ : ∀ l, BoxOf lay r l → φ (ovSlot (lay.boxMin r) (lay.boxSize r) l) =
      ovSlot (lay.boxMin s) (lay.boxSize s) (lay.neighbour l d) := by
    intro l hb
    show (match (lay.nodeinfo r).ovCoordinates _ with | some l => _ | none => _) = _
    rw [nodeinfo_eq, ovCoordinates_slot _ _ l hb]
  have hsorted : ∀ (r : ℕ) (p : ℕ → Bool),
      ((List.range (lay.nodeinfo r).volume).filter p).Pairwise (· < ·) := fun r p =>
    List.Pairwise.filter _ List.pairwise_lt_range
  have hmono : ((lay.ovFrom r d par).map φ).Pairwise (· < ·) := by
    rw [List.pairwise_map]
    refine List.Pairwise.imp_of_mem ?_ (hsorted r _)
    intro i j hi hj hij
    obtain ⟨l, hb, rfl, ho, hp⟩ := (mem_ovFrom lay r d par i).1 hi
    obtain ⟨l', hb', rfl, ho', hp'⟩ := (mem_ovFrom lay r d par j).1 hj
    rw [hφ l hb, hφ l' hb']
    have hpar := parity_eq_mod (hp.trans hp'.symm)
    rw [ovSlot_boundary_lt _ _ l l' hb hb' (off_boundary lay h r l d hb ho)
      (off_boundary lay h r l' d hb' ho') hpar] at hij
    have f1 := hface l hb ho
    have f2 := hface l' hb' ho'
    have e := off_same_rank lay h r c l d hcb hb hco ho
    rw [ovSlot_boundary_lt _ _ _ _ f1.1 f2.1 (off_boundary lay h s _ (oppDir d) f1.1 f1.2.2)
      (off_boundary lay h s _ (oppDir d) f2.1 f2.2.2)
      ((face_parity lay h r l l' d hb hb' ho ho').2 hpar)]
    have fo := (face_order lay h r l l' d hb hb' ho ho' hpar).1 hij
    rw [← e, ← hsdef] at fo
    exact fo
  have hmem : ∀ j, j ∈ (lay.ovFrom r d par).map φ ↔ j ∈ lay.ovTo s (oppDir d) par := by
    intro j
    rw [List.mem_map, mem_ovTo]
    constructor
    · rintro ⟨i, hi, rfl⟩
      obtain ⟨l, hb, rfl, ho, hp⟩ := (mem_ovFrom lay r d par i).1 hi
      have f1 := hface l hb ho
      exact ⟨_, f1.1, hφ l hb, f1.2.2, by rw [f1.2.1]; exact hp⟩
    · rintro ⟨e, hb, rfl, ho, hp⟩
      have hel := inBox_inLattice lay h s e hb
      have e1 := off_same_rank lay h s (lay.neighbour c d) e (oppDir d) hcs.1 hb hcs.2.2 ho
      rw [hcs.2.1, hc] at e1
      have hlb := box_nodeRank lay h _ (neighbour_inLattice lay h e hel (oppDir d))
      have hlo := off_partner lay h s hslt e (oppDir d) hb ho
      rw [← e1] at hlb hlo
      have hback := neighbour_back lay h e hel (oppDir d)
      rw [oppDir_oppDir] at hback hlo
      refine ⟨_, (mem_ovFrom lay r d par _).2 ⟨_, hlb, rfl, hlo, hp⟩, ?_⟩
      rw [hφ _ hlb, hback]
  have heq : (lay.ovFrom r d par).map φ = lay.ovTo s (oppDir d) par := by
    have hto := hsorted s (fun i => match (lay.nodeinfo s).ovCoordinates i with
      | some l => !(lay.nodeinfo s).isOnNode (lay.neighbour l (oppDir d)) &&
          decide ((lay.neighbour l (oppDir d)).parity = par)
      | none => false)
    refine List.Perm.eq_of_pairwise (le := (· < ·)) ?_ hmono hto ?_
    · intro a b _ _ h1 h2
      omega
    · exact (List.perm_ext_iff_of_nodup (hmono.imp fun h => Nat.ne_of_lt h)
        (List.Pairwise.imp (fun h => Nat.ne_of_lt h) hto)).2 hmem
  rw [← heq, List.map_map]
  apply List.map_congr_left
  intro i hi
  obtain ⟨l, hb, rfl, ho, hp⟩ := (mem_ovFrom lay r d par i).1 hi
  have f1 := hface l hb ho
  show ((lay.nodeinfo r).ovCoordinates _).map _ = (lay.nodeinfo s).ovCoordinates (φ _)
  rw [hφ l hb, nodeinfo_eq lay r, nodeinfo_eq lay s, ovCoordinates_slot _ _ l hb,
    ovCoordinates_slot _ _ _ f1.1]
  rfl

end Hila
