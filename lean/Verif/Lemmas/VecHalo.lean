import Verif.Lemmas.VecStep

/-! The neighbour tables and the local halo of the vector layout. -/

namespace Hila

open BigOperators

theorem filter_range_count (P : ℕ → Prop) [DecidablePred P] (m i : ℕ) (hi : i < m) (hP : P i) :
    ((List.range m).filter fun i => decide (P i))[Nat.count P i]? = some i := by
  induction m with
  | zero => omega
  | succ m ih =>
    have hlen : ((List.range m).filter fun i => decide (P i)).length = Nat.count P m := by
      rw [Nat.count_eq_card_filter_range]
      rfl
    rw [List.range_succ, List.filter_append]
    by_cases him : i = m
    · subst him
      rw [List.getElem?_append_right (by omega), hlen, Nat.sub_self]
      simp [hP]
    · have hlt : i < m := by omega
      rw [List.getElem?_append_left]
      · exact ih hlt
      · rw [hlen]; exact count_lt_of _ _ _ hlt hP

theorem filter_range_length (P : ℕ → Prop) [DecidablePred P] (m : ℕ) :
    ((List.range m).filter fun i => decide (P i)).length = Nat.count P m := by
  rw [Nat.count_eq_card_filter_range]
  rfl

/-- Entry `p` of such a list. -/
theorem filter_range_get (P : ℕ → Prop) [DecidablePred P] (m p : ℕ) (hp : p < Nat.count P m) : ∃ i, i < m ∧ P i ∧ Nat.count P i = p := by
  have hlen := filter_range_length P m
  obtain ⟨i, hi⟩ : ∃ i, ((List.range m).filter fun i => decide (P i))[p]? = some i := ⟨_, List.getElem?_eq_getElem (by omega)⟩
  have hmem := List.mem_of_getElem? hi
  rw [List.mem_filter, List.mem_range, decide_eq_true_iff] at hmem
  refine ⟨i, hmem.1, hmem.2, ?_⟩
  have h2 := filter_range_count P m i hmem.1 hmem.2
  have hnd : ((List.range m).filter fun i => decide (P i)).Nodup := List.Nodup.filter _ List.nodup_range
  obtain ⟨hp', e1⟩ := List.getElem?_eq_some_iff.1 hi
  obtain ⟨hc', e2⟩ := List.getElem?_eq_some_iff.1 h2
  exact (List.Nodup.getElem_inj_iff hnd).1 (e2.trans e1.symm)

section Halo
variable {n : ℕ} {lay : Layout n} {sd : SubDiv n} (dbl : Bool)

/-- The site in lane 0 of vector `i` is at the boundary of the first subnode: the vector has a halo vector. -/
def HVec (lay : Layout n) (sd : SubDiv n) (dbl : Bool) (r : ℕ) (d : Dir n) (i : ℕ) : Prop :=
  EdgeV lay sd dbl r d ((lay.nodeinfo r).coordSub sd (sd.vecSize dbl * i))

instance (r : ℕ) (d : Dir n) : DecidablePred (HVec lay sd dbl r d) := fun i => by unfold HVec; infer_instance

variable (h : VecOK lay sd)
include h

theorem vol_eq (r : ℕ) (hr : r < lay.numNodes) : (lay.nodeinfo r).vSites sd dbl * sd.vecSize dbl = (lay.nodeinfo r).volume :=
  vSites_mul (h.sub r hr) dbl

theorem rank_vec_lt (r : ℕ) (hr : r < lay.numNodes) {c : Site n} (hc : BoxOf lay r c) :
    (lay.nodeinfo r).siteIndexSub sd c / sd.vecSize dbl < (lay.nodeinfo r).vSites sd dbl := vec_lt (h.sub r hr) dbl hc

theorem lane0 (r : ℕ) (hr : r < lay.numNodes) (i : ℕ) (hi : i < (lay.nodeinfo r).vSites sd dbl) :
    BoxOf lay r ((lay.nodeinfo r).coordSub sd (sd.vecSize dbl * i)) ∧
    (lay.nodeinfo r).siteIndexSub sd ((lay.nodeinfo r).coordSub sd (sd.vecSize dbl * i)) = sd.vecSize dbl * i ∧
    rQ lay sd dbl r ((lay.nodeinfo r).coordSub sd (sd.vecSize dbl * i)) = fun _ => 0 := by
  have hsub := h.sub r hr
  have hV := hsub.vecSize_pos dbl
  have hlt : sd.vecSize dbl * i < (lay.nodeinfo r).volume := by
    rw [← vol_eq dbl h r hr, mul_comm]
    exact Nat.mul_lt_mul_of_pos_right hi hV
  obtain ⟨h1, h2⟩ := rank_spec h r hr _ hlt
  refine ⟨h1, h2, ?_⟩
  have h3 := rank_index dbl h r hr h1
  rw [h2, Nat.mul_mod_right] at h3
  refine vLane_inj hsub dbl (rank_Q_lt dbl h r hr h1) (fun b => hsub.subdiv_pos dbl b) ?_
  rw [vLane_zero]; exact h3.symm

/-- All sites of a vector have the same place in their subnodes. -/
theorem lane0_R (r : ℕ) (hr : r < lay.numNodes) {c : Site n} (hc : BoxOf lay r c) :
    rR lay sd dbl r ((lay.nodeinfo r).coordSub sd (sd.vecSize dbl * ((lay.nodeinfo r).siteIndexSub sd c / sd.vecSize dbl))) = rR lay sd dbl r c := by
  obtain ⟨h1, h2, _⟩ := lane0 dbl h r hr _ (rank_vec_lt dbl h r hr hc)
  rw [← rank_vec_iff dbl h r hr h1 hc, h2, Nat.mul_div_cancel_left _ ((h.sub r hr).vecSize_pos dbl)]

theorem HVec_iff (r : ℕ) (hr : r < lay.numNodes) (d : Dir n) {c : Site n} (hc : BoxOf lay r c) :
    HVec lay sd dbl r d ((lay.nodeinfo r).siteIndexSub sd c / sd.vecSize dbl) ↔ EdgeV lay sd dbl r d c := by
  unfold HVec EdgeV
  rw [lane0_R dbl h r hr hc]

omit h in
theorem firstSubnode_iff (r : ℕ) (v : Site n) :
    (lay.nodeinfo r).isOnFirstSubnode sd dbl v = true ↔ ∀ b, lay.boxMin r b ≤ v b ∧ v b < lay.boxMin r b + rS lay sd dbl r b := by
  unfold NodeInfo.isOnFirstSubnode
  rw [List.all_eq_true]
  constructor
  · intro hh b
    have := hh b (List.mem_finRange b)
    rw [nodeinfo_eq, ofBox_min, subnodeSize_eq, Bool.not_eq_true', decide_eq_false_iff_not] at this
    show _ ∧ _ < _ + vSub _ _ _ _
    omega
  · intro hh b _
    have : _ ∧ _ < _ + vSub _ _ _ _ := hh b
    rw [nodeinfo_eq, ofBox_min, subnodeSize_eq, Bool.not_eq_true', decide_eq_false_iff_not]
    omega

/-- In the box and in subnode 0 means on the first subnode. -/
theorem first_iff (r : ℕ) (hr : r < lay.numNodes) (v : Site n) :
    (∀ b, lay.boxMin r b ≤ v b ∧ v b < lay.boxMin r b + rS lay sd dbl r b) ↔ BoxOf lay r v ∧ rQ lay sd dbl r v = fun _ => 0 := by
  have hsub := h.sub r hr
  constructor
  · intro hh
    refine ⟨fun b => ?_, funext fun b => ?_⟩
    · have := hh b
      have h2 := box_mul dbl h r hr b
      have h3 := Nat.le_mul_of_pos_right (rS lay sd dbl r b) (hsub.subdiv_pos dbl b)
      omega
    · have := hh b
      show (v b - lay.boxMin r b) / rS lay sd dbl r b = 0
      exact Nat.div_eq_of_lt (by omega)
  · rintro ⟨h1, h2⟩ b
    have h3 := congrFun h2 b
    have hp := hsub.vSub_pos dbl b
    have h4 : (v b - lay.boxMin r b) / rS lay sd dbl r b = 0 := h3
    rw [Nat.div_eq_zero_iff] at h4
    have h5 : 0 < rS lay sd dbl r b := hp
    have := h1 b
    omega

/-- A step over the lattice boundary that stays on the node: the direction is not divided. -/
theorem wrap_ndiv (r : ℕ) (c : Site n) (d : Dir n) (hc : BoxOf lay r c) (hb : BoxOf lay r (lay.neighbour c d))
    (he : c (axis d) = edgeCoord lay d) : lay.ndiv (axis d) = 1 := by
  obtain ⟨h1, h2⟩ := coord_siteIndex lay r c hc
  refine (edge_on_needed lay h.wf h.le r d _ h1 (by unfold Edge; rw [h2]; exact he) ?_).2
  rw [off_iff, not_not, h2]; exact hb

/-- In an undivided direction steps stay on the node. -/
theorem undivided_box (r : ℕ) (c : Site n) (d : Dir n) (hc : BoxOf lay r c) (hd : lay.ndiv (axis d) = 1) : BoxOf lay r (lay.neighbour c d) := by
  obtain ⟨h1, h2⟩ := coord_siteIndex lay r c hc
  have := undivided_on lay h.wf r d hd _ h1
  rw [off_iff, not_not, h2] at this
  exact this

/-- In a direction with one subnode, a step from the boundary of the subnode that stays on the node crosses the boundary of the lattice. -/
theorem single_wrap (r : ℕ) (hr : r < lay.numNodes) (c : Site n) (d : Dir n) (hc : BoxOf lay r c) (he : EdgeV lay sd dbl r d c)
    (hD : sd.subdivisions dbl (axis d) = 1) (hb : BoxOf lay r (lay.neighbour c d)) : c (axis d) = edgeCoord lay d ∧ lay.ndiv (axis d) = 1 := by
  have hl := inBox_inLattice lay h.wf r c hc
  have hm := box_mul dbl h r hr (axis d)
  rw [hD, mul_one] at hm
  have hca := hc (axis d)
  have hle := box_le lay h.wf r (axis d)
  have hba := hb (axis d)
  rw [neighbour_eq lay h.wf c hl, Function.update_self] at hba
  have he' : (c (axis d) - lay.boxMin r (axis d)) % rS lay sd dbl r (axis d) = lastOf (isUp d) (rS lay sd dbl r (axis d)) := he
  rw [hm, Nat.mod_eq_of_lt (by omega)] at he'
  have key : c (axis d) = edgeCoord lay d := by
    unfold edgeCoord
    unfold lastOf at he'
    cases hu : isUp d
    · rw [hu] at he' hba
      simp only [Bool.false_eq_true, if_false] at he' ⊢
      rw [pstep_down _ _ (hl _)] at hba
      split at hba <;> omega
    · rw [hu] at he' hba
      simp only [if_true] at he' ⊢
      rw [pstep_up _ _ (hl _)] at hba
      split at hba <;> omega
  exact ⟨key, wrap_ndiv h r c d hc hb key⟩

theorem neighbSub_eq (r : ℕ) (hr : r < lay.numNodes) (d : Dir n) {c : Site n} (hc : BoxOf lay r c) [Decidable (BoxOf lay r (lay.neighbour c d))] :
    neighbSub lay sd r d ((lay.nodeinfo r).siteIndexSub sd c) =
      if BoxOf lay r (lay.neighbour c d) then (lay.nodeinfo r).siteIndexSub sd (lay.neighbour c d) else (lay.nodeinfo r).volume := by
  unfold neighbSub
  dsimp only
  rw [rank_coord h r hr hc]
  by_cases hb : BoxOf lay r (lay.neighbour c d)
  · rw [if_pos hb, if_pos ((onNode_iff lay r _).2 hb)]
  · rw [if_neg hb, if_neg (fun hh => hb ((onNode_iff lay r _).1 hh))]

theorem neighbSub_lt_iff (r : ℕ) (hr : r < lay.numNodes) (d : Dir n) {c : Site n} (hc : BoxOf lay r c) :
    neighbSub lay sd r d ((lay.nodeinfo r).siteIndexSub sd c) < (lay.nodeinfo r).volume ↔ BoxOf lay r (lay.neighbour c d) := by
  classical
  rw [neighbSub_eq h r hr d hc]
  by_cases hb : BoxOf lay r (lay.neighbour c d)
  · rw [if_pos hb]; exact iff_of_true (rank_index_lt h r hr hb) hb
  · rw [if_neg hb]; exact iff_of_false (by omega) hb

theorem vecNeighbStep_eq (r : ℕ) (hr : r < lay.numNodes) (d : Dir n) (s : (ℕ → ℕ) × ℕ) (i : ℕ) (hi : i < (lay.nodeinfo r).vSites sd dbl) :
    vecNeighbStep lay sd dbl r d s i = if HVec lay sd dbl r d i then (Function.update s.1 i s.2, s.2 + 1)
      else (Function.update s.1 i (neighbSub lay sd r d (sd.vecSize dbl * i) / sd.vecSize dbl), s.2) := by
  obtain ⟨hc, hidx, hQ⟩ := lane0 dbl h r hr i hi
  have hsub := h.sub r hr
  unfold vecNeighbStep
  dsimp only
  have hHE : HVec lay sd dbl r d i ↔ EdgeV lay sd dbl r d ((lay.nodeinfo r).coordSub sd (sd.vecSize dbl * i)) := Iff.rfl
  set c := (lay.nodeinfo r).coordSub sd (sd.vecSize dbl * i) with hcdef
  have hl := inBox_inLattice lay h.wf r c hc
  have hedge : ((isUp d ∧ c (axis d) = lay.L (axis d) - 1) ∨ (¬ isUp d ∧ c (axis d) = 0)) ↔ c (axis d) = edgeCoord lay d := by
    unfold edgeCoord
    cases hu : isUp d <;> simp
  have hDp := hsub.subdiv_pos dbl (axis d)
  have honly : onlyLocalCopy lay sd dbl d = true ↔ lay.ndiv (axis d) = 1 ∧ sd.subdivisions dbl (axis d) = 1 := by
    unfold onlyLocalCopy SubDiv.isBoundaryPerm
    rw [Bool.and_eq_true, decide_eq_true_iff, Bool.not_eq_true', decide_eq_false_iff_not]
    constructor
    · rintro ⟨h1, h2⟩; exact ⟨h1, by omega⟩
    · rintro ⟨h1, h2⟩; exact ⟨h1, by omega⟩
  by_cases hE : EdgeV lay sd dbl r d c
  · rw [if_pos (hHE.2 hE)]
    by_cases hf : (lay.nodeinfo r).isOnFirstSubnode sd dbl (lay.neighbour c d) = true
    · rw [if_pos hf]
      obtain ⟨hb, hq0⟩ := (first_iff dbl h r hr _).1 ((firstSubnode_iff dbl r _).1 hf)
      have hst := (step_edge dbl h r hr c d hc hE).1
      rw [(inBox_iff_nodeRank lay h.wf r hr _ (neighbour_inLattice lay h.wf c hl d)).1 hb, hq0, hQ] at hst
      have hA := congrFun hst (axis d)
      unfold shiftQ at hA
      rw [Function.update_self] at hA
      have hD1 : sd.subdivisions dbl (axis d) = 1 := by
        cases hu : isUp d
        · rw [hu, pstep_down _ _ hDp, if_pos rfl] at hA; omega
        · rw [hu, pstep_up _ _ hDp] at hA; split at hA <;> omega
      have hw := single_wrap dbl h r hr c d hc hE hD1 hb
      rw [if_pos ⟨honly.2 ⟨hw.2, hD1⟩, hedge.2 hw.1⟩]
    · rw [if_neg hf]
  · rw [if_neg (fun hh => hE (hHE.1 hh))]
    obtain ⟨hb, hq, _⟩ := step_in dbl h r hr c d hc hE
    have hf : (lay.nodeinfo r).isOnFirstSubnode sd dbl (lay.neighbour c d) = true := by
      rw [firstSubnode_iff, first_iff dbl h r hr]
      exact ⟨hb, hq.trans hQ⟩
    rw [if_pos hf, if_neg]
    rintro ⟨ho, hc2⟩
    rw [hedge] at hc2
    obtain ⟨h1, h2⟩ := honly.1 ho
    apply hE
    -- the node is the whole line
    have hm := box_mul dbl h r hr (axis d)
    rw [h2, mul_one] at hm
    have hca := hc (axis d)
    have hle := box_le lay h.wf r (axis d)
    have hnb := undivided_box h r c d hc h1 (axis d)
    rw [neighbour_eq lay h.wf c hl, Function.update_self] at hnb
    show (c (axis d) - lay.boxMin r (axis d)) % rS lay sd dbl r (axis d) = lastOf (isUp d) (rS lay sd dbl r (axis d))
    rw [hm, Nat.mod_eq_of_lt (by omega)]
    unfold edgeCoord at hc2
    unfold lastOf
    have hlA := hl (axis d)
    cases hu : isUp d
    · rw [hu] at hnb hc2
      simp only [Bool.false_eq_true, if_false] at hc2 ⊢
      omega
    · rw [hu] at hnb hc2
      simp only [if_true] at hc2 ⊢
      rw [pstep_up _ _ hlA, if_pos (by omega)] at hnb
      omega

theorem vecNeighb_closed (r : ℕ) (hr : r < lay.numNodes) (d : Dir n) (cOff m : ℕ) (hm : m ≤ (lay.nodeinfo r).vSites sd dbl) :
    let s := (List.range m).foldl (vecNeighbStep lay sd dbl r d) (fun _ => 0, cOff)
    s.2 = cOff + Nat.count (HVec lay sd dbl r d) m ∧ ∀ i, i < m → s.1 i = if HVec lay sd dbl r d i then cOff + Nat.count (HVec lay sd dbl r d) i
      else neighbSub lay sd r d (sd.vecSize dbl * i) / sd.vecSize dbl := by
  induction m with
  | zero => simp
  | succ m ih =>
    obtain ⟨h1, h2⟩ := ih (by omega)
    rw [List.range_succ, List.foldl_append, List.foldl_cons, List.foldl_nil, vecNeighbStep_eq dbl h r hr d _ m (by omega)]
    set s := (List.range m).foldl (vecNeighbStep lay sd dbl r d) (fun _ => 0, cOff) with hs
    by_cases hE : HVec lay sd dbl r d m
    · rw [if_pos hE]
      refine ⟨?_, fun i hi => ?_⟩
      · show s.2 + 1 = _
        rw [h1, Nat.count_succ, if_pos hE]; omega
      · show Function.update s.1 m s.2 i = _
        by_cases him : i = m
        · subst him; rw [Function.update_self, if_pos hE, h1]
        · rw [Function.update_of_ne him]; exact h2 i (by omega)
    · rw [if_neg hE]
      refine ⟨?_, fun i hi => ?_⟩
      · show s.2 = _
        rw [h1, Nat.count_succ, if_neg hE]; omega
      · show Function.update s.1 m _ i = _
        by_cases him : i = m
        · subst him; rw [Function.update_self, if_neg hE]
        · rw [Function.update_of_ne him]; exact h2 i (by omega)

/-- Number of halo vectors. -/
theorem nHaloVec_eq (r : ℕ) (hr : r < lay.numNodes) (d : Dir n) :
    nHaloVec lay sd dbl r d = Nat.count (HVec lay sd dbl r d) ((lay.nodeinfo r).vSites sd dbl) := by
  have := (vecNeighb_closed dbl h r hr d (haloOffset lay sd dbl r d.val) _ (le_refl _)).1
  unfold nHaloVec vecNeighb
  rw [this]; omega

theorem haloOffset_succ (r : ℕ) (hr : r < lay.numNodes) (d : Dir n) :
    haloOffset lay sd dbl r (d.val + 1) = haloOffset lay sd dbl r d.val + nHaloVec lay sd dbl r d := by
  rw [nHaloVec_eq dbl h r hr]
  have := (vecNeighb_closed dbl h r hr d (haloOffset lay sd dbl r d.val) _ (le_refl _)).1
  rw [haloOffset, dif_pos d.isLt]
  exact this

theorem haloOffset_mono (r : ℕ) (hr : r < lay.numNodes) (a b : ℕ) (hab : a ≤ b) : haloOffset lay sd dbl r a ≤ haloOffset lay sd dbl r b := by
  induction b with
  | zero => rw [Nat.le_zero.1 hab]
  | succ b ih =>
    rcases Nat.eq_or_lt_of_le hab with hh | hh
    · rw [hh]
    · refine le_trans (ih (by omega)) ?_
      by_cases hb : b < 2 * n
      · have := haloOffset_succ dbl h r hr (⟨b, hb⟩ : Dir n)
        change haloOffset lay sd dbl r (b + 1) = haloOffset lay sd dbl r b + _ at this
        omega
      · rw [haloOffset, dif_neg hb]

theorem haloOffset_ge (r : ℕ) (hr : r < lay.numNodes) (k : ℕ) : (lay.nodeinfo r).vSites sd dbl ≤ haloOffset lay sd dbl r k :=
  haloOffset_mono dbl h r hr 0 k (by omega)

theorem neighboursVec_eq (r : ℕ) (hr : r < lay.numNodes) (d : Dir n) (i : ℕ) (hi : i < (lay.nodeinfo r).vSites sd dbl) :
    neighboursVec lay sd dbl r d i = if HVec lay sd dbl r d i then haloOffset lay sd dbl r d.val + Nat.count (HVec lay sd dbl r d) i
      else neighbSub lay sd r d (sd.vecSize dbl * i) / sd.vecSize dbl :=
  (vecNeighb_closed dbl h r hr d (haloOffset lay sd dbl r d.val) _ (le_refl _)).2 i hi

/-- The vector of the neighbour, for a vector inside the subnodes. -/
theorem neighboursVec_in (r : ℕ) (hr : r < lay.numNodes) (d : Dir n) {c : Site n} (hc : BoxOf lay r c) (he : ¬ EdgeV lay sd dbl r d c) :
    neighboursVec lay sd dbl r d ((lay.nodeinfo r).siteIndexSub sd c / sd.vecSize dbl) =
      (lay.nodeinfo r).siteIndexSub sd (lay.neighbour c d) / sd.vecSize dbl := by
  classical
  set i := (lay.nodeinfo r).siteIndexSub sd c / sd.vecSize dbl with hi
  have hilt := rank_vec_lt dbl h r hr hc
  rw [← hi] at hilt
  obtain ⟨hc0, hidx, _⟩ := lane0 dbl h r hr i hilt
  have hR := lane0_R dbl h r hr hc
  rw [← hi] at hR
  have hE0 : ¬ EdgeV lay sd dbl r d ((lay.nodeinfo r).coordSub sd (sd.vecSize dbl * i)) := by
    unfold EdgeV at he ⊢; rw [hR]; exact he
  rw [neighboursVec_eq dbl h r hr d i hilt, if_neg (show ¬ HVec lay sd dbl r d i from hE0)]
  obtain ⟨hb0, _, hr0⟩ := step_in dbl h r hr _ d hc0 hE0
  obtain ⟨hb, _, hr1⟩ := step_in dbl h r hr c d hc he
  have e : neighbSub lay sd r d (sd.vecSize dbl * i) =
      (lay.nodeinfo r).siteIndexSub sd (lay.neighbour ((lay.nodeinfo r).coordSub sd (sd.vecSize dbl * i)) d) := by
    have := neighbSub_eq h r hr d hc0
    rw [hidx, if_pos hb0] at this
    exact this
  rw [e, rank_vec_iff dbl h r hr hb0 hb, hr0, hr1, hR]

theorem siteNeighbour_in (r : ℕ) (hr : r < lay.numNodes) (d : Dir n) {c : Site n} (hc : BoxOf lay r c) (he : ¬ EdgeV lay sd dbl r d c) :
    siteNeighbour lay sd dbl r d ((lay.nodeinfo r).siteIndexSub sd c) = (lay.nodeinfo r).siteIndexSub sd (lay.neighbour c d) := by
  obtain ⟨hb, hq, _⟩ := step_in dbl h r hr c d hc he
  unfold siteNeighbour
  rw [neighboursVec_in dbl h r hr d hc he, rank_index dbl h r hr hc, ← hq, ← rank_index dbl h r hr hb, Nat.div_add_mod]

theorem siteNeighbour_edge (r : ℕ) (hr : r < lay.numNodes) (d : Dir n) {c : Site n} (hc : BoxOf lay r c) (he : EdgeV lay sd dbl r d c) :
    siteNeighbour lay sd dbl r d ((lay.nodeinfo r).siteIndexSub sd c) = sd.vecSize dbl * (haloOffset lay sd dbl r d.val +
      Nat.count (HVec lay sd dbl r d) ((lay.nodeinfo r).siteIndexSub sd c / sd.vecSize dbl)) + (lay.nodeinfo r).siteIndexSub sd c % sd.vecSize dbl := by
  unfold siteNeighbour
  rw [neighboursVec_eq dbl h r hr d _ (rank_vec_lt dbl h r hr hc), if_pos ((HVec_iff dbl h r hr d hc).2 he)]

/-! ### Halo index -/

/-- The on-node neighbours of the sites of a halo vector are in the same vector. -/
theorem on_same_vec (r : ℕ) (hr : r < lay.numNodes) (d : Dir n) {c c' : Site n} (hc : BoxOf lay r c) (hc' : BoxOf lay r c')
    (he : EdgeV lay sd dbl r d c) (hR : rR lay sd dbl r c = rR lay sd dbl r c') (hb : BoxOf lay r (lay.neighbour c d))
    (hb' : BoxOf lay r (lay.neighbour c' d)) :
    (lay.nodeinfo r).siteIndexSub sd (lay.neighbour c d) / sd.vecSize dbl = (lay.nodeinfo r).siteIndexSub sd (lay.neighbour c' d) / sd.vecSize dbl := by
  have he' : EdgeV lay sd dbl r d c' := by unfold EdgeV at he ⊢; rw [← hR]; exact he
  have h1 := (step_edge dbl h r hr c d hc he).2
  have h2 := (step_edge dbl h r hr c' d hc' he').2
  rw [(inBox_iff_nodeRank lay h.wf r hr _ (neighbour_inLattice lay h.wf c (inBox_inLattice lay h.wf r c hc) d)).1 hb] at h1
  rw [(inBox_iff_nodeRank lay h.wf r hr _ (neighbour_inLattice lay h.wf c' (inBox_inLattice lay h.wf r c' hc') d)).1 hb'] at h2
  rw [rank_vec_iff dbl h r hr hb hb', h1, h2, hR]

/-- Local copies are made: there is a site with neighbour on the node in every halo vector. -/
theorem exists_on (r : ℕ) (hr : r < lay.numNodes) (d : Dir n) (hloc : sd.isBoundaryPerm dbl (axis d) = true ∨ onlyLocalCopy lay sd dbl d = true)
    (i : ℕ) (hi : i < (lay.nodeinfo r).vSites sd dbl) :
    ∃ c, BoxOf lay r c ∧ (lay.nodeinfo r).siteIndexSub sd c / sd.vecSize dbl = i ∧ BoxOf lay r (lay.neighbour c d) := by
  have hsub := h.sub r hr
  rcases hloc with hp | ho
  · unfold SubDiv.isBoundaryPerm at hp
    rw [decide_eq_true_iff] at hp
    set q : Site n := Function.update (fun _ => 0) (axis d) (lastOf (!isUp d) (sd.subdivisions dbl (axis d))) with hq
    have hqlt : ∀ b, q b < sd.subdivisions dbl b := by
      intro b
      by_cases hb : b = axis d
      · subst hb; rw [hq, Function.update_self]; exact lastOf_lt _ _ (by omega)
      · rw [hq, Function.update_of_ne hb]; exact hsub.subdiv_pos dbl b
    obtain ⟨c, hc, _, h2, h3⟩ := lane_surj dbl h r hr i _ hi (vLane_lt hsub dbl hqlt)
    have hcQ := vLane_inj hsub dbl (rank_Q_lt dbl h r hr hc) hqlt h3
    refine ⟨c, hc, h2, ?_⟩
    by_contra hb
    have h4 := (step_leave dbl h r hr c d hc hb).2
    rw [hcQ, hq, Function.update_self] at h4
    unfold lastOf at h4
    cases hu : isUp d
    · rw [hu] at h4; simp only [Bool.not_false, if_true, Bool.false_eq_true, if_false] at h4; omega
    · rw [hu] at h4; simp only [Bool.not_true, if_true, Bool.false_eq_true, if_false] at h4; omega
  · unfold onlyLocalCopy at ho
    rw [Bool.and_eq_true, decide_eq_true_iff] at ho
    obtain ⟨hc, h2, _⟩ := lane0 dbl h r hr i hi
    exact ⟨_, hc, by rw [h2, Nat.mul_div_cancel_left _ (hsub.vecSize_pos dbl)], undivided_box h r _ d hc ho.1⟩

theorem haloList_eq (r : ℕ) (hr : r < lay.numNodes) (d : Dir n) :
    ((List.range ((lay.nodeinfo r).vSites sd dbl)).filter fun i => decide (neighboursVec lay sd dbl r d i ≥ (lay.nodeinfo r).vSites sd dbl)) =
      (List.range ((lay.nodeinfo r).vSites sd dbl)).filter fun i => decide (HVec lay sd dbl r d i) := by
  apply List.filter_congr
  intro i hi
  rw [List.mem_range] at hi
  apply Bool.decide_congr
  by_cases hH : HVec lay sd dbl r d i
  · rw [neighboursVec_eq dbl h r hr d i hi, if_pos hH]
    have := haloOffset_ge dbl h r hr d.val
    exact iff_of_true (by omega) hH
  · refine iff_of_false ?_ hH
    obtain ⟨hc, h2, _⟩ := lane0 dbl h r hr i hi
    have := neighboursVec_in dbl h r hr d hc hH
    rw [h2, Nat.mul_div_cancel_left _ ((h.sub r hr).vecSize_pos dbl)] at this
    rw [this]
    have := rank_vec_lt dbl h r hr (step_in dbl h r hr _ d hc hH).1
    omega

/-- The entry of `halo_index`. -/
theorem haloIndex_get (r : ℕ) (hr : r < lay.numNodes) (d : Dir n) (hloc : sd.isBoundaryPerm dbl (axis d) = true ∨ onlyLocalCopy lay sd dbl d = true)
    {c : Site n} (hc : BoxOf lay r c) (he : EdgeV lay sd dbl r d c) (hb : BoxOf lay r (lay.neighbour c d)) :
    (haloIndex lay sd dbl r d)[Nat.count (HVec lay sd dbl r d) ((lay.nodeinfo r).siteIndexSub sd c / sd.vecSize dbl)]? =
      some (some ((lay.nodeinfo r).siteIndexSub sd (lay.neighbour c d) / sd.vecSize dbl)) := by
  classical
  have hsub := h.sub r hr
  have hV := hsub.vecSize_pos dbl
  have hilt := rank_vec_lt dbl h r hr hc
  have hH := (HVec_iff dbl h r hr d hc).2 he
  set i := (lay.nodeinfo r).siteIndexSub sd c / sd.vecSize dbl with hi
  unfold haloIndex
  dsimp only
  rw [haloList_eq dbl h r hr, List.getElem?_map, filter_range_count _ _ i hilt hH, Option.map_some]
  congr 1
  -- sites of the vector
  have hsite : ∀ k, k < sd.vecSize dbl → ∃ c', BoxOf lay r c' ∧ (lay.nodeinfo r).siteIndexSub sd c' = i * sd.vecSize dbl + k ∧
      rR lay sd dbl r c' = rR lay sd dbl r c := by
    intro k hk
    obtain ⟨c', hc', h1, h2, _⟩ := lane_surj dbl h r hr i k hilt hk
    exact ⟨c', hc', by rw [h1, mul_comm], (rank_vec_iff dbl h r hr hc' hc).1 (h2.trans hi)⟩
  by_cases hp : sd.isBoundaryPerm dbl (axis d) = true
  · rw [if_pos hp]
    set on := (List.range (sd.vecSize dbl)).filter fun k => decide (neighbSub lay sd r d (i * sd.vecSize dbl + k) < (lay.nodeinfo r).volume) with hon
    have hval : ∀ k ∈ on, neighbSub lay sd r d (i * sd.vecSize dbl + k) / sd.vecSize dbl =
        (lay.nodeinfo r).siteIndexSub sd (lay.neighbour c d) / sd.vecSize dbl := by
      intro k hk
      rw [hon, List.mem_filter, List.mem_range, decide_eq_true_iff] at hk
      obtain ⟨c', hc', h1, h2⟩ := hsite k hk.1
      have h3 := hk.2
      rw [← h1, neighbSub_lt_iff h r hr d hc'] at h3
      rw [← h1, neighbSub_eq h r hr d hc', if_pos h3]
      exact (on_same_vec dbl h r hr d hc hc' he h2.symm hb h3).symm
    have hmem : (lay.nodeinfo r).siteIndexSub sd c % sd.vecSize dbl ∈ on := by
      rw [hon, List.mem_filter, List.mem_range, decide_eq_true_iff]
      refine ⟨Nat.mod_lt _ hV, ?_⟩
      have e : i * sd.vecSize dbl + (lay.nodeinfo r).siteIndexSub sd c % sd.vecSize dbl = (lay.nodeinfo r).siteIndexSub sd c := by
        rw [hi, mul_comm]; exact Nat.div_add_mod _ _
      rw [e, neighbSub_lt_iff h r hr d hc]; exact hb
    cases hol : on with
    | nil => rw [hol] at hmem; exact absurd hmem List.not_mem_nil
    | cons k ks =>
      dsimp only
      rw [hol] at hval
      rw [hval k List.mem_cons_self, if_pos]
      rw [List.all_eq_true]
      intro k' hk'
      rw [beq_iff_eq, hval k' (List.mem_cons_of_mem _ hk')]
  · rw [if_neg hp]
    have ho : onlyLocalCopy lay sd dbl d = true := hloc.resolve_left hp
    unfold onlyLocalCopy at ho
    rw [Bool.and_eq_true, decide_eq_true_iff] at ho
    have hD1 : sd.subdivisions dbl (axis d) = 1 := by
      have := hsub.subdiv_pos dbl (axis d)
      unfold SubDiv.isBoundaryPerm at hp
      rw [decide_eq_true_iff] at hp
      omega
    obtain ⟨hc0, h2, hQ0⟩ := lane0 dbl h r hr i hilt
    have hb0 := undivided_box h r _ d hc0 ho.1
    have hR0 := lane0_R dbl h r hr hc
    rw [← hi] at hR0
    have hE0 : EdgeV lay sd dbl r d ((lay.nodeinfo r).coordSub sd (sd.vecSize dbl * i)) := hH
    have e : neighbSub lay sd r d (i * sd.vecSize dbl) =
        (lay.nodeinfo r).siteIndexSub sd (lay.neighbour ((lay.nodeinfo r).coordSub sd (sd.vecSize dbl * i)) d) := by
      have := neighbSub_eq h r hr d hc0
      rw [h2, if_pos hb0, mul_comm] at this
      rw [mul_comm i]
      rw [mul_comm i] at this
      exact this
    have hlane := rank_index dbl h r hr hb0
    have hst := (step_edge dbl h r hr _ d hc0 hE0).1
    rw [(inBox_iff_nodeRank lay h.wf r hr _ (neighbour_inLattice lay h.wf _ (inBox_inLattice lay h.wf r _ hc0) d)).1 hb0, hQ0] at hst
    have hz : shiftQ sd dbl d (fun _ => 0) = fun _ => 0 := by
      unfold shiftQ
      funext b
      by_cases hbx : b = axis d
      · subst hbx; rw [Function.update_self, hD1]
        exact Nat.lt_one_iff.1 (pstep_lt (isUp d) 1 0 Nat.one_pos)
      · rw [Function.update_of_ne hbx]
    rw [hst, hz, vLane_zero] at hlane
    rw [e, if_pos hlane, on_same_vec dbl h r hr d hc0 hc hE0 hR0 hb0 hb]

end Halo

end Hila
