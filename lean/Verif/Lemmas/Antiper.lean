import Verif.Model.Antiper
import Verif.Props.Gather

/-! # Lemmas for the boundary conditions -/

namespace Hila

variable {n : ℕ} (lay : Layout n)

/-- The coordinate of the boundary sites of direction `d`. -/
def edgeCoord (d : Dir n) : ℕ := if isUp d then lay.L (axis d) - 1 else 0

/-- Slot `i` of rank `r` is on the boundary in direction `d`. -/
def Edge (r : ℕ) (d : Dir n) (i : ℕ) : Prop := (lay.nodeinfo r).coord i (axis d) = edgeCoord lay d

instance (r : ℕ) (d : Dir n) : DecidablePred (Edge lay r d) := fun i => by unfold Edge; infer_instance

theorem isOnEdge_iff (r : ℕ) (d : Dir n) :
    isOnEdge lay r d = true ↔
      if isUp d then lay.boxMin r (axis d) + lay.boxSize r (axis d) = lay.L (axis d) else lay.boxMin r (axis d) = 0 := by
  unfold isOnEdge
  dsimp only
  rw [nodeinfo_eq, ofBox_min, ofBox_size]
  cases h : isUp d <;> simp

/-- The special slots are needed iff the node has the edge and the direction is not divided. -/
def Needed (r : ℕ) (d : Dir n) : Prop := isOnEdge lay r d = true ∧ lay.ndiv (axis d) = 1

instance (r : ℕ) (d : Dir n) : Decidable (Needed lay r d) := by unfold Needed; infer_instance

/-- The counts after some sites of the loop in `init_special_boundaries`. -/
theorem specFold (r : ℕ) (d : Dir n) (z : ℤ) (hz : z = edgeCoord lay d) (m : ℕ) :
    (List.range m).foldl (fun (s : SpecCount) i =>
      if (((lay.nodeinfo r).coord i (axis d) : ℕ) : ℤ) = z then
        { s with nTotal := s.nTotal + 1
                 nEven := if ((lay.nodeinfo r).coord i).parity = .even then s.nEven + 1 else s.nEven
                 nOdd := if ((lay.nodeinfo r).coord i).parity = .even then s.nOdd else s.nOdd + 1 }
      else s) ⟨true, 0, 0, 0⟩ =
    ⟨true, Nat.count (fun i => Edge lay r d i ∧ Ev lay r i) m, Nat.count (fun i => Edge lay r d i ∧ ¬ Ev lay r i) m,
      Nat.count (Edge lay r d) m⟩ := by
  subst hz
  induction m with
  | zero => simp
  | succ m ih =>
    rw [List.range_succ, List.foldl_append, ih, List.foldl_cons, List.foldl_nil, Nat.count_succ, Nat.count_succ, Nat.count_succ]
    have e1 : (((lay.nodeinfo r).coord m (axis d) : ℕ) : ℤ) = edgeCoord lay d ↔ Edge lay r d m := by
      unfold Edge; exact Nat.cast_inj
    have e2 : ((lay.nodeinfo r).coord m).parity = .even ↔ Ev lay r m := Iff.rfl
    by_cases h1 : Edge lay r d m
    · rw [if_pos (e1.2 h1)]
      by_cases h2 : Ev lay r m
      · simp [h1, h2, e2.2 h2]
      · have : ((lay.nodeinfo r).coord m).parity ≠ .even := fun h => h2 (e2.1 h)
        simp [h1, h2, this]
    · rw [if_neg (fun h => h1 (e1.1 h))]
      simp [h1]

theorem specCount_eq (h : lay.WF) (r : ℕ) (d : Dir n) :
    specCount lay r d = if Needed lay r d then
      ⟨true, Nat.count (fun i => Edge lay r d i ∧ Ev lay r i) (lay.nodeinfo r).volume,
        Nat.count (fun i => Edge lay r d i ∧ ¬ Ev lay r i) (lay.nodeinfo r).volume,
        Nat.count (Edge lay r d) (lay.nodeinfo r).volume⟩
      else ⟨false, 0, 0, 0⟩ := by
  have hL := h.L_pos (axis d)
  have hmin : (lay.nodeinfo r).min = lay.boxMin r := by rw [nodeinfo_eq, ofBox_min]
  have hsize : (lay.nodeinfo r).size = lay.boxSize r := by rw [nodeinfo_eq, ofBox_size]
  unfold specCount
  simp only [hmin, hsize, axis_oppDir, isUp_oppDir]
  have hon := isOnEdge_iff lay r d
  cases hu : isUp d
  · rw [hu] at hon
    simp only [Bool.false_eq_true, if_false] at hon
    simp only [Bool.false_eq_true, false_and, if_false, Bool.not_false, true_and]
    by_cases h0 : lay.boxMin r (axis d) = 0
    · rw [if_pos h0]
      by_cases h1 : lay.ndiv (axis d) = 1
      · rw [if_pos (show Needed lay r d from ⟨hon.2 h0, h1⟩), if_pos ⟨by omega, h1⟩]
        exact specFold lay r d 0 (by unfold edgeCoord; rw [hu]; simp) _
      · rw [if_neg (fun hh => h1 hh.2), if_neg (fun hh => h1 hh.2)]
    · rw [if_neg h0, if_neg (fun hh => by omega), if_neg (fun hh => h0 (hon.1 hh.1))]
  · rw [hu] at hon
    simp only [if_true] at hon
    simp only [true_and, Bool.not_true, Bool.false_eq_true, false_and, if_false]
    by_cases h0 : lay.boxMin r (axis d) + lay.boxSize r (axis d) = lay.L (axis d)
    · rw [if_pos h0]
      by_cases h1 : lay.ndiv (axis d) = 1
      · rw [if_pos (show Needed lay r d from ⟨hon.2 h0, h1⟩), if_pos ⟨by omega, h1⟩]
        exact specFold lay r d _ (by unfold edgeCoord; rw [hu]; simp; omega) _
      · rw [if_neg (fun hh => h1 hh.2), if_neg (fun hh => h1 hh.2)]
    · rw [if_neg h0, if_neg (fun hh => by omega), if_neg (fun hh => h0 (hon.1 hh.1))]

/-- The loop of `setup_special_boundary_array`. -/
theorem specArrays_closed (r : ℕ) (d : Dir n) (m : ℕ) :
    let s := (List.range m).foldl (fun (s : SpecArrays) i =>
      if (lay.nodeinfo r).coord i (axis d) ≠ (if isUp d then lay.L (axis d) - 1 else 0) then
        { s with neighbours := Function.update s.neighbours i (neighb lay r d i) }
      else
        { neighbours := Function.update s.neighbours i s.offs
          moveIndex := Function.update s.moveIndex s.k (neighb lay r d i)
          offs := s.offs + 1
          k := s.k + 1 }) ⟨fun _ => 0, fun _ => 0, specOffset lay r d.val, 0⟩
    s.k = Nat.count (Edge lay r d) m ∧ s.offs = specOffset lay r d.val + Nat.count (Edge lay r d) m ∧
    (∀ i, i < m → s.neighbours i =
      if Edge lay r d i then specOffset lay r d.val + Nat.count (Edge lay r d) i else neighb lay r d i) ∧
    (∀ i, i < m → Edge lay r d i → s.moveIndex (Nat.count (Edge lay r d) i) = neighb lay r d i) := by
  induction m with
  | zero => simp
  | succ m ih =>
    rw [List.range_succ, List.foldl_append]
    obtain ⟨h1, h2, h3, h4⟩ := ih
    simp only [List.foldl_cons, List.foldl_nil]
    set s := (List.range m).foldl _ _ with hs
    have e1 : (lay.nodeinfo r).coord m (axis d) ≠ (if isUp d then lay.L (axis d) - 1 else 0) ↔ ¬ Edge lay r d m := Iff.rfl
    by_cases he : Edge lay r d m
    · rw [if_neg (fun hh => (e1.1 hh) he)]
      refine ⟨?_, ?_, fun i hi => ?_, fun i hi hE => ?_⟩
      · show s.k + 1 = _
        rw [h1, Nat.count_succ, if_pos he]
      · show s.offs + 1 = _
        rw [h2, Nat.count_succ, if_pos he]; omega
      · show Function.update s.neighbours m s.offs i = _
        by_cases him : i = m
        · subst him; rw [Function.update_self, if_pos he, h2]
        · rw [Function.update_of_ne him, h3 i (by omega)]
      · show Function.update s.moveIndex s.k (neighb lay r d m) _ = _
        by_cases him : i = m
        · subst him; rw [h1, Function.update_self]
        · have hlt : Nat.count (Edge lay r d) i < Nat.count (Edge lay r d) m := count_lt_of _ _ _ (by omega) hE
          rw [h1, Function.update_of_ne (by omega), h4 i (by omega) hE]
    · rw [if_pos (e1.2 he)]
      refine ⟨?_, ?_, fun i hi => ?_, fun i hi hE => ?_⟩
      · show s.k = _
        rw [h1, Nat.count_succ, if_neg he]; rfl
      · show s.offs = _
        rw [h2, Nat.count_succ, if_neg he]; rfl
      · show Function.update s.neighbours m _ i = _
        by_cases him : i = m
        · subst him; rw [Function.update_self, if_neg he]
        · rw [Function.update_of_ne him, h3 i (by omega)]
      · have him : i ≠ m := fun hh => he (hh ▸ hE)
        exact h4 i (by omega) hE

theorem specArrays_spec (r : ℕ) (d : Dir n) :
    (specArrays lay r d).k = Nat.count (Edge lay r d) (lay.nodeinfo r).volume ∧
    (∀ i, i < (lay.nodeinfo r).volume → (specArrays lay r d).neighbours i =
      if Edge lay r d i then specOffset lay r d.val + Nat.count (Edge lay r d) i else neighb lay r d i) ∧
    (∀ i, i < (lay.nodeinfo r).volume → Edge lay r d i →
      (specArrays lay r d).moveIndex (Nat.count (Edge lay r d) i) = neighb lay r d i) := by
  obtain ⟨h1, _, h3, h4⟩ := specArrays_closed lay r d (lay.nodeinfo r).volume
  exact ⟨h1, h3, h4⟩

theorem specOffset_succ (r : ℕ) (d : Dir n) :
    specOffset lay r (d.val + 1) = specOffset lay r d.val + (specCount lay r d).nTotal := by
  rw [specOffset, dif_pos d.isLt]

theorem specOffset_mono (r a b : ℕ) (hab : a ≤ b) : specOffset lay r a ≤ specOffset lay r b := by
  induction b with
  | zero => rw [Nat.le_zero.1 hab]
  | succ b ih =>
    rcases Nat.eq_or_lt_of_le hab with hh | hh
    · rw [hh]
    · refine le_trans (ih (by omega)) ?_
      rw [specOffset]; split <;> omega

theorem specOffset_ge (r k : ℕ) : fieldAllocSize lay r ≤ specOffset lay r k := specOffset_mono lay r 0 k (by omega)

theorem volume_le_alloc (r : ℕ) : (lay.nodeinfo r).volume ≤ fieldAllocSize lay r := cOffset_ge lay r _

theorem neighb_lt_alloc (r : ℕ) (d : Dir n) (i : ℕ) (hi : i < (lay.nodeinfo r).volume) :
    neighb lay r d i < fieldAllocSize lay r := by
  by_cases ho : Off lay r d i
  · exact (C04_halo_slots lay r d i hi ho).2.1
  · rw [neighb_spec lay r d i hi, if_neg ho]
    exact lt_of_lt_of_le (onIdx_lt lay r d i ho) (volume_le_alloc lay r)

/-- In an undivided direction all neighbours are on the node. -/
theorem undivided_on (h : lay.WF) (r : ℕ) (d : Dir n) (hd : lay.ndiv (axis d) = 1) (i : ℕ)
    (hi : i < (lay.nodeinfo r).volume) : ¬ Off lay r d i := by
  rw [off_iff, not_not]
  have hc := (coord_spec lay r i hi).1
  have hl := inBox_inLattice lay h r _ hc
  have hnl := neighbour_inLattice lay h _ hl d
  intro b
  rw [box_axis_iff lay h r _ b (hnl b)]
  by_cases hb : b = axis d
  · subst hb
    have h1 := (box_axis_iff lay h r _ (axis d) (hl _)).1 (hc (axis d))
    rw [← h1]
    unfold Layout.nodeCoord
    rw [hd, Nat.mul_one, Nat.mul_one, Nat.div_eq_of_lt (hnl _), Nat.div_eq_of_lt (hl _)]
  · rw [neighbour_eq lay h _ hl, ← (box_axis_iff lay h r _ b (hl _)).1 (hc b)]
    unfold Layout.nodeCoord
    rw [Function.update_of_ne hb]

/-- A step over the boundary of the lattice inside a node happens only in an undivided direction, on the node that has that edge. -/
theorem edge_on_needed (h : lay.WF) (hle : ∀ d, lay.ndiv d ≤ lay.L d) (r : ℕ) (d : Dir n) (i : ℕ)
    (hi : i < (lay.nodeinfo r).volume) (he : Edge lay r d i) (ho : ¬ Off lay r d i) : Needed lay r d := by
  rw [off_iff, not_not] at ho
  have hc := (coord_spec lay r i hi).1
  have hl := inBox_inLattice lay h r _ hc
  have hnl := neighbour_inLattice lay h _ hl d
  have hL := h.L_pos (axis d)
  have hnd := h.ndiv_pos (axis d)
  have hb := box_le lay h r (axis d)
  have hca := hc (axis d)
  have hoa := ho (axis d)
  have k1 := (box_axis_iff lay h r _ (axis d) (hl _)).1 hca
  have k2 := (box_axis_iff lay h r _ (axis d) (hnl _)).1 hoa
  rw [← k1] at k2
  rw [neighbour_eq lay h _ hl, Function.update_self] at hoa
  unfold Layout.nodeCoord at k2
  rw [neighbour_eq lay h _ hl, Function.update_self] at k2
  unfold Edge edgeCoord at he
  rw [he] at hoa k2 hca
  have hlast : (lay.L (axis d) - 1) * lay.ndiv (axis d) / lay.L (axis d) = lay.ndiv (axis d) - 1 := by
    rw [Nat.div_eq_of_lt_le]
    · have := hle (axis d)
      obtain ⟨a, ha⟩ : ∃ a, lay.ndiv (axis d) = a + 1 := ⟨lay.ndiv (axis d) - 1, by omega⟩
      obtain ⟨l, hl'⟩ : ∃ l, lay.L (axis d) = l + 1 := ⟨lay.L (axis d) - 1, by omega⟩
      rw [ha, hl'] at this ⊢
      simp only [Nat.add_sub_cancel]
      nlinarith
    · obtain ⟨a, ha⟩ : ∃ a, lay.ndiv (axis d) = a + 1 := ⟨lay.ndiv (axis d) - 1, by omega⟩
      obtain ⟨l, hl'⟩ : ∃ l, lay.L (axis d) = l + 1 := ⟨lay.L (axis d) - 1, by omega⟩
      rw [ha, hl']
      simp only [Nat.add_sub_cancel]
      nlinarith
  unfold Needed
  rw [isOnEdge_iff]
  cases hu : isUp d
  · simp only [hu, Bool.false_eq_true, if_false] at hca hoa k2 ⊢
    rw [pstep_down _ _ hL, if_pos rfl] at hoa k2
    rw [hlast] at k2
    simp only [Nat.zero_mul, Nat.zero_div] at k2
    exact ⟨by omega, by omega⟩
  · simp only [hu, if_true] at hca hoa k2 ⊢
    rw [pstep_up _ _ (by omega), if_pos (by omega)] at hoa k2
    rw [hlast] at k2
    simp only [Nat.zero_mul, Nat.zero_div] at k2
    exact ⟨by omega, by omega⟩

/-- Off-node step: the sender has the opposite edge iff the step crosses the boundary of the lattice. -/
theorem off_edge_iff (h : lay.WF) (r : ℕ) (hr : r < lay.numNodes) (d : Dir n) (i : ℕ) (hi : i < (lay.nodeinfo r).volume)
    (ho : Off lay r d i) :
    isOnEdge lay (lay.nodeRank (lay.neighbour ((lay.nodeinfo r).coord i) d)) (oppDir d) = true ↔ Edge lay r d i := by
  have hc := (coord_spec lay r i hi).1
  have hl := inBox_inLattice lay h r _ hc
  have hnl := neighbour_inLattice lay h _ hl d
  rw [off_iff] at ho
  have hp := off_partner lay h r hr _ d hc ho
  set c := (lay.nodeinfo r).coord i with hcdef
  set s := lay.nodeRank (lay.neighbour c d) with hs
  have hbs := box_nodeRank lay h _ hnl
  rw [← hs] at hbs
  have hp2 := off_axis lay h s _ (oppDir d) hbs hp
  have hbl := box_le lay h s (axis d)
  have hba := hbs (axis d)
  rw [isOnEdge_iff, axis_oppDir, isUp_oppDir]
  rw [axis_oppDir, isUp_oppDir, neighbour_eq lay h c hl, Function.update_self] at hp2
  rw [neighbour_eq lay h c hl, Function.update_self] at hba
  rw [pstep_back _ _ _ (hl _)] at hp2
  have hlc := hl (axis d)
  unfold Edge edgeCoord
  rw [← hcdef]
  cases hu : isUp d
  · simp only [hu, Bool.not_false, if_true, Bool.false_eq_true, if_false] at hp2 hba ⊢
    rw [pstep_down _ _ hlc] at hba
    split at hba <;> omega
  · simp only [hu, Bool.not_true, Bool.false_eq_true, if_false, if_true] at hp2 hba ⊢
    rw [pstep_up _ _ hlc] at hba
    split at hba <;> omega

/-- Off-node step from a node with the edge: it crosses the boundary. -/
theorem off_onEdge (h : lay.WF) (r : ℕ) (d : Dir n) (i : ℕ) (hi : i < (lay.nodeinfo r).volume)
    (ho : Off lay r d i) (he : isOnEdge lay r d = true) : Edge lay r d i := by
  have hc := (coord_spec lay r i hi).1
  have hl := inBox_inLattice lay h r _ hc
  rw [off_iff] at ho
  have hp := off_axis lay h r _ d hc ho
  have hca := hc (axis d)
  have hlc := hl (axis d)
  rw [isOnEdge_iff] at he
  unfold Edge edgeCoord
  cases hu : isUp d
  · simp only [hu, Bool.false_eq_true, if_false] at hp he ⊢
    rw [pstep_down _ _ hlc] at hp
    split at hp <;> omega
  · simp only [hu, if_true] at hp he ⊢
    rw [pstep_up _ _ hlc] at hp
    split at hp <;> omega

/-- A boundary site makes its node have the edge. -/
theorem edge_onEdge (h : lay.WF) (r : ℕ) (d : Dir n) (i : ℕ) (hi : i < (lay.nodeinfo r).volume)
    (he : Edge lay r d i) : isOnEdge lay r d = true := by
  have hc := (coord_spec lay r i hi).1 (axis d)
  have hb := box_le lay h r (axis d)
  have hL := h.L_pos (axis d)
  rw [isOnEdge_iff]
  unfold Edge edgeCoord at he
  cases hu : isUp d
  · simp only [hu, Bool.false_eq_true, if_false] at he ⊢; omega
  · simp only [hu, if_true] at he ⊢; omega

theorem ev_lt_iff (r i : ℕ) (hi : i < (lay.nodeinfo r).volume) : Ev lay r i ↔ i < (lay.nodeinfo r).evensites := by
  obtain ⟨h1, h2⟩ := coord_spec lay r i hi
  rw [ev_iff]
  have := siteIndex_lt_even_iff (lay.boxMin r) (lay.boxSize r) _ h1
  rw [← nodeinfo_eq, h2] at this
  exact this.symm

/-- Position of a boundary site in the special slots: even sites first. -/
theorem count_edge_even (r : ℕ) (d : Dir n) (i : ℕ) (hi : i < (lay.nodeinfo r).volume) (he : Edge lay r d i) :
    (Ev lay r i → Nat.count (Edge lay r d) i < Nat.count (fun j => Edge lay r d j ∧ Ev lay r j) (lay.nodeinfo r).volume) ∧
    (¬ Ev lay r i → Nat.count (fun j => Edge lay r d j ∧ Ev lay r j) (lay.nodeinfo r).volume ≤ Nat.count (Edge lay r d) i) ∧
    Nat.count (Edge lay r d) i < Nat.count (Edge lay r d) (lay.nodeinfo r).volume := by
  refine ⟨fun hE => ?_, fun hE => ?_, count_lt_of _ _ _ hi he⟩
  · have h1 : Nat.count (Edge lay r d) i = Nat.count (fun j => Edge lay r d j ∧ Ev lay r j) i := by
      rw [Nat.count_eq_card_filter_range, Nat.count_eq_card_filter_range]
      congr 1
      apply Finset.filter_congr
      intro j hj
      rw [Finset.mem_range] at hj
      have := (ev_lt_iff lay r i hi).1 hE
      simp only [(ev_lt_iff lay r j (by omega)).2 (by omega), and_true]
    rw [h1]
    exact count_lt_of _ _ _ hi ⟨he, hE⟩
  · rw [Nat.count_eq_card_filter_range, Nat.count_eq_card_filter_range]
    apply Finset.card_le_card
    intro j hj
    rw [Finset.mem_filter, Finset.mem_range] at hj ⊢
    obtain ⟨j1, j2, j3⟩ := hj
    have k1 := (ev_lt_iff lay r j j1).1 j3
    have k2 : ¬ i < (lay.nodeinfo r).evensites := fun hh => hE ((ev_lt_iff lay r i hi).2 hh)
    exact ⟨by omega, j2⟩

section
variable {V : Type} [Neg V]

/-- The loop of `gather_elements_negated` into the special slots. -/
theorem negLoop (m : Mem V) (base vol : ℕ) (idx : ℕ → ℕ) (hvol : vol ≤ base) (cnt : ℕ) (hidx : ∀ j, j < cnt → idx j < vol) :
    (List.range cnt).foldl (fun m j => Function.update m (base + j) (-(m (idx j)))) m =
      fun p => if base ≤ p ∧ p < base + cnt then -(m (idx (p - base))) else m p := by
  induction cnt with
  | zero => funext p; simp only [List.range_zero, List.foldl_nil]; rw [if_neg (by omega)]
  | succ k ih =>
    rw [List.range_succ, List.foldl_append, ih (fun j hj => hidx j (by omega)), List.foldl_cons, List.foldl_nil]
    funext p
    have hk := hidx k (by omega)
    by_cases hp : p = base + k
    · subst hp
      rw [Function.update_self]
      beta_reduce
      rw [if_neg (by omega), if_pos (by omega), Nat.add_sub_cancel_left]
    · rw [Function.update_of_ne hp]
      by_cases hq : base ≤ p ∧ p < base + k
      · rw [if_pos hq, if_pos (by omega)]
      · rw [if_neg hq, if_neg (by omega)]

end

end Hila
