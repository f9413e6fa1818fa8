import Verif.Lemmas.Gather

/-! Consequences of the closed forms used by the halo exchange theorems. -/

namespace Hila

theorem count_surj (P : ℕ → Prop) [DecidablePred P] (m k : ℕ) (hk : k < Nat.count P m) :
    ∃ i, i < m ∧ P i ∧ Nat.count P i = k := by
  induction m with
  | zero => simp at hk
  | succ m ih =>
    rw [Nat.count_succ] at hk
    by_cases hlt : k < Nat.count P m
    · obtain ⟨i, h1, h2⟩ := ih hlt
      exact ⟨i, by omega, h2⟩
    · by_cases hp : P m
      · simp only [if_pos hp] at hk; exact ⟨m, by omega, hp, by omega⟩
      · simp only [if_neg hp] at hk; omega

theorem count_lt_of (P : ℕ → Prop) [DecidablePred P] (m i : ℕ) (hi : i < m) (hp : P i) :
    Nat.count P i < Nat.count P m := Nat.count_strict_mono hp hi

theorem count_inj_of (P : ℕ → Prop) [DecidablePred P] (i j : ℕ) (hi : P i) (hj : P j)
    (h : Nat.count P i = Nat.count P j) : i = j := Nat.count_injective hi hj h

section
variable {n : ℕ} (lay : Layout n)

/-- A rank expects a message in direction `d` exactly if it has off-node neighbours there. -/
theorem fromNode_rank_iff (h : lay.WF) (r : ℕ) (hr : r < lay.numNodes) (d : Dir n) :
    (pass1 lay r d).rank ≠ r ↔ ∃ i, i < (lay.nodeinfo r).volume ∧ Off lay r d i := by
  constructor
  · intro hne
    by_contra hcon
    push Not at hcon
    exact hne (pass1_rank_none lay r d hcon)
  · rintro ⟨i, hi, ho⟩
    rw [pass1_rank lay h r hr d i hi ho]
    exact (link lay h r hr d i hi ho _ rfl).2.1

/-- The partner in direction `d` has `r` as its partner in the opposite direction, with the same
numbers of sites. -/
theorem partner_spec (h : lay.WF) (r : ℕ) (hr : r < lay.numNodes) (d : Dir n)
    (hne : (pass1 lay r d).rank ≠ r) :
    let S := (pass1 lay r d).rank
    S < lay.numNodes ∧ (pass1 lay S (oppDir d)).rank = r ∧
    (pass1 lay r d).fromEven = (pass1 lay S (oppDir d)).toEven ∧
    (pass1 lay r d).fromOdd = (pass1 lay S (oppDir d)).toOdd ∧
    (pass1 lay r d).toEven = (pass1 lay S (oppDir d)).fromEven ∧
    (pass1 lay r d).toOdd = (pass1 lay S (oppDir d)).fromOdd := by
  intro S
  obtain ⟨i, hi, ho⟩ := (fromNode_rank_iff lay h r hr d).1 hne
  have hS : S = _ := pass1_rank lay h r hr d i hi ho
  obtain ⟨h1, h2, h3, h4, h5, h6, h7, h8, h9⟩ := link lay h r hr d i hi ho S hS
  obtain ⟨s1, s2, s3, s4⟩ := pass1_spec lay r d
  obtain ⟨t1, t2, t3, t4⟩ := pass1_spec lay S (oppDir d)
  have c1 := counts_match lay h r hr d i hi ho S hS
  have c2 := counts_match lay h S h1 (oppDir d) _ h3 h5 r h8.symm
  rw [oppDir_oppDir] at c2
  refine ⟨h1, ?_, ?_, ?_, ?_, ?_⟩
  · rw [pass1_rank lay h S h1 (oppDir d) _ h3 h5]; exact h8
  · rw [s1, t3]; exact c1.1.1
  · rw [s2, t4]; exact c1.2.1
  · rw [s3, t1]; exact c2.1.1.symm
  · rw [s4, t2]; exact c2.2.1.symm

/-- Position of an off-node slot inside the halo of direction `d`. -/
def haloPos (r : ℕ) (d : Dir n) (i : ℕ) : ℕ :=
  if Ev lay r i then cFE lay r d i else cFE lay r d (lay.nodeinfo r).volume + cFO lay r d i

theorem neighb_off (r : ℕ) (d : Dir n) (i : ℕ) (hi : i < (lay.nodeinfo r).volume)
    (ho : Off lay r d i) : neighb lay r d i = cOffset lay r d.val + haloPos lay r d i := by
  rw [neighb_spec lay r d i hi, if_pos ho]; unfold haloPos; split <;> omega

theorem haloPos_even (r : ℕ) (d : Dir n) (i : ℕ) (hi : i < (lay.nodeinfo r).volume)
    (ho : Off lay r d i) (he : Ev lay r i) : haloPos lay r d i < (pass1 lay r d).fromEven := by
  rw [(pass1_spec lay r d).1]; unfold haloPos; rw [if_pos he]
  exact count_lt_of _ _ _ hi ⟨ho, he⟩

theorem haloPos_odd (r : ℕ) (d : Dir n) (i : ℕ) (hi : i < (lay.nodeinfo r).volume)
    (ho : Off lay r d i) (he : ¬ Ev lay r i) : (pass1 lay r d).fromEven ≤ haloPos lay r d i ∧
      haloPos lay r d i < (pass1 lay r d).fromEven + (pass1 lay r d).fromOdd := by
  rw [(pass1_spec lay r d).1, (pass1_spec lay r d).2.1]; unfold haloPos; rw [if_neg he]
  have : cFO lay r d i < cFO lay r d (lay.nodeinfo r).volume := count_lt_of _ _ _ hi ⟨ho, he⟩
  omega

theorem haloPos_lt (r : ℕ) (d : Dir n) (i : ℕ) (hi : i < (lay.nodeinfo r).volume)
    (ho : Off lay r d i) :
    haloPos lay r d i < (pass1 lay r d).fromEven + (pass1 lay r d).fromOdd := by
  by_cases he : Ev lay r i
  · have := haloPos_even lay r d i hi ho he; omega
  · exact (haloPos_odd lay r d i hi ho he).2

theorem haloPos_inj (r : ℕ) (d : Dir n) (i j : ℕ) (hi : i < (lay.nodeinfo r).volume)
    (hj : j < (lay.nodeinfo r).volume) (ho : Off lay r d i) (ho' : Off lay r d j)
    (h : haloPos lay r d i = haloPos lay r d j) : i = j := by
  by_cases he : Ev lay r i <;> by_cases he' : Ev lay r j
  · unfold haloPos at h; rw [if_pos he, if_pos he'] at h
    exact count_inj_of _ i j ⟨ho, he⟩ ⟨ho', he'⟩ h
  · have := haloPos_even lay r d i hi ho he; have := haloPos_odd lay r d j hj ho' he'; omega
  · have := haloPos_odd lay r d i hi ho he; have := haloPos_even lay r d j hj ho' he'; omega
  · unfold haloPos at h; rw [if_neg he, if_neg he'] at h
    exact count_inj_of (fun i => Off lay r d i ∧ ¬ Ev lay r i) i j ⟨ho, he⟩ ⟨ho', he'⟩
      (Nat.add_left_cancel h)

/-- The partner's list of sites to send holds, at the halo position of slot `i`, the slot of the
neighbour of `i`. -/
theorem sitelist_haloPos (h : lay.WF) (r : ℕ) (hr : r < lay.numNodes) (d : Dir n) (i : ℕ)
    (hi : i < (lay.nodeinfo r).volume) (ho : Off lay r d i) :
    (toNode lay (pass1 lay r d).rank d).sitelist (haloPos lay r d i) = partnerSlot lay r d i := by
  have hS := pass1_rank lay h r hr d i hi ho
  obtain ⟨h1, h2, h3, h4, h5, h6, h7, h8, h9⟩ := link lay h r hr d i hi ho _ hS
  have c := counts_match lay h r hr d i hi ho _ hS
  have hsl := sitelist_spec lay _ (oppDir d) _ h3 h5
  have hpos : haloPos lay r d i =
      (if NEv lay (pass1 lay r d).rank (oppDir d) (partnerSlot lay r d i) then
        cTE lay (pass1 lay r d).rank (oppDir d) (partnerSlot lay r d i)
      else cTO lay (pass1 lay r d).rank (oppDir d) (partnerSlot lay r d i) +
        cTE lay (pass1 lay r d).rank (oppDir d) (lay.nodeinfo (pass1 lay r d).rank).volume) := by
    unfold haloPos
    by_cases he : Ev lay r i
    · rw [if_pos he, if_pos (h6.2 he)]; exact c.1.2 i hi ⟨ho, he⟩
    · rw [if_neg he, if_neg (fun hh => he (h6.1 hh)), c.1.1, c.2.2 i hi ⟨ho, he⟩]; omega
  rw [← hpos] at hsl
  exact hsl

theorem cOffset_succ (r : ℕ) (d : Dir n) :
    cOffset lay r (d.val + 1) =
      cOffset lay r d.val + ((pass1 lay r d).fromEven + (pass1 lay r d).fromOdd) := by
  rw [cOffset]; simp

theorem cOffset_mono (r : ℕ) (a b : ℕ) (h : a ≤ b) : cOffset lay r a ≤ cOffset lay r b := by
  induction b, h using Nat.le_induction with
  | base => exact le_refl _
  | succ b _ ih =>
    apply le_trans ih
    conv_rhs => rw [cOffset]
    split
    · exact Nat.le_add_right _ _
    · exact le_refl _

theorem cOffset_ge (r : ℕ) (a : ℕ) : (lay.nodeinfo r).volume ≤ cOffset lay r a :=
  cOffset_mono lay r 0 a (Nat.zero_le _)

/-- Every entry of the send list below the number of sites is the slot of a face site. -/
theorem sitelist_entry (s : ℕ) (d : Dir n) (k : ℕ)
    (hk : k < (pass1 lay s d).toEven + (pass1 lay s d).toOdd) :
    ∃ i, i < (lay.nodeinfo s).volume ∧ Off lay s d i ∧
      (pass2 lay s d (cOffset lay s d.val)).sitelist k = i ∧
      (k < (pass1 lay s d).toEven ↔ NEv lay s d i) := by
  obtain ⟨s1, s2, s3, s4⟩ := pass1_spec lay s d
  by_cases hlt : k < (pass1 lay s d).toEven
  · rw [s3] at hlt
    obtain ⟨i, hi, ⟨ho, hn⟩, hc⟩ := count_surj _ _ _ hlt
    have := sitelist_spec lay s d i hi ho
    rw [if_pos hn] at this
    refine ⟨i, hi, ho, by rw [← hc]; exact this, ?_⟩
    rw [s3]; exact iff_of_true hlt hn
  · have hk' : k - cTE lay s d (lay.nodeinfo s).volume < cTO lay s d (lay.nodeinfo s).volume := by
      rw [s3] at hlt; rw [s3, s4] at hk; omega
    obtain ⟨i, hi, ⟨ho, hn⟩, hc⟩ := count_surj _ _ _ hk'
    have := sitelist_spec lay s d i hi ho
    rw [if_neg hn] at this
    refine ⟨i, hi, ho, ?_, iff_of_false hlt hn⟩
    rw [s3] at hlt
    rw [show k = cTO lay s d i + cTE lay s d (lay.nodeinfo s).volume by
      have : cTO lay s d i = k - cTE lay s d (lay.nodeinfo s).volume := hc
      omega]
    exact this

end

end Hila
