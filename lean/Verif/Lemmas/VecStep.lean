import Verif.Lemmas.VecIndex

/-! Steps to neighbours in the vector layout: lane and place in the subnode of the neighbour, boundary permutation. -/

namespace Hila

open BigOperators

/-- Last (first) place of a line of `S` sites. -/
def lastOf (up : Bool) (S : ℕ) : ℕ := if up then S - 1 else 0

theorem lastOf_lt (up : Bool) (S : ℕ) (hS : 0 < S) : lastOf up S < S := by unfold lastOf; split <;> omega

theorem pstep_lastOf (up : Bool) (S : ℕ) (hS : 0 < S) : pstep up S (lastOf up S) = lastOf (!up) S := by
  unfold lastOf
  cases up
  · simp only [Bool.false_eq_true, if_false, Bool.not_false, if_true]; rw [pstep_down _ _ hS, if_pos rfl]
  · simp only [if_true, Bool.not_true, Bool.false_eq_true, if_false]; rw [pstep_up _ _ (by omega), if_pos (by omega)]

theorem div_mod_of {S q ρ y : ℕ} (hρ : ρ < S) (hy : y = S * q + ρ) : y / S = q ∧ y % S = ρ := by
  subst hy
  have hS : 0 < S := by omega
  rw [Nat.mul_add_div hS, Nat.div_eq_of_lt hρ, Nat.mul_add_mod, Nat.mod_eq_of_lt hρ]
  exact ⟨rfl, rfl⟩

section OneD
variable {up : Bool} {L m S D x : ℕ}

theorem step_inside (hS : 0 < S) (hb : m + S * D ≤ L) (hx : m ≤ x ∧ x < m + S * D) (hne : (x - m) % S ≠ lastOf up S) :
    (m ≤ pstep up L x ∧ pstep up L x < m + S * D) ∧ (pstep up L x - m) / S = (x - m) / S ∧
      (pstep up L x - m) % S = if up then (x - m) % S + 1 else (x - m) % S - 1 := by
  have h1 := Nat.div_add_mod (x - m) S
  have h2 := Nat.mod_lt (x - m) hS
  set q := (x - m) / S
  set ρ := (x - m) % S
  have hq : q < D := by
    by_contra hh
    have := Nat.mul_le_mul_left S (Nat.le_of_not_lt hh)
    omega
  have h3 : S * q + S ≤ S * D := by
    have := Nat.mul_le_mul_left S hq
    simpa [Nat.mul_succ] using this
  unfold lastOf at hne
  cases up
  · simp only [Bool.false_eq_true, if_false] at hne ⊢
    rw [pstep_down _ _ (by omega), if_neg (by omega)]
    have := div_mod_of (S := S) (q := q) (ρ := ρ - 1) (y := x - 1 - m) (by omega) (by omega)
    exact ⟨⟨by omega, by omega⟩, this⟩
  · simp only [if_true] at hne ⊢
    rw [pstep_up _ _ (by omega), if_neg (by omega)]
    have := div_mod_of (S := S) (q := q) (ρ := ρ + 1) (y := x + 1 - m) (by omega) (by omega)
    exact ⟨⟨by omega, by omega⟩, this⟩

theorem step_edge_on (hS : 0 < S) (hb : m + S * D ≤ L) (hx : m ≤ x ∧ x < m + S * D) (he : (x - m) % S = lastOf up S)
    (hy : m ≤ pstep up L x ∧ pstep up L x < m + S * D) :
    (pstep up L x - m) / S = pstep up D ((x - m) / S) ∧ (pstep up L x - m) % S = lastOf (!up) S := by
  have h1 := Nat.div_add_mod (x - m) S
  have hq : (x - m) / S < D := by
    rw [Nat.div_lt_iff_lt_mul hS, mul_comm]; omega
  rw [he] at h1
  set q := (x - m) / S
  have h3 : S * q + S ≤ S * D := by
    have := Nat.mul_le_mul_left S hq
    simpa [Nat.mul_succ] using this
  unfold lastOf at h1 ⊢
  cases up
  · simp only [Bool.false_eq_true, if_false, Bool.not_false, if_true] at h1 ⊢
    rw [pstep_down _ _ (by omega)] at hy ⊢
    rw [pstep_down _ _ hq]
    by_cases h0 : x = 0
    · rw [if_pos h0] at hy ⊢
      have hq0 : S * q = 0 := by omega
      have hq0 : q = 0 := by
        rcases Nat.mul_eq_zero.1 hq0 with hh | hh
        · omega
        · exact hh
      rw [if_pos hq0]
      have e : S * D = S * (D - 1) + S := by
        obtain ⟨k, hk⟩ : ∃ k, D = k + 1 := ⟨D - 1, by omega⟩
        rw [hk]; simp [Nat.mul_succ]
      exact div_mod_of (by omega) (by omega)
    · rw [if_neg h0] at hy ⊢
      have hqp : 0 < q := by
        rcases Nat.eq_zero_or_pos q with hh | hh
        · rw [hh] at h1; omega
        · exact hh
      rw [if_neg (by omega)]
      have e : S * q = S * (q - 1) + S := by
        obtain ⟨k, hk⟩ : ∃ k, q = k + 1 := ⟨q - 1, by omega⟩
        rw [hk]; simp [Nat.mul_succ]
      exact div_mod_of (by omega) (by omega)
  · simp only [if_true, Bool.not_true, Bool.false_eq_true, if_false] at h1 ⊢
    rw [pstep_up _ _ (by omega)] at hy ⊢
    rw [pstep_up _ _ hq]
    by_cases h0 : x + 1 = L
    · rw [if_pos h0] at hy ⊢
      have e1 : S * q + S = S * D := by omega
      have e2 : q + 1 = D := Nat.eq_of_mul_eq_mul_left hS (by rw [← e1]; ring)
      rw [if_pos e2]
      exact div_mod_of hS (by omega)
    · rw [if_neg h0] at hy ⊢
      have hne : q + 1 ≠ D := by
        intro hh
        have : S * D = S * q + S := by rw [← hh]; ring
        omega
      rw [if_neg hne]
      exact div_mod_of hS (by rw [Nat.mul_add, mul_one]; omega)

theorem step_off (hS : 0 < S) (hb : m + S * D ≤ L) (hx : m ≤ x ∧ x < m + S * D)
    (hy : ¬ (m ≤ pstep up L x ∧ pstep up L x < m + S * D)) : (x - m) % S = lastOf up S ∧ (x - m) / S = lastOf up D := by
  have hD : 0 < D := by
    rcases Nat.eq_zero_or_pos D with hh | hh
    · rw [hh] at hx; omega
    · exact hh
  have e : S * D = S * (D - 1) + S := by
    obtain ⟨k, hk⟩ : ∃ k, D = k + 1 := ⟨D - 1, by omega⟩
    rw [hk]; simp [Nat.mul_succ]
  unfold lastOf
  rw [and_comm]
  cases up
  · simp only [Bool.false_eq_true, if_false]
    rw [pstep_down _ _ (by omega)] at hy
    refine div_mod_of hS ?_
    split at hy <;> omega
  · simp only [if_true]
    rw [pstep_up _ _ (by omega)] at hy
    refine div_mod_of (by omega) ?_
    split at hy <;> omega

end OneD

/-- Conditions under which the vector layout is used: a division of the lattice with no empty nodes, and subnodes on every node as `SubOK` says. -/
structure VecOK {n : ℕ} (lay : Layout n) (sd : SubDiv n) : Prop where
  wf : lay.WF
  le : ∀ d, lay.ndiv d ≤ lay.L d
  sub : ∀ r, r < lay.numNodes → SubOK (lay.boxSize r) sd

section Step
variable {n : ℕ} {lay : Layout n} {sd : SubDiv n} (dbl : Bool)

/-- Subnode and place on rank `r`. -/
abbrev rQ (lay : Layout n) (sd : SubDiv n) (dbl : Bool) (r : ℕ) (c : Site n) : Site n := vQ (lay.boxMin r) (lay.boxSize r) sd dbl c

abbrev rR (lay : Layout n) (sd : SubDiv n) (dbl : Bool) (r : ℕ) (c : Site n) : Site n := vR (lay.boxMin r) (lay.boxSize r) sd dbl c

abbrev rS (lay : Layout n) (sd : SubDiv n) (dbl : Bool) (r : ℕ) : Site n := vSub (lay.boxSize r) sd dbl

/-- `c` is at the boundary of its subnode in direction `d`. -/
def EdgeV (lay : Layout n) (sd : SubDiv n) (dbl : Bool) (r : ℕ) (d : Dir n) (c : Site n) : Prop :=
  rR lay sd dbl r c (axis d) = lastOf (isUp d) (rS lay sd dbl r (axis d))

instance (r : ℕ) (d : Dir n) : DecidablePred (EdgeV lay sd dbl r d) := fun c => by unfold EdgeV; infer_instance

/-- The subnode of the neighbour of a site at the boundary of its subnode. -/
def shiftQ (sd : SubDiv n) (dbl : Bool) (d : Dir n) (q : Site n) : Site n :=
  Function.update q (axis d) (pstep (isUp d) (sd.subdivisions dbl (axis d)) (q (axis d)))

variable (h : VecOK lay sd)
include h

theorem box_mul (r : ℕ) (hr : r < lay.numNodes) (b : Fin n) : rS lay sd dbl r b * sd.subdivisions dbl b = lay.boxSize r b := (h.sub r hr).vSub_mul dbl b

/-- Other directions are not affected by the step. -/
theorem step_other (r : ℕ) (c : Site n) (d : Dir n) (hc : BoxOf lay r c) (b : Fin n) (hb : b ≠ axis d) :
    rQ lay sd dbl (lay.nodeRank (lay.neighbour c d)) (lay.neighbour c d) b = rQ lay sd dbl r c b ∧
    rR lay sd dbl (lay.nodeRank (lay.neighbour c d)) (lay.neighbour c d) b = rR lay sd dbl r c b ∧
    rS lay sd dbl (lay.nodeRank (lay.neighbour c d)) b = rS lay sd dbl r b := by
  have hl := inBox_inLattice lay h.wf r c hc
  obtain ⟨h1, h2⟩ := partner_box lay h.wf r c d hc b hb
  have e : lay.neighbour c d b = c b := by rw [neighbour_eq lay h.wf c hl, Function.update_of_ne hb]
  have hS : rS lay sd dbl (lay.nodeRank (lay.neighbour c d)) b = rS lay sd dbl r b := by
    show vSub _ sd dbl b = vSub _ sd dbl b
    unfold vSub
    cases dbl
    · simp only [Bool.false_eq_true, if_false, subSz, h2]
    · simp only [if_true]
      by_cases hm : b = sd.mdir
      · subst hm; simp only [Function.update_self, subSz, h2]
      · simp only [Function.update_of_ne hm, subSz, h2]
  refine ⟨?_, ?_, hS⟩
  · show (lay.neighbour c d b - lay.boxMin _ b) / rS lay sd dbl _ b = _
    rw [e, h1, hS]; rfl
  · show (lay.neighbour c d b - lay.boxMin _ b) % rS lay sd dbl _ b = _
    rw [e, h1, hS]; rfl

/-- Inside a subnode. -/
theorem step_in (r : ℕ) (hr : r < lay.numNodes) (c : Site n) (d : Dir n) (hc : BoxOf lay r c) (he : ¬ EdgeV lay sd dbl r d c) :
    BoxOf lay r (lay.neighbour c d) ∧ rQ lay sd dbl r (lay.neighbour c d) = rQ lay sd dbl r c ∧
      rR lay sd dbl r (lay.neighbour c d) =
        Function.update (rR lay sd dbl r c) (axis d) (if isUp d then rR lay sd dbl r c (axis d) + 1 else rR lay sd dbl r c (axis d) - 1) := by
  have hl := inBox_inLattice lay h.wf r c hc
  have hS := (h.sub r hr).vSub_pos dbl (axis d)
  have hm := box_mul dbl h r hr (axis d)
  have hle := box_le lay h.wf r (axis d)
  have hca := hc (axis d)
  rw [← hm] at hle hca
  obtain ⟨h1, h2, h3⟩ := step_inside (up := isUp d) hS hle hca he
  have eA : lay.neighbour c d (axis d) = pstep (isUp d) (lay.L (axis d)) (c (axis d)) := by rw [neighbour_eq lay h.wf c hl, Function.update_self]
  have eO : ∀ b, b ≠ axis d → lay.neighbour c d b = c b := fun b hb => by rw [neighbour_eq lay h.wf c hl, Function.update_of_ne hb]
  refine ⟨fun b => ?_, funext fun b => ?_, funext fun b => ?_⟩
  · by_cases hb : b = axis d
    · subst hb; rw [eA, ← hm]; exact h1
    · rw [eO b hb]; exact hc b
  · show (lay.neighbour c d b - _) / _ = (c b - _) / _
    by_cases hb : b = axis d
    · subst hb; rw [eA]; exact h2
    · rw [eO b hb]
  · show (lay.neighbour c d b - _) % _ = _
    by_cases hb : b = axis d
    · subst hb; rw [eA, Function.update_self]; exact h3
    · rw [eO b hb, Function.update_of_ne hb]; rfl

/-- A step that leaves the node starts at the boundary of the last subnode. -/
theorem step_leave (r : ℕ) (hr : r < lay.numNodes) (c : Site n) (d : Dir n) (hc : BoxOf lay r c) (ho : ¬ BoxOf lay r (lay.neighbour c d)) :
    EdgeV lay sd dbl r d c ∧ rQ lay sd dbl r c (axis d) = lastOf (isUp d) (sd.subdivisions dbl (axis d)) := by
  have hS := (h.sub r hr).vSub_pos dbl (axis d)
  have hm := box_mul dbl h r hr (axis d)
  have hle := box_le lay h.wf r (axis d)
  have hca := hc (axis d)
  have ho' := off_axis lay h.wf r c d hc ho
  rw [← hm] at hle hca ho'
  exact step_off hS hle hca ho'

/-- Over the boundary of a subnode. -/
theorem step_edge (r : ℕ) (hr : r < lay.numNodes) (c : Site n) (d : Dir n) (hc : BoxOf lay r c) (he : EdgeV lay sd dbl r d c) :
    rQ lay sd dbl (lay.nodeRank (lay.neighbour c d)) (lay.neighbour c d) = shiftQ sd dbl d (rQ lay sd dbl r c) ∧
    rR lay sd dbl (lay.nodeRank (lay.neighbour c d)) (lay.neighbour c d) =
      Function.update (rR lay sd dbl r c) (axis d) (lastOf (!isUp d) (rS lay sd dbl (lay.nodeRank (lay.neighbour c d)) (axis d))) := by
  have hl := inBox_inLattice lay h.wf r c hc
  have hnl := neighbour_inLattice lay h.wf c hl d
  have key : rQ lay sd dbl (lay.nodeRank (lay.neighbour c d)) (lay.neighbour c d) (axis d) =
        pstep (isUp d) (sd.subdivisions dbl (axis d)) (rQ lay sd dbl r c (axis d)) ∧
      rR lay sd dbl (lay.nodeRank (lay.neighbour c d)) (lay.neighbour c d) (axis d) =
        lastOf (!isUp d) (rS lay sd dbl (lay.nodeRank (lay.neighbour c d)) (axis d)) := by
    by_cases ho : BoxOf lay r (lay.neighbour c d)
    · have e := (inBox_iff_nodeRank lay h.wf r hr _ hnl).1 ho
      rw [e]
      have hS := (h.sub r hr).vSub_pos dbl (axis d)
      have hm := box_mul dbl h r hr (axis d)
      have hle := box_le lay h.wf r (axis d)
      have hca := hc (axis d)
      have eA : lay.neighbour c d (axis d) = pstep (isUp d) (lay.L (axis d)) (c (axis d)) := by
        rw [neighbour_eq lay h.wf c hl, Function.update_self]
      have hoa := ho (axis d)
      rw [eA] at hoa
      rw [← hm] at hle hca hoa
      have := step_edge_on hS hle hca he hoa
      show (lay.neighbour c d (axis d) - _) / _ = _ ∧ (lay.neighbour c d (axis d) - _) % _ = _
      rw [eA]; exact this
    · have hl1 := step_leave dbl h r hr c d hc ho
      have hp := off_partner lay h.wf r hr c d hc ho
      have hs := nodeRank_lt lay h.wf _ hnl
      have hb := box_nodeRank lay h.wf _ hnl
      have hl2 := step_leave dbl h _ hs _ (oppDir d) hb hp
      unfold EdgeV at hl2
      rw [axis_oppDir, isUp_oppDir] at hl2
      rw [hl1.2, pstep_lastOf _ _ ((h.sub r hr).subdiv_pos dbl _)]
      exact ⟨hl2.2, hl2.1⟩
  refine ⟨funext fun b => ?_, funext fun b => ?_⟩
  · unfold shiftQ
    by_cases hb : b = axis d
    · subst hb; rw [Function.update_self]; exact key.1
    · rw [Function.update_of_ne hb]; exact (step_other dbl h r c d hc b hb).1
  · by_cases hb : b = axis d
    · subst hb; rw [Function.update_self]; exact key.2
    · rw [Function.update_of_ne hb]; exact (step_other dbl h r c d hc b hb).2.1

omit h in
theorem shiftQ_lt (hD : ∀ d, 0 < sd.subdivisions dbl d) (d : Dir n) {q : Site n} (hq : ∀ b, q b < sd.subdivisions dbl b) (b : Fin n) :
    shiftQ sd dbl d q b < sd.subdivisions dbl b := by
  unfold shiftQ
  by_cases hb : b = axis d
  · subst hb; rw [Function.update_self]; exact pstep_lt _ _ _ (hD _)
  · rw [Function.update_of_ne hb]; exact hq b

omit h in
theorem shiftQ_back (d : Dir n) {q : Site n} (hq : ∀ b, q b < sd.subdivisions dbl b) :
    shiftQ sd dbl (oppDir d) (shiftQ sd dbl d q) = q := by
  unfold shiftQ
  rw [axis_oppDir, isUp_oppDir, Function.update_self, Function.update_idem, pstep_back _ _ _ (hq _), Function.update_eq_self]

/-! ### Lanes of neighbours -/

theorem rank_index (r : ℕ) (hr : r < lay.numNodes) {c : Site n} (hc : BoxOf lay r c) :
    (lay.nodeinfo r).siteIndexSub sd c % sd.vecSize dbl = vLane sd dbl (rQ lay sd dbl r c) := (index_mod (h.sub r hr) dbl hc).1

theorem rank_coord (r : ℕ) (hr : r < lay.numNodes) {c : Site n} (hc : BoxOf lay r c) :
    (lay.nodeinfo r).coordSub sd ((lay.nodeinfo r).siteIndexSub sd c) = c := coordSub_index (h.sub r hr) hc

theorem rank_index_lt (r : ℕ) (hr : r < lay.numNodes) {c : Site n} (hc : BoxOf lay r c) :
    (lay.nodeinfo r).siteIndexSub sd c < (lay.nodeinfo r).volume := index_lt (h.sub r hr) hc

theorem rank_spec (r : ℕ) (hr : r < lay.numNodes) (i : ℕ) (hi : i < (lay.nodeinfo r).volume) :
    BoxOf lay r ((lay.nodeinfo r).coordSub sd i) ∧ (lay.nodeinfo r).siteIndexSub sd ((lay.nodeinfo r).coordSub sd i) = i :=
  coordSub_spec (h.sub r hr) i hi

theorem rank_vec_iff (r : ℕ) (hr : r < lay.numNodes) {c c' : Site n} (hc : BoxOf lay r c) (hc' : BoxOf lay r c') :
    (lay.nodeinfo r).siteIndexSub sd c / sd.vecSize dbl = (lay.nodeinfo r).siteIndexSub sd c' / sd.vecSize dbl ↔
      rR lay sd dbl r c = rR lay sd dbl r c' := vec_eq_iff (h.sub r hr) dbl hc hc'

theorem rank_Q_lt (r : ℕ) (hr : r < lay.numNodes) {c : Site n} (hc : BoxOf lay r c) (d : Fin n) :
    rQ lay sd dbl r c d < sd.subdivisions dbl d := vQ_lt (h.sub r hr) dbl hc d

/-- Every lane is the lane of a subnode. -/
theorem lane_surj (r : ℕ) (hr : r < lay.numNodes) (i k : ℕ) (hi : i < (lay.nodeinfo r).vSites sd dbl) (hk : k < sd.vecSize dbl) :
    ∃ c, BoxOf lay r c ∧ (lay.nodeinfo r).siteIndexSub sd c = sd.vecSize dbl * i + k ∧
      (lay.nodeinfo r).siteIndexSub sd c / sd.vecSize dbl = i ∧ vLane sd dbl (rQ lay sd dbl r c) = k := by
  obtain ⟨c, hc, h1, h2, h3⟩ := vec_site (h.sub r hr) dbl i k hi hk
  exact ⟨c, hc, h1, h2, by rw [← h3]; exact ((index_mod (h.sub r hr) dbl hc).1).symm⟩

theorem perm_up (r : ℕ) (hr : r < lay.numNodes) (d : Dir n) (hd : isUp d = true) {q : Site n} (hq : ∀ b, q b < sd.subdivisions dbl b) :
    boundaryPermUp lay sd dbl r d (vLane sd dbl q) = vLane sd dbl (shiftQ sd dbl d q) := by
  have hsub := h.sub r hr
  -- the corner of the first subnode
  set here : Site n := fun b => lay.boxMin r b + rS lay sd dbl r b - 1 with hhere
  have hSp : ∀ b, 0 < rS lay sd dbl r b := hsub.vSub_pos dbl
  have hbox : BoxOf lay r here := by
    intro b
    have := hSp b
    have h2 := box_mul dbl h r hr b
    have h3 := Nat.le_mul_of_pos_right (rS lay sd dbl r b) (hsub.subdiv_pos dbl b)
    show lay.boxMin r b ≤ lay.boxMin r b + rS lay sd dbl r b - 1 ∧ lay.boxMin r b + rS lay sd dbl r b - 1 < _
    omega
  have hR : ∀ b, rR lay sd dbl r here b = rS lay sd dbl r b - 1 ∧ rQ lay sd dbl r here b = 0 := by
    intro b
    have := hSp b
    have e : here b - lay.boxMin r b = rS lay sd dbl r b - 1 := by show lay.boxMin r b + rS lay sd dbl r b - 1 - _ = _; omega
    constructor
    · show (here b - lay.boxMin r b) % rS lay sd dbl r b = _
      rw [e, Nat.mod_eq_of_lt (by omega)]
    · show (here b - lay.boxMin r b) / rS lay sd dbl r b = _
      rw [e, Nat.div_eq_of_lt (by omega)]
  have hlane0 := rank_index dbl h r hr hbox
  have hQ0 : rQ lay sd dbl r here = fun _ => 0 := funext fun b => (hR b).2
  rw [hQ0, vLane_zero] at hlane0
  set idx := (lay.nodeinfo r).siteIndexSub sd here with hidx
  have hV := hsub.vecSize_pos dbl
  have hidx2 : idx = sd.vecSize dbl * (idx / sd.vecSize dbl) := by have := Nat.div_add_mod idx (sd.vecSize dbl); omega
  have hk := vLane_lt hsub dbl hq
  obtain ⟨c, hc, h1, h2, h3⟩ := lane_surj dbl h r hr (idx / sd.vecSize dbl) (vLane sd dbl q) (vec_lt hsub dbl hbox) hk
  have hcQ : rQ lay sd dbl r c = q := vLane_inj hsub dbl (rank_Q_lt dbl h r hr hc) hq h3
  have hcR : rR lay sd dbl r c = rR lay sd dbl r here := (rank_vec_iff dbl h r hr hc hbox).1 h2
  have hcE : EdgeV lay sd dbl r d c := by
    unfold EdgeV lastOf
    rw [hcR, (hR _).1, if_pos hd]
  have hunf : boundaryPermUp lay sd dbl r d (vLane sd dbl q) =
      (lay.nodeinfo (lay.nodeRank (lay.neighbour ((lay.nodeinfo r).coordSub sd (idx + vLane sd dbl q)) d))).siteIndexSub sd
        (lay.neighbour ((lay.nodeinfo r).coordSub sd (idx + vLane sd dbl q)) d) % sd.vecSize dbl := by
    have e : (fun b => (lay.nodeinfo r).min b + (lay.nodeinfo r).subnodeSize sd dbl b - 1) = here := by
      funext b
      rw [nodeinfo_eq, ofBox_min, subnodeSize_eq]
    unfold boundaryPermUp
    dsimp only
    rw [e]
  rw [hunf, hidx2, ← h1, rank_coord h r hr hc]
  have hl := inBox_inLattice lay h.wf r c hc
  have hnl := neighbour_inLattice lay h.wf c hl d
  rw [rank_index dbl h _ (nodeRank_lt lay h.wf _ hnl) (box_nodeRank lay h.wf _ hnl), (step_edge dbl h r hr c d hc hcE).1, hcQ]

theorem perm_spec (r : ℕ) (hr : r < lay.numNodes) (d : Dir n) {q : Site n} (hq : ∀ b, q b < sd.subdivisions dbl b) :
    boundaryPerm lay sd dbl r d (vLane sd dbl q) = vLane sd dbl (shiftQ sd dbl d q) := by
  have hsub := h.sub r hr
  have hD : ∀ d, 0 < sd.subdivisions dbl d := hsub.subdiv_pos dbl
  unfold boundaryPerm
  cases hd : isUp d
  · rw [if_neg (by simp)]
    have hod : isUp (oppDir d) = true := by rw [isUp_oppDir, hd]; rfl
    have hq' := shiftQ_lt dbl hD d hq
    have hup := perm_up dbl h r hr (oppDir d) hod hq'
    rw [shiftQ_back dbl d hq] at hup
    have hvol : 0 < (lay.nodeinfo r).vSites sd dbl := by
      have := vSites_mul (a := lay.boxMin r) hsub dbl
      rw [← nodeinfo_eq] at this
      rcases Nat.eq_zero_or_pos ((lay.nodeinfo r).vSites sd dbl) with h0 | h0
      · rw [h0, zero_mul, nodeinfo_eq, ofBox_volume] at this
        have := Finset.prod_pos fun d (_ : d ∈ Finset.univ) => hsub.pos d
        omega
      · exact h0
    -- inverse on the lanes
    have hinj : ∀ i j, i < sd.vecSize dbl → j < sd.vecSize dbl →
        boundaryPermUp lay sd dbl r (oppDir d) i = boundaryPermUp lay sd dbl r (oppDir d) j → i = j := by
      intro i j hi hj e
      obtain ⟨c, hc, _, _, h3⟩ := lane_surj dbl h r hr 0 i hvol hi
      obtain ⟨c', hc', _, _, h3'⟩ := lane_surj dbl h r hr 0 j hvol hj
      have hQ := rank_Q_lt dbl h r hr hc
      have hQ' := rank_Q_lt dbl h r hr hc'
      rw [← h3, ← h3', perm_up dbl h r hr _ hod hQ, perm_up dbl h r hr _ hod hQ'] at e
      have := vLane_inj hsub dbl (shiftQ_lt dbl hD _ hQ) (shiftQ_lt dbl hD _ hQ') e
      have e2 := congrArg (shiftQ sd dbl (oppDir (oppDir d))) this
      rw [shiftQ_back dbl _ hQ, shiftQ_back dbl _ hQ'] at e2
      rw [← h3, ← h3', e2]
    have hfold : ∀ m, m ≤ sd.vecSize dbl → ∀ i, i < m →
        (List.range m).foldl (fun p i => Function.update p (boundaryPermUp lay sd dbl r (oppDir d) i) i) (fun _ => 0)
          (boundaryPermUp lay sd dbl r (oppDir d) i) = i := by
      intro m
      induction m with
      | zero => intro _ i hi; omega
      | succ m ih =>
        intro hm i hi
        rw [List.range_succ, List.foldl_append, List.foldl_cons, List.foldl_nil]
        by_cases him : i = m
        · subst him; rw [Function.update_self]
        · rw [Function.update_of_ne (fun e => him (hinj i m (by omega) (by omega) e))]
          exact ih (by omega) i (by omega)
    have := hfold _ (le_refl _) _ (vLane_lt hsub dbl hq')
    rw [hup] at this
    exact this
  · rw [if_pos rfl]; exact perm_up dbl h r hr d hd hq

end Step

end Hila
