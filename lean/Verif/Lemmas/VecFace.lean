import Verif.Lemmas.VecHalo
import Mathlib.Data.List.Sort
import Mathlib.Data.Fintype.BigOperators

/-! Faces of a node in the vector layout: order, halves, lists of sites to send. -/

namespace Hila

open BigOperators

theorem add_mul_lt_iff {R x x' y y' : ℕ} (hx : x < R) (hx' : x' < R) : x + R * y < x' + R * y' ↔ y < y' ∨ (y = y' ∧ x < x') := by
  rcases Nat.lt_trichotomy y y' with hlt | heq | hgt
  · have : R * (y + 1) ≤ R * y' := Nat.mul_le_mul_left R hlt
    have e : R * (y + 1) = R * y + R := by ring
    exact iff_of_true (by omega) (Or.inl hlt)
  · subst heq; omega
  · have : R * (y' + 1) ≤ R * y := Nat.mul_le_mul_left R hgt
    have e : R * (y' + 1) = R * y' + R := by ring
    exact iff_of_false (by omega) (by omega)

/-- Sites of whole vectors. -/
def expandV (V : ℕ) (vs : List ℕ) : List ℕ := vs.flatMap fun i => (List.range V).map fun k => V * i + k

theorem expandV_append (V : ℕ) (a b : List ℕ) : expandV V (a ++ b) = expandV V a ++ expandV V b := by
  unfold expandV; rw [List.flatMap_append]

theorem expandV_length (V : ℕ) (vs : List ℕ) : (expandV V vs).length = V * vs.length := by
  induction vs with
  | nil => rfl
  | cons a vs ih =>
    unfold expandV at ih ⊢
    rw [List.flatMap_cons, List.length_append, ih, List.length_map, List.length_range, List.length_cons]
    ring

theorem expandV_get (V : ℕ) (vs : List ℕ) (p : ℕ) (hp : p < V * vs.length) :
    ∃ i, vs[p / V]? = some i ∧ (expandV V vs)[p]? = some (V * i + p % V) := by
  have hV : 0 < V := by
    rcases Nat.eq_zero_or_pos V with h0 | h0
    · rw [h0, zero_mul] at hp; omega
    · exact h0
  induction vs generalizing p with
  | nil => simp at hp
  | cons a vs ih =>
    have hcons : expandV V (a :: vs) = ((List.range V).map fun k => V * a + k) ++ expandV V vs := by
      unfold expandV; rw [List.flatMap_cons]
    rw [hcons]
    by_cases hpV : p < V
    · refine ⟨a, by rw [Nat.div_eq_of_lt hpV]; rfl, ?_⟩
      rw [List.getElem?_append_left (by simpa using hpV), Nat.mod_eq_of_lt hpV]
      simp [hpV]
    · have hlen : ((List.range V).map fun k => V * a + k).length = V := by simp
      have hp2 : p - V < V * vs.length := by
        rw [List.length_cons, Nat.mul_succ] at hp; omega
      obtain ⟨i, h1, h2⟩ := ih (p - V) hp2
      refine ⟨i, ?_, ?_⟩
      · have : p / V = (p - V) / V + 1 := by
          rw [← Nat.add_div_right _ hV]; congr 1; omega
        rw [this, List.getElem?_cons_succ]; exact h1
      · rw [List.getElem?_append_right (by omega), hlen, h2, Nat.mod_eq_sub_mod (a := p) (by omega)]

theorem filter_expand (V M : ℕ) (hV : 0 < V) (P : ℕ → Prop) [DecidablePred P] :
    (List.range (M * V)).filter (fun j => decide (P (j / V))) = expandV V ((List.range M).filter fun i => decide (P i)) := by
  induction M with
  | zero => simp [expandV]
  | succ M ih =>
    rw [Nat.succ_mul, List.range_add, List.filter_append, ih, List.range_succ, List.filter_append, expandV_append]
    congr 1
    rw [List.filter_map]
    have hcomp : ∀ k ∈ List.range V, ((fun j => decide (P (j / V))) ∘ fun x => M * V + x) k = decide (P M) := by
      intro k hk
      rw [List.mem_range] at hk
      show decide (P ((M * V + k) / V)) = _
      rw [mul_comm M V, Nat.mul_add_div hV, Nat.div_eq_of_lt hk, add_zero]
    rw [List.filter_congr hcomp]
    by_cases hP : P M
    · simp [hP, expandV, mul_comm]
    · simp [hP, expandV]

section Face
variable {n : ℕ} {lay : Layout n} {sd : SubDiv n} (dbl : Bool)

/-- Site `j` of rank `r` has its neighbour in direction `d` on another rank. -/
def OffS (lay : Layout n) (sd : SubDiv n) (r : ℕ) (d : Dir n) (j : ℕ) : Prop :=
  ¬ (lay.nodeinfo r).isOnNode (lay.neighbour ((lay.nodeinfo r).coordSub sd j) d) = true

instance (r : ℕ) (d : Dir n) : DecidablePred (OffS lay sd r d) := fun j => by unfold OffS; infer_instance

theorem offS_iff (r : ℕ) (d : Dir n) (j : ℕ) : OffS lay sd r d j ↔ ¬ BoxOf lay r (lay.neighbour ((lay.nodeinfo r).coordSub sd j) d) := by
  unfold OffS; rw [onNode_iff]

variable (h : VecOK lay sd)
include h

theorem offSites_eq (r : ℕ) (hr : r < lay.numNodes) (d : Dir n) :
    offSites lay sd r d = (List.range (lay.nodeinfo r).volume).filter fun j => decide (OffS lay sd r d j) := by
  unfold offSites
  apply List.filter_congr
  intro j hj
  rw [List.mem_range] at hj
  apply Bool.decide_congr
  obtain ⟨hc, hidx⟩ := rank_spec h r hr j hj
  have := neighbSub_lt_iff h r hr d hc
  rw [hidx] at this
  rw [offS_iff, ← this]
  exact ⟨fun hh => Nat.not_lt.2 hh, fun hh => Nat.not_lt.1 hh⟩

theorem mem_offSites (r : ℕ) (hr : r < lay.numNodes) (d : Dir n) (j : ℕ) :
    j ∈ offSites lay sd r d ↔ j < (lay.nodeinfo r).volume ∧ ¬ BoxOf lay r (lay.neighbour ((lay.nodeinfo r).coordSub sd j) d) := by
  rw [offSites_eq h r hr, List.mem_filter, List.mem_range, decide_eq_true_iff, offS_iff]

/-- Which sites of a node have their neighbour on another node, in a divided direction. -/
theorem off_face_iff (r : ℕ) (hr : r < lay.numNodes) (d : Dir n) (hnd : lay.ndiv (axis d) ≠ 1) {c : Site n} (hc : BoxOf lay r c) :
    ¬ BoxOf lay r (lay.neighbour c d) ↔ c (axis d) = lay.boxMin r (axis d) + lastOf (isUp d) (lay.boxSize r (axis d)) := by
  have hl := inBox_inLattice lay h.wf r c hc
  have hca := hc (axis d)
  have hle := box_le lay h.wf r (axis d)
  have hpos := (h.sub r hr).pos (axis d)
  constructor
  · intro ho
    have := off_axis lay h.wf r c d hc ho
    unfold lastOf
    cases hu : isUp d
    · rw [hu, pstep_down _ _ (hl _)] at this
      simp only [Bool.false_eq_true, if_false]
      split at this <;> omega
    · rw [hu, pstep_up _ _ (hl _)] at this
      simp only [if_true]
      split at this <;> omega
  · intro he hb
    apply hnd
    apply wrap_ndiv h r c d hc hb
    have hba := hb (axis d)
    rw [neighbour_eq lay h.wf c hl, Function.update_self] at hba
    unfold lastOf at he
    unfold edgeCoord
    cases hu : isUp d
    · rw [hu, pstep_down _ _ (hl _)] at hba
      rw [hu] at he
      simp only [Bool.false_eq_true, if_false] at he ⊢
      split at hba <;> omega
    · rw [hu, pstep_up _ _ (hl _)] at hba
      rw [hu] at he
      simp only [if_true] at he ⊢
      split at hba <;> omega

theorem partnerSub_eq (r : ℕ) (hr : r < lay.numNodes) (d : Dir n) {c : Site n} (hc : BoxOf lay r c) (ho : ¬ BoxOf lay r (lay.neighbour c d)) :
    partnerSub lay sd r d = lay.nodeRank (lay.neighbour c d) := by
  unfold partnerSub
  have hmem : (lay.nodeinfo r).siteIndexSub sd c ∈ offSites lay sd r d := by
    rw [mem_offSites h r hr, rank_coord h r hr hc]; exact ⟨rank_index_lt h r hr hc, ho⟩
  cases hl : offSites lay sd r d with
  | nil => rw [hl] at hmem; exact absurd hmem List.not_mem_nil
  | cons j js =>
    have hj : j ∈ offSites lay sd r d := by rw [hl]; exact List.mem_cons_self
    rw [mem_offSites h r hr] at hj
    show lay.nodeRank _ = _
    exact off_same_rank lay h.wf r _ _ d (rank_spec h r hr j hj.1).1 hc hj.2 ho

theorem partnerSub_none (r : ℕ) (hr : r < lay.numNodes) (d : Dir n) (hnd : lay.ndiv (axis d) = 1) : offSites lay sd r d = [] ∧ partnerSub lay sd r d = r := by
  have h0 : offSites lay sd r d = [] := by
    rw [List.eq_nil_iff_forall_not_mem]
    intro j hj
    rw [mem_offSites h r hr] at hj
    exact hj.2 (undivided_box h r _ d (rank_spec h r hr j hj.1).1 hnd)
  refine ⟨h0, ?_⟩
  unfold partnerSub
  rw [h0]; rfl

/-- The site of the node in its lower corner with the coordinate of the face. -/
theorem exists_off (r : ℕ) (hr : r < lay.numNodes) (d : Dir n) (hnd : lay.ndiv (axis d) ≠ 1) :
    ∃ c, BoxOf lay r c ∧ ¬ BoxOf lay r (lay.neighbour c d) := by
  have hpos := (h.sub r hr).pos
  refine ⟨Function.update (lay.boxMin r) (axis d) (lay.boxMin r (axis d) + lastOf (isUp d) (lay.boxSize r (axis d))), ?_, ?_⟩
  · intro b
    by_cases hb : b = axis d
    · subst hb
      rw [Function.update_self]
      have := lastOf_lt (isUp d) _ (hpos (axis d))
      omega
    · rw [Function.update_of_ne hb]
      have := hpos b
      omega
  · rw [off_face_iff h r hr d hnd]
    · rw [Function.update_self]
    · intro b
      by_cases hb : b = axis d
      · subst hb
        rw [Function.update_self]
        have := lastOf_lt (isUp d) _ (hpos (axis d))
        omega
      · rw [Function.update_of_ne hb]
        have := hpos b
        omega

/-! ### Order -/

omit h in
theorem laneOf_lt_iff (q q' : Site n) (x x' : ℕ) (hq : ∀ d, q d < sd.div d) (hq' : ∀ d, q' d < sd.div d) :
    laneOf sd q x < laneOf sd q' x' ↔ x < x' ∨ (x = x' ∧
      lex (Function.update sd.div sd.mdir 1) (Function.update q sd.mdir 0) < lex (Function.update sd.div sd.mdir 1) (Function.update q' sd.mdir 0)) := by
  have h1 := laneRest_lt sd q hq
  have h2 := laneRest_lt sd q' hq'
  unfold laneOf
  exact add_mul_lt_iff h1 h2

/-- Order of the indices of sites with the same parity. -/
theorem index_lt_iff (r : ℕ) (hr : r < lay.numNodes) {c c' : Site n} (hc : BoxOf lay r c) (hc' : BoxOf lay r c')
    (hp : (∑ d, c d) % 2 = (∑ d, c' d) % 2) :
    (lay.nodeinfo r).siteIndexSub sd c < (lay.nodeinfo r).siteIndexSub sd c' ↔
      lex (rS lay sd false r) (rR lay sd false r c) < lex (rS lay sd false r) (rR lay sd false r c') ∨
      (rR lay sd false r c = rR lay sd false r c' ∧ vLane sd false (rQ lay sd false r c) < vLane sd false (rQ lay sd false r c')) := by
  have hsub := h.sub r hr
  have e1 := siteIndexSub_eq (a := lay.boxMin r) hsub hc
  have e2 := siteIndexSub_eq (a := lay.boxMin r) hsub hc'
  rw [nodeinfo_eq, e1, e2, add_mul_lt_iff (lane_lt_number hsub hc) (lane_lt_number hsub hc')]
  have hin : ∀ x : Site n, lex (subSz (lay.boxSize r) sd) (fun d => subIn (lay.boxMin r) (lay.boxSize r) sd x d - lay.boxMin r d) =
      lex (rS lay sd false r) (rR lay sd false r x) := by
    intro x
    show lex _ _ = lex (subSz (lay.boxSize r) sd) (fun d => (x d - lay.boxMin r d) % subSz (lay.boxSize r) sd d)
    congr 1
    funext d
    unfold subIn; omega
  rw [slot_lt_iff _ _ _ _ (subIn_box hsub c) (subIn_box hsub c') (by rw [subIn_parity hsub hc, subIn_parity hsub hc']; exact hp), hin, hin]
  refine or_congr Iff.rfl (and_congr ?_ Iff.rfl)
  have := vec_eq_iff (a := lay.boxMin r) hsub false hc hc'
  rw [(index_mod hsub false hc).2, (index_mod hsub false hc').2] at this
  simpa using this

theorem face_orderS (r : ℕ) (hr : r < lay.numNodes) (d : Dir n) {c c' : Site n} (hc : BoxOf lay r c) (hc' : BoxOf lay r c')
    (ho : ¬ BoxOf lay r (lay.neighbour c d)) (ho' : ¬ BoxOf lay r (lay.neighbour c' d)) (hp : (∑ b, c b) % 2 = (∑ b, c' b) % 2) :
    (lay.nodeinfo r).siteIndexSub sd c < (lay.nodeinfo r).siteIndexSub sd c' ↔
      (lay.nodeinfo (lay.nodeRank (lay.neighbour c d))).siteIndexSub sd (lay.neighbour c d) <
      (lay.nodeinfo (lay.nodeRank (lay.neighbour c d))).siteIndexSub sd (lay.neighbour c' d) := by
  have hl := inBox_inLattice lay h.wf r c hc
  have hl' := inBox_inLattice lay h.wf r c' hc'
  have hf := off_same_face lay h.wf r c c' d hc hc' ho ho'
  have hrk := off_same_rank lay h.wf r c c' d hc hc' ho ho'
  have hnl := neighbour_inLattice lay h.wf c hl d
  have hS := box_nodeRank lay h.wf _ hnl
  have hS' := box_nodeRank lay h.wf _ (neighbour_inLattice lay h.wf c' hl' d)
  have so := step_other false h r c d hc
  have so' := step_other false h r c' d hc'
  rw [← hrk] at hS' so'
  have hs := nodeRank_lt lay h.wf _ hnl
  rw [index_lt_iff h r hr hc hc' hp, index_lt_iff h _ hs hS hS' ((face_parity lay h.wf r c c' d hc hc' ho ho').2 hp)]
  set s := lay.nodeRank (lay.neighbour c d) with hsdef
  have hA : lay.neighbour c d (axis d) = lay.neighbour c' d (axis d) := by
    rw [neighbour_eq lay h.wf c hl, neighbour_eq lay h.wf c' hl', Function.update_self, Function.update_self, hf]
  have rA : rR lay sd false r c (axis d) = rR lay sd false r c' (axis d) := by show (c _ - _) % _ = (c' _ - _) % _; rw [hf]
  have qA : rQ lay sd false r c (axis d) = rQ lay sd false r c' (axis d) := by show (c _ - _) / _ = (c' _ - _) / _; rw [hf]
  have reA : rR lay sd false s (lay.neighbour c d) (axis d) = rR lay sd false s (lay.neighbour c' d) (axis d) := by
    show (lay.neighbour c d _ - _) % _ = (lay.neighbour c' d _ - _) % _; rw [hA]
  have qeA : rQ lay sd false s (lay.neighbour c d) (axis d) = rQ lay sd false s (lay.neighbour c' d) (axis d) := by
    show (lay.neighbour c d _ - _) / _ = (lay.neighbour c' d _ - _) / _; rw [hA]
  refine or_congr ?_ (and_congr ?_ ?_)
  · apply lex_lt_congr
    · exact fun b => vR_lt (h.sub r hr) false c b
    · exact fun b => vR_lt (h.sub r hr) false c' b
    · exact fun b => vR_lt (h.sub s hs) false _ b
    · exact fun b => vR_lt (h.sub s hs) false _ b
    · intro b
      by_cases hb : b = axis d
      · subst hb; exact Or.inr ⟨rA, reA⟩
      · exact Or.inl ⟨(so b hb).2.2.symm, (so b hb).2.1.symm, (so' b hb).2.1.symm⟩
  · constructor
    · intro he; funext b
      by_cases hb : b = axis d
      · subst hb; exact reA
      · rw [(so b hb).2.1, (so' b hb).2.1, he]
    · intro he; funext b
      by_cases hb : b = axis d
      · subst hb; exact rA
      · rw [← (so b hb).2.1, ← (so' b hb).2.1, he]
  · have q1 : ∀ b, rQ lay sd false r c b < sd.div b := rank_Q_lt false h r hr hc
    have q2 : ∀ b, rQ lay sd false r c' b < sd.div b := rank_Q_lt false h r hr hc'
    have q3 : ∀ b, rQ lay sd false s (lay.neighbour c d) b < sd.div b := rank_Q_lt false h s hs hS
    have q4 : ∀ b, rQ lay sd false s (lay.neighbour c' d) b < sd.div b := rank_Q_lt false h s hs hS'
    unfold vLane
    rw [laneOf_lt_iff _ _ _ _ q1 q2, laneOf_lt_iff _ _ _ _ q3 q4]
    simp only [Bool.false_eq_true, if_false]
    have upd : ∀ (p : Site n) (hp : ∀ b, p b < sd.div b) (b : Fin n), Function.update p sd.mdir 0 b < Function.update sd.div sd.mdir 1 b := by
      intro p hp b
      by_cases hb : b = sd.mdir
      · subst hb; rw [Function.update_self, Function.update_self]; exact Nat.one_pos
      · rw [Function.update_of_ne hb, Function.update_of_ne hb]; exact hp b
    have hlex : lex (Function.update sd.div sd.mdir 1) (Function.update (rQ lay sd false r c) sd.mdir 0) <
          lex (Function.update sd.div sd.mdir 1) (Function.update (rQ lay sd false r c') sd.mdir 0) ↔
        lex (Function.update sd.div sd.mdir 1) (Function.update (rQ lay sd false s (lay.neighbour c d)) sd.mdir 0) <
          lex (Function.update sd.div sd.mdir 1) (Function.update (rQ lay sd false s (lay.neighbour c' d)) sd.mdir 0) := by
      apply lex_lt_congr
      · exact upd _ q1
      · exact upd _ q2
      · exact upd _ q3
      · exact upd _ q4
      · intro b
        by_cases hm : b = sd.mdir
        · subst hm; left; simp only [Function.update_self]; exact ⟨trivial, trivial, trivial⟩
        · simp only [Function.update_of_ne hm]
          by_cases hb : b = axis d
          · subst hb; exact Or.inr ⟨qA, qeA⟩
          · exact Or.inl ⟨trivial, (so b hb).1.symm, (so' b hb).1.symm⟩
    rw [hlex]
    by_cases hm : sd.mdir = axis d
    · rw [hm, qA, qeA]
      simp only [lt_irrefl, false_or, true_and]
    · rw [(so _ hm).1, (so' _ hm).1]

/-! ### Lists of sites to send -/

/-- Sites of rank `r` that need data from another rank, of the parity `par`: even sites first. -/
def offPar (lay : Layout n) (sd : SubDiv n) (r : ℕ) (d : Dir n) (par : Parity) : List ℕ :=
  (if par ≠ .odd then (offSites lay sd r d).filter fun i => decide (((lay.nodeinfo r).coordSub sd i).parity = .even) else []) ++
  (if par ≠ .even then (offSites lay sd r d).filter fun i => !decide (((lay.nodeinfo r).coordSub sd i).parity = .even) else [])

omit h in
theorem offSites_sorted (r : ℕ) (d : Dir n) : (offSites lay sd r d).Pairwise (· < ·) := List.Pairwise.filter _ List.pairwise_lt_range

/-- The site on the partner rank whose value is needed. -/
def phi (lay : Layout n) (sd : SubDiv n) (r : ℕ) (d : Dir n) (j : ℕ) : ℕ :=
  let e := lay.neighbour ((lay.nodeinfo r).coordSub sd j) d
  (lay.nodeinfo (lay.nodeRank e)).siteIndexSub sd e

theorem send_half (r : ℕ) (hr : r < lay.numNodes) (d : Dir n) (hnd : lay.ndiv (axis d) ≠ 1) (ev : Bool) :
    ((offSites lay sd (partnerSub lay sd r d) (oppDir d)).filter fun i =>
      decide ((lay.neighbour ((lay.nodeinfo (partnerSub lay sd r d)).coordSub sd i) (oppDir d)).parity = .even) == ev) =
    ((offSites lay sd r d).filter fun i => decide (((lay.nodeinfo r).coordSub sd i).parity = .even) == ev).map (phi lay sd r d) := by
  obtain ⟨c0, hc0, ho0⟩ := exists_off h r hr d hnd
  have hpart := partnerSub_eq h r hr d hc0 ho0
  have hl0 := inBox_inLattice lay h.wf r c0 hc0
  have hnl0 := neighbour_inLattice lay h.wf c0 hl0 d
  set s := partnerSub lay sd r d with hs
  have hslt : s < lay.numNodes := by rw [hpart]; exact nodeRank_lt lay h.wf _ hnl0
  have hrank : ∀ c, BoxOf lay r c → ¬ BoxOf lay r (lay.neighbour c d) → lay.nodeRank (lay.neighbour c d) = s := fun c hc ho =>
    (partnerSub_eq h r hr d hc ho).symm
  have hback0 : lay.nodeRank (lay.neighbour (lay.neighbour c0 d) (oppDir d)) = r := by
    rw [neighbour_back lay h.wf c0 hl0]; exact (inBox_iff_nodeRank lay h.wf r hr _ hl0).1 hc0
  have hsb0 : BoxOf lay s (lay.neighbour c0 d) := by rw [hpart]; exact box_nodeRank lay h.wf _ hnl0
  have hso0 : ¬ BoxOf lay s (lay.neighbour (lay.neighbour c0 d) (oppDir d)) := by rw [hpart]; exact off_partner lay h.wf r hr c0 d hc0 ho0
  apply List.Pairwise.eq_of_mem_iff (r := (· < ·))
  · exact List.Pairwise.filter _ (offSites_sorted s (oppDir d))
  · rw [List.pairwise_map]
    refine List.Pairwise.imp_of_mem ?_ (List.Pairwise.filter _ (offSites_sorted r d))
    intro i j hi hj hij
    rw [List.mem_filter, mem_offSites h r hr, beq_iff_eq] at hi hj
    obtain ⟨⟨hi1, hi2⟩, hi3⟩ := hi
    obtain ⟨⟨hj1, hj2⟩, hj3⟩ := hj
    obtain ⟨hci, ei⟩ := rank_spec h r hr i hi1
    obtain ⟨hcj, ej⟩ := rank_spec h r hr j hj1
    have hpar : (∑ b, (lay.nodeinfo r).coordSub sd i b) % 2 = (∑ b, (lay.nodeinfo r).coordSub sd j b) % 2 := by
      have : ((lay.nodeinfo r).coordSub sd i).parity = .even ↔ ((lay.nodeinfo r).coordSub sd j).parity = .even :=
        decide_eq_decide.1 (hi3.trans hj3.symm)
      rw [Site.parity_even_iff, Site.parity_even_iff] at this
      omega
    have := face_orderS h r hr d hci hcj hi2 hj2 hpar
    rw [ei, ej] at this
    have h2 := this.1 hij
    unfold phi
    dsimp only
    rw [hrank _ hcj hj2, hrank _ hci hi2]
    rw [hrank _ hci hi2] at h2
    exact h2
  · intro j'
    rw [List.mem_map]
    constructor
    · intro hj'
      rw [List.mem_filter, mem_offSites h s hslt, beq_iff_eq] at hj'
      obtain ⟨⟨h1, h2⟩, h3⟩ := hj'
      obtain ⟨he, ee⟩ := rank_spec h s hslt j' h1
      set e := (lay.nodeinfo s).coordSub sd j' with hedef
      have hle := inBox_inLattice lay h.wf s e he
      have hcl := neighbour_inLattice lay h.wf e hle (oppDir d)
      have hrk : lay.nodeRank (lay.neighbour e (oppDir d)) = r := by
        rw [← hback0]; exact off_same_rank lay h.wf s _ _ (oppDir d) he hsb0 h2 hso0
      have hcbox : BoxOf lay r (lay.neighbour e (oppDir d)) := (inBox_iff_nodeRank lay h.wf r hr _ hcl).2 hrk
      have hfwd : lay.neighbour (lay.neighbour e (oppDir d)) d = e := by
        have := neighbour_back lay h.wf e hle (oppDir d)
        rwa [oppDir_oppDir] at this
      have hoff : ¬ BoxOf lay r (lay.neighbour (lay.neighbour e (oppDir d)) d) := by
        have := off_partner lay h.wf s hslt e (oppDir d) he h2
        rw [oppDir_oppDir, hrk] at this
        exact this
      refine ⟨(lay.nodeinfo r).siteIndexSub sd (lay.neighbour e (oppDir d)), ?_, ?_⟩
      · rw [List.mem_filter, mem_offSites h r hr, rank_coord h r hr hcbox, beq_iff_eq]
        exact ⟨⟨rank_index_lt h r hr hcbox, hoff⟩, h3⟩
      · unfold phi
        dsimp only
        rw [rank_coord h r hr hcbox, hfwd, (inBox_iff_nodeRank lay h.wf s hslt e hle).1 he, ee]
    · rintro ⟨j, hj, rfl⟩
      rw [List.mem_filter, mem_offSites h r hr, beq_iff_eq] at hj
      obtain ⟨⟨h1, h2⟩, h3⟩ := hj
      obtain ⟨hc, ec⟩ := rank_spec h r hr j h1
      set c := (lay.nodeinfo r).coordSub sd j with hcdef
      have hl := inBox_inLattice lay h.wf r c hc
      have hnl := neighbour_inLattice lay h.wf c hl d
      have hrk := hrank c hc h2
      have hsb : BoxOf lay s (lay.neighbour c d) := by rw [← hrk]; exact box_nodeRank lay h.wf _ hnl
      have hphi : phi lay sd r d j = (lay.nodeinfo s).siteIndexSub sd (lay.neighbour c d) := by
        unfold phi; dsimp only; rw [← hcdef, hrk]
      rw [hphi, List.mem_filter, mem_offSites h s hslt, rank_coord h s hslt hsb, beq_iff_eq, neighbour_back lay h.wf c hl]
      refine ⟨⟨rank_index_lt h s hslt hsb, ?_⟩, h3⟩
      have := off_partner lay h.wf r hr c d hc h2
      rw [hrk, neighbour_back lay h.wf c hl] at this
      exact this

theorem sendSites_eq (r : ℕ) (hr : r < lay.numNodes) (d : Dir n) (hnd : lay.ndiv (axis d) ≠ 1) (par : Parity) :
    sendSites lay sd (partnerSub lay sd r d) d par = (offPar lay sd r d par).map (phi lay sd r d) := by
  have h1 := send_half h r hr d hnd true
  have h2 := send_half h r hr d hnd false
  simp only [beq_true, beq_false] at h1 h2
  unfold sendSites offPar
  dsimp only
  rw [List.map_append, h1, h2]
  congr 1 <;> split <;> simp

/-! ### Halves -/

/-- The site next to `c` in the pair of sites along direction `b`. -/
def flipS (a : Site n) (b : Fin n) (c : Site n) : Site n :=
  Function.update c b (a b + (if (c b - a b) % 2 = 0 then c b - a b + 1 else c b - a b - 1))

omit h in
theorem flip_one {S x : ℕ} (hS : 2 ∣ S) (hS0 : 0 < S) : let y := if x % 2 = 0 then x + 1 else x - 1
    y / S = x / S ∧ (y % 2 ≠ x % 2) ∧ (if y % 2 = 0 then y + 1 else y - 1) = x := by
  obtain ⟨k, rfl⟩ := hS
  intro y
  have h1 := Nat.div_add_mod x (2 * k)
  have h2 := Nat.mod_lt x hS0
  have h3 : (2 * k) * (x / (2 * k)) = 2 * (k * (x / (2 * k))) := by ring
  refine ⟨?_, ?_, ?_⟩
  · by_cases hx : x % 2 = 0
    · have : y = x + 1 := if_pos hx
      rw [this]
      exact (div_mod_of (ρ := x % (2 * k) + 1) (by omega) (by omega)).1
    · have : y = x - 1 := if_neg hx
      rw [this]
      exact (div_mod_of (ρ := x % (2 * k) - 1) (by omega) (by omega)).1
  · show (if x % 2 = 0 then x + 1 else x - 1) % 2 ≠ _
    split <;> omega
  · show (if (if x % 2 = 0 then x + 1 else x - 1) % 2 = 0 then (if x % 2 = 0 then x + 1 else x - 1) + 1 else (if x % 2 = 0 then x + 1 else x - 1) - 1) = x
    split_ifs <;> omega

theorem flipS_spec (r : ℕ) (hr : r < lay.numNodes) (b : Fin n) (hb : 2 ∣ lay.boxSize r b) {c : Site n} (hc : BoxOf lay r c) :
    BoxOf lay r (flipS (lay.boxMin r) b c) ∧ (∀ x, x ≠ b → flipS (lay.boxMin r) b c x = c x) ∧
    flipS (lay.boxMin r) b (flipS (lay.boxMin r) b c) = c ∧ (∑ x, flipS (lay.boxMin r) b c x) % 2 ≠ (∑ x, c x) % 2 := by
  have hcb := hc b
  have hpos := (h.sub r hr).pos b
  obtain ⟨h1, h2, h3⟩ := flip_one (S := lay.boxSize r b) (x := c b - lay.boxMin r b) hb hpos
  set y := (if (c b - lay.boxMin r b) % 2 = 0 then c b - lay.boxMin r b + 1 else c b - lay.boxMin r b - 1) with hy
  have hf : flipS (lay.boxMin r) b c = Function.update c b (lay.boxMin r b + y) := rfl
  rw [Nat.div_eq_of_lt (show c b - lay.boxMin r b < lay.boxSize r b by omega), Nat.div_eq_zero_iff] at h1
  have hylt : y < lay.boxSize r b := by omega
  refine ⟨fun x => ?_, fun x hx => ?_, ?_, ?_⟩
  · rw [hf]
    by_cases hx : x = b
    · subst hx; rw [Function.update_self]; omega
    · rw [Function.update_of_ne hx]; exact hc x
  · rw [hf, Function.update_of_ne hx]
  · rw [hf]
    unfold flipS
    rw [Function.update_self, Function.update_idem, Nat.add_sub_cancel_left, h3, Nat.add_sub_cancel' hcb.1, Function.update_eq_self]
  · rw [hf, Finset.sum_update_of_mem (Finset.mem_univ _), ← Finset.sum_sdiff (Finset.subset_univ {b}) (f := c), Finset.sum_singleton]
    omega

/-- Half of the sites with a property that does not depend on the coordinate in an even direction are even. -/
theorem half_even (r : ℕ) (hr : r < lay.numNodes) (b : Fin n) (hb : 2 ∣ lay.boxSize r b) (P : Site n → Prop) [DecidablePred P]
    (hP : ∀ c, BoxOf lay r c → (P (flipS (lay.boxMin r) b c) ↔ P c)) :
    2 * Nat.count (fun j => P ((lay.nodeinfo r).coordSub sd j) ∧ ((lay.nodeinfo r).coordSub sd j).parity = .even) (lay.nodeinfo r).volume =
      Nat.count (fun j => P ((lay.nodeinfo r).coordSub sd j)) (lay.nodeinfo r).volume := by
  have hs := count_split (fun j => P ((lay.nodeinfo r).coordSub sd j)) (fun j => ((lay.nodeinfo r).coordSub sd j).parity = .even)
    (lay.nodeinfo r).volume
  have key : Nat.count (fun j => P ((lay.nodeinfo r).coordSub sd j) ∧ ((lay.nodeinfo r).coordSub sd j).parity = .even) (lay.nodeinfo r).volume =
      Nat.count (fun j => P ((lay.nodeinfo r).coordSub sd j) ∧ ¬ ((lay.nodeinfo r).coordSub sd j).parity = .even) (lay.nodeinfo r).volume := by
    rw [Nat.count_eq_card_filter_range, Nat.count_eq_card_filter_range]
    have aux : ∀ j, j < (lay.nodeinfo r).volume →
        let j' := (lay.nodeinfo r).siteIndexSub sd (flipS (lay.boxMin r) b ((lay.nodeinfo r).coordSub sd j))
        j' < (lay.nodeinfo r).volume ∧ (P ((lay.nodeinfo r).coordSub sd j') ↔ P ((lay.nodeinfo r).coordSub sd j)) ∧
        (((lay.nodeinfo r).coordSub sd j').parity = .even ↔ ¬ ((lay.nodeinfo r).coordSub sd j).parity = .even) ∧
        (lay.nodeinfo r).siteIndexSub sd (flipS (lay.boxMin r) b ((lay.nodeinfo r).coordSub sd j')) = j := by
      intro j hj
      obtain ⟨hc, e⟩ := rank_spec h r hr j hj
      obtain ⟨f1, _, f3, f4⟩ := flipS_spec h r hr b hb hc
      dsimp only
      rw [rank_coord h r hr f1, f3, Site.parity_even_iff, Site.parity_even_iff]
      exact ⟨rank_index_lt h r hr f1, hP _ hc, by omega, e⟩
    apply Finset.card_bij' (fun j _ => (lay.nodeinfo r).siteIndexSub sd (flipS (lay.boxMin r) b ((lay.nodeinfo r).coordSub sd j)))
      (fun j _ => (lay.nodeinfo r).siteIndexSub sd (flipS (lay.boxMin r) b ((lay.nodeinfo r).coordSub sd j)))
    · intro j hj
      rw [Finset.mem_filter, Finset.mem_range] at hj ⊢
      obtain ⟨a1, a2, a3, _⟩ := aux j hj.1
      exact ⟨a1, a2.2 hj.2.1, fun hh => a3.1 hh hj.2.2⟩
    · intro j hj
      rw [Finset.mem_filter, Finset.mem_range] at hj ⊢
      obtain ⟨a1, a2, a3, _⟩ := aux j hj.1
      exact ⟨a1, a2.2 hj.2.1, a3.2 hj.2.2⟩
    · intro j hj
      rw [Finset.mem_filter, Finset.mem_range] at hj
      exact (aux j hj.1).2.2.2
    · intro j hj
      rw [Finset.mem_filter, Finset.mem_range] at hj
      exact (aux j hj.1).2.2.2
  omega

/-- An even direction other than that of `d`. -/
theorem even_dir (r : ℕ) (hr : r < lay.numNodes) (A : Fin n) : ∃ b, b ≠ A ∧ 2 ∣ rS lay sd dbl r b ∧ 2 ∣ lay.boxSize r b := by
  obtain ⟨b, hb, h2⟩ := (h.sub r hr).vSub_two dbl A
  refine ⟨b, hb, h2, ?_⟩
  rw [← box_mul dbl h r hr b]
  exact Dvd.dvd.mul_right h2 _

theorem vec_even_iff (r : ℕ) (hr : r < lay.numNodes) (j : ℕ) (hj : j < (lay.nodeinfo r).volume) :
    j / sd.vecSize dbl < (lay.nodeinfo r).vSites sd dbl / 2 ↔ ((lay.nodeinfo r).coordSub sd j).parity = .even := by
  obtain ⟨hc, e⟩ := rank_spec h r hr j hj
  have := vec_half (a := lay.boxMin r) (h.sub r hr) dbl hc
  rw [← nodeinfo_eq, e] at this
  rw [this, Site.parity_even_iff]

theorem count_vec (r : ℕ) (hr : r < lay.numNodes) (P : ℕ → Prop) [DecidablePred P] :
    Nat.count (fun j => P (j / sd.vecSize dbl)) (lay.nodeinfo r).volume = sd.vecSize dbl * Nat.count P ((lay.nodeinfo r).vSites sd dbl) := by
  rw [← filter_range_length, ← vol_eq dbl h r hr, filter_expand _ _ ((h.sub r hr).vecSize_pos dbl), expandV_length, filter_range_length]

theorem count_congr_lt (P Q : ℕ → Prop) [DecidablePred P] [DecidablePred Q] (m : ℕ) (hPQ : ∀ j, j < m → (P j ↔ Q j)) : Nat.count P m = Nat.count Q m := by
  rw [Nat.count_eq_card_filter_range, Nat.count_eq_card_filter_range]
  congr 1
  apply Finset.filter_congr
  intro j hj
  rw [Finset.mem_range] at hj
  exact hPQ j hj

/-- Half of the halo vectors belong to even sites. -/
theorem halo_half (r : ℕ) (hr : r < lay.numNodes) (d : Dir n) :
    2 * Nat.count (HVec lay sd dbl r d) ((lay.nodeinfo r).vSites sd dbl / 2) = nHaloVec lay sd dbl r d := by
  have hsub := h.sub r hr
  have hV := hsub.vecSize_pos dbl
  obtain ⟨b, hbA, hbS, hbB⟩ := even_dir dbl h r hr (axis d)
  have hh := half_even h r hr b hbB (EdgeV lay sd dbl r d) (by
    intro c hc
    unfold EdgeV
    have e : flipS (lay.boxMin r) b c (axis d) = c (axis d) := (flipS_spec h r hr b hbB hc).2.1 _ (Ne.symm hbA)
    show (flipS _ _ c (axis d) - _) % _ = _ ↔ (c (axis d) - _) % _ = _
    rw [e])
  have e1 : Nat.count (fun j => EdgeV lay sd dbl r d ((lay.nodeinfo r).coordSub sd j)) (lay.nodeinfo r).volume =
      sd.vecSize dbl * Nat.count (HVec lay sd dbl r d) ((lay.nodeinfo r).vSites sd dbl) := by
    rw [← count_vec dbl h r hr]
    apply count_congr_lt h
    intro j hj
    obtain ⟨hc, e⟩ := rank_spec h r hr j hj
    have := HVec_iff dbl h r hr d hc
    rw [e] at this
    exact this.symm
  have e2 : Nat.count (fun j => EdgeV lay sd dbl r d ((lay.nodeinfo r).coordSub sd j) ∧ ((lay.nodeinfo r).coordSub sd j).parity = .even)
      (lay.nodeinfo r).volume = sd.vecSize dbl * Nat.count (HVec lay sd dbl r d) ((lay.nodeinfo r).vSites sd dbl / 2) := by
    have e3 : Nat.count (HVec lay sd dbl r d) ((lay.nodeinfo r).vSites sd dbl / 2) =
        Nat.count (fun i => HVec lay sd dbl r d i ∧ i < (lay.nodeinfo r).vSites sd dbl / 2) ((lay.nodeinfo r).vSites sd dbl) := by
      rw [Nat.count_eq_card_filter_range, Nat.count_eq_card_filter_range]
      congr 1
      ext i
      simp only [Finset.mem_filter, Finset.mem_range]
      constructor
      · rintro ⟨h1, h2⟩; exact ⟨by omega, h2, h1⟩
      · rintro ⟨h1, h2, h3⟩; exact ⟨h3, h2⟩
    rw [e3, ← count_vec dbl h r hr]
    apply count_congr_lt h
    intro j hj
    obtain ⟨hc, e⟩ := rank_spec h r hr j hj
    have := HVec_iff dbl h r hr d hc
    rw [e] at this
    rw [this, vec_even_iff dbl h r hr j hj]
  rw [e1, e2] at hh
  rw [nHaloVec_eq dbl h r hr]
  exact Nat.eq_of_mul_eq_mul_left hV (by rw [← hh]; ring)

/-- Number of sites that need data from another rank. -/
theorem recvListSize_eq (r : ℕ) (hr : r < lay.numNodes) (d : Dir n) (hnd : lay.ndiv (axis d) ≠ 1) :
    recvListSize lay r d = (offSites lay sd r d).length := by
  have hsub := h.sub r hr
  have hpos := hsub.pos
  have hsize : (lay.nodeinfo r).size = lay.boxSize r := by rw [nodeinfo_eq, ofBox_size]
  have hvol : (lay.nodeinfo r).volume = ∏ b, lay.boxSize r b := by rw [nodeinfo_eq, ofBox_volume]
  set z := lay.boxMin r (axis d) + lastOf (isUp d) (lay.boxSize r (axis d)) with hz
  set F : Finset (Site n) := Fintype.piFinset fun b => if b = axis d then {z} else Finset.Ico (lay.boxMin r b) (lay.boxMin r b + lay.boxSize r b) with hF
  have hzlt := lastOf_lt (isUp d) _ (hpos (axis d))
  have hmemF : ∀ c, c ∈ F ↔ BoxOf lay r c ∧ c (axis d) = z := by
    intro c
    rw [hF, Fintype.mem_piFinset]
    constructor
    · intro hh
      have hA := hh (axis d)
      rw [if_pos rfl, Finset.mem_singleton] at hA
      refine ⟨fun b => ?_, hA⟩
      by_cases hb : b = axis d
      · subst hb; rw [hA]; omega
      · have := hh b
        rw [if_neg hb, Finset.mem_Ico] at this
        exact this
    · rintro ⟨h1, h2⟩ b
      by_cases hb : b = axis d
      · subst hb; rw [if_pos rfl, Finset.mem_singleton]; exact h2
      · rw [if_neg hb, Finset.mem_Ico]; exact h1 b
  have hcard : F.card * lay.boxSize r (axis d) = ∏ b, lay.boxSize r b := by
    rw [hF, Fintype.card_piFinset, ← Finset.prod_erase_mul _ _ (Finset.mem_univ (axis d)), ← Finset.prod_erase_mul (Finset.univ) (lay.boxSize r) (Finset.mem_univ (axis d))]
    rw [if_pos rfl, Finset.card_singleton, mul_one]
    congr 1
    apply Finset.prod_congr rfl
    intro b hb
    rw [Finset.mem_erase] at hb
    rw [if_neg hb.1, Nat.card_Ico]; omega
  have hlen : (offSites lay sd r d).length = F.card := by
    rw [offSites_eq h r hr, filter_range_length, Nat.count_eq_card_filter_range]
    apply Finset.card_bij' (fun j _ => (lay.nodeinfo r).coordSub sd j) (fun c _ => (lay.nodeinfo r).siteIndexSub sd c)
    · intro j hj
      rw [Finset.mem_filter, Finset.mem_range, offS_iff] at hj
      have hc := (rank_spec h r hr j hj.1).1
      rw [hmemF]
      exact ⟨hc, (off_face_iff h r hr d hnd hc).1 hj.2⟩
    · intro c hc
      rw [hmemF] at hc
      rw [Finset.mem_filter, Finset.mem_range, offS_iff, rank_coord h r hr hc.1]
      exact ⟨rank_index_lt h r hr hc.1, (off_face_iff h r hr d hnd hc.1).2 hc.2⟩
    · intro j hj
      rw [Finset.mem_filter, Finset.mem_range] at hj
      exact (rank_spec h r hr j hj.1).2
    · intro c hc
      rw [hmemF] at hc
      exact rank_coord h r hr hc.1
  unfold recvListSize
  rw [hsize, hvol, hlen, ← hcard, Nat.mul_div_cancel _ (hpos (axis d))]

theorem off_half (r : ℕ) (hr : r < lay.numNodes) (d : Dir n) (hnd : lay.ndiv (axis d) ≠ 1) :
    2 * fromEvenSub lay sd r d = (offSites lay sd r d).length := by
  obtain ⟨b, hbA, _, hbB⟩ := even_dir false h r hr (axis d)
  have hh := half_even h r hr b hbB (fun c => ¬ (lay.nodeinfo r).isOnNode (lay.neighbour c d) = true) (by
    intro c hc
    have f := flipS_spec h r hr b hbB hc
    rw [onNode_iff, onNode_iff, off_face_iff h r hr d hnd f.1, off_face_iff h r hr d hnd hc, f.2.1 _ (Ne.symm hbA)])
  unfold fromEvenSub
  rw [offSites_eq h r hr, List.filter_filter, filter_range_length]
  rw [show (List.range (lay.nodeinfo r).volume).filter (fun a => decide (((lay.nodeinfo r).coordSub sd a).parity = .even) && decide (OffS lay sd r d a)) =
      (List.range (lay.nodeinfo r).volume).filter (fun j => decide (OffS lay sd r d j ∧ ((lay.nodeinfo r).coordSub sd j).parity = .even)) from by
    apply List.filter_congr
    intro j _
    rw [Bool.decide_and, Bool.and_comm], filter_range_length]
  exact hh

end Face

end Hila
