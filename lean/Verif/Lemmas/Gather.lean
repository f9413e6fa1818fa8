import Verif.Lemmas.GatherPass
import Verif.Lemmas.Coord
import Mathlib.Data.Finset.Card

/-! Geometry of halo faces: the slots of a rank whose neighbour is off-node, and their partners. -/

namespace Hila

open BigOperators

/-! ### Neighbour sites -/

/-- One periodic step along a line of `L` sites. -/
def pstep (up : Bool) (L x : ℕ) : ℕ := if up then (x + 1) % L else (x + L - 1) % L

theorem pstep_lt (up : Bool) (L x : ℕ) (hL : 0 < L) : pstep up L x < L := by
  unfold pstep; split <;> exact Nat.mod_lt _ hL

theorem pstep_up (L x : ℕ) (hx : x < L) : pstep true L x = if x + 1 = L then 0 else x + 1 := by
  unfold pstep; simp only [if_true]
  split
  · rename_i h; rw [h, Nat.mod_self]
  · exact Nat.mod_eq_of_lt (by omega)

theorem pstep_down (L x : ℕ) (hx : x < L) : pstep false L x = if x = 0 then L - 1 else x - 1 := by
  unfold pstep; simp only [Bool.false_eq_true, if_false]
  split
  · rename_i h; rw [h, Nat.mod_eq_of_lt (by omega)]; omega
  · rw [show x + L - 1 = (x - 1) + L by omega, Nat.add_mod_right, Nat.mod_eq_of_lt (by omega)]

theorem pstep_back (up : Bool) (L x : ℕ) (hx : x < L) : pstep (!up) L (pstep up L x) = x := by
  cases up
  · have := pstep_lt false L x (by omega)
    rw [Bool.not_false, pstep_up _ _ this, pstep_down _ _ hx]
    split <;> split <;> omega
  · have := pstep_lt true L x (by omega)
    rw [Bool.not_true, pstep_down _ _ this, pstep_up _ _ hx]
    split <;> split <;> omega

section Nb
variable {n : ℕ} (lay : Layout n)

theorem neighbour_eq (h : lay.WF) (c : Site n) (hc : lay.InLattice c) (d : Dir n) :
    lay.neighbour c d = Function.update c (axis d) (pstep (isUp d) (lay.L (axis d)) (c (axis d))) := by
  funext i
  have hL := h.L_pos i
  have hci := hc i
  unfold Layout.neighbour CV.mod
  rw [pmod_eq_emod _ _ (by unfold Site.toCV; exact_mod_cast hL)]
  by_cases hi : i = axis d
  · subst hi
    simp only [Function.update_self]
    unfold CV.addDir pstep Site.toCV
    cases hu : isUp d
    · simp only [Bool.false_eq_true, if_false, Function.update_self]
      rw [show ((c (axis d) : ℤ) - 1) % (lay.L (axis d)) =
        ((c (axis d) + lay.L (axis d) - 1 : ℕ) : ℤ) % (lay.L (axis d)) by
          rw [show ((c (axis d) + lay.L (axis d) - 1 : ℕ) : ℤ) =
            ((c (axis d) : ℤ) - 1) + lay.L (axis d) by omega, Int.add_emod_right]]
      rw [← Int.natCast_emod]; rfl
    · simp only [if_true, Function.update_self]
      rw [show ((c (axis d) : ℤ) + 1) = ((c (axis d) + 1 : ℕ) : ℤ) by push_cast; ring]
      rw [← Int.natCast_emod]; rfl
  · rw [Function.update_of_ne hi]
    unfold CV.addDir
    split
    · rw [Function.update_of_ne hi]; unfold Site.toCV
      rw [← Int.natCast_emod]; simp [Nat.mod_eq_of_lt hci]
    · rw [Function.update_of_ne hi]; unfold Site.toCV
      rw [← Int.natCast_emod]; simp [Nat.mod_eq_of_lt hci]

theorem neighbour_inLattice (h : lay.WF) (c : Site n) (hc : lay.InLattice c) (d : Dir n) :
    lay.InLattice (lay.neighbour c d) := by
  intro i
  rw [neighbour_eq lay h c hc]
  by_cases hi : i = axis d
  · subst hi; rw [Function.update_self]; exact pstep_lt _ _ _ (h.L_pos _)
  · rw [Function.update_of_ne hi]; exact hc i

theorem neighbour_back (h : lay.WF) (c : Site n) (hc : lay.InLattice c) (d : Dir n) :
    lay.neighbour (lay.neighbour c d) (oppDir d) = c := by
  rw [neighbour_eq lay h _ (neighbour_inLattice lay h c hc d), neighbour_eq lay h c hc, axis_oppDir,
    isUp_oppDir, Function.update_self, Function.update_idem, pstep_back _ _ _ (hc _),
    Function.update_eq_self]

end Nb

/-- In an interval at most one point leaves it in a periodic step. -/
theorem exit_unique (up : Bool) (L m s x y : ℕ) (hL : m + s ≤ L) (hx : m ≤ x ∧ x < m + s)
    (hy : m ≤ y ∧ y < m + s) (ex : ¬ (m ≤ pstep up L x ∧ pstep up L x < m + s))
    (ey : ¬ (m ≤ pstep up L y ∧ pstep up L y < m + s)) : x = y := by
  cases up
  · rw [pstep_down _ _ (by omega)] at ex ey
    split at ex <;> split at ey <;> omega
  · rw [pstep_up _ _ (by omega)] at ex ey
    split at ex <;> split at ey <;> omega

/-- Lexicographic order depends only on the directions in which the points differ. -/
theorem lex_lt_congr {n : ℕ} (s s' c c' e e' : Fin n → ℕ)
    (hc : ∀ b, c b < s b) (hc' : ∀ b, c' b < s b) (he : ∀ b, e b < s' b) (he' : ∀ b, e' b < s' b)
    (hrel : ∀ b, (s b = s' b ∧ c b = e b ∧ c' b = e' b) ∨ (c b = c' b ∧ e b = e' b)) :
    lex s c < lex s c' ↔ lex s' e < lex s' e' := by
  induction n with
  | zero => simp [lex]
  | succ n ih =>
    have aux : ∀ (S x x' y y' : ℕ), x < S → x' < S →
        (x + S * y < x' + S * y' ↔ y < y' ∨ (y = y' ∧ x < x')) := by
      intro S x x' y y' hx hx'
      rcases Nat.lt_trichotomy y y' with hlt | heq | hgt
      · have : S * (y + 1) ≤ S * y' := Nat.mul_le_mul_left S hlt
        have e : S * (y + 1) = S * y + S := by ring
        constructor
        · intro _; exact Or.inl hlt
        · intro _; omega
      · subst heq; omega
      · have : S * (y' + 1) ≤ S * y := Nat.mul_le_mul_left S hgt
        have e : S * (y' + 1) = S * y' + S := by ring
        constructor
        · intro _; omega
        · rintro (h | h) <;> omega
    have ih1 := ih (Fin.tail s) (Fin.tail s') (Fin.tail c) (Fin.tail c') (Fin.tail e) (Fin.tail e')
      (fun b => hc b.succ) (fun b => hc' b.succ) (fun b => he b.succ) (fun b => he' b.succ)
      (fun b => hrel b.succ)
    have ih2 := ih (Fin.tail s) (Fin.tail s') (Fin.tail c') (Fin.tail c) (Fin.tail e') (Fin.tail e)
      (fun b => hc' b.succ) (fun b => hc b.succ) (fun b => he' b.succ) (fun b => he b.succ)
      (fun b => by
        rcases hrel b.succ with ⟨h1, h2, h3⟩ | ⟨h1, h2⟩
        · exact Or.inl ⟨h1, h3, h2⟩
        · exact Or.inr ⟨h1.symm, h2.symm⟩)
    have h0 := hrel 0
    unfold lex
    rw [aux _ _ _ _ _ (hc 0) (hc' 0), aux _ _ _ _ _ (he 0) (he' 0)]
    generalize lex (Fin.tail s) (Fin.tail c) = A at *
    generalize lex (Fin.tail s) (Fin.tail c') = A' at *
    generalize lex (Fin.tail s') (Fin.tail e) = B at *
    generalize lex (Fin.tail s') (Fin.tail e') = B' at *
    omega

/-! ### Slots and coordinates of a rank -/

section Rank
variable {n : ℕ} (lay : Layout n)

abbrev BoxOf (r : ℕ) (c : Site n) : Prop := InBox (lay.boxMin r) (lay.boxSize r) c

theorem coord_spec (r i : ℕ) (hi : i < (lay.nodeinfo r).volume) :
    BoxOf lay r ((lay.nodeinfo r).coord i) ∧
      (lay.nodeinfo r).siteIndex ((lay.nodeinfo r).coord i) = i := by
  obtain ⟨c, hc, hci⟩ := siteIndex_surj (lay.boxMin r) (lay.boxSize r) i hi
  have h1 := coordinates_siteIndex _ _ c hc
  rw [hci] at h1
  have h2 : (lay.nodeinfo r).coord i = c := by
    unfold NodeInfo.coord; rw [nodeinfo_eq, h1]; rfl
  rw [h2]; exact ⟨hc, hci⟩

theorem coord_siteIndex (r : ℕ) (c : Site n) (hc : BoxOf lay r c) :
    (lay.nodeinfo r).siteIndex c < (lay.nodeinfo r).volume ∧
      (lay.nodeinfo r).coord ((lay.nodeinfo r).siteIndex c) = c := by
  refine ⟨siteIndex_lt _ _ c hc, ?_⟩
  have h1 := coordinates_siteIndex _ _ c hc
  unfold NodeInfo.coord; rw [nodeinfo_eq, h1]; rfl

theorem onNode_iff (r : ℕ) (c : Site n) :
    (lay.nodeinfo r).isOnNode c = true ↔ BoxOf lay r c := by
  rw [isOnNode_iff, nodeinfo_eq, ofBox_min, ofBox_size]

theorem off_iff (r : ℕ) (d : Dir n) (i : ℕ) :
    Off lay r d i ↔ ¬ BoxOf lay r (lay.neighbour ((lay.nodeinfo r).coord i) d) := by
  unfold Off; rw [← onNode_iff]; simp

/-- Box membership direction by direction, in terms of the node coordinate. -/
theorem box_axis_iff (h : lay.WF) (r : ℕ) (c : Site n) (b : Fin n) (hc : c b < lay.L b) :
    (lay.boxMin r b ≤ c b ∧ c b < lay.boxMin r b + lay.boxSize r b) ↔
      lay.nodeCoord c b = digits lay.ndiv (lay.invRemap r) b := by
  have hdl := digits_lt lay.ndiv (lay.invRemap r) h.ndiv_pos b
  have hm := divisors_mono (lay.L b) (lay.ndiv b) (h.L_pos b) _ hdl
  have := divisors_interval (lay.L b) (lay.ndiv b) (h.L_pos b) _ (c b) hdl hc
  unfold Layout.boxSize Layout.boxMin Layout.nodeCoord
  rw [← this]; omega

theorem box_le (h : lay.WF) (r : ℕ) (b : Fin n) : lay.boxMin r b + lay.boxSize r b ≤ lay.L b := by
  have hdl := digits_lt lay.ndiv (lay.invRemap r) h.ndiv_pos b
  have hm := divisors_mono (lay.L b) (lay.ndiv b) (h.L_pos b) _ hdl
  have h1 : (divisors (lay.L b) (lay.ndiv b)).getD
      (digits lay.ndiv (lay.invRemap r) b + 1) 0 ≤ lay.L b :=
    divisors_le (lay.L b) (lay.ndiv b) (h.L_pos b) _ hdl
  have h2 : lay.boxMin r b ≤ (divisors (lay.L b) (lay.ndiv b)).getD
      (digits lay.ndiv (lay.invRemap r) b + 1) 0 := hm
  unfold Layout.boxSize; omega

/-- If a step in direction `d` leaves the box of `r`, it does so along the axis of `d`. -/
theorem off_axis (h : lay.WF) (r : ℕ) (c : Site n) (d : Dir n) (hc : BoxOf lay r c)
    (ho : ¬ BoxOf lay r (lay.neighbour c d)) :
    ¬ (lay.boxMin r (axis d) ≤ pstep (isUp d) (lay.L (axis d)) (c (axis d)) ∧
      pstep (isUp d) (lay.L (axis d)) (c (axis d)) < lay.boxMin r (axis d) + lay.boxSize r (axis d)) := by
  intro hin
  apply ho
  intro b
  rw [neighbour_eq lay h c (inBox_inLattice lay h r c hc)]
  by_cases hb : b = axis d
  · subst hb; rw [Function.update_self]; exact hin
  · rw [Function.update_of_ne hb]; exact hc b

theorem off_same_face (h : lay.WF) (r : ℕ) (c c' : Site n) (d : Dir n) (hc : BoxOf lay r c)
    (hc' : BoxOf lay r c') (ho : ¬ BoxOf lay r (lay.neighbour c d))
    (ho' : ¬ BoxOf lay r (lay.neighbour c' d)) : c (axis d) = c' (axis d) :=
  exit_unique (isUp d) _ _ _ _ _ (box_le lay h r (axis d)) (hc _) (hc' _)
    (off_axis lay h r c d hc ho) (off_axis lay h r c' d hc' ho')

/-- The partner rank, the same for all sites of the face. -/
theorem off_same_rank (h : lay.WF) (r : ℕ) (c c' : Site n) (d : Dir n) (hc : BoxOf lay r c)
    (hc' : BoxOf lay r c') (ho : ¬ BoxOf lay r (lay.neighbour c d))
    (ho' : ¬ BoxOf lay r (lay.neighbour c' d)) :
    lay.nodeRank (lay.neighbour c d) = lay.nodeRank (lay.neighbour c' d) := by
  have hl := inBox_inLattice lay h r c hc
  have hl' := inBox_inLattice lay h r c' hc'
  have hf := off_same_face lay h r c c' d hc hc' ho ho'
  rw [nodeRank_eq, nodeRank_eq]
  congr 2
  funext b
  by_cases hb : b = axis d
  · subst hb
    unfold Layout.nodeCoord
    rw [neighbour_eq lay h c hl, neighbour_eq lay h c' hl', Function.update_self,
      Function.update_self, hf]
  · have e1 : lay.nodeCoord (lay.neighbour c d) b = lay.nodeCoord c b := by
      unfold Layout.nodeCoord; rw [neighbour_eq lay h c hl, Function.update_of_ne hb]
    have e2 : lay.nodeCoord (lay.neighbour c' d) b = lay.nodeCoord c' b := by
      unfold Layout.nodeCoord; rw [neighbour_eq lay h c' hl', Function.update_of_ne hb]
    rw [e1, e2, (box_axis_iff lay h r c b (hl b)).1 (hc b), (box_axis_iff lay h r c' b (hl' b)).1 (hc' b)]

/-- Boxes of partner ranks agree across the face. -/
theorem partner_box (h : lay.WF) (r : ℕ) (c : Site n) (d : Dir n)
    (hc : BoxOf lay r c) (b : Fin n) (hb : b ≠ axis d) :
    lay.boxMin (lay.nodeRank (lay.neighbour c d)) b = lay.boxMin r b ∧
    lay.boxSize (lay.nodeRank (lay.neighbour c d)) b = lay.boxSize r b := by
  have hl := inBox_inLattice lay h r c hc
  have e : digits lay.ndiv (lay.invRemap (lay.nodeRank (lay.neighbour c d))) b =
      digits lay.ndiv (lay.invRemap r) b := by
    rw [invRemap_digits lay h _ (neighbour_inLattice lay h c hl d)]
    rw [← (box_axis_iff lay h r c b (hl b)).1 (hc b)]
    unfold Layout.nodeCoord; rw [neighbour_eq lay h c hl, Function.update_of_ne hb]
  unfold Layout.boxSize Layout.boxMin
  rw [e]; exact ⟨rfl, rfl⟩

theorem off_rank_ne (h : lay.WF) (r : ℕ) (hr : r < lay.numNodes) (c : Site n) (d : Dir n)
    (hc : BoxOf lay r c) (ho : ¬ BoxOf lay r (lay.neighbour c d)) :
    lay.nodeRank (lay.neighbour c d) ≠ r := fun e =>
  ho ((inBox_iff_nodeRank lay h r hr _
    (neighbour_inLattice lay h c (inBox_inLattice lay h r c hc) d)).2 e)

theorem box_nodeRank (h : lay.WF) (e : Site n) (he : lay.InLattice e) :
    BoxOf lay (lay.nodeRank e) e :=
  (inBox_iff_nodeRank lay h _ (nodeRank_lt lay h e he) e he).2 rfl

/-- The neighbour of an off-node site, seen from its own rank, is off-node in the opposite
direction, and leads back. -/
theorem off_partner (h : lay.WF) (r : ℕ) (hr : r < lay.numNodes) (c : Site n) (d : Dir n)
    (hc : BoxOf lay r c) (ho : ¬ BoxOf lay r (lay.neighbour c d)) :
    ¬ BoxOf lay (lay.nodeRank (lay.neighbour c d))
      (lay.neighbour (lay.neighbour c d) (oppDir d)) := by
  have hl := inBox_inLattice lay h r c hc
  have hnl := neighbour_inLattice lay h c hl d
  rw [neighbour_back lay h c hl]
  intro hb
  have e := (inBox_iff_nodeRank lay h _ (nodeRank_lt lay h _ hnl) c hl).1 hb
  rw [(inBox_iff_nodeRank lay h r hr c hl).1 hc] at e
  exact off_rank_ne lay h r hr c d hc ho e.symm

/-- Parity of the neighbours of two face sites agree iff those of the sites agree. -/
theorem face_parity (h : lay.WF) (r : ℕ) (c c' : Site n) (d : Dir n) (hc : BoxOf lay r c)
    (hc' : BoxOf lay r c') (ho : ¬ BoxOf lay r (lay.neighbour c d))
    (ho' : ¬ BoxOf lay r (lay.neighbour c' d)) :
    ((∑ b, lay.neighbour c d b) % 2 = (∑ b, lay.neighbour c' d b) % 2) ↔
      ((∑ b, c b) % 2 = (∑ b, c' b) % 2) := by
  have hf := off_same_face lay h r c c' d hc hc' ho ho'
  have key : ∀ x : Site n, lay.InLattice x → (∑ b, lay.neighbour x d b) + x (axis d) =
      (∑ b, x b) + pstep (isUp d) (lay.L (axis d)) (x (axis d)) := by
    intro x hx
    rw [neighbour_eq lay h x hx, Finset.sum_update_of_mem (Finset.mem_univ _),
      ← Finset.sum_sdiff (Finset.subset_univ {axis d}) (f := x), Finset.sum_singleton]
    omega
  have k1 := key c (inBox_inLattice lay h r c hc)
  have k2 := key c' (inBox_inLattice lay h r c' hc')
  rw [hf] at k1
  omega

/-- Within one parity the slot order is the lexicographic order. -/
theorem slot_lt_iff (a b c c' : Site n) (hc : InBox a b c) (hc' : InBox a b c')
    (hp : (∑ d, c d) % 2 = (∑ d, c' d) % 2) :
    (NodeInfo.ofBox a b).siteIndex c < (NodeInfo.ofBox a b).siteIndex c' ↔
      lex b (fun d => c d - a d) < lex b (fun d => c' d - a d) := by
  have hl := logicalIndex_eq_lex (NodeInfo.ofBox a b) c
  have hl' := logicalIndex_eq_lex (NodeInfo.ofBox a b) c'
  rw [ofBox_size, ofBox_min] at hl hl'
  have hhalf : (NodeInfo.ofBox a b).siteIndex c < (NodeInfo.ofBox a b).siteIndex c' ↔
      (NodeInfo.ofBox a b).logicalIndex c / 2 < (NodeInfo.ofBox a b).logicalIndex c' / 2 := by
    rw [siteIndex_eq, siteIndex_eq]
    split <;> split <;> omega
  rw [hhalf, ← hl, ← hl']
  constructor
  · intro hh; omega
  · intro hh
    by_contra hcon
    have e : (NodeInfo.ofBox a b).logicalIndex c / 2 = (NodeInfo.ofBox a b).logicalIndex c' / 2 := by
      omega
    have := half_inj a b _ _ (logical_lt a b c hc) (logical_lt a b c' hc') e (by
      rw [boxSite_logical a b c hc, boxSite_logical a b c' hc']; exact hp)
    omega

/-- Slot order on a face agrees with slot order of the neighbours on the partner rank. -/
theorem face_order (h : lay.WF) (r : ℕ) (c c' : Site n) (d : Dir n) (hc : BoxOf lay r c)
    (hc' : BoxOf lay r c') (ho : ¬ BoxOf lay r (lay.neighbour c d))
    (ho' : ¬ BoxOf lay r (lay.neighbour c' d)) (hp : (∑ b, c b) % 2 = (∑ b, c' b) % 2) :
    (lay.nodeinfo r).siteIndex c < (lay.nodeinfo r).siteIndex c' ↔
      (lay.nodeinfo (lay.nodeRank (lay.neighbour c d))).siteIndex (lay.neighbour c d) <
      (lay.nodeinfo (lay.nodeRank (lay.neighbour c d))).siteIndex (lay.neighbour c' d) := by
  have hl := inBox_inLattice lay h r c hc
  have hl' := inBox_inLattice lay h r c' hc'
  have hf := off_same_face lay h r c c' d hc hc' ho ho'
  have hrk := off_same_rank lay h r c c' d hc hc' ho ho'
  have hS := box_nodeRank lay h _ (neighbour_inLattice lay h c hl d)
  have hS' := box_nodeRank lay h _ (neighbour_inLattice lay h c' hl' d)
  rw [← hrk] at hS'
  have hbox := partner_box lay h r c d hc
  set S := lay.nodeRank (lay.neighbour c d) with hSdef
  rw [nodeinfo_eq, nodeinfo_eq, slot_lt_iff _ _ c c' hc hc' hp,
    slot_lt_iff _ _ _ _ hS hS' ((face_parity lay h r c c' d hc hc' ho ho').2 hp)]
  apply lex_lt_congr
  · intro b; have := hc b; omega
  · intro b; have := hc' b; omega
  · intro b; have := hS b; omega
  · intro b; have := hS' b; omega
  · intro b
    by_cases hb : b = axis d
    · right
      subst hb
      rw [neighbour_eq lay h c hl, neighbour_eq lay h c' hl', Function.update_self,
        Function.update_self, hf]
      exact ⟨rfl, rfl⟩
    · left
      rw [neighbour_eq lay h c hl, neighbour_eq lay h c' hl', Function.update_of_ne hb,
        Function.update_of_ne hb, (hbox b hb).1, (hbox b hb).2]
      exact ⟨rfl, rfl, rfl⟩

end Rank

/-! ### Order isomorphisms and counts -/

theorem count_iso (P Q : ℕ → Prop) [DecidablePred P] [DecidablePred Q] (V W : ℕ) (f g : ℕ → ℕ)
    (hf : ∀ i, i < V → P i → f i < W ∧ Q (f i) ∧ g (f i) = i)
    (hg : ∀ j, j < W → Q j → g j < V ∧ P (g j) ∧ f (g j) = j)
    (hmono : ∀ i i', i < V → i' < V → P i → P i' → (i < i' ↔ f i < f i')) :
    Nat.count P V = Nat.count Q W ∧ ∀ i, i < V → P i → Nat.count P i = Nat.count Q (f i) := by
  constructor
  · rw [Nat.count_eq_card_filter_range, Nat.count_eq_card_filter_range]
    apply Finset.card_bij' (fun i _ => f i) (fun j _ => g j)
    · intro i hi; simp at hi ⊢; have := hf i hi.1 hi.2; exact ⟨this.1, this.2.1⟩
    · intro j hj; simp at hj ⊢; have := hg j hj.1 hj.2; exact ⟨this.1, this.2.1⟩
    · intro i hi; simp at hi; exact (hf i hi.1 hi.2).2.2
    · intro j hj; simp at hj; exact (hg j hj.1 hj.2).2.2
  · intro i hi hPi
    rw [Nat.count_eq_card_filter_range, Nat.count_eq_card_filter_range]
    apply Finset.card_bij' (fun i _ => f i) (fun j _ => g j)
    · intro k hk; simp at hk ⊢
      have := hf k (by omega) hk.2
      exact ⟨(hmono k i (by omega) hi hk.2 hPi).1 hk.1, this.2.1⟩
    · intro j hj; simp at hj ⊢
      have hfi := hf i hi hPi
      have := hg j (by omega) hj.2
      refine ⟨(hmono (g j) i this.1 hi this.2.1 hPi).2 ?_, this.2.1⟩
      rw [this.2.2]; exact hj.1
    · intro k hk; simp at hk; exact (hf k (by omega) hk.2).2.2
    · intro j hj; simp at hj
      have hfi := hf i hi hPi
      exact (hg j (by omega) hj.2).2.2

/-! ### Linking the tables of partner ranks -/

section Link
variable {n : ℕ} (lay : Layout n)

/-- Slot on the partner rank of the neighbour of slot `i`. -/
def partnerSlot (r : ℕ) (d : Dir n) (i : ℕ) : ℕ :=
  let e := lay.neighbour ((lay.nodeinfo r).coord i) d
  (lay.nodeinfo (lay.nodeRank e)).siteIndex e

theorem ev_iff (r i : ℕ) : Ev lay r i ↔ (∑ b, (lay.nodeinfo r).coord i b) % 2 = 0 := by
  unfold Ev; rw [Site.parity_even_iff]

theorem nev_iff (r : ℕ) (d : Dir n) (i : ℕ) :
    NEv lay r d i ↔ (∑ b, lay.neighbour ((lay.nodeinfo r).coord i) d b) % 2 = 0 := by
  unfold NEv; rw [Site.parity_even_iff]

/-- Everything about one off-node slot. -/
theorem link (h : lay.WF) (r : ℕ) (hr : r < lay.numNodes) (d : Dir n) (i : ℕ)
    (hi : i < (lay.nodeinfo r).volume) (ho : Off lay r d i) (S : ℕ)
    (hS : S = lay.nodeRank (lay.neighbour ((lay.nodeinfo r).coord i) d)) :
    S < lay.numNodes ∧ S ≠ r ∧ partnerSlot lay r d i < (lay.nodeinfo S).volume ∧
    (lay.nodeinfo S).coord (partnerSlot lay r d i) = lay.neighbour ((lay.nodeinfo r).coord i) d ∧
    Off lay S (oppDir d) (partnerSlot lay r d i) ∧
    (NEv lay S (oppDir d) (partnerSlot lay r d i) ↔ Ev lay r i) ∧
    (Ev lay S (partnerSlot lay r d i) ↔ NEv lay r d i) ∧
    lay.nodeRank (lay.neighbour ((lay.nodeinfo S).coord (partnerSlot lay r d i)) (oppDir d)) = r ∧
    partnerSlot lay S (oppDir d) (partnerSlot lay r d i) = i := by
  obtain ⟨hc, hci⟩ := coord_spec lay r i hi
  rw [off_iff] at ho
  have hl := inBox_inLattice lay h r _ hc
  have hnl := neighbour_inLattice lay h _ hl d
  have hb := box_nodeRank lay h _ hnl
  have hcs := coord_siteIndex lay _ _ hb
  rw [← hS] at hcs
  have hslot : partnerSlot lay r d i =
      (lay.nodeinfo S).siteIndex (lay.neighbour ((lay.nodeinfo r).coord i) d) := by
    rw [hS]; rfl
  have hcoord : (lay.nodeinfo S).coord (partnerSlot lay r d i) =
      lay.neighbour ((lay.nodeinfo r).coord i) d := by rw [hslot]; exact hcs.2
  have hback : lay.neighbour ((lay.nodeinfo S).coord (partnerSlot lay r d i)) (oppDir d) =
      (lay.nodeinfo r).coord i := by rw [hcoord, neighbour_back lay h _ hl]
  have hrank := (inBox_iff_nodeRank lay h r hr _ hl).1 hc
  refine ⟨?_, ?_, ?_, hcoord, ?_, ?_, ?_, ?_, ?_⟩
  · rw [hS]; exact nodeRank_lt lay h _ hnl
  · rw [hS]; exact off_rank_ne lay h r hr _ d hc ho
  · rw [hslot]; exact hcs.1
  · rw [off_iff, hcoord, hS]; exact off_partner lay h r hr _ d hc ho
  · rw [nev_iff, hback, ev_iff]
  · rw [ev_iff, hcoord, nev_iff]
  · rw [hback]; exact hrank
  · have : partnerSlot lay S (oppDir d) (partnerSlot lay r d i) =
        (lay.nodeinfo (lay.nodeRank ((lay.nodeinfo r).coord i))).siteIndex
          ((lay.nodeinfo r).coord i) := by
      show (lay.nodeinfo (lay.nodeRank (lay.neighbour ((lay.nodeinfo S).coord
        (partnerSlot lay r d i)) (oppDir d)))).siteIndex (lay.neighbour ((lay.nodeinfo S).coord
        (partnerSlot lay r d i)) (oppDir d)) = _
      rw [hback]
    rw [this, hrank, hci]

theorem off_rank_const (h : lay.WF) (r : ℕ) (d : Dir n) (i j : ℕ)
    (hi : i < (lay.nodeinfo r).volume) (hj : j < (lay.nodeinfo r).volume)
    (ho : Off lay r d i) (ho' : Off lay r d j) :
    lay.nodeRank (lay.neighbour ((lay.nodeinfo r).coord i) d) =
      lay.nodeRank (lay.neighbour ((lay.nodeinfo r).coord j) d) :=
  off_same_rank lay h r _ _ d (coord_spec lay r i hi).1 (coord_spec lay r j hj).1
    ((off_iff lay r d i).1 ho) ((off_iff lay r d j).1 ho')

theorem off_ev_nev (h : lay.WF) (r : ℕ) (d : Dir n) (i j : ℕ)
    (hi : i < (lay.nodeinfo r).volume) (hj : j < (lay.nodeinfo r).volume)
    (ho : Off lay r d i) (ho' : Off lay r d j) :
    (NEv lay r d i ↔ NEv lay r d j) ↔ (Ev lay r i ↔ Ev lay r j) := by
  have := face_parity lay h r _ _ d (coord_spec lay r i hi).1 (coord_spec lay r j hj).1
    ((off_iff lay r d i).1 ho) ((off_iff lay r d j).1 ho')
  rw [nev_iff, nev_iff, ev_iff, ev_iff]
  omega

theorem partnerSlot_lt_iff (h : lay.WF) (r : ℕ) (d : Dir n) (i j : ℕ)
    (hi : i < (lay.nodeinfo r).volume) (hj : j < (lay.nodeinfo r).volume)
    (ho : Off lay r d i) (ho' : Off lay r d j) (hp : Ev lay r i ↔ Ev lay r j) :
    i < j ↔ partnerSlot lay r d i < partnerSlot lay r d j := by
  obtain ⟨hc, hci⟩ := coord_spec lay r i hi
  obtain ⟨hc', hcj⟩ := coord_spec lay r j hj
  rw [ev_iff, ev_iff] at hp
  have := face_order lay h r _ _ d hc hc' ((off_iff lay r d i).1 ho) ((off_iff lay r d j).1 ho')
    (by omega)
  rw [hci, hcj] at this
  rw [this]
  have e := off_rank_const lay h r d i j hi hj ho ho'
  unfold partnerSlot
  simp only [← e]

/-- Counts on the receiving rank equal counts on the sending rank. -/
theorem counts_match (h : lay.WF) (r : ℕ) (hr : r < lay.numNodes) (d : Dir n) (i₀ : ℕ)
    (hi₀ : i₀ < (lay.nodeinfo r).volume) (ho₀ : Off lay r d i₀) (S : ℕ)
    (hS : S = lay.nodeRank (lay.neighbour ((lay.nodeinfo r).coord i₀) d)) :
    (cFE lay r d (lay.nodeinfo r).volume = cTE lay S (oppDir d) (lay.nodeinfo S).volume ∧
     ∀ i, i < (lay.nodeinfo r).volume → (Off lay r d i ∧ Ev lay r i) →
       cFE lay r d i = cTE lay S (oppDir d) (partnerSlot lay r d i)) ∧
    (cFO lay r d (lay.nodeinfo r).volume = cTO lay S (oppDir d) (lay.nodeinfo S).volume ∧
     ∀ i, i < (lay.nodeinfo r).volume → (Off lay r d i ∧ ¬ Ev lay r i) →
       cFO lay r d i = cTO lay S (oppDir d) (partnerSlot lay r d i)) := by
  have hl₀ := link lay h r hr d i₀ hi₀ ho₀ S hS
  have hSr : ∀ i, i < (lay.nodeinfo r).volume → Off lay r d i →
      S = lay.nodeRank (lay.neighbour ((lay.nodeinfo r).coord i) d) := fun i hi ho => by
    rw [hS]; exact off_rank_const lay h r d i₀ i hi₀ hi ho₀ ho
  have hrS : ∀ j, j < (lay.nodeinfo S).volume → Off lay S (oppDir d) j →
      r = lay.nodeRank (lay.neighbour ((lay.nodeinfo S).coord j) (oppDir d)) := fun j hj ho => by
    rw [← hl₀.2.2.2.2.2.2.2.1]
    exact off_rank_const lay h S (oppDir d) _ j hl₀.2.2.1 hj hl₀.2.2.2.2.1 ho
  constructor
  · apply count_iso _ _ _ _ (partnerSlot lay r d) (partnerSlot lay S (oppDir d))
    · rintro i hi ⟨ho, he⟩
      obtain ⟨_, _, h3, _, h5, h6, _, _, h9⟩ := link lay h r hr d i hi ho S (hSr i hi ho)
      exact ⟨h3, ⟨h5, h6.2 he⟩, h9⟩
    · rintro j hj ⟨ho, he⟩
      obtain ⟨_, _, h3, _, h5, _, h7, _, h9⟩ :=
        link lay h S hl₀.1 (oppDir d) j hj ho r (hrS j hj ho)
      rw [oppDir_oppDir] at h5 h9
      exact ⟨h3, ⟨h5, h7.2 he⟩, h9⟩
    · rintro i j hi hj ⟨ho, he⟩ ⟨ho', he'⟩
      exact partnerSlot_lt_iff lay h r d i j hi hj ho ho' (iff_of_true he he')
  · apply count_iso _ _ _ _ (partnerSlot lay r d) (partnerSlot lay S (oppDir d))
    · rintro i hi ⟨ho, he⟩
      obtain ⟨_, _, h3, _, h5, h6, _, _, h9⟩ := link lay h r hr d i hi ho S (hSr i hi ho)
      exact ⟨h3, ⟨h5, fun hh => he (h6.1 hh)⟩, h9⟩
    · rintro j hj ⟨ho, he⟩
      obtain ⟨_, _, h3, _, h5, _, h7, _, h9⟩ :=
        link lay h S hl₀.1 (oppDir d) j hj ho r (hrS j hj ho)
      rw [oppDir_oppDir] at h5 h9
      exact ⟨h3, ⟨h5, fun hh => he (h7.1 hh)⟩, h9⟩
    · rintro i j hi hj ⟨ho, he⟩ ⟨ho', he'⟩
      exact partnerSlot_lt_iff lay h r d i j hi hj ho ho' (iff_of_false he he')

/-! ### The tables themselves -/

theorem count_split (P Q : ℕ → Prop) [DecidablePred P] [DecidablePred Q] (m : ℕ) :
    Nat.count (fun i => P i ∧ Q i) m + Nat.count (fun i => P i ∧ ¬ Q i) m = Nat.count P m := by
  induction m with
  | zero => simp
  | succ m ih =>
    rw [Nat.count_succ, Nat.count_succ, Nat.count_succ]
    by_cases hp : P m <;> by_cases hq : Q m <;> simp [hp, hq] <;> omega

theorem pass1_spec (r : ℕ) (d : Dir n) :
    (pass1 lay r d).fromEven = cFE lay r d (lay.nodeinfo r).volume ∧
    (pass1 lay r d).fromOdd = cFO lay r d (lay.nodeinfo r).volume ∧
    (pass1 lay r d).toEven = cTE lay r d (lay.nodeinfo r).volume ∧
    (pass1 lay r d).toOdd = cTO lay r d (lay.nodeinfo r).volume :=
  let h := pass1_closed lay r d (lay.nodeinfo r).volume
  ⟨h.1, h.2.1, h.2.2.1, h.2.2.2.1⟩

theorem from_sites (r : ℕ) (d : Dir n) : (pass1 lay r d).fromEven + (pass1 lay r d).fromOdd =
    Nat.count (Off lay r d) (lay.nodeinfo r).volume := by
  obtain ⟨h1, h2, _, _⟩ := pass1_spec lay r d
  rw [h1, h2]; exact count_split _ _ _

theorem to_sites (r : ℕ) (d : Dir n) : (pass1 lay r d).toEven + (pass1 lay r d).toOdd =
    Nat.count (Off lay r d) (lay.nodeinfo r).volume := by
  obtain ⟨_, _, h1, h2⟩ := pass1_spec lay r d
  rw [h1, h2]; exact count_split _ _ _

theorem pass1_rank_none (r : ℕ) (d : Dir n)
    (hno : ∀ j, j < (lay.nodeinfo r).volume → ¬ Off lay r d j) : (pass1 lay r d).rank = r :=
  (pass1_closed lay r d (lay.nodeinfo r).volume).2.2.2.2.2.1 hno

theorem pass1_rank (h : lay.WF) (r : ℕ) (hr : r < lay.numNodes) (d : Dir n) (i : ℕ)
    (hi : i < (lay.nodeinfo r).volume) (ho : Off lay r d i) :
    (pass1 lay r d).rank = lay.nodeRank (lay.neighbour ((lay.nodeinfo r).coord i) d) := by
  obtain ⟨_, _, _, _, _, _, h7, h8⟩ := pass1_closed lay r d (lay.nodeinfo r).volume
  have hne := h8 ⟨i, hi, ho⟩ fun j hj hoj => (link lay h r hr d j hj hoj _ rfl).2.1
  rcases h7 with h7 | ⟨j, hj, hoj, e⟩
  · exact absurd h7 hne
  · exact e.trans (off_rank_const lay h r d j i hj hi hoj ho)

theorem count_pos_iff (r : ℕ) (d : Dir n) : 0 < Nat.count (Off lay r d) (lay.nodeinfo r).volume ↔
    ∃ i, i < (lay.nodeinfo r).volume ∧ Off lay r d i := by
  rw [Nat.count_eq_card_filter_range, Finset.card_pos]
  constructor
  · rintro ⟨i, hi⟩; simp at hi; exact ⟨i, hi⟩
  · rintro ⟨i, hi⟩; exact ⟨i, by simpa using hi⟩

theorem onIdx_lt (r : ℕ) (d : Dir n) (i : ℕ) (ho : ¬ Off lay r d i) :
    (lay.nodeinfo r).siteIndex (lay.neighbour ((lay.nodeinfo r).coord i) d) <
      (lay.nodeinfo r).volume := by
  rw [off_iff, not_not] at ho
  exact (coord_siteIndex lay r _ ho).1

/-- Closed form of the neighbour table. -/
theorem neighb_spec (r : ℕ) (d : Dir n) (i : ℕ) (hi : i < (lay.nodeinfo r).volume) :
    neighb lay r d i = if Off lay r d i then
        (if Ev lay r i then cOffset lay r d.val + cFE lay r d i
          else cOffset lay r d.val + cFE lay r d (lay.nodeinfo r).volume + cFO lay r d i)
      else (lay.nodeinfo r).siteIndex (lay.neighbour ((lay.nodeinfo r).coord i) d) := by
  have hp1 := (pass1_closed lay r d (lay.nodeinfo r).volume).2.2.2.2.1
  obtain ⟨s1, s2, s3, s4⟩ := pass1_spec lay r d
  have hiff : ∀ j, j < (lay.nodeinfo r).volume →
      ((pass1 lay r d).neighb j = (lay.nodeinfo r).volume ↔ Off lay r d j) := by
    intro j hj
    have e : (pass1 lay r d).neighb j = _ := hp1 j hj
    rw [e]
    by_cases ho : Off lay r d j
    · simp [ho]
    · rw [if_neg ho]
      have := onIdx_lt lay r d j ho
      exact ⟨fun hh => by omega, fun hh => absurd hh ho⟩
  unfold neighb pass2
  simp only
  by_cases hpos : 0 < (pass1 lay r d).toEven + (pass1 lay r d).toOdd
  · rw [if_pos hpos]
    have hc := (pass2_closed lay r d (cOffset lay r d.val) (pass1 lay r d).fromEven
      (pass1 lay r d).toEven (pass1 lay r d).neighb _ rfl hiff s3 _ (le_refl _)).2.2.2.2.1 i
    rw [hc, s1]
    by_cases ho : Off lay r d i
    · simp [hi, ho]
    · have e : (pass1 lay r d).neighb i = _ := hp1 i hi
      simp [ho, e]
  · rw [if_neg hpos]
    have hno : ¬ Off lay r d i := fun ho => hpos (by
      rw [to_sites, count_pos_iff]; exact ⟨i, hi, ho⟩)
    have e : (pass1 lay r d).neighb i = _ := hp1 i hi
    simp only [e, if_neg hno]

/-- Closed form of the list of sites to send. -/
theorem sitelist_spec (r : ℕ) (d : Dir n) (i : ℕ) (hi : i < (lay.nodeinfo r).volume)
    (ho : Off lay r d i) :
    (pass2 lay r d (cOffset lay r d.val)).sitelist
      (if NEv lay r d i then cTE lay r d i
        else cTO lay r d i + cTE lay r d (lay.nodeinfo r).volume) = i := by
  have hp1 := (pass1_closed lay r d (lay.nodeinfo r).volume).2.2.2.2.1
  obtain ⟨s1, s2, s3, s4⟩ := pass1_spec lay r d
  have hiff : ∀ j, j < (lay.nodeinfo r).volume →
      ((pass1 lay r d).neighb j = (lay.nodeinfo r).volume ↔ Off lay r d j) := by
    intro j hj
    have e : (pass1 lay r d).neighb j = _ := hp1 j hj
    rw [e]
    by_cases ho : Off lay r d j
    · simp [ho]
    · rw [if_neg ho]
      have := onIdx_lt lay r d j ho
      exact ⟨fun hh => by omega, fun hh => absurd hh ho⟩
  unfold pass2
  simp only
  have hpos : 0 < (pass1 lay r d).toEven + (pass1 lay r d).toOdd := by
    rw [to_sites, count_pos_iff]; exact ⟨i, hi, ho⟩
  rw [if_pos hpos, ← s3]
  exact (pass2_closed lay r d (cOffset lay r d.val) (pass1 lay r d).fromEven
      (pass1 lay r d).toEven (pass1 lay r d).neighb _ rfl hiff s3 _ (le_refl _)).2.2.2.2.2 i hi ho

end Link

end Hila
