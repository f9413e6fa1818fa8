import Verif.Model.OverlapLayout
import Verif.Lemmas.GatherLink

/-! # Lemmas on the storage order with overlapping communication -/

namespace Hila

/-! ### Ordering by class, then by position -/

section Rank
variable (cls : ℕ → ℕ) (V : ℕ)

/-- Number of positions with a class below `k`. -/
def clsStart (k : ℕ) : ℕ := Nat.count (fun j => cls j < k) V

/-- Place of `i` when positions are sorted by class and then by position. -/
def clsRank (i : ℕ) : ℕ := clsStart cls V (cls i) + Nat.count (fun j => cls j = cls i) i

theorem clsStart_succ (k : ℕ) :
    clsStart cls V (k + 1) = clsStart cls V k + Nat.count (fun j => cls j = k) V := by
  unfold clsStart
  induction V with
  | zero => rfl
  | succ V ih =>
    rw [Nat.count_succ, Nat.count_succ, Nat.count_succ, ih]
    by_cases h1 : cls V < k
    · rw [if_pos (by omega), if_pos h1, if_neg (by omega)]; omega
    · by_cases h2 : cls V = k
      · rw [if_pos (by omega), if_neg h1, if_pos h2]; omega
      · rw [if_neg (by omega), if_neg h1, if_neg h2]; omega

theorem clsStart_mono {k k' : ℕ} (h : k ≤ k') : clsStart cls V k ≤ clsStart cls V k' := by
  induction k', h using Nat.le_induction with
  | base => exact le_rfl
  | succ m _ ih => rw [clsStart_succ]; omega

theorem clsStart_zero : clsStart cls V 0 = 0 := by
  unfold clsStart
  rw [Nat.count_eq_card_filter_range]
  simp

theorem clsStart_top {k : ℕ} (h : ∀ j, j < V → cls j < k) : clsStart cls V k = V := by
  unfold clsStart
  rw [Nat.count_eq_card_filter_range, Finset.filter_true_of_mem]
  · simp
  · intro j hj
    exact h j (Finset.mem_range.1 hj)

theorem clsRank_bounds {i : ℕ} (hi : i < V) :
    clsStart cls V (cls i) ≤ clsRank cls V i ∧ clsRank cls V i < clsStart cls V (cls i + 1) := by
  have := count_lt_of (fun j => cls j = cls i) V i hi rfl
  rw [clsStart_succ]
  unfold clsRank
  omega

theorem clsRank_lt {i : ℕ} (hi : i < V) : clsRank cls V i < V := by
  have h1 := (clsRank_bounds cls V hi).2
  have h2 : clsStart cls V (cls i + 1) ≤ V := by
    unfold clsStart
    exact Nat.count_le _
  omega

theorem clsRank_ge_iff {i : ℕ} (hi : i < V) (k : ℕ) :
    clsStart cls V k ≤ clsRank cls V i ↔ k ≤ cls i := by
  have hb := clsRank_bounds cls V hi
  constructor
  · intro h
    by_contra hk
    have := clsStart_mono cls V (show cls i + 1 ≤ k by omega)
    omega
  · intro h
    have := clsStart_mono cls V h
    omega

theorem clsRank_lt_iff {i j : ℕ} (hi : i < V) (hj : j < V) :
    clsRank cls V i < clsRank cls V j ↔ cls i < cls j ∨ (cls i = cls j ∧ i < j) := by
  have hbi := clsRank_bounds cls V hi
  have hbj := clsRank_bounds cls V hj
  rcases Nat.lt_trichotomy (cls i) (cls j) with h | h | h
  · have := clsStart_mono cls V (show cls i + 1 ≤ cls j by omega)
    constructor
    · intro _; exact Or.inl h
    · intro _; omega
  · constructor
    · intro hlt
      refine Or.inr ⟨h, ?_⟩
      by_contra hge
      have : Nat.count (fun x => cls x = cls j) j ≤ Nat.count (fun x => cls x = cls j) i :=
        Nat.count_monotone _ (by omega)
      unfold clsRank at hlt
      rw [h] at hlt
      omega
    · rintro (h' | ⟨_, h'⟩)
      · omega
      · have h1 := count_lt_of (fun x => cls x = cls i) j i h' rfl
        unfold clsRank
        rw [← h]
        omega
  · have := clsStart_mono cls V (show cls j + 1 ≤ cls i by omega)
    constructor
    · intro _; omega
    · rintro (h' | ⟨h', _⟩) <;> omega

theorem clsRank_inj {i j : ℕ} (hi : i < V) (hj : j < V) (h : clsRank cls V i = clsRank cls V j) :
    i = j := by
  have h1 := clsRank_lt_iff cls V hi hj
  have h2 := clsRank_lt_iff cls V hj hi
  by_contra hne
  rw [h] at h1 h2
  have h1' := fun h => lt_irrefl _ (h1.2 h)
  have h2' := fun h => lt_irrefl _ (h2.2 h)
  by_cases hc : cls i = cls j
  · rcases Nat.lt_or_gt_of_ne hne with hl | hl
    · exact h1' (Or.inr ⟨hc, hl⟩)
    · exact h2' (Or.inr ⟨hc.symm, hl⟩)
  · rcases Nat.lt_or_gt_of_ne hc with hl | hl
    · exact h1' (Or.inl hl)
    · exact h2' (Or.inl hl)

theorem clsRank_surj {k : ℕ} (hk : k < V) : ∃ i, i < V ∧ clsRank cls V i = k := by
  have hinj : Function.Injective (fun i : Fin V => (⟨clsRank cls V i, clsRank_lt cls V i.isLt⟩ : Fin V)) := by
    intro i j hij
    exact Fin.ext (clsRank_inj cls V i.isLt j.isLt (congrArg Fin.val hij))
  obtain ⟨i, hi⟩ := Finite.surjective_of_injective hinj ⟨k, hk⟩
  exact ⟨i, i.isLt, congrArg Fin.val hi⟩

end Rank

/-! ### The loops of `construct_index_map` -/

/-- Group of a site: inner even 0, inner odd 1, boundary even 2, boundary odd 3. -/
def siteGroup {n : ℕ} (a b l : Site n) : ℕ :=
  if l.parity = .even then (if isBoundarySite a b l then 2 else 0)
  else (if isBoundarySite a b l then 3 else 1)

theorem siteGroup_lt {n : ℕ} (a b l : Site n) : siteGroup a b l < 4 := by
  unfold siteGroup
  split <;> split <;> omega

/-- Counter of a group. -/
def OvCount.get (s : OvCount) : ℕ → ℕ
  | 0 => s.innerEven
  | 1 => s.innerOdd
  | 2 => s.boundaryEven
  | _ => s.boundaryOdd

theorem ovNext_fst {n : ℕ} (a b l : Site n) (s : OvCount) :
    (OvCount.next (NodeInfo.ofBox a b) s l).1 = s.get (siteGroup a b l) := by
  unfold OvCount.next siteGroup
  rw [ofBox_min, ofBox_size]
  dsimp only
  split <;> split <;> rfl

theorem ovNext_snd {n : ℕ} (a b l : Site n) (s : OvCount) (g : ℕ) (hg : g < 4) :
    (OvCount.next (NodeInfo.ofBox a b) s l).2.get g =
      s.get g + if siteGroup a b l = g then 1 else 0 := by
  unfold OvCount.next siteGroup
  rw [ofBox_min, ofBox_size]
  dsimp only
  have : g = 0 ∨ g = 1 ∨ g = 2 ∨ g = 3 := by omega
  rcases this with rfl | rfl | rfl | rfl <;> split <;> split <;> simp [OvCount.get]

variable {n : ℕ} (a b : Site n)

/-- Group of the site with logical index `i`. -/
def boxGroup (i : ℕ) : ℕ := siteGroup a b (boxSite a b i)

theorem boxSite_zero : (NodeInfo.ofBox a b).min = boxSite a b 0 := by
  rw [ofBox_min]; funext d; simp [boxSite, digits_zero]

theorem ovCount_inv (k : ℕ) (hk : k ≤ ∏ d, b d) :
    (k < ∏ d, b d → ((NodeInfo.ofBox a b).ovCount k).2 = boxSite a b k) ∧
    ∀ g, g < 4 → ((NodeInfo.ofBox a b).ovCount k).1.get g =
      Nat.count (fun i => boxGroup a b i = g) k := by
  induction k with
  | zero =>
    refine ⟨fun _ => boxSite_zero a b, ?_⟩
    intro g hg
    have : g = 0 ∨ g = 1 ∨ g = 2 ∨ g = 3 := by omega
    rcases this with rfl | rfl | rfl | rfl <;> rfl
  | succ k ih =>
    obtain ⟨h1, h2⟩ := ih (by omega)
    have hl := h1 (by omega)
    have hunf : (NodeInfo.ofBox a b).ovCount (k + 1) =
        ((OvCount.next (NodeInfo.ofBox a b) ((NodeInfo.ofBox a b).ovCount k).1
          ((NodeInfo.ofBox a b).ovCount k).2).2,
          advance (NodeInfo.ofBox a b).min (NodeInfo.ofBox a b).size
            ((NodeInfo.ofBox a b).ovCount k).2) := rfl
    rw [hunf, hl]
    refine ⟨fun hlt => ?_, fun g hg => ?_⟩
    · dsimp only
      rw [ofBox_min, ofBox_size]; exact advance_boxSite a b k hlt
    · dsimp only
      rw [ovNext_snd _ _ _ _ _ hg, h2 g hg, Nat.count_succ]
      rfl

abbrev gStart (k : ℕ) : ℕ := clsStart (boxGroup a b) (∏ d, b d) k

theorem gStart_succ (k : ℕ) (hk : k < 4) : gStart a b (k + 1) = gStart a b k +
    ((NodeInfo.ofBox a b).ovCount (NodeInfo.ofBox a b).volume).1.get k := by
  rw [ofBox_volume, (ovCount_inv a b _ le_rfl).2 k hk]
  exact clsStart_succ _ _ _

theorem innerStartOdd_eq : (NodeInfo.ofBox a b).innerStartOdd = gStart a b 1 := by
  rw [gStart_succ a b 0 (by omega), gStart, clsStart_zero, Nat.zero_add]
  rfl

theorem boundaryStartEven_eq : (NodeInfo.ofBox a b).boundaryStartEven = gStart a b 2 := by
  rw [gStart_succ a b 1 (by omega), ← innerStartOdd_eq]
  rfl

theorem boundaryStartOdd_eq : (NodeInfo.ofBox a b).boundaryStartOdd = gStart a b 3 := by
  rw [gStart_succ a b 2 (by omega), ← boundaryStartEven_eq]
  rfl

theorem volume_eq_gStart : (NodeInfo.ofBox a b).volume = gStart a b 4 := by
  rw [ofBox_volume]
  exact (clsStart_top _ _ fun j _ => siteGroup_lt _ _ _).symm

theorem ovFill_inv (k : ℕ) (hk : k ≤ ∏ d, b d) :
    (k < ∏ d, b d → ((NodeInfo.ofBox a b).ovFill k).2.2 = boxSite a b k) ∧
    (∀ g, g < 4 → ((NodeInfo.ofBox a b).ovFill k).2.1.get g =
      gStart a b g + Nat.count (fun i => boxGroup a b i = g) k) ∧
    ∀ i, i < k → ((NodeInfo.ofBox a b).ovFill k).1 i =
      some (clsRank (boxGroup a b) (∏ d, b d) i) := by
  induction k with
  | zero =>
    refine ⟨fun _ => boxSite_zero a b, ?_, fun i hi => by omega⟩
    intro g hg
    have : g = 0 ∨ g = 1 ∨ g = 2 ∨ g = 3 := by omega
    rw [Nat.count_zero, Nat.add_zero]
    rcases this with rfl | rfl | rfl | rfl
    · exact (clsStart_zero _ _).symm
    · exact innerStartOdd_eq a b
    · exact boundaryStartEven_eq a b
    · exact boundaryStartOdd_eq a b
  | succ k ih =>
    obtain ⟨h1, h2, h3⟩ := ih (by omega)
    have hl := h1 (by omega)
    have hunf : (NodeInfo.ofBox a b).ovFill (k + 1) =
        (Function.update ((NodeInfo.ofBox a b).ovFill k).1 k
          (some (OvCount.next (NodeInfo.ofBox a b) ((NodeInfo.ofBox a b).ovFill k).2.1
          ((NodeInfo.ofBox a b).ovFill k).2.2).1),
          (OvCount.next (NodeInfo.ofBox a b) ((NodeInfo.ofBox a b).ovFill k).2.1
          ((NodeInfo.ofBox a b).ovFill k).2.2).2,
          advance (NodeInfo.ofBox a b).min (NodeInfo.ofBox a b).size
            ((NodeInfo.ofBox a b).ovFill k).2.2) := rfl
    rw [hunf, hl]
    refine ⟨fun hlt => ?_, fun g hg => ?_, fun i hi => ?_⟩
    · dsimp only
      rw [ofBox_min, ofBox_size]; exact advance_boxSite a b k hlt
    · dsimp only
      rw [ovNext_snd _ _ _ _ _ hg, h2 g hg, Nat.count_succ, Nat.add_assoc]
      rfl
    · dsimp only
      by_cases hik : i = k
      · subst hik
        rw [Function.update_self, ovNext_fst, h2 _ (siteGroup_lt _ _ _)]
        rfl
      · rw [Function.update_of_ne hik]
        exact h3 i (by omega)

/-- Slot of a site. -/
def ovSlot (c : Site n) : ℕ :=
  clsRank (boxGroup a b) (∏ d, b d) ((NodeInfo.ofBox a b).logicalIndex c)

theorem ovSiteIndex_eq (c : Site n) (h : InBox a b c) :
    (NodeInfo.ofBox a b).ovSiteIndex c = some (ovSlot a b c) := by
  unfold NodeInfo.ovSiteIndex
  rw [ofBox_volume]
  exact (ovFill_inv a b _ le_rfl).2.2 _ (logical_lt a b c h)

theorem ovSlot_lt (c : Site n) (h : InBox a b c) : ovSlot a b c < (NodeInfo.ofBox a b).volume := by
  rw [ofBox_volume]
  exact clsRank_lt _ _ (logical_lt a b c h)

theorem boxGroup_logical (c : Site n) (h : InBox a b c) :
    boxGroup a b ((NodeInfo.ofBox a b).logicalIndex c) = siteGroup a b c := by
  unfold boxGroup
  rw [boxSite_logical a b c h]

theorem ovSlot_ge_iff (c : Site n) (h : InBox a b c) (k : ℕ) :
    gStart a b k ≤ ovSlot a b c ↔ k ≤ siteGroup a b c := by
  rw [← boxGroup_logical a b c h]
  exact clsRank_ge_iff _ _ (logical_lt a b c h) k

theorem ovSlot_lt_iff (c e : Site n) (hc : InBox a b c) (he : InBox a b e) :
    ovSlot a b c < ovSlot a b e ↔ siteGroup a b c < siteGroup a b e ∨
      (siteGroup a b c = siteGroup a b e ∧
        (NodeInfo.ofBox a b).logicalIndex c < (NodeInfo.ofBox a b).logicalIndex e) := by
  rw [← boxGroup_logical a b c hc, ← boxGroup_logical a b e he]
  exact clsRank_lt_iff _ _ (logical_lt a b c hc) (logical_lt a b e he)

theorem ovSlot_inj (c e : Site n) (hc : InBox a b c) (he : InBox a b e)
    (h : ovSlot a b c = ovSlot a b e) : c = e := by
  have := clsRank_inj _ _ (logical_lt a b c hc) (logical_lt a b e he) h
  rw [← boxSite_logical a b c hc, ← boxSite_logical a b e he, this]

theorem ovSlot_surj (i : ℕ) (h : i < (NodeInfo.ofBox a b).volume) :
    ∃ c, InBox a b c ∧ ovSlot a b c = i := by
  rw [ofBox_volume] at h
  obtain ⟨j, hj, hji⟩ := clsRank_surj (boxGroup a b) (∏ d, b d) h
  refine ⟨boxSite a b j, boxSite_inBox a b j hj, ?_⟩
  unfold ovSlot
  rw [logical_boxSite a b j hj, hji]

theorem ovFillCoordinates_inv (k : ℕ) (hk : k ≤ ∏ d, b d) :
    (k < ∏ d, b d → ((NodeInfo.ofBox a b).ovFillCoordinates k).2 = boxSite a b k) ∧
    ∀ i, i < k → ((NodeInfo.ofBox a b).ovFillCoordinates k).1 (ovSlot a b (boxSite a b i)) =
      some (boxSite a b i) := by
  induction k with
  | zero => exact ⟨fun _ => boxSite_zero a b, fun i hi => by omega⟩
  | succ k ih =>
    obtain ⟨h1, h2⟩ := ih (by omega)
    have hl := h1 (by omega)
    have hbk := boxSite_inBox a b k (by omega)
    have hunf : (NodeInfo.ofBox a b).ovFillCoordinates (k + 1) =
        ((match (NodeInfo.ofBox a b).ovSiteIndex ((NodeInfo.ofBox a b).ovFillCoordinates k).2 with
          | some i => Function.update ((NodeInfo.ofBox a b).ovFillCoordinates k).1 i
              (some ((NodeInfo.ofBox a b).ovFillCoordinates k).2)
          | none => ((NodeInfo.ofBox a b).ovFillCoordinates k).1),
          advance (NodeInfo.ofBox a b).min (NodeInfo.ofBox a b).size
            ((NodeInfo.ofBox a b).ovFillCoordinates k).2) := rfl
    rw [hunf, hl, ovSiteIndex_eq a b _ hbk]
    refine ⟨fun hlt => ?_, fun i hi => ?_⟩
    · dsimp only
      rw [ofBox_min, ofBox_size]; exact advance_boxSite a b k hlt
    · dsimp only
      by_cases hik : i = k
      · subst hik
        rw [Function.update_self]
      · rw [Function.update_of_ne]
        · exact h2 i (by omega)
        · intro he
          have hbi := boxSite_inBox a b i (by omega)
          have := ovSlot_inj a b _ _ hbi hbk he
          have h3 := logical_boxSite a b i (by omega)
          rw [this, logical_boxSite a b k (by omega)] at h3
          omega

theorem ovCoordinates_slot (c : Site n) (h : InBox a b c) :
    (NodeInfo.ofBox a b).ovCoordinates (ovSlot a b c) = some c := by
  have := (ovFillCoordinates_inv a b (∏ d, b d) le_rfl).2 ((NodeInfo.ofBox a b).logicalIndex c)
    (logical_lt a b c h)
  rw [boxSite_logical a b c h] at this
  unfold NodeInfo.ovCoordinates
  rw [ofBox_volume]
  exact this

theorem isBoundarySite_false (c : Site n) :
    isBoundarySite a b c = false ↔ ∀ d, c d ≠ a d ∧ c d ≠ a d + b d - 1 := by
  unfold isBoundarySite
  rw [List.any_eq_false]
  simp

/-! ### Faces -/

section Face
variable (lay : Layout n)

/-- A step from a site that is not on the boundary stays on the rank. -/
theorem inner_stays (h : lay.WF) (r : ℕ) (c : Site n) (d : Dir n) (hc : BoxOf lay r c)
    (hb : isBoundarySite (lay.boxMin r) (lay.boxSize r) c = false) :
    BoxOf lay r (lay.neighbour c d) := by
  by_contra ho
  have hx := off_axis lay h r c d hc ho
  have hin := hc (axis d)
  have hle := box_le lay h r (axis d)
  have hne := (isBoundarySite_false _ _ c).1 hb (axis d)
  cases hu : isUp d
  · rw [hu, pstep_down _ _ (by omega)] at hx
    split at hx <;> omega
  · rw [hu, pstep_up _ _ (by omega)] at hx
    split at hx <;> omega

theorem siteGroup_boundary (a b c : Site n) (h : isBoundarySite a b c = true) :
    siteGroup a b c = if c.parity = .even then 2 else 3 := by
  unfold siteGroup
  rw [h]
  rfl

theorem off_boundary (h : lay.WF) (r : ℕ) (c : Site n) (d : Dir n) (hc : BoxOf lay r c)
    (ho : ¬ BoxOf lay r (lay.neighbour c d)) :
    isBoundarySite (lay.boxMin r) (lay.boxSize r) c = true := by
  by_contra hb
  exact ho (inner_stays lay h r c d hc (by simpa using hb))

/-- Slots of boundary sites of one parity are in the order of the standard layout. -/
theorem ovSlot_boundary_lt (a b c e : Site n) (hc : InBox a b c) (he : InBox a b e)
    (hbc : isBoundarySite a b c = true) (hbe : isBoundarySite a b e = true)
    (hp : (∑ d, c d) % 2 = (∑ d, e d) % 2) :
    ovSlot a b c < ovSlot a b e ↔
      (NodeInfo.ofBox a b).siteIndex c < (NodeInfo.ofBox a b).siteIndex e := by
  have hl := logicalIndex_eq_lex (NodeInfo.ofBox a b) c
  have hl' := logicalIndex_eq_lex (NodeInfo.ofBox a b) e
  rw [ofBox_size, ofBox_min] at hl hl'
  have hg : siteGroup a b c = siteGroup a b e := by
    rw [siteGroup_boundary _ _ _ hbc, siteGroup_boundary _ _ _ hbe]
    simp only [Site.parity_even_iff, hp]
  rw [ovSlot_lt_iff a b c e hc he, slot_lt_iff a b c e hc he hp, ← hl, ← hl', hg]
  simp

end Face

end Hila
