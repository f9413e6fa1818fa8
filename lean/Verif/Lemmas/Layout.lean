import Verif.Lemmas.MixedRadix
import Verif.Lemmas.Coord

/-! Helper lemmas about the layout. -/

namespace Hila

open BigOperators

/-- Invariant of the divisor loop after iterations `0 .. m`. -/
theorem divisors_inv (L nd : ℕ) (m : ℕ) :
    let acc := (List.range (m + 1)).foldl (divisorsStep L nd) []
    acc.length = (m * nd) / L + 1 ∧
    ∀ k (hk : k < acc.length), acc[k] ≤ m ∧ ∀ c, c ≤ m → (acc[k] ≤ c ↔ k ≤ (c * nd) / L) := by
  induction m with
  | zero =>
    refine ⟨by simp [divisorsStep], ?_⟩
    intro k hk
    simp [divisorsStep] at hk ⊢
    omega
  | succ m ih =>
    intro acc
    obtain ⟨ih1, ih2⟩ := ih
    set old := (List.range (m + 1)).foldl (divisorsStep L nd) [] with hold
    have hacc : acc = old ++ List.replicate (((m + 1) * nd) / L + 1 - old.length) (m + 1) := by
      show (List.range (m + 1 + 1)).foldl (divisorsStep L nd) [] = _
      rw [List.range_succ, List.foldl_append, ← hold]; rfl
    have hmono : (m * nd) / L ≤ ((m + 1) * nd) / L :=
      Nat.div_le_div_right (Nat.mul_le_mul_right _ (by omega))
    have hlen : acc.length = ((m + 1) * nd) / L + 1 := by
      rw [hacc]; simp; omega
    refine ⟨hlen, ?_⟩
    intro k hk
    by_cases hko : k < old.length
    · have e : acc[k] = old[k] := by
        simp only [hacc]; rw [List.getElem_append_left hko]
      rw [e]
      obtain ⟨h1, h2⟩ := ih2 k hko
      refine ⟨by omega, ?_⟩
      intro c hc
      by_cases hcm : c ≤ m
      · exact h2 c hcm
      · have : c = m + 1 := by omega
        subst this
        constructor
        · intro _; omega
        · intro _; omega
    · have e : acc[k] = m + 1 := by
        simp only [hacc]
        rw [List.getElem_append_right (by omega)]
        simp
      rw [e]
      refine ⟨le_refl _, ?_⟩
      intro c hc
      constructor
      · intro h
        have : c = m + 1 := by omega
        subst this; omega
      · intro h
        by_contra hlt
        have hcm : c ≤ m := by omega
        have : (c * nd) / L ≤ (m * nd) / L := Nat.div_le_div_right (Nat.mul_le_mul_right _ hcm)
        omega

theorem divisors_length (L nd : ℕ) (hL : 0 < L) : (divisors L nd).length = nd + 1 := by
  have := (divisors_inv L nd L).1
  rw [divisors, this, Nat.mul_div_cancel_left _ hL]

theorem divisors_spec (L nd : ℕ) (hL : 0 < L) (k c : ℕ) (hk : k ≤ nd) (hc : c ≤ L) :
    (divisors L nd).getD k 0 ≤ c ↔ k ≤ (c * nd) / L := by
  have hlen := divisors_length L nd hL
  have hk' : k < (divisors L nd).length := by omega
  have := (divisors_inv L nd L).2 k hk'
  have e : (divisors L nd).getD k 0 = (divisors L nd)[k] := by
    rw [List.getD_eq_getElem?_getD, List.getElem?_eq_getElem hk', Option.getD_some]
  rw [e]
  exact this.2 c hc

theorem divisors_le (L nd : ℕ) (hL : 0 < L) (k : ℕ) (hk : k ≤ nd) :
    (divisors L nd).getD k 0 ≤ L := by
  have := (divisors_spec L nd hL k L hk (le_refl _)).2
  rw [Nat.mul_div_cancel_left _ hL] at this
  exact this hk

theorem divisors_mono (L nd : ℕ) (hL : 0 < L) (k : ℕ) (hk : k + 1 ≤ nd) :
    (divisors L nd).getD k 0 ≤ (divisors L nd).getD (k + 1) 0 := by
  have h1 := divisors_le L nd hL (k + 1) hk
  rw [divisors_spec L nd hL k _ (by omega) h1]
  have := (divisors_spec L nd hL (k + 1) _ hk h1).1 (le_refl _)
  omega

theorem divisors_interval (L nd : ℕ) (hL : 0 < L) (k c : ℕ) (hk : k < nd) (hc : c < L) :
    ((divisors L nd).getD k 0 ≤ c ∧ c < (divisors L nd).getD (k + 1) 0) ↔ (c * nd) / L = k := by
  have h1 := divisors_spec L nd hL k c (by omega) (by omega)
  have h2 := divisors_spec L nd hL (k + 1) c (by omega) (by omega)
  constructor
  · rintro ⟨a, b⟩
    have := h1.1 a
    have : ¬ k + 1 ≤ (c * nd) / L := fun h => by have := h2.2 h; omega
    omega
  · intro h
    refine ⟨h1.2 (by omega), ?_⟩
    by_contra hcon
    have := h2.1 (by omega)
    omega

/-- If there are not more divisions than sites, no interval is empty. -/
theorem divisors_strict (L nd : ℕ) (hL : 0 < L) (hnd : nd ≤ L) (k : ℕ) (hk : k < nd) :
    (divisors L nd).getD k 0 < (divisors L nd).getD (k + 1) 0 := by
  have hle := divisors_le L nd hL (k + 1) (by omega)
  set m := (divisors L nd).getD (k + 1) 0 with hm
  have h2 := (divisors_spec L nd hL (k + 1) m (by omega) hle).1 (le_refl _)
  have hmpos : 0 < m := by
    by_contra h0
    have : m = 0 := by omega
    rw [this] at h2; simp at h2
  have h3 : ¬ (m ≤ m - 1) := by omega
  rw [hm] at h3
  have h4 : ¬ k + 1 ≤ ((m - 1) * nd) / L := fun h =>
    h3 ((divisors_spec L nd hL (k + 1) (m - 1) (by omega) (by omega)).2 h)
  have h5 : k ≤ ((m - 1) * nd) / L := by
    rw [Nat.le_div_iff_mul_le hL] at h2 ⊢
    have e : (m - 1) * nd + nd = m * nd := by
      have : m = (m - 1) + 1 := by omega
      conv_rhs => rw [this]
      ring
    have e2 : (k + 1) * L = k * L + L := by ring
    omega
  have := (divisors_spec L nd hL k (m - 1) (by omega) (by omega)).2 h5
  omega

theorem Site.parity_even_iff {n : ℕ} (c : Site n) : c.parity = .even ↔ (∑ d, c d) % 2 = 0 := by
  unfold Site.parity
  rw [Hila.parity_even_iff]
  have : (∑ d, Site.toCV c d) = ((∑ d, c d : ℕ) : ℤ) := by simp [Site.toCV]
  rw [this]; omega

theorem Site.parity_odd_iff {n : ℕ} (c : Site n) : c.parity = .odd ↔ (∑ d, c d) % 2 = 1 := by
  unfold Site.parity
  rw [Hila.parity_odd_iff]
  have : (∑ d, Site.toCV c d) = ((∑ d, c d : ℕ) : ℤ) := by simp [Site.toCV]
  rw [this]; omega

theorem Site.parity_cases {n : ℕ} (c : Site n) : c.parity = .even ∨ c.parity = .odd :=
  Hila.parity_cases _

theorem ofBox_min {n : ℕ} (a b : Site n) : (NodeInfo.ofBox a b).min = a := by
  unfold NodeInfo.ofBox; simp only; split
  · rfl
  · split <;> rfl

theorem ofBox_size {n : ℕ} (a b : Site n) : (NodeInfo.ofBox a b).size = b := by
  unfold NodeInfo.ofBox; simp only; split
  · rfl
  · split <;> rfl

theorem ofBox_volume {n : ℕ} (a b : Site n) : (NodeInfo.ofBox a b).volume = ∏ d, b d := by
  unfold NodeInfo.ofBox NodeInfo.volume; simp only; split
  · simp only; omega
  · split
    · simp only; omega
    · simp only; omega

theorem ofBox_evensites {n : ℕ} (a b : Site n) :
    (NodeInfo.ofBox a b).evensites =
      (∏ d, b d) / 2 + (if (∏ d, b d) % 2 = 1 ∧ (∑ d, a d) % 2 = 0 then 1 else 0) := by
  unfold NodeInfo.ofBox; simp only
  split
  · rename_i h; simp [h]
  · rename_i h
    have h' : (∏ d, b d) % 2 = 1 := by omega
    by_cases hp : a.parity = .even
    · rw [if_pos hp]; rw [Site.parity_even_iff] at hp; simp [h', hp]
    · rw [if_neg hp]; rw [Site.parity_even_iff] at hp; simp [hp]

/-- The site is inside the box. -/
def InBox {n : ℕ} (a b c : Site n) : Prop := ∀ d, a d ≤ c d ∧ c d < a d + b d

theorem isOnNode_iff {n : ℕ} (ni : NodeInfo n) (c : Site n) :
    ni.isOnNode c = true ↔ InBox ni.min ni.size c := by
  unfold NodeInfo.isOnNode InBox
  simp only [List.all_eq_true, List.mem_finRange, forall_const, Bool.not_eq_true',
    decide_eq_false_iff_not]
  constructor
  · intro h d; have := h d; omega
  · intro h d; have := h d; omega

theorem logicalIndex_eq_lex {n : ℕ} (ni : NodeInfo n) (l : Site n) :
    ni.logicalIndex l = lex ni.size (fun d => l d - ni.min d) := by
  unfold NodeInfo.logicalIndex; exact lex_eq_sum _ _

section Box
variable {n : ℕ} (a b : Site n)

/-- Site with local index `i`. -/
def boxSite (i : ℕ) : Site n := fun d => a d + digits b i d

theorem boxSite_inBox (i : ℕ) (h : i < ∏ d, b d) : InBox a b (boxSite a b i) := fun d => by
  have := digits_lt b i (pos_of_lt_prod b i h) d
  unfold boxSite; omega

theorem logical_boxSite (i : ℕ) (h : i < ∏ d, b d) :
    (NodeInfo.ofBox a b).logicalIndex (boxSite a b i) = i := by
  rw [logicalIndex_eq_lex, ofBox_size, ofBox_min]
  have : (fun d => boxSite a b i d - a d) = digits b i := by funext d; simp [boxSite]
  rw [this, lex_digits b i h]

theorem logical_lt (c : Site n) (h : InBox a b c) :
    (NodeInfo.ofBox a b).logicalIndex c < ∏ d, b d := by
  rw [logicalIndex_eq_lex, ofBox_size, ofBox_min]
  apply lex_lt; intro d; have := h d; omega

theorem boxSite_logical (c : Site n) (h : InBox a b c) :
    boxSite a b ((NodeInfo.ofBox a b).logicalIndex c) = c := by
  rw [logicalIndex_eq_lex, ofBox_size, ofBox_min]
  funext d
  unfold boxSite
  rw [digits_lex]
  · have := h d; omega
  · intro d; have := h d; omega

theorem sum_boxSite (i : ℕ) : ∑ d, boxSite a b i d = (∑ d, a d) + ∑ d, digits b i d := by
  unfold boxSite; rw [Finset.sum_add_distrib]

/-- Two logical indices with the same half and the same parity of the site are equal. -/
theorem half_inj (i j : ℕ) (hi : i < ∏ d, b d) (hj : j < ∏ d, b d) (h : i / 2 = j / 2)
    (hp : (∑ d, boxSite a b i d) % 2 = (∑ d, boxSite a b j d) % 2) : i = j := by
  rw [sum_boxSite, sum_boxSite] at hp
  by_contra hne
  have key : ∀ p q, p < ∏ d, b d → q < ∏ d, b d → p / 2 = q / 2 → p < q →
      ((∑ d, a d) + ∑ d, digits b p d) % 2 = ((∑ d, a d) + ∑ d, digits b q d) % 2 → False := by
    intro p q _ hq h2 hlt hpar
    have e1 : p = 2 * (p / 2) := by omega
    have e2 : q = 2 * (p / 2) + 1 := by omega
    have := digits_parity_pair b (p / 2) (by omega)
    rw [← e2, ← e1] at this
    omega
  rcases Nat.lt_or_gt_of_ne hne with hlt | hlt
  · exact key i j hi hj h hlt hp
  · exact key j i hj hi h.symm hlt hp.symm

theorem siteIndex_eq (c : Site n) :
    (NodeInfo.ofBox a b).siteIndex c =
      if (∑ d, c d) % 2 = 0 then (NodeInfo.ofBox a b).logicalIndex c / 2
      else (NodeInfo.ofBox a b).logicalIndex c / 2 + (NodeInfo.ofBox a b).evensites := by
  unfold NodeInfo.siteIndex
  by_cases h : c.parity = .even
  · simp only [if_pos h]; rw [Site.parity_even_iff] at h; rw [if_pos h]
  · simp only [if_neg h]; rw [Site.parity_even_iff] at h; rw [if_neg h]

/-- An even site has a half index below `evensites`. -/
theorem half_lt_even (c : Site n) (h : InBox a b c) (hp : (∑ d, c d) % 2 = 0) :
    (NodeInfo.ofBox a b).logicalIndex c / 2 < (NodeInfo.ofBox a b).evensites := by
  have hlt := logical_lt a b c h
  set i := (NodeInfo.ofBox a b).logicalIndex c with hi
  rw [ofBox_evensites]
  by_cases hodd : (∏ d, b d) % 2 = 1
  · by_cases ha : (∑ d, a d) % 2 = 0
    · rw [if_pos ⟨hodd, ha⟩]; omega
    · have hne : i ≠ 2 * ((∏ d, b d) / 2) := by
        intro he
        have h1 := digits_parity_last b ((∏ d, b d) / 2) (by omega)
        have h2 := sum_boxSite a b i
        rw [hi, boxSite_logical a b c h] at h2
        rw [← hi, he] at h2
        omega
      rw [if_neg (fun hh => ha hh.2)]; omega
  · rw [if_neg (fun hh => hodd hh.1)]; omega

/-- An odd site has a half index below `oddsites`. -/
theorem half_lt_odd (c : Site n) (h : InBox a b c) (hp : (∑ d, c d) % 2 = 1) :
    (NodeInfo.ofBox a b).logicalIndex c / 2 + (NodeInfo.ofBox a b).evensites <
      (NodeInfo.ofBox a b).volume := by
  have hlt := logical_lt a b c h
  set i := (NodeInfo.ofBox a b).logicalIndex c with hi
  rw [ofBox_evensites, ofBox_volume]
  by_cases hodd : (∏ d, b d) % 2 = 1
  · by_cases ha : (∑ d, a d) % 2 = 0
    · have hne : i ≠ 2 * ((∏ d, b d) / 2) := by
        intro he
        have h1 := digits_parity_last b ((∏ d, b d) / 2) (by omega)
        have h2 := sum_boxSite a b i
        rw [hi, boxSite_logical a b c h] at h2
        rw [← hi, he] at h2
        omega
      rw [if_pos ⟨hodd, ha⟩]; omega
    · rw [if_neg (fun hh => ha hh.2)]; omega
  · rw [if_neg (fun hh => hodd hh.1)]; omega

theorem siteIndex_lt (c : Site n) (h : InBox a b c) :
    (NodeInfo.ofBox a b).siteIndex c < (NodeInfo.ofBox a b).volume := by
  rw [siteIndex_eq]
  split
  · rename_i hp
    have := half_lt_even a b c h hp
    have : (NodeInfo.ofBox a b).evensites ≤ (NodeInfo.ofBox a b).volume := by
      unfold NodeInfo.volume; omega
    omega
  · rename_i hp
    exact half_lt_odd a b c h (by omega)

theorem siteIndex_lt_even_iff (c : Site n) (h : InBox a b c) :
    (NodeInfo.ofBox a b).siteIndex c < (NodeInfo.ofBox a b).evensites ↔ (∑ d, c d) % 2 = 0 := by
  rw [siteIndex_eq]
  split
  · rename_i hp; exact ⟨fun _ => hp, fun _ => half_lt_even a b c h hp⟩
  · rename_i hp; constructor
    · intro hh; omega
    · intro hh; omega

theorem siteIndex_inj (c e : Site n) (hc : InBox a b c) (he : InBox a b e)
    (h : (NodeInfo.ofBox a b).siteIndex c = (NodeInfo.ofBox a b).siteIndex e) : c = e := by
  have hpar : (∑ d, c d) % 2 = 0 ↔ (∑ d, e d) % 2 = 0 := by
    rw [← siteIndex_lt_even_iff a b c hc, ← siteIndex_lt_even_iff a b e he, h]
  rw [siteIndex_eq, siteIndex_eq] at h
  have hhalf : (NodeInfo.ofBox a b).logicalIndex c / 2 = (NodeInfo.ofBox a b).logicalIndex e / 2 := by
    by_cases hp : (∑ d, c d) % 2 = 0
    · rw [if_pos hp, if_pos (hpar.1 hp)] at h; exact h
    · rw [if_neg hp, if_neg (fun hh => hp (hpar.2 hh))] at h; omega
  have := half_inj a b _ _ (logical_lt a b c hc) (logical_lt a b e he) hhalf (by
    rw [boxSite_logical a b c hc, boxSite_logical a b e he]; omega)
  rw [← boxSite_logical a b c hc, this, boxSite_logical a b e he]

end Box

/-- `advance` is the successor on digits. -/
theorem advance_boxSite {n : ℕ} (a b : Site n) (i : ℕ) (h : i + 1 < ∏ d, b d) :
    advance a b (boxSite a b i) = boxSite a b (i + 1) := by
  induction n generalizing i with
  | zero => simp at h
  | succ n ih =>
    have hpos := pos_of_lt_prod b _ h
    have h0 := hpos 0
    rw [advance]
    have e0 : boxSite a b i 0 = a 0 + i % b 0 := by simp [boxSite, digits]
    have et : Fin.tail (boxSite a b i) = boxSite (Fin.tail a) (Fin.tail b) (i / b 0) := by
      funext d; simp [boxSite, digits, Fin.tail]
    have hm := Nat.mod_add_div i (b 0)
    have hml := Nat.mod_lt i h0
    rw [e0, et]
    by_cases hc : i % b 0 + 1 < b 0
    · rw [if_pos (by omega)]
      have e1 : (i + 1) % b 0 = i % b 0 + 1 := by
        conv_lhs => rw [← hm, show i % b 0 + b 0 * (i / b 0) + 1 = (i % b 0 + 1) + b 0 * (i / b 0) by ring,
          Nat.add_mul_mod_self_left, Nat.mod_eq_of_lt hc]
      have e2 : (i + 1) / b 0 = i / b 0 := by
        conv_lhs => rw [← hm, show i % b 0 + b 0 * (i / b 0) + 1 = (i % b 0 + 1) + b 0 * (i / b 0) by ring,
          Nat.add_mul_div_left _ _ h0, Nat.div_eq_of_lt hc, zero_add]
      funext d
      refine Fin.cases ?_ (fun j => ?_) d
      · simp [boxSite, digits, e1]; omega
      · simp [boxSite, digits, e2, Fin.tail]
    · rw [if_neg (by omega)]
      have hc' : i % b 0 + 1 = b 0 := by omega
      have hsum : i + 1 = b 0 * (i / b 0 + 1) := by
        have : b 0 * (i / b 0 + 1) = b 0 * (i / b 0) + b 0 := by ring
        omega
      have e1 : (i + 1) % b 0 = 0 := by rw [hsum]; simp
      have e2 : (i + 1) / b 0 = i / b 0 + 1 := by
        rw [hsum, Nat.mul_div_cancel_left _ h0]
      have hb : i / b 0 + 1 < ∏ d, Fin.tail b d := by
        rw [Fin.prod_univ_succ, hsum] at h
        exact Nat.lt_of_mul_lt_mul_left h
      rw [ih (Fin.tail a) (Fin.tail b) (i / b 0) hb]
      funext d
      refine Fin.cases ?_ (fun j => ?_) d
      · simp [boxSite, digits, e1]
      · simp [boxSite, digits, e2, Fin.tail]

theorem digits_zero {n : ℕ} (s : Fin n → ℕ) : digits s 0 = fun _ => 0 := by
  induction n with
  | zero => funext d; exact d.elim0
  | succ n ih =>
    rw [digits]; simp only [Nat.zero_mod, Nat.zero_div]; rw [ih]
    funext d; refine Fin.cases ?_ (fun j => ?_) d <;> simp

/-- State of the filling loop after `k` iterations. -/
theorem fill_inv {n : ℕ} (a b : Site n) (k : ℕ) (hk : k ≤ ∏ d, b d) :
    let ni := NodeInfo.ofBox a b
    (k < ∏ d, b d → (ni.fillCoordinates k).2 = boxSite a b k) ∧
    ∀ i, i < k → (ni.fillCoordinates k).1 (ni.siteIndex (boxSite a b i)) = some (boxSite a b i) := by
  intro ni
  induction k with
  | zero =>
    refine ⟨fun _ => ?_, fun i hi => by omega⟩
    show (NodeInfo.ofBox a b).min = _
    rw [ofBox_min]; funext d; simp [boxSite, digits_zero]
  | succ k ih =>
    obtain ⟨h1, h2⟩ := ih (by omega)
    have hl := h1 (by omega)
    have hunf : ni.fillCoordinates (k + 1) =
        (Function.update (ni.fillCoordinates k).1 (ni.siteIndex (ni.fillCoordinates k).2)
          (some (ni.fillCoordinates k).2), advance ni.min ni.size (ni.fillCoordinates k).2) := rfl
    rw [hunf, hl]
    refine ⟨fun hlt => ?_, fun i hi => ?_⟩
    · show advance (NodeInfo.ofBox a b).min (NodeInfo.ofBox a b).size _ = _
      rw [ofBox_min, ofBox_size]; exact advance_boxSite a b k hlt
    · by_cases hik : i = k
      · subst hik; simp
      · have hne : ni.siteIndex (boxSite a b i) ≠ ni.siteIndex (boxSite a b k) := by
          intro he
          have := siteIndex_inj a b _ _ (boxSite_inBox a b i (by omega))
            (boxSite_inBox a b k (by omega)) he
          have h3 := logical_boxSite a b i (by omega)
          rw [this, logical_boxSite a b k (by omega)] at h3
          omega
        simp only [Function.update_of_ne hne]
        exact h2 i (by omega)

theorem coordinates_siteIndex {n : ℕ} (a b c : Site n) (h : InBox a b c) :
    (NodeInfo.ofBox a b).coordinates ((NodeInfo.ofBox a b).siteIndex c) = some c := by
  have := (fill_inv a b (∏ d, b d) (le_refl _)).2 ((NodeInfo.ofBox a b).logicalIndex c)
    (logical_lt a b c h)
  rw [boxSite_logical a b c h] at this
  unfold NodeInfo.coordinates
  rw [ofBox_volume]; exact this

/-- Every slot is the index of a site of the box. -/
theorem siteIndex_surj {n : ℕ} (a b : Site n) (idx : ℕ)
    (h : idx < (NodeInfo.ofBox a b).volume) :
    ∃ c, InBox a b c ∧ (NodeInfo.ofBox a b).siteIndex c = idx := by
  have hvol := ofBox_volume a b
  have hinj : Function.Injective (fun i : Fin (∏ d, b d) =>
      (⟨(NodeInfo.ofBox a b).siteIndex (boxSite a b i.val), by
        exact lt_of_lt_of_eq (siteIndex_lt a b _ (boxSite_inBox a b i.val i.isLt)) hvol⟩ :
          Fin (∏ d, b d))) := by
    intro i j hij
    have h1 := siteIndex_inj a b _ _ (boxSite_inBox a b i.val i.isLt)
      (boxSite_inBox a b j.val j.isLt) (congrArg Fin.val hij)
    apply Fin.ext
    rw [← logical_boxSite a b i.val i.isLt, h1, logical_boxSite a b j.val j.isLt]
  obtain ⟨i, hi⟩ := Finite.surjective_of_injective hinj ⟨idx, by rw [← hvol]; exact h⟩
  exact ⟨boxSite a b i.val, boxSite_inBox a b i.val i.isLt, congrArg Fin.val hi⟩

section Lay
variable {n : ℕ} (lay : Layout n)

theorem nodeRank_eq (c : Site n) : lay.nodeRank c = lay.remap (lex lay.ndiv (lay.nodeCoord c)) := by
  unfold Layout.nodeRank; rw [foldr_eq_lex]

theorem nodeCoord_lt (h : lay.WF) (c : Site n) (hc : lay.InLattice c) (d : Fin n) :
    lay.nodeCoord c d < lay.ndiv d := by
  unfold Layout.nodeCoord
  have h1 := hc d
  have h2 := h.ndiv_pos d
  rw [Nat.div_lt_iff_lt_mul (h.L_pos d), mul_comm]
  exact Nat.mul_lt_mul_of_pos_left h1 h2

theorem nodeRank_lt (h : lay.WF) (c : Site n) (hc : lay.InLattice c) :
    lay.nodeRank c < lay.numNodes := by
  rw [nodeRank_eq]
  exact h.remap_lt _ (lex_lt _ _ (nodeCoord_lt lay h c hc))

theorem invRemap_digits (h : lay.WF) (c : Site n) (hc : lay.InLattice c) :
    digits lay.ndiv (lay.invRemap (lay.nodeRank c)) = lay.nodeCoord c := by
  rw [nodeRank_eq, h.inv_remap _ (lex_lt _ _ (nodeCoord_lt lay h c hc)),
    digits_lex _ _ (nodeCoord_lt lay h c hc)]

/-- box origin of rank `r` -/
def Layout.boxMin (r : ℕ) : Site n := fun d =>
  (divisors (lay.L d) (lay.ndiv d)).getD (digits lay.ndiv (lay.invRemap r) d) 0

/-- box size of rank `r` -/
def Layout.boxSize (r : ℕ) : Site n := fun d =>
  (divisors (lay.L d) (lay.ndiv d)).getD (digits lay.ndiv (lay.invRemap r) d + 1) 0 - lay.boxMin r d

theorem nodeinfo_eq (r : ℕ) : lay.nodeinfo r = NodeInfo.ofBox (lay.boxMin r) (lay.boxSize r) := rfl

theorem inBox_iff_nodeRank (h : lay.WF) (r : ℕ) (hr : r < lay.numNodes) (c : Site n)
    (hc : lay.InLattice c) :
    InBox (lay.boxMin r) (lay.boxSize r) c ↔ lay.nodeRank c = r := by
  have hdl : ∀ d, digits lay.ndiv (lay.invRemap r) d < lay.ndiv d := fun d =>
    digits_lt _ _ h.ndiv_pos d
  have key : InBox (lay.boxMin r) (lay.boxSize r) c ↔
      ∀ d, lay.nodeCoord c d = digits lay.ndiv (lay.invRemap r) d := by
    constructor
    · intro hb d
      have h1 := hb d
      have hm := divisors_mono (lay.L d) (lay.ndiv d) (h.L_pos d) _ (hdl d)
      unfold Layout.boxSize Layout.boxMin at h1
      exact (divisors_interval (lay.L d) (lay.ndiv d) (h.L_pos d) _ (c d) (hdl d) (hc d)).1 (by omega)
    · intro hk d
      have hm := divisors_mono (lay.L d) (lay.ndiv d) (h.L_pos d) _ (hdl d)
      have := (divisors_interval (lay.L d) (lay.ndiv d) (h.L_pos d) _ (c d) (hdl d) (hc d)).2 (hk d)
      unfold Layout.boxSize Layout.boxMin
      omega
  rw [key]
  constructor
  · intro hk
    have : lay.nodeCoord c = digits lay.ndiv (lay.invRemap r) := funext hk
    rw [nodeRank_eq, this, lex_digits _ _ (h.inv_lt r hr), h.remap_inv r hr]
  · intro hk d
    rw [← hk, invRemap_digits lay h c hc]

theorem inBox_inLattice (h : lay.WF) (r : ℕ) (c : Site n)
    (hb : InBox (lay.boxMin r) (lay.boxSize r) c) : lay.InLattice c := by
  intro d
  have h1 := hb d
  have hdl := digits_lt lay.ndiv (lay.invRemap r) h.ndiv_pos d
  have := divisors_le (lay.L d) (lay.ndiv d) (h.L_pos d) _ hdl
  unfold Layout.boxSize at h1
  have h2 : (divisors (lay.L d) (lay.ndiv d)).getD (digits lay.ndiv (lay.invRemap r) d + 1) 0 ≤ lay.L d :=
    this
  omega

end Lay

end Hila
