import Verif.Lemmas.VecFace

/-! Data movement of the vectorised gather. -/

namespace Hila

open BigOperators

theorem mul_add_inj {V a b k k' : ℕ} (hk : k < V) (hk' : k' < V) (e : V * a + k = V * b + k') : a = b ∧ k = k' := by
  have h1 := div_mod_of (S := V) (q := a) hk rfl
  have h2 := div_mod_of (S := V) (q := b) hk' rfl
  rw [e] at h1
  exact ⟨h1.1.symm.trans h2.1, h1.2.symm.trans h2.2⟩

theorem setLocal_fold {T : Type} [Neg T] (V offset M : ℕ) (hM : M ≤ offset) (hl : List (Option ℕ)) (perm : ℕ → ℕ)
    (hperm : ∀ k, k < V → perm k < V) (neg : Bool) (m0 : Mem T) (start cnt : ℕ)
    (hget : ∀ p, start ≤ p → p < start + cnt → ∃ s, s < M ∧ hl[p]? = some (some s)) :
    ∃ m', (List.range' start cnt).foldlM (fun m idx =>
      match hl[idx]? with
      | some (some s) => some fun j =>
          if (idx + offset) * V ≤ j ∧ j < (idx + offset) * V + V then signed neg (m (s * V + perm (j - (idx + offset) * V))) else m j
      | _ => none) m0 = some m' ∧
    (∀ p s, start ≤ p → p < start + cnt → hl[p]? = some (some s) → ∀ k, k < V → m' ((p + offset) * V + k) = signed neg (m0 (s * V + perm k))) ∧
    (∀ j, (∀ p, start ≤ p → p < start + cnt → ¬ ((p + offset) * V ≤ j ∧ j < (p + offset) * V + V)) → m' j = m0 j) := by
  induction cnt with
  | zero =>
    refine ⟨m0, rfl, fun p s h1 h2 => by omega, fun j _ => rfl⟩
  | succ cnt ih =>
    obtain ⟨m', e1, e2, e3⟩ := ih fun p h1 h2 => hget p h1 (by omega)
    obtain ⟨s, hs, hg⟩ := hget (start + cnt) (by omega) (by omega)
    rw [List.range'_1_concat, List.foldlM_append, e1]
    refine ⟨fun j => if (start + cnt + offset) * V ≤ j ∧ j < (start + cnt + offset) * V + V then
      signed neg (m' (s * V + perm (j - (start + cnt + offset) * V))) else m' j, ?_, ?_, ?_⟩
    · simp only [List.foldlM_cons, List.foldlM_nil, hg]
      rfl
    · intro p s' h1 h2 hg' k hk
      beta_reduce
      by_cases hp : p = start + cnt
      · subst hp
        have hss : s' = s := by rw [hg] at hg'; simpa using hg'.symm
        subst hss
        rw [if_pos ⟨by omega, by omega⟩, Nat.add_sub_cancel_left]
        congr 1
        apply e3
        intro p h1 h2
        have h3 := hperm k hk
        have h4 : (s' + 1) * V ≤ (p + offset) * V := Nat.mul_le_mul_right V (by omega)
        have h5 : (s' + 1) * V = s' * V + V := by ring
        omega
      · have hlt : p < start + cnt := by omega
        have h4 : (p + offset + 1) * V ≤ (start + cnt + offset) * V := Nat.mul_le_mul_right V (by omega)
        have h5 : (p + offset + 1) * V = (p + offset) * V + V := by ring
        rw [if_neg (by omega)]
        exact e2 p s' h1 hlt hg' k hk
    · intro j hj
      beta_reduce
      rw [if_neg (hj (start + cnt) (by omega) (by omega))]
      exact e3 j fun p h1 h2 => hj p h1 (by omega)

theorem place_fold {T : Type} (I : List ℕ) (B : List T) (hnd : I.Nodup) (m0 : Mem T) (f : ℕ → Option ℕ) (cnt : ℕ) (hI : cnt ≤ I.length) (hB : cnt ≤ B.length)
    (hf : ∀ i, i < cnt → f i = I[i]?) :
    ∃ m', (List.range cnt).foldlM (fun m i =>
      match f i, B[i]? with
      | some idx, some v => some (Function.update m idx v)
      | _, _ => none) m0 = some m' ∧
    (∀ i (hi : i < cnt), m' (I[i]'(by omega)) = B[i]'(by omega)) ∧ (∀ j, j ∉ I → m' j = m0 j) := by
  suffices hh : ∃ m', (List.range cnt).foldlM (fun m i =>
      match f i, B[i]? with
      | some idx, some v => some (Function.update m idx v)
      | _, _ => none) m0 = some m' ∧
    (∀ i (hi : i < cnt), m' (I[i]'(by omega)) = B[i]'(by omega)) ∧ (∀ j, (∀ i (hi : i < cnt), j ≠ I[i]'(by omega)) → m' j = m0 j) by
    obtain ⟨m', h1, h2, h3⟩ := hh
    exact ⟨m', h1, h2, fun j hj => h3 j fun i hi e => hj (e ▸ List.getElem_mem _)⟩
  induction cnt with
  | zero => exact ⟨m0, rfl, fun i hi => by omega, fun j _ => rfl⟩
  | succ cnt ih =>
    obtain ⟨m', e1, e2, e3⟩ := ih (by omega) (by omega) fun i hi => hf i (by omega)
    rw [List.range_succ, List.foldlM_append, e1]
    have hI' : cnt < I.length := by omega
    have hB' : cnt < B.length := by omega
    refine ⟨Function.update m' I[cnt] B[cnt], ?_, ?_, ?_⟩
    · simp only [List.foldlM_cons, List.foldlM_nil, hf cnt (by omega), List.getElem?_eq_getElem hI', List.getElem?_eq_getElem hB']
      rfl
    · intro i hi
      by_cases hic : i = cnt
      · subst hic; rw [Function.update_self]
      · rw [Function.update_of_ne]
        · exact e2 i (by omega)
        · intro e
          exact hic ((List.Nodup.getElem_inj_iff hnd).1 e)
    · intro j hj
      rw [Function.update_of_ne (hj cnt (by omega))]
      exact e3 j fun i hi => hj i (by omega)

theorem gatherVectors_expand {T : Type} [Neg T] (V : ℕ) (neg : Bool) (m : Mem T) (vs : List ℕ) :
    gatherVectors V neg m (expandV V vs) = some ((expandV V vs).map fun i => signed neg (m i)) := by
  have hlen := expandV_length V vs
  have key : ∀ i, i < (expandV V vs).length → (expandV V vs).getD (i - i % V) 0 + i % V = (expandV V vs).getD i 0 := by
    intro i hi
    rw [hlen] at hi
    have hV : 0 < V := by
      rcases Nat.eq_zero_or_pos V with h0 | h0
      · rw [h0, zero_mul] at hi; omega
      · exact h0
    obtain ⟨a, h1, h2⟩ := expandV_get V vs i hi
    have e : i - i % V = V * (i / V) := by have := Nat.div_add_mod i V; omega
    obtain ⟨a', h1', h2'⟩ := expandV_get V vs (i - i % V) (by omega)
    have e3 : (i - i % V) / V = i / V := by rw [e, Nat.mul_div_cancel_left _ hV]
    have e4 : (i - i % V) % V = 0 := by rw [e, Nat.mul_mod_right]
    rw [e3, h1] at h1'
    have : a = a' := Option.some.inj h1'
    subst this
    rw [e4] at h2'
    rw [List.getD_eq_getElem?_getD, List.getD_eq_getElem?_getD, h2, h2']
    simp
  unfold gatherVectors
  rw [if_pos ⟨by rw [hlen, Nat.mul_mod_right], Or.inr key⟩]
  congr 1
  apply List.ext_getElem?
  intro i
  rw [List.getElem?_map, List.getElem?_map]
  by_cases hi : i < (expandV V vs).length
  · rw [List.getElem?_range hi, Option.map_some, key i hi, List.getD_eq_getElem?_getD, List.getElem?_eq_getElem hi]
    rfl
  · rw [List.getElem?_eq_none (by simpa using hi), List.getElem?_eq_none (by simpa using hi)]
    rfl

section Gather
variable {n : ℕ} {lay : Layout n} {sd : SubDiv n} (dbl : Bool) (h : VecOK lay sd)
include h

/-- Slot read for the site `c`. -/
abbrev slotOf (lay : Layout n) (sd : SubDiv n) (dbl : Bool) (r : ℕ) (d : Dir n) (c : Site n) : ℕ :=
  siteNeighbour lay sd dbl r d ((lay.nodeinfo r).siteIndexSub sd c)

theorem slot_range (r : ℕ) (hr : r < lay.numNodes) (d : Dir n) {c : Site n} (hc : BoxOf lay r c) (he : EdgeV lay sd dbl r d c) :
    haloOffset lay sd dbl r d.val * sd.vecSize dbl ≤ slotOf lay sd dbl r d c ∧
    slotOf lay sd dbl r d c < haloOffset lay sd dbl r (d.val + 1) * sd.vecSize dbl := by
  have hV := (h.sub r hr).vecSize_pos dbl
  unfold slotOf
  rw [siteNeighbour_edge dbl h r hr d hc he, haloOffset_succ dbl h r hr, nHaloVec_eq dbl h r hr]
  have h1 := count_lt_of (HVec lay sd dbl r d) _ _ (rank_vec_lt dbl h r hr hc) ((HVec_iff dbl h r hr d hc).2 he)
  have h2 := Nat.mod_lt ((lay.nodeinfo r).siteIndexSub sd c) hV
  set k := Nat.count (HVec lay sd dbl r d) ((lay.nodeinfo r).siteIndexSub sd c / sd.vecSize dbl)
  set K := Nat.count (HVec lay sd dbl r d) ((lay.nodeinfo r).vSites sd dbl)
  set o := haloOffset lay sd dbl r d.val
  set V := sd.vecSize dbl
  have h3 : (o + k + 1) * V ≤ (o + K) * V := Nat.mul_le_mul_right V (by omega)
  have h4 : (o + k + 1) * V = V * (o + k) + V := by ring
  have h5 : o * V ≤ (o + k) * V := Nat.mul_le_mul_right V (by omega)
  have h6 : (o + k) * V = V * (o + k) := by ring
  omega

theorem slotVec_inj (r : ℕ) (hr : r < lay.numNodes) (d : Dir n) {c c' : Site n} (hc : BoxOf lay r c) (hc' : BoxOf lay r c') (he : EdgeV lay sd dbl r d c)
    (he' : EdgeV lay sd dbl r d c') (e : slotOf lay sd dbl r d c = slotOf lay sd dbl r d c') : c = c' := by
  have hV := (h.sub r hr).vecSize_pos dbl
  unfold slotOf at e
  rw [siteNeighbour_edge dbl h r hr d hc he, siteNeighbour_edge dbl h r hr d hc' he'] at e
  have h2 := Nat.mod_lt ((lay.nodeinfo r).siteIndexSub sd c) hV
  have h2' := Nat.mod_lt ((lay.nodeinfo r).siteIndexSub sd c') hV
  obtain ⟨e1, e2⟩ := mul_add_inj h2 h2' e
  have e3 := Nat.count_injective ((HVec_iff dbl h r hr d hc).2 he) ((HVec_iff dbl h r hr d hc').2 he') (Nat.add_left_cancel e1)
  refine index_inj (h.sub r hr) hc hc' ?_
  have f1 := Nat.div_add_mod ((lay.nodeinfo r).siteIndexSub sd c) (sd.vecSize dbl)
  have f2 := Nat.div_add_mod ((lay.nodeinfo r).siteIndexSub sd c') (sd.vecSize dbl)
  rw [e3, e2] at f1
  exact f1.symm.trans f2

/-- The site index of a visited parity. -/
theorem visits_halo (r : ℕ) (hr : r < lay.numNodes) (d : Dir n) (par : Parity) (hpar : par ≠ .none) {c : Site n} (hc : BoxOf lay r c)
    (he : EdgeV lay sd dbl r d c) :
    Visits par c ↔ (if par = .odd then nHaloVec lay sd dbl r d / 2 else 0) ≤
        Nat.count (HVec lay sd dbl r d) ((lay.nodeinfo r).siteIndexSub sd c / sd.vecSize dbl) ∧
      Nat.count (HVec lay sd dbl r d) ((lay.nodeinfo r).siteIndexSub sd c / sd.vecSize dbl) <
        (if par = .even then nHaloVec lay sd dbl r d / 2 else nHaloVec lay sd dbl r d) := by
  have hH := (HVec_iff dbl h r hr d hc).2 he
  have hlt := count_lt_of (HVec lay sd dbl r d) _ _ (rank_vec_lt dbl h r hr hc) hH
  rw [← nHaloVec_eq dbl h r hr] at hlt
  have hhalf := halo_half dbl h r hr d
  have hev := vec_even_iff dbl h r hr _ (rank_index_lt h r hr hc)
  rw [rank_coord h r hr hc] at hev
  have hcnt : Nat.count (HVec lay sd dbl r d) ((lay.nodeinfo r).siteIndexSub sd c / sd.vecSize dbl) < nHaloVec lay sd dbl r d / 2 ↔ c.parity = .even := by
    rw [← hev, ← hhalf, Nat.mul_div_cancel_left _ (by omega)]
    constructor
    · intro hh
      by_contra hcon
      have := Nat.count_monotone (HVec lay sd dbl r d) (Nat.le_of_not_lt hcon)
      omega
    · intro hh; exact count_lt_of _ _ _ hh hH
  unfold Visits
  rcases Site.parity_cases c with hp | hp
  · have := hcnt.2 hp
    rw [hp]
    cases par <;> simp at hpar ⊢ <;> omega
  · have : ¬ _ := fun hh => absurd (hp.symm.trans (hcnt.1 hh)) (by simp)
    rw [hp]
    cases par <;> simp at hpar ⊢ <;> omega

theorem setLocal_none (r : ℕ) (d : Dir n) (par : Parity) {T : Type} [Neg T] (neg : Bool) (m : Mem T)
    (hloc : ¬ (sd.isBoundaryPerm dbl (axis d) = true ∨ onlyLocalCopy lay sd dbl d = true)) : setLocalVec lay sd dbl r d par neg m = some m := by
  unfold setLocalVec
  dsimp only
  rw [if_neg]
  rw [Bool.or_eq_true]; exact hloc

theorem setLocalVec_spec (r : ℕ) (hr : r < lay.numNodes) (d : Dir n) (par : Parity) (hpar : par ≠ .none) {T : Type} [Neg T] (neg : Bool) (m : Mem T)
    (hloc : sd.isBoundaryPerm dbl (axis d) = true ∨ onlyLocalCopy lay sd dbl d = true) :
    ∃ m', setLocalVec lay sd dbl r d par neg m = some m' ∧
      (∀ c, BoxOf lay r c → EdgeV lay sd dbl r d c → BoxOf lay r (lay.neighbour c d) → Visits par c →
        m' (slotOf lay sd dbl r d c) = signed neg (m ((lay.nodeinfo r).siteIndexSub sd (lay.neighbour c d)))) ∧
      (∀ c, BoxOf lay r c → EdgeV lay sd dbl r d c → ¬ Visits par c → m' (slotOf lay sd dbl r d c) = m (slotOf lay sd dbl r d c)) ∧
      (∀ j, j < haloOffset lay sd dbl r d.val * sd.vecSize dbl ∨ haloOffset lay sd dbl r (d.val + 1) * sd.vecSize dbl ≤ j → m' j = m j) := by
  have hsub := h.sub r hr
  have hV := hsub.vecSize_pos dbl
  set V := sd.vecSize dbl with hVdef
  set off := haloOffset lay sd dbl r d.val with hoff
  set nh := nHaloVec lay sd dbl r d with hnh
  set perm : ℕ → ℕ := if sd.isBoundaryPerm dbl (axis d) then boundaryPerm lay sd dbl r d else id with hpermdef
  set start := if par = .odd then nh / 2 else 0 with hstart
  set stop := if par = .even then nh / 2 else nh with hstop
  have hss : start ≤ stop ∧ stop ≤ nh := by
    rw [hstart, hstop]
    cases par <;> simp <;> omega
  have hQz : ∀ q : Site n, (∀ b, q b < sd.subdivisions dbl b) → perm (vLane sd dbl q) = vLane sd dbl (shiftQ sd dbl d q) := by
    intro q hq
    rw [hpermdef]
    by_cases hp : sd.isBoundaryPerm dbl (axis d) = true
    · rw [if_pos hp]; exact perm_spec dbl h r hr d hq
    · rw [if_neg hp]
      have hD1 : sd.subdivisions dbl (axis d) = 1 := by
        have := hsub.subdiv_pos dbl (axis d)
        unfold SubDiv.isBoundaryPerm at hp
        rw [decide_eq_true_iff] at hp
        omega
      have : shiftQ sd dbl d q = q := by
        unfold shiftQ
        funext b
        by_cases hbx : b = axis d
        · subst hbx
          rw [Function.update_self, hD1]
          have h1 := Nat.lt_one_iff.1 (pstep_lt (isUp d) 1 (q (axis d)) Nat.one_pos)
          have h2 := hq (axis d)
          omega
        · rw [Function.update_of_ne hbx]
      rw [this]; rfl
  have hvpos : ∀ k, k < V → ∃ q : Site n, (∀ b, q b < sd.subdivisions dbl b) ∧ vLane sd dbl q = k := by
    intro k hk
    have hvol : 0 < (lay.nodeinfo r).vSites sd dbl := by
      have hcorner : BoxOf lay r (lay.boxMin r) := fun b => ⟨le_refl _, by have := hsub.pos b; omega⟩
      exact lt_of_le_of_lt (Nat.zero_le _) (rank_vec_lt dbl h r hr hcorner)
    obtain ⟨c, hc, _, _, h3⟩ := lane_surj dbl h r hr 0 k hvol hk
    exact ⟨_, rank_Q_lt dbl h r hr hc, h3⟩
  have hperm : ∀ k, k < V → perm k < V := by
    intro k hk
    obtain ⟨q, hq, e⟩ := hvpos k hk
    rw [← e, hQz q hq]
    exact vLane_lt hsub dbl (shiftQ_lt dbl (hsub.subdiv_pos dbl) d hq)
  have hget : ∀ p, start ≤ p → p < start + (stop - start) →
      ∃ s, s < (lay.nodeinfo r).vSites sd dbl ∧ (haloIndex lay sd dbl r d)[p]? = some (some s) := by
    intro p _ hp
    have hp2 : p < nh := by omega
    rw [hnh, nHaloVec_eq dbl h r hr] at hp2
    obtain ⟨i, hi, hHi, hcount⟩ := filter_range_get (HVec lay sd dbl r d) _ p hp2
    obtain ⟨c, hc, hci, hb⟩ := exists_on dbl h r hr d hloc i hi
    have he : EdgeV lay sd dbl r d c := by rw [← HVec_iff dbl h r hr d hc, hci]; exact hHi
    have := haloIndex_get dbl h r hr d hloc hc he hb
    rw [hci, hcount] at this
    exact ⟨_, rank_vec_lt dbl h r hr hb, this⟩
  obtain ⟨m', e1, e2, e3⟩ := setLocal_fold V off ((lay.nodeinfo r).vSites sd dbl) (haloOffset_ge dbl h r hr _) (haloIndex lay sd dbl r d) perm hperm
    neg m start (stop - start) hget
  have hslot : ∀ c, BoxOf lay r c → EdgeV lay sd dbl r d c → slotOf lay sd dbl r d c =
      (Nat.count (HVec lay sd dbl r d) ((lay.nodeinfo r).siteIndexSub sd c / V) + off) * V + (lay.nodeinfo r).siteIndexSub sd c % V := by
    intro c hc he
    unfold slotOf
    rw [siteNeighbour_edge dbl h r hr d hc he]
    ring
  refine ⟨m', ?_, ?_, ?_, ?_⟩
  · unfold setLocalVec
    dsimp only
    rw [if_pos (by rw [Bool.or_eq_true]; exact hloc)]
    exact e1
  · intro c hc he hb hv
    have hv2 : start ≤ Nat.count (HVec lay sd dbl r d) ((lay.nodeinfo r).siteIndexSub sd c / V) ∧
        Nat.count (HVec lay sd dbl r d) ((lay.nodeinfo r).siteIndexSub sd c / V) < stop := (visits_halo dbl h r hr d par hpar hc he).1 hv
    rw [hslot c hc he, e2 _ _ hv2.1 (by omega) (haloIndex_get dbl h r hr d hloc hc he hb) _ (Nat.mod_lt _ hV)]
    congr 2
    have hl := inBox_inLattice lay h.wf r c hc
    have hst := (step_edge dbl h r hr c d hc he).1
    rw [(inBox_iff_nodeRank lay h.wf r hr _ (neighbour_inLattice lay h.wf c hl d)).1 hb] at hst
    rw [rank_index dbl h r hr hc, hQz _ (rank_Q_lt dbl h r hr hc), ← hst, ← rank_index dbl h r hr hb, mul_comm]
    exact Nat.div_add_mod _ _
  · intro c hc he hv
    rw [hslot c hc he]
    apply e3
    intro p hp1 hp2 hblk
    apply hv
    rw [visits_halo dbl h r hr d par hpar hc he]
    have hk := Nat.mod_lt ((lay.nodeinfo r).siteIndexSub sd c) hV
    set C := Nat.count (HVec lay sd dbl r d) ((lay.nodeinfo r).siteIndexSub sd c / V)
    have : C = p := by
      rcases Nat.lt_trichotomy C p with hh | hh | hh
      · have h4 : (C + off + 1) * V ≤ (p + off) * V := Nat.mul_le_mul_right V (by omega)
        have h5 : (C + off + 1) * V = (C + off) * V + V := by ring
        omega
      · exact hh
      · have h4 : (p + off + 1) * V ≤ (C + off) * V := Nat.mul_le_mul_right V (by omega)
        have h5 : (p + off + 1) * V = (p + off) * V + V := by ring
        omega
    show start ≤ C ∧ C < stop
    omega
  · intro j hj
    apply e3
    intro p hp1 hp2 hblk
    have hsu : haloOffset lay sd dbl r (d.val + 1) = off + nh := haloOffset_succ dbl h r hr d
    rw [hsu] at hj
    have h4 : (p + off + 1) * V ≤ (off + nh) * V := Nat.mul_le_mul_right V (by omega)
    have h5 : (p + off + 1) * V = (p + off) * V + V := by ring
    have h6 : off * V ≤ (p + off) * V := Nat.mul_le_mul_right V (by omega)
    omega

/-! ### Sites that need data from another rank -/

theorem mem_offPar (r : ℕ) (d : Dir n) (par : Parity) (hpar : par ≠ .none) (j : ℕ) :
    j ∈ offPar lay sd r d par ↔ j ∈ offSites lay sd r d ∧ Visits par ((lay.nodeinfo r).coordSub sd j) := by
  unfold offPar Visits
  rcases Site.parity_cases ((lay.nodeinfo r).coordSub sd j) with hp | hp <;> cases par <;> simp [hp] at hpar ⊢

theorem offSites_split (r : ℕ) (hr : r < lay.numNodes) (d : Dir n) : offSites lay sd r d =
    (offSites lay sd r d).filter (fun i => decide (((lay.nodeinfo r).coordSub sd i).parity = .even)) ++
    (offSites lay sd r d).filter (fun i => !decide (((lay.nodeinfo r).coordSub sd i).parity = .even)) := by
  apply List.Pairwise.eq_of_mem_iff (r := (· < ·)) (offSites_sorted r d)
  · rw [List.pairwise_append]
    refine ⟨List.Pairwise.filter _ (offSites_sorted r d), List.Pairwise.filter _ (offSites_sorted r d), ?_⟩
    intro i hi j hj
    rw [List.mem_filter, mem_offSites h r hr] at hi hj
    have h1 := (vec_even_iff false h r hr i hi.1.1).2 (by simpa using hi.2)
    have h2 : ¬ _ := fun hh => absurd ((vec_even_iff false h r hr j hj.1.1).1 hh) (by simpa using hj.2)
    by_contra hcon
    have := Nat.div_le_div_right (c := sd.vecSize false) (Nat.le_of_not_lt hcon)
    omega
  · intro j
    rw [List.mem_append, List.mem_filter, List.mem_filter]
    by_cases hp : ((lay.nodeinfo r).coordSub sd j).parity = .even <;> simp [hp]

theorem offPar_get (r : ℕ) (hr : r < lay.numNodes) (d : Dir n) (par : Parity) (hpar : par ≠ .none) :
    (offPar lay sd r d par).length = fromSitesSub lay sd r d par ∧
    ∀ p, p < (offPar lay sd r d par).length → (offPar lay sd r d par)[p]? = (offSites lay sd r d)[p + (if par = .odd then fromEvenSub lay sd r d else 0)]? := by
  have hsplit := offSites_split h r hr d
  set Oe := (offSites lay sd r d).filter (fun i => decide (((lay.nodeinfo r).coordSub sd i).parity = .even)) with hOe
  set Oo := (offSites lay sd r d).filter (fun i => !decide (((lay.nodeinfo r).coordSub sd i).parity = .even)) with hOo
  have hlen : (offSites lay sd r d).length = Oe.length + Oo.length := by rw [hsplit, List.length_append]
  have hfe : fromEvenSub lay sd r d = Oe.length := rfl
  unfold fromSitesSub
  cases par with
  | none => exact absurd rfl hpar
  | even =>
    have e : offPar lay sd r d .even = Oe := by unfold offPar; simp [hOe]
    rw [e]
    refine ⟨by simp [hfe], fun p hp => ?_⟩
    rw [if_neg (by simp), add_zero, hsplit, List.getElem?_append_left hp]
  | odd =>
    have e : offPar lay sd r d .odd = Oo := by unfold offPar; simp [hOo]
    rw [e]
    refine ⟨by simp [hfe, hlen], fun p hp => ?_⟩
    rw [if_pos rfl, hfe, hsplit, List.getElem?_append_right (by omega), Nat.add_sub_cancel]
  | all =>
    have e : offPar lay sd r d .all = offSites lay sd r d := by
      rw [hsplit]; unfold offPar; simp [hOe, hOo]
    rw [e]
    exact ⟨by simp, fun p hp => by simp⟩

theorem offPar_nodup (r : ℕ) (hr : r < lay.numNodes) (d : Dir n) (par : Parity) : (offPar lay sd r d par).Nodup := by
  have hs := offSites_sorted (lay := lay) (sd := sd) r d
  have hnd : (offSites lay sd r d).Nodup := hs.imp fun hab => Nat.ne_of_lt hab
  have hsplit := offSites_split h r hr d
  rw [hsplit, List.nodup_append] at hnd
  unfold offPar
  cases par <;> simp [hnd.1, hnd.2.1]
  · exact List.nodup_append.2 hnd
  · exact List.nodup_append.2 hnd

/-- In a direction with one subnode per node which is divided between nodes, the sites to be received are whole vectors. -/
theorem off_iff_HVec (r : ℕ) (hr : r < lay.numNodes) (d : Dir n) (hnd : lay.ndiv (axis d) ≠ 1) (hD : sd.subdivisions dbl (axis d) = 1)
    {c : Site n} (hc : BoxOf lay r c) : ¬ BoxOf lay r (lay.neighbour c d) ↔ EdgeV lay sd dbl r d c := by
  constructor
  · intro ho; exact (step_leave dbl h r hr c d hc ho).1
  · intro he hb; exact hnd (single_wrap dbl h r hr c d hc he hD hb).2

theorem offSites_expand (r : ℕ) (hr : r < lay.numNodes) (d : Dir n) (hnd : lay.ndiv (axis d) ≠ 1) (hD : sd.subdivisions dbl (axis d) = 1)
    (P : ℕ → Bool) (hP : ∀ i j, i ∈ offSites lay sd r d → j ∈ offSites lay sd r d → i / sd.vecSize dbl = j / sd.vecSize dbl → P i = P j) :
    ∃ vs, (offSites lay sd r d).filter P = expandV (sd.vecSize dbl) vs := by
  have hV := (h.sub r hr).vecSize_pos dbl
  refine ⟨(List.range ((lay.nodeinfo r).vSites sd dbl)).filter fun i => decide (HVec lay sd dbl r d i ∧ P (sd.vecSize dbl * i) = true), ?_⟩
  rw [← filter_expand _ _ hV, vol_eq dbl h r hr, offSites_eq h r hr, List.filter_filter]
  have key : ∀ j, j < (lay.nodeinfo r).volume → (j ∈ offSites lay sd r d ↔ HVec lay sd dbl r d (j / sd.vecSize dbl)) := by
    intro j hj
    obtain ⟨hc, e⟩ := rank_spec h r hr j hj
    have h1 := HVec_iff dbl h r hr d hc
    rw [e] at h1
    rw [h1, ← off_iff_HVec dbl h r hr d hnd hD hc, mem_offSites h r hr]
    exact and_iff_right hj
  apply List.filter_congr
  intro j hj
  rw [List.mem_range] at hj
  have hk := key j hj
  have hoff : OffS lay sd r d j ↔ j ∈ offSites lay sd r d := by
    rw [mem_offSites h r hr, offS_iff]; exact (and_iff_right hj).symm
  by_cases hH : HVec lay sd dbl r d (j / sd.vecSize dbl)
  · have hmem := hk.2 hH
    have hj0 : sd.vecSize dbl * (j / sd.vecSize dbl) < (lay.nodeinfo r).volume := lt_of_le_of_lt (Nat.mul_div_le _ _) hj
    have hdiv : sd.vecSize dbl * (j / sd.vecSize dbl) / sd.vecSize dbl = j / sd.vecSize dbl := Nat.mul_div_cancel_left _ hV
    have hmem0 : sd.vecSize dbl * (j / sd.vecSize dbl) ∈ offSites lay sd r d := by rw [key _ hj0, hdiv]; exact hH
    rw [hP _ _ hmem hmem0 hdiv.symm]
    simp [hH, hoff.2 hmem]
  · have : ¬ OffS lay sd r d j := fun hh => hH (hk.1 (hoff.1 hh))
    simp [hH, this]

/-- Address in the halo of the received sites. -/
theorem slot_position (r : ℕ) (hr : r < lay.numNodes) (d : Dir n) (hnd : lay.ndiv (axis d) ≠ 1) (hD : sd.subdivisions dbl (axis d) = 1)
    (p j : ℕ) (hp : (offSites lay sd r d)[p]? = some j) :
    siteNeighbour lay sd dbl r d j = haloOffset lay sd dbl r d.val * sd.vecSize dbl + p := by
  have hV := (h.sub r hr).vecSize_pos dbl
  have hO : offSites lay sd r d = expandV (sd.vecSize dbl) ((List.range ((lay.nodeinfo r).vSites sd dbl)).filter fun i => decide (HVec lay sd dbl r d i)) := by
    rw [← filter_expand _ _ hV, vol_eq dbl h r hr, offSites_eq h r hr]
    apply List.filter_congr
    intro j hj
    rw [List.mem_range] at hj
    apply Bool.decide_congr
    obtain ⟨hc, e⟩ := rank_spec h r hr j hj
    have h1 := HVec_iff dbl h r hr d hc
    rw [e] at h1
    rw [h1, ← off_iff_HVec dbl h r hr d hnd hD hc, offS_iff]
  have hplt : p < (offSites lay sd r d).length := (List.getElem?_eq_some_iff.1 hp).1
  rw [hO, expandV_length] at hplt
  obtain ⟨i, h1, h2⟩ := expandV_get _ _ p hplt
  rw [hO, h2] at hp
  have hj : j = sd.vecSize dbl * i + p % sd.vecSize dbl := (Option.some.inj hp).symm
  have hmem := List.mem_of_getElem? h1
  rw [List.mem_filter, List.mem_range, decide_eq_true_iff] at hmem
  have hcnt : Nat.count (HVec lay sd dbl r d) i = p / sd.vecSize dbl := by
    have h3 := filter_range_count (HVec lay sd dbl r d) _ i hmem.1 hmem.2
    have hndp : ((List.range ((lay.nodeinfo r).vSites sd dbl)).filter fun i => decide (HVec lay sd dbl r d i)).Nodup := List.Nodup.filter _ List.nodup_range
    obtain ⟨_, e1⟩ := List.getElem?_eq_some_iff.1 h1
    obtain ⟨_, e2⟩ := List.getElem?_eq_some_iff.1 h3
    exact (List.Nodup.getElem_inj_iff hndp).1 (e2.trans e1.symm)
  have hm := Nat.mod_lt p hV
  unfold siteNeighbour
  rw [hj, Nat.mul_add_div hV, Nat.div_eq_of_lt hm, add_zero, Nat.mul_add_mod, Nat.mod_mod, neighboursVec_eq dbl h r hr d i hmem.1, if_pos hmem.2, hcnt,
    Nat.mul_add, add_assoc, Nat.div_add_mod, mul_comm]

/-! ### The message -/

theorem partner_back (r : ℕ) (hr : r < lay.numNodes) (d : Dir n) (hnd : lay.ndiv (axis d) ≠ 1) :
    partnerSub lay sd r d < lay.numNodes ∧ partnerSub lay sd r d ≠ r ∧ partnerSub lay sd (partnerSub lay sd r d) (oppDir d) = r := by
  obtain ⟨c, hc, ho⟩ := exists_off h r hr d hnd
  have hl := inBox_inLattice lay h.wf r c hc
  have hnl := neighbour_inLattice lay h.wf c hl d
  rw [partnerSub_eq h r hr d hc ho]
  have hs := nodeRank_lt lay h.wf _ hnl
  refine ⟨hs, off_rank_ne lay h.wf r hr c d hc ho, ?_⟩
  rw [partnerSub_eq h _ hs (oppDir d) (box_nodeRank lay h.wf _ hnl) (off_partner lay h.wf r hr c d hc ho), neighbour_back lay h.wf c hl]
  exact (inBox_iff_nodeRank lay h.wf r hr c hl).1 hc

theorem sent_spec (r : ℕ) (hr : r < lay.numNodes) (d : Dir n) (hnd : lay.ndiv (axis d) ≠ 1) (par : Parity) {T : Type} [Neg T] (mem : ℕ → Mem T) (anti : Bool) :
    sentVec lay sd dbl mem d par anti (partnerSub lay sd r d) r = some ((offPar lay sd r d par).map fun j =>
      signed (anti && isOnEdge lay (partnerSub lay sd r d) (oppDir d)) (mem (partnerSub lay sd r d) (phi lay sd r d j))) := by
  obtain ⟨hs, hne, hback⟩ := partner_back h r hr d hnd
  unfold sentVec
  rw [if_pos ⟨by rw [hback]; exact Ne.symm hne, hback⟩]
  dsimp only
  have hmap : ∀ neg : Bool, (sendSites lay sd (partnerSub lay sd r d) d par).map (fun i => signed neg (mem (partnerSub lay sd r d) i)) =
      (offPar lay sd r d par).map fun j => signed neg (mem (partnerSub lay sd r d) (phi lay sd r d j)) := by
    intro neg
    rw [sendSites_eq h r hr d hnd, List.map_map]; rfl
  by_cases hp : sd.isBoundaryPerm dbl (axis d) = true
  · rw [if_pos hp, hmap]
  · rw [if_neg hp]
    have hD1 : sd.subdivisions dbl (axis d) = 1 := by
      have := (h.sub r hr).subdiv_pos dbl (axis d)
      unfold SubDiv.isBoundaryPerm at hp
      rw [decide_eq_true_iff] at hp
      omega
    set s := partnerSub lay sd r d with hsdef
    have hparity : ∀ i j, i ∈ offSites lay sd s (oppDir d) → j ∈ offSites lay sd s (oppDir d) → i / sd.vecSize dbl = j / sd.vecSize dbl →
        ((lay.neighbour ((lay.nodeinfo s).coordSub sd i) (oppDir d)).parity = .even ↔ (lay.neighbour ((lay.nodeinfo s).coordSub sd j) (oppDir d)).parity = .even) := by
      intro i j hi hj hij
      rw [mem_offSites h s hs] at hi hj
      have h1 := vec_even_iff dbl h s hs i hi.1
      have h2 := vec_even_iff dbl h s hs j hj.1
      rw [hij, h2, Site.parity_even_iff, Site.parity_even_iff] at h1
      have := face_parity lay h.wf s _ _ (oppDir d) (rank_spec h s hs i hi.1).1 (rank_spec h s hs j hj.1).1 hi.2 hj.2
      rw [Site.parity_even_iff, Site.parity_even_iff]
      omega
    have hnd' : lay.ndiv (axis (oppDir d)) ≠ 1 := by rw [axis_oppDir]; exact hnd
    have hD' : sd.subdivisions dbl (axis (oppDir d)) = 1 := by rw [axis_oppDir]; exact hD1
    obtain ⟨v1, hv1⟩ := offSites_expand dbl h s hs (oppDir d) hnd' hD'
      (fun i => decide ((lay.neighbour ((lay.nodeinfo s).coordSub sd i) (oppDir d)).parity = .even)) (fun i j hi hj hij => by
        rw [decide_eq_decide]; exact hparity i j hi hj hij)
    obtain ⟨v2, hv2⟩ := offSites_expand dbl h s hs (oppDir d) hnd' hD'
      (fun i => !decide ((lay.neighbour ((lay.nodeinfo s).coordSub sd i) (oppDir d)).parity = .even)) (fun i j hi hj hij => by
        rw [Bool.not_inj_iff, decide_eq_decide]; exact hparity i j hi hj hij)
    have hex : ∃ vs, sendSites lay sd s d par = expandV (sd.vecSize dbl) vs := by
      unfold sendSites
      dsimp only
      rw [hv1, hv2]
      refine ⟨(if par ≠ .odd then v1 else []) ++ (if par ≠ .even then v2 else []), ?_⟩
      rw [expandV_append]
      congr 1 <;> split <;> rfl
    obtain ⟨vs, hvs⟩ := hex
    rw [hvs, gatherVectors_expand, ← hvs, hmap]

/-! ### The gather -/

theorem gatherVec_spec (r : ℕ) (hr : r < lay.numNodes) (d : Dir n) (par : Parity) (hpar : par ≠ .none) {T : Type} [Neg T] (mem : ℕ → Mem T) (anti : Bool) :
    ∃ m', gatherVec lay sd dbl mem d par anti r = some m' ∧
      (∀ c, BoxOf lay r c → EdgeV lay sd dbl r d c → Visits par c → BoxOf lay r (lay.neighbour c d) →
        m' (slotOf lay sd dbl r d c) = signed (anti && isOnEdge lay r d) (mem r ((lay.nodeinfo r).siteIndexSub sd (lay.neighbour c d)))) ∧
      (∀ c, BoxOf lay r c → EdgeV lay sd dbl r d c → Visits par c → ¬ BoxOf lay r (lay.neighbour c d) →
        m' (slotOf lay sd dbl r d c) = signed (anti && isOnEdge lay (lay.nodeRank (lay.neighbour c d)) (oppDir d))
          (mem (lay.nodeRank (lay.neighbour c d)) ((lay.nodeinfo (lay.nodeRank (lay.neighbour c d))).siteIndexSub sd (lay.neighbour c d)))) ∧
      (∀ c, BoxOf lay r c → EdgeV lay sd dbl r d c → ¬ Visits par c → m' (slotOf lay sd dbl r d c) = mem r (slotOf lay sd dbl r d c)) ∧
      (∀ j, j < haloOffset lay sd dbl r d.val * sd.vecSize dbl ∨ haloOffset lay sd dbl r (d.val + 1) * sd.vecSize dbl ≤ j → m' j = mem r j) := by
  have hsub := h.sub r hr
  have hD := hsub.subdiv_pos dbl (axis d)
  by_cases hnd : lay.ndiv (axis d) = 1
  · have hloc : sd.isBoundaryPerm dbl (axis d) = true ∨ onlyLocalCopy lay sd dbl d = true := by
      unfold onlyLocalCopy
      cases hp : sd.isBoundaryPerm dbl (axis d)
      · right; simp [hnd]
      · left; rfl
    obtain ⟨m', e1, e2, e3, e4⟩ := setLocalVec_spec dbl h r hr d par hpar (anti && isOnEdge lay r d) (mem r) hloc
    refine ⟨m', ?_, fun c hc he hv hb => e2 c hc he hb hv, fun c hc he hv hb => absurd (undivided_box h r c d hc hnd) hb, e3, e4⟩
    unfold gatherVec
    rw [e1, (partnerSub_none h r hr d hnd).2]
    simp
  · obtain ⟨hs, hne, hback⟩ := partner_back h r hr d hnd
    have hsent := sent_spec dbl h r hr d hnd par mem anti
    obtain ⟨hlen, hget⟩ := offPar_get h r hr d par hpar
    set s := partnerSub lay sd r d with hsdef
    set O := offPar lay sd r d par with hO
    set B := O.map fun j => signed (anti && isOnEdge lay s (oppDir d)) (mem s (phi lay sd r d j)) with hB
    set I := O.map (siteNeighbour lay sd dbl r d) with hI
    have hOmem : ∀ j, j ∈ O ↔ j ∈ offSites lay sd r d ∧ Visits par ((lay.nodeinfo r).coordSub sd j) := mem_offPar h r d par hpar
    have hOsite : ∀ j, j ∈ O → j < (lay.nodeinfo r).volume ∧ BoxOf lay r ((lay.nodeinfo r).coordSub sd j) ∧
        (lay.nodeinfo r).siteIndexSub sd ((lay.nodeinfo r).coordSub sd j) = j ∧ EdgeV lay sd dbl r d ((lay.nodeinfo r).coordSub sd j) ∧
        ¬ BoxOf lay r (lay.neighbour ((lay.nodeinfo r).coordSub sd j) d) := by
      intro j hj
      have h1 := ((hOmem j).1 hj).1
      rw [mem_offSites h r hr] at h1
      obtain ⟨hc, e⟩ := rank_spec h r hr j h1.1
      exact ⟨h1.1, hc, e, (step_leave dbl h r hr _ d hc h1.2).1, h1.2⟩
    have hInj : ∀ i j, i ∈ O → j ∈ O → siteNeighbour lay sd dbl r d i = siteNeighbour lay sd dbl r d j → i = j := by
      intro i j hi hj e
      obtain ⟨_, ci, ei, Ei, _⟩ := hOsite i hi
      obtain ⟨_, cj, ej, Ej, _⟩ := hOsite j hj
      have := slotVec_inj dbl h r hr d ci cj Ei Ej (by show siteNeighbour _ _ _ _ _ _ = siteNeighbour _ _ _ _ _ _; rw [ei, ej]; exact e)
      rw [← ei, ← ej, this]
    have hInd : I.Nodup := List.Nodup.map_on (fun i hi j hj e => hInj i j hi hj e) (offPar_nodup h r hr d par)
    -- the placement of the message
    have hplace : ∀ m1 : Mem T, ∃ m', (if sd.isBoundaryPerm dbl (axis d) then placeRecv lay sd dbl r d par m1 B
        else some (placeAt m1 (haloOffset lay sd dbl r d.val * sd.vecSize dbl + (if par = .odd then fromEvenSub lay sd r d else 0)) B)) = some m' ∧
        (∀ i (hi : i < O.length), m' (I[i]'(by rw [hI, List.length_map]; exact hi)) = B[i]'(by rw [hB, List.length_map]; exact hi)) ∧
        (∀ x, x ∉ I → m' x = m1 x) := by
      intro m1
      by_cases hp : sd.isBoundaryPerm dbl (axis d) = true
      · simp only [if_pos hp]
        have hrls : recvListSize lay r d = (offSites lay sd r d).length := recvListSize_eq h r hr d hnd
        have hoh := off_half h r hr d hnd
        have hcnt : (if par = .all then recvListSize lay r d else recvListSize lay r d / 2) = O.length := by
          rw [hlen, hrls]
          unfold fromSitesSub
          cases par <;> simp at hpar ⊢ <;> omega
        have hstart : (if par = .odd then recvListSize lay r d / 2 else 0) = if par = .odd then fromEvenSub lay sd r d else 0 := by
          rw [hrls]; split <;> omega
        have := place_fold I B hInd m1 (fun i => (recvList lay sd dbl r d)[i + (if par = .odd then fromEvenSub lay sd r d else 0)]?) O.length
          (by rw [hI, List.length_map]) (by rw [hB, List.length_map]) (by
            intro i hi
            have hg := hget i hi
            unfold recvList
            rw [List.getElem?_map, ← hg, hI, List.getElem?_map]
            cases O[i]? with
            | none => rfl
            | some j =>
              simp only [Option.map_some]
              unfold siteNeighbour
              rw [mul_comm])
        unfold placeRecv
        dsimp only
        rw [hcnt, hstart]
        exact this
      · simp only [if_neg hp]
        have hD1 : sd.subdivisions dbl (axis d) = 1 := by
          unfold SubDiv.isBoundaryPerm at hp
          rw [decide_eq_true_iff] at hp
          omega
        set A := haloOffset lay sd dbl r d.val * sd.vecSize dbl + (if par = .odd then fromEvenSub lay sd r d else 0) with hA
        have hpos : ∀ i (hi : i < O.length), siteNeighbour lay sd dbl r d (O[i]) = A + i := by
          intro i hi
          have hg := hget i hi
          rw [List.getElem?_eq_getElem hi] at hg
          rw [slot_position dbl h r hr d hnd hD1 _ _ hg.symm, hA]
          omega
        have hBlen : B.length = O.length := by rw [hB, List.length_map]
        refine ⟨_, rfl, fun i hi => ?_, fun x hx => ?_⟩
        · have e : I[i]'(by rw [hI, List.length_map]; exact hi) = A + i := by
            rw [← hpos i hi]; simp only [hI, List.getElem_map]
          rw [e]
          unfold placeAt
          rw [dif_pos ⟨by omega, by omega⟩]
          congr 1
          omega
        · unfold placeAt
          rw [dif_neg]
          rintro ⟨h1, h2⟩
          apply hx
          have hlt : x - A < O.length := by omega
          have := hpos (x - A) hlt
          rw [hI, List.mem_map]
          exact ⟨O[x - A], List.getElem_mem _, by omega⟩
    -- the local part
    have hlocal : ∃ m1, setLocalVec lay sd dbl r d par (anti && isOnEdge lay r d) (mem r) = some m1 ∧
        (∀ c, BoxOf lay r c → EdgeV lay sd dbl r d c → BoxOf lay r (lay.neighbour c d) → Visits par c →
          m1 (slotOf lay sd dbl r d c) = signed (anti && isOnEdge lay r d) (mem r ((lay.nodeinfo r).siteIndexSub sd (lay.neighbour c d)))) ∧
        (∀ c, BoxOf lay r c → EdgeV lay sd dbl r d c → ¬ Visits par c → m1 (slotOf lay sd dbl r d c) = mem r (slotOf lay sd dbl r d c)) ∧
        (∀ j, j < haloOffset lay sd dbl r d.val * sd.vecSize dbl ∨ haloOffset lay sd dbl r (d.val + 1) * sd.vecSize dbl ≤ j → m1 j = mem r j) := by
      by_cases hp : sd.isBoundaryPerm dbl (axis d) = true
      · exact setLocalVec_spec dbl h r hr d par hpar _ (mem r) (Or.inl hp)
      · have hD1 : sd.subdivisions dbl (axis d) = 1 := by
          unfold SubDiv.isBoundaryPerm at hp
          rw [decide_eq_true_iff] at hp
          omega
        refine ⟨mem r, setLocal_none dbl h r d par _ (mem r) ?_, fun c hc he hb _ => absurd hb ((off_iff_HVec dbl h r hr d hnd hD1 hc).2 he),
          fun _ _ _ _ => rfl, fun _ _ => rfl⟩
        rintro (hh | hh)
        · exact hp hh
        · unfold onlyLocalCopy at hh
          rw [Bool.and_eq_true, decide_eq_true_iff] at hh
          exact hnd hh.1
    obtain ⟨m1, e1, e2, e3, e4⟩ := hlocal
    obtain ⟨m', p1, p2, p3⟩ := hplace m1
    have hnotI : ∀ c, BoxOf lay r c → EdgeV lay sd dbl r d c → (BoxOf lay r (lay.neighbour c d) ∨ ¬ Visits par c) → slotOf lay sd dbl r d c ∉ I := by
      intro c hc he hor hmem
      rw [hI, List.mem_map] at hmem
      obtain ⟨j, hj, e⟩ := hmem
      obtain ⟨_, cj, ej, Ej, oj⟩ := hOsite j hj
      have hcc := slotVec_inj dbl h r hr d cj hc Ej he (by show siteNeighbour _ _ _ _ _ _ = _; rw [ej]; exact e)
      rw [hcc] at oj
      rcases hor with hh | hh
      · exact oj hh
      · apply hh; rw [← hcc]; exact ((hOmem j).1 hj).2
    refine ⟨m', ?_, ?_, ?_, ?_, ?_⟩
    · unfold gatherVec
      rw [e1]
      simp only [Option.bind_eq_bind, Option.bind_some]
      rw [← hsdef, if_pos hne, hsent]
      simp only [Option.bind_some]
      rw [if_pos (by rw [← hlen, List.length_map])]
      exact p1
    · intro c hc he hv hb
      rw [p3 _ (hnotI c hc he (Or.inl hb))]
      exact e2 c hc he hb hv
    · intro c hc he hv hb
      have hj : (lay.nodeinfo r).siteIndexSub sd c ∈ O := by
        rw [hOmem, mem_offSites h r hr, rank_coord h r hr hc]
        exact ⟨⟨rank_index_lt h r hr hc, hb⟩, hv⟩
      obtain ⟨i, hi, ei⟩ := List.getElem_of_mem hj
      have := p2 i hi
      have eI : I[i]'(by rw [hI, List.length_map]; exact hi) = slotOf lay sd dbl r d c := by
        simp only [hI, List.getElem_map, ei]
      have eB : B[i]'(by rw [hB, List.length_map]; exact hi) =
          signed (anti && isOnEdge lay s (oppDir d)) (mem s (phi lay sd r d ((lay.nodeinfo r).siteIndexSub sd c))) := by
        simp only [hB, List.getElem_map, ei]
      rw [eI, eB] at this
      rw [this, ← partnerSub_eq h r hr d hc hb]
      congr 2
      unfold phi
      dsimp only
      rw [rank_coord h r hr hc, ← partnerSub_eq h r hr d hc hb]
    · intro c hc he hv
      rw [p3 _ (hnotI c hc he (Or.inr hv))]
      exact e3 c hc he hv
    · intro j hj
      rw [p3, e4 j hj]
      rw [hI, List.mem_map]
      rintro ⟨i, hi, ei⟩
      obtain ⟨_, ci, ei2, Ei, _⟩ := hOsite i hi
      have := slot_range dbl h r hr d ci Ei
      unfold slotOf at this
      rw [ei2, ei] at this
      omega

end Gather

end Hila
