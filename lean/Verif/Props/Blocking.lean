import Verif.Model.Blocking
import Verif.Props.HaloState

/-!
# C30: blocked lattices
-/

set_option linter.unusedSectionVars false

namespace Hila

open BigOperators

/-! ## Specification -/

/-- `blk` is `par` blocked by the factors `f`: its size times `f` is that of `par` and it is divided between the
ranks in the same way. -/
structure Blocks {n : ℕ} (par blk : Layout n) (f : Site n) : Prop where
  pos : ∀ d, 0 < f d
  size : ∀ d, par.L d = blk.L d * f d
  ndiv : blk.ndiv = par.ndiv
  remap : blk.remap = par.remap
  inv : blk.invRemap = par.invRemap

/-- Site `c` of the blocked lattice on the parent lattice. -/
def blockedSite {n : ℕ} (f c : Site n) : Site n := fun d => c d * f d

/-- The sites of rank `r` in some order, each once. -/
def SiteOrder {n : ℕ} (lay : Layout n) (r : ℕ) (l : List ℕ) : Prop :=
  l.Nodup ∧ ∀ i, i ∈ l ↔ i < (lay.nodeinfo r).volume

/-! ## Ownership -/

section
variable {n : ℕ} {par blk : Layout n} {f : Site n}

theorem Blocks.factor (hb : Blocks par blk f) (hw : par.WF) : blockFactor par blk = f := by
  funext d
  have h1 := hw.L_pos d
  have h2 := hb.size d
  have h3 : 0 < blk.L d := by
    rcases Nat.eq_zero_or_pos (blk.L d) with h | h
    · rw [h] at h2; omega
    · exact h
  show par.L d / blk.L d = f d
  rw [h2, Nat.mul_div_cancel_left _ h3]

theorem Blocks.wf (hb : Blocks par blk f) (hw : par.WF) : blk.WF where
  L_pos d := by
    have h1 := hw.L_pos d
    have h2 := hb.size d
    rcases Nat.eq_zero_or_pos (blk.L d) with h | h
    · rw [h] at h2; omega
    · exact h
  ndiv_pos := by rw [hb.ndiv]; exact hw.ndiv_pos
  remap_lt := by unfold Layout.numNodes; rw [hb.ndiv, hb.remap]; exact hw.remap_lt
  inv_lt := by unfold Layout.numNodes; rw [hb.ndiv, hb.inv]; exact hw.inv_lt
  remap_inv := by unfold Layout.numNodes; rw [hb.ndiv, hb.inv, hb.remap]; exact hw.remap_inv
  inv_remap := by unfold Layout.numNodes; rw [hb.ndiv, hb.inv, hb.remap]; exact hw.inv_remap

theorem Blocks.numNodes (hb : Blocks par blk f) : blk.numNodes = par.numNodes := by
  unfold Layout.numNodes; rw [hb.ndiv]

theorem Blocks.inLattice (hb : Blocks par blk f) (c : Site n) (hc : blk.InLattice c) :
    par.InLattice (blockedSite f c) := fun d => by
  rw [hb.size d]; exact Nat.mul_lt_mul_of_pos_right (hc d) (hb.pos d)

theorem Blocks.rank (hb : Blocks par blk f) (c : Site n) :
    blk.nodeRank c = par.nodeRank (blockedSite f c) := by
  unfold Layout.nodeRank
  rw [hb.remap, hb.ndiv]
  have : blk.nodeCoord c = par.nodeCoord (blockedSite f c) := by
    funext d
    unfold Layout.nodeCoord blockedSite
    rw [hb.size d, hb.ndiv, Nat.mul_right_comm, Nat.mul_div_mul_right _ _ (hb.pos d)]
  rw [this]

/-- A site of the parent lattice with all coordinates divisible by the factors. -/
theorem Blocks.quot (hb : Blocks par blk f) (c : Site n) (hc : par.InLattice c) (hd : ∀ d, c d % f d = 0) :
    blk.InLattice (fun d => c d / f d) ∧ blockedSite f (fun d => c d / f d) = c := by
  refine ⟨fun d => ?_, funext fun d => Nat.div_mul_cancel (Nat.dvd_of_mod_eq_zero (hd d))⟩
  have h1 := hc d
  rw [hb.size d] at h1
  exact Nat.div_lt_of_lt_mul (by rw [Nat.mul_comm]; exact h1)

end

/-- What holds of the list of lattices after any sequence of operations. -/
structure LatInv {n : ℕ} (base : Layout n) (s : LatState n) : Prop where
  cur : s.cur < s.defined.length
  first : s.defined[0]? = some ⟨base, none⟩
  wf : ∀ (i : ℕ) (l : Lat n), s.defined[i]? = some l → l.lay.WF
  parent : ∀ (i : ℕ) (l : Lat n) (p : ℕ), s.defined[i]? = some l → l.parent = some p →
    p < i ∧ ∃ (lp : Lat n) (f : Site n), s.defined[p]? = some lp ∧ Blocks lp.lay l.lay f
  root : ∀ (i : ℕ) (l : Lat n), s.defined[i]? = some l → l.parent = none → i = 0
  sizes : ∀ (i j : ℕ) (l m : Lat n), s.defined[i]? = some l → s.defined[j]? = some m → l.lay.L = m.lay.L → i = j

theorem canBlock_true {n : ℕ} (L : Site n) (f : CV n) (h : canBlock L f = some true) :
    ∀ d, 0 < f d ∧ (L d : ℤ) % f d = 0 := by
  unfold canBlock at h
  split at h
  · cases h
  · rename_i hp
    have h2 : ∀ d, (L d : ℤ) % f d = 0 := by simpa using h
    exact fun d => ⟨by by_contra hc; exact hp ⟨d, by omega⟩, h2 d⟩

/-- The new lattice is the blocked one. -/
theorem blocks_of_canBlock {n : ℕ} (lay : Layout n) (f : CV n) (h : canBlock lay.L f = some true) :
    Blocks lay (blockedLayout lay fun d => ((lay.L d : ℤ) / f d).toNat) fun d => (f d).toNat where
  pos d := by have := (canBlock_true _ f h d).1; omega
  size d := by
    obtain ⟨h1, h2⟩ := canBlock_true _ f h d
    show lay.L d = ((lay.L d : ℤ) / f d).toNat * (f d).toNat
    have h3 : (lay.L d : ℤ) / f d * f d = lay.L d := Int.ediv_mul_cancel (Int.dvd_of_emod_eq_zero h2)
    have h4 : 0 ≤ (lay.L d : ℤ) / f d := Int.ediv_nonneg (by omega) h1.le
    have : ((((lay.L d : ℤ) / f d).toNat * (f d).toNat : ℕ) : ℤ) = lay.L d := by
      rw [Int.natCast_mul, Int.toNat_of_nonneg h4, Int.toNat_of_nonneg h1.le, h3]
    exact_mod_cast this.symm
  ndiv := rfl
  remap := rfl
  inv := rfl

theorem blockByFactor_inv {n : ℕ} (base : Layout n) (s t : LatState n) (f : CV n) (h : LatInv base s)
    (hs : blockByFactor s f = some t) : LatInv base t := by
  unfold blockByFactor at hs
  cases hl : s.defined[s.cur]? with
  | none => rw [hl] at hs; cases hs
  | some l =>
    rw [hl] at hs
    dsimp only at hs
    cases hcb : canBlock l.lay.L f with
    | none => rw [hcb] at hs; cases hs
    | some b =>
      rw [hcb] at hs
      cases b with
      | false => cases hs
      | true =>
        dsimp only at hs
        have hB := blocks_of_canBlock l.lay f hcb
        generalize hv : (fun d => ((l.lay.L d : ℤ) / f d).toNat) = v at hs hB
        cases hf : s.defined.findIdx? (fun m => decide (m.lay.L = v)) with
        | some i =>
          rw [hf] at hs
          cases hs
          have := List.findIdx?_eq_some_iff_getElem.1 hf
          exact ⟨this.1, h.first, h.wf, h.parent, h.root, h.sizes⟩
        | none =>
          rw [hf] at hs
          cases hs
          have hnone : ∀ m ∈ s.defined, ¬ m.lay.L = v := by
            intro m hm; have := List.findIdx?_eq_none_iff.1 hf m hm; simpa using this
          have hsplit : ∀ (i : ℕ) (m : Lat n), (s.defined ++ [⟨blockedLayout l.lay v, some s.cur⟩])[i]? = some m →
              s.defined[i]? = some m ∨ (i = s.defined.length ∧ m = ⟨blockedLayout l.lay v, some s.cur⟩) := by
            intro i m hi
            rcases lt_trichotomy i s.defined.length with hlt | heq | hgt
            · left; rwa [List.getElem?_append_left hlt] at hi
            · right; subst heq; simp at hi; exact ⟨rfl, hi.symm⟩
            · rw [List.getElem?_eq_none (by simp; omega)] at hi; cases hi
          have hold : ∀ (i : ℕ) (m : Lat n), s.defined[i]? = some m →
              (s.defined ++ [(⟨blockedLayout l.lay v, some s.cur⟩ : Lat n)])[i]? = some m := by
            intro i m hi
            obtain ⟨hlt, _⟩ := List.getElem?_eq_some_iff.1 hi
            rw [List.getElem?_append_left hlt]; exact hi
          refine ⟨by simp, hold _ _ h.first, ?_, ?_, ?_, ?_⟩
          · intro i m hi
            rcases hsplit i m hi with hi | ⟨_, rfl⟩
            · exact h.wf i m hi
            · exact hB.wf (h.wf _ _ hl)
          · intro i m p hi hp
            rcases hsplit i m hi with hi | ⟨rfl, rfl⟩
            · obtain ⟨h1, lp, g, h2, h3⟩ := h.parent i m p hi hp
              exact ⟨h1, lp, g, hold _ _ h2, h3⟩
            · cases hp
              exact ⟨h.cur, l, _, hold _ _ hl, hB⟩
          · intro i m hi hp
            rcases hsplit i m hi with hi | ⟨rfl, rfl⟩
            · exact h.root i m hi hp
            · cases hp
          · intro i j m m' hi hj he
            rcases hsplit i m hi with hi | ⟨rfl, rfl⟩ <;> rcases hsplit j m' hj with hj | ⟨rfl, rfl⟩
            · exact h.sizes i j m m' hi hj he
            · exact absurd he (hnone m (List.mem_of_getElem? hi))
            · exact absurd he.symm (hnone m' (List.mem_of_getElem? hj))
            · rfl

theorem latStep_inv {n : ℕ} (base : Layout n) (s t : LatState n) (op : LatOp n) (h : LatInv base s)
    (hs : latStep s op = some t) : LatInv base t := by
  have sw : ∀ i, i < s.defined.length → LatInv base ⟨s.defined, i⟩ :=
    fun i hi => ⟨hi, h.first, h.wf, h.parent, h.root, h.sizes⟩
  cases op with
  | block f => exact blockByFactor_inv base s t f h hs
  | blockInt k =>
    simp only [latStep] at hs
    split at hs
    · cases hs; exact h
    · exact blockByFactor_inv base s t _ h hs
  | unblock =>
    simp only [latStep] at hs
    split at hs
    · rename_i l p hl
      cases hs
      have := (h.parent _ _ p hl rfl).1
      exact sw _ (this.trans h.cur)
    · cases hs
  | switchTo i =>
    simp only [latStep] at hs
    split at hs
    · rename_i hi; cases hs; exact sw i hi
    · cases hs
  | switchToBase =>
    cases hs
    exact sw 0 (Nat.lt_of_le_of_lt (Nat.zero_le _) h.cur)

theorem latRun_inv {n : ℕ} (base : Layout n) (hw : base.WF) (ops : List (LatOp n)) :
    ∀ s t, LatInv base s → latRun s ops = some t → LatInv base t := by
  induction ops with
  | nil => intro s t h ht; cases ht; exact h
  | cons op ops ih =>
    intro s t h ht
    unfold latRun at ht
    rw [List.foldlM_cons] at ht
    cases h1 : latStep s op with
    | none => rw [h1] at ht; cases ht
    | some u => rw [h1] at ht; exact ih u t (latStep_inv base s u op h h1) ht

theorem latInit_inv {n : ℕ} (base : Layout n) (hw : base.WF) : LatInv base (LatState.init base) := by
  have hs : ∀ (i : ℕ) (l : Lat n), (LatState.init base).defined[i]? = some l → i = 0 ∧ l = ⟨base, none⟩ := by
    intro i l hi
    cases i with
    | zero => exact ⟨rfl, by cases hi; rfl⟩
    | succ i => simp [LatState.init] at hi
  refine ⟨by simp [LatState.init], rfl, ?_, ?_, ?_, ?_⟩
  · intro i l hi; rw [(hs i l hi).2]; exact hw
  · intro i l p hi hp; rw [(hs i l hi).2] at hp; cases hp
  · intro i l hi _; exact (hs i l hi).1
  · intro i j l m hi hj _; rw [(hs i l hi).1, (hs j m hj).1]

/-- After any sequence of operations on `lattice`, every lattice with a parent is the parent blocked by some
factors, both are valid, and each of its sites is owned by the rank that owns the corresponding site of the
parent. -/
theorem C30_ownership {n : ℕ} (base : Layout n) (hw : base.WF) (ops : List (LatOp n)) (s : LatState n)
    (hs : latRun (LatState.init base) ops = some s) (i p : ℕ) (blk : Layout n)
    (hi : s.defined[i]? = some ⟨blk, some p⟩) :
    ∃ (lp : Lat n) (f : Site n), s.defined[p]? = some lp ∧ Blocks lp.lay blk f ∧ lp.lay.WF ∧ blk.WF ∧
      ∀ c, blk.InLattice c → lp.lay.InLattice (blockedSite f c) ∧
        blk.nodeRank c = lp.lay.nodeRank (blockedSite f c) := by
  have h := latRun_inv base hw ops _ _ (latInit_inv base hw) hs
  obtain ⟨_, lp, f, h1, h2⟩ := h.parent i _ p hi rfl
  exact ⟨lp, f, h1, h2, h.wf _ _ h1, h.wf _ _ hi, fun c hc => ⟨h2.inLattice c hc, h2.rank c⟩⟩

/-! ## Values -/

theorem foldlM_eq_foldl {α β : Type} (f : α → β → Option α) (g : α → β → α) (l : List β) (a : α)
    (h : ∀ a, ∀ b ∈ l, f a b = some (g a b)) : l.foldlM f a = some (l.foldl g a) := by
  induction l generalizing a with
  | nil => rfl
  | cons b l ih =>
    rw [List.foldlM_cons, h a b (by simp)]
    exact ih _ fun a c hc => h a c (by simp [hc])

/-- Writing distinct elements in any order. -/
theorem foldl_update {κ V : Type} [DecidableEq κ] (P : ℕ → Prop) [DecidablePred P] (k : ℕ → κ) (v : ℕ → V)
    (l : List ℕ) (hinj : ∀ i ∈ l, ∀ j ∈ l, P i → P j → k i = k j → i = j) (b : κ → V) :
    (∀ i ∈ l, P i → l.foldl (fun b i => if P i then Function.update b (k i) (v i) else b) b (k i) = v i) ∧
    (∀ x, (∀ i ∈ l, P i → k i ≠ x) →
      l.foldl (fun b i => if P i then Function.update b (k i) (v i) else b) b x = b x) := by
  induction l generalizing b with
  | nil => exact ⟨by simp, by simp⟩
  | cons a l ih =>
    obtain ⟨h1, h2⟩ := ih (fun i hi j hj => hinj i (by simp [hi]) j (by simp [hj]))
      (if P a then Function.update b (k a) (v a) else b)
    rw [List.foldl_cons]
    refine ⟨fun i hi hp => ?_, fun x hx => ?_⟩
    · by_cases hil : i ∈ l
      · exact h1 i hil hp
      · have hia : i = a := by simpa [hil] using hi
        subst hia
        rw [h2 (k i) fun j hj hpj he => hil (hinj j (by simp [hj]) i (by simp) hpj hp he ▸ hj), if_pos hp,
          Function.update_self]
    · rw [h2 x fun i hi => hx i (by simp [hi])]
      split
      · rename_i hp
        rw [Function.update_of_ne (hx a (by simp) hp).symm]
      · rfl

section
variable {n : ℕ} {par blk : Layout n} {f : Site n} {V : Type}

/-- Inside the box of the rank the buffer index is the logical index. -/
theorem bufIndex_box (blk : Layout n) (r : ℕ) (c : Site n) (hc : BoxOf blk r c) :
    bufIndex (blk.nodeinfo r) c = some ((blk.nodeinfo r).logicalIndex c) := by
  have hlt := logical_lt _ _ c hc
  unfold bufIndex
  rw [nodeinfo_eq, ofBox_min, ofBox_volume]
  have hneg : ¬ ∃ d, c d < blk.boxMin r d := fun ⟨d, hd⟩ => by have := hc d; omega
  have hlt' : ∑ d, (c d - blk.boxMin r d) * sizeFactor (NodeInfo.ofBox (blk.boxMin r) (blk.boxSize r)).size d <
      ∏ d, blk.boxSize r d := by
    have : (NodeInfo.ofBox (blk.boxMin r) (blk.boxSize r)).logicalIndex c =
      ∑ d, (c d - blk.boxMin r d) * sizeFactor (NodeInfo.ofBox (blk.boxMin r) (blk.boxSize r)).size d := by
      unfold NodeInfo.logicalIndex; rw [ofBox_min]
    rw [← this]; exact hlt
  rw [if_neg hneg]
  dsimp only
  rw [if_pos hlt']
  unfold NodeInfo.logicalIndex
  rw [ofBox_min]

theorem logical_inj (blk : Layout n) (r : ℕ) (c e : Site n) (hc : BoxOf blk r c) (he : BoxOf blk r e)
    (h : (blk.nodeinfo r).logicalIndex c = (blk.nodeinfo r).logicalIndex e) : c = e := by
  rw [← boxSite_logical _ _ c hc, ← boxSite_logical _ _ e he]
  rw [nodeinfo_eq] at h
  rw [h]

/-- The blocked site of a site of rank `r` is on rank `r`. -/
theorem Blocks.box (hb : Blocks par blk f) (hw : par.WF) (r : ℕ) (hr : r < par.numNodes) (c : Site n)
    (hc : BoxOf blk r c) : BoxOf par r (blockedSite f c) := by
  have hcl := inBox_inLattice blk (hb.wf hw) r c hc
  unfold BoxOf
  rw [inBox_iff_nodeRank par hw r hr _ (hb.inLattice c hcl), ← hb.rank c]
  exact (inBox_iff_nodeRank blk (hb.wf hw) r (by rw [hb.numNodes]; exact hr) c hcl).1 hc

theorem Blocks.quot_box (hb : Blocks par blk f) (hw : par.WF) (r : ℕ) (hr : r < par.numNodes) (c : Site n)
    (hc : BoxOf par r c) (hd : ∀ d, c d % f d = 0) : BoxOf blk r fun d => c d / f d := by
  have hcl := inBox_inLattice par hw r c hc
  obtain ⟨h1, h2⟩ := hb.quot c hcl hd
  unfold BoxOf
  rw [inBox_iff_nodeRank blk (hb.wf hw) r (by rw [hb.numNodes]; exact hr) _ h1, hb.rank, h2]
  exact (inBox_iff_nodeRank par hw r hr c hcl).1 hc

theorem blockedSite_mod (hpos : ∀ d, 0 < f d) (c : Site n) :
    (∀ d, blockedSite f c d % f d = 0) ∧ (fun d => blockedSite f c d / f d) = c :=
  ⟨fun d => Nat.mul_mod_left _ _, funext fun d => Nat.mul_div_cancel _ (hpos d)⟩

/-- The two loops of `block_from`: never outside the buffer, never an element that was not written, and the
result. -/
theorem packAndFill_spec (hb : Blocks par blk f) (hw : par.WF) (r : ℕ) (hr : r < par.numNodes)
    (ordP ordB : List ℕ) (hP : SiteOrder par r ordP) (hB : SiteOrder blk r ordB) (src dst : ℕ → V) :
    ∃ dst', packAndFill par blk r ordP ordB src dst = some dst' ∧
      ∀ c, BoxOf blk r c →
        dst' ((blk.nodeinfo r).siteIndex c) = src ((par.nodeinfo r).siteIndex (blockedSite f c)) := by
  have hf := hb.factor hw
  let P : ℕ → Prop := fun i => ∀ d, (par.nodeinfo r).coord i d % f d = 0
  let k : ℕ → ℕ := fun i => (blk.nodeinfo r).logicalIndex fun d => (par.nodeinfo r).coord i d / f d
  let buf := ordP.foldl (fun b i => if P i then Function.update b (k i) (some (src i)) else b)
    (fun _ => (none : Option V))
  have hpack : ordP.foldlM (packStep par blk r src) (fun _ => none) = some buf := by
    apply foldlM_eq_foldl
    intro b i hi
    have hi' := (hP.2 i).1 hi
    unfold packStep
    rw [hf]
    dsimp only
    by_cases hp : P i
    · rw [if_pos hp, if_pos hp, bufIndex_box blk r _ (hb.quot_box hw r hr _ (coord_spec par r i hi').1 hp)]
    · rw [if_neg hp, if_neg hp]
  have hinj : ∀ i ∈ ordP, ∀ j ∈ ordP, P i → P j → k i = k j → i = j := by
    intro i hi j hj hpi hpj hk
    have hi' := coord_spec par r i ((hP.2 i).1 hi)
    have hj' := coord_spec par r j ((hP.2 j).1 hj)
    have := logical_inj blk r _ _ (hb.quot_box hw r hr _ hi'.1 hpi) (hb.quot_box hw r hr _ hj'.1 hpj) hk
    have hc : (par.nodeinfo r).coord i = (par.nodeinfo r).coord j := by
      rw [← (hb.quot _ (inBox_inLattice par hw r _ hi'.1) hpi).2,
        ← (hb.quot _ (inBox_inLattice par hw r _ hj'.1) hpj).2, this]
    rw [← hi'.2, ← hj'.2, hc]
  have hbuf : ∀ c, BoxOf blk r c → buf ((blk.nodeinfo r).logicalIndex c) =
      some (src ((par.nodeinfo r).siteIndex (blockedSite f c))) := by
    intro c hc
    obtain ⟨h1, h2⟩ := coord_siteIndex par r _ (hb.box hw r hr c hc)
    obtain ⟨h3, h4⟩ := blockedSite_mod hb.pos c
    have hp : P ((par.nodeinfo r).siteIndex (blockedSite f c)) := by
      show ∀ d, (par.nodeinfo r).coord _ d % f d = 0
      rw [h2]; exact h3
    have := (foldl_update P k (fun i => some (src i)) ordP hinj (fun _ => none)).1 _ ((hP.2 _).2 h1) hp
    have hk : k ((par.nodeinfo r).siteIndex (blockedSite f c)) = (blk.nodeinfo r).logicalIndex c := by
      show (blk.nodeinfo r).logicalIndex (fun d => (par.nodeinfo r).coord _ d / f d) = _
      rw [h2, h4]
    rw [hk] at this
    exact this
  let w : ℕ → V := fun i => src ((par.nodeinfo r).siteIndex (blockedSite f ((blk.nodeinfo r).coord i)))
  have hfill : ordB.foldlM (fillStep blk r buf) dst =
      some (ordB.foldl (fun b i => if True then Function.update b (id i) (w i) else b) dst) := by
    apply foldlM_eq_foldl
    intro b i hi
    have hi' := coord_spec blk r i ((hB.2 i).1 hi)
    unfold fillStep
    rw [bufIndex_box blk r _ hi'.1]
    dsimp only
    rw [hbuf _ hi'.1, if_pos trivial]
    rfl
  refine ⟨_, by unfold packAndFill; rw [hpack]; exact hfill, fun c hc => ?_⟩
  obtain ⟨h1, h2⟩ := coord_siteIndex blk r c hc
  have := (foldl_update (fun _ => True) id w ordB (fun i _ j _ _ _ h => h) dst).1 _ ((hB.2 _).2 h1) trivial
  rw [show w ((blk.nodeinfo r).siteIndex c) = src ((par.nodeinfo r).siteIndex (blockedSite f c)) by
    show src _ = _; rw [h2]] at this
  exact this

theorem no_box_of_volume (lay : Layout n) (r : ℕ) (hv : (lay.nodeinfo r).volume = 0) (c : Site n) :
    ¬ BoxOf lay r c := fun hc => by
  have := (coord_siteIndex lay r c hc).1
  omega

/-- `b.block_from(a)`: whatever the order in which each rank visits its sites, no access leaves the buffer or
reads an element that was not written, and afterwards site `c` of `b` holds the value of `a` at the
corresponding site. -/
theorem C30_block_from (hb : Blocks par blk f) (hw : par.WF) (ordP ordB : ℕ → List ℕ)
    (hP : ∀ r < par.numNodes, SiteOrder par r (ordP r)) (hB : ∀ r < par.numNodes, SiteOrder blk r (ordB r))
    (a : ℕ → Mem V) (F : Site n → V) (ha : Stores par a F) (b : ℕ → Mem V) :
    ∃ b' : ℕ → Mem V, (∀ r < par.numNodes, blockFrom par blk r (ordP r) (ordB r) (a r) (b r) = some (b' r)) ∧
      Stores blk b' fun c => F (blockedSite f c) := by
  have hex : ∀ r, ∃ m, r < par.numNodes → blockFrom par blk r (ordP r) (ordB r) (a r) (b r) = some m ∧
      ∀ c, BoxOf blk r c →
        m ((blk.nodeinfo r).siteIndex c) = a r ((par.nodeinfo r).siteIndex (blockedSite f c)) := by
    intro r
    by_cases hr : r < par.numNodes
    · unfold blockFrom
      split
      · rename_i hv
        exact ⟨b r, fun _ => ⟨rfl, fun c hc => absurd hc (no_box_of_volume blk r hv c)⟩⟩
      · obtain ⟨m, h1, h2⟩ := packAndFill_spec hb hw r hr _ _ (hP r hr) (hB r hr) (a r) (b r)
        exact ⟨m, fun _ => ⟨h1, h2⟩⟩
    · exact ⟨b r, fun h => absurd h hr⟩
  choose b' hb' using hex
  refine ⟨b', fun r hr => (hb' r hr).1, fun c hc => ?_⟩
  have hlt := nodeRank_lt blk (hb.wf hw) c hc
  have hr : blk.nodeRank c < par.numNodes := by rw [← hb.numNodes]; exact hlt
  rw [(hb' _ hr).2 c ((inBox_iff_nodeRank blk (hb.wf hw) _ hlt c hc).2 rfl), hb.rank c]
  exact ha _ (hb.inLattice c hc)

theorem unblockTo_spec (hb : Blocks par blk f) (hw : par.WF) (r : ℕ) (hr : r < par.numNodes)
    (ordP ordB : List ℕ) (hP : SiteOrder par r ordP) (hB : SiteOrder blk r ordB) (src target : ℕ → V) :
    ∃ t', unblockTo par blk r ordB ordP src target = some t' ∧
      (∀ c, BoxOf par r c → (∀ d, c d % f d = 0) →
        t' ((par.nodeinfo r).siteIndex c) = src ((blk.nodeinfo r).siteIndex fun d => c d / f d)) ∧
      (∀ c, BoxOf par r c → (¬ ∀ d, c d % f d = 0) →
        t' ((par.nodeinfo r).siteIndex c) = target ((par.nodeinfo r).siteIndex c)) ∧
      ∀ i, (par.nodeinfo r).volume ≤ i → t' i = target i := by
  have hf := hb.factor hw
  unfold unblockTo
  split
  · rename_i hv
    exact ⟨target, rfl, fun c hc hd => absurd (hb.quot_box hw r hr c hc hd) (no_box_of_volume blk r hv _),
      fun _ _ _ => rfl, fun _ _ => rfl⟩
  let k : ℕ → ℕ := fun i => (blk.nodeinfo r).logicalIndex ((blk.nodeinfo r).coord i)
  let buf := ordB.foldl (fun b i => if True then Function.update b (k i) (some (src i)) else b)
    (fun _ => (none : Option V))
  have hcollect : ordB.foldlM (collectStep blk r src) (fun _ => none) = some buf := by
    apply foldlM_eq_foldl
    intro b i hi
    unfold collectStep
    rw [bufIndex_box blk r _ (coord_spec blk r i ((hB.2 i).1 hi)).1, if_pos trivial]
  have hinj : ∀ i ∈ ordB, ∀ j ∈ ordB, True → True → k i = k j → i = j := by
    intro i hi j hj _ _ hk
    have hi' := coord_spec blk r i ((hB.2 i).1 hi)
    have hj' := coord_spec blk r j ((hB.2 j).1 hj)
    rw [← hi'.2, ← hj'.2, logical_inj blk r _ _ hi'.1 hj'.1 hk]
  have hbuf : ∀ c, BoxOf blk r c → buf ((blk.nodeinfo r).logicalIndex c) =
      some (src ((blk.nodeinfo r).siteIndex c)) := by
    intro c hc
    obtain ⟨h1, h2⟩ := coord_siteIndex blk r c hc
    have := (foldl_update (fun _ => True) k (fun i => some (src i)) ordB hinj (fun _ => none)).1 _
      ((hB.2 _).2 h1) trivial
    rw [show k ((blk.nodeinfo r).siteIndex c) = (blk.nodeinfo r).logicalIndex c by
      show (blk.nodeinfo r).logicalIndex ((blk.nodeinfo r).coord _) = _; rw [h2]] at this
    exact this
  let P : ℕ → Prop := fun i => ∀ d, (par.nodeinfo r).coord i d % f d = 0
  let w : ℕ → V := fun i => src ((blk.nodeinfo r).siteIndex fun d => (par.nodeinfo r).coord i d / f d)
  have hspread : ordP.foldlM (spreadStep par blk r buf) target =
      some (ordP.foldl (fun b i => if P i then Function.update b (id i) (w i) else b) target) := by
    apply foldlM_eq_foldl
    intro b i hi
    have hi' := (hP.2 i).1 hi
    unfold spreadStep
    rw [hf]
    dsimp only
    by_cases hp : P i
    · have hbx := hb.quot_box hw r hr _ (coord_spec par r i hi').1 hp
      rw [if_pos hp, if_pos hp, bufIndex_box blk r _ hbx]
      dsimp only
      rw [hbuf _ hbx]
      rfl
    · rw [if_neg hp, if_neg hp]
  have hu := foldl_update P id w ordP (fun i _ j _ _ _ h => h) target
  refine ⟨_, by rw [hcollect]; exact hspread, fun c hc hd => ?_, fun c hc hd => ?_, fun i hi => ?_⟩
  · obtain ⟨h1, h2⟩ := coord_siteIndex par r c hc
    have hp : P ((par.nodeinfo r).siteIndex c) := by
      show ∀ d, (par.nodeinfo r).coord _ d % f d = 0
      rw [h2]; exact hd
    have := hu.1 _ ((hP.2 _).2 h1) hp
    rw [show w ((par.nodeinfo r).siteIndex c) = src ((blk.nodeinfo r).siteIndex fun d => c d / f d) by
      show src _ = _; rw [h2]] at this
    exact this
  · obtain ⟨h1, h2⟩ := coord_siteIndex par r c hc
    refine hu.2 _ fun i _ hpi he => hd ?_
    have he' : i = (par.nodeinfo r).siteIndex c := he
    have : ∀ d, (par.nodeinfo r).coord i d % f d = 0 := hpi
    rw [he', h2] at this
    exact this
  · refine hu.2 _ fun j hj _ he => ?_
    have he' : j = i := he
    have := (hP.2 j).1 hj
    omega

/-- `b.unblock_to(a)`: the sites of `a` that correspond to sites of the blocked lattice get the values of `b`,
the other sites keep theirs; nothing after the sites (the halo) is written. -/
theorem C30_unblock_to (hb : Blocks par blk f) (hw : par.WF) (ordP ordB : ℕ → List ℕ)
    (hP : ∀ r < par.numNodes, SiteOrder par r (ordP r)) (hB : ∀ r < par.numNodes, SiteOrder blk r (ordB r))
    (a b : ℕ → Mem V) (F G : Site n → V) (ha : Stores par a F) (hbG : Stores blk b G) :
    ∃ (a' : ℕ → Mem V) (F' : Site n → V),
      (∀ r < par.numNodes, unblockTo par blk r (ordB r) (ordP r) (b r) (a r) = some (a' r)) ∧ Stores par a' F' ∧
      (∀ c, blk.InLattice c → F' (blockedSite f c) = G c) ∧
      (∀ e, par.InLattice e → (∀ c, blk.InLattice c → blockedSite f c ≠ e) → F' e = F e) ∧
      ∀ r < par.numNodes, ∀ i, (par.nodeinfo r).volume ≤ i → a' r i = a r i := by
  have hex : ∀ r, ∃ m, r < par.numNodes → unblockTo par blk r (ordB r) (ordP r) (b r) (a r) = some m ∧
      (∀ c, BoxOf par r c → (∀ d, c d % f d = 0) →
        m ((par.nodeinfo r).siteIndex c) = b r ((blk.nodeinfo r).siteIndex fun d => c d / f d)) ∧
      (∀ c, BoxOf par r c → (¬ ∀ d, c d % f d = 0) →
        m ((par.nodeinfo r).siteIndex c) = a r ((par.nodeinfo r).siteIndex c)) ∧
      ∀ i, (par.nodeinfo r).volume ≤ i → m i = a r i := by
    intro r
    by_cases hr : r < par.numNodes
    · obtain ⟨m, h⟩ := unblockTo_spec hb hw r hr _ _ (hP r hr) (hB r hr) (b r) (a r)
      exact ⟨m, fun _ => h⟩
    · exact ⟨a r, fun h => absurd h hr⟩
  choose a' ha' using hex
  have hbox : ∀ c, par.InLattice c → BoxOf par (par.nodeRank c) c := fun c hc =>
    (inBox_iff_nodeRank par hw _ (nodeRank_lt par hw c hc) c hc).2 rfl
  refine ⟨a', fun c => if ∀ d, c d % f d = 0 then G (fun d => c d / f d) else F c,
    fun r hr => (ha' r hr).1, fun c hc => ?_, fun c hc => ?_, fun e he hne => ?_,
    fun r hr => (ha' r hr).2.2.2⟩
  · obtain ⟨-, h1, h2, -⟩ := ha' _ (nodeRank_lt par hw c hc)
    dsimp only
    split
    · rename_i hd
      rw [h1 c (hbox c hc) hd]
      obtain ⟨h3, h4⟩ := hb.quot c hc hd
      have := hbG _ h3
      rw [hb.rank, h4] at this
      exact this
    · rename_i hd
      rw [h2 c (hbox c hc) hd]
      exact ha c hc
  · obtain ⟨h3, h4⟩ := blockedSite_mod hb.pos c
    dsimp only
    rw [if_pos h3, h4]
  · dsimp only
    split
    · rename_i hd
      obtain ⟨h3, h4⟩ := hb.quot e he hd
      exact absurd h4 (hne _ h3)
    · rfl

end

/-! ## Returning to the parent -/

/-- The lattices of `s` are still there in `t` under the same number. -/
def Extends {n : ℕ} (s t : LatState n) : Prop := s.defined <+: t.defined

/-- `lattice.block(f)` succeeds exactly when all factors are positive and divide the sizes; afterwards the active
lattice has the size divided by the factors. Lattices made before stay. -/
theorem C30_block {n : ℕ} (base : Layout n) (hw : base.WF) (ops : List (LatOp n)) (s : LatState n)
    (hs : latRun (LatState.init base) ops = some s) (f : CV n) (l : Lat n) (hl : s.defined[s.cur]? = some l) :
    ((∃ t, latStep s (.block f) = some t) ↔ ∀ d, 0 < f d ∧ f d ∣ (l.lay.L d : ℤ)) ∧
    ∀ t, latStep s (.block f) = some t →
      Extends s t ∧ ∃ l', t.defined[t.cur]? = some l' ∧ ∀ d, (l'.lay.L d : ℤ) * f d = l.lay.L d := by
  have hiff : canBlock l.lay.L f = some true ↔ ∀ d, 0 < f d ∧ f d ∣ (l.lay.L d : ℤ) := by
    constructor
    · intro h d
      obtain ⟨h1, h2⟩ := canBlock_true _ f h d
      exact ⟨h1, Int.dvd_of_emod_eq_zero h2⟩
    · intro h
      unfold canBlock
      rw [if_neg (fun ⟨d, hd⟩ => by have := (h d).1; omega)]
      exact congrArg some (decide_eq_true fun d => Int.emod_eq_zero_of_dvd (h d).2)
  have hval : ∀ v : Site n, canBlock l.lay.L f = some true → (v = fun d => ((l.lay.L d : ℤ) / f d).toNat) →
      ∀ d, (v d : ℤ) * f d = l.lay.L d := by
    intro v h hv d
    have h1 := (canBlock_true _ f h d).1
    have h2 := (blocks_of_canBlock l.lay f h).size d
    subst hv
    have h3 : ((l.lay.L d : ℕ) : ℤ) = ((((l.lay.L d : ℤ) / f d).toNat * (f d).toNat : ℕ) : ℤ) := by
      exact_mod_cast h2
    rw [Int.natCast_mul, Int.toNat_of_nonneg h1.le] at h3
    exact h3.symm
  have hstep : latStep s (.block f) = blockByFactor s f := rfl
  rw [hstep]
  unfold blockByFactor
  rw [hl, ← hiff]
  dsimp only
  cases hcb : canBlock l.lay.L f with
  | none => simp
  | some b =>
    cases b with
    | false => simp
    | true =>
      dsimp only
      generalize hv : (fun d => ((l.lay.L d : ℤ) / f d).toNat) = v
      cases hf : s.defined.findIdx? (fun m => decide (m.lay.L = v)) with
      | some i =>
        refine ⟨by simp, fun t ht => ?_⟩
        cases ht
        obtain ⟨h1, h2, _⟩ := List.findIdx?_eq_some_iff_getElem.1 hf
        have h3 : s.defined[i].lay.L = v := by simpa using h2
        exact ⟨List.prefix_refl _, s.defined[i], List.getElem?_eq_getElem h1,
          by rw [h3]; exact hval v hcb hv.symm⟩
      | none =>
        refine ⟨by simp, fun t ht => ?_⟩
        cases ht
        exact ⟨List.prefix_append _ _, ⟨blockedLayout l.lay v, some s.cur⟩, by simp,
          hval v hcb hv.symm⟩

/-- `lattice.unblock()` after `lattice.block(f)` returns to the lattice that was blocked, if no lattice of the
blocked size existed before or the one that existed had been blocked from the active lattice.
(`_partial`: otherwise it does not, see `C30_unblock_elsewhere`.) -/
theorem C30_unblock_partial {n : ℕ} (s t : LatState n) (f : CV n) (l : Lat n)
    (hl : s.defined[s.cur]? = some l) (ht : latStep s (.block f) = some t)
    (hnew : ∀ m ∈ s.defined, (∀ d, (m.lay.L d : ℤ) * f d = l.lay.L d) → m.parent = some s.cur) :
    latStep t .unblock = some ⟨t.defined, s.cur⟩ := by
  have hstep : latStep s (.block f) = blockByFactor s f := rfl
  rw [hstep] at ht
  unfold blockByFactor at ht
  rw [hl] at ht
  dsimp only at ht
  cases hcb : canBlock l.lay.L f with
  | none => rw [hcb] at ht; cases ht
  | some b =>
    rw [hcb] at ht
    cases b with
    | false => cases ht
    | true =>
      dsimp only at ht
      have hB := blocks_of_canBlock l.lay f hcb
      generalize hv : (fun d => ((l.lay.L d : ℤ) / f d).toNat) = v at ht hB
      cases hf : s.defined.findIdx? (fun m => decide (m.lay.L = v)) with
      | some i =>
        rw [hf] at ht
        cases ht
        obtain ⟨h1, h2, _⟩ := List.findIdx?_eq_some_iff_getElem.1 hf
        have h3 : s.defined[i].lay.L = v := by simpa using h2
        have h4 : s.defined[i].parent = some s.cur := by
          refine hnew _ (List.getElem_mem h1) fun d => ?_
          have h5 := hB.size d
          have h6 := (canBlock_true _ f hcb d).1
          have h7 : ((l.lay.L d : ℕ) : ℤ) = ((v d * (f d).toNat : ℕ) : ℤ) := by exact_mod_cast h5
          rw [Int.natCast_mul, Int.toNat_of_nonneg h6.le] at h7
          rw [h3]; exact h7.symm
        simp only [latStep, List.getElem?_eq_getElem h1]
        generalize s.defined[i] = m at h4
        obtain ⟨ml, mp⟩ := m
        cases h4
        rfl
      | none =>
        rw [hf] at ht
        cases ht
        simp [latStep]

/-- A lattice of 8 x 8 sites on one rank. -/
def base8 : Layout 2 := ⟨![8, 8], ![1, 1], id, id⟩

theorem base8_wf : base8.WF :=
  ⟨by decide, by decide, fun _ h => h, fun _ h => h, fun _ _ => rfl, fun _ _ => rfl⟩

/-- After `block({4,4}); unblock(); block({2,2}); block({2,2}); unblock();` the active lattice is the base lattice
and not the 4 x 4 lattice that was blocked last; the 2 x 2 lattice has no field that could be blocked from the 4 x 4
lattice, since `block_from` asserts that this is the parent. -/
theorem C30_unblock_elsewhere :
    ∃ s t u : LatState 2,
      latRun (LatState.init base8) [.block ![4, 4], .unblock, .block ![2, 2]] = some s ∧
      latStep s (.block ![2, 2]) = some t ∧ latStep t .unblock = some u ∧
      u.cur ≠ s.cur ∧ (u.defined[u.cur]?.map fun l => (l.lay.L 0, l.lay.L 1)) = some (8, 8) ∧
      (s.defined[s.cur]?.map fun l => (l.lay.L 0, l.lay.L 1)) = some (4, 4) ∧
      (t.defined[t.cur]?.map fun l => l.parent) = some (some 0) :=
  ⟨_, _, _, rfl, rfl, rfl, by decide, rfl, rfl, rfl⟩

/-- Blocking by one is not undone by `unblock` either: on the base lattice the program stops. -/
theorem C30_block_by_one :
    ∃ t : LatState 2, latStep (LatState.init base8) (.block ![1, 1]) = some t ∧ latStep t .unblock = none :=
  ⟨_, rfl, rfl⟩

/-- A program that meets the hypotheses of `C30_unblock_partial`, with a lattice that is used again. -/
example : ∃ s t : LatState 2,
    latRun (LatState.init base8) [.block ![2, 1], .block ![2, 2], .unblock, .unblock] = some s ∧
    latStep s (.block ![2, 1]) = some t ∧ t.cur = 1 ∧ latStep t .unblock = some ⟨t.defined, s.cur⟩ :=
  ⟨_, _, rfl, rfl, rfl, rfl⟩

/-! ## Halo of the target of `unblock_to` -/

/-- If every rank has sites of the blocked lattice, `unblock_to` leaves the halo of the target as an assignment to
all sites does, so C05 applies. (`_partial`: not so if some rank has none, see `C30_unblock_stale`.) -/
theorem C30_unblock_halo_partial {S D R V : Type} [DecidableEq D] [DecidableEq R] (g : Geo S D R) (dirs : List D)
    (new : S → V) (s : HState S D R V) :
    unblockMark g dirs (fun _ => true) new s = (fstep g dirs s (.assign .all new)).1 := by
  have h1 : (fun c => if Parity.all.visits (g.parity c) then new c else s.val c) = new := by
    funext c; simp [Parity.visits]
  simp only [unblockMark, fstep, h1, if_true]
  have := markChanged_val g dirs .all ⟨new, s.loc⟩
  cases hm : markChanged g dirs .all ⟨new, s.loc⟩
  rw [hm] at this
  simp only at this
  rw [this]

/-- Four sites on four ranks. -/
def ring4 : Layout 1 := ⟨fun _ => 4, fun _ => 4, id, id⟩

theorem ring4_wf : ring4.WF :=
  ⟨by decide, by decide, fun _ h => h, fun _ h => h, fun _ _ => rfl, fun _ _ => rfl⟩

/-- The same blocked by two: ranks 1 and 3 have no site. -/
def ring4b : Layout 1 := blockedLayout ring4 fun _ => 2

theorem ring4_blocks : Blocks ring4 ring4b fun _ => 2 :=
  ⟨by decide, by decide, rfl, rfl, rfl⟩

/-- The sites of the ring. -/
def ring4Site (i : Fin 4) : {c : Site 1 // ring4.InLattice c} := ⟨fun _ => i.1, fun _ => i.2⟩

/-- The field `a` on four ranks is 0; a loop reads `a[X+e_x]`; then `b.unblock_to(a)` sets sites 0 and 2 to 1; then the
same loop is run again. -/
def unblockProgram : HState {c : Site 1 // ring4.InLattice c} (Dir 1) (Fin ring4.numNodes) ℕ ×
    Option (Dir 1 → {c : Site 1 // ring4.InLattice c} → ℕ) :=
  let g := layoutGeo ring4 ring4_wf
  let s := (frun g (List.finRange 2) (finit (fun _ => 5) (fun _ _ _ => 5) (fun _ _ _ _ => 5))
    [.assign .all fun _ => 0, .read [0] .all]).1
  let new := fun c : {c : Site 1 // ring4.InLattice c} => if c.1 0 % 2 = 0 then 1 else 0
  fstep g (List.finRange 2) (unblockMark g (List.finRange 2)
    (fun r => decide ((ring4b.nodeinfo r).volume ≠ 0)) new s) (.read [0] .all)

/-- After `unblock_to` a rank without sites of the blocked lattice still takes its halo for current: the loop sees the
old value 0 of site 0 at site 3 although the field is 1 there, and rank 0 waits for a message that its neighbour does
not send. -/
theorem C30_unblock_stale :
    unblockProgram.1.val (ring4Site 0) = 1 ∧ IsPeriodicNeighbour ring4.L 0 (ring4Site 3).1 (ring4Site 0).1 ∧
    (unblockProgram.2.map fun o => o 0 (ring4Site 3)) = some 0 ∧
    ∃ r, (unblockProgram.1.loc r).err = true := by
  refine ⟨by decide +kernel, by unfold IsPeriodicNeighbour; decide, by decide +kernel, ?_⟩
  exact ⟨⟨0, by decide⟩, by decide +kernel⟩

/-! ## `block_to_current_lattice` and gauge fields -/

/-- `a.block_to_current_lattice()` on a rank: if the active lattice is blocked from that of `a` and the rank has sites
of it, `a` belongs to the active lattice afterwards and holds the values of the corresponding sites; a field that is
there already stays. (`_partial`: on a rank without sites nothing happens, see `C30_block_to_current_stays`.) -/
theorem C30_block_to_current_partial {n : ℕ} {V : Type} (s : LatState n) (a : RankField V) (c t : Lat n) (f : Site n)
    (hc : s.defined[s.cur]? = some c) (ht : s.defined[a.lat]? = some t) (hp : c.parent = some a.lat)
    (hb : Blocks t.lay c.lay f) (hw : t.lay.WF) (r : ℕ) (hr : r < t.lay.numNodes)
    (hv : (c.lay.nodeinfo r).volume ≠ 0) (ordP ordB : List ℕ) (hP : SiteOrder t.lay r ordP)
    (hB : SiteOrder c.lay r ordB) (fresh : ℕ → V) (hne : a.lat ≠ s.cur) :
    ∃ a', blockToCurrent s r ordP ordB fresh a = some a' ∧ a'.lat = s.cur ∧
      ∀ e, c.lay.InLattice e → c.lay.nodeRank e = r →
        a'.mem ((c.lay.nodeinfo r).siteIndex e) = a.mem ((t.lay.nodeinfo r).siteIndex (blockedSite f e)) := by
  obtain ⟨m, h1, h2⟩ := packAndFill_spec hb hw r hr ordP ordB hP hB a.mem fresh
  refine ⟨⟨s.cur, m⟩, ?_, rfl, fun e he hre => h2 e ?_⟩
  · unfold blockToCurrent
    rw [if_neg hne, hc, ht]
    dsimp only
    rw [if_neg (by simp [hp]), if_neg hv, h1]
    rfl
  · exact (inBox_iff_nodeRank c.lay (hb.wf hw) r (by rw [hb.numNodes]; exact hr) e he).2 hre

theorem C30_block_to_current_same {n : ℕ} {V : Type} (s : LatState n) (a : RankField V) (r : ℕ) (ordP ordB : List ℕ)
    (fresh : ℕ → V) (h : a.lat = s.cur) : blockToCurrent s r ordP ordB fresh a = some a := by
  unfold blockToCurrent; rw [if_pos h]

/-- **C30 (rejected).** A field that is neither on the current lattice nor on its parent is rejected. -/
theorem C30_block_to_current_rejected {V : Type} (s : LatState n) (r : ℕ) (a : RankField V) (ordP ordB : List ℕ)
    (fresh : ℕ → V) (h : a.lat ≠ s.cur) (hp : ∀ c, s.defined[s.cur]? = some c → c.parent ≠ some a.lat) :
    blockToCurrent s r ordP ordB fresh a = none := by
  unfold blockToCurrent
  rw [if_neg h]
  split
  · rename_i c t hc ht
    rw [if_pos (hp c hc)]
  · rfl

/-- After blocking the ring of four twice, a field of the first lattice cannot be moved to the third. -/
example : ∃ s : LatState 1, (latStep (LatState.init ring4) (.block fun _ => 2)).bind (latStep · (.block fun _ => 2)) = some s ∧
    s.cur = 2 ∧ ∀ a : RankField ℕ, a.lat = 0 → blockToCurrent s 0 [0] [0] (fun _ => 9) a = none :=
  ⟨_, rfl, by decide +kernel, fun a ha => C30_block_to_current_rejected _ 0 a [0] [0] _
    (by rw [ha]; decide +kernel) (fun c hc => by rw [ha]; cases hc; decide +kernel)⟩

/-- On a rank without sites of the blocked lattice the field stays on the parent lattice, while on the other ranks it
moves: ranks 0 and 1 of the ring of four. -/
theorem C30_block_to_current_stays :
    ∃ s : LatState 1, latStep (LatState.init ring4) (.block fun _ => 2) = some s ∧
      ((blockToCurrent s 0 [0] [0] (fun _ => 9) ⟨0, fun _ => 7⟩).map fun a : RankField ℕ => (a.lat, a.mem 0)) =
        some (1, 7) ∧
      ((blockToCurrent s 1 [0] [] (fun _ => 9) ⟨0, fun _ => 7⟩).map fun a : RankField ℕ => a.lat) = some 0 ∧
      s.cur = 1 :=
  ⟨_, rfl, by decide +kernel, by decide +kernel, rfl⟩

/-- `block_gauge` makes, for factors 1 and 2, the long link: the product of the links on the straight path between
the sites of the parent lattice that correspond to `c` and its neighbour. `U d` and `next d` are the links of direction
`d` and what the loop reads as `U[d][X + d]`, which C05 shows to be the link at the neighbour. A larger factor stops
the program. -/
theorem C30_block_gauge {n : ℕ} {V : Type} [Monoid V] {par blk : Layout n} {f : Site n} (hb : Blocks par blk f)
    (hw : par.WF) (d : Fin n) (ordP ordB : ℕ → List ℕ)
    (hP : ∀ r < par.numNodes, SiteOrder par r (ordP r)) (hB : ∀ r < par.numNodes, SiteOrder blk r (ordB r))
    (link next : ℕ → Mem V) (U : Site n → V) (hU : Stores par link U)
    (hnext : Stores par next fun c => U (par.neighbour c (upDir d))) (b : ℕ → Mem V) :
    ((∃ e, 2 < f e) → ∀ r, blockGauge par blk r d (ordP r) (ordB r) (link r) (next r) (b r) = none) ∧
    ((∀ e, f e ≤ 2) → ∃ b' : ℕ → Mem V,
      (∀ r < par.numNodes, blockGauge par blk r d (ordP r) (ordB r) (link r) (next r) (b r) = some (b' r)) ∧
      Stores blk b' fun c => ((List.range (f d)).map fun j =>
        U ((fun x => par.neighbour x (upDir d))^[j] (blockedSite f c))).prod) := by
  have hf := hb.factor hw
  refine ⟨fun h r => by unfold blockGauge; rw [hf, if_pos h], fun h2 => ?_⟩
  have hno : ¬ ∃ e, 2 < f e := fun ⟨e, he⟩ => by have := h2 e; omega
  have hex : ∀ r, ∃ m, r < par.numNodes →
      blockGauge par blk r d (ordP r) (ordB r) (link r) (next r) (b r) = some m ∧
      ∀ c, BoxOf blk r c → m ((blk.nodeinfo r).siteIndex c) =
        if f d = 1 then link r ((par.nodeinfo r).siteIndex (blockedSite f c))
        else link r ((par.nodeinfo r).siteIndex (blockedSite f c)) *
          next r ((par.nodeinfo r).siteIndex (blockedSite f c)) := by
    intro r
    by_cases hr : r < par.numNodes
    · unfold blockGauge
      rw [hf, if_neg hno]
      by_cases h1 : f d = 1
      · obtain ⟨m, k1, k2⟩ := packAndFill_spec hb hw r hr _ _ (hP r hr) (hB r hr) (link r) (b r)
        exact ⟨m, fun _ => ⟨by rw [if_pos h1]; exact k1, fun c hc => by rw [if_pos h1]; exact k2 c hc⟩⟩
      · obtain ⟨m, k1, k2⟩ := packAndFill_spec hb hw r hr _ _ (hP r hr) (hB r hr)
          (fun i => link r i * next r i) (b r)
        exact ⟨m, fun _ => ⟨by rw [if_neg h1]; exact k1, fun c hc => by rw [if_neg h1]; exact k2 c hc⟩⟩
    · exact ⟨b r, fun h => absurd h hr⟩
  choose b' hb' using hex
  refine ⟨b', fun r hr => (hb' r hr).1, fun c hc => ?_⟩
  have hlt := nodeRank_lt blk (hb.wf hw) c hc
  have hr : blk.nodeRank c < par.numNodes := by rw [← hb.numNodes]; exact hlt
  rw [(hb' _ hr).2 c ((inBox_iff_nodeRank blk (hb.wf hw) _ hlt c hc).2 rfl), hb.rank c]
  have hcl := hb.inLattice c hc
  have e1 := hU _ hcl
  have e2 := hnext _ hcl
  rw [e1, e2]
  by_cases h1 : f d = 1
  · rw [if_pos h1, h1]; simp
  · have h3 : f d = 2 := by have := h2 d; have := hb.pos d; omega
    rw [if_neg h1, h3]
    simp [List.range_succ]

/-- Hypotheses of the field theorems: the ring of four, blocked by two, some rank without sites. -/
example : Blocks ring4 ring4b (fun _ => 2) ∧ ring4.WF ∧ SiteOrder ring4 2 [0] ∧ SiteOrder ring4b 2 [0] ∧
    SiteOrder ring4b 3 [] := by
  refine ⟨ring4_blocks, ring4_wf, ⟨by simp, fun i => ?_⟩, ⟨by simp, fun i => ?_⟩, ⟨by simp, fun i => ?_⟩⟩
  · rw [show (ring4.nodeinfo 2).volume = 1 by decide +kernel]; simp
  · rw [show (ring4b.nodeinfo 2).volume = 1 by decide +kernel]; simp
  · rw [show (ring4b.nodeinfo 3).volume = 0 by decide +kernel]; simp

/-- The 8 x 8 lattice blocked by (2, 1). -/
example : Blocks base8 (blockedLayout base8 ![4, 8]) ![2, 1] :=
  ⟨by decide, by decide, rfl, rfl, rfl⟩

end Hila
