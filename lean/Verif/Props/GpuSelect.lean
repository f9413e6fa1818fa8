import Verif.Lemmas.GpuSelect
import Verif.Props.SiteSelect

/-!
# C76: site selection on graphics processors

The loop body selects at site `c` the values `body c`, one after the other; `body c = []` means that
`c` is not selected. The stores of the threads come in any order that respects each thread.
-/

namespace Hila

section

variable {n : ℕ} {V : Type}

/-- Slot `i` of rank `r` belongs to the loop over parity `par`. -/
def InLoop (lay : Layout n) (par : Parity) (r i : ℕ) : Prop :=
  (lay.nodeinfo r).loopBegin par ≤ i ∧ i < (lay.nodeinfo r).loopEnd par

instance (lay : Layout n) (par : Parity) (r i : ℕ) : Decidable (InLoop lay par r i) := by
  unfold InLoop; infer_instance

/-- The coordinates stored for slot `i` of rank `r`. -/
def slotCoordinates (lay : Layout n) (r i : ℕ) : Site n :=
  ((lay.nodeinfo r).coordinates i).getD fun _ => 0

/-- `sched` interleaves the threads of the slots of the loop, each running the body at its site. No
other thread stores anything. -/
def Interleaves (lay : Layout n) (par : Parity) (body : Site n → List V)
    (sched : ℕ → List (ℕ × SelOp V)) : Prop :=
  ∀ r < lay.numNodes, ∀ i, ((sched r).filter fun x => x.1 = i).map Prod.snd =
    if InLoop lay par r i then
      selThread (siteIndexValue lay.L (slotCoordinates lay r i)) (body (slotCoordinates lay r i))
    else []

/-- The sites of the loop in the order of the slots of each rank. -/
def slotOrder (lay : Layout n) (par : Parity) (r : ℕ) : List (Site n) :=
  ((List.range (lay.nodeinfo r).volume).filter fun i => InLoop lay par r i).map
    (slotCoordinates lay r)

theorem inLoop_iff_visits (lay : Layout n) (hw : lay.WF) (par : Parity) (hp : par ≠ .none) (r i : ℕ)
    (hr : r < lay.numNodes) (hi : i < (lay.nodeinfo r).volume) :
    InLoop lay par r i ↔ Visits par (slotCoordinates lay r i) := by
  obtain ⟨c, _, h2, _, _⟩ := C01_every_slot_filled lay hw r i hr hi
  obtain ⟨l1, l2, l3, _⟩ := C01_loop_ranges lay hw r i hr c hi h2
  have hc : slotCoordinates lay r i = c := by unfold slotCoordinates; rw [h2]; rfl
  rw [hc]
  cases par with
  | none => exact absurd rfl hp
  | all => exact ⟨fun _ => Or.inl rfl, fun _ => l3⟩
  | even =>
    refine l1.trans ?_
    unfold Visits
    rw [Site.parity_even_iff, Nat.dvd_iff_mod_eq_zero]
    simp
  | odd =>
    refine l2.trans ?_
    unfold Visits
    rw [Site.parity_odd_iff, Nat.dvd_iff_mod_eq_zero]
    simp

theorem slotOrder_ok (lay : Layout n) (hw : lay.WF) (par : Parity) (hp : par ≠ .none) :
    Order lay par (slotOrder lay par) := by
  intro r hr
  constructor
  · apply List.Nodup.map_on _ (List.Nodup.filter _ List.nodup_range)
    intro i hi j hj he
    have hi' := List.mem_range.1 (List.mem_filter.1 hi).1
    have hj' := List.mem_range.1 (List.mem_filter.1 hj).1
    obtain ⟨c, _, c2, _, c4⟩ := C01_every_slot_filled lay hw r i hr hi'
    obtain ⟨e, _, e2, _, e4⟩ := C01_every_slot_filled lay hw r j hr hj'
    have : c = e := by simpa [slotCoordinates, c2, e2] using he
    rw [← c4, ← e4, this]
  · intro c
    unfold slotOrder
    rw [List.mem_map]
    constructor
    · rintro ⟨i, hi, rfl⟩
      rw [List.mem_filter, List.mem_range, decide_eq_true_eq] at hi
      obtain ⟨c, c1, c2, c3, _⟩ := C01_every_slot_filled lay hw r i hr hi.1
      have hv := (inLoop_iff_visits lay hw par hp r i hr hi.1).1 hi.2
      have hc : slotCoordinates lay r i = c := by unfold slotCoordinates; rw [c2]; rfl
      rw [hc] at hv ⊢
      exact ⟨⟨c1, hv⟩, c3⟩
    · rintro ⟨⟨c1, c2⟩, rfl⟩
      obtain ⟨⟨_, u2, u3⟩, _⟩ := C01_unique_rank_and_slot lay hw c c1
      have hc : slotCoordinates lay (lay.nodeRank c)
          ((lay.nodeinfo (lay.nodeRank c)).siteIndex c) = c := by
        unfold slotCoordinates; rw [u3]; rfl
      refine ⟨_, ?_, hc⟩
      rw [List.mem_filter, List.mem_range, decide_eq_true_eq]
      refine ⟨u2, (inLoop_iff_visits lay hw par hp _ _ hr u2).2 ?_⟩
      rw [hc]; exact c2

/-- The loop as run by the program. -/
def gpuSelectRun (lay : Layout n) (dflt : V) (dev : ℕ → DevSel V)
    (sched : ℕ → List (ℕ × SelOp V)) (st : ℕ → SelState V) : ℕ → SelState V :=
  gpuSelectLoop dflt lay.numNodes (fun r => (lay.nodeinfo r).volume) dev sched st

/-- The list of (site index, value) pairs copied to the host. -/
theorem flagged_run (lay : Layout n) (par : Parity) (body : Site n → List V) (dflt : V)
    (dev : ℕ → DevSel V) (sched : ℕ → List (ℕ × SelOp V)) (hs : Interleaves lay par body sched)
    (r : ℕ) (hr : r < lay.numNodes)
    (hm : ∀ i < (lay.nodeinfo r).volume, ¬ InLoop lay par r i → (dev r).mask i = 0) :
    flagged (lay.nodeinfo r).volume ((dev r).run (sched r)).mask
        (fun i => (((dev r).run (sched r)).sites i, ((dev r).run (sched r)).values i)) =
      ((slotOrder lay par r).filter fun c => !(body c).isEmpty).map
        fun c => (siteIndexValue lay.L c, (body c).getLastD dflt) := by
  have cell : ∀ i < (lay.nodeinfo r).volume,
      (((dev r).run (sched r)).mask i ≠ 0 ↔
        InLoop lay par r i ∧ body (slotCoordinates lay r i) ≠ []) ∧
      (((dev r).run (sched r)).mask i ≠ 0 →
        (((dev r).run (sched r)).sites i, ((dev r).run (sched r)).values i) =
          (siteIndexValue lay.L (slotCoordinates lay r i),
            (body (slotCoordinates lay r i)).getLastD dflt)) := by
    intro i hi
    have h := run_cell (sched r) (dev r) i
    rw [hs r hr i] at h
    by_cases hl : InLoop lay par r i
    · rw [if_pos hl, foldl_selThread] at h
      cases hb : (body (slotCoordinates lay r i)).getLast? with
      | none =>
        rw [hb] at h
        simp only [Prod.mk.injEq] at h
        rw [List.getLast?_eq_none_iff] at hb
        simp [h.1, hb]
      | some v =>
        rw [hb] at h
        simp only [Prod.mk.injEq] at h
        have hne : body (slotCoordinates lay r i) ≠ [] := by
          intro e; rw [e] at hb; simp at hb
        refine ⟨by simp [h.1, hne, hl], fun _ => ?_⟩
        rw [h.2.1, h.2.2, List.getLastD_eq_getLast?, hb]
        rfl
    · rw [if_neg hl] at h
      simp only [List.foldl_nil, Prod.mk.injEq] at h
      simp [h.1, hm i hi hl, hl]
  unfold flagged slotOrder
  rw [List.filter_map, List.map_map, List.filter_filter]
  rw [show (List.range (lay.nodeinfo r).volume).filter
      (fun i => ((dev r).run (sched r)).mask i != 0) =
      (List.range (lay.nodeinfo r).volume).filter (fun a =>
        ((fun c => !(body c).isEmpty) ∘ slotCoordinates lay r) a && decide (InLoop lay par r a)) from ?_]
  · apply List.map_congr_left
    intro i hi
    rw [List.mem_filter, List.mem_range] at hi
    refine (cell i hi.1).2 (((cell i hi.1).1).2 ?_)
    simpa [and_comm] using hi.2
  · apply List.filter_congr
    intro i hi
    have := (cell i (List.mem_range.1 hi)).1
    rw [Bool.eq_iff_iff]
    simpa [and_comm] using this

/-- The joined result, in terms of site indices. -/
theorem gpu_joined_spec (lay : Layout n) (par : Parity) (dflt : V)
    (body : Site n → List V) (dev : ℕ → DevSel V) (sched : ℕ → List (ℕ × SelOp V))
    (hs : Interleaves lay par body sched)
    (hm : ∀ r < lay.numNodes, ∀ i < (lay.nodeinfo r).volume, ¬ InLoop lay par r i →
      (dev r).mask i = 0)
    (hN : 0 < lay.numNodes) (nmax : ℕ) (hv : Bool) (st : ℕ → SelState V)
    (hst : ∀ r, (st r).nmax = nmax ∧ (st r).hasValues = hv ∧ (st r).autoJoin = true) :
    let sel := selectedSites lay body (slotOrder lay par)
    let st' := gpuSelectRun lay dflt dev sched st
    (st' 0).sites = (sel.take nmax).map (siteIndexValue lay.L) ∧
    (hv = true → (st' 0).values = (sel.take nmax).map fun c => (body c).getLastD dflt) ∧
    (st' 0).overflow = sel.length - nmax ∧
    ∀ r, 0 < r → r < lay.numNodes → (st' r).sites = [] := by
  intro sel st'
  have h0 : ∀ r < lay.numNodes, Selected nmax
      (((st r).setup dflt (lay.nodeinfo r).volume).gpuEndloop (lay.nodeinfo r).volume
        ((dev r).run (sched r)))
      (((slotOrder lay par r).filter fun c => !(body c).isEmpty).map
        fun c => (siteIndexValue lay.L c, (body c).getLastD dflt)) ∧
      (((st r).setup dflt (lay.nodeinfo r).volume).gpuEndloop (lay.nodeinfo r).volume
        ((dev r).run (sched r))).hasValues = hv ∧
      (((st r).setup dflt (lay.nodeinfo r).volume).gpuEndloop (lay.nodeinfo r).volume
        ((dev r).run (sched r))).joined = false := by
    intro r hr
    obtain ⟨g1, g2, g3⟩ := gpuEndloop_selected (lay.nodeinfo r).volume ((dev r).run (sched r))
      ((st r).setup dflt (lay.nodeinfo r).volume) rfl
    rw [flagged_run lay par body dflt dev sched hs r hr (hm r hr)] at g1
    have hn : ((st r).setup dflt (lay.nodeinfo r).volume).nmax = nmax := (hst r).1
    rw [hn] at g1
    exact ⟨g1, g2.trans (hst r).2.1, g3⟩
  have hst' : st' = joinAll dflt lay.numNodes (fun r =>
      ((st r).setup dflt (lay.nodeinfo r).volume).gpuEndloop (lay.nodeinfo r).volume
        ((dev r).run (sched r))) := by
    show gpuSelectRun lay dflt dev sched st = _
    unfold gpuSelectRun gpuSelectLoop
    dsimp only
    rw [if_pos (hst 0).2.2]
  rw [hst']
  unfold joinAll
  rw [if_neg (by rw [(h0 0 hN).2.2]; simp)]
  obtain ⟨j1, j2, j3, j4⟩ := join_fold dflt nmax hv
    (fun r => ((slotOrder lay par r).filter fun c => !(body c).isEmpty).map
      fun c => (siteIndexValue lay.L c, (body c).getLastD dflt))
    (lay.numNodes - 1) (fun r =>
      ((st r).setup dflt (lay.nodeinfo r).volume).gpuEndloop (lay.nodeinfo r).volume
        ((dev r).run (sched r)))
    (fun r hr => ⟨(h0 r (by omega)).1, (h0 r (by omega)).2.1⟩)
  have hN1 : lay.numNodes - 1 + 1 = lay.numNodes := by omega
  rw [hN1, ← List.map_flatMap] at j1
  refine ⟨?_, ?_, ?_, ?_⟩
  · refine j1.sites.trans ?_
    rw [← List.map_take, List.map_map]
    rfl
  · intro hx
    refine (j1.values (j2.trans hx)).trans ?_
    rw [← List.map_take, List.map_map]
    rfl
  · refine j1.over.trans ?_
    rw [List.length_map]
    rfl
  · intro r hr hr2
    exact j3 r hr (by omega)

/-- What the user expects of a loop over `par` with a selection variable: rank 0 holds the first `nmax`
selected coordinates in the order of ranks and slots, every one a site of the loop that the body
selected, none twice; with values, the value is the last one selected at that site; `overflow()` is
the number of those dropped; other ranks hold nothing. -/
def SelectedCorrectly (lay : Layout n) (par : Parity) (body : Site n → List V) (nmax : ℕ)
    (st' : ℕ → SelState V) : Prop :=
  ∃ sel : List (Site n), sel.Nodup ∧ (∀ c, c ∈ sel ↔ (Visited lay par c ∧ body c ≠ [])) ∧
    (st' 0).sites.map (siteIndexCoordinates lay.L) = sel.take nmax ∧
    ((st' 0).hasValues = true → (st' 0).values.map some =
      (sel.take nmax).map fun c => (body c).getLast?) ∧
    (st' 0).overflow = sel.length - nmax ∧
    ∀ r, 0 < r → r < lay.numNodes → (st' r).sites = []

theorem gpuSelectRun_hasValues (lay : Layout n) (dflt : V) (dev : ℕ → DevSel V)
    (sched : ℕ → List (ℕ × SelOp V)) (st : ℕ → SelState V) :
    (gpuSelectRun lay dflt dev sched st 0).hasValues = (st 0).hasValues := by
  have e : ∀ vol d (s : SelState V), (s.gpuEndloop vol d).hasValues = s.hasValues := by
    intro vol d s
    unfold SelState.gpuEndloop SelState.copySites SelState.copyValues
    dsimp only
    split <;> (repeat' split) <;> rfl
  have rc : ∀ (s : SelState V) a, (s.receive a).hasValues = s.hasValues := by
    intro s a; cases a <;> rfl
  have f : ∀ (k : ℕ) (st : ℕ → SelState V), ((List.range k).foldl (fun (acc : ℕ → SelState V) k =>
      let n := k + 1
      let a := (acc n).answer dflt ((acc 0).nmax - (acc 0).sites.length)
      Function.update (Function.update acc n a.2) 0 ((acc 0).receive a.1)) st 0).hasValues =
      (st 0).hasValues := by
    intro k st
    induction k with
    | zero => rfl
    | succ k ih =>
      rw [List.range_succ, List.foldl_append, List.foldl_cons, List.foldl_nil]
      dsimp only
      rw [Function.update_self, rc, ih]
  unfold gpuSelectRun gpuSelectLoop
  dsimp only
  split
  · unfold joinAll
    split
    · exact e _ _ _
    · dsimp only
      rw [f, e]
      rfl
  · exact e _ _ _

theorem gpu_selected_of_mask (lay : Layout n) (hw : lay.WF) (par : Parity) (hp : par ≠ .none)
    (dflt : V) (body : Site n → List V) (dev : ℕ → DevSel V) (sched : ℕ → List (ℕ × SelOp V))
    (hs : Interleaves lay par body sched)
    (hm : ∀ r < lay.numNodes, ∀ i < (lay.nodeinfo r).volume, ¬ InLoop lay par r i →
      (dev r).mask i = 0)
    (hN : 0 < lay.numNodes) (nmax : ℕ) (hv : Bool) (st : ℕ → SelState V)
    (hst : ∀ r, (st r).nmax = nmax ∧ (st r).hasValues = hv ∧ (st r).autoJoin = true) :
    SelectedCorrectly lay par body nmax (gpuSelectRun lay dflt dev sched st) := by
  obtain ⟨s1, s2, s3, s4⟩ := gpu_joined_spec lay par dflt body dev sched hs hm hN nmax hv st hst
  obtain ⟨m1, m2⟩ := mem_selectedSites lay hw par body (slotOrder lay par)
    (slotOrder_ok lay hw par hp)
  refine ⟨_, m1, m2, ?_, ?_, s3, s4⟩
  · rw [s1, List.map_map]
    conv_rhs => rw [← List.map_id ((selectedSites lay body (slotOrder lay par)).take nmax)]
    apply List.map_congr_left
    intro c hc
    exact (C12_site_index lay.L c ((m2 c).1 (List.mem_of_mem_take hc)).1.1).1
  · intro hx
    rw [gpuSelectRun_hasValues, (hst 0).2.1] at hx
    rw [s2 hx, List.map_map]
    apply List.map_congr_left
    intro c hc
    have hne := ((m2 c).1 (List.mem_of_mem_take hc)).2
    obtain ⟨v, hv'⟩ := Option.isSome_iff_exists.1
      (show ((body c).getLast?).isSome by simpa using hne)
    simp only [Function.comp]
    rw [List.getLastD_eq_getLast?, hv']
    rfl

/-- **C76, loops over all sites.** For every layout, limit, loop body, interleaving of the threads and
whatever the device arrays contained before, the selection is correct. -/
theorem C76_all_sites (lay : Layout n) (hw : lay.WF)
    (dflt : V) (body : Site n → List V) (dev : ℕ → DevSel V) (sched : ℕ → List (ℕ × SelOp V))
    (hs : Interleaves lay .all body sched) (hN : 0 < lay.numNodes) (nmax : ℕ) (hv : Bool)
    (st : ℕ → SelState V)
    (hst : ∀ r, (st r).nmax = nmax ∧ (st r).hasValues = hv ∧ (st r).autoJoin = true) :
    SelectedCorrectly lay .all body nmax (gpuSelectRun lay dflt dev sched st) := by
  apply gpu_selected_of_mask lay hw .all (by simp) dflt body dev sched hs ?_ hN nmax hv st hst
  intro r hr i hi hl
  exact absurd ((inLoop_iff_visits lay hw .all (by simp) r i hr hi).2 (Or.inl rfl)) hl

/-- **C76, loops over one parity.** The selection is correct if the fresh mask happens to be zero at
the sites of the other parity. Missing: the general case, where the property fails
(`C76_parity_wrong`). -/
theorem C76_parity_partial (lay : Layout n) (hw : lay.WF) (par : Parity) (hp : par ≠ .none)
    (dflt : V) (body : Site n → List V) (dev : ℕ → DevSel V) (sched : ℕ → List (ℕ × SelOp V))
    (hs : Interleaves lay par body sched)
    (hm : ∀ r < lay.numNodes, ∀ i < (lay.nodeinfo r).volume,
      ¬ Visits par (slotCoordinates lay r i) → (dev r).mask i = 0)
    (hN : 0 < lay.numNodes) (nmax : ℕ) (hv : Bool) (st : ℕ → SelState V)
    (hst : ∀ r, (st r).nmax = nmax ∧ (st r).hasValues = hv ∧ (st r).autoJoin = true) :
    SelectedCorrectly lay par body nmax (gpuSelectRun lay dflt dev sched st) :=
  gpu_selected_of_mask lay hw par hp dflt body dev sched hs
    (fun r hr i hi hl => hm r hr i hi fun hv => hl
      ((inLoop_iff_visits lay hw par hp r i hr hi).2 hv)) hN nmax hv st hst

end

/-- One thread after the other, in the order of the slots. -/
def inTurn {n : ℕ} {V : Type} (lay : Layout n) (par : Parity) (body : Site n → List V) (r : ℕ) :
    List (ℕ × SelOp V) :=
  (List.range (lay.nodeinfo r).volume).flatMap fun i =>
    (if InLoop lay par r i then
      selThread (siteIndexValue lay.L (slotCoordinates lay r i)) (body (slotCoordinates lay r i))
    else []).map fun op => (i, op)

theorem inTurn_interleaves {n : ℕ} {V : Type} (lay : Layout n) (par : Parity)
    (hle : ∀ r < lay.numNodes, (lay.nodeinfo r).loopEnd par ≤ (lay.nodeinfo r).volume)
    (body : Site n → List V) : Interleaves lay par body (inTurn lay par body) := by
  intro r hr i
  have key : ∀ (N : ℕ) (f : ℕ → List (SelOp V)),
      ((((List.range N).flatMap fun j => (f j).map fun op => (j, op)).filter
        fun x => x.1 = i).map Prod.snd) = if i < N then f i else [] := by
    intro N f
    induction N with
    | zero => rfl
    | succ N ih =>
      rw [List.range_succ, List.flatMap_append, List.filter_append, List.map_append, ih]
      rcases Nat.lt_trichotomy i N with h | h | h
      · have : N ≠ i := by omega
        simp [h, Nat.lt_succ_of_lt h, List.filter_map, Function.comp_def, this]
      · subst h
        simp [List.filter_map, Function.comp_def]
      · have : N ≠ i := by omega
        have h1 : ¬ i < N := by omega
        have h2 : ¬ i < N + 1 := by omega
        simp [h1, h2, List.filter_map, Function.comp_def, this]
  unfold inTurn
  rw [key]
  by_cases h : i < (lay.nodeinfo r).volume
  · rw [if_pos h]
  · rw [if_neg h, if_neg]
    intro hl
    exact h (Nat.lt_of_lt_of_le hl.2 (hle r hr))

/-- A selection variable with values that keeps at most two entries. -/
def twoEntries : SelState ℤ := { SelState.new true 15 with nmax := 2 }

/-- Device arrays as they may come from the allocation. -/
def dirtyArrays : DevSel ℤ := ⟨fun _ => 3, fun _ => 9, fun _ => -1⟩

/-- The hypotheses of `C76_all_sites` hold for the example lattice, with dirty arrays. -/
example : Interleaves exampleLayout .all (fun c => if c 0 = c 1 then [5, (c 0 : ℤ)] else [])
      (inTurn exampleLayout .all fun c => if c 0 = c 1 then [5, (c 0 : ℤ)] else []) ∧
    (∀ _ : ℕ, twoEntries.nmax = 2 ∧ twoEntries.hasValues = true ∧ twoEntries.autoJoin = true) ∧
    0 < exampleLayout.numNodes :=
  ⟨inTurn_interleaves _ _ (fun _ _ => Nat.le_refl _) _, fun _ => ⟨rfl, rfl, rfl⟩, by decide⟩

/-- The values at the selected sites are the last ones selected. -/
example : ((gpuSelectRun exampleLayout 0 (fun _ => dirtyArrays)
      (inTurn exampleLayout .all fun c => if c 0 = c 1 then [5, (c 0 : ℤ)] else [])
      fun _ => twoEntries) 0).sites = [12, 6] ∧
    ((gpuSelectRun exampleLayout 0 (fun _ => dirtyArrays)
      (inTurn exampleLayout .all fun c => if c 0 = c 1 then [5, (c 0 : ℤ)] else [])
      fun _ => twoEntries) 0).values = [2, 1] ∧
    ((gpuSelectRun exampleLayout 0 (fun _ => dirtyArrays)
      (inTurn exampleLayout .all fun c => if c 0 = c 1 then [5, (c 0 : ℤ)] else [])
      fun _ => twoEntries) 0).overflow = 1 := by decide +kernel

/-- **C76 fails for loops over one parity.** A loop over the even sites whose body selects nothing
leaves the mask of the odd sites as it came from the allocation. If it is not zero there, the
selection contains sites that were not selected, with whatever the arrays contained. -/
theorem C76_parity_wrong :
    ∃ (lay : Layout 2) (dev : ℕ → DevSel ℤ) (sched : ℕ → List (ℕ × SelOp ℤ))
      (st : ℕ → SelState ℤ), lay.WF ∧ 0 < lay.numNodes ∧
      Interleaves lay .even (fun _ => []) sched ∧
      (∀ r, (st r).nmax = 2 ∧ (st r).hasValues = true ∧ (st r).autoJoin = true) ∧
      (gpuSelectRun lay 0 dev sched st 0).sites = [9, 9] ∧
      (gpuSelectRun lay 0 dev sched st 0).values = [-1, -1] ∧
      ¬ SelectedCorrectly lay .even (fun _ => ([] : List ℤ)) 2 (gpuSelectRun lay 0 dev sched st) := by
  have hs : (gpuSelectRun exampleLayout 0 (fun _ => dirtyArrays)
      (inTurn exampleLayout .even fun _ => []) (fun _ => twoEntries) 0).sites = [9, 9] := by
    decide +kernel
  refine ⟨exampleLayout, fun _ => dirtyArrays, inTurn exampleLayout .even fun _ => [],
    fun _ => twoEntries, exampleLayout_wf, by decide, ?_, fun _ => ⟨rfl, rfl, rfl⟩, hs,
    by decide +kernel, ?_⟩
  · exact inTurn_interleaves _ _ (by decide +kernel) _
  · rintro ⟨sel, _, h2, h3, _⟩
    rw [hs] at h3
    cases sel with
    | nil => simp at h3
    | cons c cs => exact ((h2 c).1 (by simp)).2 rfl

end Hila
