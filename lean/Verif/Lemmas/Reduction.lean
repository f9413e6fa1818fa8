import Verif.Model.Reduction
import Verif.Lemmas.Layout
import Mathlib.Algebra.BigOperators.Ring.Finset

/-!
# Lemmas about reductions
-/

set_option linter.unusedSectionVars false

namespace Hila

open BigOperators

variable {V : Type}

section Red

variable [AddCommMonoid V]

/-- What the variable holds once the communication in progress is complete. -/
def RedState.eff (s : RedState V) : ℕ → V := if s.commOn then s.pend else s.val

omit [AddCommMonoid V] in
theorem wait_val (s : RedState V) : s.wait.val = s.eff := by
  unfold RedState.wait RedState.eff; split <;> rfl

omit [AddCommMonoid V] in
theorem wait_commOn (s : RedState V) : s.wait.commOn = false := by
  unfold RedState.wait
  split
  · rfl
  · rename_i h; simpa using h

omit [AddCommMonoid V] in
theorem wait_flags (s : RedState V) : s.wait.allreduce = s.allreduce ∧
    s.wait.nonblocking = s.nonblocking ∧ s.wait.delayed = s.delayed ∧
    s.wait.delayOn = s.delayOn := by
  unfold RedState.wait; split <;> exact ⟨rfl, rfl, rfl, rfl⟩

omit [AddCommMonoid V] in
theorem wait_eff (s : RedState V) : s.wait.eff = s.eff := by
  have h1 := wait_val s
  have h2 := wait_commOn s
  rw [← h1]; unfold RedState.eff; rw [h2]; simp

theorem doReduce_eff (N : ℕ) (s : RedState V) :
    (s.doReduce N).eff = reduced s.allreduce (∑ r ∈ Finset.range N, s.eff r) s.eff := by
  have hf := wait_flags s
  have hv := wait_val s
  have hc := wait_commOn s
  unfold RedState.doReduce
  simp only [hf.1, hv]
  split
  · simp [RedState.eff]
  · unfold RedState.eff; simp [hc]

theorem doReduce_flags (N : ℕ) (s : RedState V) : (s.doReduce N).allreduce = s.allreduce ∧
    (s.doReduce N).nonblocking = s.nonblocking ∧ (s.doReduce N).delayed = s.delayed ∧
    (s.doReduce N).delayOn = s.delayOn := by
  have hf := wait_flags s
  unfold RedState.doReduce
  dsimp only
  split
  · exact hf
  · exact hf

theorem sumNode_eff_immediate (N : ℕ) (s : RedState V) (c : ℕ → V) (hd : s.delayed = false) :
    (s.sumNode N c).eff = reduced s.allreduce
      (∑ r ∈ Finset.range N, if r = 0 then s.eff r + c r else c r)
      (fun r => if r = 0 then s.eff r + c r else c r) := by
  have hf := wait_flags s
  have hv := wait_val s
  have hc := wait_commOn s
  unfold RedState.sumNode
  simp only [hf.2.2.1, hd]
  rw [if_neg (by simp), doReduce_eff]
  simp [RedState.eff, hc, hv, hf.1]

theorem sumNode_flags (N : ℕ) (s : RedState V) (c : ℕ → V) :
    (s.sumNode N c).allreduce = s.allreduce ∧
    (s.sumNode N c).nonblocking = s.nonblocking ∧ (s.sumNode N c).delayed = s.delayed ∧
    (s.delayed = false → (s.sumNode N c).delayOn = s.delayOn) ∧
    (s.delayed = true → (s.sumNode N c).delayOn = true ∧ (s.sumNode N c).commOn = false ∧
      (s.sumNode N c).eff = fun r => s.eff r + c r) := by
  have hf := wait_flags s
  have hv := wait_val s
  have hc := wait_commOn s
  unfold RedState.sumNode
  dsimp only
  cases hd : s.delayed
  · have hnd : ¬ s.wait.delayed = true := by rw [hf.2.2.1, hd]; simp
    rw [if_neg hnd]
    refine ⟨?_, ?_, ?_, ?_, by simp⟩
    · rw [(doReduce_flags N _).1]; exact hf.1
    · rw [(doReduce_flags N _).2.1]; exact hf.2.1
    · rw [(doReduce_flags N _).2.2.1]; exact hf.2.2.1.trans hd
    · intro _; rw [(doReduce_flags N _).2.2.2]; exact hf.2.2.2
  · have hyd : s.wait.delayed = true := by rw [hf.2.2.1, hd]
    rw [if_pos hyd]
    refine ⟨hf.1, hf.2.1, hf.2.2.1.trans hd, by simp, fun _ => ⟨rfl, hc, ?_⟩⟩
    rw [← hv]
    unfold RedState.eff
    simp [hc, hyd]

omit [AddCommMonoid V] in
theorem assign_facts [Zero V] (s : RedState V) (v : V) :
    (s.assign v).eff = (fun r => if r = 0 then v else 0) ∧ (s.assign v).commOn = false ∧
    (s.assign v).allreduce = s.allreduce ∧ (s.assign v).nonblocking = s.nonblocking ∧
    (s.assign v).delayed = s.delayed ∧ (s.assign v).delayOn = s.delayOn := by
  have hf := wait_flags s
  have hc := wait_commOn s
  unfold RedState.assign
  refine ⟨?_, hc, hf⟩
  unfold RedState.eff
  simp [hc]

end Red

section Vec

variable [CommSemiring V]

/-- What the vector holds once the communication in progress is complete. -/
def VecState.eff (s : VecState V) : ℕ → V := if s.commOn then s.pend else s.val

omit [CommSemiring V] in
theorem vwait_val (s : VecState V) : s.wait.val = s.eff := by
  unfold VecState.wait VecState.eff; split <;> rfl

omit [CommSemiring V] in
theorem vwait_commOn (s : VecState V) : s.wait.commOn = false := by
  unfold VecState.wait
  split
  · rfl
  · rename_i h; simpa using h

omit [CommSemiring V] in
theorem vwait_flags (s : VecState V) : s.wait.allreduce = s.allreduce ∧
    s.wait.nonblocking = s.nonblocking ∧ s.wait.delayed = s.delayed ∧
    s.wait.delayOn = s.delayOn := by
  unfold VecState.wait; split <;> exact ⟨rfl, rfl, rfl, rfl⟩

omit [CommSemiring V] in
theorem vwait_eff (s : VecState V) : s.wait.eff = s.eff := by
  have h1 := vwait_val s
  have h2 := vwait_commOn s
  rw [← h1]; unfold VecState.eff; rw [h2]; simp

theorem vdoReduce_eff (N : ℕ) (prod : Bool) (s : VecState V) :
    (s.doReduce N prod).eff = reduced s.allreduce
      (if prod then ∏ r ∈ Finset.range N, s.eff r else ∑ r ∈ Finset.range N, s.eff r) s.eff := by
  have hf := vwait_flags s
  have hv := vwait_val s
  have hc := vwait_commOn s
  unfold VecState.doReduce
  simp only [hf.1, hv]
  split
  · simp [VecState.eff]
  · unfold VecState.eff; simp [hc]

theorem vdoReduce_flags (N : ℕ) (prod : Bool) (s : VecState V) :
    (s.doReduce N prod).allreduce = s.allreduce ∧
    (s.doReduce N prod).nonblocking = s.nonblocking ∧ (s.doReduce N prod).delayed = s.delayed ∧
    (s.doReduce N prod).delayOn = s.delayOn := by
  have hf := vwait_flags s
  unfold VecState.doReduce
  dsimp only
  split
  · exact hf
  · exact hf

theorem initLoop_facts (prod : Bool) (s : VecState V) :
    (s.initLoop prod).commOn = false ∧
    (s.initLoop prod).val = (fun r => if r ≠ 0 ∧ s.delayOn = false then
      (if prod then 1 else 0) else s.eff r) ∧
    (s.initLoop prod).allreduce = s.allreduce ∧ (s.initLoop prod).nonblocking = s.nonblocking ∧
    (s.initLoop prod).delayed = s.delayed ∧ (s.initLoop prod).delayOn = s.delayOn := by
  have hf := vwait_flags s
  have hv := vwait_val s
  have hc := vwait_commOn s
  unfold VecState.initLoop
  refine ⟨hc, ?_, hf⟩
  dsimp only
  rw [hf.2.2.2, hv]

theorem vloop_immediate (N : ℕ) (prod : Bool) (s : VecState V) (c : ℕ → V)
    (hd : s.delayed = false) (ho : s.delayOn = false) :
    ∃ s', s.loop N prod c = some s' ∧ s'.allreduce = s.allreduce ∧ s'.delayed = false ∧
      s'.delayOn = false ∧
      s'.eff = reduced s.allreduce
        (if prod then ∏ r ∈ Finset.range N, (if r = 0 then s.eff r * c r else c r)
          else ∑ r ∈ Finset.range N, (if r = 0 then s.eff r + c r else c r))
        (if prod then fun r => if r = 0 then s.eff r * c r else c r
          else fun r => if r = 0 then s.eff r + c r else c r) := by
  obtain ⟨h1, h2, h3, h4, h5, h6⟩ := initLoop_facts prod s
  unfold VecState.loop
  dsimp only
  rw [if_neg (by rw [h5, hd]; simp)]
  refine ⟨_, rfl, ?_, ?_, ?_, ?_⟩
  · rw [(vdoReduce_flags N prod _).1]; exact h3
  · rw [(vdoReduce_flags N prod _).2.2.1]; exact h5.trans hd
  · rw [(vdoReduce_flags N prod _).2.2.2]; exact h6.trans ho
  · rw [vdoReduce_eff]
    dsimp only
    rw [h3]
    unfold VecState.eff
    simp only [h1, Bool.false_eq_true, if_false, h2, ho, and_true]
    have e1 : ∀ r, (if r ≠ 0 then (1 : V) else s.eff r) * c r =
        if r = 0 then s.eff r * c r else c r := fun r => by by_cases hr : r = 0 <;> simp [hr]
    have e2 : ∀ r, (if r ≠ 0 then (0 : V) else s.eff r) + c r =
        if r = 0 then s.eff r + c r else c r := fun r => by by_cases hr : r = 0 <;> simp [hr]
    cases prod
    · simp only [Bool.false_eq_true, if_false, e2]; rfl
    · simp only [if_true, e1]; rfl

theorem vloop_delayed (N : ℕ) (s : VecState V) (c : ℕ → V) (hd : s.delayed = true) :
    ∃ s', s.loop N false c = some s' ∧ s'.allreduce = s.allreduce ∧ s'.delayed = true ∧
      s'.delayOn = true ∧ s'.commOn = false ∧
      s'.eff = fun r => (if r ≠ 0 ∧ s.delayOn = false then 0 else s.eff r) + c r := by
  obtain ⟨h1, h2, h3, h4, h5, h6⟩ := initLoop_facts false s
  unfold VecState.loop
  dsimp only
  rw [if_pos (by rw [h5, hd])]
  simp only [Bool.false_eq_true, if_false, Bool.and_false]
  refine ⟨_, rfl, h3, h5.trans hd, rfl, h1, ?_⟩
  unfold VecState.eff
  simp only [h1, Bool.false_eq_true, if_false, h2]
  rfl

end Vec

section Plain

theorem update_fold {A : Type} (p : ℕ → ℕ) (w : ℕ → A) (m0 : ℕ → A) (k : ℕ) (a : ℕ) :
    ((∀ i, i < k → p i ≠ a) →
      (List.range k).foldl (fun m i => Function.update m (p i) (w i)) m0 a = m0 a) ∧
    (∀ i, i < k → p i = a → (∀ j, j < k → p j = a → j = i) →
      (List.range k).foldl (fun m i => Function.update m (p i) (w i)) m0 a = w i) := by
  induction k with
  | zero => exact ⟨fun _ => rfl, fun i hi => absurd hi (by omega)⟩
  | succ k ih =>
    rw [List.range_succ, List.foldl_append]
    simp only [List.foldl_cons, List.foldl_nil]
    constructor
    · intro h
      rw [Function.update_of_ne (h k (by omega)).symm]
      exact ih.1 fun i hi => h i (by omega)
    · intro i hi hp hu
      by_cases hik : i = k
      · subst hik; rw [← hp, Function.update_self]
      · have : p k ≠ a := fun hk => hik (hu k (by omega) hk).symm
        rw [Function.update_of_ne this.symm]
        exact ih.2 i (by omega) hp fun j hj hja => hu j (by omega) hja

/-- The queue holds the addresses `E` with their values. -/
structure QInv {A : Type} (mem : ℕ → A) (q : RedQueue A) (E : List ℕ) : Prop where
  used : q.used = E.length
  ptr : ∀ i (h : i < E.length), q.ptrs i = E[i]
  buf : ∀ i (h : i < E.length), q.buf i = mem E[i]
  ok : q.bad = false

theorem setup_fold {A : Type} (mem : ℕ → A) (q : RedQueue A) (d n : ℕ) (hs : q.used + n ≤ q.size) :
    (List.range n).foldl (fun (q : RedQueue A) i =>
      { q with
        buf := Function.update q.buf (q.used + i) (mem (d + i))
        ptrs := Function.update q.ptrs (q.used + i) (d + i)
        bad := q.bad || decide (q.size ≤ q.used + i) }) q =
    { q with
      buf := fun j => if q.used ≤ j ∧ j < q.used + n then mem (d + (j - q.used)) else q.buf j
      ptrs := fun j => if q.used ≤ j ∧ j < q.used + n then d + (j - q.used) else q.ptrs j } := by
  induction n with
  | zero =>
    simp only [List.range_zero, List.foldl_nil, Nat.add_zero]
    have : ∀ j, ¬ (q.used ≤ j ∧ j < q.used) := fun j => by omega
    simp [this]
  | succ n ih =>
    rw [List.range_succ, List.foldl_append, ih (by omega)]
    simp only [List.foldl_cons, List.foldl_nil]
    congr 1
    · funext j
      by_cases hj : j = q.used + n
      · subst hj
        rw [Function.update_self, if_pos (by omega)]
        congr 1; omega
      · rw [Function.update_of_ne hj]
        have : (q.used ≤ j ∧ j < q.used + n) ↔ (q.used ≤ j ∧ j < q.used + (n + 1)) := by omega
        simp [this]
    · funext j
      by_cases hj : j = q.used + n
      · subst hj
        rw [Function.update_self, if_pos (by omega)]
        omega
      · rw [Function.update_of_ne hj]
        have : (q.used ≤ j ∧ j < q.used + n) ↔ (q.used ≤ j ∧ j < q.used + (n + 1)) := by omega
        simp [this]
    · have : ¬ q.size ≤ q.used + n := by omega
      simp [this]

theorem setup_inv {A : Type} (mem : ℕ → A) (q : RedQueue A) (E : List ℕ) (h : QInv mem q E)
    (d n : ℕ) : QInv mem (q.setup mem d n) (E ++ (List.range n).map (d + ·)) := by
  unfold RedQueue.setup
  dsimp only
  rw [setup_fold _ { q with size := if q.size < n + q.used then n + q.used + 2 else q.size } d n
    (by dsimp only; split <;> omega)]
  have hu := h.used
  constructor
  · simp [hu]
  · intro i hi
    rw [List.length_append, List.length_map, List.length_range] at hi
    dsimp only
    by_cases hlt : i < E.length
    · rw [if_neg (by omega), List.getElem_append_left hlt]; exact h.ptr i hlt
    · rw [if_pos (by omega), List.getElem_append_right (by omega)]
      simp [hu]
  · intro i hi
    rw [List.length_append, List.length_map, List.length_range] at hi
    dsimp only
    by_cases hlt : i < E.length
    · rw [if_neg (by omega), List.getElem_append_left hlt]; exact h.buf i hlt
    · rw [if_pos (by omega), List.getElem_append_right (by omega)]
      simp [hu]
  · exact h.ok

/-- All addresses of a list of variables (address, length). -/
def addresses (vars : List (ℕ × ℕ)) : List ℕ :=
  vars.flatMap fun v => (List.range v.2).map (v.1 + ·)

theorem setup_all {A : Type} (mem : ℕ → A) (vars : List (ℕ × ℕ)) :
    ∀ (q : RedQueue A) (E : List ℕ), QInv mem q E →
      QInv mem (vars.foldl (fun q v => q.setup mem v.1 v.2) q) (E ++ addresses vars) := by
  induction vars with
  | nil => intro q E h; simpa [addresses] using h
  | cons v vs ih =>
    intro q E h
    have := ih _ _ (setup_inv mem q E h v.1 v.2)
    simpa [addresses, List.append_assoc] using this

theorem mem_addresses (vars : List (ℕ × ℕ)) (a : ℕ) :
    a ∈ addresses vars ↔ ∃ v ∈ vars, v.1 ≤ a ∧ a < v.1 + v.2 := by
  unfold addresses
  rw [List.mem_flatMap]
  constructor
  · rintro ⟨v, hv, ha⟩
    rw [List.mem_map] at ha
    obtain ⟨i, hi, rfl⟩ := ha
    rw [List.mem_range] at hi
    exact ⟨v, hv, by omega, by omega⟩
  · rintro ⟨v, hv, h1, h2⟩
    refine ⟨v, hv, List.mem_map.2 ⟨a - v.1, List.mem_range.2 (by omega), by omega⟩⟩

end Plain

/-- Sum over the lattice as a sum over ranks and slots. -/
theorem sum_sites {n : ℕ} [AddCommMonoid V] (lay : Layout n) (h : lay.WF) (f : Site n → V)
    (T : Finset (Site n)) (hT : ∀ c ∈ T, lay.InLattice c) (lo hi : ℕ → ℕ)
    (hhi : ∀ r, r < lay.numNodes → hi r ≤ (lay.nodeinfo r).volume)
    (hP : ∀ r c, r < lay.numNodes → lay.InLattice c → lay.nodeRank c = r →
      (c ∈ T ↔ lo r ≤ (lay.nodeinfo r).siteIndex c ∧ (lay.nodeinfo r).siteIndex c < hi r))
    (mem : ℕ → Mem V)
    (hm : ∀ c, lay.InLattice c →
      mem (lay.nodeRank c) ((lay.nodeinfo (lay.nodeRank c)).siteIndex c) = f c) :
    ∑ r ∈ Finset.range lay.numNodes, ∑ i ∈ Finset.Ico (lo r) (hi r), mem r i = ∑ c ∈ T, f c := by
  rw [← Finset.sum_sigma (Finset.range lay.numNodes) (fun r => Finset.Ico (lo r) (hi r))
    (fun x : Σ _ : ℕ, ℕ => mem x.1 x.2)]
  symm
  refine Finset.sum_bij
    (fun c _ => (⟨lay.nodeRank c, (lay.nodeinfo (lay.nodeRank c)).siteIndex c⟩ : Σ _ : ℕ, ℕ))
    ?_ ?_ ?_ ?_
  · intro c hc
    have hcl := hT c hc
    have hr := nodeRank_lt lay h c hcl
    rw [Finset.mem_sigma, Finset.mem_range, Finset.mem_Ico]
    exact ⟨hr, (hP _ c hr hcl rfl).1 hc⟩
  · intro c hc e he heq
    have hcl := hT c hc
    have hel := hT e he
    have h1 : lay.nodeRank c = lay.nodeRank e := congrArg Sigma.fst heq
    have h2 : (lay.nodeinfo (lay.nodeRank c)).siteIndex c =
        (lay.nodeinfo (lay.nodeRank e)).siteIndex e := by
      have := congrArg (fun x : Σ _ : ℕ, ℕ => x.2) heq
      simpa using this
    rw [← h1] at h2
    have hr := nodeRank_lt lay h c hcl
    exact siteIndex_inj _ _ c e ((inBox_iff_nodeRank lay h _ hr c hcl).2 rfl)
      ((inBox_iff_nodeRank lay h _ hr e hel).2 h1.symm) h2
  · rintro ⟨r, i⟩ hmem
    rw [Finset.mem_sigma, Finset.mem_range, Finset.mem_Ico] at hmem
    obtain ⟨hr, hlo, hhi'⟩ := hmem
    have hv : i < (lay.nodeinfo r).volume := lt_of_lt_of_le hhi' (hhi r hr)
    rw [nodeinfo_eq] at hv
    obtain ⟨c, hb, hci⟩ := siteIndex_surj _ _ i hv
    have hcl := inBox_inLattice lay h r c hb
    have hcr := (inBox_iff_nodeRank lay h r hr c hcl).1 hb
    have hci' : (lay.nodeinfo r).siteIndex c = i := hci
    refine ⟨c, (hP r c hr hcl hcr).2 (by rw [hci']; exact ⟨hlo, hhi'⟩), ?_⟩
    rw [hcr, hci']
  · intro c hc
    exact (hm c (hT c hc)).symm

end Hila
