import Verif.Props.FFT
import Verif.Lemmas.FFTGpuFail

/-!
# C97: the FFT on graphics processors

`GpuFits`: on rank `r` and in direction `dir` there is at least one column, `buf_size` is not smaller than the number of columns times the length of a line, and
the positions in the work array fit into an `int`. `OrdersOk`: every kernel runs each of its threads once, in any order. The content of the new work array (`junk`)
and of the new buffers (`uninit`) is arbitrary. `NoEmptyRank`, `Order`, `transformLines`: as in C17.
-/

namespace Hila

variable {n : ℕ} {A : Type}

/-- **C97 (transform).** If all ranks fit in all requested directions, the result is that of transforming all lines in these directions, whatever the division of the
lattice, the order of the threads and the sizes of the batches. Missing: ranks that do not fit, see `C97_outcome`, `C97_work_array_wrong` and `C97_no_columns_wrong`. -/
theorem C97_transforms_lines_partial (lay : Layout n) (hw : lay.WF) (hne : NoEmptyRank lay) (E : ℕ) (hE : 0 < E) (F : Fin n → (ℕ → A) → ℕ → A)
    (hF : ∀ d, LocalTo (lay.L d) (F d)) (junk : Fin n → ℕ → ℕ → A) (ord : Fin n → ℕ → KernelOrders)
    (hord : ∀ d r, OrdersOk (myColumns lay r d * E) (ord d r)) (uninit : ℕ → PBuf A) (order : ℕ → List (Site n)) (ho : Order lay .all order)
    (directions : Fin n → Bool) (hd : ∃ d, directions d = true) (hfit : ∀ d, directions d = true → ∀ r < lay.numNodes, GpuFits lay E r d)
    (f : Site n → ℕ → A) :
    ∃ out, fullTransformGpu lay E (fun d r => gpuTransform lay E r d (F d) (ord d r) (junk d r)) uninit order directions f = some out ∧
      ∀ c, lay.InLattice c → ∀ e < E, out c e = transformLines F ((List.finRange n).filter fun d => directions d) f c e :=
  fullTransformGpu_spec hw hne E F _ uninit order (order_box hw ho) directions hd f fun dir hdir r hr D M hM =>
    gpuTransform_spec hw hne E r hE hr dir (F dir) (hF dir) (ord dir r) (hord dir r) (junk dir r) (hfit dir hdir r hr) D M hM

/-- **C97 (same as the CPU).** Under the same conditions the result is that of the code for the CPU. -/
theorem C97_same_as_cpu_partial (lay : Layout n) (hw : lay.WF) (hne : NoEmptyRank lay) (E : ℕ) (hE : 0 < E) (F : Fin n → (ℕ → A) → ℕ → A)
    (hF : ∀ d, LocalTo (lay.L d) (F d)) (junk : Fin n → ℕ → ℕ → A) (ord : Fin n → ℕ → KernelOrders)
    (hord : ∀ d r, OrdersOk (myColumns lay r d * E) (ord d r)) (uninit : ℕ → PBuf A) (order : ℕ → List (Site n)) (ho : Order lay .all order)
    (directions : Fin n → Bool) (hd : ∃ d, directions d = true) (hfit : ∀ d, directions d = true → ∀ r < lay.numNodes, GpuFits lay E r d)
    (f : Site n → ℕ → A) (junk' : ℕ → A) :
    ∃ out out', fullTransformGpu lay E (fun d r => gpuTransform lay E r d (F d) (ord d r) (junk d r)) uninit order directions f = some out ∧
      fullTransform lay E F junk' uninit order directions f = some out' ∧ ∀ c, lay.InLattice c → ∀ e < E, out c e = out' c e := by
  obtain ⟨out, h1, h2⟩ := C97_transforms_lines_partial lay hw hne E hE F hF junk ord hord uninit order ho directions hd hfit f
  obtain ⟨out', h3, h4⟩ := C17_transforms_lines_partial lay hw hne E F hF junk' uninit order ho directions hd f
  exact ⟨out, out', h1, h3, fun c hc e he => by rw [h2 c hc e he, h4 c hc e he]⟩

/-- **C97 (reflection).** `reflect` on a graphics processor, for even extents. -/
theorem C97_reflect_partial (lay : Layout n) (hw : lay.WF) (hne : NoEmptyRank lay) (E : ℕ) (hE : 0 < E) (junk : Fin n → ℕ → ℕ → A)
    (ord : Fin n → ℕ → KernelOrders) (hord : ∀ d r, OrdersOk (myColumns lay r d * E) (ord d r)) (uninit : ℕ → PBuf A) (order : ℕ → List (Site n))
    (ho : Order lay .all order) (directions : Fin n → Bool) (hd : ∃ d, directions d = true)
    (hfit : ∀ d, directions d = true → ∀ r < lay.numNodes, GpuFits lay E r d)
    (heven : ∀ d, directions d = true → lay.L d % 2 = 0 ∨ lay.L d = 1) (f : Site n → ℕ → A) :
    ∃ out, fullTransformGpu lay E (fun d r => gpuReflect lay E r d (ord d r) (junk d r)) uninit order directions f = some out ∧
      ∀ c, lay.InLattice c → ∀ e < E, out c e = f (fun d => if directions d then (lay.L d - c d) % lay.L d else c d) e := by
  obtain ⟨out, h1, h2⟩ := fullTransformGpu_spec hw hne E (fun d => reflectLine (lay.L d))
    (fun d r => gpuReflect lay E r d (ord d r) (junk d r)) uninit order (order_box hw ho) directions hd f fun dir hdir r hr D M hM =>
      gpuReflect_spec hw hne E r hE hr dir (reflectLine_local _) (ord dir r) (hord dir r) (junk dir r) (hfit dir hdir r hr) D M hM
  refine ⟨out, h1, fun c hc e he => ?_⟩
  rw [h2 c hc e he]
  refine (transformLines_reflect lay.L _ ((List.nodup_finRange n).filter _) (fun d hd => heven d (List.mem_filter.1 hd).2) f c e hc).trans ?_
  congr 1
  funext d
  simp [reflectSite, List.mem_filter]

/-- **C97 (outcome).** The transform ends well exactly if a direction is requested and all ranks fit in all requested directions. -/
theorem C97_outcome (lay : Layout n) (hw : lay.WF) (hne : NoEmptyRank lay) (E : ℕ) (hE : 0 < E) (F : Fin n → (ℕ → A) → ℕ → A)
    (hF : ∀ d, LocalTo (lay.L d) (F d)) (junk : Fin n → ℕ → ℕ → A) (ord : Fin n → ℕ → KernelOrders)
    (hord : ∀ d r, OrdersOk (myColumns lay r d * E) (ord d r)) (uninit : ℕ → PBuf A) (order : ℕ → List (Site n)) (ho : Order lay .all order)
    (directions : Fin n → Bool) (f : Site n → ℕ → A) :
    (fullTransformGpu lay E (fun d r => gpuTransform lay E r d (F d) (ord d r) (junk d r)) uninit order directions f).isSome ↔
      (∃ d, directions d = true) ∧ ∀ d, directions d = true → ∀ r < lay.numNodes, GpuFits lay E r d := by
  constructor
  · intro h
    obtain ⟨out, h⟩ := Option.isSome_iff_exists.1 h
    obtain ⟨h1, h2⟩ := fullTransformGpu_steps h
    refine ⟨h1, fun d hd r hr => ?_⟩
    obtain ⟨M, M', h3⟩ := h2 d hd r hr
    exact gpuTransform_fits hw hne E r hE d (F d) (ord d r) (hord d r) (junk d r) M M' h3
  · rintro ⟨hd, hfit⟩
    obtain ⟨out, h, _⟩ := C97_transforms_lines_partial lay hw hne E hE F hF junk ord hord uninit order ho directions hd hfit f
    rw [h]
    rfl

/-- **C97 (outcome of the reflection).** It has no result if a rank does not fit. -/
theorem C97_reflect_outcome (lay : Layout n) (hw : lay.WF) (hne : NoEmptyRank lay) (E : ℕ) (hE : 0 < E) (junk : Fin n → ℕ → ℕ → A) (ord : Fin n → ℕ → KernelOrders)
    (hord : ∀ d r, OrdersOk (myColumns lay r d * E) (ord d r)) (uninit : ℕ → PBuf A) (order : ℕ → List (Site n))
    (directions : Fin n → Bool) (f : Site n → ℕ → A) (d : Fin n) (hd : directions d = true) (r : ℕ) (hr : r < lay.numNodes) (hfit : ¬ GpuFits lay E r d) :
    fullTransformGpu lay E (fun d r => gpuReflect lay E r d (ord d r) (junk d r)) uninit order directions f = none := by
  rw [← Option.not_isSome_iff_eq_none]
  intro h
  obtain ⟨out, h⟩ := Option.isSome_iff_exists.1 h
  obtain ⟨M, M', h3⟩ := (fullTransformGpu_steps h).2 d hd r hr
  exact hfit (gpuReflect_fits hw hne E r hE d (ord d r) (hord d r) (junk d r) M M' h3)

/-- **C97 (equal ranks).** If all ranks have the same extent in the direction and the number of their columns is a multiple of the number of ranks in this direction,
the work array is just as large as the field of the rank: every rank fits unless a field has 2^31 numbers or more. -/
theorem C97_equal_ranks_fit (lay : Layout n) (hw : lay.WF) (hne : NoEmptyRank lay) (E : ℕ) (dir : Fin n) (r : ℕ) (hr : r < lay.numNodes)
    (hs : (lay.nodeinfo r).size dir * lay.ndiv dir = lay.L dir) (hc : lay.ndiv dir ∣ (lay.nodeinfo r).volume / (lay.nodeinfo r).size dir)
    (h31 : (lay.nodeinfo r).volume * E < 2 ^ 31) : GpuFits lay E r dir := by
  obtain ⟨m, hm⟩ := hc
  have hn := hw.ndiv_pos dir
  have hb : 0 < (lay.nodeinfo r).size dir := Nat.pos_of_mul_pos_right (hs ▸ hw.L_pos dir)
  have hcol : myColumns lay r dir = m := by
    rw [myColumns_eq hw hne r hr, columnNumber_eq hw hne]
    unfold colStart totalColumns
    rw [hm, show (lay.dg r dir + 1) * (lay.ndiv dir * m) = lay.ndiv dir * ((lay.dg r dir + 1) * m) by ring,
      show lay.dg r dir * (lay.ndiv dir * m) = lay.ndiv dir * (lay.dg r dir * m) by ring, Nat.mul_div_cancel_left _ hn, Nat.mul_div_cancel_left _ hn, Nat.add_mul,
      Nat.one_mul, Nat.add_sub_cancel_left]
  have hvol : (lay.nodeinfo r).volume = (lay.nodeinfo r).size dir * totalColumns lay r dir := by
    rw [totalColumns_eq hw hne, nodeinfo_eq, ofBox_volume, ofBox_size, ← Finset.mul_prod_erase _ _ (Finset.mem_univ dir),
      ← Finset.mul_prod_erase Finset.univ (Function.update (lay.boxSize r) dir 1) (Finset.mem_univ dir), Function.update_self, Nat.one_mul]
    congr 1
    refine Finset.prod_congr rfl fun d hd => ?_
    rw [Function.update_of_ne (Finset.ne_of_mem_erase hd)]
  have hLm : lay.L dir * m = (lay.nodeinfo r).volume := by
    rw [hvol]
    unfold totalColumns
    rw [hm, ← hs]
    ring
  refine ⟨?_, ?_, ?_⟩
  · rw [hcol]
    rcases Nat.eq_zero_or_pos m with h | h
    · exfalso
      have h1 : totalColumns lay r dir = 0 := by unfold totalColumns; rw [hm, h, Nat.mul_zero]
      have h2 := totalColumns_eq hw hne r dir
      rw [h1] at h2
      have : 0 < ∏ d, Function.update (lay.boxSize r) dir 1 d := Finset.prod_pos fun d _ => by
        by_cases hd : d = dir
        · subst hd; rw [Function.update_self]; exact Nat.one_pos
        · rw [Function.update_of_ne hd]; exact boxSize_pos hw hne r d
      omega
    · exact h
  · rw [hcol, hLm]
    exact (fftBufSize_ge lay r).1
  · rw [hcol, ← Nat.mul_assoc, hLm]
    exact h31

/-! ### Where it fails -/

/-- **C97 (work array).** If a rank has more columns than `buf_size` allows for, the FFT writes outside of the work array, although the CPU gives the right result. -/
theorem C97_work_array_wrong (lay : Layout n) (hw : lay.WF) (hne : NoEmptyRank lay) (E : ℕ) (hE : 0 < E) (F : Fin n → (ℕ → A) → ℕ → A)
    (hF : ∀ d, LocalTo (lay.L d) (F d)) (junk : Fin n → ℕ → ℕ → A) (ord : Fin n → ℕ → KernelOrders)
    (hord : ∀ d r, OrdersOk (myColumns lay r d * E) (ord d r)) (uninit : ℕ → PBuf A) (order : ℕ → List (Site n)) (ho : Order lay .all order)
    (directions : Fin n → Bool) (f : Site n → ℕ → A) (junk' : ℕ → A) (d : Fin n) (hd : directions d = true) (r : ℕ) (hr : r < lay.numNodes)
    (hbig : fftBufSize lay r < lay.L d * myColumns lay r d ∨ myColumns lay r d = 0) :
    fullTransformGpu lay E (fun d r => gpuTransform lay E r d (F d) (ord d r) (junk d r)) uninit order directions f = none ∧
      ∃ out, fullTransform lay E F junk' uninit order directions f = some out ∧
        ∀ c, lay.InLattice c → ∀ e < E, out c e = transformLines F ((List.finRange n).filter fun d => directions d) f c e := by
  refine ⟨?_, C17_transforms_lines_partial lay hw hne E F hF junk' uninit order ho directions ⟨d, hd⟩ f⟩
  rw [← Option.not_isSome_iff_eq_none, C97_outcome lay hw hne E hE F hF junk ord hord uninit order ho directions f]
  rintro ⟨_, h⟩
  have := h d hd r hr
  rcases hbig with hb | hb
  · exact absurd this.2.1 (by omega)
  · exact absurd this.1 (by omega)

/-- A 12 x 4 x 4 lattice on 3 ranks. -/
def gpuLayout3 : Layout 3 where
  L := ![12, 4, 4]
  ndiv := ![3, 1, 1]
  remap := id
  invRemap := id

theorem gpuLayout3_wf : gpuLayout3.WF where
  L_pos := by decide
  ndiv_pos := by decide
  remap_lt := fun i hi => hi
  inv_lt := fun i hi => hi
  remap_inv := fun i hi => rfl
  inv_remap := fun i hi => rfl

/-- All ranks have 4 x 4 x 4 sites and 16 columns in direction 0. The third rank gets 6 of them, 72 numbers for each element; the work array has place for 64. -/
example : gpuLayout3.WF ∧ NoEmptyRank gpuLayout3 ∧ 2 < gpuLayout3.numNodes ∧ fftBufSize gpuLayout3 2 = 64 ∧ gpuLayout3.L 0 * myColumns gpuLayout3 2 0 = 72 :=
  ⟨gpuLayout3_wf, by unfold NoEmptyRank; decide, by decide, by decide +kernel, by decide +kernel⟩

/-- In the other directions the same lattice meets the conditions of `C97_transforms_lines_partial`, for fields of 3 complex numbers. -/
example : ∀ r < 3, GpuFits gpuLayout3 3 r 1 ∧ GpuFits gpuLayout3 3 r 2 := by
  unfold GpuFits
  decide +kernel

/-- An 8 x 2 lattice on 4 ranks. -/
def gpuLayout4 : Layout 2 where
  L := ![8, 2]
  ndiv := ![4, 1]
  remap := id
  invRemap := id

theorem gpuLayout4_wf : gpuLayout4.WF where
  L_pos := by decide
  ndiv_pos := by decide
  remap_lt := fun i hi => hi
  inv_lt := fun i hi => hi
  remap_inv := fun i hi => rfl
  inv_remap := fun i hi => rfl

/-- **C97 (no columns).** On an 8 x 2 lattice divided over 4 ranks the first rank has no column in direction 0: the FFT in this direction ends the program with an error
of the kernel without blocks. -/
theorem C97_no_columns_wrong (F : Fin 2 → (ℕ → A) → ℕ → A) (hF : ∀ d, LocalTo (gpuLayout4.L d) (F d)) (E : ℕ) (hE : 0 < E) (junk : Fin 2 → ℕ → ℕ → A)
    (ord : Fin 2 → ℕ → KernelOrders) (hord : ∀ d r, OrdersOk (myColumns gpuLayout4 r d * E) (ord d r)) (uninit : ℕ → PBuf A) (order : ℕ → List (Site 2))
    (ho : Order gpuLayout4 .all order) (f : Site 2 → ℕ → A) :
    fullTransformGpu gpuLayout4 E (fun d r => gpuTransform gpuLayout4 E r d (F d) (ord d r) (junk d r)) uninit order (fun _ => true) f = none :=
  (C97_work_array_wrong gpuLayout4 gpuLayout4_wf (by unfold NoEmptyRank; decide) E hE F hF junk ord hord uninit order ho (fun _ => true) f (junk 0 0) 0 rfl 0
    (by decide) (Or.inr (by decide +kernel))).1

example (c : ℕ) : OrdersOk c ⟨kernelThreads c, kernelThreads c, (kernelThreads c).reverse⟩ :=
  ⟨List.Perm.refl _, List.Perm.refl _, List.reverse_perm _⟩

/-- The equal ranks of an 8 x 4 lattice. -/
example : (⟨![8, 4], ![2, 2], id, id⟩ : Layout 2).ndiv 0 ∣
    ((⟨![8, 4], ![2, 2], id, id⟩ : Layout 2).nodeinfo 3).volume / ((⟨![8, 4], ![2, 2], id, id⟩ : Layout 2).nodeinfo 3).size 0 ∧
    ((⟨![8, 4], ![2, 2], id, id⟩ : Layout 2).nodeinfo 3).size 0 * 2 = 8 := by decide +kernel

/-! ### Batches and plans -/

/-- **C97 (batches).** The calls of the library cover all columns, and a batch above 256 remains only if none of 2, 3, 5, 7 divides it. -/
theorem C97_batches (columns E : ℕ) (h : 0 < columns) : (splitBatch columns (columns, E)).1 * (splitBatch columns (columns, E)).2 = columns * E ∧
    (256 < (splitBatch columns (columns, E)).1 → ∀ d ∈ [2, 3, 5, 7], ¬ d ∣ (splitBatch columns (columns, E)).1) := by
  refine ⟨splitBatch_prod columns (columns, E), ?_⟩
  have gen : ∀ fuel b e, 0 < b → b ≤ fuel → 256 < (splitBatch fuel (b, e)).1 → ∀ d ∈ [2, 3, 5, 7], ¬ d ∣ (splitBatch fuel (b, e)).1 := by
    intro fuel
    induction fuel with
    | zero => intro b e hb hf; omega
    | succ fuel ih =>
      intro b e hb hf
      unfold splitBatch
      split
      · cases hs : splitOnce (b, e) with
        | none =>
          intro _ d hd hdv
          unfold splitOnce at hs
          rw [Option.map_eq_none_iff, List.find?_eq_none] at hs
          exact hs d hd (by simpa using Nat.mod_eq_zero_of_dvd hdv)
        | some b' =>
          obtain ⟨b1, e1⟩ := b'
          unfold splitOnce at hs
          rw [Option.map_eq_some_iff] at hs
          obtain ⟨d, hd, hq⟩ := hs
          rw [Prod.mk.injEq] at hq
          have hm := List.find?_some hd
          have hmem := List.mem_of_find?_eq_some hd
          simp only [decide_eq_true_eq] at hm
          have h2 : 2 ≤ d := by
            simp only [List.mem_cons, List.not_mem_nil, or_false] at hmem
            omega
          have hdv : d ∣ b := Nat.dvd_of_mod_eq_zero hm
          have hlt : b / d < b := Nat.div_lt_self hb (by omega)
          exact ih b1 e1 (by rw [← hq.1]; exact Nat.div_pos (Nat.le_of_dvd hb hdv) (by omega)) (by rw [← hq.1]; dsimp only; omega)
      · rename_i hle
        intro hbig
        exact absurd hbig (by unfold fftBatchSize at hle; dsimp only at hle ⊢; omega)
  exact gen columns columns E h (le_refl _)

example : splitBatch 4096 (4096, 3) = (256, 48) ∧ splitBatch 22 (22, 3) = (22, 3) ∧ splitBatch 814 (814, 1) = (407, 2) := by decide

/-- What the saved plans must satisfy: no two for the same transforms; all use the present work area; it is large enough for each. -/
structure FftPlans.Ok (need : ℕ → ℕ → Bool → ℕ) (s : FftPlans) : Prop where
  keys : (s.plans.map fun p => (p.size, p.batch, p.isFloat)).Nodup
  area : ∀ p ∈ s.plans, p.area = s.area
  enough : ∀ p ∈ s.plans, need p.size p.batch p.isFloat ≤ s.areaSize

/-- The plans after a sequence of requests; the address of a new area comes from the allocation. -/
def FftPlans.run (need : ℕ → ℕ → Bool → ℕ) : List (ℕ × (ℕ × ℕ × Bool)) → FftPlans → FftPlans
  | [], s => s
  | (fresh, q) :: l, s => FftPlans.run need l (s.get need fresh q.1 q.2.1 q.2.2).2

theorem plan_get_ok (need : ℕ → ℕ → Bool → ℕ) (fresh : ℕ) (s : FftPlans) (h : s.Ok need) (size batch : ℕ) (fl : Bool) :
    (s.get need fresh size batch fl).2.Ok need ∧
    ((s.get need fresh size batch fl).1.size, (s.get need fresh size batch fl).1.batch, (s.get need fresh size batch fl).1.isFloat) = (size, batch, fl) ∧
    (s.get need fresh size batch fl).1 ∈ (s.get need fresh size batch fl).2.plans ∧
    ((size, batch, fl) ∈ s.plans.map (fun p => (p.size, p.batch, p.isFloat)) → (s.get need fresh size batch fl).2 = s) := by
  unfold FftPlans.get
  cases hf : s.plans.find? fun p => p.size = size ∧ p.batch = batch ∧ p.isFloat = fl with
  | some p =>
    have hm := List.find?_some hf
    simp only [decide_eq_true_eq] at hm
    exact ⟨h, by simp [hm], List.mem_of_find?_eq_some hf, fun _ => rfl⟩
  | none =>
    have hnot : (size, batch, fl) ∉ s.plans.map (fun p => (p.size, p.batch, p.isFloat)) := by
      intro hmem
      obtain ⟨p, hp, he⟩ := List.mem_map.1 hmem
      rw [List.find?_eq_none] at hf
      simp only [Prod.mk.injEq] at he
      exact hf p hp (by simp [he])
    dsimp only
    by_cases hsz : s.areaSize ≥ need size batch fl
    · rw [if_pos hsz]
      refine ⟨⟨?_, ?_, ?_⟩, rfl, List.mem_append_right _ List.mem_cons_self, fun hm => absurd hm hnot⟩
      · rw [List.map_append, List.nodup_append]
        refine ⟨h.keys, by simp, ?_⟩
        intro a ha b hb hab
        simp only [List.map_cons, List.map_nil, List.mem_singleton] at hb
        exact hnot (hb ▸ hab ▸ ha)
      · intro p hp
        rcases List.mem_append.1 hp with hp | hp
        · exact h.area p hp
        · rw [List.mem_singleton] at hp; rw [hp]
      · intro p hp
        rcases List.mem_append.1 hp with hp | hp
        · exact h.enough p hp
        · rw [List.mem_singleton] at hp; rw [hp]; exact hsz
    · rw [if_neg hsz]
      refine ⟨⟨?_, ?_, ?_⟩, rfl, List.mem_append_right _ List.mem_cons_self, fun hm => absurd hm hnot⟩
      · rw [List.map_append, List.map_map, List.nodup_append]
        refine ⟨h.keys, by simp, ?_⟩
        intro a ha b hb hab
        simp only [List.map_cons, List.map_nil, List.mem_singleton] at hb
        exact hnot (hb ▸ hab ▸ ha)
      · intro p hp
        rcases List.mem_append.1 hp with hp | hp
        · obtain ⟨q, _, rfl⟩ := List.mem_map.1 hp; rfl
        · rw [List.mem_singleton] at hp; rw [hp]
      · intro p hp
        rcases List.mem_append.1 hp with hp | hp
        · obtain ⟨q, hq, rfl⟩ := List.mem_map.1 hp
          have := h.enough q hq
          dsimp only
          omega
        · rw [List.mem_singleton] at hp; rw [hp]

/-- **C97 (plans).** After any sequence of requests: the plan returned for a request was made for the requested length, number and type; every plan uses the present work
area, which is large enough for it; a second request for the same transforms makes no new plan. -/
theorem C97_plans (need : ℕ → ℕ → Bool → ℕ) (l : List (ℕ × (ℕ × ℕ × Bool))) (fresh size batch : ℕ) (fl : Bool) :
    let s := FftPlans.run need l .start
    let g := s.get need fresh size batch fl
    g.1.size = size ∧ g.1.batch = batch ∧ g.1.isFloat = fl ∧ g.2.Ok need ∧ g.1 ∈ g.2.plans ∧
      ∀ fresh', g.2.get need fresh' size batch fl = (g.1, g.2) := by
  have hs : ∀ (l : List (ℕ × (ℕ × ℕ × Bool))) (s : FftPlans), s.Ok need → (FftPlans.run need l s).Ok need := by
    intro l
    induction l with
    | nil => exact fun s h => h
    | cons q l ih => exact fun s h => ih _ (plan_get_ok need q.1 s h q.2.1 q.2.2.1 q.2.2.2).1
  have h0 := hs l .start ⟨by simp [FftPlans.start], by simp [FftPlans.start], by simp [FftPlans.start]⟩
  intro s g
  obtain ⟨h1, h2, h3, _⟩ := plan_get_ok need fresh s h0 size batch fl
  simp only [Prod.mk.injEq] at h2
  refine ⟨h2.1, h2.2.1, h2.2.2, h1, h3, fun fresh' => ?_⟩
  obtain ⟨_, k2, k3, k4⟩ := plan_get_ok need fresh' g.2 h1 size batch fl
  have hmem : (size, batch, fl) ∈ g.2.plans.map (fun p => (p.size, p.batch, p.isFloat)) := List.mem_map.2 ⟨g.1, h3, by
    show (g.1.size, g.1.batch, g.1.isFloat) = _
    rw [h2.1, h2.2.1, h2.2.2]⟩
  have e2 := k4 hmem
  refine Prod.ext ?_ e2
  rw [e2] at k3
  refine List.inj_on_of_nodup_map h1.keys k3 h3 ?_
  rw [k2, h2.1, h2.2.1, h2.2.2]

/-- Three requests: the second needs a larger area, which the first plan then uses, too. -/
example : (FftPlans.run (fun s b _ => s * b) [(100, 8, 4, true), (200, 8, 16, true), (300, 8, 4, true)] .start).plans.map (·.area) = [some 200, some 200] := by decide

end Hila
