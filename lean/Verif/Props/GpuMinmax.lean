import Verif.Model.GpuMinmax
import Verif.Props.MinMax
import Verif.Props.OverlapLayout

/-!
# C103: `Field::min` and `Field::max` on graphics processors
-/

namespace Hila

open BigOperators

section

variable {V : Type} [LinearOrder V]

theorem argReduceRange_spec (isMin : Bool) (lim : V) (data : ℕ → V) (num : ℕ) (h : num ≠ 0) :
    (argReduceRange isMin lim data num).1 < num ∧
    (argReduceRange isMin lim data num).2 = data (argReduceRange isMin lim data num).1 ∧
    ∀ j < num, ¬ Bt isMin (data j) (argReduceRange isMin lim data num).2 := by
  unfold argReduceRange
  rw [if_neg h]
  obtain ⟨h1, h2, h3⟩ := locReduce_spec isMin data (num - 1)
  exact ⟨by dsimp only; omega, h1, fun j hj => h3 j (by omega)⟩

/-- What is found in one range: all its values are no better, and the value is attained in the range or the
range is empty. -/
theorem oneRange_spec (isMin : Bool) (lim : V) (base : ℕ → V) (p : ℕ × ℕ) :
    let x := argReduceRange isMin lim (fun i => base (p.1 + i)) (p.2 - p.1)
    (∀ i, p.1 ≤ i → i < p.2 → ¬ Bt isMin (base i) x.2) ∧
    ((p.1 ≤ x.1 + p.1 ∧ x.1 + p.1 < p.2 ∧ x.2 = base (x.1 + p.1)) ∨ (p.2 ≤ p.1 ∧ x = (1, lim))) := by
  intro x
  by_cases h : p.2 - p.1 = 0
  · refine ⟨fun i h1 h2 => by omega, Or.inr ⟨by omega, ?_⟩⟩
    show argReduceRange _ _ _ _ = _
    unfold argReduceRange
    rw [if_pos h]
  · obtain ⟨h1, h2, h3⟩ := argReduceRange_spec isMin lim (fun i => base (p.1 + i)) _ h
    refine ⟨fun i hi1 hi2 => ?_, Or.inl ⟨by omega, ?_, ?_⟩⟩
    · have := h3 (i - p.1) (by omega)
      rwa [show p.1 + (i - p.1) = i by omega] at this
    · have : x.1 < p.2 - p.1 := h1
      omega
    · have : x.2 = base (p.1 + x.1) := h2
      rw [this, Nat.add_comm]

theorem gpuRangesBest_spec (isMin : Bool) (lim : V) (base : ℕ → V) (rs : List (ℕ × ℕ))
    (hrs : (∃ p, rs = [p]) ∨ ∃ p q, rs = [p, q]) :
    (∀ p ∈ rs, ∀ i, p.1 ≤ i → i < p.2 → ¬ Bt isMin (base i) (gpuRangesBest isMin lim base rs).1) ∧
    ((∃ p ∈ rs, p.1 ≤ (gpuRangesBest isMin lim base rs).2 ∧ (gpuRangesBest isMin lim base rs).2 < p.2 ∧
      (gpuRangesBest isMin lim base rs).1 = base (gpuRangesBest isMin lim base rs).2) ∨
     ((gpuRangesBest isMin lim base rs).1 = lim ∧
      ∃ p ∈ rs, p.2 ≤ p.1 ∧ (gpuRangesBest isMin lim base rs).2 = p.1 + 1)) := by
  rcases hrs with ⟨p, rfl⟩ | ⟨p, q, rfl⟩
  · obtain ⟨h1, h2⟩ := oneRange_spec isMin lim base p
    have e : gpuRangesBest isMin lim base [p] =
        ((argReduceRange isMin lim (fun i => base (p.1 + i)) (p.2 - p.1)).2,
         (argReduceRange isMin lim (fun i => base (p.1 + i)) (p.2 - p.1)).1 + p.1) := rfl
    rw [e]
    refine ⟨fun p' hp' => ?_, ?_⟩
    · rw [List.mem_singleton] at hp'
      subst hp'
      exact h1
    · rcases h2 with h2 | ⟨h2, h3⟩
      · exact Or.inl ⟨p, List.mem_singleton.2 rfl, h2⟩
      · exact Or.inr ⟨by rw [h3], p, List.mem_singleton.2 rfl, h2, by rw [h3, Nat.add_comm]⟩
  · obtain ⟨h1, h2⟩ := oneRange_spec isMin lim base p
    obtain ⟨k1, k2⟩ := oneRange_spec isMin lim base q
    set x := argReduceRange isMin lim (fun i => base (p.1 + i)) (p.2 - p.1) with hx
    set y := argReduceRange isMin lim (fun i => base (q.1 + i)) (q.2 - q.1) with hy
    have e : gpuRangesBest isMin lim base [p, q] =
        if better isMin y.2 x.2 then (y.2, y.1 + q.1) else (x.2, x.1 + p.1) := rfl
    by_cases hb : better isMin y.2 x.2 = true
    · rw [e, if_pos hb]
      have hb' := (better_iff _ _ _).1 hb
      refine ⟨fun p' hp' i hi1 hi2 => ?_, ?_⟩
      · simp only [List.mem_cons, List.not_mem_nil, or_false] at hp'
        rcases hp' with rfl | rfl
        · exact fun h => h1 i hi1 hi2 (h.trans hb')
        · exact k1 i hi1 hi2
      · rcases k2 with k2 | ⟨k2, k3⟩
        · exact Or.inl ⟨q, by simp, k2⟩
        · exact Or.inr ⟨by rw [k3], q, by simp, k2, by rw [k3, Nat.add_comm]⟩
    · rw [e, if_neg hb]
      have hb' : ¬ Bt isMin y.2 x.2 := fun h => hb ((better_iff _ _ _).2 h)
      refine ⟨fun p' hp' i hi1 hi2 => ?_, ?_⟩
      · simp only [List.mem_cons, List.not_mem_nil, or_false] at hp'
        rcases hp' with rfl | rfl
        · exact h1 i hi1 hi2
        · exact Bt.neg_trans (k1 i hi1 hi2) hb'
      · rcases h2 with h2 | ⟨h2, h3⟩
        · exact Or.inl ⟨p, by simp, h2⟩
        · exact Or.inr ⟨by rw [h3], p, by simp, h2, by rw [h3, Nat.add_comm]⟩

end

section

variable {n : ℕ}

theorem minmaxRanges_form (ni : NodeInfo n) (overlap : Bool) (par : Parity) :
    (∃ p, ni.minmaxRanges overlap par = [p]) ∨ ∃ p q, ni.minmaxRanges overlap par = [p, q] := by
  unfold NodeInfo.minmaxRanges NodeInfo.loopRanges
  split_ifs
  · exact Or.inl ⟨_, rfl⟩
  · exact Or.inr ⟨_, _, rfl⟩
  · exact Or.inr ⟨_, _, rfl⟩
  · exact Or.inr ⟨_, _, rfl⟩
  · exact Or.inl ⟨_, rfl⟩

/-- Slots and sites of a rank correspond, in both storage orders. -/
theorem gpuCoordinates_sites (lay : Layout n) (hw : lay.WF) (overlap : Bool) (r : ℕ) (hr : r < lay.numNodes) :
    (∀ i c, (lay.nodeinfo r).gpuCoordinates overlap i = some c →
      i < (lay.nodeinfo r).volume ∧ lay.InLattice c ∧ lay.nodeRank c = r) ∧
    (∀ i < (lay.nodeinfo r).volume, ∃ c, (lay.nodeinfo r).gpuCoordinates overlap i = some c) ∧
    ∀ c, lay.InLattice c → lay.nodeRank c = r →
      ∃ i, (lay.nodeinfo r).gpuCoordinates overlap i = some c := by
  have hslot : ∀ i < (lay.nodeinfo r).volume, ∃ c, lay.InLattice c ∧ lay.nodeRank c = r ∧
      (lay.nodeinfo r).gpuCoordinates overlap i = some c := by
    intro i hi
    cases overlap
    · obtain ⟨c, h1, h2, h3, _⟩ := C01_every_slot_filled lay hw r i hr hi
      refine ⟨c, h1, h3, ?_⟩
      unfold NodeInfo.gpuCoordinates
      rw [if_pos hi]
      simpa using h2
    · obtain ⟨c, h1, h2, _, h3⟩ := (C75_slots lay hw r hr).2.1 i hi
      refine ⟨c, h1, h2, ?_⟩
      unfold NodeInfo.gpuCoordinates
      rw [if_pos hi]
      simpa using h3
  refine ⟨?_, fun i hi => ?_, ?_⟩
  · intro i c h
    by_cases hi : i < (lay.nodeinfo r).volume
    · obtain ⟨c', h1, h2, h3⟩ := hslot i hi
      rw [h] at h3
      obtain rfl : c = c' := by simpa using h3
      exact ⟨hi, h1, h2⟩
    · unfold NodeInfo.gpuCoordinates at h
      rw [if_neg hi] at h
      cases h
  · obtain ⟨c, _, _, h⟩ := hslot i hi
    exact ⟨c, h⟩
  · intro c hc hcr
    cases overlap
    · obtain ⟨⟨_, h2, h3⟩, _⟩ := C01_unique_rank_and_slot lay hw c hc
      rw [hcr] at h2 h3
      refine ⟨(lay.nodeinfo r).siteIndex c, ?_⟩
      unfold NodeInfo.gpuCoordinates
      rw [if_pos h2]
      simpa using h3
    · obtain ⟨i, h1, _, h2⟩ := (C75_slots lay hw r hr).1 c hc hcr
      refine ⟨i, ?_⟩
      unfold NodeInfo.gpuCoordinates
      rw [if_pos h1]
      simpa using h2

/-- The ranges contain the slots of the visited sites and no others. -/
theorem mem_minmaxRanges (lay : Layout n) (hw : lay.WF) (overlap : Bool) (par : Parity) (hp : par ≠ .none)
    (r : ℕ) (hr : r < lay.numNodes) (i : ℕ) :
    (∃ p ∈ (lay.nodeinfo r).minmaxRanges overlap par, p.1 ≤ i ∧ i < p.2) ↔
      ∃ c, (lay.nodeinfo r).gpuCoordinates overlap i = some c ∧ Visits par c := by
  cases overlap
  · have e : (lay.nodeinfo r).minmaxRanges false par =
        [((lay.nodeinfo r).loopBegin par, (lay.nodeinfo r).loopEnd par)] := rfl
    rw [e]
    simp only [List.mem_singleton, exists_eq_left]
    by_cases hi : i < (lay.nodeinfo r).volume
    · obtain ⟨c, h1, h2, h3, _⟩ := C01_every_slot_filled lay hw r i hr hi
      have hco : (lay.nodeinfo r).gpuCoordinates false i = some c := by
        unfold NodeInfo.gpuCoordinates
        rw [if_pos hi]
        simpa using h2
      obtain ⟨k1, k2, k3, _⟩ := C01_loop_ranges lay hw r i hr c hi h2
      have hv : ((lay.nodeinfo r).loopBegin par ≤ i ∧ i < (lay.nodeinfo r).loopEnd par) ↔ Visits par c := by
        unfold Visits
        cases par with
        | none => exact absurd rfl hp
        | even =>
          rw [k1, Nat.dvd_iff_mod_eq_zero, ← Site.parity_even_iff]
          simp
        | odd =>
          rw [k2, Nat.two_dvd_ne_zero, ← Site.parity_odd_iff]
          simp
        | all => simp [k3]
      rw [hv]
      constructor
      · exact fun h => ⟨c, hco, h⟩
      · rintro ⟨c', h, h'⟩
        rw [hco] at h
        obtain rfl : c = c' := by simpa using h
        exact h'
    · constructor
      · rintro ⟨_, h⟩
        have : (lay.nodeinfo r).loopEnd par ≤ (lay.nodeinfo r).volume := by
          unfold NodeInfo.loopEnd
          split_ifs
          · exact Nat.le_add_right _ _
          · exact le_rfl
        omega
      · rintro ⟨c, h, _⟩
        exact absurd ((gpuCoordinates_sites lay hw false r hr).1 i c h).1 hi
  · have e : (lay.nodeinfo r).minmaxRanges true par = (lay.nodeinfo r).loopRanges par false := rfl
    rw [e]
    have h := C75_ranges lay r par false hp i
    have h1 : (∃ p ∈ (lay.nodeinfo r).loopRanges par false, p.1 ≤ i ∧ i < p.2) ↔
        0 < ((lay.nodeinfo r).loopRanges par false).countP (fun p => decide (p.1 ≤ i ∧ i < p.2)) := by
      rw [List.countP_pos_iff]
      simp
    rw [h1, h]
    have h2 : (∃ c, (lay.nodeinfo r).ovCoordinates i = some c ∧ i < (lay.nodeinfo r).volume ∧ Visits par c) ↔
        ∃ c, (lay.nodeinfo r).gpuCoordinates true i = some c ∧ Visits par c := by
      unfold NodeInfo.gpuCoordinates
      by_cases hi : i < (lay.nodeinfo r).volume
      · simp [hi]
      · simp [hi]
    by_cases h3 : ∃ c, (lay.nodeinfo r).ovCoordinates i = some c ∧ i < (lay.nodeinfo r).volume ∧ Visits par c
    · rw [if_pos h3]
      exact ⟨fun _ => h2.1 h3, fun _ => Nat.one_pos⟩
    · rw [if_neg h3]
      exact ⟨fun h => absurd h (lt_irrefl 0), fun h => absurd (h2.2 h) h3⟩

end

section

variable {n : ℕ} {V : Type}

/-- The memories of the ranks hold the field `f`: the element at the slot of a site is the value there. -/
def GpuHolds (lay : Layout n) (overlap : Bool) (mem : ℕ → ℕ → V) (f : Site n → V) : Prop :=
  ∀ r < lay.numNodes, ∀ i c, (lay.nodeinfo r).gpuCoordinates overlap i = some c → mem r i = f c

variable [LinearOrder V]

/-- One rank. -/
theorem gpuNode_best (lay : Layout n) (hw : lay.WF) (overlap isMin : Bool) (lim : V) (par : Parity)
    (hp : par ≠ .none) (mem : ℕ → ℕ → V) (f : Site n → V) (hm : GpuHolds lay overlap mem f)
    (r : ℕ) (hr : r < lay.numNodes) (hall : ∃ c, Visited lay par c ∧ lay.nodeRank c = r)
    (hlim : overlap = false ∨ ∀ c, Visited lay par c → if isMin then f c < lim else lim < f c) :
    ∃ c, gpuNodeMinmax overlap isMin lim (lay.nodeinfo r) par (mem r) = some (f c, c) ∧
      (gpuRangesBest isMin lim (mem r) ((lay.nodeinfo r).minmaxRanges overlap par)).1 = f c ∧
      Visited lay par c ∧ ∀ c', Visited lay par c' → lay.nodeRank c' = r → ¬ Bt isMin (f c') (f c) := by
  obtain ⟨h1, h2⟩ := gpuRangesBest_spec isMin lim (mem r) _ (minmaxRanges_form (lay.nodeinfo r) overlap par)
  obtain ⟨g1, g2, g3⟩ := gpuCoordinates_sites lay hw overlap r hr
  have hbest : ∀ c', Visited lay par c' → lay.nodeRank c' = r → ¬ Bt isMin (f c')
      (gpuRangesBest isMin lim (mem r) ((lay.nodeinfo r).minmaxRanges overlap par)).1 := by
    intro c' hc' hcr
    obtain ⟨i, hi⟩ := g3 c' hc'.1 hcr
    obtain ⟨p, hpm, hp1, hp2⟩ := (mem_minmaxRanges lay hw overlap par hp r hr i).2 ⟨c', hi, hc'.2⟩
    rw [← hm r hr i c' hi]
    exact h1 p hpm i hp1 hp2
  obtain ⟨c0, hc0, hc0r⟩ := hall
  rcases h2 with ⟨p, hpm, hp1, hp2, hv⟩ | ⟨hl, p, hpm, hpe, _⟩
  · obtain ⟨c, hc, hcv⟩ := (mem_minmaxRanges lay hw overlap par hp r hr _).1 ⟨p, hpm, hp1, hp2⟩
    have hf := hm r hr _ c hc
    rw [← hv] at hf
    refine ⟨c, ?_, hf, ⟨(g1 _ c hc).2.1, hcv⟩, fun c' h1 h2 => hf ▸ hbest c' h1 h2⟩
    unfold gpuNodeMinmax
    dsimp only
    rw [hc, hf]
    rfl
  · exfalso
    rcases hlim with rfl | hlim
    · obtain ⟨i, hi⟩ := g3 c0 hc0.1 hc0r
      obtain ⟨q, hqm, hq1, hq2⟩ := (mem_minmaxRanges lay hw false par hp r hr i).2 ⟨c0, hi, hc0.2⟩
      have e : (lay.nodeinfo r).minmaxRanges false par =
        [((lay.nodeinfo r).loopBegin par, (lay.nodeinfo r).loopEnd par)] := rfl
      rw [e, List.mem_singleton] at hqm hpm
      rw [hqm] at hq1 hq2
      rw [hpm] at hpe
      dsimp only at hq1 hq2 hpe
      omega
    · have := hbest c0 hc0 hc0r
      rw [hl] at this
      exact this (hlim c0 hc0)

/-- **C103.** If every rank has a site of the parity, `min` and `max` on graphics processors return the
smallest and the largest value over the visited sites of all ranks, and a site where it is attained. In the
usual storage order this holds for all contents of the field, also for fields that are negative or infinite
everywhere; in the storage order for overlapping communication, if all values are within the limit `lim` that
the library returns for empty arrays. -/
theorem C103_minmax (lay : Layout n) (hw : lay.WF) (overlap isMin : Bool) (lim : V) (par : Parity)
    (hp : par ≠ .none) (mem : ℕ → ℕ → V) (f : Site n → V) (hm : GpuHolds lay overlap mem f)
    (hall : ∀ r < lay.numNodes, ∃ c, Visited lay par c ∧ lay.nodeRank c = r)
    (hlim : overlap = false ∨ ∀ c, Visited lay par c → if isMin then f c < lim else lim < f c) :
    ∃ c, gpuMinmax overlap isMin lim lay par mem = some (f c, c) ∧ Visited lay par c ∧
      ∀ c', Visited lay par c' → if isMin then f c ≤ f c' else f c' ≤ f c := by
  have hN : 0 < lay.numNodes := Finset.prod_pos fun d _ => hw.ndiv_pos d
  have hnode := fun r hr => gpuNode_best lay hw overlap isMin lim par hp mem f hm r hr (hall r hr) hlim
  have hle : ∀ a b : V, ¬ Bt isMin b a → if isMin then a ≤ b else b ≤ a := by
    intro a b h
    cases isMin <;> simpa [Bt] using h
  have hsome : ∀ r < lay.numNodes,
      (gpuNodeMinmax overlap isMin lim (lay.nodeinfo r) par (mem r)).isSome = true := by
    intro r hr
    obtain ⟨c, h, _⟩ := hnode r hr
    rw [h]
    rfl
  unfold gpuMinmax
  dsimp only
  rw [if_pos hsome]
  by_cases h1 : lay.numNodes > 1
  · rw [if_pos h1]
    obtain ⟨l1, l2, l3⟩ := locReduce_spec isMin
      (fun r => (gpuRangesBest isMin lim (mem r) ((lay.nodeinfo r).minmaxRanges overlap par)).1)
      (lay.numNodes - 1)
    set p := locReduce isMin
      (fun r => (gpuRangesBest isMin lim (mem r) ((lay.nodeinfo r).minmaxRanges overlap par)).1)
      (lay.numNodes - 1)
    obtain ⟨c, k1, k2, k3, k4⟩ := hnode p.2 (by omega)
    have hpc : p.1 = f c := l1.trans k2
    refine ⟨c, by rw [k1, hpc]; rfl, k3, fun c' hc' => hle _ _ ?_⟩
    have hr' := nodeRank_lt lay hw _ hc'.1
    obtain ⟨e, j1, j2, j3, j4⟩ := hnode _ hr'
    have := l3 (lay.nodeRank c') (by omega)
    rw [j2, hpc] at this
    exact Bt.neg_trans (j4 c' hc' rfl) this
  · rw [if_neg h1]
    obtain ⟨c, k1, _, k3, k4⟩ := hnode 0 hN
    refine ⟨c, k1, k3, fun c' hc' => hle _ _ (k4 c' hc' ?_)⟩
    have := nodeRank_lt lay hw _ hc'.1
    omega

/-- **C103** (the same value as on CPUs). Where the CPU version is right (C14: some value is beyond the initial
value of its search), both return the same value, for every division of the sites over threads. -/
theorem C103_like_cpu (lay : Layout n) (hw : lay.WF) (overlap isMin : Bool) (lim limMax limMin : V)
    (par : Parity) (hp : par ≠ .none) (mem : ℕ → ℕ → V) (f : Site n → V) (hm : GpuHolds lay overlap mem f)
    (hall : ∀ r < lay.numNodes, ∃ c, Visited lay par c ∧ lay.nodeRank c = r)
    (hlim : overlap = false ∨ ∀ c, Visited lay par c → if isMin then f c < lim else lim < f c)
    (loc0 : Site n) (threads : ℕ → List (List (Site n × V))) (hs : Schedule lay par f threads)
    (hcpu : ∃ c, Visited lay par c ∧ if isMin then f c < limMax else limMin < f c) :
    (gpuMinmax overlap isMin lim lay par mem).map (·.1) =
      some (minmax limMax limMin loc0 lay.numNodes isMin threads).1 := by
  obtain ⟨c, h1, h2, h3⟩ := C103_minmax lay hw overlap isMin lim par hp mem f hm hall hlim
  rw [h1]
  cases isMin
  · obtain ⟨e, k1, k2, k3⟩ := C14_max_partial lay hw par f limMax limMin loc0 threads hs (by simpa using hcpu)
    rw [k1]
    exact congrArg some (le_antisymm (k3 c h2) (by simpa using h3 e k2))
  · obtain ⟨e, k1, k2, k3⟩ := C14_min_partial lay hw par f limMax limMin loc0 threads hs (by simpa using hcpu)
    rw [k1]
    exact congrArg some (le_antisymm (by simpa using h3 e k2) (k3 c h2))

/-- **C103 fails** on a rank without sites of the parity: whatever the field contains, the rank reads the
coordinates outside of their table. The library returns the position 1 for the empty array, and the loop begins
at the end of the even sites or at 0. -/
theorem C103_empty_rank (lay : Layout n) (hw : lay.WF) (isMin : Bool) (lim : V) (par : Parity)
    (hp : par ≠ .none) (mem : ℕ → ℕ → V) (r : ℕ) (hr : r < lay.numNodes) (hv : (lay.nodeinfo r).volume ≤ 1)
    (hno : ∀ c, Visited lay par c → lay.nodeRank c ≠ r) :
    gpuMinmax false isMin lim lay par mem = none := by
  unfold gpuMinmax
  dsimp only
  rw [if_neg]
  intro h
  have := h r hr
  have hb : (gpuRangesBest isMin lim (mem r) ((lay.nodeinfo r).minmaxRanges false par)).2 ≥
      (lay.nodeinfo r).volume := by
    obtain ⟨_, h2⟩ := gpuRangesBest_spec isMin lim (mem r) _ (minmaxRanges_form (lay.nodeinfo r) false par)
    rcases h2 with ⟨p, hpm, hp1, hp2, _⟩ | ⟨_, p, _, _, h2⟩
    · obtain ⟨c, hc, hcv⟩ := (mem_minmaxRanges lay hw false par hp r hr _).1 ⟨p, hpm, hp1, hp2⟩
      obtain ⟨_, g2, g3⟩ := (gpuCoordinates_sites lay hw false r hr).1 _ c hc
      exact absurd g3 (hno c ⟨g2, hcv⟩)
    · omega
  unfold gpuNodeMinmax NodeInfo.gpuCoordinates at this
  dsimp only at this
  rw [if_neg (by omega)] at this
  simp at this

end

/-- Four sites on one rank, without inner sites. -/
def smallOverlap : Layout 2 where
  L := ![2, 2]
  ndiv := ![1, 1]
  remap := id
  invRemap := id

theorem smallOverlap_wf : smallOverlap.WF where
  L_pos := by decide
  ndiv_pos := by decide
  remap_lt := fun _ hi => hi
  inv_lt := fun _ hi => hi
  remap_inv := fun _ _ => rfl
  inv_remap := fun _ _ => rfl

/-- **C103 fails** in the storage order for overlapping communication, if the rank has no inner sites of the
parity and no value is below the largest finite number: `min` over the odd sites of a field that is 2000
everywhere, with 1000 as the largest finite number of the type (2000 stands for infinity), is 1000, which is
nowhere in the field. If the field is 1000 everywhere the value is right. In both cases the location is an even
site. -/
theorem C103_overlap_wrong :
    (∀ v : ℤ, GpuHolds smallOverlap true (fun _ _ => v) fun _ => v) ∧
    (∀ r < smallOverlap.numNodes, ∃ c, Visited smallOverlap .odd c ∧ smallOverlap.nodeRank c = r) ∧
    (gpuMinmax true true 1000 smallOverlap .odd (fun _ _ => (2000 : ℤ)) = some (1000, ![1, 1])) ∧
    (gpuMinmax true true 1000 smallOverlap .odd (fun _ _ => (1000 : ℤ)) = some (1000, ![1, 1])) ∧
    ¬ Visited smallOverlap .odd ![1, 1] := by
  refine ⟨fun v r _ i c _ => rfl, ?_, ?_, ?_, ?_⟩
  · intro r hr
    have h1 : smallOverlap.numNodes = 1 := by decide
    obtain rfl : r = 0 := by omega
    exact ⟨![0, 1], ⟨by intro d; fin_cases d <;> decide, Or.inr (by decide)⟩, by decide⟩
  · decide +kernel
  · decide +kernel
  · rintro ⟨_, h | h⟩
    · cases h
    · exact absurd h (by decide)

/-- Two sites on two ranks: rank 0 has no odd site. -/
def twoSingles : Layout 1 where
  L := ![2]
  ndiv := ![2]
  remap := id
  invRemap := id

theorem twoSingles_wf : twoSingles.WF where
  L_pos := by decide
  ndiv_pos := by decide
  remap_lt := fun _ hi => hi
  inv_lt := fun _ hi => hi
  remap_inv := fun _ _ => rfl
  inv_remap := fun _ _ => rfl

/-- `C103_empty_rank` applies to the odd sites of this lattice. -/
example : gpuMinmax false true 1000 twoSingles .odd (fun r _ => (r : ℤ)) = none :=
  C103_empty_rank twoSingles twoSingles_wf true 1000 .odd (by decide) _ 0 (by decide) (by decide +kernel) (by
    rintro c ⟨h1, h2⟩ h3
    have h4 : c 0 < 2 := h1 0
    have h5 : c = ![c 0] := by funext d; fin_cases d; rfl
    rcases h2 with h2 | h2
    · cases h2
    · generalize c 0 = k at *
      subst h5
      have h6 : k = 0 ∨ k = 1 := by omega
      rcases h6 with rfl | rfl
      · exact absurd h2 (by decide)
      · exact absurd h3 (by decide))

/-- The field `x + 10 y - 70` on the example of C75, two ranks with 4 × 6 sites, in both storage orders: it is
negative everywhere and the maximum is found where it is. -/
def gpuExampleMem (overlap : Bool) (r i : ℕ) : ℤ :=
  match (overlapExample.nodeinfo r).gpuCoordinates overlap i with
  | some c => (c 0 : ℤ) + 10 * c 1 - 70
  | none => 0

example (overlap : Bool) : GpuHolds overlapExample overlap (gpuExampleMem overlap)
    fun c => (c 0 : ℤ) + 10 * c 1 - 70 := by
  intro r _ i c h
  unfold gpuExampleMem
  rw [h]

example : ∀ r < overlapExample.numNodes, ∃ c, Visited overlapExample .odd c ∧ overlapExample.nodeRank c = r := by
  intro r hr
  have h1 : overlapExample.numNodes = 2 := by decide
  have : r = 0 ∨ r = 1 := by omega
  rcases this with rfl | rfl
  · exact ⟨![0, 1], ⟨by intro d; fin_cases d <;> decide, Or.inr (by decide)⟩, by decide⟩
  · exact ⟨![4, 1], ⟨by intro d; fin_cases d <;> decide, Or.inr (by decide)⟩, by decide⟩

example : gpuMinmax false false (-1000) overlapExample .odd (gpuExampleMem false) = some (-14, ![6, 5]) ∧
    gpuMinmax true false (-1000) overlapExample .odd (gpuExampleMem true) = some (-14, ![6, 5]) ∧
    gpuMinmax true true 1000 overlapExample .odd (gpuExampleMem true) = some (-69, ![1, 0]) := by
  decide +kernel

end Hila
