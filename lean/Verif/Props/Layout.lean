import Verif.Lemmas.Layout
import Mathlib.Data.Fintype.Pi
import Mathlib.Algebra.Order.BigOperators.Ring.Finset
import Mathlib.Algebra.BigOperators.Group.Finset.Sigma

/-!
# C01, C02: ownership and storage of lattice sites

The specification side: a lattice is the set of `c` with `c d < L d`; a rank is a number below
the number of nodes; a slot is a number below the rank's volume.
-/

namespace Hila

open BigOperators

/-- A concrete layout used to show that hypotheses can be met: a 5 x 3 lattice on 2 x 3 ranks
(uneven division, odd extents), with the rank order reversed. -/
def exampleLayout : Layout 2 where
  L := ![5, 3]
  ndiv := ![2, 3]
  remap := fun i => 5 - i
  invRemap := fun i => 5 - i

theorem exampleLayout_numNodes : exampleLayout.numNodes = 6 := by
  simp [Layout.numNodes, exampleLayout, Fin.prod_univ_succ]

theorem exampleLayout_wf : exampleLayout.WF where
  L_pos := by decide
  ndiv_pos := by decide
  remap_lt := fun i hi => by
    rw [exampleLayout_numNodes] at *; show 5 - i < 6; omega
  inv_lt := fun i hi => by
    rw [exampleLayout_numNodes] at *; show 5 - i < 6; omega
  remap_inv := fun i hi => by
    rw [exampleLayout_numNodes] at *; show 5 - (5 - i) = i; omega
  inv_remap := fun i hi => by
    rw [exampleLayout_numNodes] at *; show 5 - (5 - i) = i; omega

/-- **C01.** Every site of the lattice is stored in exactly one slot of exactly one rank; the
rank is the one returned by `node_rank` and the slot the one returned by `site_index`. -/
theorem C01_unique_rank_and_slot {n : ℕ} (lay : Layout n) (h : lay.WF) (c : Site n)
    (hc : ∀ d, c d < lay.L d) :
    (lay.nodeRank c < lay.numNodes ∧
      (lay.nodeinfo (lay.nodeRank c)).siteIndex c < (lay.nodeinfo (lay.nodeRank c)).volume ∧
      (lay.nodeinfo (lay.nodeRank c)).coordinates
        ((lay.nodeinfo (lay.nodeRank c)).siteIndex c) = some c) ∧
    ∀ r i, r < lay.numNodes → i < (lay.nodeinfo r).volume →
      (lay.nodeinfo r).coordinates i = some c →
      r = lay.nodeRank c ∧ i = (lay.nodeinfo r).siteIndex c := by
  have hr := nodeRank_lt lay h c hc
  have hb := (inBox_iff_nodeRank lay h _ hr c hc).2 rfl
  refine ⟨⟨hr, ?_, ?_⟩, ?_⟩
  · rw [nodeinfo_eq]; exact siteIndex_lt _ _ c hb
  · rw [nodeinfo_eq]; exact coordinates_siteIndex _ _ c hb
  · intro r i hr' hi hco
    rw [nodeinfo_eq] at hi hco ⊢
    obtain ⟨e, he, hei⟩ := siteIndex_surj _ _ i hi
    have h2 := coordinates_siteIndex _ _ e he
    rw [hei, hco] at h2
    have hce : c = e := by simpa using h2
    subst hce
    exact ⟨((inBox_iff_nodeRank lay h r hr' c hc).1 he).symm, hei.symm⟩

/-- **C01.** Conversely every slot of every rank holds a lattice site that belongs to that rank
and to that slot (the table of coordinates has no unset entry). -/
theorem C01_every_slot_filled {n : ℕ} (lay : Layout n) (h : lay.WF) (r i : ℕ)
    (hr : r < lay.numNodes) (hi : i < (lay.nodeinfo r).volume) :
    ∃ c : Site n, (∀ d, c d < lay.L d) ∧ (lay.nodeinfo r).coordinates i = some c ∧
      lay.nodeRank c = r ∧ (lay.nodeinfo r).siteIndex c = i := by
  rw [nodeinfo_eq] at hi ⊢
  obtain ⟨e, he, hei⟩ := siteIndex_surj _ _ i hi
  have hl := inBox_inLattice lay h r e he
  refine ⟨e, hl, ?_, (inBox_iff_nodeRank lay h r hr e hl).1 he, hei⟩
  rw [← hei]; exact coordinates_siteIndex _ _ e he

/-- **C01.** Loops over a parity visit exactly the slots of that parity: slot `i` of rank `r`
lies in the loop range of EVEN iff its site has an even coordinate sum, of ODD iff odd, and of
ALL always. In particular all even sites come before all odd ones. -/
theorem C01_loop_ranges {n : ℕ} (lay : Layout n) (h : lay.WF) (r i : ℕ)
    (hr : r < lay.numNodes) (c : Site n)
    (hi : i < (lay.nodeinfo r).volume) (hco : (lay.nodeinfo r).coordinates i = some c) :
    let ni := lay.nodeinfo r
    ((ni.loopBegin .even ≤ i ∧ i < ni.loopEnd .even) ↔ 2 ∣ ∑ d, c d) ∧
    ((ni.loopBegin .odd ≤ i ∧ i < ni.loopEnd .odd) ↔ ¬ 2 ∣ ∑ d, c d) ∧
    (ni.loopBegin .all ≤ i ∧ i < ni.loopEnd .all) ∧
    ni.loopEnd .even = ni.loopBegin .odd ∧ ni.loopEnd .odd = ni.volume ∧
    ni.loopBegin .even = 0 := by
  intro ni
  obtain ⟨e, hl, hco', hre, hei⟩ := C01_every_slot_filled lay h r i hr hi
  have hce : c = e := by rw [hco] at hco'; simpa using hco'
  subst hce
  have hb := (inBox_iff_nodeRank lay h r hr c hl).2 hre
  have key := siteIndex_lt_even_iff _ _ c hb
  rw [← nodeinfo_eq, hei] at key
  refine ⟨?_, ?_, ?_, rfl, rfl, rfl⟩
  · show (0 ≤ i ∧ i < (lay.nodeinfo r).evensites) ↔ _
    rw [key]; constructor <;> (intro; omega)
  · show ((lay.nodeinfo r).evensites ≤ i ∧ i < (lay.nodeinfo r).volume) ↔ _
    constructor
    · intro hh hd
      have := key.2 (by omega)
      omega
    · intro hh
      refine ⟨?_, hi⟩
      by_contra hcon
      exact hh (by have := key.1 (by omega); omega)
  · exact ⟨Nat.zero_le _, hi⟩

example : ∃ c, (exampleLayout.nodeinfo 2).coordinates 1 = some c ∧
    1 < (exampleLayout.nodeinfo 2).volume ∧ 2 < exampleLayout.numNodes := by
  have hv : (exampleLayout.nodeinfo 2).volume = 2 := by decide +kernel
  have hn := exampleLayout_numNodes
  obtain ⟨c, -, hco, -, -⟩ := C01_every_slot_filled exampleLayout exampleLayout_wf 2 1
    (by omega) (by omega)
  exact ⟨c, hco, by omega, by omega⟩

/-- **C01.** The alternative storage order used without EVEN_SITES_FIRST: the slot is the logical
index and the coordinates are recomputed by divisions. Both directions are inverse on the box of
a rank. -/
theorem C01_plain_order_roundtrip {n : ℕ} (ni : NodeInfo n) (c : Site n)
    (hc : ∀ d, ni.min d ≤ c d ∧ c d < ni.min d + ni.size d) :
    ni.logicalIndex c < ∏ d, ni.size d ∧
    NodeInfo.coordinatesPlain ni.min ni.size (ni.logicalIndex c) = c := by
  have hrel : ∀ d, c d - ni.min d < ni.size d := fun d => by have := hc d; omega
  rw [logicalIndex_eq_lex]
  refine ⟨lex_lt _ _ hrel, ?_⟩
  have key : ∀ {m : ℕ} (a s e : Fin m → ℕ), (∀ d, e d < s d) →
      NodeInfo.coordinatesPlain a s (lex s e) = fun d => e d + a d := by
    intro m
    induction m with
    | zero => intro a s e _; funext d; exact d.elim0
    | succ m ih =>
      intro a s e he
      match m, ih, a, s, e, he with
      | 0, _, a, s, e, _ =>
        funext d
        have : d = 0 := Fin.ext (by omega)
        subst this
        simp [NodeInfo.coordinatesPlain, lex]
      | m + 1, ih, a, s, e, he =>
        have h0 := he 0
        rw [NodeInfo.coordinatesPlain, lex]
        have e2 : (e 0 + s 0 * lex (Fin.tail s) (Fin.tail e)) / s 0 =
            lex (Fin.tail s) (Fin.tail e) := by
          rw [Nat.add_mul_div_left _ _ (by omega), Nat.div_eq_of_lt h0, zero_add]
        simp only [e2]
        rw [ih (Fin.tail a) (Fin.tail s) (Fin.tail e) (fun d => he d.succ)]
        funext d
        refine Fin.cases ?_ (fun j => ?_) d
        · simp only [Fin.cons_zero]
          rw [mul_comm]; omega
        · simp [Fin.tail]
  rw [key _ _ _ hrel]
  funext d
  have := hc d
  omega

/-- **C01.** `global_coordinates` enumerates the whole lattice, first coordinate fastest: it is a
bijection between `0 .. volume-1` and the sites, with inverse `x + Lx*(y + Ly*(z + ...))`. -/
theorem C01_global_coordinates {n : ℕ} (lay : Layout n) (i : ℕ) (hi : i < ∏ d, lay.L d) :
    (∀ d, lay.globalCoordinates i d < lay.L d) ∧
    (∑ d, lay.globalCoordinates i d * ∏ j : Fin d.val, lay.L ⟨j.val, by omega⟩) = i ∧
    ∀ c : Site n, (∀ d, c d < lay.L d) →
      lay.globalCoordinates (∑ d, c d * ∏ j : Fin d.val, lay.L ⟨j.val, by omega⟩) = c := by
  have e : ∀ c : Site n, (∑ d, c d * ∏ j : Fin d.val, lay.L ⟨j.val, by omega⟩) = lex lay.L c :=
    fun c => lex_eq_sum lay.L c
  refine ⟨digits_lt _ _ (pos_of_lt_prod _ i hi), ?_, ?_⟩
  · rw [e]; exact lex_digits _ _ hi
  · intro c hc; rw [e]; exact digits_lex _ _ hc

/-- **C02.** The rank computed from a coordinate is `r` exactly if the box published for `r`
contains the coordinate (`is_on_mynode` evaluated on rank `r`). -/
theorem C02_rank_iff_box {n : ℕ} (lay : Layout n) (h : lay.WF) (r : ℕ) (hr : r < lay.numNodes)
    (c : Site n) (hc : ∀ d, c d < lay.L d) :
    (lay.nodeRank c = r ↔ (lay.nodeinfo r).isOnNode c = true) ∧
    ((lay.nodeinfo r).isOnNode c = true ↔ ∀ d, (lay.nodeinfo r).min d ≤ c d ∧
      c d < (lay.nodeinfo r).min d + (lay.nodeinfo r).size d) := by
  refine ⟨?_, isOnNode_iff _ c⟩
  rw [isOnNode_iff, nodeinfo_eq, ofBox_min, ofBox_size]
  exact (inBox_iff_nodeRank lay h r hr c hc).symm

/-- **C02.** Box look-ups never go out of range, boxes lie inside the lattice, and the volume is
the product of the extents. -/
theorem C02_box_valid {n : ℕ} (lay : Layout n) (h : lay.WF) (r : ℕ) :
    (∀ d, digits lay.ndiv (lay.invRemap r) d + 1 < (divisors (lay.L d) (lay.ndiv d)).length) ∧
    (∀ d, (lay.nodeinfo r).min d + (lay.nodeinfo r).size d ≤ lay.L d) ∧
    (lay.nodeinfo r).volume = ∏ d, (lay.nodeinfo r).size d := by
  refine ⟨fun d => ?_, fun d => ?_, ?_⟩
  · rw [divisors_length _ _ (h.L_pos d)]
    have := digits_lt lay.ndiv (lay.invRemap r) h.ndiv_pos d
    omega
  · rw [nodeinfo_eq, ofBox_min, ofBox_size]
    have hdl := digits_lt lay.ndiv (lay.invRemap r) h.ndiv_pos d
    have h1 := divisors_le (lay.L d) (lay.ndiv d) (h.L_pos d) _ hdl
    have h2 := divisors_mono (lay.L d) (lay.ndiv d) (h.L_pos d) _ hdl
    unfold Layout.boxSize Layout.boxMin
    have h1' : (divisors (lay.L d) (lay.ndiv d)).getD
      (digits lay.ndiv (lay.invRemap r) d + 1) 0 ≤ lay.L d := h1
    omega
  · rw [nodeinfo_eq, ofBox_volume, ofBox_size]

/-- **C02.** If no direction has more divisions than sites then no rank is empty. -/
theorem C02_no_empty_rank {n : ℕ} (lay : Layout n) (h : lay.WF) (hle : ∀ d, lay.ndiv d ≤ lay.L d)
    (r : ℕ) : (∀ d, 0 < (lay.nodeinfo r).size d) ∧ 0 < (lay.nodeinfo r).volume := by
  have hs : ∀ d, 0 < (lay.nodeinfo r).size d := by
    intro d
    rw [nodeinfo_eq, ofBox_size]
    have hdl := digits_lt lay.ndiv (lay.invRemap r) h.ndiv_pos d
    have := divisors_strict (lay.L d) (lay.ndiv d) (h.L_pos d) (hle d) _ hdl
    unfold Layout.boxSize Layout.boxMin
    omega
  refine ⟨hs, ?_⟩
  rw [(C02_box_valid lay h r).2.2]
  exact Finset.prod_pos fun d _ => hs d

example : exampleLayout.WF ∧ ∀ d, exampleLayout.ndiv d ≤ exampleLayout.L d :=
  ⟨exampleLayout_wf, by decide⟩

/-- All sites of the lattice with a given coordinate-sum parity (`p = 0, 1`), as a finite set. -/
def latticeSites {n : ℕ} (L : Site n) : Finset (Site n) :=
  Fintype.piFinset fun d => Finset.range (L d)

theorem mem_latticeSites {n : ℕ} (L c : Site n) : c ∈ latticeSites L ↔ ∀ d, c d < L d := by
  simp [latticeSites]

/-- **C02.** The volumes of the ranks add up to the volume of the lattice, and the published
numbers of even (odd) sites add up to the number of even (odd) sites of the lattice. -/
theorem C02_site_counts_add_up {n : ℕ} (lay : Layout n) (h : lay.WF) :
    (∑ r ∈ Finset.range lay.numNodes, (lay.nodeinfo r).volume = ∏ d, lay.L d) ∧
    (∑ r ∈ Finset.range lay.numNodes, (lay.nodeinfo r).evensites =
      ((latticeSites lay.L).filter fun c => 2 ∣ ∑ d, c d).card) ∧
    (∑ r ∈ Finset.range lay.numNodes, (lay.nodeinfo r).oddsites =
      ((latticeSites lay.L).filter fun c => ¬ 2 ∣ ∑ d, c d).card) := by
  -- sites ↔ (rank, slot)
  have cnt : ∀ (lo hi : ℕ → ℕ) (P : Site n → Prop) [DecidablePred P],
      (∀ r, r < lay.numNodes → hi r ≤ (lay.nodeinfo r).volume) →
      (∀ r c, r < lay.numNodes → lay.InLattice c → lay.nodeRank c = r →
        (P c ↔ lo r ≤ (lay.nodeinfo r).siteIndex c ∧ (lay.nodeinfo r).siteIndex c < hi r)) →
      ∑ r ∈ Finset.range lay.numNodes, (hi r - lo r) = ((latticeSites lay.L).filter P).card := by
    intro lo hi P _ hhi hP
    have : ∑ r ∈ Finset.range lay.numNodes, (hi r - lo r) =
        ((Finset.range lay.numNodes).sigma fun r => Finset.Ico (lo r) (hi r)).card := by
      rw [Finset.card_sigma]; simp
    rw [this]
    symm
    refine Finset.card_bij (fun c _ => ⟨lay.nodeRank c, (lay.nodeinfo (lay.nodeRank c)).siteIndex c⟩)
      ?_ ?_ ?_
    · intro c hcm
      rw [Finset.mem_filter, mem_latticeSites] at hcm
      have hr := nodeRank_lt lay h c hcm.1
      rw [Finset.mem_sigma, Finset.mem_range, Finset.mem_Ico]
      exact ⟨hr, (hP _ c hr hcm.1 rfl).1 hcm.2⟩
    · intro c hcm e hem heq
      rw [Finset.mem_filter, mem_latticeSites] at hcm hem
      have h1 : lay.nodeRank c = lay.nodeRank e := congrArg Sigma.fst heq
      have h2 : (lay.nodeinfo (lay.nodeRank c)).siteIndex c =
          (lay.nodeinfo (lay.nodeRank e)).siteIndex e := by
        have := congrArg (fun x : Σ _ : ℕ, ℕ => x.2) heq
        simpa using this
      rw [← h1] at h2
      have hr := nodeRank_lt lay h c hcm.1
      exact siteIndex_inj _ _ c e ((inBox_iff_nodeRank lay h _ hr c hcm.1).2 rfl)
        ((inBox_iff_nodeRank lay h _ hr e hem.1).2 h1.symm) h2
    · rintro ⟨r, i⟩ hmem
      rw [Finset.mem_sigma, Finset.mem_range, Finset.mem_Ico] at hmem
      obtain ⟨hr, hlo, hhi'⟩ := hmem
      obtain ⟨c, hcl, -, hcr, hci⟩ := C01_every_slot_filled lay h r i hr
        (lt_of_lt_of_le hhi' (hhi r hr))
      refine ⟨c, ?_, ?_⟩
      · rw [Finset.mem_filter, mem_latticeSites]
        refine ⟨hcl, (hP r c hr hcl hcr).2 ?_⟩
        rw [hci]; exact ⟨hlo, hhi'⟩
      · simp only [hcr, hci]
  have hev : ∀ r c, r < lay.numNodes → lay.InLattice c → lay.nodeRank c = r →
      ((lay.nodeinfo r).siteIndex c < (lay.nodeinfo r).evensites ↔ 2 ∣ ∑ d, c d) := by
    intro r c hr hc hrc
    have := siteIndex_lt_even_iff _ _ c ((inBox_iff_nodeRank lay h r hr c hc).2 hrc)
    rw [← nodeinfo_eq] at this
    rw [this]; constructor <;> (intro; omega)
  have hvol : ∀ r c, r < lay.numNodes → lay.InLattice c → lay.nodeRank c = r →
      (lay.nodeinfo r).siteIndex c < (lay.nodeinfo r).volume := by
    intro r c hr hc hrc
    exact siteIndex_lt _ _ c ((inBox_iff_nodeRank lay h r hr c hc).2 hrc)
  refine ⟨?_, ?_, ?_⟩
  · have := cnt (fun _ => 0) (fun r => (lay.nodeinfo r).volume) (fun _ => True)
      (fun r _ => le_refl _) (fun r c hr hc hrc => by
        simp only [true_iff]; exact ⟨Nat.zero_le _, hvol r c hr hc hrc⟩)
    simp only [Nat.sub_zero] at this
    rw [this]; simp [latticeSites]
  · have := cnt (fun _ => 0) (fun r => (lay.nodeinfo r).evensites) (fun c => 2 ∣ ∑ d, c d)
      (fun r _ => by unfold NodeInfo.volume; omega) (fun r c hr hc hrc => by
        rw [← hev r c hr hc hrc]; exact ⟨fun h => ⟨Nat.zero_le _, h⟩, fun h => h.2⟩)
    simpa using this
  · have := cnt (fun r => (lay.nodeinfo r).evensites) (fun r => (lay.nodeinfo r).volume)
      (fun c => ¬ 2 ∣ ∑ d, c d) (fun r _ => le_refl _) (fun r c hr hc hrc => by
        rw [← hev r c hr hc hrc, not_lt]
        exact ⟨fun h => ⟨h, hvol r c hr hc hrc⟩, fun h => h.1⟩)
    rw [← this]
    apply Finset.sum_congr rfl
    intro r _
    unfold NodeInfo.volume; omega

end Hila
