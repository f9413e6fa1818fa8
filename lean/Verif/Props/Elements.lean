import Verif.Lemmas.FieldIO
import Verif.Props.Gather

/-!
# C07, C36: lists of elements, subvolumes and slices
-/

namespace Hila

open BigOperators

/-! ## C07 -/

/-- `get_elements` returns the values of the field at the listed sites, in list order (repetitions
allowed); with `bcast` on every rank, without it on rank 0 only. No access is out of bounds. -/
theorem C07_get {n : ℕ} {V : Type} (lay : Layout n) (h : lay.WF) (dflt : V) (mem : ℕ → Mem V)
    (f : Site n → V) (hm : Stores lay mem f) (cs : List (Site n)) (hcs : ∀ c ∈ cs, lay.InLattice c)
    (bcast : Bool) (r : ℕ) :
    getElements lay dflt mem cs bcast r =
      some (if r = 0 ∨ bcast = true then cs.map f else []) := by
  unfold getElements
  rw [gather_spec lay h dflt mem f hm cs hcs 0 (numNodes_pos lay h)]

/-- `gather_elements` with any root rank. -/
theorem C07_gather_any_root {n : ℕ} {V : Type} (lay : Layout n) (h : lay.WF) (dflt : V)
    (mem : ℕ → Mem V) (f : Site n → V) (hm : Stores lay mem f) (cs : List (Site n))
    (hcs : ∀ c ∈ cs, lay.InLattice c) (root : ℕ) (hroot : root < lay.numNodes) :
    gatherElements lay dflt mem cs root = some (cs.map f) :=
  gather_spec lay h dflt mem f hm cs hcs root hroot

/-- `set_elements` writes each listed value to its site and leaves all other sites alone. -/
theorem C07_set {n : ℕ} {V : Type} (lay : Layout n) (h : lay.WF) (mem : ℕ → Mem V)
    (f : Site n → V) (hm : Stores lay mem f) (cs : List (Site n)) (hcs : ∀ c ∈ cs, lay.InLattice c)
    (hnd : cs.Nodup) (vs : List V) (hlen : vs.length = cs.length) :
    ∃ mem' g, setElements lay mem vs cs = some mem' ∧ Stores lay mem' g ∧
      (∀ (i : ℕ) c v, cs[i]? = some c → vs[i]? = some v → g c = v) ∧ ∀ c, c ∉ cs → g c = f c := by
  obtain ⟨mem', h1, h2⟩ := set_spec lay h mem f hm cs hcs vs hlen
  exact ⟨mem', assignAll f cs vs, h1, h2,
    fun i c v hc hv => assignAll_getElem f cs vs hnd i c v hc hv,
    fun c hc => assignAll_notMem f cs vs c hc⟩

/-- The same for `scatter_elements`, where the values are on the root rank only. Slots not named by
the list (in particular halo slots) keep their content. -/
theorem C07_scatter {n : ℕ} {V : Type} (lay : Layout n) (h : lay.WF) (dflt : V) (mem : ℕ → Mem V)
    (f : Site n → V) (hm : Stores lay mem f) (cs : List (Site n)) (hcs : ∀ c ∈ cs, lay.InLattice c)
    (hnd : cs.Nodup) (vs : List V) (hlen : vs.length = cs.length) :
    ∃ mem' g, scatterElements lay dflt mem cs vs = some mem' ∧ Stores lay mem' g ∧
      (∀ (i : ℕ) c v, cs[i]? = some c → vs[i]? = some v → g c = v) ∧ (∀ c, c ∉ cs → g c = f c) ∧
      ∀ r i, (∀ c ∈ cs, lay.nodeRank c = r → (lay.nodeinfo r).siteIndex c ≠ i) →
        mem' r i = mem r i := by
  obtain ⟨mem', h1, h2, h3⟩ := scatter_spec lay h dflt mem f hm cs hcs vs hlen
  refine ⟨mem', assignAll f cs vs, h1, h2,
    fun i c v hc hv => assignAll_getElem f cs vs hnd i c v hc hv,
    fun c hc => assignAll_notMem f cs vs c hc, fun r i hi => h3 r i ?_⟩
  intro hcon
  obtain ⟨c, hc, he⟩ := List.mem_map.1 hcon
  rw [List.mem_filter] at hc
  exact hi c hc.1 (by simpa using hc.2) he

/-- Writing and reading the same list of distinct sites returns the written list on every rank, for
every distribution of the lattice over ranks. -/
theorem C07_roundtrip {n : ℕ} {V : Type} (lay : Layout n) (h : lay.WF) (dflt : V) (mem : ℕ → Mem V)
    (f : Site n → V) (hm : Stores lay mem f) (cs : List (Site n)) (hcs : ∀ c ∈ cs, lay.InLattice c)
    (hnd : cs.Nodup) (vs : List V) (hlen : vs.length = cs.length) :
    ∃ mem', setElements lay mem vs cs = some mem' ∧
      ∀ r, getElements lay dflt mem' cs true r = some vs := by
  obtain ⟨mem', g, h1, h2, h3, _⟩ := C07_set lay h mem f hm cs hcs hnd vs hlen
  refine ⟨mem', h1, fun r => ?_⟩
  rw [C07_get lay h dflt mem' g h2 cs hcs]
  simp only [or_true, if_true, Option.some.injEq]
  apply List.ext_getElem
  · simp [hlen]
  · intro i hi hi'
    rw [List.getElem_map]
    exact h3 i _ _ (List.getElem?_eq_getElem (by simpa using hi)) (List.getElem?_eq_getElem hi')

/-- Two layouts of the same lattice give the same result. -/
theorem C07_layout_independent {n : ℕ} {V : Type} (lay lay' : Layout n) (h : lay.WF) (h' : lay'.WF)
    (hL : lay.L = lay'.L) (dflt : V) (mem mem' : ℕ → Mem V) (f : Site n → V)
    (hm : Stores lay mem f) (hm' : Stores lay' mem' f) (cs : List (Site n))
    (hcs : ∀ c ∈ cs, lay.InLattice c) (bcast : Bool) (r : ℕ) :
    getElements lay dflt mem cs bcast r = getElements lay' dflt mem' cs bcast r := by
  rw [C07_get lay h dflt mem f hm cs hcs, C07_get lay' h' dflt mem' f hm' cs
    (fun c hc d => by have := hcs c hc d; rwa [hL] at this)]

/-- A list of values whose length differs from the number of sites is refused. -/
theorem C07_set_size_mismatch {n : ℕ} {V : Type} (lay : Layout n) (mem : ℕ → Mem V)
    (cs : List (Site n)) (vs : List V) (hlen : vs.length ≠ cs.length) :
    setElements lay mem vs cs = none := by
  unfold setElements; rw [if_pos hlen]

/-! ## C36 -/

/-- A box given by its corners lies inside the lattice. -/
def ValidBox {n : ℕ} (L : Site n) (cmin cmax : CV n) : Prop :=
  ∀ d, 0 ≤ cmin d ∧ cmin d ≤ cmax d ∧ cmax d < L d

instance {n : ℕ} (L : Site n) (cmin cmax : CV n) : Decidable (ValidBox L cmin cmax) := by
  unfold ValidBox; infer_instance

/-- `l` lists the values of `f` over the box, first coordinate fastest: its length is the number of
sites, and the value at `c` is at position `Σ_d (c_d - min_d) Π_{j<d} (max_j - min_j + 1)`. -/
def ListsBox {n : ℕ} {V : Type} (cmin cmax : CV n) (f : Site n → V) (l : List V) : Prop :=
  (l.length : ℤ) = ∏ d, (cmax d - cmin d + 1) ∧
  ∀ (c : Site n) (pos : ℕ), (∀ d, cmin d ≤ c d ∧ (c d : ℤ) ≤ cmax d) →
    (pos : ℤ) = ∑ d, ((c d : ℤ) - cmin d) * ∏ j : Fin d.val,
      (cmax ⟨j.val, by omega⟩ - cmin ⟨j.val, by omega⟩ + 1) →
    l[pos]? = some (f c)

theorem validBox_iff {n : ℕ} (lay : Layout n) (cmin cmax : CV n) :
    ((List.finRange n).all fun d => decide (cmin d ≤ cmax d ∧ 0 ≤ cmin d ∧ cmax d < lay.L d)) = true ↔
      ValidBox lay.L cmin cmax := by
  rw [List.all_eq_true]
  constructor
  · intro hd d
    have := hd d (List.mem_finRange d)
    simp only [decide_eq_true_eq] at this
    exact ⟨this.2.1, this.1, this.2.2⟩
  · intro hd d _
    have := hd d
    simp only [decide_eq_true_eq]
    exact ⟨this.2.1, this.1, this.2.2⟩

theorem range_listsBox {n : ℕ} {V : Type} (L : Site n) (cmin cmax : CV n) (hb : ValidBox L cmin cmax)
    (f : Site n → V) :
    ListsBox cmin cmax f
      ((coordinateRange (fun d => (cmin d).toNat) (fun d => (cmax d).toNat)).map f) := by
  have hle : ∀ d, (cmin d).toNat ≤ (cmax d).toNat := fun d => by have := hb d; omega
  have hext : ∀ d, (((cmax d).toNat - (cmin d).toNat + 1 : ℕ) : ℤ) = cmax d - cmin d + 1 := by
    intro d; have := hb d; omega
  constructor
  · rw [List.length_map, coordinateRange_length _ _ hle, Nat.cast_prod]
    exact Finset.prod_congr rfl fun d _ => hext d
  · intro c pos hc hpos
    have hc' : ∀ d, (cmin d).toNat ≤ c d ∧ c d ≤ (cmax d).toNat := fun d => by
      have := hb d; have := hc d; omega
    have key := coordinateRange_getElem _ _ hle c hc'
    have hp : pos = lex (fun d => (cmax d).toNat - (cmin d).toNat + 1)
        (fun d => c d - (cmin d).toNat) := by
      have : (pos : ℤ) = ((lex (fun d => (cmax d).toNat - (cmin d).toNat + 1)
          (fun d => c d - (cmin d).toNat) : ℕ) : ℤ) := by
        rw [hpos, ← lex_eq_sum, Nat.cast_sum]
        apply Finset.sum_congr rfl
        intro d _
        rw [Nat.cast_mul]
        congr 1
        · have := hb d; have := hc d; have := hc' d; omega
        · unfold sizeFactor
          rw [Nat.cast_prod]
          exact Finset.prod_congr rfl fun j _ => (hext _).symm
      exact_mod_cast this
    rw [List.getElem?_map, hp, key]; rfl

/-- `get_subvolume` of a valid box lists its values; an invalid box is rejected. -/
theorem C36_subvolume {n : ℕ} {V : Type} (lay : Layout n) (h : lay.WF) (dflt : V) (mem : ℕ → Mem V)
    (f : Site n → V) (hm : Stores lay mem f) (cmin cmax : CV n) (r : ℕ) :
    (ValidBox lay.L cmin cmax → ∃ l, getSubvolume lay dflt mem cmin cmax true r = some l ∧
      ListsBox cmin cmax f l) ∧
    (¬ ValidBox lay.L cmin cmax → getSubvolume lay dflt mem cmin cmax true r = none) := by
  constructor
  · intro hb
    refine ⟨_, ?_, range_listsBox lay.L cmin cmax hb f⟩
    unfold getSubvolume
    rw [if_pos ((validBox_iff lay cmin cmax).2 hb), C07_get lay h dflt mem f hm]
    · simp
    · intro c hc d
      have := (coordinateRange_mem _ _ (fun d => by have := hb d; omega) c).1 hc d
      have := hb d
      omega
  · intro hb
    unfold getSubvolume
    rw [if_neg (fun hcon => hb ((validBox_iff lay cmin cmax).1 hcon))]

/-- The coordinate loop fills the preallocated list of `Π (max-min+1)` entries exactly. -/
theorem C36_range_length {n : ℕ} (lo hi : Site n) (h : ∀ d, lo d ≤ hi d) :
    (coordinateRange lo hi).length = ∏ d, (hi d - lo d + 1) ∧
    ∀ c, c ∈ coordinateRange lo hi ↔ ∀ d, lo d ≤ c d ∧ c d ≤ hi d :=
  ⟨coordinateRange_length lo hi h, coordinateRange_mem lo hi h⟩

/-- `get_slice`: a negative entry means the full extent, a non-negative one fixes the coordinate.
The result lists the values of that box; a fixed coordinate outside of the lattice is rejected. -/
theorem C36_slice {n : ℕ} {V : Type} (lay : Layout n) (h : lay.WF) (dflt : V) (mem : ℕ → Mem V)
    (f : Site n → V) (hm : Stores lay mem f) (slice : CV n) (r : ℕ) :
    ((∀ d, slice d < lay.L d) → ∃ l cmin cmax, getSlice lay dflt mem slice true r = some l ∧
      ListsBox cmin cmax f l ∧
      ∀ d, (slice d < 0 → cmin d = 0 ∧ cmax d = (lay.L d : ℤ) - 1) ∧
        (0 ≤ slice d → cmin d = slice d ∧ cmax d = slice d)) ∧
    ((∃ d, (lay.L d : ℤ) ≤ slice d) → getSlice lay dflt mem slice true r = none) := by
  constructor
  · intro hs
    have hb : ValidBox lay.L (rangeFromSlice lay slice).1 (rangeFromSlice lay slice).2 := by
      intro d
      have := hs d
      have := h.L_pos d
      unfold rangeFromSlice
      dsimp only
      split <;> omega
    obtain ⟨l, h1, h2⟩ := (C36_subvolume lay h dflt mem f hm _ _ r).1 hb
    refine ⟨l, _, _, h1, h2, fun d => ?_⟩
    unfold rangeFromSlice
    dsimp only
    constructor
    · intro hd; rw [if_pos hd, if_pos hd]; exact ⟨rfl, rfl⟩
    · intro hd; rw [if_neg (by omega), if_neg (by omega)]; exact ⟨rfl, rfl⟩
  · rintro ⟨d, hd⟩
    apply (C36_subvolume lay h dflt mem f hm _ _ r).2
    intro hb
    have := hb d
    unfold rangeFromSlice at this
    dsimp only at this
    rw [if_neg (by omega), if_neg (by omega)] at this
    omega

/-- `write_subvolume` writes the values of the box in the same order whatever the buffer size
(also zero), and rejects an invalid box. -/
theorem C36_write_subvolume {n : ℕ} {V : Type} (lay : Layout n) (h : lay.WF) (dflt : V) (per : ℕ)
    (mem : ℕ → Mem V) (f : Site n → V) (hm : Stores lay mem f) (cmin cmax : CV n) :
    (ValidBox lay.L cmin cmax → ∃ l, writeSubvolume lay dflt per mem cmin cmax = some l ∧
      ListsBox cmin cmax f l) ∧
    (¬ ValidBox lay.L cmin cmax → writeSubvolume lay dflt per mem cmin cmax = none) := by
  constructor
  · intro hb
    refine ⟨_, ?_, range_listsBox lay.L cmin cmax hb f⟩
    have hle : ∀ d, (cmin d).toNat ≤ (cmax d).toNat := fun d => by have := hb d; omega
    unfold writeSubvolume
    rw [if_pos ((validBox_iff lay cmin cmax).2 hb)]
    dsimp only
    rw [subvol_fold lay h dflt mem f hm _ _ _ ?_ _ (by intro c hc; cases hc) [] rfl ?_ (fun _ => rfl)]
    · simp
    · intro c hc d
      have := (coordinateRange_mem _ _ hle c).1 hc d
      have := hb d
      omega
    · rw [coordinateRange_length _ _ hle]; simp
  · intro hb
    unfold writeSubvolume
    rw [if_neg (fun hcon => hb ((validBox_iff lay cmin cmax).1 hcon))]

/-! ## Non-vacuity -/

/-- Memory that stores a given field on a layout. -/
def memOf {n : ℕ} {V : Type} (lay : Layout n) (f : Site n → V) : ℕ → Mem V :=
  fun r i => f ((lay.nodeinfo r).coord i)

theorem memOf_stores {n : ℕ} {V : Type} (lay : Layout n) (h : lay.WF) (f : Site n → V) :
    Stores lay (memOf lay f) f := fun c hc => by
  unfold memOf
  rw [(coord_siteIndex lay _ c (box_nodeRank lay h c hc)).2]

/-- Six ranks, unequal boxes: a list touching several ranks, in an order unrelated to rank order. -/
example : gatherElements exampleLayout 0 (memOf exampleLayout fun c => 10 * c 0 + c 1)
    [![4, 2], ![0, 0], ![3, 1], ![4, 2], ![1, 2]] 3 = some [42, 0, 31, 42, 12] := by decide +kernel

example : (∀ c ∈ [![4, 2], ![0, 0], (![3, 1] : Site 2)], exampleLayout.InLattice c) ∧
    [![4, 2], ![0, 0], (![3, 1] : Site 2)].Nodup := by
  constructor
  · unfold Layout.InLattice; decide
  · decide

example : ValidBox exampleLayout.L ![1, 0] ![3, 2] ∧ ¬ ValidBox exampleLayout.L ![1, 0] ![5, 2] := by
  decide

example : getSlice exampleLayout 0 (memOf exampleLayout fun c => 10 * c 0 + c 1) ![-1, 2] true 4 =
    some [2, 12, 22, 32, 42] := by decide +kernel

end Hila
