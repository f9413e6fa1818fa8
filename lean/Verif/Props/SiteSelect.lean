import Verif.Lemmas.SiteSelect
import Verif.Props.MinMax

/-!
# C12, C13: site selection

A loop over parity `par` visits on every rank the sites of that rank in some order (`Order`); the
loop body selects at site `c` the values `body c`, one after the other. `body c = []` means that
`c` is not selected.
-/

namespace Hila

section

variable {n : ℕ} {V : Type}

/-- `order r` lists the sites that rank `r` visits in a loop over parity `par`, each once. -/
def Order (lay : Layout n) (par : Parity) (order : ℕ → List (Site n)) : Prop :=
  ∀ r < lay.numNodes, (order r).Nodup ∧
    ∀ c, c ∈ order r ↔ (Visited lay par c ∧ lay.nodeRank c = r)

/-- The selected sites in rank order, and on each rank in the order of the visits. -/
def selectedSites (lay : Layout n) (body : Site n → List V) (order : ℕ → List (Site n)) :
    List (Site n) :=
  (List.range lay.numNodes).flatMap fun r => (order r).filter fun c => !(body c).isEmpty

/-- The loop as run by the program: sites are handed over as `SiteIndex`. -/
def selectRun (lay : Layout n) (dflt : V) (body : Site n → List V) (order : ℕ → List (Site n))
    (st : ℕ → SelState V) : Option (ℕ → SelState V) :=
  selectLoop dflt lay.numNodes (fun r => (lay.nodeinfo r).volume)
    (fun r => (order r).map fun c => (siteIndexValue lay.L c, body c)) st

/-- Selecting is defined on every rank: there are no values, or the loop body selects each site at
most once, or at least one site of the rank is left unselected (see `C13_not_in_bounds`). -/
def InBounds (lay : Layout n) (hasValues : Bool) (body : Site n → List V)
    (order : ℕ → List (Site n)) : Prop :=
  hasValues = false ∨ (∀ c, (body c).length ≤ 1) ∨
  ∀ r < lay.numNodes, ((order r).filter fun c => !(body c).isEmpty).length <
    (lay.nodeinfo r).volume

theorem order_length_le (lay : Layout n) (hw : lay.WF) (par : Parity) (order : ℕ → List (Site n))
    (ho : Order lay par order) (r : ℕ) (hr : r < lay.numNodes) :
    (order r).length ≤ (lay.nodeinfo r).volume := by
  obtain ⟨hnd, hm⟩ := ho r hr
  have hbox : ∀ c ∈ order r, InBox (lay.boxMin r) (lay.boxSize r) c := fun c hc =>
    (inBox_iff_nodeRank lay hw r hr c ((hm c).1 hc).1.1).2 ((hm c).1 hc).2
  have hnd' : ((order r).map (lay.nodeinfo r).siteIndex).Nodup := by
    apply List.Nodup.map_on _ hnd
    intro x hx y hy h
    rw [nodeinfo_eq] at h
    exact siteIndex_inj _ _ x y (hbox x hx) (hbox y hy) h
  have hsub : ((order r).map (lay.nodeinfo r).siteIndex) ⊆ List.range (lay.nodeinfo r).volume := by
    intro i hi
    obtain ⟨c, hc, rfl⟩ := List.mem_map.1 hi
    rw [List.mem_range, nodeinfo_eq]
    exact siteIndex_lt _ _ c (hbox c hc)
  have := (hnd'.subperm hsub).length_le
  simpa using this

theorem firsts_map (L : Site n) (body : Site n → List V) (l : List (Site n)) :
    (firsts (l.map fun c => (siteIndexValue L c, body c))).map Prod.fst =
      (l.filter fun c => !(body c).isEmpty).map (siteIndexValue L) ∧
    (firsts (l.map fun c => (siteIndexValue L c, body c))).map (some ∘ Prod.snd) =
      (l.filter fun c => !(body c).isEmpty).map fun c => (body c).head? := by
  induction l with
  | nil => exact ⟨rfl, rfl⟩
  | cons c l ih =>
    cases hb : body c with
    | nil =>
      have h1 : firsts ((c :: l).map fun c => (siteIndexValue L c, body c)) =
          firsts (l.map fun c => (siteIndexValue L c, body c)) := by
        unfold firsts; rw [List.map_cons, List.filterMap_cons]; simp [hb]
      rw [h1, List.filter_cons_of_neg (by simp [hb])]
      exact ih
    | cons v vs =>
      have h1 : firsts ((c :: l).map fun c => (siteIndexValue L c, body c)) =
          (siteIndexValue L c, v) :: firsts (l.map fun c => (siteIndexValue L c, body c)) := by
        unfold firsts; rw [List.map_cons, List.filterMap_cons]; simp [hb]
      rw [h1, List.filter_cons_of_pos (by simp [hb])]
      simp only [List.map_cons, ih.1, ih.2, hb]
      exact ⟨trivial, rfl⟩

/-- All ranks before the join, and after it. -/
theorem selectRun_spec (lay : Layout n) (hw : lay.WF) (par : Parity) (dflt : V)
    (body : Site n → List V) (order : ℕ → List (Site n)) (ho : Order lay par order)
    (nmax : ℕ) (hv : Bool) (aj : Bool) (st : ℕ → SelState V)
    (hst : ∀ r, (st r).nmax = nmax ∧ (st r).hasValues = hv ∧ (st r).autoJoin = aj)
    (hok : InBounds lay hv body order) :
    ∃ st0, (∀ r < lay.numNodes,
        Selected nmax (st0 r) (firsts ((order r).map fun c => (siteIndexValue lay.L c, body c))) ∧
        (st0 r).hasValues = hv ∧ (st0 r).joined = false ∧ (st0 r).autoJoin = aj) ∧
      selectRun lay dflt body order st =
        some (if aj then joinAll dflt lay.numNodes st0 else st0) := by
  have hloop : ∀ r < lay.numNodes, ∃ s', SelState.loop
      ((order r).map fun c => (siteIndexValue lay.L c, body c))
      ((st r).setup dflt (lay.nodeinfo r).volume) = some s' ∧
      SelInv (lay.nodeinfo r).volume ((st r).setup dflt (lay.nodeinfo r).volume)
        (firsts ((order r).map fun c => (siteIndexValue lay.L c, body c))) s' := by
    intro r hr
    obtain ⟨hnd, hm⟩ := ho r hr
    have hlen : (firsts ((order r).map fun c => (siteIndexValue lay.L c, body c))).length =
        ((order r).filter fun c => !(body c).isEmpty).length := by
      have := congrArg List.length (firsts_map lay.L body (order r)).1
      simpa using this
    have hle : ((order r).filter fun c => !(body c).isEmpty).length ≤ (lay.nodeinfo r).volume :=
      Nat.le_trans (List.length_filter_le _ _) (order_length_le lay hw par order ho r hr)
    have := loop_inv (lay.nodeinfo r).volume ((st r).setup dflt (lay.nodeinfo r).volume)
      ((order r).map fun c => (siteIndexValue lay.L c, body c)) [] _
      (setup_selInv dflt _ (st r)) ?_ (by simp) (by simpa [hlen] using hle) ?_
    · simpa using this
    · rw [List.map_map]
      apply List.Nodup.map_on _ hnd
      intro x hx y hy h
      simp only [Function.comp, siteIndexValue_eq] at h
      exact lex_inj lay.L x y ((hm x).1 hx).1.1 ((hm y).1 hy).1.1 h
    · rcases hok with h | h | h
      · left; show (st r).hasValues = false; rw [(hst r).2.1]; exact h
      · right; left
        intro x hx
        obtain ⟨c, _, rfl⟩ := List.mem_map.1 hx
        exact h c
      · right; right; rw [hlen]; simpa using h r hr
  set work := fun r => (order r).map fun c => (siteIndexValue lay.L c, body c) with hwork
  refine ⟨fun r => ((SelState.loop (work r) ((st r).setup dflt (lay.nodeinfo r).volume)).getD
    (st r)).endloop dflt, ?_, ?_⟩
  · intro r hr
    obtain ⟨s', h1, h2⟩ := hloop r hr
    simp only [hwork] at h1 ⊢
    rw [h1]
    obtain ⟨e1, e2, e3, e4⟩ := endloop_selected dflt _ _ s' _ h2 rfl
    have hn : ((st r).setup dflt (lay.nodeinfo r).volume).nmax = nmax := (hst r).1
    rw [hn] at e1
    exact ⟨e1, e2.trans (hst r).2.1, e3, e4.trans (hst r).2.2⟩
  · unfold selectRun selectLoop
    rw [if_pos]
    · rw [(hst 0).2.2]
    · intro r hr
      obtain ⟨s', h1, _⟩ := hloop r (List.mem_range.1 hr)
      rw [h1]; rfl

theorem mem_selectedSites (lay : Layout n) (hw : lay.WF) (par : Parity) (body : Site n → List V)
    (order : ℕ → List (Site n)) (ho : Order lay par order) :
    (selectedSites lay body order).Nodup ∧
    ∀ c, c ∈ selectedSites lay body order ↔ (Visited lay par c ∧ body c ≠ []) := by
  unfold selectedSites
  constructor
  · rw [List.nodup_flatMap]
    constructor
    · intro r hr; exact ((ho r (List.mem_range.1 hr)).1).filter _
    · apply List.Pairwise.imp_of_mem (R := fun a b => a ≠ b) _ List.nodup_range
      intro a b ha hb hab x hx hy
      have h1 := (((ho a (List.mem_range.1 ha)).2 x).1 (List.mem_filter.1 hx).1).2
      have h2 := (((ho b (List.mem_range.1 hb)).2 x).1 (List.mem_filter.1 hy).1).2
      exact hab (h1.symm.trans h2)
  · intro c
    rw [List.mem_flatMap]
    constructor
    · rintro ⟨r, hr, hc⟩
      obtain ⟨h1, h2⟩ := List.mem_filter.1 hc
      exact ⟨(((ho r (List.mem_range.1 hr)).2 c).1 h1).1, by simpa using h2⟩
    · rintro ⟨h1, h2⟩
      have hr := nodeRank_lt lay hw c h1.1
      exact ⟨_, List.mem_range.2 hr, List.mem_filter.2
        ⟨((ho _ hr).2 c).2 ⟨h1, rfl⟩, by simpa using h2⟩⟩

/-- Everything about a joined selection at once. -/
theorem joined_spec (lay : Layout n) (hw : lay.WF) (par : Parity) (dflt : V)
    (body : Site n → List V) (order : ℕ → List (Site n)) (ho : Order lay par order)
    (hN : 0 < lay.numNodes) (nmax : ℕ) (hv : Bool) (st : ℕ → SelState V)
    (hst : ∀ r, (st r).nmax = nmax ∧ (st r).hasValues = hv ∧ (st r).autoJoin = true)
    (hok : InBounds lay hv body order) :
    ∃ st', selectRun lay dflt body order st = some st' ∧
      (st' 0).sites = ((selectedSites lay body order).take nmax).map (siteIndexValue lay.L) ∧
      (hv = true → (st' 0).values.map some =
        ((selectedSites lay body order).take nmax).map fun c => (body c).head?) ∧
      (st' 0).overflow = (selectedSites lay body order).length - nmax ∧
      ∀ r, 0 < r → r < lay.numNodes → (st' r).sites = [] := by
  obtain ⟨st0, h0, hrun⟩ := selectRun_spec lay hw par dflt body order ho nmax hv true st hst hok
  refine ⟨_, hrun, ?_⟩
  rw [if_pos rfl]
  have hj : (st0 0).joined = false := (h0 0 hN).2.2.1
  unfold joinAll
  rw [if_neg (by rw [hj]; simp)]
  obtain ⟨j1, j2, j3, j4⟩ := join_fold dflt nmax hv
    (fun r => firsts ((order r).map fun c => (siteIndexValue lay.L c, body c)))
    (lay.numNodes - 1) st0 (fun r hr => ⟨(h0 r (by omega)).1, (h0 r (by omega)).2.1⟩)
  have hN1 : lay.numNodes - 1 + 1 = lay.numNodes := by omega
  rw [hN1] at j1
  set P := (List.range lay.numNodes).flatMap
    fun r => firsts ((order r).map fun c => (siteIndexValue lay.L c, body c)) with hP
  have p1 : P.map Prod.fst = (selectedSites lay body order).map (siteIndexValue lay.L) := by
    rw [hP, selectedSites, List.map_flatMap, List.map_flatMap]
    congr 1; funext r; exact (firsts_map lay.L body (order r)).1
  have p2 : P.map (some ∘ Prod.snd) = (selectedSites lay body order).map fun c => (body c).head? := by
    rw [hP, selectedSites, List.map_flatMap, List.map_flatMap]
    congr 1; funext r; exact (firsts_map lay.L body (order r)).2
  refine ⟨?_, ?_, ?_, ?_⟩
  · refine j1.sites.trans ?_
    rw [List.map_take, p1, ← List.map_take]
  · intro hx
    refine (congrArg (List.map some) (j1.values (j2.trans hx))).trans ?_
    rw [List.map_map, List.map_take, p2, ← List.map_take]
  · refine j1.over.trans ?_
    have := congrArg List.length p1
    simp only [List.length_map] at this
    rw [this]
  · intro r hr hr2
    exact j3 r hr (by omega)

/-- **C12.** For every loop, every order of visits and every limit: after the loop rank 0 holds the
first `nmax` of the selected coordinates (in the order of ranks), `size()` is their number and
`overflow()` the number of selected sites that were dropped. The list of selected sites has no
repetitions and contains exactly the visited sites the body selected. Other ranks hold nothing. -/
theorem C12_joined_selection (lay : Layout n) (hw : lay.WF) (par : Parity) (dflt : V)
    (body : Site n → List V) (order : ℕ → List (Site n)) (ho : Order lay par order)
    (hN : 0 < lay.numNodes) (nmax : ℕ) (st : ℕ → SelState V)
    (hst : ∀ r, (st r).nmax = nmax ∧ (st r).hasValues = false ∧ (st r).autoJoin = true) :
    ∃ st', selectRun lay dflt body order st = some st' ∧
      (st' 0).sites.map (siteIndexCoordinates lay.L) = (selectedSites lay body order).take nmax ∧
      (st' 0).sites.length = min nmax (selectedSites lay body order).length ∧
      (st' 0).overflow = (selectedSites lay body order).length - nmax ∧
      (∀ r, 0 < r → r < lay.numNodes → (st' r).sites = []) ∧
      (selectedSites lay body order).Nodup ∧
      ∀ c, c ∈ selectedSites lay body order ↔ (Visited lay par c ∧ body c ≠ []) := by
  obtain ⟨st', h1, h2, _, h4, h5⟩ := joined_spec lay hw par dflt body order ho hN nmax false st hst
    (Or.inl rfl)
  obtain ⟨m1, m2⟩ := mem_selectedSites lay hw par body order ho
  refine ⟨st', h1, ?_, ?_, h4, h5, m1, m2⟩
  · rw [h2, List.map_map]
    conv_rhs => rw [← List.map_id ((selectedSites lay body order).take nmax)]
    apply List.map_congr_left
    intro c hc
    simp only [Function.comp, siteIndexCoordinates, siteIndexValue_eq, id]
    exact digits_lex _ _ ((m2 c).1 (List.mem_of_mem_take hc)).1.1
  · rw [h2]; simp

/-- **C12** (`SiteIndex`). Conversion to a `SiteIndex` and back gives the same coordinates, and
different sites have different indices, below the lattice volume. -/
theorem C12_site_index (L c : Site n) (hc : ∀ d, c d < L d) :
    siteIndexCoordinates L (siteIndexValue L c) = c ∧ siteIndexValue L c < ∏ d, L d ∧
    ∀ i, i < ∏ d, L d → siteIndexValue L (siteIndexCoordinates L i) = i := by
  simp only [siteIndexValue_eq]
  exact ⟨digits_lex L c hc, lex_lt L c hc, fun i hi => lex_digits L i hi⟩

/-- **C12** (`no_join`). Without the join every rank keeps the first `nmax` of its own selected
sites. -/
theorem C12_no_join (lay : Layout n) (hw : lay.WF) (par : Parity) (dflt : V)
    (body : Site n → List V) (order : ℕ → List (Site n)) (ho : Order lay par order)
    (nmax : ℕ) (st : ℕ → SelState V)
    (hst : ∀ r, (st r).nmax = nmax ∧ (st r).hasValues = false ∧ (st r).autoJoin = false) :
    ∃ st', selectRun lay dflt body order st = some st' ∧ ∀ r < lay.numNodes,
      (st' r).sites.map (siteIndexCoordinates lay.L) =
        ((order r).filter fun c => !(body c).isEmpty).take nmax ∧
      (st' r).overflow = ((order r).filter fun c => !(body c).isEmpty).length - nmax := by
  obtain ⟨st0, h0, hrun⟩ := selectRun_spec lay hw par dflt body order ho nmax false false st hst
    (Or.inl rfl)
  refine ⟨_, hrun, ?_⟩
  intro r hr
  rw [if_neg (by simp)]
  obtain ⟨h1, _⟩ := h0 r hr
  have f1 := (firsts_map lay.L body (order r)).1
  constructor
  · rw [h1.sites, List.map_take, f1, ← List.map_take, List.map_map]
    conv_rhs => rw [← List.map_id (((order r).filter fun c => !(body c).isEmpty).take nmax)]
    apply List.map_congr_left
    intro c hc
    simp only [Function.comp, siteIndexCoordinates, siteIndexValue_eq, id]
    exact digits_lex _ _
      (((ho r hr).2 c).1 (List.mem_filter.1 (List.mem_of_mem_take hc)).1).1.1
  · rw [h1.over]
    have := congrArg List.length f1
    simp only [List.length_map] at this
    rw [this]

/-- **C13** (values belong to their sites). On rank 0 entry `i` of the values is the first value
that the loop body selected at the coordinate with the same index. In particular it is *the* value
selected there if the body selects each site at most once. Missing from the property: a second
selection of the same site does not update the value (`C13_not_updated`). -/
theorem C13_values_partial (lay : Layout n) (hw : lay.WF) (par : Parity) (dflt : V)
    (body : Site n → List V) (order : ℕ → List (Site n)) (ho : Order lay par order)
    (hN : 0 < lay.numNodes) (nmax : ℕ) (st : ℕ → SelState V)
    (hst : ∀ r, (st r).nmax = nmax ∧ (st r).hasValues = true ∧ (st r).autoJoin = true)
    (hok : InBounds lay true body order) :
    ∃ st', selectRun lay dflt body order st = some st' ∧
      (st' 0).sites.map (siteIndexCoordinates lay.L) = (selectedSites lay body order).take nmax ∧
      (st' 0).values.length = (st' 0).sites.length ∧
      ∀ (i : ℕ) (s : ℕ) (v : V), (st' 0).sites[i]? = some s → (st' 0).values[i]? = some v →
        (body (siteIndexCoordinates lay.L s)).head? = some v := by
  obtain ⟨st', h1, h2, h3, h4, h5⟩ :=
    joined_spec lay hw par dflt body order ho hN nmax true st hst hok
  obtain ⟨m1, m2⟩ := mem_selectedSites lay hw par body order ho
  have hco : ∀ c ∈ (selectedSites lay body order).take nmax,
      siteIndexCoordinates lay.L (siteIndexValue lay.L c) = c := fun c hc =>
    (C12_site_index lay.L c ((m2 c).1 (List.mem_of_mem_take hc)).1.1).1
  refine ⟨st', h1, ?_, ?_, ?_⟩
  · rw [h2, List.map_map]
    conv_rhs => rw [← List.map_id ((selectedSites lay body order).take nmax)]
    exact List.map_congr_left fun c hc => hco c hc
  · have := congrArg List.length (h3 rfl)
    rw [h2]; simpa using this
  · intro i s v hs hvv
    rw [h2, List.getElem?_map, Option.map_eq_some_iff] at hs
    obtain ⟨c, hc, rfl⟩ := hs
    rw [hco c (List.mem_of_getElem? hc)]
    have := congrArg (fun l => l[i]?) (h3 rfl)
    simp only [List.getElem?_map, hvv, hc, Option.map_some, Option.some.injEq] at this
    exact this.symm

end

/-- The order of visits on the example lattice: even sites first. -/
def exampleOrder (par : Parity) (r : ℕ) : List (Site 2) :=
  exampleSites.filter fun c => Visits par c ∧ exampleLayout.nodeRank c = r

theorem exampleOrder_ok (par : Parity) : Order exampleLayout par (exampleOrder par) := by
  intro r _
  constructor
  · unfold exampleOrder
    apply List.Nodup.filter
    decide +kernel
  · intro c
    unfold exampleOrder Visited
    rw [List.mem_filter, mem_exampleSites]
    simp only [decide_eq_true_eq]
    tauto

/-- Concrete run: the sites with x = y are selected, at most two kept, one dropped. -/
example : ∃ st', selectRun exampleLayout (0 : ℤ) (fun c => if c 0 = c 1 then [5] else [])
      (exampleOrder .all) (fun _ => { (SelState.new false 15 : SelState ℤ) with nmax := 2 }) =
        some st' ∧ (st' 0).sites = [12, 6] ∧ (st' 0).overflow = 1 ∧ (st' 1).sites = [] := by
  refine ⟨_, rfl, ?_, ?_, ?_⟩ <;> decide +kernel

example : InBounds exampleLayout true (fun c => if c 0 = c 1 then [5, 6] else [])
    (exampleOrder .all) := by
  right; right
  rw [exampleLayout_numNodes]
  decide +kernel

/-- **C13, counterexample.** The body selects site 0 with value 1 and then again with value 2; the
value returned is 1. (One rank with two sites.) -/
theorem C13_not_updated :
    (SelState.loop [(0, [1, 2])] ((SelState.new true 2 : SelState ℤ).setup 0 2)).map
      (fun s => ((s.endloop 0).sites, (s.endloop 0).values)) = some ([0], [1]) := by
  decide +kernel

/-- **C13, counterexample.** All sites of a rank are selected and the last one twice: the second
value is written one past the end of the vector. -/
theorem C13_not_in_bounds :
    SelState.loop [(0, [1]), (1, [2, 3])] ((SelState.new true 2 : SelState ℤ).setup 0 2) = none := by
  decide +kernel

end Hila
