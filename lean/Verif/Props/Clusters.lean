import Verif.Lemmas.Classify
import Verif.Props.SiteSelect
import Mathlib.Data.Set.Card
import Mathlib.Tactic.IntervalCases

/-!
# C16: cluster labels identify connected components

A type field gives each site a number 0…254 or the background value 255. The loops over the sites run
in any order, and a read of a neighbour sees either the value before the loop or the current value
(`RelabelSchedule`); the passes may all have different schedules.
-/

namespace Hila

variable {n : ℕ}

/-- Two sites are in the same cluster: there is a path of periodic nearest neighbours, all of the
same type, from one to the other. -/
def SameCluster (L : Site n) (type : Site n → ℕ) : Site n → Site n → Prop :=
  Relation.ReflTransGen fun a b => (∃ d, IsPeriodicNeighbour L d a b) ∧ type a = type b

theorem sameCluster_iff (lay : Layout n) (hw : lay.WF) (type : Site n → ℕ) (a b : Site n) :
    SameCluster lay.L type a b ↔ Conn lay type a b := by
  unfold SameCluster Conn
  have : (fun a b => (∃ d, IsPeriodicNeighbour lay.L d a b) ∧ type a = type b) =
      SameTypeStep lay type := by
    funext a b
    unfold SameTypeStep
    simp only [C03_neighbour_is_periodic lay hw]
  rw [this]

/-- The labels when `make_labels` ends after pass `k`. -/
def finalLabels (lay : Layout n) (sch : ℕ → RelabelSchedule n) (type : Site n → ℕ) (k : ℕ) :
    Site n → ℕ := relabelIter lay sch (initLabels lay.L type) (k + 1)

theorem initLabels_type (lay : Layout n) (type : Site n → ℕ)
    (htype : ∀ c, lay.InLattice c → type c ≤ 255) (hvol : ∏ d, lay.L d ≤ 18014398509481984)
    (c : Site n) (hc : lay.InLattice c) : clLabelType (initLabels lay.L type c) = type c := by
  have := htype c hc
  have hi := (C12_site_index lay.L c hc).2.1
  exact clLabelType_set _ _ _ (by omega) (by omega)

/-- **C16 (termination).** Whatever the schedules, labelling ends. -/
theorem C16_labelling_ends (lay : Layout n) (type : Site n → ℕ)
    (sch : ℕ → RelabelSchedule n) (ho : ∀ k, (sch k).Ok lay) :
    ∃ k, RelabelEnds lay sch (initLabels lay.L type) k := by
  set init := initLabels lay.L type
  by_cases hex : ∃ k, (relabelPass lay (sch k) (relabelIter lay sch init k)).2 = 0
  · classical
    refine ⟨Nat.find hex, fun j hj => ?_, Nat.find_spec hex⟩
    exact Nat.pos_of_ne_zero (Nat.find_min hex hj)
  · exfalso
    push Not at hex
    have key : ∀ k, (∑ c ∈ latticeSites lay.L, relabelIter lay sch init k c) + k ≤
        ∑ c ∈ latticeSites lay.L, init c := by
      intro k
      induction k with
      | zero => exact le_refl _
      | succ k ih =>
        have hp := relabelPass_progress (ho k) (relabelIter lay sch init k)
        obtain ⟨h1, h2⟩ := hp
        rcases h2 with h | ⟨_, c, hc, hl⟩
        · exact absurd (congrArg Prod.snd h) (hex k)
        · have : ∑ c ∈ latticeSites lay.L, relabelIter lay sch init (k + 1) c <
              ∑ c ∈ latticeSites lay.L, relabelIter lay sch init k c :=
            Finset.sum_lt_sum (fun c _ => h1 c) ⟨c, (mem_latticeSites _ _).2 hc, hl⟩
          omega
    have := key (∑ c ∈ latticeSites lay.L, init c + 1)
    omega

section
variable (lay : Layout n) (hw : lay.WF) (type : Site n → ℕ)
  (htype : ∀ c, lay.InLattice c → type c ≤ 255) (hvol : ∏ d, lay.L d ≤ 18014398509481984)
  (sch : ℕ → RelabelSchedule n) (ho : ∀ k, (sch k).Ok lay) (k : ℕ)
  (hk : RelabelEnds lay sch (initLabels lay.L type) k)

include ho hk in
theorem finalLabels_eq : finalLabels lay sch type k = relabelIter lay sch (initLabels lay.L type) k :=
  (relabelPass_quiet (ho k) _ hk.2).1

include hw htype hvol ho hk in
/-- **C16 (labels).** When labelling has ended, two sites have the same label if and only if both are
background or they are in the same cluster, and the type read back from a label is the type of the
site. -/
theorem C16_same_label_iff_connected (a b : Site n) (ha : lay.InLattice a) (hb : lay.InLattice b) :
    (finalLabels lay sch type k a = finalLabels lay sch type k b ↔
      (type a = 255 ∧ type b = 255) ∨ SameCluster lay.L type a b) ∧
    clLabelType (finalLabels lay sch type k a) = type a := by
  have hinit := initLabels_type lay type htype hvol
  rw [sameCluster_iff lay hw, finalLabels_eq lay type sch ho k hk]
  have inv := relabelIter_inv hw hinit ho k
  have hq := (relabelPass_quiet (ho k) _ hk.2).2
  set cur := relabelIter lay sch (initLabels lay.L type) k with hcur
  have htc : ∀ c, lay.InLattice c → clLabelType (cur c) = type c := fun c hc =>
    inv.type_eq hw hinit hc
  refine ⟨?_, htc a ha⟩
  obtain ⟨⟨e, e1, e2⟩, _⟩ := inv a ha
  obtain ⟨⟨f, f1, f2⟩, _⟩ := inv b hb
  have he := Conn.inLattice hw e1 ha
  have hf := Conn.inLattice hw f1 hb
  have te := Conn.type_eq e1
  have tf := Conn.type_eq f1
  constructor
  · intro h
    have tab : type a = type b := by rw [← htc a ha, ← htc b hb, h]
    by_cases hbg : type a = 255
    · exact .inl ⟨hbg, tab ▸ hbg⟩
    · right
      rw [e2, f2] at h
      unfold initLabels at h
      have ie := (C12_site_index lay.L e he).2.1
      have jf := (C12_site_index lay.L f hf).2.1
      rw [← te, ← tf, ← tab, setClLabel_eq _ _ _ hbg (by omega), setClLabel_eq _ _ _ hbg (by omega)] at h
      have hef : e = f := by
        have h' : siteIndexValue lay.L e = siteIndexValue lay.L f := by omega
        rw [← (C12_site_index lay.L e he).1, h', (C12_site_index lay.L f hf).1]
      subst hef
      exact e1.trans (Conn.symm hw f1 hb)
  · rintro (⟨h1, h2⟩ | h)
    · rw [e2, f2]
      unfold initLabels
      rw [← te, ← tf, h1, h2, setClLabel_bg, setClLabel_bg]
    · by_cases hbg : type a = 255
      · have h2 : type b = 255 := (Conn.type_eq h) ▸ hbg
        rw [e2, f2]
        unfold initLabels
        rw [← te, ← tf, hbg, h2, setClLabel_bg, setClLabel_bg]
      · exact conn_label_eq hw htc hq ha hbg h

include hw htype hvol ho hk in
/-- **C16 (the label).** The label of a site is the smallest of the initial labels in its cluster:
`(type, site index)` of one of its sites, and of no larger index than that of any other. -/
theorem C16_label_is_smallest (a : Site n) (ha : lay.InLattice a) (hbg : type a ≠ 255) :
    (∃ e, SameCluster lay.L type a e ∧
      finalLabels lay sch type k a = siteIndexValue lay.L e + type a * 18014398509481984) ∧
    ∀ b, SameCluster lay.L type a b →
      finalLabels lay sch type k a ≤ siteIndexValue lay.L b + type a * 18014398509481984 := by
  have hinit := initLabels_type lay type htype hvol
  have inv := relabelIter_inv hw hinit ho k
  have eqv : ∀ e, Conn lay type a e → initLabels lay.L type e =
      siteIndexValue lay.L e + type a * 18014398509481984 := by
    intro e he
    have hi := (C12_site_index lay.L e (Conn.inLattice hw he ha)).2.1
    unfold initLabels
    rw [← Conn.type_eq he, setClLabel_eq _ _ _ hbg (by omega)]
  constructor
  · obtain ⟨⟨e, e1, e2⟩, _⟩ := inv a ha
    refine ⟨e, (sameCluster_iff lay hw type a e).2 e1, ?_⟩
    rw [finalLabels_eq lay type sch ho k hk, e2, eqv e e1]
  · intro b hb
    have hb' := (sameCluster_iff lay hw type a b).1 hb
    have hbl := Conn.inLattice hw hb' ha
    have := (C16_same_label_iff_connected lay hw type htype hvol sch ho k hk a b ha hbl).1.2 (.inr hb)
    rw [this, ← eqv b hb', finalLabels_eq lay type sch ho k hk]
    exact (inv b hbl).2

end

/-! ### The list of clusters -/

/-- Storage of the lattice: `store r` lists the sites of rank `r` in the order of its buffer. The
number of occurrences of a label in the buffers is the number of sites with it. -/
theorem sum_count_eq (lay : Layout n) (hw : lay.WF) (store : ℕ → List (Site n))
    (hs : Order lay .all store) (labels : Site n → ℕ) (x : ℕ) :
    ((List.range lay.numNodes).map fun r => ((store r).map labels).count x).sum =
      ((latticeSites lay.L).filter fun c => labels c = x).card := by
  obtain ⟨h1, h2⟩ := mem_selectedSites lay hw .all (fun _ => [()]) store hs
  set S := selectedSites lay (fun _ => [()]) store with hS
  have e1 : S = (List.range lay.numNodes).flatMap store := by
    rw [hS]; unfold selectedSites
    congr 1; funext r
    exact List.filter_eq_self.2 (fun _ _ => rfl)
  have e2 : ((latticeSites lay.L).filter fun c => labels c = x) =
      (S.filter fun c => labels c = x).toFinset := by
    ext c
    rw [List.mem_toFinset, List.mem_filter, h2, Finset.mem_filter, mem_latticeSites]
    have : Visits .all c := .inl rfl
    simp [Visited, Layout.InLattice, this]
  rw [e2, List.toFinset_card_of_nodup (h1.filter _), e1]
  generalize List.range lay.numNodes = l
  induction l with
  | nil => rfl
  | cons r l ih =>
    rw [List.map_cons, List.sum_cons, ih, List.flatMap_cons, List.filter_append, List.length_append]
    congr 1
    rw [List.count_eq_countP, List.countP_map, List.countP_eq_length_filter]
    rfl

section
variable (lay : Layout n) (hw : lay.WF) (hN : 0 < lay.numNodes) (type : Site n → ℕ)
  (htype : ∀ c, lay.InLattice c → type c ≤ 255) (hvol : ∏ d, lay.L d ≤ 18014398509481984)
  (sch : ℕ → RelabelSchedule n) (ho : ∀ k, (sch k).Ok lay) (k : ℕ)
  (hk : RelabelEnds lay sch (initLabels lay.L type) k)
  (store : ℕ → List (Site n)) (hs : Order lay .all store)

/-- The cluster list of a rank after `find`: `classify` of the final labels. -/
def clusterList (rank : ℕ) : List (ℕ × ℕ) :=
  classify lay.numNodes (fun r => (store r).map (finalLabels lay sch type k)) rank

/-- The sites of the cluster of `c`. -/
noncomputable def clusterSites (L : Site n) (type : Site n → ℕ) (c : Site n) : Finset (Site n) :=
  open Classical in (latticeSites L).filter fun e => SameCluster L type c e

include hw htype hvol ho hk hN hs in
theorem clusterList_ok (rank : ℕ) :
    ClistOk (clusterList lay type sch k store rank) ∧
    ∀ x, cntOf (clusterList lay type sch k store rank) x = if clLabelType x = 255 then 0 else
      ((latticeSites lay.L).filter fun c => finalLabels lay sch type k c = x).card := by
  have key := classify_spec lay.numNodes hN (fun r => (store r).map (finalLabels lay sch type k)) ?_ rank
  · refine ⟨key.1, fun x => ?_⟩
    rw [← sum_count_eq lay hw store hs]
    exact key.2 x
  · intro r hr x hx
    obtain ⟨c, hc, rfl⟩ := List.mem_map.1 hx
    have hcl := (((hs r hr).2 c).1 hc).1.1
    have hinit := initLabels_type lay type htype hvol
    rw [finalLabels_eq lay type sch ho k hk]
    have h1 := (relabelIter_inv hw hinit ho k c hcl).2
    have h2 : initLabels lay.L type c < 4611686018427387904 := by
      have := htype c hcl
      have := (C12_site_index lay.L c hcl).2.1
      unfold initLabels
      by_cases hbg : type c = 255
      · rw [hbg, setClLabel_bg]; norm_num
      · rw [setClLabel_eq _ _ _ hbg (by omega)]; omega
    omega

include hw htype hvol ho hk in
theorem filter_label_eq (c : Site n) (hc : lay.InLattice c) (hbg : type c ≠ 255) :
    ((latticeSites lay.L).filter fun e => finalLabels lay sch type k e = finalLabels lay sch type k c) =
      clusterSites lay.L type c := by
  classical
  unfold clusterSites
  ext e
  rw [Finset.mem_filter, Finset.mem_filter]
  refine and_congr_right fun he => ?_
  have := (C16_same_label_iff_connected lay hw type htype hvol sch ho k hk c e hc
    ((mem_latticeSites _ _).1 he)).1
  rw [eq_comm, this]
  simp [hbg]

include hw htype hvol ho hk hN hs in
/-- **C16 (cluster list).** On every rank: the labels in the cluster list are distinct and increasing;
each entry is the label, the type and the number of sites of the cluster of some site that is not
background; and every such site has its cluster in the list. -/
theorem C16_cluster_list (rank : ℕ) :
    (clusterList lay type sch k store rank).Pairwise (fun p q => p.1 < q.1) ∧
    (∀ p ∈ clusterList lay type sch k store rank, ∃ c, lay.InLattice c ∧ type c ≠ 255 ∧
      finalLabels lay sch type k c = p.1 ∧ clLabelType p.1 = type c ∧
      p.2 = (clusterSites lay.L type c).card) ∧
    (∀ c, lay.InLattice c → type c ≠ 255 →
      (finalLabels lay sch type k c, (clusterSites lay.L type c).card) ∈
        clusterList lay type sch k store rank) := by
  obtain ⟨h1, h2⟩ := clusterList_ok lay hw hN type htype hvol sch ho k hk store hs rank
  have lt := fun c hc => (C16_same_label_iff_connected lay hw type htype hvol sch ho k hk c c hc hc).2
  refine ⟨h1.1, ?_, ?_⟩
  · rintro ⟨x, s⟩ hp
    obtain ⟨e, hpos⟩ := (h1.mem_iff x s).1 hp
    rw [h2 x] at e
    by_cases hx : clLabelType x = 255
    · rw [if_pos hx] at e; omega
    · rw [if_neg hx] at e
      have hne : ((latticeSites lay.L).filter fun c => finalLabels lay sch type k c = x).Nonempty := by
        rw [← Finset.card_pos]; omega
      obtain ⟨c, hc⟩ := hne
      obtain ⟨hc1, hc2⟩ := Finset.mem_filter.1 hc
      have hcl : lay.InLattice c := (mem_latticeSites _ _).1 hc1
      have ht := lt c hcl
      rw [hc2] at ht
      refine ⟨c, hcl, by rw [← ht]; exact hx, hc2, ht, ?_⟩
      rw [← filter_label_eq lay hw type htype hvol sch ho k hk c hcl (by rw [← ht]; exact hx), hc2]
      exact e.symm
  · intro c hc hbg
    rw [h1.mem_iff, h2, lt c hc, if_neg hbg,
      filter_label_eq lay hw type htype hvol sch ho k hk c hc hbg]
    refine ⟨rfl, Finset.card_pos.2 ⟨c, ?_⟩⟩
    classical
    unfold clusterSites
    exact Finset.mem_filter.2 ⟨(mem_latticeSites _ _).2 hc, Relation.ReflTransGen.refl⟩

include hw htype hvol ho hk hN hs in
/-- **C16 (number of clusters).** `number()` is the number of connected components. -/
theorem C16_number_of_clusters (rank : ℕ) :
    (clusterList lay type sch k store rank).length =
      {S : Finset (Site n) | ∃ c, lay.InLattice c ∧ type c ≠ 255 ∧
        S = clusterSites lay.L type c}.ncard := by
  classical
  obtain ⟨h1, h2, h3⟩ := C16_cluster_list lay hw hN type htype hvol sch ho k hk store hs rank
  set cl := clusterList lay type sch k store rank with hcl
  let f : ℕ × ℕ → Finset (Site n) := fun p =>
    (latticeSites lay.L).filter fun e => finalLabels lay sch type k e = p.1
  have hset : {S : Finset (Site n) | ∃ c, lay.InLattice c ∧ type c ≠ 255 ∧
      S = clusterSites lay.L type c} = f '' (cl.toFinset : Set (ℕ × ℕ)) := by
    ext S
    constructor
    · rintro ⟨c, hc, hbg, rfl⟩
      refine ⟨_, by simpa using h3 c hc hbg, ?_⟩
      exact filter_label_eq lay hw type htype hvol sch ho k hk c hc hbg
    · rintro ⟨p, hp, rfl⟩
      obtain ⟨c, hc, hbg, e1, _, _⟩ := h2 p (by simpa using hp)
      refine ⟨c, hc, hbg, ?_⟩
      rw [← filter_label_eq lay hw type htype hvol sch ho k hk c hc hbg, e1]
  have hnd : cl.Nodup := h1.imp (fun {p q} h he => by subst he; exact lt_irrefl _ h)
  rw [hset, Set.InjOn.ncard_image, Set.ncard_coe_finset, List.toFinset_card_of_nodup hnd]
  intro p hp q hq hpq
  obtain ⟨c, hc, _, e1, _, e2⟩ := h2 p (by simpa using hp)
  obtain ⟨d, hd, hbg, e3, _, e4⟩ := h2 q (by simpa using hq)
  have hmem : c ∈ f p := Finset.mem_filter.2 ⟨(mem_latticeSites _ _).2 hc, e1⟩
  rw [hpq] at hmem
  have e5 : p.1 = q.1 := by rw [← e1]; exact (Finset.mem_filter.1 hmem).2
  have hok := (clusterList_ok lay hw hN type htype hvol sch ho k hk store hs rank).1
  obtain ⟨x, s⟩ := p
  obtain ⟨y, t⟩ := q
  dsimp only at e5
  subst e5
  have m1 := ((hok.mem_iff x s).1 (by simpa using hp)).1
  have m2 := ((hok.mem_iff x t).1 (by simpa using hq)).1
  rw [← m1, m2]

include hw htype hvol ho hk hN in
/-- **C16 (`sites()`).** The site list of the cluster of `c`, made by a selection loop over the sites
with the label of `c`, is the list of the sites of that cluster, each once, on rank 0. -/
theorem C16_sites (order : ℕ → List (Site n)) (hord : Order lay .all order)
    (c : Site n) (hc : lay.InLattice c) (hbg : type c ≠ 255) :
    ∃ st', selectRun lay () (fun x => if finalLabels lay sch type k x = finalLabels lay sch type k c
        then [()] else []) order (fun _ => SelState.new false (∏ d, lay.L d)) = some st' ∧
      ((st' 0).sites.map (siteIndexCoordinates lay.L)).Nodup ∧
      ∀ e, e ∈ (st' 0).sites.map (siteIndexCoordinates lay.L) ↔ e ∈ clusterSites lay.L type c := by
  obtain ⟨st', h1, h2, h3, _, _, h6, h7⟩ := C12_joined_selection lay hw .all ()
    (fun x => if finalLabels lay sch type k x = finalLabels lay sch type k c then [()] else [])
    order hord hN (∏ d, lay.L d) (fun _ => SelState.new false (∏ d, lay.L d))
    (fun r => ⟨rfl, rfl, rfl⟩)
  have hlen : (selectedSites lay (fun x => if finalLabels lay sch type k x =
      finalLabels lay sch type k c then [()] else []) order).length ≤ ∏ d, lay.L d := by
    rw [← List.toFinset_card_of_nodup h6]
    have hcard : (latticeSites lay.L).card = ∏ d, lay.L d := by simp [latticeSites]
    rw [← hcard]
    apply Finset.card_le_card
    intro e he
    exact (mem_latticeSites _ _).2 ((h7 e).1 (by simpa using he)).1.1
  rw [List.take_of_length_le hlen] at h2
  refine ⟨st', h1, by rw [h2]; exact h6, ?_⟩
  intro e
  rw [h2, h7, ← filter_label_eq lay hw type htype hvol sch ho k hk c hc hbg, Finset.mem_filter,
    mem_latticeSites]
  have : Visits .all e := .inl rfl
  by_cases h : finalLabels lay sch type k e = finalLabels lay sch type k c <;>
    simp [Visited, Layout.InLattice, h, this]

theorem foldl_count {A : Type*} (l : List A) (p : A → Prop) [DecidablePred p] (a : ℕ) :
    l.foldl (fun a x => if p x then a + 1 else a) a = a + (l.filter p).length := by
  induction l generalizing a with
  | nil => rfl
  | cons x l ih =>
    rw [List.foldl_cons, ih, List.filter_cons]
    by_cases h : p x <;> simp [h]; omega

theorem foldl_area {A : Type*} (l : List A) (p : A → Prop) [DecidablePred p] (g : A → ℕ) (a : ℕ) :
    l.foldl (fun a x => if p x then a + g x else a) a = a + ((l.filter p).map g).sum := by
  induction l generalizing a with
  | nil => rfl
  | cons x l ih =>
    rw [List.foldl_cons, ih, List.filter_cons]
    by_cases h : p x <;> simp [h]; omega

include hw htype hvol ho hk in
/-- **C16 (`area()`).** The area of the cluster of `c` is the number of its links to sites outside
the cluster: pairs of a site of the cluster and a direction in which the neighbour is not in it. -/
theorem C16_area (order : ℕ → List (Site n)) (hord : Order lay .all order)
    (c : Site n) (hc : lay.InLattice c) (hbg : type c ≠ 255) :
    clusterArea lay lay.numNodes order (finalLabels lay sch type k) (finalLabels lay sch type k c) =
      ∑ e ∈ clusterSites lay.L type c,
        {d : Dir n | ¬ ∃ f ∈ clusterSites lay.L type c, IsPeriodicNeighbour lay.L d e f}.ncard := by
  classical
  set la := finalLabels lay sch type k with hla
  have hfil := filter_label_eq lay hw type htype hvol sch ho k hk c hc hbg
  rw [← hla] at hfil
  obtain ⟨h1, h2⟩ := mem_selectedSites lay hw .all (fun _ => [()]) order hord
  set S := selectedSites lay (fun _ => [()]) order with hS
  have e1 : S = (List.range lay.numNodes).flatMap order := by
    rw [hS]; unfold selectedSites
    congr 1; funext r
    exact List.filter_eq_self.2 (fun _ _ => rfl)
  let g : Site n → ℕ := fun e =>
    ((List.finRange (2 * n)).filter fun d => la (lay.neighbour e d) ≠ la c).length
  have harea : clusterArea lay lay.numNodes order la (la c) =
      ((S.filter fun e => la e = la c).map g).sum := by
    unfold clusterArea
    simp only [foldl_count, ne_eq]
    rw [e1]
    generalize List.range lay.numNodes = l
    induction l with
    | nil => rfl
    | cons r l ih =>
      rw [List.map_cons, List.sum_cons, ih, List.flatMap_cons, List.filter_append, List.map_append,
        List.sum_append]
      congr 1
      exact (foldl_area (order r) (fun e => la e = la c) g 0).trans (Nat.zero_add _)
  have hset : clusterSites lay.L type c = (S.filter fun e => la e = la c).toFinset := by
    rw [← hfil]
    ext e
    rw [List.mem_toFinset, List.mem_filter, h2, Finset.mem_filter, mem_latticeSites]
    have : Visits .all e := .inl rfl
    simp [Visited, Layout.InLattice, this]
  rw [harea, show (∑ e ∈ clusterSites lay.L type c, _) = _ from
    Finset.sum_congr rfl (g := fun e => g e) ?_, hset, List.sum_toFinset _ (h1.filter _)]
  intro e he
  have hel : lay.InLattice e := by
    rw [← hfil] at he
    exact (mem_latticeSites _ _).1 (Finset.mem_filter.1 he).1
  have hs' : {d : Dir n | ¬ ∃ f ∈ clusterSites lay.L type c, IsPeriodicNeighbour lay.L d e f} =
      (((List.finRange (2 * n)).filter fun d => la (lay.neighbour e d) ≠ la c).toFinset : Set (Dir n)) := by
    ext d
    simp only [Set.mem_ofPred_eq, C03_neighbour_is_periodic lay hw, exists_eq_right,
      List.coe_toFinset, List.mem_filter, List.mem_finRange, true_and, decide_eq_true_eq]
    rw [← hfil, Finset.mem_filter, mem_latticeSites]
    have := neighbour_inLattice lay hw e hel d
    exact not_congr ⟨fun h => h.2, fun h => ⟨this, h⟩⟩
  rw [hs', Set.ncard_coe_finset,
    List.toFinset_card_of_nodup ((List.nodup_finRange _).filter _)]

end

/-! ### Example -/

/-- A ring of five sites on two ranks. -/
def ringLayout : Layout 1 where
  L := ![5]
  ndiv := ![2]
  remap := id
  invRemap := id

theorem ringLayout_numNodes : ringLayout.numNodes = 2 := by
  simp [Layout.numNodes, ringLayout]

theorem ringLayout_wf : ringLayout.WF where
  L_pos := by decide
  ndiv_pos := by decide
  remap_lt := fun _ hi => hi
  inv_lt := fun _ hi => hi
  remap_inv := fun _ _ => rfl
  inv_remap := fun _ _ => rfl

/-- The sites of the ring. -/
def ringSites : List (Site 1) := [![0], ![1], ![2], ![3], ![4]]

theorem mem_ringSites (c : Site 1) : c ∈ ringSites ↔ ringLayout.InLattice c := by
  have hL : ringLayout.L 0 = 5 := rfl
  constructor
  · intro h d
    have hd : d = 0 := Subsingleton.elim _ _
    subst hd
    rw [hL]
    simp only [ringSites, List.mem_cons, List.not_mem_nil, or_false] at h
    rcases h with rfl | rfl | rfl | rfl | rfl <;> simp
  · intro h
    have h0 := h 0
    rw [hL] at h0
    have hc : c = ![c 0] := by
      funext d
      have hd : d = 0 := Subsingleton.elim _ _
      subst hd; rfl
    rw [hc]
    generalize c 0 = x at h0
    interval_cases x <;> simp [ringSites]

/-- Types on the ring: sites 4, 0, 1 have type 3, site 2 is background, site 3 has type 0. -/
def ringTypes (c : Site 1) : ℕ := if c 0 = 2 then 255 else if c 0 = 3 then 0 else 3

/-- A schedule that runs backwards; the reads of the first loop see the old values. -/
def ringSchedule : RelabelSchedule 1 where
  evenOrder := (ringSites.filter fun c => c.parity = .even).reverse
  evenOld := fun _ _ => true
  oddOrder := (ringSites.filter fun c => c.parity = .odd).reverse
  oddOld := fun _ _ => false

theorem ringSchedule_ok : ringSchedule.Ok ringLayout := by
  constructor <;> intro c <;> simp [ringSchedule, mem_ringSites]

/-- The storage order on the ring. -/
def ringOrder (r : ℕ) : List (Site 1) := ringSites.filter fun c => ringLayout.nodeRank c = r

theorem ringOrder_ok : Order ringLayout .all ringOrder := by
  intro r _
  constructor
  · unfold ringOrder
    apply List.Nodup.filter
    decide +kernel
  · intro c
    unfold ringOrder Visited
    rw [List.mem_filter, mem_ringSites]
    have : Visits .all c := .inl rfl
    simp [this]

/-- The hypotheses of the theorems are met on the ring; labelling changes labels, and it ends. -/
example : ringLayout.WF ∧ 0 < ringLayout.numNodes ∧
    (∀ c, ringLayout.InLattice c → ringTypes c ≤ 255) ∧
    ∏ d, ringLayout.L d ≤ 18014398509481984 ∧ ringSchedule.Ok ringLayout ∧
    Order ringLayout .all ringOrder ∧
    (∃ k, RelabelEnds ringLayout (fun _ => ringSchedule) (initLabels ringLayout.L ringTypes) k) ∧
    (relabelLoop ringLayout ringSchedule.evenOrder ringSchedule.evenOld
      (initLabels ringLayout.L ringTypes, 0)).2 = 1 := by
  refine ⟨ringLayout_wf, by rw [ringLayout_numNodes]; omega, fun c _ => ?_, by decide,
    ringSchedule_ok, ringOrder_ok, C16_labelling_ends _ _ _ fun _ => ringSchedule_ok,
    by decide +kernel⟩
  unfold ringTypes
  split
  · omega
  · split <;> omega

theorem ring_neighbour (a b : ℕ) (d : Dir 1)
    (h : ((b : ℤ) < 5 ∧ (5 : ℤ) ∣ ((a : ℤ) + CV.ofDir d 0) - b)) :
    IsPeriodicNeighbour ringLayout.L d ![a] ![b] := by
  intro e
  have he : e = 0 := Subsingleton.elim _ _
  subst he
  exact ⟨by exact_mod_cast h.1, h.2⟩

/-- On the ring, sites 4 and 1 are in the same cluster (through site 0), so they get the same label,
whenever labelling ends. -/
example (k : ℕ) (hk : RelabelEnds ringLayout (fun _ => ringSchedule)
      (initLabels ringLayout.L ringTypes) k) :
    finalLabels ringLayout (fun _ => ringSchedule) ringTypes k ![4] =
      finalLabels ringLayout (fun _ => ringSchedule) ringTypes k ![1] := by
  have ht : ∀ c, ringLayout.InLattice c → ringTypes c ≤ 255 := by
    intro c _
    unfold ringTypes
    split
    · omega
    · split <;> omega
  refine (C16_same_label_iff_connected ringLayout ringLayout_wf ringTypes ht (by decide) _
    (fun _ => ringSchedule_ok) k hk _ _ (by unfold Layout.InLattice; decide)
    (by unfold Layout.InLattice; decide)).1.2 (.inr ?_)
  exact Relation.ReflTransGen.head (b := ![0]) ⟨⟨0, ring_neighbour 4 0 0 (by decide)⟩, by decide⟩
    (Relation.ReflTransGen.single ⟨⟨0, ring_neighbour 0 1 0 (by decide)⟩, by decide⟩)

/-! ### C43: clusters from links -/

/-- Site `a` and its neighbour `b` in a positive direction are joined by a link. -/
def Linked (L : Site n) (link : Fin n → Site n → ℕ) (a b : Site n) : Prop :=
  ∃ d : Fin n, IsPeriodicNeighbour L (upDir d) a b ∧ link d a ≠ 0

theorem foldl_flag {A : Type*} (l : List A) (p : A → Prop) [DecidablePred p] (x y : ℕ) :
    l.foldl (fun f d => if p d then y else f) x = if ∃ d ∈ l, p d then y else x := by
  induction l generalizing x with
  | nil => simp
  | cons a l ih =>
    rw [List.foldl_cons, ih]
    by_cases h1 : ∃ d ∈ l, p d
    · rw [if_pos h1, if_pos (by obtain ⟨d, hd, h⟩ := h1; exact ⟨d, List.mem_cons_of_mem _ hd, h⟩)]
    · by_cases h2 : p a
      · rw [if_neg h1, if_pos h2, if_pos ⟨a, List.mem_cons_self, h2⟩]
      · rw [if_neg h1, if_neg h2, if_neg]
        rintro ⟨d, hd, h⟩
        rcases List.mem_cons.1 hd with rfl | hd
        · exact h2 h
        · exact h1 ⟨d, hd, h⟩

theorem linkTypes_eq (lay : Layout n) (hw : lay.WF) (link : Fin n → Site n → ℕ) (c : Site n)
    (hc : lay.InLattice c) :
    linkTypes lay link c = 1 ∧ (∃ e, Linked lay.L link c e ∨ (lay.InLattice e ∧ Linked lay.L link e c)) ∨
    linkTypes lay link c = 255 ∧
      ¬ ∃ e, Linked lay.L link c e ∨ (lay.InLattice e ∧ Linked lay.L link e c) := by
  unfold linkTypes
  rw [foldl_flag]
  have key : (∃ d ∈ List.finRange n, link d c ≠ 0 ∨ link d (lay.neighbour c (oppDir (upDir d))) ≠ 0) ↔
      ∃ e, Linked lay.L link c e ∨ (lay.InLattice e ∧ Linked lay.L link e c) := by
    constructor
    · rintro ⟨d, _, h | h⟩
      · exact ⟨lay.neighbour c (upDir d), .inl ⟨d, (C03_neighbour_is_periodic lay hw _ _ _).2 rfl, h⟩⟩
      · refine ⟨lay.neighbour c (oppDir (upDir d)),
          .inr ⟨neighbour_inLattice lay hw c hc _, d, (C03_neighbour_is_periodic lay hw _ _ _).2 ?_, h⟩⟩
        have := neighbour_back lay hw c hc (oppDir (upDir d))
        rw [oppDir_oppDir] at this
        exact this.symm
    · rintro ⟨e, ⟨d, h1, h2⟩ | ⟨he, d, h1, h2⟩⟩
      · exact ⟨d, List.mem_finRange d, .inl h2⟩
      · refine ⟨d, List.mem_finRange d, .inr ?_⟩
        rw [(C03_neighbour_is_periodic lay hw _ _ _).1 h1, neighbour_back lay hw e he]
        exact h2
  by_cases h : ∃ d ∈ List.finRange n, link d c ≠ 0 ∨ link d (lay.neighbour c (oppDir (upDir d))) ≠ 0
  · left; rw [if_pos h]; exact ⟨rfl, key.1 h⟩
  · right; rw [if_neg h]; exact ⟨rfl, fun h' => h (key.2 h')⟩

/-- **C43 (partial).** Sites joined by a path of links get the same label, and a site that touches no
link is background. Missing: sites with the same label need not be joined by links, see
`C43_unlinked_sites_merged`. -/
theorem C43_linked_sites_same_label_partial (lay : Layout n) (hw : lay.WF)
    (link : Fin n → Site n → ℕ) (hvol : ∏ d, lay.L d ≤ 18014398509481984)
    (sch : ℕ → RelabelSchedule n) (ho : ∀ k, (sch k).Ok lay) (k : ℕ)
    (hk : RelabelEnds lay sch (initLabels lay.L (linkTypes lay link)) k) (a b : Site n)
    (ha : lay.InLattice a) (hb : lay.InLattice b) :
    (Relation.ReflTransGen (fun x y => lay.InLattice x ∧ lay.InLattice y ∧
        (Linked lay.L link x y ∨ Linked lay.L link y x)) a b →
      finalLabels lay sch (linkTypes lay link) k a = finalLabels lay sch (linkTypes lay link) k b) ∧
    (clLabelType (finalLabels lay sch (linkTypes lay link) k a) = 255 ↔
      ¬ ∃ e, lay.InLattice e ∧ (Linked lay.L link a e ∨ Linked lay.L link e a)) := by
  have hle : ∀ c, lay.InLattice c → linkTypes lay link c ≤ 255 := by
    intro c hc
    rcases linkTypes_eq lay hw link c hc with ⟨h, _⟩ | ⟨h, _⟩ <;> omega
  have main := C16_same_label_iff_connected lay hw _ hle hvol sch ho k hk
  constructor
  · intro h
    refine (main a b ha hb).1.2 (.inr ?_)
    refine Relation.ReflTransGen.mono ?_ a b h
    rintro x y ⟨hx, hy, hl⟩
    have tx : linkTypes lay link x = 1 := by
      rcases linkTypes_eq lay hw link x hx with ⟨h, _⟩ | ⟨_, h⟩
      · exact h
      · exact absurd ⟨y, hl.imp id fun h => ⟨hy, h⟩⟩ h
    have ty : linkTypes lay link y = 1 := by
      rcases linkTypes_eq lay hw link y hy with ⟨h, _⟩ | ⟨_, h⟩
      · exact h
      · exact absurd ⟨x, hl.symm.imp id fun h => ⟨hx, h⟩⟩ h
    refine ⟨?_, by rw [tx, ty]⟩
    rcases hl with ⟨d, h1, _⟩ | ⟨d, h1, _⟩
    · exact ⟨_, h1⟩
    · refine ⟨oppDir (upDir d), (C03_neighbour_is_periodic lay hw _ _ _).2 ?_⟩
      rw [(C03_neighbour_is_periodic lay hw _ _ _).1 h1, neighbour_back lay hw y hy]
  · rw [(main a a ha ha).2]
    have fwd : ∀ e, Linked lay.L link a e → lay.InLattice e := by
      rintro e ⟨d, h, _⟩ i
      exact (h i).1
    rcases linkTypes_eq lay hw link a ha with ⟨h, e, he⟩ | ⟨h, h'⟩
    · rw [h]
      refine ⟨fun h => by omega, fun hn => absurd ?_ hn⟩
      rcases he with he | ⟨hel, he⟩
      · exact ⟨e, fwd e he, .inl he⟩
      · exact ⟨e, hel, .inr he⟩
    · rw [h]
      refine ⟨fun _ => ?_, fun _ => rfl⟩
      rintro ⟨e, hel, he⟩
      exact h' ⟨e, he.imp id fun h => ⟨hel, h⟩⟩

/-- Links on the ring: 0–1 and 2–3; site 4 is free. -/
def ringLinks (_ : Fin 1) (c : Site 1) : ℕ := if c 0 = 0 ∨ c 0 = 2 then 1 else 0

theorem ring_linked {a b : Site 1} (hb : ringLayout.InLattice b) (ha : ringLayout.InLattice a)
    (h : Linked ringLayout.L ringLinks a b) : (a 0 = 0 ∧ b 0 = 1) ∨ (a 0 = 2 ∧ b 0 = 3) := by
  obtain ⟨d, h1, h2⟩ := h
  have hd : d = 0 := Subsingleton.elim _ _
  subst hd
  have h3 := (h1 0).2
  have ho : CV.ofDir (upDir (0 : Fin 1)) 0 = 1 := by decide
  rw [ho] at h3
  have hL : ringLayout.L 0 = 5 := rfl
  have ha0 := ha 0
  have hb0 := hb 0
  unfold ringLinks at h2
  rw [hL] at h3 ha0 hb0
  split at h2 <;> omega

/-- **C43, counterexample.** On a ring of five sites with links 0–1 and 2–3 only, sites 1 and 2 are
not joined by links but get the same label whenever labelling ends (and it does end). -/
theorem C43_unlinked_sites_merged :
    (∃ k, RelabelEnds ringLayout (fun _ => ringSchedule)
      (initLabels ringLayout.L (linkTypes ringLayout ringLinks)) k) ∧
    (∀ k, RelabelEnds ringLayout (fun _ => ringSchedule)
        (initLabels ringLayout.L (linkTypes ringLayout ringLinks)) k →
      finalLabels ringLayout (fun _ => ringSchedule) (linkTypes ringLayout ringLinks) k ![1] =
        finalLabels ringLayout (fun _ => ringSchedule) (linkTypes ringLayout ringLinks) k ![2]) ∧
    ¬ Relation.ReflTransGen (fun x y => ringLayout.InLattice x ∧ ringLayout.InLattice y ∧
        (Linked ringLayout.L ringLinks x y ∨ Linked ringLayout.L ringLinks y x)) ![1] ![2] := by
  refine ⟨C16_labelling_ends _ _ _ fun _ => ringSchedule_ok, ?_, ?_⟩
  · intro k hk
    have hle : ∀ c, ringLayout.InLattice c → linkTypes ringLayout ringLinks c ≤ 255 := by
      intro c hc
      rcases linkTypes_eq ringLayout ringLayout_wf ringLinks c hc with ⟨h, _⟩ | ⟨h, _⟩ <;> omega
    refine (C16_same_label_iff_connected ringLayout ringLayout_wf _ hle (by decide) _
      (fun _ => ringSchedule_ok) k hk _ _ (by unfold Layout.InLattice; decide)
      (by unfold Layout.InLattice; decide)).1.2 (.inr ?_)
    exact Relation.ReflTransGen.single
      ⟨⟨0, ring_neighbour 1 2 0 (by decide)⟩, by decide +kernel⟩
  · intro h
    have : (![2] : Site 1) 0 ≤ 1 := by
      refine Relation.ReflTransGen.head_induction_on (motive := fun x _ => (x 0 ≤ 1 → (![2] : Site 1) 0 ≤ 1))
        h (fun h => h) ?_ (by decide)
      rintro x y ⟨hx, hy, hl⟩ _ ih hx1
      apply ih
      rcases hl with hl | hl
      · have := ring_linked hy hx hl; omega
      · have := ring_linked hx hy hl; omega
    exact absurd this (by decide)

end Hila
