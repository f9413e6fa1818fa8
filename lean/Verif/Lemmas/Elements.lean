import Verif.Model.Elements
import Verif.Lemmas.GatherLink

/-! Lemmas on gathering and scattering lists of elements. -/

namespace Hila

open BigOperators

set_option linter.unusedSectionVars false

theorem sitesOnRank_aux (ranks : List ℕ) (s : ℕ → ℕ) (r : ℕ) :
    ranks.foldl (fun s r => Function.update s r (s r + 1)) s r = s r + ranks.count r := by
  induction ranks generalizing s with
  | nil => simp
  | cons a t ih =>
    rw [List.foldl_cons, ih, List.count_cons]
    by_cases h : a = r
    · subst h; simp; omega
    · rw [Function.update_of_ne (Ne.symm h)]; simp [h]

theorem sitesOnRank_eq (ranks : List ℕ) (r : ℕ) : sitesOnRank ranks r = ranks.count r := by
  unfold sitesOnRank; rw [sitesOnRank_aux]; simp

/-- Values with owner `r`, in order. -/
def ownedBy {V : Type} (r : ℕ) (items : List (ℕ × V)) : List V :=
  (items.filter fun p => p.1 = r).map (·.2)

theorem ownedBy_length {V : Type} (r : ℕ) (items : List (ℕ × V)) :
    (ownedBy r items).length = (items.map (·.1)).count r := by
  induction items with
  | nil => rfl
  | cons p t ih =>
    unfold ownedBy at *
    rw [List.map_cons, List.count_cons, List.filter_cons]
    by_cases h : p.1 = r
    · simp [h, ih]
    · simp [h, ih]

theorem ownedBy_cons {V : Type} (r : ℕ) (p : ℕ × V) (t : List (ℕ × V)) :
    ownedBy r (p :: t) = if p.1 = r then p.2 :: ownedBy r t else ownedBy r t := by
  unfold ownedBy; rw [List.filter_cons]; by_cases h : p.1 = r <;> simp [h]

theorem ownedBy_append {V : Type} (r : ℕ) (s t : List (ℕ × V)) :
    ownedBy r (s ++ t) = ownedBy r s ++ ownedBy r t := by
  unfold ownedBy; simp

theorem ownedBy_singleton {V : Type} (r : ℕ) (p : ℕ × V) :
    ownedBy r [p] = if p.1 = r then [p.2] else [] := by
  rw [ownedBy_cons]; rfl

theorem reorder_spec {V : Type} (root size : ℕ) (dflt : V) (sendBuf : List V) (pb : Mem V)
    (items : List (ℕ × V)) (nptr : ℕ → ℕ) (out : List V) (bad : Bool)
    (hr : ∀ k v, (ownedBy root items)[k]? = some v → sendBuf[nptr root + k]? = some v)
    (ho : ∀ r, r ≠ root → ∀ k v, (ownedBy r items)[k]? = some v →
      pb (nptr r + k) = v ∧ nptr r + k < size) :
    ((items.map (·.1)).foldl (reorderStep root size dflt sendBuf pb) ⟨nptr, out, bad⟩).out =
      out ++ items.map (·.2) ∧
    ((items.map (·.1)).foldl (reorderStep root size dflt sendBuf pb) ⟨nptr, out, bad⟩).bad = bad := by
  induction items generalizing nptr out bad with
  | nil => simp
  | cons p t ih =>
    obtain ⟨r, v⟩ := p
    rw [List.map_cons, List.foldl_cons, List.map_cons]
    have hstep : reorderStep root size dflt sendBuf pb ⟨nptr, out, bad⟩ r =
        ⟨Function.update nptr r (nptr r + 1), out ++ [v], bad⟩ := by
      unfold reorderStep
      by_cases h : r = root
      · have h0 := hr 0 v (by rw [ownedBy_cons]; simp [h])
        simp only [Nat.add_zero] at h0
        obtain ⟨hlt, he⟩ := List.getElem?_eq_some_iff.1 h0
        subst h
        simp only [if_true, List.getD_eq_getElem?_getD, h0, Option.getD_some]
        have : decide (sendBuf.length ≤ nptr r) = false := by simp; omega
        rw [this]; simp
      · have h0 := ho r h 0 v (by rw [ownedBy_cons]; simp)
        simp only [Nat.add_zero] at h0
        simp only [if_neg h, h0.1]
        have : decide (size ≤ nptr r) = false := by simp; omega
        rw [this]; simp
    simp only [hstep]
    have := ih (Function.update nptr r (nptr r + 1)) (out ++ [v]) bad ?_ ?_
    · refine ⟨?_, this.2⟩
      rw [this.1]; simp
    · intro k w hk
      by_cases h : r = root
      · subst h
        rw [Function.update_self]
        have := hr (k + 1) w (by rw [ownedBy_cons]; simpa using hk)
        rwa [show nptr r + 1 + k = nptr r + (k + 1) by omega]
      · rw [Function.update_of_ne (Ne.symm h)]
        exact hr k w (by rw [ownedBy_cons]; simpa [h] using hk)
    · intro r' hr' k w hk
      by_cases h : r = r'
      · subst h
        rw [Function.update_self]
        have := ho r hr' (k + 1) w (by rw [ownedBy_cons]; simpa using hk)
        rwa [show nptr r + 1 + k = nptr r + (k + 1) by omega]
      · rw [Function.update_of_ne (Ne.symm h)]
        exact ho r' hr' k w (by rw [ownedBy_cons]; simpa [h] using hk)

/-- Positions used by the messages of the first `N` ranks. -/
def recvTotal (root : ℕ) (sites : ℕ → ℕ) : ℕ → ℕ
  | 0 => 0
  | n + 1 => recvTotal root sites n + if n = root then 0 else sites n

theorem recvTotal_mono (root : ℕ) (sites : ℕ → ℕ) {a b : ℕ} (h : a ≤ b) :
    recvTotal root sites a ≤ recvTotal root sites b := by
  induction h with
  | refl => exact le_rfl
  | step _ ih => exact ih.trans (by rw [recvTotal]; omega)

theorem placeAt_low {V : Type} (m : Mem V) (off i : ℕ) (l : List V) (h : i < off) :
    placeAt m off l i = m i := by
  unfold placeAt; rw [dif_neg]; omega

theorem placeAt_in {V : Type} (m : Mem V) (off k : ℕ) (l : List V) (v : V) (h : l[k]? = some v) :
    placeAt m off l (off + k) = v := by
  obtain ⟨hk, he⟩ := List.getElem?_eq_some_iff.1 h
  unfold placeAt
  rw [dif_pos ⟨by omega, by omega⟩]
  simp [he]

theorem recv_spec {V : Type} (root size : ℕ) (sites : ℕ → ℕ) (msg : ℕ → List V) (dflt : V)
    (hlen : ∀ n, (msg n).length = sites n) (N : ℕ) (hsize : recvTotal root sites N ≤ size) :
    let s := (List.range N).foldl (recvStep root size sites msg) ⟨0, fun _ => dflt, fun _ => 0, false⟩
    s.b = recvTotal root sites N ∧ s.bad = false ∧ s.nptr root = 0 ∧
    ∀ n, n < N → n ≠ root → 0 < sites n →
      s.nptr n + sites n ≤ s.b ∧ ∀ k v, (msg n)[k]? = some v → s.pb (s.nptr n + k) = v := by
  induction N with
  | zero => simp [recvTotal]
  | succ N ih =>
    have hle : recvTotal root sites N ≤ size := (recvTotal_mono root sites (Nat.le_succ N)).trans hsize
    obtain ⟨h1, h2, h3, h4⟩ := ih hle
    intro s
    have hs : s = recvStep root size sites msg ((List.range N).foldl (recvStep root size sites msg)
        ⟨0, fun _ => dflt, fun _ => 0, false⟩) N := by
      simp only [s, List.range_succ, List.foldl_append, List.foldl_cons, List.foldl_nil]
    generalize (List.range N).foldl (recvStep root size sites msg)
        ⟨0, fun _ => dflt, fun _ => 0, false⟩ = t at *
    clear_value s
    subst hs
    unfold recvStep
    by_cases hpos : 0 < sites N
    · by_cases hN : N = root
      · subst hN
        simp only [if_pos hpos, ne_eq, not_true_eq_false, if_false, recvTotal, if_true]
        refine ⟨by omega, h2, Function.update_self .., fun n hn hne hp => ?_⟩
        rw [Function.update_of_ne hne]
        exact h4 n (by omega) hne hp
      · simp only [if_pos hpos, ne_eq, hN, not_false_eq_true, if_true, recvTotal, if_false]
        refine ⟨by omega, ?_, ?_, fun n hn hne hp => ?_⟩
        · rw [h2]; simp only [Bool.false_or, decide_eq_false_iff_not, not_or, not_not]
          rw [recvTotal, if_neg hN] at hsize
          refine ⟨hlen N, by omega⟩
        · rw [Function.update_of_ne (Ne.symm hN)]; exact h3
        · by_cases hnN : n = N
          · subst hnN
            rw [Function.update_self]
            exact ⟨le_rfl, fun k v hk => placeAt_in _ _ _ _ _ hk⟩
          · rw [Function.update_of_ne hnN]
            obtain ⟨k1, k2⟩ := h4 n (by omega) hne hp
            refine ⟨by omega, fun k v hk => ?_⟩
            obtain ⟨hlt, _⟩ := List.getElem?_eq_some_iff.1 hk
            rw [hlen] at hlt
            rw [placeAt_low _ _ _ _ (by omega)]
            exact k2 k v hk
    · have h0 : sites N = 0 := by omega
      simp only [if_neg hpos]
      refine ⟨by rw [h1, recvTotal, h0]; simp, h2, h3, fun n hn hne hp => ?_⟩
      have : n ≠ N := by rintro rfl; omega
      exact h4 n (by omega) hne hp

theorem sum_count (ranks : List ℕ) (N : ℕ) (h : ∀ r ∈ ranks, r < N) :
    ∑ n ∈ Finset.range N, ranks.count n = ranks.length := by
  induction ranks with
  | nil => simp
  | cons a t ih =>
    simp only [List.count_cons, Finset.sum_add_distrib, List.length_cons]
    rw [ih fun r hr => h r (List.mem_cons_of_mem _ hr)]
    congr 1
    have ha := h a (List.mem_cons_self ..)
    simp only [beq_iff_eq]
    rw [Finset.sum_ite_eq]
    simp [ha]

theorem recvTotal_eq (root : ℕ) (sites : ℕ → ℕ) (N : ℕ) :
    recvTotal root sites N + (if root < N then sites root else 0) = ∑ n ∈ Finset.range N, sites n := by
  induction N with
  | zero => simp [recvTotal]
  | succ N ih =>
    rw [Finset.sum_range_succ, ← ih, recvTotal]
    by_cases h : N = root
    · subst h; simp
    · rcases lt_or_ge root N with h1 | h1
      · simp [h, h1, show root < N + 1 by omega]; omega
      · simp [h, show ¬ root < N by omega, show ¬ root < N + 1 by omega]

variable {n : ℕ} {V : Type} (lay : Layout n)

theorem filter_map_owned (f : Site n → V) (cs : List (Site n)) (r : ℕ) :
    (cs.filter fun c => lay.nodeRank c = r).map f =
      ownedBy r (cs.map fun c => (lay.nodeRank c, f c)) := by
  unfold ownedBy
  rw [List.filter_map, List.map_map]
  rfl

theorem gather_spec (h : lay.WF) (dflt : V) (mem : ℕ → Mem V) (f : Site n → V)
    (hm : ∀ c, lay.InLattice c →
      mem (lay.nodeRank c) ((lay.nodeinfo (lay.nodeRank c)).siteIndex c) = f c)
    (cs : List (Site n)) (hcs : ∀ c ∈ cs, lay.InLattice c) (root : ℕ) (hroot : root < lay.numNodes) :
    gatherElements lay dflt mem cs root = some (cs.map f) := by
  set items := cs.map fun c => (lay.nodeRank c, f c) with hitems
  have hranks : reshuffleList lay cs = items.map (·.1) := by
    rw [hitems, List.map_map]; rfl
  have hmsg : ∀ r, payloadGather (mem r) (indexList lay cs r) = ownedBy r items := by
    intro r
    rw [hitems, ← filter_map_owned]
    unfold payloadGather indexList
    rw [List.map_map]
    apply List.map_congr_left
    intro c hc
    rw [List.mem_filter] at hc
    have hr : lay.nodeRank c = r := by simpa using hc.2
    have := hm c (hcs c hc.1)
    rw [hr] at this
    exact this
  have hsites : ∀ r, sitesOnRank (reshuffleList lay cs) r = (ownedBy r items).length := by
    intro r; rw [sitesOnRank_eq, hranks, ownedBy_length]
  have hlt : ∀ r ∈ items.map (·.1), r < lay.numNodes := by
    intro r hr
    rw [hitems, List.map_map, List.mem_map] at hr
    obtain ⟨c, hc, rfl⟩ := hr
    exact nodeRank_lt lay h c (hcs c hc)
  have hsum : ∑ r ∈ Finset.range lay.numNodes, sitesOnRank (reshuffleList lay cs) r = cs.length := by
    have := sum_count _ _ hlt
    rw [Finset.sum_congr rfl (fun r _ => by rw [hsites, ownedBy_length]), this, hitems]
    simp
  have htot := recvTotal_eq root (sitesOnRank (reshuffleList lay cs)) lay.numNodes
  rw [if_pos hroot, hsum] at htot
  have hsz : recvTotal root (sitesOnRank (reshuffleList lay cs)) lay.numNodes =
      cs.length - sitesOnRank (reshuffleList lay cs) root := by omega
  obtain ⟨r1, r2, r3, r4⟩ := recv_spec root (cs.length - sitesOnRank (reshuffleList lay cs) root)
    (sitesOnRank (reshuffleList lay cs)) (fun r => payloadGather (mem r) (indexList lay cs r)) dflt
    (fun r => by rw [hmsg, hsites]) lay.numNodes hsz.le
  unfold gatherElements
  dsimp only
  generalize (List.range lay.numNodes).foldl _ _ = rv at *
  have key := reorder_spec root (cs.length - sitesOnRank (reshuffleList lay cs) root) dflt
    (payloadGather (mem root) (indexList lay cs root)) rv.pb items rv.nptr [] rv.bad ?_ ?_
  · rw [hranks] at key ⊢
    rw [if_neg (by rw [key.2, r2]; simp), key.1, hitems]
    simp
  · intro k v hk
    rw [hmsg, r3, Nat.zero_add]; exact hk
  · intro r hr k v hk
    obtain ⟨hkl, _⟩ := List.getElem?_eq_some_iff.1 hk
    have hrN : r < lay.numNodes := by
      by_contra hcon
      have : (ownedBy r items).length = 0 := by
        rw [ownedBy_length, List.count_eq_zero]
        exact fun hmem => hcon (hlt r hmem)
      omega
    obtain ⟨q1, q2⟩ := r4 r hrN hr (by rw [hsites]; omega)
    rw [hsites] at q1
    exact ⟨q2 k v (by rw [hmsg]; exact hk), by omega⟩

/-! ## Scatter -/

theorem nloc_mono (sites : ℕ → ℕ) {a b : ℕ} (h : a ≤ b) : nloc sites a ≤ nloc sites b := by
  induction h with
  | refl => exact le_rfl
  | step _ ih => exact ih.trans (by rw [nloc]; omega)

theorem nloc_disjoint (sites : ℕ → ℕ) {r r' k k' : ℕ} (hk : k < sites r) (hk' : k' < sites r')
    (he : nloc sites r + k = nloc sites r' + k') : r = r' := by
  by_contra hne
  rcases lt_or_gt_of_ne hne with h | h
  · have := nloc_mono sites (show r + 1 ≤ r' by omega)
    rw [nloc] at this; omega
  · have := nloc_mono sites (show r' + 1 ≤ r by omega)
    rw [nloc] at this; omega

theorem nloc_eq (sites : ℕ → ℕ) (N : ℕ) : nloc sites N = ∑ m ∈ Finset.range N, sites m := by
  induction N with
  | zero => rfl
  | succ N ih => rw [nloc, ih, Finset.sum_range_succ]

theorem regroup_spec (N : ℕ) (items pre suf : List (ℕ × V)) (hsplit : items = pre ++ suf)
    (hlt : ∀ p ∈ items, p.1 < N) (sites : ℕ → ℕ) (hs : ∀ r, sites r = (ownedBy r items).length)
    (s : RegroupState V) (hbad : s.bad = false) (hcount : ∀ r, s.ncount r = (ownedBy r pre).length)
    (hpb : ∀ r k v, (ownedBy r pre)[k]? = some v → s.pb (nloc sites r + k) = v) :
    (suf.foldl (regroupStep items.length sites) s).bad = false ∧
    ∀ r k v, (ownedBy r items)[k]? = some v →
      (suf.foldl (regroupStep items.length sites) s).pb (nloc sites r + k) = v := by
  induction suf generalizing pre s with
  | nil => rw [List.append_nil] at hsplit; subst hsplit; exact ⟨hbad, hpb⟩
  | cons p t ih =>
    rw [List.foldl_cons]
    have hlen : (ownedBy p.1 items).length = (ownedBy p.1 pre).length + 1 +
        (ownedBy p.1 t).length := by
      rw [hsplit, ownedBy_append, ownedBy_cons]; simp; omega
    have hposlt : s.ncount p.1 < sites p.1 := by rw [hcount, hs]; omega
    have hpN : p.1 < N := hlt p (by rw [hsplit]; simp)
    have hend : nloc sites p.1 + sites p.1 ≤ items.length := by
      have h1 := nloc_mono sites (show p.1 + 1 ≤ N by omega)
      rw [nloc] at h1
      have h2 : nloc sites N = items.length := by
        rw [nloc_eq]
        have := sum_count (items.map (·.1)) N (by
          intro r hr; obtain ⟨q, hq, rfl⟩ := List.mem_map.1 hr; exact hlt q hq)
        rw [Finset.sum_congr rfl (fun r _ => by rw [hs, ownedBy_length]), this]; simp
      omega
    apply ih (pre ++ [p]) (by rw [hsplit]; simp)
    · unfold regroupStep
      simp only [hbad, Bool.false_or, decide_eq_false_iff_not]; omega
    · intro r
      unfold regroupStep
      simp only [ownedBy_append, ownedBy_singleton]
      by_cases h : p.1 = r
      · subst h; rw [Function.update_self, hcount]; simp
      · rw [Function.update_of_ne (Ne.symm h), hcount]; simp [h]
    · intro r k v hk
      unfold regroupStep
      simp only
      rw [ownedBy_append, ownedBy_singleton] at hk
      by_cases hklt : k < (ownedBy r pre).length
      · have hold : (ownedBy r pre)[k]? = some v := by
          rwa [List.getElem?_append_left hklt] at hk
        rw [Function.update_of_ne]
        · exact hpb r k v hold
        · intro he
          have hkr : k < sites r := by
            rw [hs, hsplit, ownedBy_append, List.length_append]; omega
          have := nloc_disjoint sites hkr hposlt he
          subst this
          rw [hcount] at he; omega
      · rw [List.getElem?_append_right (by omega)] at hk
        by_cases h : p.1 = r
        · subst h
          simp only [if_true] at hk
          obtain ⟨hl, he⟩ := List.getElem?_eq_some_iff.1 hk
          have hkk : k = (ownedBy p.1 pre).length := by simp at hl; omega
          subst hkk
          rw [hcount, Function.update_self]
          simpa using he
        · simp [h] at hk

/-- Assign a list of values to a list of sites, later entries win. -/
def assignAll (f : Site n → V) (cs : List (Site n)) (vs : List V) : Site n → V :=
  (cs.zip vs).foldl (fun g p => Function.update g p.1 p.2) f

theorem assignAll_cons (f : Site n → V) (c : Site n) (cs : List (Site n)) (v : V) (vs : List V) :
    assignAll f (c :: cs) (v :: vs) = assignAll (Function.update f c v) cs vs := rfl

theorem assignAll_notMem (f : Site n → V) (cs : List (Site n)) (vs : List V) (e : Site n)
    (he : e ∉ cs) : assignAll f cs vs e = f e := by
  induction cs generalizing f vs with
  | nil => rfl
  | cons c cs ih =>
    cases vs with
    | nil => rfl
    | cons v vs =>
      rw [assignAll_cons, ih _ _ (fun h => he (List.mem_cons_of_mem _ h)), Function.update_of_ne]
      rintro rfl; exact he (List.mem_cons_self ..)

theorem assignAll_map (f g : Site n → V) (cs : List (Site n)) (e : Site n) (he : e ∈ cs) :
    assignAll f cs (cs.map g) e = g e := by
  induction cs generalizing f with
  | nil => cases he
  | cons c cs ih =>
    rw [List.map_cons, assignAll_cons]
    by_cases hc : e ∈ cs
    · exact ih _ hc
    · rw [assignAll_notMem _ _ _ _ hc]
      have : e = c := by
        rcases List.mem_cons.1 he with h | h
        · exact h
        · exact absurd h hc
      subst this; exact Function.update_self ..

theorem assignAll_getElem (f : Site n → V) (cs : List (Site n)) (vs : List V)
    (hnd : cs.Nodup) (i : ℕ) (c : Site n) (v : V) (hc : cs[i]? = some c) (hv : vs[i]? = some v) :
    assignAll f cs vs c = v := by
  induction cs generalizing f vs i with
  | nil => simp at hc
  | cons a cs ih =>
    cases vs with
    | nil => simp at hv
    | cons w vs =>
      rw [assignAll_cons]
      rw [List.nodup_cons] at hnd
      cases i with
      | zero =>
        simp only [List.getElem?_cons_zero, Option.some.injEq] at hc hv
        subst hc hv
        rw [assignAll_notMem _ _ _ _ hnd.1, Function.update_self]
      | succ i => exact ih _ _ hnd.2 i (by simpa using hc) (by simpa using hv)

theorem slot_inj (h : lay.WF) (r : ℕ) (hr : r < lay.numNodes) (c e : Site n) (hc : lay.InLattice c)
    (he : lay.InLattice e) (hcr : lay.nodeRank c = r) (her : lay.nodeRank e = r)
    (heq : (lay.nodeinfo r).siteIndex c = (lay.nodeinfo r).siteIndex e) : c = e :=
  siteIndex_inj _ _ c e ((inBox_iff_nodeRank lay h r hr c hc).2 hcr)
    ((inBox_iff_nodeRank lay h r hr e he).2 her) heq

theorem place_spec (h : lay.WF) (ps : List (Site n × V)) (hps : ∀ p ∈ ps, lay.InLattice p.1)
    (m : Mem V) (f : Site n → V) (r : ℕ) (hr : r < lay.numNodes) (e : Site n)
    (he : lay.InLattice e) (her : lay.nodeRank e = r)
    (hm : m ((lay.nodeinfo r).siteIndex e) = f e) :
    payloadPlace m ((ps.filter fun p => lay.nodeRank p.1 = r).map
        fun p => (lay.nodeinfo r).siteIndex p.1)
      ((ps.filter fun p => lay.nodeRank p.1 = r).map (·.2)) ((lay.nodeinfo r).siteIndex e) =
    ps.foldl (fun g p => Function.update g p.1 p.2) f e := by
  induction ps generalizing m f with
  | nil => simpa [payloadPlace] using hm
  | cons p t ih =>
    have hp := hps p (List.mem_cons_self ..)
    have ht : ∀ q ∈ t, lay.InLattice q.1 := fun q hq => hps q (List.mem_cons_of_mem _ hq)
    rw [List.foldl_cons]
    by_cases hpr : lay.nodeRank p.1 = r
    · rw [List.filter_cons_of_pos (by simpa using hpr)]
      show payloadPlace (Function.update m ((lay.nodeinfo r).siteIndex p.1) p.2) _ _ _ = _
      apply ih ht
      by_cases hpe : p.1 = e
      · subst hpe; rw [Function.update_self, Function.update_self]
      · rw [Function.update_of_ne (Ne.symm hpe), Function.update_of_ne, hm]
        exact fun hcon => hpe (slot_inj lay h r hr p.1 e hp he hpr her hcon.symm)
    · rw [List.filter_cons_of_neg (by simpa using hpr)]
      apply ih ht
      rw [Function.update_of_ne, hm]
      rintro rfl; exact hpr her

theorem place_untouched (m : Mem V) (idx : List ℕ) (data : List V) (i : ℕ) (hi : i ∉ idx) :
    payloadPlace m idx data i = m i := by
  induction idx generalizing m data with
  | nil => rfl
  | cons a t ih =>
    cases data with
    | nil => rfl
    | cons d ds =>
      show payloadPlace (Function.update m a d) t ds i = _
      rw [ih _ _ (fun h => hi (List.mem_cons_of_mem _ h)), Function.update_of_ne]
      rintro rfl; exact hi (List.mem_cons_self ..)

theorem zip_filter_fst (cs : List (Site n)) (vs : List V) (hlen : vs.length = cs.length) (r : ℕ) :
    ((cs.zip vs).filter fun p => lay.nodeRank p.1 = r).map (fun p => (lay.nodeinfo r).siteIndex p.1) =
      indexList lay cs r := by
  unfold indexList
  induction cs generalizing vs with
  | nil => rfl
  | cons c cs ih =>
    cases vs with
    | nil => simp at hlen
    | cons v vs =>
      have := ih vs (by simpa using hlen)
      rw [List.zip_cons_cons, List.filter_cons, List.filter_cons]
      by_cases hc : lay.nodeRank c = r
      · simp [hc, this]
      · simp [hc, this]

theorem zip_filter_snd (cs : List (Site n)) (vs : List V) (r : ℕ) :
    ((cs.zip vs).filter fun p => lay.nodeRank p.1 = r).map (·.2) =
      ownedBy r ((reshuffleList lay cs).zip vs) := by
  unfold reshuffleList
  induction cs generalizing vs with
  | nil => rfl
  | cons c cs ih =>
    cases vs with
    | nil => simp [ownedBy]
    | cons v vs =>
      rw [List.zip_cons_cons, List.map_cons, List.zip_cons_cons, ownedBy_cons, List.filter_cons]
      by_cases hc : lay.nodeRank c = r
      · simp [hc, ih]
      · simp [hc, ih]

theorem scatter_spec (h : lay.WF) (dflt : V) (mem : ℕ → Mem V) (f : Site n → V)
    (hm : ∀ c, lay.InLattice c →
      mem (lay.nodeRank c) ((lay.nodeinfo (lay.nodeRank c)).siteIndex c) = f c)
    (cs : List (Site n)) (hcs : ∀ c ∈ cs, lay.InLattice c) (vs : List V)
    (hlen : vs.length = cs.length) :
    ∃ mem', scatterElements lay dflt mem cs vs = some mem' ∧
      (∀ c, lay.InLattice c →
        mem' (lay.nodeRank c) ((lay.nodeinfo (lay.nodeRank c)).siteIndex c) = assignAll f cs vs c) ∧
      ∀ r i, i ∉ indexList lay cs r → mem' r i = mem r i := by
  set items := (reshuffleList lay cs).zip vs with hitems
  have hfst : items.map (·.1) = reshuffleList lay cs := by
    rw [hitems, List.map_fst_zip]; simp [reshuffleList, hlen]
  have hil : items.length = cs.length := by rw [hitems]; simp [reshuffleList, hlen]
  have hsites : ∀ r, sitesOnRank (reshuffleList lay cs) r = (ownedBy r items).length := by
    intro r; rw [sitesOnRank_eq, ownedBy_length, hfst]
  have hlt : ∀ p ∈ items, p.1 < lay.numNodes := by
    intro p hp
    have : p.1 ∈ items.map (·.1) := List.mem_map.2 ⟨p, hp, rfl⟩
    rw [hfst] at this
    obtain ⟨c, hc, he⟩ := List.mem_map.1 this
    rw [← he]; exact nodeRank_lt lay h c (hcs c hc)
  obtain ⟨g1, g2⟩ := regroup_spec lay.numNodes items [] items rfl hlt
    (sitesOnRank (reshuffleList lay cs)) hsites ⟨fun _ => dflt, fun _ => 0, false⟩ rfl
    (fun r => rfl) (by intro r k v hk; simp [ownedBy] at hk)
  rw [hil] at g1 g2
  unfold scatterElements
  dsimp only
  rw [← hitems]
  generalize items.foldl (regroupStep cs.length (sitesOnRank (reshuffleList lay cs)))
    ⟨fun _ => dflt, fun _ => 0, false⟩ = rg at *
  rw [if_neg (by rw [g1]; simp; omega)]
  have hdata : ∀ r, (List.range (sitesOnRank (reshuffleList lay cs) r)).map
      (fun k => rg.pb (nloc (sitesOnRank (reshuffleList lay cs)) r + k)) = ownedBy r items := by
    intro r
    apply List.ext_getElem
    · simp [hsites]
    · intro k hk hk'
      simp only [List.getElem_map, List.getElem_range]
      exact g2 r k _ (List.getElem?_eq_getElem hk')
  refine ⟨_, rfl, fun c hc => ?_, fun r i hi => ?_⟩
  · have hr := nodeRank_lt lay h c hc
    have hp := place_spec lay h (cs.zip vs) (fun p hp => hcs _ (List.of_mem_zip hp).1)
      (mem (lay.nodeRank c)) f _ hr c hc rfl (hm c hc)
    rw [zip_filter_fst lay cs vs hlen, zip_filter_snd, ← hitems] at hp
    split
    · rw [hdata]; exact hp
    · rename_i h0
      have : ownedBy (lay.nodeRank c) items = [] := by
        rw [hsites] at h0; exact List.length_eq_zero_iff.1 (by omega)
      rw [this] at hp
      unfold assignAll
      rw [← hp]
      unfold payloadPlace
      rw [List.zip_nil_right]; rfl
  · split
    · exact place_untouched _ _ _ _ hi
    · rfl

theorem set_spec (h : lay.WF) (mem : ℕ → Mem V) (f : Site n → V)
    (hm : ∀ c, lay.InLattice c →
      mem (lay.nodeRank c) ((lay.nodeinfo (lay.nodeRank c)).siteIndex c) = f c)
    (cs : List (Site n)) (hcs : ∀ c ∈ cs, lay.InLattice c) (vs : List V)
    (hlen : vs.length = cs.length) :
    ∃ mem', setElements lay mem vs cs = some mem' ∧
      ∀ c, lay.InLattice c →
        mem' (lay.nodeRank c) ((lay.nodeinfo (lay.nodeRank c)).siteIndex c) = assignAll f cs vs c := by
  unfold setElements
  rw [if_neg (by omega)]
  refine ⟨_, rfl, fun c hc => ?_⟩
  have hr := nodeRank_lt lay h c hc
  have hp := place_spec lay h (cs.zip vs) (fun p hp => hcs _ (List.of_mem_zip hp).1)
    (mem (lay.nodeRank c)) f _ hr c hc rfl (hm c hc)
  have hfil : ((cs.zip vs).filter fun p => (lay.nodeinfo (lay.nodeRank c)).isOnNode p.1) =
      (cs.zip vs).filter fun p => lay.nodeRank p.1 = lay.nodeRank c := by
    apply List.filter_congr
    intro p hp
    have hpl := hcs _ (List.of_mem_zip hp).1
    have h1 := (onNode_iff lay (lay.nodeRank c) p.1).trans
      (inBox_iff_nodeRank lay h (lay.nodeRank c) hr p.1 hpl)
    by_cases hh : lay.nodeRank p.1 = lay.nodeRank c
    · rw [h1.2 hh]; simp [hh]
    · have : (lay.nodeinfo (lay.nodeRank c)).isOnNode p.1 = false := by
        rw [Bool.eq_false_iff]; exact fun hc => hh (h1.1 hc)
      rw [this]; simp [hh]
  rw [hfil]
  exact hp

end Hila
