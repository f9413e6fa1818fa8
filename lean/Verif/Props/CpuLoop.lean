import Verif.Lemmas.CpuLoop
import Verif.Model.CpuLoopSpec
import Verif.Props.HaloState
import Verif.Props.GpuSelect

/-!
# C78: site loops on processors, with messages under way

A program is a sequence of site loops over several fields and of explicit `start_gather` calls.
-/

namespace Hila

section
variable {n : ℕ} {Φ V : Type} [DecidableEq Φ]

/-- Sites of the lattice of a layout. -/
abbrev LSite (lay : Layout n) : Type := {c : Site n // lay.InLattice c}

/-- One statement of a program. A loop comes with the order in which the passes do the sites on each rank
and with the values that reads of halo slots give while a message into them is under way. -/
inductive COp (lay : Layout n) (Φ V : Type) where
  | loop (L : SiteLoop Φ (LSite lay) (Dir n) V) (order : Bool → Fin lay.numNodes → List (LSite lay))
      (garb : Fin lay.numNodes → Φ → Dir n → LSite lay → V)
  | start (f : Φ) (d : Dir n) (p : Parity)

/-- One statement on all ranks. -/
def cstep (lay : Layout n) (h : lay.WF) (s : Φ → HState (LSite lay) (Dir n) (Fin lay.numNodes) V) :
    COp lay Φ V → Φ → HState (LSite lay) (Dir n) (Fin lay.numNodes) V
  | .loop L order garb =>
    cpuLoop (layoutGeo lay h) (fun d : Dir n => d.val) (List.finRange (2 * n)) L order garb s
  | .start f d p => Function.update s f (start (layoutGeo lay h) (s f) d p)

/-- Specification of the content after a program: loops act on the sites of their parity at once, gathers do
nothing. `nbr d c` is the neighbour of `c`. -/
def contentOf (lay : Layout n) (nbr : Dir n → LSite lay → LSite lay) (v : Φ → LSite lay → V) :
    COp lay Φ V → Φ → LSite lay → V
  | .loop L _ _ => L.apply (fun c => c.1.parity) nbr v
  | .start _ _ _ => v

/-- What is asked of a statement. The loop knows its parity; every field read at a neighbour is gathered;
the passes do the slots `[loop_begin, loop_end)` in any order; a field that is read at a neighbour and
assigned to in the same loop is only assigned on one parity, and neighbours in that direction have the
other one. -/
def COp.Good (lay : Layout n) : COp lay Φ V → Prop
  | .loop L order _ => L.par ≠ .none ∧ (∀ fd ∈ L.reads, fd ∈ L.gathers) ∧
      (∀ w r, ((order w r).map Subtype.val).Perm (slotOrder lay L.par r)) ∧
      ∀ fd ∈ L.reads, fd.1 ∈ L.writes → L.par ≠ .all ∧ lay.L (axis fd.2) % 2 = 0
  | .start _ _ p => p ≠ .none

/-- Neighbours along an even extent have opposite parities. -/
theorem neighbour_parity_ne (lay : Layout n) (h : lay.WF) (d : Dir n) (hev : lay.L (axis d) % 2 = 0)
    (c : Site n) (hcl : lay.InLattice c) : (lay.neighbour c d).parity ≠ c.parity := by
  have hce := hcl (axis d)
  intro hpar
  have hsum : (∑ b, lay.neighbour c d b) + c (axis d) =
      (∑ b, c b) + pstep (isUp d) (lay.L (axis d)) (c (axis d)) := by
    rw [neighbour_eq lay h c hcl, Finset.sum_update_of_mem (Finset.mem_univ _),
      ← Finset.sum_sdiff (Finset.subset_univ {axis d}) (f := c), Finset.sum_singleton]
    omega
  have hp : pstep (isUp d) (lay.L (axis d)) (c (axis d)) % 2 ≠ c (axis d) % 2 := by
    cases isUp d
    · rw [pstep_down _ _ hce]; split <;> omega
    · rw [pstep_up _ _ hce]; split <;> omega
  rcases Site.parity_cases c with h1 | h1
  · rw [h1] at hpar
    rw [Site.parity_even_iff] at h1 hpar
    omega
  · rw [h1] at hpar
    rw [Site.parity_odd_iff] at h1 hpar
    omega

theorem cpu_visits_iff (p : Parity) (c : Site n) : Visits p c ↔ p.visits c.parity = true := by
  unfold Visits Parity.visits
  by_cases h : p = .all
  · simp [h]
  · simp only [h, false_or, beq_iff_eq, Bool.or_eq_true]

omit [DecidableEq Φ] in
/-- Going through the slots of a loop in any order does every site of its parity once. -/
theorem slotOrder_good (lay : Layout n) (h : lay.WF) (L : SiteLoop Φ (LSite lay) (Dir n) V)
    (hp : L.par ≠ .none) (order : Bool → Fin lay.numNodes → List (LSite lay))
    (ho : ∀ w r, ((order w r).map Subtype.val).Perm (slotOrder lay L.par r)) :
    GoodOrder L (layoutGeo lay h).parity (layoutGeo lay h).owner order := by
  intro w r
  obtain ⟨k1, k2⟩ := slotOrder_ok lay h L.par hp r r.2
  refine ⟨List.Nodup.of_map _ ((ho w r).nodup_iff.2 k1), fun c => ?_⟩
  have e : c ∈ order w r ↔ c.1 ∈ slotOrder lay L.par r := by
    rw [← (ho w r).mem_iff, List.mem_map]
    exact ⟨fun hc => ⟨c, hc, rfl⟩, fun ⟨x, hx, hxc⟩ => Subtype.ext hxc ▸ hx⟩
  rw [e, k2]
  unfold Visited
  rw [cpu_visits_iff]
  constructor
  · rintro ⟨⟨-, a⟩, b⟩; exact ⟨Fin.ext b, a⟩
  · rintro ⟨a, b⟩; exact ⟨⟨c.2, b⟩, congrArg Fin.val a⟩

theorem cstep_spec (lay : Layout n) (h : lay.WF) (hn : n ≤ 4)
    (heven : ∀ a, lay.L a % 2 = 0 ∨ lay.ndiv a = 1)
    (s : Φ → HState (LSite lay) (Dir n) (Fin lay.numNodes) V) (hs : ∀ f, Inv (layoutGeo lay h) (s f))
    (op : COp lay Φ V) (hop : op.Good) :
    (∀ f, Inv (layoutGeo lay h) (cstep lay h s op f)) ∧
    ∀ f c, (cstep lay h s op f).val c =
      contentOf lay (layoutGeo lay h).nb (fun f => (s f).val) op f c := by
  cases op with
  | loop L order garb =>
    obtain ⟨h1, h2, h3, h4⟩ := hop
    refine cpuLoop_spec (layoutGeo lay h) _ (layoutGeo_ok lay h) (layoutGeo_flip lay h heven) _
      (fun d => List.mem_finRange d) (fun d => by have := d.2; omega) L h1 h2 (fun fd hfd hw => ?_)
      order (slotOrder_good lay h L h1 order h3) garb s hs
    obtain ⟨k1, k2⟩ := h4 fd hfd hw
    exact ⟨k1, fun c => neighbour_parity_ne lay h fd.2 k2 c.1 c.2⟩
  | start f d p =>
    obtain ⟨k1, k2, -, -⟩ := start_invariant (layoutGeo lay h) (layoutGeo_ok lay h) (s f) d p hop (hs f)
    refine ⟨fun f' => ?_, fun f' c => ?_⟩
    · by_cases e : f' = f
      · subst e; simp only [cstep, Function.update_self]; exact k1
      · simp only [cstep, Function.update_of_ne e]; exact hs f'
    · by_cases e : f' = f
      · subst e; simp only [cstep, Function.update_self, contentOf]; rw [k2]
      · simp only [cstep, Function.update_of_ne e, contentOf]

/-- For up to four dimensions, every layout with even divided extents and every program of site loops and
gathers: no rank exits, waits for a message that was not posted or overwrites one under way, and each
field has the content that the loops give it when they act on all their sites at once. This holds for
every order of sites in every pass and whatever a read of a halo slot returns while a message into it is
under way. `f` ranges over all fields, which start with halos and buffers of any content.
(`_partial`: lattices with odd divided extents, vectorised loops and the storage layouts without
`EVEN_SITES_FIRST` are not covered. See the negations below for the last.) -/
theorem C78_program_partial (lay : Layout n) (h : lay.WF) (hn : n ≤ 4)
    (heven : ∀ a, lay.L a % 2 = 0 ∨ lay.ndiv a = 1)
    (nbr : Dir n → LSite lay → LSite lay)
    (hnbr : ∀ d c, IsPeriodicNeighbour lay.L d c.1 (nbr d c).1)
    (ops : List (COp lay Φ V)) (hops : ∀ op ∈ ops, op.Good)
    (val : Φ → LSite lay → V) (halo : Φ → Fin lay.numNodes → Dir n → LSite lay → V)
    (buf : Φ → Fin lay.numNodes → Dir n → Parity → LSite lay → V) (f : Φ) :
    let run := ops.foldl (cstep lay h) fun f => finit (val f) (halo f) (buf f)
    (∀ r, ((run f).loc r).err = false) ∧ (run f).val = ops.foldl (contentOf lay nbr) val f := by
  intro run
  have hn' : nbr = (layoutGeo lay h).nb := by
    funext d c
    exact Subtype.ext ((C03_neighbour_is_periodic lay h d c.1 _).1 (hnbr d c))
  have key : ∀ (ops : List (COp lay Φ V)) (_ : ∀ op ∈ ops, op.Good)
      (s : Φ → HState (LSite lay) (Dir n) (Fin lay.numNodes) V) (_ : ∀ f, Inv (layoutGeo lay h) (s f)),
      (∀ f, Inv (layoutGeo lay h) (ops.foldl (cstep lay h) s f)) ∧
      ∀ f, (ops.foldl (cstep lay h) s f).val = ops.foldl (contentOf lay nbr) (fun f => (s f).val) f := by
    intro ops
    induction ops with
    | nil => intro _ s hs; exact ⟨hs, fun _ => rfl⟩
    | cons op ops ih =>
      intro ho s hs
      obtain ⟨a1, a2⟩ := cstep_spec lay h hn heven s hs op (ho op (by simp))
      obtain ⟨b1, b2⟩ := ih (fun o hh => ho o (by simp [hh])) _ a1
      refine ⟨b1, fun f => ?_⟩
      rw [List.foldl_cons, List.foldl_cons, b2 f]
      have e : (fun f => (cstep lay h s op f).val) = contentOf lay nbr (fun f => (s f).val) op := by
        funext f c
        rw [a2 f c, hn']
      rw [e]
  obtain ⟨k1, k2⟩ := key ops hops (fun f => finit (val f) (halo f) (buf f))
    fun f => finit_inv _ (val f) (halo f) (buf f)
  exact ⟨fun r => (k1 f).2 r, k2 f⟩

end

/-! ## A case that meets the hypotheses -/

/-- Four sites on two ranks. -/
def pairRing : Layout 1 := ⟨fun _ => 4, fun _ => 2, id, id⟩

theorem pairRing_wf : pairRing.WF :=
  ⟨by decide, by decide, fun _ h => h, fun _ h => h, fun _ _ => rfl, fun _ _ => rfl⟩

/-- The sites of the ring. -/
def pairSite (i : Fin 4) : LSite pairRing := ⟨fun _ => i.1, fun _ => i.2⟩

/-- The sites of a parity on a rank; the second pass goes backwards. -/
def pairOrder (p : Parity) (w : Bool) (r : Fin pairRing.numNodes) : List (LSite pairRing) :=
  let l := ((List.finRange 4).map pairSite).filter fun c =>
    p.visits c.1.parity && (pairRing.nodeRank c.1 == r.1)
  if w then l.reverse else l

/-- `b[X] = a[X + e_x] + a[X - e_x]` on all sites, for fields `a = 0` and `b = 1`. -/
def sumLoop : SiteLoop (Fin 2) (LSite pairRing) (Dir 1) ℕ where
  par := .all
  gathers := [(0, 0), (0, 1)]
  reads := [(0, 0), (0, 1)]
  writes := [1]
  body := fun _ _ ns _ => ns.sum

/-- `a[X] = a[X] + a[X + e_x]` on even sites: reads and assigns the same field. -/
def hopLoop : SiteLoop (Fin 2) (LSite pairRing) (Dir 1) ℕ where
  par := .even
  gathers := [(0, 0)]
  reads := [(0, 0)]
  writes := [0]
  body := fun _ v ns _ => v 0 + ns.sum

/-- A gather under way over a loop that assigns the field, then both loops. -/
def pairProgram : List (COp pairRing (Fin 2) ℕ) :=
  [.start 0 1 .all, .loop hopLoop (pairOrder .even) (fun _ _ _ _ => 99),
    .loop sumLoop (pairOrder .all) (fun _ _ _ _ => 99)]

theorem pairProgram_good : ∀ op ∈ pairProgram, op.Good := by
  intro op hop
  simp only [pairProgram, List.mem_cons, List.not_mem_nil, or_false] at hop
  rcases hop with rfl | rfl | rfl
  · simp [COp.Good]
  · exact ⟨by decide, by decide, by decide +kernel, by decide⟩
  · exact ⟨by decide, by decide, by decide +kernel, by decide⟩

/-- The program computes something, and both ranks need values of the other. -/
example : let run := pairProgram.foldl (cstep pairRing pairRing_wf) fun _ =>
      finit (fun c => 10 * c.1 0 + 1) (fun _ _ _ => 77) (fun _ _ _ _ => 88)
    (List.finRange 4).map (fun i => (run 0).val (pairSite i)) = [12, 11, 52, 31] ∧
    (List.finRange 4).map (fun i => (run 1).val (pairSite i)) = [42, 64, 42, 64] := by
  intro run
  have e := fun f => (C78_program_partial pairRing pairRing_wf (by decide) (by decide)
    (layoutGeo pairRing pairRing_wf).nb (fun d c => neighbour_isPeriodic pairRing pairRing_wf d c.1)
    pairProgram pairProgram_good (fun _ c => 10 * c.1 0 + 1) (fun _ _ _ _ => 77)
    (fun _ _ _ _ _ => 88) f).2
  simp only [run, e]
  decide +kernel

example : ∀ a, pairRing.L a % 2 = 0 ∨ pairRing.ndiv a = 1 := by decide

/-! ## Where the code goes wrong -/

/-- Without `EVEN_SITES_FIRST` the loop starts gathers and never waits for them: on two ranks the loop
`b[X] = a[X + e_x] + a[X - e_x]` uses halo slots into which a message is still under way. -/
theorem C78_no_wait_wrong :
    ∃ (order : Fin pairRing.numNodes → List (LSite pairRing))
      (garb : Fin pairRing.numNodes → Fin 2 → Dir 1 → LSite pairRing → ℕ),
      (∀ r, ((order r).map Subtype.val).Perm (slotOrder pairRing .all r)) ∧
      (cpuLoopPlain (layoutGeo pairRing pairRing_wf) (fun d : Dir 1 => d.val) (List.finRange 2) sumLoop
        true order garb (fun _ => finit (fun c => c.1 0) (fun _ _ _ => 0) (fun _ _ _ _ => 0)) 1).val
        (pairSite 1) ≠
      sumLoop.apply (fun c => c.1.parity) (layoutGeo pairRing pairRing_wf).nb (fun _ c => c.1 0) 1
        (pairSite 1) :=
  ⟨pairOrder .all false, fun _ _ _ _ => 99, by decide +kernel, by decide +kernel⟩

/-- Without `EVEN_SITES_FIRST` a loop over a parity variable that is `ALL` at run time does nothing at all:
no site has the parity `ALL`. -/
theorem C78_runtime_parity_wrong {n : ℕ} {Φ V : Type} [DecidableEq Φ] (lay : Layout n) (h : lay.WF)
    (L : SiteLoop Φ (LSite lay) (Dir n) V) (hp : L.par = .all)
    (order : Fin lay.numNodes → List (LSite lay))
    (garb : Fin lay.numNodes → Φ → Dir n → LSite lay → V)
    (s : Φ → HState (LSite lay) (Dir n) (Fin lay.numNodes) V) (f : Φ) :
    (cpuLoopPlain (layoutGeo lay h) (fun d : Dir n => d.val) (List.finRange (2 * n)) L false order garb
      s f).val = (s f).val := by
  have e : ∀ r, (order r).filter (fun c => false || (layoutGeo lay h).parity c == L.par) = [] := by
    intro r
    rw [List.filter_eq_nil_iff]
    intro c _
    rw [hp]
    rcases Site.parity_cases c.1 with k | k <;> simp [layoutGeo, k]
  unfold cpuLoopPlain
  simp only [e, List.foldl_nil]
  split
  · rw [markChanged_val]
  · rfl

/-- Three sites on one rank. -/
def oddRing : Layout 1 := ⟨fun _ => 3, fun _ => 1, id, id⟩

theorem oddRing_wf : oddRing.WF :=
  ⟨by decide, by decide, fun _ h => h, fun _ h => h, fun _ _ => rfl, fun _ _ => rfl⟩

/-- The sites of the ring. -/
def oddSite (i : Fin 3) : LSite oddRing := ⟨fun _ => i.1, fun _ => i.2⟩

/-- `a[X] = a[X + e_x]` on even sites. -/
def oddLoop : SiteLoop (Fin 1) (LSite oddRing) (Dir 1) ℕ where
  par := .even
  gathers := [(0, 0)]
  reads := [(0, 0)]
  writes := [0]
  body := fun _ _ ns _ => ns.sum

/-- On a lattice with an odd extent, here on a single rank, the result of a loop over even sites that reads
neighbours of the field it assigns to depends on the order of the sites (and so on the number of threads);
the order of the plain loop does not give the values that the loop stands for. -/
theorem C78_order_matters :
    ∃ o1 o2 : Bool → Fin oddRing.numNodes → List (LSite oddRing),
      (∀ w r, (o1 w r).map Subtype.val = slotOrder oddRing .even r) ∧
      (∀ w r, ((o2 w r).map Subtype.val).Perm (slotOrder oddRing .even r)) ∧
      let run := fun o => (cpuLoop (layoutGeo oddRing oddRing_wf) (fun d : Dir 1 => d.val)
        (List.finRange 2) oddLoop o (fun _ _ _ _ => 0)
        (fun _ => finit (fun c => c.1 0) (fun _ _ _ => 0) (fun _ _ _ _ => 0)) 0).val (oddSite 2)
      run o1 ≠ run o2 ∧
      run o1 ≠ oddLoop.apply (fun c => c.1.parity) (layoutGeo oddRing oddRing_wf).nb
        (fun _ c => c.1 0) 0 (oddSite 2) :=
  ⟨fun _ _ => [oddSite 0, oddSite 2], fun _ _ => [oddSite 2, oddSite 0], by decide +kernel,
    by decide +kernel, by decide +kernel⟩

end Hila
