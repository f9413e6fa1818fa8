import Verif.Lemmas.Antiper
import Verif.Props.Shift

/-!
# C68: antiperiodic boundary conditions
-/

namespace Hila

/-- Specification, without reference to the model: the step in direction `d` from the site `c` leaves the lattice. -/
def CrossesBoundary {n : ℕ} (L : Site n) (d : Dir n) (c : Site n) : Prop :=
  ¬ ∀ b, 0 ≤ (c b : ℤ) + CV.ofDir d b ∧ (c b : ℤ) + CV.ofDir d b < L b

theorem crosses_iff {n : ℕ} (lay : Layout n) (h : lay.WF) (d : Dir n) (c : Site n) (hc : lay.InLattice c) :
    CrossesBoundary lay.L d c ↔ c (axis d) = edgeCoord lay d := by
  have hL := h.L_pos (axis d)
  have hca := hc (axis d)
  unfold CrossesBoundary edgeCoord
  constructor
  · intro hh
    by_contra hne
    apply hh
    intro b
    have hcb := hc b
    rw [ofDir_apply]
    by_cases hb : b = axis d
    · subst hb
      rw [if_pos rfl]
      cases hu : isUp d
      · simp only [hu, Bool.false_eq_true, if_false] at hne ⊢; omega
      · simp only [hu, if_true] at hne ⊢; omega
    · rw [if_neg hb]; omega
  · intro he hh
    have := hh (axis d)
    rw [ofDir_apply, if_pos rfl, he] at this
    cases hu : isUp d
    · simp only [hu, Bool.false_eq_true, if_false] at this; omega
    · simp only [hu, if_true] at this; omega

section
variable {n : ℕ} {V : Type} [Neg V]

theorem setLocal_spec (lay : Layout n) (h : lay.WF) (bcs : Dir n → Bc) (r : ℕ) (d : Dir n) (par : Parity) (m : Mem V) :
    setLocalBoundary lay bcs r d par m = fun p =>
      let sb := specCount lay r d
      let start := if par = .odd then sb.nEven else 0
      let cnt := if par = .odd then sb.nOdd else if par = .even then sb.nEven else sb.nTotal
      if bcs d = .antiperiodic ∧ Needed lay r d ∧ specOffset lay r d.val + start ≤ p ∧ p < specOffset lay r d.val + start + cnt then
        -(m ((specArrays lay r d).moveIndex (p - specOffset lay r d.val))) else m p := by
  unfold setLocalBoundary
  by_cases ha : bcs d = .antiperiodic
  swap
  · rw [if_neg (fun hh => ha hh.1)]
    funext p; dsimp only; rw [if_neg (fun hh => ha hh.1)]
  by_cases hE : isOnEdge lay r d = true
  swap
  · rw [if_neg (fun hh => hE hh.2)]
    funext p; dsimp only; rw [if_neg (fun hh => hE hh.2.1.1)]
  rw [if_pos ⟨ha, hE⟩]
  dsimp only
  by_cases hN : Needed lay r d
  swap
  · rw [specCount_eq lay h, if_neg hN]
    funext p
    simp [hN]
  have hsc := specCount_eq lay h r d
  rw [if_pos hN] at hsc
  have hidx : ∀ k, k < Nat.count (Edge lay r d) (lay.nodeinfo r).volume →
      (specArrays lay r d).moveIndex k < (lay.nodeinfo r).volume := by
    intro k hk
    obtain ⟨i, hi, hEi, rfl⟩ := count_surj _ _ _ hk
    rw [(specArrays_spec lay r d).2.2 i hi hEi, neighb_spec lay r d i hi, if_neg (undivided_on lay h r d hN.2 i hi)]
    exact onIdx_lt lay r d i (undivided_on lay h r d hN.2 i hi)
  have hspl := count_split (Edge lay r d) (Ev lay r) (lay.nodeinfo r).volume
  set st := if par = .odd then (specCount lay r d).nEven else 0 with hst
  set cnt := if par = .odd then (specCount lay r d).nOdd else if par = .even then (specCount lay r d).nEven
    else (specCount lay r d).nTotal with hcnt
  have htot : st + cnt ≤ Nat.count (Edge lay r d) (lay.nodeinfo r).volume := by
    rw [hst, hcnt, hsc]
    dsimp only
    cases par <;> simp <;> omega
  have hvol : (lay.nodeinfo r).volume ≤ specOffset lay r d.val + st :=
    le_trans (le_trans (volume_le_alloc lay r) (specOffset_ge lay r d.val)) (by omega)
  have := negLoop m (specOffset lay r d.val + st) (lay.nodeinfo r).volume
    (fun j => (specArrays lay r d).moveIndex (st + j)) hvol cnt (fun j hj => hidx _ (by omega))
  beta_reduce at this
  refine Eq.trans this ?_
  funext p
  by_cases hp : specOffset lay r d.val + st ≤ p ∧ p < specOffset lay r d.val + st + cnt
  · rw [if_pos hp, if_pos ⟨ha, hN, hp⟩]
    congr 3; omega
  · rw [if_neg hp, if_neg (fun hh => hp hh.2.2)]

/-- **C68.** The gather of a field with boundary conditions completes on every rank and changes none of its own sites. Afterwards
`X + d` reads, at every visited site: the value at the periodic neighbour, with a minus sign exactly if the direction is antiperiodic and
the step leaves the lattice. A step over a Dirichlet boundary reads what the memory contained before the gather. What is read in other
directions or at other sites is unchanged. This holds for every distribution of the lattice over the ranks without empty ranks, in
particular for divided and undivided directions. -/
theorem C68_gather (lay : Layout n) (h : lay.WF) (hle : ∀ d, lay.ndiv d ≤ lay.L d) (bcs : Dir n → Bc)
    (hbc : ∀ d, bcs (oppDir d) = bcs d) (mem : ℕ → Mem V) (f : Site n → V) (hf : Stores lay mem f) (d : Dir n) (par : Parity)
    (hpar : par ≠ .none) (r : ℕ) (hr : r < lay.numNodes) :
    ∃ m', gatherResultBc lay bcs mem d par r = some m' ∧
      (∀ j, j < (lay.nodeinfo r).volume → m' j = mem r j) ∧
      (∀ c e, lay.InLattice c → lay.nodeRank c = r → Visits par c → IsPeriodicNeighbour lay.L d c e →
        (¬ CrossesBoundary lay.L d c ∨ bcs d = .periodic →
          m' (fieldNeighb lay bcs r d ((lay.nodeinfo r).siteIndex c)) = f e) ∧
        (CrossesBoundary lay.L d c → bcs d = .antiperiodic →
          m' (fieldNeighb lay bcs r d ((lay.nodeinfo r).siteIndex c)) = -f e) ∧
        (CrossesBoundary lay.L d c → bcs d = .dirichlet →
          m' (fieldNeighb lay bcs r d ((lay.nodeinfo r).siteIndex c)) =
            mem r (fieldNeighb lay bcs r d ((lay.nodeinfo r).siteIndex c)))) ∧
      (∀ c d', lay.InLattice c → lay.nodeRank c = r → (d' ≠ d ∨ ¬ Visits par c) →
        m' (fieldNeighb lay bcs r d' ((lay.nodeinfo r).siteIndex c)) =
          mem r (fieldNeighb lay bcs r d' ((lay.nodeinfo r).siteIndex c))) := by
  classical
  -- the message as a message of a periodic field
  let neg : ℕ → Prop := fun s => s ≠ r ∧ bcs d = .antiperiodic ∧ isOnEdge lay s (oppDir d) = true
  let mem' : ℕ → Mem V := fun s i => if neg s then -(mem s i) else mem s i
  let f' : Site n → V := fun e => if neg (lay.nodeRank e) then -f e else f e
  have hmr : mem' r = mem r := by
    funext i; exact if_neg (fun hh : neg r => hh.1 rfl)
  have hst : Stores lay mem' f' := by
    intro c hc
    have := hf c hc
    show (if neg _ then _ else _) = (if neg _ then _ else _)
    rw [this]
  obtain ⟨m1, g1, g2, g3, g4⟩ := C03_gather_reads_neighbour lay h mem' f' hst d par hpar r hr
  rw [hmr] at g2 g4
  set loc := setLocalBoundary lay bcs r d par (mem r) with hloc
  have hlocs := setLocal_spec lay h bcs r d par (mem r)
  rw [← hloc] at hlocs
  -- below the special slots the local copy does nothing
  have hlow : ∀ p, p < fieldAllocSize lay r → loc p = mem r p := by
    intro p hp
    rw [hlocs]
    dsimp only
    rw [if_neg]
    rintro ⟨_, _, hh, _⟩
    have := specOffset_ge lay r d.val
    omega
  -- the result: low part as for a periodic field (unless nothing is communicated), high part from the local copy
  have hres : ∃ m', gatherResultBc lay bcs mem d par r = some m' ∧
      (∀ p, p < fieldAllocSize lay r → m' p = if needComm lay bcs r d then m1 p else mem r p) ∧
      (∀ p, fieldAllocSize lay r ≤ p → m' p = loc p) := by
    unfold gatherResultBc
    dsimp only
    rw [← hloc]
    by_cases hc : (fromNode lay r d).rank ≠ r ∧ needComm lay bcs r d = true
    swap
    · rw [if_neg hc]
      refine ⟨loc, rfl, fun p hp => ?_, fun p _ => rfl⟩
      rw [hlow p hp]
      split
      · rename_i hn
        have hrk : (fromNode lay r d).rank = r := by
          by_contra hne; exact hc ⟨hne, hn⟩
        unfold gatherResult at g1
        simp only [hrk, ne_eq, not_true_eq_false, if_false] at g1
        rw [← Option.some.inj g1, hmr]
      · rfl
    · rw [if_pos hc]
      obtain ⟨hne, hn⟩ := hc
      have hne' : (pass1 lay r d).rank ≠ r := hne
      obtain ⟨p1, p2, p3, p4, p5, p6⟩ := partner_spec lay h r hr d hne'
      obtain ⟨i, hi, ho⟩ := (fromNode_rank_iff lay h r hr d).1 hne'
      have hrank := pass1_rank lay h r hr d i hi ho
      set S := (pass1 lay r d).rank with hS
      have hfr : (fromNode lay r d).rank = S := rfl
      have htr : (toNode lay S d).rank = r := p2
      have hSr : r ≠ S := fun e => hne' e.symm
      have hns : needComm lay bcs S (oppDir d) = true := by
        unfold needComm at hn ⊢
        rw [hbc]
        by_cases hdir : bcs d = .dirichlet
        · simp only [hdir, ne_eq, not_true_eq_false, decide_false, Bool.false_or, Bool.not_eq_true'] at hn ⊢
          rw [hrank]
          by_contra hcon
          rw [Bool.not_eq_false, off_edge_iff lay h r hr d i hi ho] at hcon
          rw [edge_onEdge lay h r d i hi hcon] at hn
          cases hn
        · simp [hdir]
      have hmsg : sentMessageBc lay bcs mem d par S r = sentMessage lay mem' d par S r := by
        unfold sentMessageBc sentMessage
        simp only [htr, hns, and_true]
        rw [if_pos hSr, if_pos hSr]
        congr 2
        funext j
        show _ = if neg S then _ else _
        have : neg S ↔ bcs d = .antiperiodic ∧ isOnEdge lay S (oppDir d) = true :=
          ⟨fun hh => hh.2, fun hh => ⟨hSr.symm, hh⟩⟩
        by_cases hneg : neg S
        · rw [if_pos hneg, if_pos (this.1 hneg)]
        · rw [if_neg hneg, if_neg (fun hh => hneg (this.2 hh))]
      unfold gatherResult at g1
      dsimp only at g1
      rw [if_pos hne, hfr] at g1
      rw [hfr, hmsg]
      generalize sentMessage lay mem' d par S r = msg at g1 ⊢
      cases msg with
      | none => cases g1
      | some l =>
        dsimp only at g1 ⊢
        by_cases hlen : l.length = (fromNode lay r d).nSites par
        swap
        · rw [if_neg hlen] at g1; cases g1
        rw [if_pos hlen] at g1 ⊢
        refine ⟨_, rfl, fun p hp => ?_, fun p hp => ?_⟩
        · rw [if_pos hn, ← Option.some.inj g1, hmr]
          unfold placeAt
          split
          · rfl
          · exact hlow p hp
        · unfold placeAt
          rw [dif_neg]
          have hsucc := cOffset_succ lay r d
          have hmono := cOffset_mono lay r (d.val + 1) (2 * n) d.isLt
          have hbd : (fromNode lay r d).offset par + (fromNode lay r d).nSites par ≤ cOffset lay r (d.val + 1) := by
            rw [hsucc]
            unfold CommNode.offset CommNode.nSites fromNode
            cases par <;> simp <;> omega
          have : fieldAllocSize lay r = cOffset lay r (2 * n) := rfl
          omega
  obtain ⟨m', r1, r2, r3⟩ := hres
  have hfn : ∀ d', fieldNeighb lay bcs r d' =
      if Needed lay r d' ∧ bcs d' ≠ .periodic then (specArrays lay r d').neighbours else neighb lay r d' := by
    intro d'
    unfold fieldNeighb
    rw [specCount_eq lay h]
    by_cases hN : Needed lay r d'
    · rw [if_pos hN]
      by_cases hp : bcs d' = .periodic
      · simp [hp]
      · simp [hp, hN]
    · rw [if_neg hN]; simp [hN]
  refine ⟨m', r1, fun j hj => ?_, fun c e hcl hc hv he => ?_, fun c d' hcl hc hdv => ?_⟩
  · rw [r2 j (lt_of_lt_of_le hj (volume_le_alloc lay r))]
    split
    · exact g2 j hj
    · rfl
  · have g3' := g3 c e hcl hc hv he
    have he' := he
    rw [C03_neighbour_is_periodic lay h] at he'
    have hb := (inBox_iff_nodeRank lay h r hr c hcl).2 hc
    obtain ⟨i1, i2⟩ := coord_siteIndex lay r c hb
    set i := (lay.nodeinfo r).siteIndex c with hi
    have hcr : CrossesBoundary lay.L d c ↔ Edge lay r d i := by
      rw [crosses_iff lay h d c hcl]; unfold Edge; rw [i2]
    have hnb := neighb_lt_alloc lay r d i i1
    have hf'on : ¬ Off lay r d i → f' e = f e := by
      intro ho
      rw [off_iff, not_not, i2, ← he'] at ho
      have hel : lay.InLattice e := by rw [he']; exact neighbour_inLattice lay h c hcl d
      have := (inBox_iff_nodeRank lay h r hr e hel).1 ho
      exact if_neg (fun hh : neg _ => hh.1 this)
    have hf'off : Off lay r d i → f' e = if bcs d = .antiperiodic ∧ Edge lay r d i then -f e else f e := by
      intro ho
      have hoe := off_edge_iff lay h r hr d i i1 ho
      have hne := off_rank_ne lay h r hr c d hb (by rw [off_iff, i2] at ho; exact ho)
      rw [i2, ← he'] at hoe
      rw [← he'] at hne
      have : neg (lay.nodeRank e) ↔ bcs d = .antiperiodic ∧ Edge lay r d i :=
        ⟨fun hh => ⟨hh.2.1, hoe.1 hh.2.2⟩, fun hh => ⟨hne, hh.1, hoe.2 hh.2⟩⟩
      show (if neg _ then _ else _) = _
      by_cases hneg : neg (lay.nodeRank e)
      · rw [if_pos hneg, if_pos (this.1 hneg)]
      · rw [if_neg hneg, if_neg (fun hh => hneg (this.2 hh))]
    -- a regular slot
    have hreg : (¬ Edge lay r d i ∨ bcs d = .periodic ∨ Off lay r d i) → (Edge lay r d i → bcs d ≠ .dirichlet) →
        m' (neighb lay r d i) = if bcs d = .antiperiodic ∧ Edge lay r d i then -f e else f e := by
      intro hcase hnd
      rw [r2 _ hnb]
      have hval : m1 (neighb lay r d i) = if bcs d = .antiperiodic ∧ Edge lay r d i then -f e else f e := by
        rw [g3']
        by_cases ho : Off lay r d i
        · exact hf'off ho
        · rw [hf'on ho, if_neg]
          rintro ⟨ha, hE⟩
          rcases hcase with hh | hh | hh
          · exact hh hE
          · rw [hh] at ha; cases ha
          · exact ho hh
      by_cases hn : needComm lay bcs r d = true
      · rw [if_pos hn]; exact hval
      · rw [if_neg hn]
        unfold needComm at hn
        simp only [ne_eq, Bool.or_eq_true, decide_eq_true_eq, Bool.not_eq_true', not_or, not_not, Bool.not_eq_false] at hn
        have ho : ¬ Off lay r d i := fun ho => hnd (off_onEdge lay h r d i i1 ho hn.2) hn.1
        have hlt : neighb lay r d i < (lay.nodeinfo r).volume := by
          rw [neighb_spec lay r d i i1, if_neg ho]; exact onIdx_lt lay r d i ho
        rw [← g2 _ hlt]; exact hval
    have hspec : ∀ d', Needed lay r d' → bcs d' ≠ .periodic → Edge lay r d' i →
        fieldNeighb lay bcs r d' i = specOffset lay r d'.val + Nat.count (Edge lay r d') i := by
      intro d' hN hp hE
      rw [hfn, if_pos ⟨hN, hp⟩, (specArrays_spec lay r d').2.1 i i1, if_pos hE]
    have hregn : (¬ Needed lay r d ∨ bcs d = .periodic ∨ ¬ Edge lay r d i) → fieldNeighb lay bcs r d i = neighb lay r d i := by
      intro hh
      rw [hfn]
      by_cases hN : Needed lay r d ∧ bcs d ≠ .periodic
      · rw [if_pos hN, (specArrays_spec lay r d).2.1 i i1, if_neg]
        rcases hh with hh | hh | hh
        · exact absurd hN.1 hh
        · exact absurd hh hN.2
        · exact hh
      · rw [if_neg hN]
    refine ⟨fun hcase => ?_, fun hcross hanti => ?_, fun hcross hdir => ?_⟩
    · rw [hcr] at hcase
      rw [hregn (hcase.elim (fun hh => Or.inr (Or.inr hh)) (fun hh => Or.inr (Or.inl hh))),
        hreg (hcase.elim Or.inl (fun hh => Or.inr (Or.inl hh))) ?_, if_neg ?_]
      · rintro ⟨ha, hE⟩
        rcases hcase with hh | hh
        · exact hh hE
        · rw [hh] at ha; cases ha
      · intro hE hd
        rcases hcase with hh | hh
        · exact hh hE
        · rw [hh] at hd; cases hd
    · rw [hcr] at hcross
      by_cases ho : Off lay r d i
      · have hN : ¬ Needed lay r d := fun hN => undivided_on lay h r d hN.2 i i1 ho
        rw [hregn (Or.inl hN), hreg (Or.inr (Or.inr ho)) (fun _ hd => by rw [hanti] at hd; cases hd), if_pos ⟨hanti, hcross⟩]
      · have hN := edge_on_needed lay h hle r d i i1 hcross ho
        obtain ⟨q1, q2, q3⟩ := count_edge_even lay r d i i1 hcross
        have hspl := count_split (Edge lay r d) (Ev lay r) (lay.nodeinfo r).volume
        have hoff := specOffset_ge lay r d.val
        have hev : Ev lay r i ↔ c.parity = .even := by unfold Ev; rw [i2]
        rw [hspec d hN (by rw [hanti]; decide) hcross, r3 _ (by omega), hlocs]
        dsimp only
        rw [if_pos, Nat.add_sub_cancel_left, (specArrays_spec lay r d).2.2 i i1 hcross]
        · have hlt : neighb lay r d i < (lay.nodeinfo r).volume := by
            rw [neighb_spec lay r d i i1, if_neg ho]; exact onIdx_lt lay r d i ho
          rw [← g2 _ hlt, g3', hf'on ho]
        · refine ⟨hanti, hN, ?_⟩
          rw [specCount_eq lay h, if_pos hN]
          dsimp only
          rcases hv with hv | hv
          · subst hv; simp; omega
          · by_cases hE : Ev lay r i
            · have : par = .even := by rw [← hv]; exact hev.1 hE
              subst this
              have := q1 hE
              simp; omega
            · have hpo : par = .odd := by
                have h2 : c.parity ≠ .even := fun hh => hE (hev.2 hh)
                have h3 := q2 hE
                rw [← hv]
                unfold Site.parity CV.parity at h2 ⊢
                split at h2 <;> simp_all
              subst hpo
              have := q2 hE
              simp; omega
    · rw [hcr] at hcross
      have hn : needComm lay bcs r d = false := by
        unfold needComm
        rw [hdir, edge_onEdge lay h r d i i1 hcross]; rfl
      by_cases hN : Needed lay r d
      · rw [hspec d hN (by rw [hdir]; decide) hcross, r3 _ (by have := specOffset_ge lay r d.val; omega), hlocs]
        dsimp only
        rw [if_neg (fun hh => by rw [hdir] at hh; cases hh.1)]
      · rw [hregn (Or.inl hN), r2 _ hnb, if_neg (by rw [hn]; decide)]
  · have hb := (inBox_iff_nodeRank lay h r hr c hcl).2 hc
    obtain ⟨i1, i2⟩ := coord_siteIndex lay r c hb
    have g4' := g4 c d' hcl hc hdv
    set i := (lay.nodeinfo r).siteIndex c with hi
    have hnb := neighb_lt_alloc lay r d' i i1
    by_cases hS : Needed lay r d' ∧ bcs d' ≠ .periodic ∧ Edge lay r d' i
    · obtain ⟨hN, hp, hE⟩ := hS
      have e1 : fieldNeighb lay bcs r d' i = specOffset lay r d'.val + Nat.count (Edge lay r d') i := by
        rw [hfn, if_pos ⟨hN, hp⟩, (specArrays_spec lay r d').2.1 i i1, if_pos hE]
      obtain ⟨q1, q2, q3⟩ := count_edge_even lay r d' i i1 hE
      have hoff := specOffset_ge lay r d'.val
      rw [e1, r3 _ (by omega), hlocs]
      dsimp only
      rw [if_neg]
      rintro ⟨ha, hN', hlo, hhi⟩
      have hsc := specCount_eq lay h r d
      rw [if_pos hN'] at hsc
      have hsc' := specCount_eq lay h r d'
      rw [if_pos hN] at hsc'
      have hspl := count_split (Edge lay r d) (Ev lay r) (lay.nodeinfo r).volume
      have s1 := specOffset_succ lay r d
      have s2 := specOffset_succ lay r d'
      rw [hsc] at s1 hlo hhi
      rw [hsc'] at s2
      dsimp only at s1 s2 hlo hhi
      have hup : specOffset lay r d'.val + Nat.count (Edge lay r d') i < specOffset lay r (d.val + 1) := by
        rw [s1]
        refine lt_of_lt_of_le hhi ?_
        cases par <;> simp <;> omega
      rcases Nat.lt_trichotomy d'.val d.val with hlt | heq | hgt
      · have := specOffset_mono lay r (d'.val + 1) d.val hlt
        omega
      · have hd : d' = d := Fin.ext heq
        subst hd
        rcases hdv with hdv | hdv
        · exact hdv rfl
        · have hev : Ev lay r i ↔ c.parity = .even := by unfold Ev; rw [i2]
          apply hdv
          cases par
          · exact absurd rfl hpar
          · right
            simp at hlo hhi
            by_contra hne
            have := q2 (fun hh => hne (hev.1 hh))
            omega
          · right
            simp at hlo hhi
            have : ¬ Ev lay r i := fun hh => by have := q1 hh; omega
            have h2 : c.parity ≠ .even := fun hh => this (hev.2 hh)
            unfold Site.parity CV.parity at h2 ⊢
            split at h2 <;> simp_all
          · left; rfl
      · have := specOffset_mono lay r (d.val + 1) d'.val hgt
        omega
    · have e1 : fieldNeighb lay bcs r d' i = neighb lay r d' i := by
        rw [hfn]
        by_cases hN : Needed lay r d' ∧ bcs d' ≠ .periodic
        · rw [if_pos hN, (specArrays_spec lay r d').2.1 i i1, if_neg (fun hE => hS ⟨hN.1, hN.2, hE⟩)]
        · rw [if_neg hN]
      rw [e1, r2 _ hnb]
      split
      · exact g4'
      · rfl

end

/-- **C68.** The table of boundary conditions is always the same in both orientations of a direction: it holds for a new field
(all periodic) and after every call of `set_boundary_condition`. This is the assumption of `C68_gather`. -/
theorem C68_table {n : ℕ} (calls : List (Dir n × Bc)) (d : Dir n) :
    let t := calls.foldl (fun t p => setBoundaryCondition t p.1 p.2) (fun _ => .periodic)
    t (oppDir d) = t d ∧
    ∀ a bc, setBoundaryCondition t a bc a = bc ∧ setBoundaryCondition t a bc (oppDir a) = bc ∧
      ∀ b, b ≠ a → b ≠ oppDir a → setBoundaryCondition t a bc b = t b := by
  intro t
  constructor
  · show (calls.foldl _ _ : Dir n → Bc) _ = (calls.foldl _ _ : Dir n → Bc) _
    suffices h : ∀ t0 : Dir n → Bc, (∀ d, t0 (oppDir d) = t0 d) →
        ∀ d, (calls.foldl (fun t p => setBoundaryCondition t p.1 p.2) t0) (oppDir d) =
          (calls.foldl (fun t p => setBoundaryCondition t p.1 p.2) t0) d from h _ (fun _ => rfl) d
    induction calls with
    | nil => intro t0 h0 d; exact h0 d
    | cons p l ih =>
      intro t0 h0 d
      refine ih _ (fun d => ?_) d
      unfold setBoundaryCondition
      beta_reduce
      by_cases h1 : d = oppDir p.1
      · subst h1
        rw [oppDir_oppDir, Function.update_self]
        by_cases h2 : p.1 = oppDir p.1
        · rw [← h2, Function.update_self]
        · rw [Function.update_of_ne h2, Function.update_self]
      · rw [Function.update_of_ne h1]
        by_cases h2 : d = p.1
        · subst h2; rw [Function.update_self, Function.update_self]
        · have h3 : oppDir d ≠ oppDir p.1 := fun hh => h2 (by rw [← oppDir_oppDir d, hh, oppDir_oppDir])
          have h4 : oppDir d ≠ p.1 := fun hh => h1 (by rw [← hh, oppDir_oppDir])
          rw [Function.update_of_ne h3, Function.update_of_ne h4, Function.update_of_ne h2, h0]
  · intro a bc
    unfold setBoundaryCondition
    refine ⟨?_, Function.update_self .., fun b h1 h2 => ?_⟩
    · by_cases h2 : a = oppDir a
      · conv_lhs => arg 4; rw [h2]
        rw [Function.update_self]
      · rw [Function.update_of_ne h2, Function.update_self]
    · rw [Function.update_of_ne h2, Function.update_of_ne h1]

/-- **C68.** Sends and receives match: rank `s` sends to `r` exactly if `r` waits for a message of `s`, also where a Dirichlet boundary
switches off the communication. -/
theorem C68_messages {n : ℕ} {V : Type} [Neg V] (lay : Layout n) (h : lay.WF) (bcs : Dir n → Bc) (hbc : ∀ d, bcs (oppDir d) = bcs d)
    (mem : ℕ → Mem V) (d : Dir n) (par : Parity) (s r : ℕ) (hs : s < lay.numNodes) (hr : r < lay.numNodes) :
    (∃ l, sentMessageBc lay bcs mem d par s r = some l) ↔
      (fromNode lay r d).rank = s ∧ s ≠ r ∧ needComm lay bcs r d = true := by
  -- the two sides of one face
  have key : (fromNode lay r d).rank = s → s ≠ r → (needComm lay bcs s (oppDir d) = true ↔ needComm lay bcs r d = true) := by
    intro h1 h2
    have hne : (pass1 lay r d).rank ≠ r := fun hh => h2 (h1.symm.trans hh)
    obtain ⟨i, hi, ho⟩ := (fromNode_rank_iff lay h r hr d).1 hne
    have hrank := pass1_rank lay h r hr d i hi ho
    have h1' : (pass1 lay r d).rank = s := h1
    rw [h1'] at hrank
    have hE := off_edge_iff lay h r hr d i hi ho
    rw [← hrank] at hE
    have hE2 : isOnEdge lay s (oppDir d) = true ↔ isOnEdge lay r d = true :=
      hE.trans ⟨edge_onEdge lay h r d i hi, off_onEdge lay h r d i hi ho⟩
    unfold needComm
    rw [hbc, Bool.eq_iff_iff.2 hE2]
  constructor
  · rintro ⟨l, hl⟩
    unfold sentMessageBc at hl
    dsimp only at hl
    split at hl
    swap
    · cases hl
    rename_i hc
    obtain ⟨c1, c2, c3⟩ := hc
    rcases C04_sent_is_expected lay h s hs d with ⟨k1, _⟩ | ⟨_, _, _, k4, _⟩
    · exact absurd k1 c1
    · rw [c3] at k4
      have hsr : s ≠ r := fun hh => c1 (c3.trans hh.symm)
      exact ⟨k4, hsr, (key k4 hsr).1 c2⟩
  · rintro ⟨h1, h2, h3⟩
    rcases C04_expected_is_sent lay h r hr d with ⟨k1, _⟩ | ⟨_, _, _, k4, _⟩
    · exact absurd (h1.symm.trans k1) h2
    · rw [h1] at k4
      refine ⟨_, if_pos ⟨?_, (key h1 h2).2 h3, k4⟩⟩
      rw [k4]; exact h2.symm

/-- **C68.** The additional elements of the boundary are inside the allocation, above the sites and the halo, and no two boundary sites or
directions share one; the assertion in `setup_special_boundary_array` (lattice.cpp:1024) never fires. -/
theorem C68_slots {n : ℕ} (lay : Layout n) (h : lay.WF) (r : ℕ) (d : Dir n) (hN : (specCount lay r d).isNeeded = true) :
    (specArrays lay r d).k = (specCount lay r d).nTotal ∧
    ∀ i, i < (lay.nodeinfo r).volume → CrossesBoundary lay.L d ((lay.nodeinfo r).coord i) →
      fieldAllocSize lay r ≤ (specArrays lay r d).neighbours i ∧ (specArrays lay r d).neighbours i < fieldAllocSizeBc lay r ∧
      ∀ d' i', (specCount lay r d').isNeeded = true → i' < (lay.nodeinfo r).volume →
        CrossesBoundary lay.L d' ((lay.nodeinfo r).coord i') →
        (specArrays lay r d').neighbours i' = (specArrays lay r d).neighbours i → d' = d ∧ i' = i := by
  have hneed : ∀ d', (specCount lay r d').isNeeded = true →
      (specCount lay r d').nTotal = Nat.count (Edge lay r d') (lay.nodeinfo r).volume := by
    intro d' hh
    rw [specCount_eq lay h] at hh ⊢
    by_cases hx : Needed lay r d'
    · rw [if_pos hx]
    · rw [if_neg hx] at hh; cases hh
  have hedge : ∀ d' i', i' < (lay.nodeinfo r).volume → CrossesBoundary lay.L d' ((lay.nodeinfo r).coord i') → Edge lay r d' i' := by
    intro d' i' hi' hc
    exact (crosses_iff lay h d' _ (inBox_inLattice lay h r _ (coord_spec lay r i' hi').1)).1 hc
  refine ⟨by rw [(specArrays_spec lay r d).1, hneed d hN], fun i hi hc => ?_⟩
  have hE := hedge d i hi hc
  have e1 := (specArrays_spec lay r d).2.1 i hi
  rw [if_pos hE] at e1
  have q := count_lt_of _ _ _ hi hE
  have s1 := specOffset_succ lay r d
  rw [hneed d hN] at s1
  have hge := specOffset_ge lay r d.val
  have hmono := specOffset_mono lay r (d.val + 1) (2 * n) d.isLt
  refine ⟨by omega, by unfold fieldAllocSizeBc; omega, fun d' i' hN' hi' hc' heq => ?_⟩
  have hE' := hedge d' i' hi' hc'
  have e2 := (specArrays_spec lay r d').2.1 i' hi'
  rw [if_pos hE'] at e2
  have q' := count_lt_of _ _ _ hi' hE'
  have s2 := specOffset_succ lay r d'
  rw [hneed d' hN'] at s2
  rcases Nat.lt_trichotomy d'.val d.val with hlt | hq | hgt
  · have := specOffset_mono lay r (d'.val + 1) d.val hlt; omega
  · have hd : d' = d := Fin.ext hq
    subst hd
    exact ⟨rfl, count_inj_of _ _ _ hE' hE (by omega)⟩
  · have := specOffset_mono lay r (d.val + 1) d'.val hgt; omega

/-! ### Shifts -/

/-- Specification: the value that the field extended to the whole plane by its boundary conditions has at `c + v`, where `e` is the
periodic image of `c + v`. The sign is that of the number of boundaries crossed. -/
def extended {n : ℕ} {V : Type} [Neg V] (L : Site n) (anti : Fin n → Bool) (f : Site n → V) (v : CV n) (c e : Site n) : V :=
  if Even (∑ b, if anti b then ((c b : ℤ) + v b) / L b else 0) then f e else -f e

theorem chooseMove_spec {n : ℕ} (ready : Dir n → Bool) (v : CV n) (hv0 : v ≠ 0) :
    ∃ a, v a ≠ 0 ∧ chooseMove ready v = some (towards (v a) a) := by
  unfold chooseMove
  cases hr : firstMove ready v with
  | some d =>
    obtain ⟨a, ha, hd⟩ := firstMove_spec ready v d hr
    exact ⟨a, ha, by simp [hd]⟩
  | none =>
    have := firstMove_exists v hv0
    obtain ⟨d, hd⟩ := Option.isSome_iff_exists.1 this
    obtain ⟨a, ha, hda⟩ := firstMove_spec _ v d hd
    exact ⟨a, ha, by simp [hd, hda]⟩

theorem isUp_towards {n : ℕ} (x : ℤ) (a : Fin n) : isUp (towards x a) = decide (0 < x) := by
  unfold towards; split
  · rename_i h; rw [isUp_upDir]; simp [h]
  · rename_i h; rw [isUp_oppDir, isUp_upDir]; simp [h]

/-- **C68 (partial).** A shift takes the boundary conditions into account if it is at most one step long, or if it does not move in an
antiperiodic direction. What is missing is any longer shift; `C68_shift_wrong` shows that it is not correct. -/
theorem C68_shift_partial {n : ℕ} {V : Type} [Neg V] (lay : Layout n) (h : lay.WF) (bcs : Dir n → Bc)
    (hbc : ∀ d, bcs (oppDir d) = bcs d) (ready : Dir n → Bool) (f : Site n → V) (v : CV n) (res : Site n → Option V)
    (hv : v.normL1 ≤ 1 ∨ ∀ b, bcs (upDir b) = .antiperiodic → v b = 0) :
    ∃ g, shiftBc lay bcs ready f v res .all = some g ∧
      ∀ c e, lay.InLattice c → IsPeriodicShift lay.L v c e →
        g c = some (extended lay.L (fun b => bcs (upDir b) = .antiperiodic) f v c e) := by
  have hbt : ∀ x a, bcs (towards x a) = bcs (upDir a) := by
    intro x a; unfold towards; split
    · rfl
    · exact hbc _
  -- no step in an antiperiodic direction
  have hzero : ∀ c e, lay.InLattice c → (∀ b, bcs (upDir b) = .antiperiodic → v b = 0) →
      extended lay.L (fun b => bcs (upDir b) = .antiperiodic) f v c e = f e := by
    intro c e hc h0
    unfold extended
    rw [if_pos]
    rw [Finset.sum_eq_zero]
    · exact Even.zero
    · intro b _
      by_cases hb : bcs (upDir b) = .antiperiodic
      · have hcb := hc b
        rw [h0 b hb, add_zero, Int.ediv_eq_zero_of_lt (by omega) (by omega)]; simp
      · simp [hb]
  by_cases hv0 : v = 0
  · subst hv0
    have hn0 : (0 : CV n).normL1 = 0 := by simp [CV.normL1]
    refine ⟨_, by unfold shiftBc; rw [hn0]; exact if_pos rfl, fun c e hc he => ?_⟩
    rw [hzero c e hc (fun _ _ => rfl)]
    rw [isPeriodicShift_iff lay h] at he
    have : e = c := by
      have h1 : IsPeriodicShift lay.L 0 c c := fun b => ⟨hc b, by simp⟩
      rw [isPeriodicShift_iff lay h] at h1
      rw [he, ← h1]
    subst this
    simp [Parity.visits]
  by_cases hz : ∀ b, bcs (upDir b) = .antiperiodic → v b = 0
  · have hsame : shiftBc lay bcs ready f v res .all = shift lay ready f v res .all := by
      obtain ⟨a, ha, hmd⟩ := chooseMove_spec ready v hv0
      have hread : ∀ c, readBc lay bcs f (towards (v a) a) c = f (lay.neighbour c (towards (v a) a)) := by
        intro c
        unfold readBc
        rw [if_neg]
        rintro ⟨h1, _⟩
        rw [hbt] at h1
        exact ha (hz a h1)
      unfold shiftBc shift
      dsimp only
      rw [hmd, Option.map_some, Option.map_some]
      simp only [hread]
      rfl
    rw [hsame]
    obtain ⟨g, g1, g2⟩ := C06_shift lay h ready f v res
    exact ⟨g, g1, fun c e hc he => by rw [g2 c e hc he, hzero c e hc hz]⟩
  · have hle : v.normL1 ≤ 1 := hv.resolve_right hz
    obtain ⟨a, ha, hmd⟩ := chooseMove_spec ready v hv0
    have hsum : v.normL1 = |v a| + ∑ b ∈ Finset.univ.erase a, |v b| := by
      unfold CV.normL1; exact (Finset.add_sum_erase _ (fun b => |v b|) (Finset.mem_univ a)).symm
    have hpos : 1 ≤ |v a| := Int.one_le_abs ha
    have hrest : 0 ≤ ∑ b ∈ Finset.univ.erase a, |v b| := Finset.sum_nonneg fun b _ => abs_nonneg _
    have hothers : ∀ b, b ≠ a → v b = 0 := by
      intro b hb
      have h1 : |v b| ≤ ∑ b ∈ Finset.univ.erase a, |v b| :=
        Finset.single_le_sum (f := fun b => |v b|) (fun b _ => abs_nonneg _) (Finset.mem_erase.2 ⟨hb, Finset.mem_univ b⟩)
      exact abs_eq_zero.1 (le_antisymm (by omega) (abs_nonneg _))
    have hlen : v.normL1 = 1 := by omega
    have hva : |v a| = 1 := by omega
    have hvdir : v = CV.ofDir (towards (v a) a) := by
      funext b
      rw [ofDir_apply, axis_towards, isUp_towards]
      by_cases hb : b = a
      · subst hb
        rw [if_pos rfl]
        rcases abs_eq (by norm_num : (0:ℤ) ≤ 1) |>.1 hva with h1 | h1 <;> simp [h1]
      · rw [if_neg hb, hothers b hb]
    refine ⟨_, by unfold shiftBc; dsimp only; rw [hlen, if_neg (by norm_num), hmd, Option.map_some, if_pos rfl], fun c e hc he => ?_⟩
    have he2 : e = lay.neighbour c (towards (v a) a) := by
      rw [← C03_neighbour_is_periodic lay h]
      intro b
      have := he b
      rw [hvdir] at this
      exact this
    have hvis : ∀ p : Parity, (if (1 : ℤ).tmod 2 = 0 then oppParity Parity.all else Parity.all).visits p = true := by
      intro p; cases p <;> decide
    rw [hvis]
    simp only [if_true]
    congr 1
    unfold readBc extended
    rw [← he2, hbt, axis_towards, isUp_towards]
    have hca := hc a
    have hs : (∑ b, if (decide (bcs (upDir b) = .antiperiodic)) = true then ((c b : ℤ) + v b) / (lay.L b : ℤ) else 0) =
        if bcs (upDir a) = .antiperiodic then ((c a : ℤ) + v a) / (lay.L a : ℤ) else 0 := by
      rw [Finset.sum_eq_single a]
      · simp
      · intro b _ hb
        have hcb := hc b
        rw [hothers b hb, add_zero, Int.ediv_eq_zero_of_lt (by omega) (by omega)]; simp
      · intro hh; exact absurd (Finset.mem_univ a) hh
    rw [hs]
    by_cases hb : bcs (upDir a) = .antiperiodic
    swap
    · rw [if_neg (fun hh => hb hh.1), if_neg hb, if_pos Even.zero]
    rw [if_pos hb]
    rcases abs_eq (by norm_num : (0:ℤ) ≤ 1) |>.1 hva with h1 | h1
    · rw [h1]
      by_cases hedge : c a = lay.L a - 1
      · have : ((c a : ℤ) + 1) / lay.L a = 1 := by
          rw [show ((c a : ℤ) + 1) = lay.L a by omega, Int.ediv_self (by omega)]
        rw [this, if_pos ⟨hb, by simpa using hedge⟩, if_neg (by decide)]
      · have : ((c a : ℤ) + 1) / lay.L a = 0 := Int.ediv_eq_zero_of_lt (by omega) (by omega)
        rw [this, if_neg (fun hh => hedge (by simpa using hh.2)), if_pos Even.zero]
    · rw [h1]
      by_cases hedge : c a = 0
      · have : ((c a : ℤ) + -1) / lay.L a = -1 := by
          rw [hedge]
          simp only [Nat.cast_zero, zero_add]
          exact Int.ediv_eq_neg_one_of_neg_of_le (by omega) (by omega)
        rw [this, if_pos ⟨hb, by simpa using hedge⟩, if_neg (by decide)]
      · have : ((c a : ℤ) + -1) / lay.L a = 0 := Int.ediv_eq_zero_of_lt (by omega) (by omega)
        rw [this, if_neg (fun hh => hedge (by simpa using hh.2)), if_pos Even.zero]

/-- One direction of four sites, not divided. -/
def line4 : Layout 1 := ⟨fun _ => 4, fun _ => 1, id, id⟩

theorem line4_wf : line4.WF :=
  ⟨by decide, by decide, fun _ h => h, fun _ h => h, fun _ _ => rfl, fun _ _ => rfl⟩

/-- **C68, negation.** A longer shift loses the sign: on four antiperiodic sites, shift by 2, at site 3 the result is `f(1)` and not
`-f(1)`. The second step reads a temporary field, which is periodic. -/
theorem C68_shift_wrong :
    ¬ ∀ (v : CV 1) (f : Site 1 → ℤ), ∃ g, shiftBc line4 (fun _ => .antiperiodic) (fun _ => false) f v (fun _ => none) .all = some g ∧
      ∀ c e, line4.InLattice c → IsPeriodicShift line4.L v c e →
        g c = some (extended line4.L (fun _ => true) f v c e) := by
  intro hh
  obtain ⟨g, h1, h2⟩ := hh ![2] (fun c => c 0)
  have h3 := h2 ![3] ![1] (by unfold Layout.InLattice; decide) (by unfold IsPeriodicShift; decide)
  have h4 : (shiftBc line4 (fun _ => .antiperiodic) (fun _ => false) (fun c => ((c 0 : ℕ) : ℤ)) ![2] (fun _ => none) .all).map
      (fun g => g ![3]) = some (some 1) := by decide +kernel
  rw [h1, Option.map_some, h3] at h4
  revert h4
  unfold extended
  decide

/-! ### Concrete cases -/

/-- The assumptions of `C68_gather` are met on six ranks with a divided and an undivided direction. -/
def slab : Layout 2 := ⟨![4, 3], ![2, 1], id, id⟩

theorem slab_wf : slab.WF :=
  ⟨by decide, by decide, fun _ h => h, fun _ h => h, fun _ _ => rfl, fun _ _ => rfl⟩

/-- Antiperiodic in both directions of `slab`; the field is stored on two ranks. Site (0,2) of rank 0 reads `-f` of (0,0) upwards in the
undivided direction 1, and `-f` of (3,2) on the other rank downwards in direction 0. -/
example : (∀ d, slab.ndiv d ≤ slab.L d) ∧ CrossesBoundary slab.L 1 ![0, 2] ∧ IsPeriodicNeighbour slab.L 1 ![0, 2] ![0, 0] ∧
    CrossesBoundary slab.L 3 ![0, 2] ∧ IsPeriodicNeighbour slab.L 3 ![0, 2] ![3, 2] ∧ slab.nodeRank ![0, 2] = 0 ∧
    slab.nodeRank ![3, 2] = 1 ∧ (specCount slab 0 1).isNeeded = true ∧ (specCount slab 0 3).isNeeded = false := by
  refine ⟨by decide, ?_, ?_, ?_, ?_, by decide +kernel, by decide +kernel, by decide +kernel, by decide +kernel⟩
  · rw [crosses_iff slab slab_wf 1 _ (by unfold Layout.InLattice; decide)]; decide
  · unfold IsPeriodicNeighbour; decide
  · rw [crosses_iff slab slab_wf 3 _ (by unfold Layout.InLattice; decide)]; decide
  · unfold IsPeriodicNeighbour; decide

/-- A case of `C68_shift_partial` with a boundary crossing, and one of its second alternative. -/
example : CV.normL1 (![1] : CV 1) ≤ 1 ∧ extended line4.L (fun _ => true) (fun c => ((c 0 : ℕ) : ℤ) + 5) ![1] ![3] ![0] = -5 ∧
    extended slab.L ![true, false] (fun c => ((c 0 : ℕ) : ℤ)) ![0, 7] ![3, 1] ![3, 2] = 3 := by
  unfold extended; decide

end Hila
