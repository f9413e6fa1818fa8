import Verif.Model.Clusters
import Verif.Lemmas.Gather
import Verif.Lemmas.SiteSelect
import Mathlib.Logic.Relation
import Mathlib.Data.Fintype.Pi
import Mathlib.Algebra.BigOperators.Group.Finset.Basic
import Mathlib.Algebra.Order.BigOperators.Group.Finset

/-! # Lemmas about the cluster finder -/

namespace Hila

variable {n : ℕ}

theorem clLabelType_eq (v : ℕ) : clLabelType v = v / 18014398509481984 % 256 := by
  unfold clLabelType
  rw [Nat.and_comm, show (255 : ℕ) = 2 ^ 8 - 1 by norm_num, Nat.and_two_pow_sub_one_eq_mod,
    Nat.shiftRight_eq_div_pow]

theorem setClLabel_bg (L c : Site n) : setClLabel L c 255 = 255 * 18014398509481984 := by
  unfold setClLabel clBackground
  rw [if_pos rfl, Nat.shiftLeft_eq]

theorem setClLabel_eq (L c : Site n) (t : ℕ) (ht : t ≠ 255)
    (hi : siteIndexValue L c < 18014398509481984) :
    setClLabel L c t = siteIndexValue L c + t * 18014398509481984 := by
  unfold setClLabel clBackground
  rw [if_neg ht, Nat.or_comm, ← Nat.shiftLeft_add_eq_or_of_lt (by norm_num; exact hi),
    Nat.shiftLeft_eq]
  norm_num
  omega

theorem clLabelType_set (L c : Site n) (t : ℕ) (ht : t < 256)
    (hi : siteIndexValue L c < 18014398509481984) : clLabelType (setClLabel L c t) = t := by
  rw [clLabelType_eq]
  by_cases h : t = 255
  · subst h; rw [setClLabel_bg]
  · rw [setClLabel_eq L c t h hi]; omega

/-! ### The relaxation -/

/-- Nearest neighbours with the same type. -/
def SameTypeStep (lay : Layout n) (type : Site n → ℕ) (a b : Site n) : Prop :=
  (∃ d, b = lay.neighbour a d) ∧ type a = type b

/-- Connected by steps between nearest neighbours of the same type. -/
abbrev Conn (lay : Layout n) (type : Site n → ℕ) : Site n → Site n → Prop :=
  Relation.ReflTransGen (SameTypeStep lay type)

theorem Conn.type_eq {lay : Layout n} {type : Site n → ℕ} {a b : Site n} (h : Conn lay type a b) :
    type a = type b := by
  induction h with
  | refl => rfl
  | tail _ h2 ih => exact ih.trans h2.2

theorem Conn.inLattice {lay : Layout n} (hw : lay.WF) {type : Site n → ℕ} {a b : Site n}
    (h : Conn lay type a b) (ha : lay.InLattice a) : lay.InLattice b := by
  induction h with
  | refl => exact ha
  | tail _ h2 ih => obtain ⟨⟨d, rfl⟩, _⟩ := h2; exact neighbour_inLattice lay hw _ ih d

theorem Conn.symm {lay : Layout n} (hw : lay.WF) {type : Site n → ℕ} {a b : Site n}
    (h : Conn lay type a b) (ha : lay.InLattice a) : Conn lay type b a := by
  induction h with
  | refl => exact .refl
  | @tail b c h1 h2 ih =>
    obtain ⟨⟨d, rfl⟩, h3⟩ := h2
    exact Relation.ReflTransGen.head
      ⟨⟨oppDir d, (neighbour_back lay hw _ (Conn.inLattice hw h1 ha) d).symm⟩, h3.symm⟩ ih

/-- Every label is the initial label of a site of the same component. -/
def LabelInv (lay : Layout n) (type init cur : Site n → ℕ) : Prop :=
  ∀ c, lay.InLattice c → (∃ e, Conn lay type c e ∧ cur c = init e) ∧ cur c ≤ init c

section
variable {lay : Layout n} (hw : lay.WF) {type init : Site n → ℕ}
  (hinit : ∀ c, lay.InLattice c → clLabelType (init c) = type c)

include hw hinit in
theorem LabelInv.type_eq {cur : Site n → ℕ} (h : LabelInv lay type init cur) {c : Site n}
    (hc : lay.InLattice c) : clLabelType (cur c) = type c := by
  obtain ⟨⟨e, h1, h2⟩, _⟩ := h c hc
  rw [h2, hinit e (Conn.inLattice hw h1 hc), h1.type_eq]

include hw hinit in
theorem relabelDir_inv {old : Site n → ℕ} (hold : LabelInv lay type init old)
    (useOld : Site n → Dir n → Bool) (c : Site n) (hc : lay.InLattice c) (s : (Site n → ℕ) × ℕ)
    (hs : LabelInv lay type init s.1) (d : Dir n) :
    LabelInv lay type init (relabelDir lay old useOld c (type c) s d).1 := by
  unfold relabelDir
  dsimp only
  split
  · rename_i hcond
    intro x hx
    by_cases hxc : x = c
    · subst hxc
      have hnb := neighbour_inLattice lay hw x hx d
      have key : ∃ e, Conn lay type (lay.neighbour x d) e ∧
          readLabel lay old s.1 useOld x d = init e := by
        unfold readLabel
        split
        · exact (hold _ hnb).1
        · exact (hs _ hnb).1
      obtain ⟨e, h1, h2⟩ := key
      dsimp only
      rw [Function.update_self]
      refine ⟨⟨e, Relation.ReflTransGen.head ⟨⟨d, rfl⟩, ?_⟩ h1, h2⟩, ?_⟩
      · rw [hcond.1, h2, hinit e (Conn.inLattice hw h1 hnb), h1.type_eq]
      · exact le_trans (le_of_lt hcond.2) (hs x hx).2
    · dsimp only; rw [Function.update_of_ne hxc]; exact hs x hx
  · exact hs

theorem foldl_inv {A B : Type*} (f : A → B → A) (P : A → Prop) (l : List B)
    (h : ∀ a b, b ∈ l → P a → P (f a b)) (a : A) (ha : P a) : P (l.foldl f a) := by
  induction l generalizing a with
  | nil => exact ha
  | cons b l ih =>
    exact ih (fun a b' hb' => h a b' (List.mem_cons_of_mem _ hb')) _
      (h a b (List.mem_cons_self) ha)

include hw hinit in
theorem relabelSite_inv {old : Site n → ℕ} (hold : LabelInv lay type init old)
    (useOld : Site n → Dir n → Bool) (s : (Site n → ℕ) × ℕ) (hs : LabelInv lay type init s.1)
    (c : Site n) (hc : lay.InLattice c) :
    LabelInv lay type init (relabelSite lay old useOld s c).1 := by
  unfold relabelSite
  split
  · rw [hs.type_eq hw hinit hc]
    exact foldl_inv _ (fun s => LabelInv lay type init s.1) _
      (fun a b _ ha => relabelDir_inv hw hinit hold useOld c hc a ha b) s hs
  · exact hs

include hw hinit in
theorem relabelLoop_inv (order : List (Site n)) (ho : ∀ c ∈ order, lay.InLattice c)
    (useOld : Site n → Dir n → Bool) (s : (Site n → ℕ) × ℕ) (hs : LabelInv lay type init s.1) :
    LabelInv lay type init (relabelLoop lay order useOld s).1 :=
  foldl_inv _ (fun s => LabelInv lay type init s.1) _
    (fun a b hb ha => relabelSite_inv hw hinit hs useOld a ha b (ho b hb)) s hs

end

/-! ### Progress -/

/-- From state `s` to state `t` the labels did not increase, and the counter tells whether a label of
a lattice site decreased. -/
def Progress (lay : Layout n) (s t : (Site n → ℕ) × ℕ) : Prop :=
  (∀ c, t.1 c ≤ s.1 c) ∧ (t = s ∨ (s.2 < t.2 ∧ ∃ c, lay.InLattice c ∧ t.1 c < s.1 c))

theorem Progress.refl (lay : Layout n) (s : (Site n → ℕ) × ℕ) : Progress lay s s :=
  ⟨fun _ => le_refl _, .inl rfl⟩

theorem Progress.trans {lay : Layout n} {s t u : (Site n → ℕ) × ℕ} (h1 : Progress lay s t)
    (h2 : Progress lay t u) : Progress lay s u := by
  refine ⟨fun c => le_trans (h2.1 c) (h1.1 c), ?_⟩
  rcases h1.2 with h | ⟨h, c, hc, hl⟩
  · subst h; exact h2.2
  · right
    rcases h2.2 with h' | ⟨h', -⟩
    · subst h'; exact ⟨h, c, hc, hl⟩
    · exact ⟨by omega, c, hc, lt_of_le_of_lt (h2.1 c) hl⟩

theorem Progress.le {lay : Layout n} {s t : (Site n → ℕ) × ℕ} (h : Progress lay s t) : s.2 ≤ t.2 := by
  rcases h.2 with h | ⟨h, -⟩
  · rw [h]
  · omega

theorem Progress.eq_of {lay : Layout n} {s t : (Site n → ℕ) × ℕ} (h : Progress lay s t)
    (he : t.2 = s.2) : t = s := by
  rcases h.2 with h | ⟨h, -⟩
  · exact h
  · omega

theorem relabelDir_progress (lay : Layout n) (old : Site n → ℕ) (useOld : Site n → Dir n → Bool)
    (c : Site n) (hc : lay.InLattice c) (t0 : ℕ) (s : (Site n → ℕ) × ℕ) (d : Dir n) :
    Progress lay s (relabelDir lay old useOld c t0 s d) := by
  unfold relabelDir
  dsimp only
  split
  · rename_i h
    refine ⟨fun x => ?_, .inr ⟨Nat.lt_succ_self _, c, hc, ?_⟩⟩
    · dsimp only
      by_cases hx : x = c
      · subst hx; rw [Function.update_self]; exact le_of_lt h.2
      · rw [Function.update_of_ne hx]
    · dsimp only; rw [Function.update_self]; exact h.2
  · exact Progress.refl lay s

theorem foldl_progress {B : Type*} (lay : Layout n)
    (f : (Site n → ℕ) × ℕ → B → (Site n → ℕ) × ℕ) (l : List B)
    (h : ∀ s, ∀ b ∈ l, Progress lay s (f s b)) (s : (Site n → ℕ) × ℕ) :
    Progress lay s (l.foldl f s) := by
  induction l generalizing s with
  | nil => exact Progress.refl lay s
  | cons b l ih =>
    exact (h s b List.mem_cons_self).trans (ih (fun s b hb => h s b (List.mem_cons_of_mem _ hb)) _)

/-- If a fold leaves the counter as it was, no step changed anything. -/
theorem foldl_quiet {B : Type*} (lay : Layout n)
    (f : (Site n → ℕ) × ℕ → B → (Site n → ℕ) × ℕ) (l : List B)
    (h : ∀ s, ∀ b ∈ l, Progress lay s (f s b)) (s : (Site n → ℕ) × ℕ)
    (hq : (l.foldl f s).2 = s.2) : ∀ b ∈ l, f s b = s := by
  induction l generalizing s with
  | nil => intro b hb; cases hb
  | cons b l ih =>
    have h' : ∀ s, ∀ b ∈ l, Progress lay s (f s b) := fun s b hb => h s b (List.mem_cons_of_mem _ hb)
    have h1 := h s b List.mem_cons_self
    have h2 := foldl_progress lay f l h' (f s b)
    have e : f s b = s := by
      apply h1.eq_of
      have := h1.le; have := h2.le
      rw [List.foldl_cons] at hq; omega
    intro x hx
    rcases List.mem_cons.1 hx with rfl | hx
    · exact e
    · rw [List.foldl_cons, e] at hq; exact ih h' s hq x hx

theorem relabelSite_progress (lay : Layout n) (old : Site n → ℕ) (useOld : Site n → Dir n → Bool)
    (c : Site n) (hc : lay.InLattice c) (s : (Site n → ℕ) × ℕ) :
    Progress lay s (relabelSite lay old useOld s c) := by
  unfold relabelSite
  split
  · exact foldl_progress lay _ _ (fun s b _ => relabelDir_progress lay old useOld c hc _ s b) s
  · exact Progress.refl lay s

theorem relabelLoop_progress (lay : Layout n) (order : List (Site n))
    (ho : ∀ c ∈ order, lay.InLattice c) (useOld : Site n → Dir n → Bool) (s : (Site n → ℕ) × ℕ) :
    Progress lay s (relabelLoop lay order useOld s) :=
  foldl_progress lay _ _ (fun t b hb => relabelSite_progress lay s.1 useOld b (ho b hb) t) s

/-- If a loop changed nothing, no site of it has a neighbour of its type with a smaller label. -/
theorem relabelLoop_quiet (lay : Layout n) (order : List (Site n))
    (ho : ∀ c ∈ order, lay.InLattice c) (useOld : Site n → Dir n → Bool) (s : (Site n → ℕ) × ℕ)
    (hq : (relabelLoop lay order useOld s).2 = s.2) (c : Site n) (hc : c ∈ order)
    (hbg : clLabelType (s.1 c) ≠ clBackground) (d : Dir n)
    (ht : clLabelType (s.1 c) = clLabelType (s.1 (lay.neighbour c d))) :
    s.1 c ≤ s.1 (lay.neighbour c d) := by
  have h1 := foldl_quiet lay _ _ (fun t b hb => relabelSite_progress lay s.1 useOld b (ho b hb) t) s
    hq c hc
  unfold relabelSite at h1
  rw [if_pos hbg] at h1
  have h2 := foldl_quiet lay _ _
    (fun t b _ => relabelDir_progress lay s.1 useOld c (ho c hc) _ t b) s (by rw [h1]) d
    (List.mem_finRange d)
  unfold relabelDir at h2
  dsimp only at h2
  have hr : readLabel lay s.1 s.1 useOld c d = s.1 (lay.neighbour c d) := by
    unfold readLabel; split <;> rfl
  rw [hr] at h2
  by_contra hlt
  rw [if_pos ⟨ht, by omega⟩] at h2
  have := congrArg Prod.snd h2
  simp at this

/-! ### The passes -/

/-- The schedule of a pass covers exactly the even and the odd sites of the lattice. -/
def RelabelSchedule.Ok (lay : Layout n) (sch : RelabelSchedule n) : Prop :=
  (∀ c, c ∈ sch.evenOrder ↔ lay.InLattice c ∧ c.parity = .even) ∧
    ∀ c, c ∈ sch.oddOrder ↔ lay.InLattice c ∧ c.parity = .odd

theorem relabelPass_progress {lay : Layout n} {sch : RelabelSchedule n} (ho : sch.Ok lay)
    (labels : Site n → ℕ) : Progress lay (labels, 0) (relabelPass lay sch labels) :=
  (relabelLoop_progress lay _ (fun c hc => ((ho.1 c).1 hc).1) _ _).trans
    (relabelLoop_progress lay _ (fun c hc => ((ho.2 c).1 hc).1) _ _)

theorem relabelPass_quiet {lay : Layout n} {sch : RelabelSchedule n} (ho : sch.Ok lay)
    (labels : Site n → ℕ) (hq : (relabelPass lay sch labels).2 = 0) :
    (relabelPass lay sch labels).1 = labels ∧
    ∀ c, lay.InLattice c → clLabelType (labels c) ≠ clBackground → ∀ d,
      clLabelType (labels c) = clLabelType (labels (lay.neighbour c d)) →
      labels c ≤ labels (lay.neighbour c d) := by
  have p1 := relabelLoop_progress lay sch.evenOrder (fun c hc => ((ho.1 c).1 hc).1) sch.evenOld
    (labels, 0)
  have p2 := relabelLoop_progress lay sch.oddOrder (fun c hc => ((ho.2 c).1 hc).1) sch.oddOld
    (relabelLoop lay sch.evenOrder sch.evenOld (labels, 0))
  have hz : (relabelLoop lay sch.evenOrder sch.evenOld (labels, 0)).2 = 0 := by
    have := p1.le; have := p2.le
    unfold relabelPass at hq
    omega
  have e1 : relabelLoop lay sch.evenOrder sch.evenOld (labels, 0) = (labels, 0) := p1.eq_of hz
  have e2 : relabelPass lay sch labels = (labels, 0) :=
    (relabelPass_progress ho labels).eq_of hq
  refine ⟨by rw [e2], ?_⟩
  intro c hc hbg d ht
  rcases Site.parity_cases c with hp | hp
  · exact relabelLoop_quiet lay sch.evenOrder (fun c hc => ((ho.1 c).1 hc).1) sch.evenOld (labels, 0)
      hz c ((ho.1 c).2 ⟨hc, hp⟩) hbg d ht
  · refine relabelLoop_quiet lay sch.oddOrder (fun c hc => ((ho.2 c).1 hc).1) sch.oddOld (labels, 0)
      ?_ c ((ho.2 c).2 ⟨hc, hp⟩) hbg d ht
    unfold relabelPass at hq
    rw [e1] at hq; exact hq

theorem relabelIter_inv {lay : Layout n} (hw : lay.WF) {type init : Site n → ℕ}
    (hinit : ∀ c, lay.InLattice c → clLabelType (init c) = type c)
    {sch : ℕ → RelabelSchedule n} (ho : ∀ k, (sch k).Ok lay) (k : ℕ) :
    LabelInv lay type init (relabelIter lay sch init k) := by
  induction k with
  | zero => exact fun c _ => ⟨⟨c, .refl, rfl⟩, le_refl _⟩
  | succ k ih =>
    exact relabelLoop_inv hw hinit _ (fun c hc => (((ho k).2 c).1 hc).1) _ _
      (relabelLoop_inv hw hinit _ (fun c hc => (((ho k).1 c).1 hc).1) _ _ ih)

/-- If no site has a smaller neighbour of its type, labels are equal on components. -/
theorem conn_label_eq {lay : Layout n} (hw : lay.WF) {type cur : Site n → ℕ}
    (ht : ∀ c, lay.InLattice c → clLabelType (cur c) = type c)
    (hq : ∀ c, lay.InLattice c → clLabelType (cur c) ≠ clBackground → ∀ d,
      clLabelType (cur c) = clLabelType (cur (lay.neighbour c d)) → cur c ≤ cur (lay.neighbour c d))
    {a b : Site n} (ha : lay.InLattice a) (hbg : type a ≠ clBackground) (h : Conn lay type a b) :
    cur a = cur b := by
  induction h with
  | refl => rfl
  | @tail b c h1 h2 ih =>
    have hb := Conn.inLattice hw h1 ha
    have hbt : type b ≠ clBackground := by rw [← Conn.type_eq h1]; exact hbg
    obtain ⟨⟨d, rfl⟩, h3⟩ := h2
    have hn := neighbour_inLattice lay hw b hb d
    have l1 := hq b hb (by rw [ht b hb]; exact hbt) d (by rw [ht b hb, ht _ hn, h3])
    have l2 := hq _ hn (by rw [ht _ hn, ← h3]; exact hbt) (oppDir d)
      (by rw [neighbour_back lay hw b hb, ht b hb, ht _ hn, h3])
    rw [neighbour_back lay hw b hb] at l2
    rw [ih]; omega

end Hila
