import Verif.Lemmas.GpuInv

/-!
# Giving blocks back
-/

namespace Hila

open Function

theorem sum_erase (f : ℕ → ℕ) {l : List ℕ} {p : ℕ} (hp : p ∈ l) : (l.map f).sum = f p + ((l.erase p).map f).sum := by
  have := ((List.perm_cons_erase hp).map f).sum_eq
  simpa using this

/-- A block leaves the list of used blocks. -/
theorem gpUnuse_rep {s : GPool} {M F I W : List ℕ} {areas : List (ℕ × ℕ)} {Z : ℕ × ℕ} {f : ℕ} (h : GRep s M F I W areas none Z) (hf : f ∈ I) :
    GRep { s with next := (gpRemove s.next s.prev s.useHead f).1, prev := (gpRemove s.next s.prev s.useHead f).2.1
                  useHead := (gpRemove s.next s.prev s.useHead f).2.2, used := s.used - s.size f } M F (I.erase f) W areas (some f) Z where
  mem := h.mem
  fre := h.fre.congr fun _ ha => gpRemove_other h.use h.ndI hf fun e => h.notF e ha
  use := h.use.erase h.ndI hf
  unu := h.unu
  nd := h.nd
  lt := h.lt
  ndF := h.ndF
  ndI := h.ndI.erase _
  flagF := h.flagF
  flagI := fun b => by
    rw [h.ndI.mem_erase_iff, h.flagI]
    have : (some f ≠ some b) ↔ b ≠ f := by
      rw [ne_eq, Option.some.injEq]
      exact ⟨fun h e => h e.symm, fun h e => h e.symm⟩
    rw [this]
    simp only [ne_eq, reduceCtorEq, not_false_eq_true, and_true]
    tauto
  pos := h.pos
  ne := h.ne
  tile := h.tile
  len := h.len
  sum := by
    show s.used - s.size f = _
    rw [h.sum, sum_erase s.size hf]
    exact Nat.add_sub_cancel_left _ _

/-- The block becomes free. -/
theorem gpMarkFree_rep {s : GPool} {M F I W : List ℕ} {areas : List (ℕ × ℕ)} {Z : ℕ × ℕ} {f : ℕ} (h : GRep s M F I W areas (some f) Z) (hf : f ∈ M)
    (h1 : s.isFree f = false) (h2 : s.size f ≠ 0) : GRep (gpMarkFree s f) M (f :: F) I W areas none Z := by
  have hfI : f ∉ I := fun e => ((h.flagI f).1 e).2.2.2 rfl
  have hfF : f ∉ F := fun e => by
    have := ((h.flagF f).1 e).2
    rw [h1] at this
    exact absurd this (by simp)
  exact {
    mem := h.mem
    fre := h.fre.insert h.ndF hfF
    use := h.use.congr fun a ha => gpInsert_other h.fre (fun e => hfI (e ▸ ha)) (h.notF ha)
    unu := h.unu
    nd := h.nd
    lt := h.lt
    ndF := List.nodup_cons.2 ⟨hfF, h.ndF⟩
    ndI := h.ndI
    flagF := fun b => by
      rw [List.mem_cons, h.flagF]
      by_cases e : b = f
      · simp [e, gpMarkFree, hf]
      · simp [e, gpMarkFree]
    flagI := fun b => by
      rw [h.flagI]
      by_cases e : b = f
      · simp [e, gpMarkFree]
      · simp [e, gpMarkFree, Ne.symm e]
    pos := fun b hb hbf => by
      by_cases e : b = f
      · rw [e]; exact h2
      · exact h.pos b hb (by simpa [gpMarkFree, e] using hbf)
    ne := h.ne
    tile := h.tile
    len := by
      show s.freeLen + 1 = _
      rw [h.len, List.length_cons]
    sum := h.sum }

/-- What `gpUnfree` does if the block is free. -/
theorem unfree_list {s : GPool} {M F I W : List ℕ} {areas : List (ℕ × ℕ)} {X : Option ℕ} {Z : ℕ × ℕ} (h : GRep s M F I W areas X Z) (t : GPool) {p : ℕ}
    (hn : t.next = s.next) (hp : t.prev = s.prev) (hh : t.freeHead = s.freeHead) (hu : t.useHead = s.useHead) (hl : t.freeLen = s.freeLen)
    (hfr : t.isFree = s.isFree) (hpM : p ∈ M) :
    DList (if t.isFree p then gpUnfree t p else t).next (if t.isFree p then gpUnfree t p else t).prev (if t.isFree p then gpUnfree t p else t).freeHead (F.erase p) ∧
    DList (if t.isFree p then gpUnfree t p else t).next (if t.isFree p then gpUnfree t p else t).prev t.useHead I ∧
    (if t.isFree p then gpUnfree t p else t).freeLen = (F.erase p).length := by
  cases e : s.isFree p with
  | true =>
    have hpF : p ∈ F := (h.flagF p).2 ⟨hpM, e⟩
    rw [hfr, if_pos e]
    unfold gpUnfree
    simp only [hn, hp, hh, hu, hl]
    refine ⟨h.fre.erase h.ndF hpF, h.use.congr fun a ha => gpRemove_other h.fre h.ndF hpF (h.notF ha), ?_⟩
    rw [List.length_erase_of_mem hpF, h.len]
  | false =>
    have hpF : p ∉ F := fun e' => by
      have := ((h.flagF p).1 e').2
      rw [e] at this
      exact absurd this (by simp)
    rw [hfr, e, if_neg (by simp)]
    simp only [hn, hp, hh, hu, hl, List.erase_of_not_mem hpF]
    exact ⟨h.fre, h.use, h.len⟩

theorem unfree_same (t : GPool) (p : ℕ) :
    (if t.isFree p then gpUnfree t p else t) = { t with
      next := (if t.isFree p then gpUnfree t p else t).next, prev := (if t.isFree p then gpUnfree t p else t).prev
      freeHead := (if t.isFree p then gpUnfree t p else t).freeHead, freeLen := (if t.isFree p then gpUnfree t p else t).freeLen } := by
  by_cases e : t.isFree p
  · simp only [if_pos e]
    rfl
  · simp only [if_neg e]

/-- A block is joined to the free block below. -/
theorem gpMergeDown_rep {s : GPool} {M1 M2 F I W : List ℕ} {areas : List (ℕ × ℕ)} {X : Option ℕ} {Z : ℕ × ℕ} {d p : ℕ}
    (h : GRep s (M1 ++ d :: p :: M2) F I W areas X Z) (hd : s.isFree d = true) (hp : s.size p ≠ 0)
    (hX : (s.isFree p = true ∧ X = none) ∨ (s.isFree p = false ∧ X = some p)) :
    ∃ s', gpMergeDown s p = some s' ∧ GRep s' (M1 ++ d :: M2) (F.erase p) I (p :: W) areas none Z ∧ s'.ptr = s.ptr ∧
      s'.size = update s.size d (s.size d + s.size p) ∧ s'.isFree = s.isFree ∧ s'.slabs = s.slabs ∧ s'.total = s.total ∧ s'.started = s.started := by
  have eM : M1 ++ d :: p :: M2 = (M1 ++ [d]) ++ p :: M2 := by simp
  have hndM := h.ndM
  have hmem := h.mem
  rw [eM] at hndM hmem
  have hn2 := List.nodup_append.1 hndM
  have hp2 : p ∉ M2 := (List.nodup_cons.1 hn2.2.1).1
  have hdp : d ≠ p := hn2.2.2 d (by simp) p (by simp)
  obtain ⟨hup, hdown⟩ := hmem.at
  simp only [List.getLast?_append, List.getLast?_singleton, Option.or] at hdown
  have hself : s.up p ≠ some p := by
    rw [hup]
    exact fun e => hp2 (List.mem_of_mem_head? e)
  have hrem := hmem.remove hndM
  rw [gpRemove_eq _ _ _ _ hself, hdown] at hrem
  simp only [] at hrem
  have hpM : p ∈ M1 ++ d :: p :: M2 := by simp
  have hdM : d ∈ M1 ++ d :: p :: M2 := by simp
  have hpI : p ∉ I := fun e => by
    rcases hX with h1 | h1
    · exact h.notF e ((h.flagF p).2 ⟨hpM, h1.1⟩)
    · exact ((h.flagI p).1 e).2.2.2 h1.2
  have hdI : d ∉ I := fun e => h.notF e ((h.flagF d).2 ⟨hdM, hd⟩)
  have hsub : ∀ a, a ∈ M1 ++ d :: M2 ↔ a ∈ M1 ++ d :: p :: M2 ∧ a ≠ p := by
    intro a
    have h1 : p ∉ M1 := fun e => hn2.2.2 p (by simp [e]) p (by simp) rfl
    simp only [List.mem_append, List.mem_cons]
    constructor
    · rintro (h3 | rfl | h3)
      · exact ⟨Or.inl h3, fun e => h1 (e ▸ h3)⟩
      · exact ⟨Or.inr (Or.inl rfl), hdp⟩
      · exact ⟨Or.inr (Or.inr (Or.inr h3)), fun e => hp2 (e ▸ h3)⟩
    · rintro ⟨h3 | h3 | h3 | h3, h4⟩
      · exact Or.inl h3
      · exact Or.inr (Or.inl h3)
      · exact absurd h3 h4
      · exact Or.inr (Or.inr h3)
  let t : GPool := { s with size := update s.size d (s.size d + s.size p), up := update s.up d (s.up p), down := gpSet s.down (s.up p) (some d) }
  have hrun : gpMergeDown s p = some (gpRelease (if t.isFree p then gpUnfree t p else t) p) := by
    unfold gpMergeDown
    rw [hdown]
    simp only [Option.map_some, update_of_ne hdp.symm]
    rfl
  obtain ⟨l1, l2, l3⟩ := unfree_list h t rfl rfl rfl rfl rfl rfl hpM
  rw [hrun, unfree_same]
  refine ⟨_, rfl, ?_, rfl, rfl, rfl, rfl, rfl, rfl⟩
  exact {
    mem := by
      have e : (M1 ++ [d]) ++ M2 = M1 ++ d :: M2 := by simp
      rw [e] at hrem
      refine hrem.congr fun a ha => ⟨?_, rfl⟩
      have := ((hsub a).1 ha).2
      show gpSet s.up (some d) (s.up p) a = update (update s.up d (s.up p)) p s.unused a
      rw [update_of_ne this]
      rfl
    fre := l1
    use := l2
    unu := by
      refine ⟨rfl, ?_⟩
      show SList (update (update s.up d (s.up p)) p s.unused) (update (update s.up d (s.up p)) p s.unused p) W
      rw [update_self]
      refine h.unu.congr fun a ha => ?_
      have n1 : a ≠ d := fun e => (List.nodup_append.1 h.nd).2.2 d hdM a ha e.symm
      have n2 : a ≠ p := fun e => (List.nodup_append.1 h.nd).2.2 p hpM a ha e.symm
      rw [update_of_ne n2, update_of_ne n1]
    nd := by
      have h1 : (M1 ++ d :: p :: M2) ++ W = (M1 ++ [d]) ++ p :: (M2 ++ W) := by simp
      have h2 : (M1 ++ d :: M2) ++ p :: W = (M1 ++ d :: M2) ++ p :: W := rfl
      have h3 := h.nd
      rw [h1] at h3
      refine (List.Perm.nodup_iff ?_).1 h3
      refine List.perm_middle.trans (List.Perm.trans ?_ List.perm_middle.symm)
      simp
    lt := fun b hb => h.lt b (by
      simp only [List.mem_append, List.mem_cons] at hb ⊢
      tauto)
    ndF := h.ndF.erase _
    ndI := h.ndI
    flagF := fun b => by
      rw [h.ndF.mem_erase_iff, h.flagF, hsub]
      show _ ↔ (_ ∧ _) ∧ s.isFree b = true
      tauto
    flagI := fun b => by
      rw [hsub]
      show b ∈ I ↔ (_ ∧ _) ∧ s.isFree b = false ∧ update s.size d (s.size d + s.size p) b ≠ 0 ∧ _
      by_cases e : b = d
      · subst e
        simp [hdI, hd]
      · by_cases e' : b = p
        · subst e'
          simp [hpI]
        · rw [h.flagI, update_of_ne e]
          rcases hX with h1 | h1
          · simp [h1.2, e']
          · simp [h1.2, e', Ne.symm e']
    pos := fun b hb hbf => by
      show update s.size d (s.size d + s.size p) b ≠ 0
      by_cases e : b = d
      · rw [e, update_self]
        omega
      · rw [update_of_ne e]
        exact h.pos b ((hsub b).1 hb).1 hbf
    ne := by simp
    tile := by
      obtain ⟨x, n, rr, h1, h2⟩ := h.tile
      exact ⟨x, n, rr, h1, (tileRun_merge h2 (h.pos d hdM hd) hp h.ndM).1⟩
    len := l3
    sum := by
      show s.used = (I.map (update s.size d (s.size d + s.size p))).sum
      rw [h.sum]
      congr 1
      refine List.map_congr_left fun a ha => ?_
      rw [update_of_ne (fun e : a = d => hdI (e ▸ ha))] }

/-- A block is joined to the free block above. -/
theorem gpMergeUp_rep {s : GPool} {M1 M2 F I W : List ℕ} {areas : List (ℕ × ℕ)} {Z : ℕ × ℕ} {f u : ℕ}
    (h : GRep s (M1 ++ f :: u :: M2) F I W areas (some f) Z) (hu : s.isFree u = true) (hf : s.size f ≠ 0) (hff : s.isFree f = false) :
    ∃ s', gpMergeUp s f = some s' ∧ GRep s' (M1 ++ u :: M2) F I (f :: W) areas none Z ∧ s'.ptr = update s.ptr u (s.ptr f) ∧
      s'.size = update s.size u (s.size u + s.size f) ∧ s'.isFree = s.isFree ∧ s'.slabs = s.slabs ∧ s'.total = s.total ∧ s'.started = s.started := by
  have hn2 := List.nodup_append.1 h.ndM
  have hn3 := List.nodup_cons.1 hn2.2.1
  have hfu : f ≠ u := fun e => hn3.1 (by simp [e])
  have hf1 : f ∉ M1 := fun e => hn2.2.2 f e f (by simp) rfl
  have hu1 : u ∉ M1 := fun e => hn2.2.2 u e u (by simp) rfl
  obtain ⟨hup, hdown⟩ := h.mem.at
  simp only [List.head?_cons] at hup
  have hrem := h.mem.remove h.ndM
  rw [gpRemove_eq _ _ _ _ (by rw [hup]; simpa using hfu.symm), hup] at hrem
  simp only [] at hrem
  have hfM : f ∈ M1 ++ f :: u :: M2 := by simp
  have huM : u ∈ M1 ++ f :: u :: M2 := by simp
  have hfI : f ∉ I := fun e => ((h.flagI f).1 e).2.2.2 rfl
  have huI : u ∉ I := fun e => h.notF e ((h.flagF u).2 ⟨huM, hu⟩)
  have hfF : f ∉ F := fun e => by
    have := ((h.flagF f).1 e).2
    rw [hff] at this
    exact absurd this (by simp)
  have hsub : ∀ a, a ∈ M1 ++ u :: M2 ↔ a ∈ M1 ++ f :: u :: M2 ∧ a ≠ f := by
    intro a
    simp only [List.mem_cons] at hn3
    simp only [List.mem_append, List.mem_cons]
    constructor
    · rintro (h3 | rfl | h3)
      · exact ⟨Or.inl h3, fun e => hf1 (e ▸ h3)⟩
      · exact ⟨Or.inr (Or.inr (Or.inl rfl)), hfu.symm⟩
      · exact ⟨Or.inr (Or.inr (Or.inr h3)), fun e => hn3.1 (Or.inr (e ▸ h3))⟩
    · rintro ⟨h3 | h3 | h3 | h3, h4⟩
      · exact Or.inl h3
      · exact absurd h3 h4
      · exact Or.inr (Or.inl h3)
      · exact Or.inr (Or.inr h3)
  have hrun : gpMergeUp s f = some (gpRelease { s with
      size := update s.size u (s.size u + s.size f), ptr := update s.ptr u (s.ptr f), down := update s.down u (s.down f)
      up := gpSet s.up (s.down f) (some u), memory := match s.down f with | some _ => s.memory | none => some u } f) := by
    unfold gpMergeUp
    rw [hup]
    simp only [Option.map_some, update_of_ne hfu]
    cases e : s.down f with
    | none => simp [hff, gpSet]
    | some q => simp [hff, gpSet]
  rw [hrun]
  refine ⟨_, rfl, ?_, rfl, rfl, rfl, rfl, rfl, rfl⟩
  have hset : ∀ a, a ∉ M1 → gpSet s.up (s.down f) (some u) a = s.up a := by
    intro a ha
    rw [hdown]
    unfold gpSet
    cases e : M1.getLast? with
    | none => rfl
    | some q =>
      have hq := List.mem_of_getLast? e
      simp only []
      rw [update_of_ne]
      rintro rfl
      exact ha hq
  exact {
    mem := hrem.congr fun a ha => by
      have := ((hsub a).1 ha).2
      refine ⟨?_, rfl⟩
      show gpSet s.up (s.down f) (some u) a = update (gpSet s.up (s.down f) (some u)) f s.unused a
      rw [update_of_ne this]
    fre := h.fre
    use := h.use
    unu := by
      refine ⟨rfl, ?_⟩
      show SList (update (gpSet s.up (s.down f) (some u)) f s.unused) (update (gpSet s.up (s.down f) (some u)) f s.unused f) W
      rw [update_self]
      refine h.unu.congr fun a ha => ?_
      have hd := (List.nodup_append.1 h.nd).2.2
      have n2 : a ≠ f := fun e => hd f hfM a ha e.symm
      rw [update_of_ne n2, hset]
      intro e
      exact hd a (by simp [e]) a ha rfl
    nd := by
      have h3 := h.nd
      have h1 : (M1 ++ f :: u :: M2) ++ W = M1 ++ f :: (u :: M2 ++ W) := by simp
      rw [h1] at h3
      refine (List.Perm.nodup_iff ?_).1 h3
      refine List.perm_middle.trans (List.Perm.trans ?_ List.perm_middle.symm)
      simp
    lt := fun b hb => h.lt b (by
      simp only [List.mem_append, List.mem_cons] at hb ⊢
      tauto)
    ndF := h.ndF
    ndI := h.ndI
    flagF := fun b => by
      rw [hsub]
      show _ ↔ (_ ∧ _) ∧ s.isFree b = true
      rw [h.flagF]
      by_cases e : b = f
      · subst e
        simp [hff]
      · simp [e]
    flagI := fun b => by
      rw [hsub]
      show b ∈ I ↔ (_ ∧ _) ∧ s.isFree b = false ∧ update s.size u (s.size u + s.size f) b ≠ 0 ∧ _
      by_cases e : b = u
      · subst e
        simp [huI, hu]
      · by_cases e' : b = f
        · subst e'
          simp [hfI]
        · rw [h.flagI, update_of_ne e]
          simp [e', Ne.symm e']
    pos := fun b hb hbf => by
      show update s.size u (s.size u + s.size f) b ≠ 0
      by_cases e : b = u
      · rw [e, update_self]
        omega
      · rw [update_of_ne e]
        exact h.pos b ((hsub b).1 hb).1 hbf
    ne := by simp
    tile := by
      obtain ⟨x, n, rr, h1, h2⟩ := h.tile
      exact ⟨x, n, rr, h1, (tileRun_merge h2 hf (h.pos u huM hu) h.ndM).2⟩
    len := h.len
    sum := by
      show s.used = (I.map (update s.size u (s.size u + s.size f))).sum
      rw [h.sum]
      congr 1
      refine List.map_congr_left fun a ha => ?_
      rw [update_of_ne (fun e : a = u => huI (e ▸ ha))] }

end Hila
